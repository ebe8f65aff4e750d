import Verif.Lemmas.GpsrPaths

/-! # Lemmas about the repeated-parameter path and the JVP of the parameter-shift rule -/

namespace Verif
set_option autoImplicit false
open NDArray
variable {n : ℕ} {so : SetOrder} {values : Values} {gs : List Gate} {nss : List (List StdNoise)} {st : State}
  {obs : List Observable} {Os : List (Matrix (Lab n) (Lab n) ℂ)}

/-! ## Dictionaries as arrays -/

theorem lookup_of_mem {values : Values} (hn : (values.map Prod.fst).Nodup) {k : String} {v : PyVal}
    (h : (k, v) ∈ values) : values.lookup k = some v := by
  induction values with
  | nil => cases h
  | cons e values ih =>
    obtain ⟨k', w⟩ := e
    rw [List.map_cons, List.nodup_cons] at hn
    by_cases hk : k = k'
    · subst hk
      rcases List.mem_cons.1 h with h | h
      · cases h; simp [List.lookup]
      · exact absurd (List.mem_map.2 ⟨_, h, rfl⟩) hn.1
    · have : (k == k') = false := by simpa using hk
      simp only [List.lookup, this]
      refine ih hn.2 ((List.mem_cons.1 h).resolve_left ?_)
      rintro ⟨⟩; exact hk rfl

theorem Values.Numeric.entry (h : values.Numeric) {e : String × PyVal} (he : e ∈ values) :
    e = (e.1, .num (values.real e.1)) := by
  obtain ⟨k, v⟩ := e
  obtain ⟨x, hx⟩ := h.num _ he
  simp only at hx
  subst hx
  have := lookup_of_mem h.nodup he
  simp only [Values.real, this]

theorem Values.Numeric.eq_zip (h : values.Numeric) : values = values.keys.map fun p => (p, .num (values.real p)) := by
  rw [Values.keys, List.map_map]
  conv_lhs => rw [← List.map_id values]
  exact List.map_congr_left fun e he => h.entry he

theorem stackValues_eq (h : values.Numeric) (hne : values ≠ []) : stackValues values = .ok (values.keys.map values.real) := by
  rw [stackValues, if_neg hne]
  refine (mapM_ok_map (g := fun e => values.real e.1) fun e he => ?_).trans (by rw [Values.keys, List.map_map]; rfl)
  rw [h.entry he]

theorem shiftAt_eq (h : values.Numeric) {i : ℕ} (hi : i < values.keys.length) (δ : ℝ) :
    shiftAt values.keys (values.keys.map values.real) i δ
      = values.upd values.keys[i] (values.real values.keys[i] + δ) := by
  refine List.ext_getElem (by simp [shiftAt, Values.upd, Values.keys]) fun j h1 h2 => ?_
  have hj : j < values.length := by simpa [Values.upd] using h2
  have hj' : j < values.keys.length := by simpa [Values.keys] using hj
  simp only [shiftAt, Values.upd, List.getElem_map, List.getElem_zip, List.getElem_mapIdx]
  have e := h.entry (List.getElem_mem hj)
  have ek : values.keys[j] = values[j].1 := by simp [Values.keys]
  by_cases hij : j = i
  · subst hij
    rw [if_pos rfl, if_pos ek.symm]
  · rw [if_neg hij, if_neg, ek, ← e]
    rw [← ek]
    intro hc
    exact hij ((List.Nodup.getElem_inj_iff h.nodup).1 hc)

theorem Setting.row (h : Setting so n values gs nss st obs Os) (hs : SingleUse gs) {F : GateArg → Values → Py (List ℝ)}
    (hF : ∀ gs' v', Variant n gs gs' v' → F (.list gs') v' = gatesExpectation so st obs (.list gs') v')
    {i : ℕ} (hi : i < values.keys.length) :
    jvpRow F (.list gs) values.keys (values.keys.map values.real) initialGap i
      = .ok (gradOf n values gs nss st Os values.keys[i]) := by
  have hx := h.numeric.real (List.getElem_mem hi)
  rw [← h.component hs (F := F) (List.getElem_mem hi) fun x => hF _ _ (h.variant_upd _ x)]
  simp only [jvpRow, jvpComponent, shiftAt_eq h.numeric hi, Values.shiftKey_eq hx, bind, Except.bind]

theorem mapM_range {α β : Type} (l : List α) {f : ℕ → Py β} {g : α → β}
    (h : ∀ i (hi : i < l.length), f i = .ok (g l[i])) : (List.range l.length).mapM f = .ok (l.map g) := by
  refine mapM_forall₂ (List.forall₂_iff_get.2 ⟨by simp, fun i h1 h2 => ?_⟩)
  have := h i h2
  simpa using this

theorem contract_map (m : ℕ) (keys : List String) (D : String → List ℝ) (ts : List ℝ) :
    contract m (keys.map D) ts = List.ofFn fun i : Fin m => (List.zipWith (fun p t => (D p).getD i 0 * t) keys ts).sum := by
  simp only [contract, List.zipWith_map_left]

theorem BaseSetting.eval_self (h : BaseSetting so n values gs nss st obs Os) :
    gatesExpectation so st obs (.list gs) values
      = .ok (Os.map fun O => expVal O (noisyRun n .unitary values (gs.zip nss) (st.mat n))) :=
  gatesExpectation_eq so h.ne (fun g hg => (h.std g hg).choose_spec.ok) h.noise h.on h.obs_ne h.fixed

theorem Setting.jvp_single (h : Setting so n values gs nss st obs Os) (hs : SingleUse gs) (hk : values ≠ []) (eigh : Eigh)
    (fresh : ℕ → String) (ts : List ℝ) {F : GateArg → Values → Py (List ℝ)}
    (hF : ∀ gs' v', Variant n gs gs' v' → F (.list gs') v' = gatesExpectation so st obs (.list gs') v') :
    ∃ fwd, gatesExpectation so st obs (.list gs) values = .ok fwd ∧
      gpsrJvp eigh fresh F (.list gs) values ts
        = .ok (fwd, List.ofFn fun i : Fin fwd.length =>
          (List.zipWith (fun p t => (gradOf n values gs nss st Os p).getD i 0 * t) values.keys ts).sum) := by
  refine ⟨_, h.eval_self, ?_⟩
  have hle := extractGateNames_le h.toBaseSetting hs
  have hscan : jvpScan F (.list gs) values.keys (values.keys.map values.real)
      (values.keys.map fun _ => initialGap) = .ok (values.keys.map (gradOf n values gs nss st Os)) := by
    refine mapM_range _ fun i hi => ?_
    rw [← h.row hs hF hi]
    congr 1
    simp [List.getD_eq_getElem?_getD, hi]
  rw [gpsrJvp, hF _ _ h.variant_self, h.eval_self]
  simp only [bind, Except.bind, if_neg (not_lt.2 hle), stackValues_eq h.numeric hk, hscan, contract_map]
  rfl

/-! ## Path for repeated parameters -/

theorem mem_paramIndices {p : String} {k : ℕ} :
    k ∈ paramIndices gs p ↔ ∃ hk : k < gs.length, gs[k].Uses p := by
  simp only [paramIndices, List.mem_filter, List.mem_range]
  constructor
  · rintro ⟨hk, h⟩
    rw [List.getElem?_eq_getElem hk] at h
    exact ⟨hk, (Gate.uses_iff _ _).2 (by simpa using h)⟩
  · rintro ⟨hk, h⟩
    refine ⟨hk, ?_⟩
    rw [List.getElem?_eq_getElem hk]
    simpa using (Gate.uses_iff _ _).1 h

theorem paramIndices_nodup (p : String) : (paramIndices gs p).Nodup := List.nodup_range.filter _

theorem sum_filter_list {M α : Type} [AddCommMonoid M] (l : List α) (q : α → Bool) (f : α → M)
    (h : ∀ a ∈ l, q a = false → f a = 0) : (l.map f).sum = ((l.filter q).map f).sum := by
  induction l with
  | nil => rfl
  | cons a l ih =>
    rw [List.filter_cons]
    have := ih fun b hb => h b (by simp [hb])
    split_ifs with hq
    · simp [this]
    · rw [List.map_cons, List.sum_cons, h a (by simp) (by simpa using hq), zero_add, this]

/-- The sum of the parameter-shift contributions over all steps is the sum over the gates with that parameter. -/
theorem BaseSetting.dRun_eq (h : BaseSetting so n values gs nss st obs Os) (p : String) (O : Matrix (Lab n) (Lab n) ℂ) :
    expVal O (dRun n values gs nss st p)
      = ((paramIndices gs p).map fun k => expVal O (shiftTerm (stepsOf n values p gs nss) (values.real p) (st.mat n) k)).sum := by
  rw [dRun, expVal_sum]
  rw [paramIndices, ← sum_filter_list]
  · rfl
  · intro k _ hk
    have h1 := h.rot p k
    rw [hk] at h1
    rw [shiftTerm, h1]
    exact expVal_zero O

/-- The shifted gate. -/
noncomputable def shifted (g : Gate) (δ : ℝ) : Gate :=
  match g.cls with
  | .parametric p s => { g with cls := .parametric p (s + δ) }
  | .phase p s => { g with cls := .parametric p (s + δ) }
  | _ => g

theorem alter_eq {k : ℕ} (hk : k < gs.length) {p : String} (hu : gs[k].Uses p) (δ : ℝ) :
    alterGateSequence gs k δ = .ok (gs.set k (shifted gs[k] δ)) := by
  have h1 : toShift gs[k] δ = .ok (shifted gs[k] δ) := by
    simp only [toShift, shifted]
    rw [Gate.Uses] at hu
    rcases hc : gs[k].cls with _ | ⟨q, s⟩ | ⟨q, s⟩ | s <;> simp only [hc] at hu ⊢
  rw [alterGateSequence, List.getElem?_eq_getElem hk]
  simp only [h1, bind, Except.bind, pure, Except.pure]
  rw [List.set_eq_take_append_cons_drop, if_pos hk, min_eq_left (by omega)]
  simp

theorem NamedRot.shifted {g : Gate} {p : String} {sh : ℝ} {R : ℝ → StdGate} (h : NamedRot g p sh R) (hr : g.Registered)
    (δ : ℝ) : NamedRot (shifted g δ) p (sh + δ) R := by
  cases h with
  | RX => exact .RX ..
  | RY => exact .RY ..
  | RZ => exact .RZ ..
  | PHASE => exact hr.elim

theorem shifted_same (g : Gate) (δ : ℝ) : SamePlace g (shifted g δ) := by
  obtain ⟨cls, _⟩ := g
  cases cls <;> exact ⟨rfl, rfl⟩

theorem shifted_control (g : Gate) (δ : ℝ) : (shifted g δ).control = g.control := by
  obtain ⟨cls, _⟩ := g
  cases cls <;> rfl

theorem shifted_registered {g : Gate} {p : String} (h : g.Registered) (hu : g.Uses p) (δ : ℝ) :
    (shifted g δ).Registered := by
  obtain ⟨cls, _⟩ := g
  cases cls with
  | phase => exact h.elim
  | hamEvo => exact hu.elim
  | _ => trivial

theorem Gate.ValidOn.of_same {g g' : Gate} (h : g.ValidOn n) (ht : g'.target = g.target) (hc : g'.control = g.control) :
    g'.ValidOn n := ⟨by rw [hc]; exact h.ctl, by rw [hc, ht]; exact h.dims⟩

theorem forall₂_set {α : Type} {R : α → α → Prop} (hR : ∀ a, R a a) (l : List α) {k : ℕ} (hk : k < l.length) {b : α}
    (hb : R l[k] b) : List.Forall₂ R l (l.set k b) := by
  refine List.forall₂_iff_get.2 ⟨by simp, fun i h1 h2 => ?_⟩
  simp only [List.get_eq_getElem, List.getElem_set]
  split_ifs with h
  · subst h; exact hb
  · exact hR _

theorem BaseSetting.variant_shifted (h : BaseSetting so n values gs nss st obs Os)
    (hr : ∀ g ∈ gs, (∃ p, g.Uses p) → g.Registered) {p : String} {k : ℕ} (hk : k < gs.length) (hu : gs[k].Uses p) (δ : ℝ) :
    Variant n gs (gs.set k (shifted gs[k] δ)) values := by
  refine ⟨forall₂_set (fun g => ⟨rfl, rfl⟩) gs hk (shifted_same _ _), fun g hg => ?_⟩
  obtain ⟨s, hs⟩ := h.std _ (List.getElem_mem hk)
  obtain ⟨sh, R, hR⟩ := hs.named hu
  have hx : values.lookup p = some (.num (values.real p)) := by
    obtain ⟨x, hx⟩ := hs.lookup hu
    rw [Values.real, hx]
  have hR' := hR.shifted (hr _ (List.getElem_mem hk) ⟨p, hu⟩) δ
  have hv' : (shifted gs[k] δ).ValidOn n := hs.valid.of_same (shifted_same _ _).1 (shifted_control _ _)
  obtain ⟨i, hi, rfl⟩ := List.mem_iff_getElem.1 hg
  rw [List.getElem_set]
  split_ifs with e
  · exact ⟨_, hR'.std hv' hx⟩
  · exact h.std _ (List.getElem_mem _)

/-- Evaluation with the gate at index `k` shifted. -/
theorem BaseSetting.eval_shifted (h : BaseSetting so n values gs nss st obs Os) (hr : ∀ g ∈ gs, (∃ p, g.Uses p) → g.Registered)
    {p : String} {k : ℕ} (hk : k < gs.length) (hu : gs[k].Uses p) (δ : ℝ) :
    gatesExpectation so st obs (.list (gs.set k (shifted gs[k] δ))) values
      = .ok (Os.map fun O => expVal O (matRun n (altAt (stepsOf n values p gs nss) (values.real p) k (values.real p + δ))
        (st.mat n))) := by
  obtain ⟨s, hs⟩ := h.std _ (List.getElem_mem hk)
  obtain ⟨sh, R, hR⟩ := hs.named hu
  have hx : values.lookup p = some (.num (values.real p)) := by
    obtain ⟨x, hx⟩ := hs.lookup hu
    rw [Values.real, hx]
  have hR' := hR.shifted (hr _ (List.getElem_mem hk) ⟨p, hu⟩) δ
  have hv' : (shifted gs[k] δ).ValidOn n := hs.valid.of_same (shifted_same _ _).1 (shifted_control _ _)
  have hself : ∀ g ∈ gs, g.mat n .unitary values = g.mat n .unitary (values.upd p (values.real p)) := by
    intro g hg
    obtain ⟨s, hs⟩ := h.std g hg
    rw [hs.mat, (hs.congr (values' := values.upd p (values.real p)) fun q hq => ?_).mat]
    rw [Values.lookup_set]
    split_ifs with e
    · subst e; rw [hx]; rfl
    · rfl
  refine h.eval_alt (forall₂_set (fun g => ⟨rfl, rfl⟩) gs hk (shifted_same _ _)) (fun g hg => ?_) p _ _ k
    fun j hj hj' => ?_
  · obtain ⟨i, hi, rfl⟩ := List.mem_iff_getElem.1 hg
    rw [List.getElem_set]
    split_ifs with e
    · exact (hR'.std hv' hx).ok
    · exact (h.std _ (List.getElem_mem _)).choose_spec.ok
  · rw [List.getElem_set]
    by_cases e : j = k
    · subst e
      rw [if_pos rfl, if_pos rfl, (hR'.std hv' hx).mat, (hR.std hs.valid (Values.lookup_set_self hx _)).mat]
      simp only [stdMat, (shifted_same gs[j] δ).1, shifted_control]
      rw [show values.real p + (sh + δ) = values.real p + δ + sh by ring]
    · rw [if_neg (Ne.symm e), if_neg e]
      exact hself _ (List.getElem_mem hj)

theorem NamedRot.gap (eigh : Eigh) {g : Gate} {p : String} {sh : ℝ} {R : ℝ → StdGate} (h : NamedRot g p sh R)
    (hr : g.Registered) (hc : isControlled g.control = false) : g.spectralGap eigh = .ok 2 := by
  cases h with
  | RX => exact spectralGap_pauli eigh (.inl rfl) hc
  | RY => exact spectralGap_pauli eigh (.inr (.inl rfl)) hc
  | RZ => exact spectralGap_pauli eigh (.inr (.inr rfl)) hc
  | PHASE => exact hr.elim

theorem shiftTerm_exp (h : BaseSetting so n values gs nss st obs Os) {p : String} {k : ℕ} (hk : k ∈ paramIndices gs p)
    (O : Matrix (Lab n) (Lab n) ℂ) :
    expVal O (shiftTerm (stepsOf n values p gs nss) (values.real p) (st.mat n) k)
      = (expVal O (matRun n (altAt (stepsOf n values p gs nss) (values.real p) k (values.real p + gpsrShift)) (st.mat n))
        - expVal O (matRun n (altAt (stepsOf n values p gs nss) (values.real p) k (values.real p + -gpsrShift)) (st.mat n))) / 2 := by
  have h1 := h.rot p k
  rw [show ((gs[k]?.bind Gate.paramName) == some p) = true from (List.mem_filter.1 hk).2] at h1
  rw [shiftTerm, h1, if_pos rfl, expVal_half, expVal_sub, gpsrShift, sub_eq_add_neg (values.real p)]

theorem Setting.shiftJvp_eq (h : Setting so n values gs nss st obs Os) (hr : ∀ g ∈ gs, g.Registered) (eigh : Eigh)
    (hc : ∀ g ∈ gs, ∀ p, g.Uses p → isControlled g.control = false)
    {F : GateArg → Values → Py (List ℝ)}
    (hF : ∀ gs' : List Gate, (∀ g ∈ gs', g.Registered) → Variant n gs gs' values →
      F (.list gs') values = gatesExpectation so st obs (.list gs') values)
    {p : String} {k : ℕ} (hk : k ∈ paramIndices gs p) :
    shiftJvp eigh F gs values k
      = .ok (Os.map fun O => expVal O (shiftTerm (stepsOf n values p gs nss) (values.real p) (st.mat n) k)) := by
  obtain ⟨hlt, hu⟩ := mem_paramIndices.1 hk
  have hmem := List.getElem_mem hlt
  obtain ⟨s, hs⟩ := h.std _ hmem
  obtain ⟨sh, R, hR⟩ := hs.named hu
  have hreg : ∀ δ, ∀ g ∈ gs.set k (shifted gs[k] δ), g.Registered := by
    intro δ g hg
    rcases List.mem_or_eq_of_mem_set hg with hg | rfl
    · exact hr g hg
    · exact shifted_registered (hr _ hmem) hu δ
  have hvar := fun δ => h.variant_shifted (fun g hg _ => hr g hg) hlt hu δ
  have hev := fun δ => h.eval_shifted (fun g hg _ => hr g hg) hlt hu δ
  rw [shiftJvp, List.getElem?_eq_getElem hlt]
  simp only [hR.gap eigh (hr _ hmem) (hc _ hmem p hu), alter_eq hlt hu, bind, Except.bind, hF _ (hreg _) (hvar _), hev]
  rw [gpsrRule_two, zipWith_map_self]
  congr 2
  funext O
  rw [shiftTerm_exp h.toBaseSetting hk]

theorem sumVecs_map {α β : Type} (l : List α) (hl : l ≠ []) (Os : List β) (f : α → β → ℝ) :
    sumVecs (l.map fun k => Os.map (f k)) = some (Os.map fun O => (l.map fun k => f k O).sum) := by
  have key : ∀ (l : List α) (acc : β → ℝ), (l.map fun k => Os.map (f k)).foldl (fun a b => List.zipWith (· + ·) a b) (Os.map acc)
      = Os.map fun O => acc O + (l.map fun k => f k O).sum := by
    intro l
    induction l with
    | nil => intro acc; simp
    | cons a l ih =>
      intro acc
      rw [List.map_cons, List.foldl_cons, zipWith_map_self, ih]
      refine List.map_congr_left fun O _ => ?_
      rw [List.map_cons, List.sum_cons, add_assoc]
  cases l with
  | nil => exact absurd rfl hl
  | cons a l =>
    rw [List.map_cons, sumVecs, key]
    simp

theorem Setting.repeated_eq (h : Setting so n values gs nss st obs Os) (hr : ∀ g ∈ gs, g.Registered) (eigh : Eigh)
    (hc : ∀ g ∈ gs, ∀ p, g.Uses p → isControlled g.control = false)
    {F : GateArg → Values → Py (List ℝ)}
    (hF : ∀ gs' : List Gate, (∀ g ∈ gs', g.Registered) → Variant n gs gs' values →
      F (.list gs') values = gatesExpectation so st obs (.list gs') values)
    {p : String} (hp : ∃ g ∈ gs, g.Uses p) :
    repeatedJvp eigh F gs values p = .ok (some (gradOf n values gs nss st Os p)) := by
  have hne : paramIndices gs p ≠ [] := by
    obtain ⟨g, hg, hu⟩ := hp
    obtain ⟨k, hk, rfl⟩ := List.mem_iff_getElem.1 hg
    exact List.ne_nil_of_mem (mem_paramIndices.2 ⟨hk, hu⟩)
  rw [repeatedJvp, mapM_ok_map fun k hk => h.shiftJvp_eq hr eigh hc hF hk]
  simp only [bind, Except.bind, pure, Except.pure]
  rw [sumVecs_map _ hne, gradOf]
  congr 3
  funext O
  rw [h.dRun_eq]

theorem singleUse_of_nodup (h : (extractGateNames gs).Nodup) : SingleUse gs := by
  induction gs with
  | nil => exact .nil
  | cons g gs ih =>
    rw [extractGateNames, List.filterMap_cons] at h
    refine List.pairwise_cons.2 ⟨fun g' hg' p hu hu' => ?_, ?_⟩
    · rw [(Gate.uses_iff _ _).1 hu] at h
      exact (List.nodup_cons.1 h).1 (List.mem_filterMap.2 ⟨g', hg', (Gate.uses_iff _ _).1 hu'⟩)
    · rcases hg : g.paramName with _ | p <;> rw [hg] at h
      · exact ih h
      · exact ih (List.nodup_cons.1 h).2

theorem BaseSetting.names_gt (h : BaseSetting so n values gs nss st obs Os) (hs : ¬ SingleUse gs)
    (hall : ∀ p ∈ values.keys, ∃ g ∈ gs, g.Uses p) : values.keys.length < (extractGateNames gs).length := by
  have hsub : values.keys.Subperm (extractGateNames gs) := by
    refine List.subperm_of_subset h.numeric.nodup fun p hp => ?_
    obtain ⟨g, hg, hu⟩ := hall p hp
    exact List.mem_filterMap.2 ⟨g, hg, (Gate.uses_iff _ _).1 hu⟩
  refine lt_of_le_of_ne hsub.length_le fun he => hs ?_
  exact singleUse_of_nodup ((hsub.perm_of_length_le he.ge).nodup_iff.1 h.numeric.nodup)

theorem BaseSetting.hasRepeated_eq (h : BaseSetting so n values gs nss st obs Os) (hs : ¬ SingleUse gs) :
    hasRepeated gs values.keys = .ok true := by
  rw [SingleUse, List.pairwise_iff_getElem] at hs
  push Not at hs
  obtain ⟨i, j, hi, hj, hij, p, hui, huj⟩ := hs
  obtain ⟨s, hstd⟩ := h.std _ (List.getElem_mem hi)
  obtain ⟨x, hx⟩ := hstd.lookup hui
  have hp := mem_keys_of_lookup hx
  rw [hasRepeated, if_neg (List.ne_nil_of_mem hp)]
  congr 1
  rw [List.any_eq_true]
  refine ⟨p, hp, decide_eq_true ?_⟩
  have h1 : i ∈ paramIndices gs p := mem_paramIndices.2 ⟨hi, hui⟩
  have h2 : j ∈ paramIndices gs p := mem_paramIndices.2 ⟨hj, huj⟩
  have hsub : [i, j].Subperm (paramIndices gs p) := by
    refine List.subperm_of_subset (by simp; omega) ?_
    simp [h1, h2]
  exact hsub.length_le

theorem BaseSetting.keys_ne (h : BaseSetting so n values gs nss st obs Os) (hs : ¬ SingleUse gs) : values.keys ≠ [] := by
  intro he
  have := h.hasRepeated_eq hs
  rw [hasRepeated, if_pos he] at this
  cases this

theorem Setting.bwd_repeated (h : Setting so n values gs nss st obs Os) (hs : ¬ SingleUse gs) (hr : ∀ g ∈ gs, g.Registered)
    (eigh : Eigh) (hc : ∀ g ∈ gs, ∀ p, g.Uses p → isControlled g.control = false)
    (hall : ∀ p ∈ values.keys, ∃ g ∈ gs, g.Uses p) {F : GateArg → Values → Py (List ℝ)}
    (hF : ∀ gs' : List Gate, (∀ g ∈ gs', g.Registered) → Variant n gs gs' values →
      F (.list gs') values = gatesExpectation so st obs (.list gs') values) :
    gpsrBwd eigh F (.list gs) values = .ok (values.keys.map fun p => (gradOf n values gs nss st Os p).sum) := by
  have hgt := h.names_gt hs hall
  rw [gpsrBwd]
  simp only [if_pos hgt, h.hasRepeated_eq hs, bind, Except.bind, if_true]
  rw [mapM_ok_map fun p hp => h.repeated_eq hr eigh hc hF (hall p hp)]
  exact stackSum_some _ (h.keys_ne hs) _

end Verif
