import Verif.Lemmas.GpsrJvp

/-! # Lemmas about the JVP with renamed parameters -/

namespace Verif
set_option autoImplicit false
open NDArray
variable {n : ℕ} {so : SetOrder} {values : Values} {gs : List Gate} {nss : List (List StdNoise)} {st : State}
  {obs : List Observable} {Os : List (Matrix (Lab n) (Lab n) ℂ)}

/-- `values_map`: the pairs of the index of a gate and its parameter name. -/
def valuesMap (gs : List Gate) (keys : List String) : List (ℕ × String) :=
  keys.flatMap fun p => (paramIndices gs p).map fun i => (i, p)

theorem mem_valuesMap {keys : List String} {e : ℕ × String} :
    e ∈ valuesMap gs keys ↔ e.2 ∈ keys ∧ e.1 ∈ paramIndices gs e.2 := by
  obtain ⟨k, p⟩ := e
  simp only [valuesMap, List.mem_flatMap, List.mem_map, Prod.mk.injEq]
  constructor
  · rintro ⟨q, hq, i, hi, rfl, rfl⟩; exact ⟨hq, hi⟩
  · rintro ⟨hq, hi⟩; exact ⟨p, hq, k, hi, rfl, rfl⟩

theorem valuesMap_nodup {keys : List String} (h : keys.Nodup) : ((valuesMap gs keys).map Prod.fst).Nodup := by
  rw [valuesMap, List.map_flatMap, List.nodup_flatMap]
  refine ⟨fun p _ => by simpa [Function.comp_def] using paramIndices_nodup p, h.imp fun {p q} hpq => ?_⟩
  simp only [Function.onFun, List.map_map, Function.comp_def, List.map_id']
  intro k hk hk'
  obtain ⟨hlt, hu⟩ := mem_paramIndices.1 hk
  obtain ⟨_, hu'⟩ := mem_paramIndices.1 hk'
  exact hpq (hu.unique hu')

theorem valuesMap_filter {keys : List String} (h : keys.Nodup) {p : String} (hp : p ∈ keys) :
    (valuesMap gs keys).filter (fun e => e.2 = p) = (paramIndices gs p).map fun i => (i, p) := by
  induction keys with
  | nil => cases hp
  | cons q keys ih =>
    rw [List.nodup_cons] at h
    have hcons : valuesMap gs (q :: keys) = (paramIndices gs q).map (fun i => (i, q)) ++ valuesMap gs keys := rfl
    rw [hcons, List.filter_append]
    by_cases hq : q = p
    · subst hq
      have h1 : ((paramIndices gs q).map fun i => (i, q)).filter (fun e => e.2 = q) = (paramIndices gs q).map fun i => (i, q) :=
        List.filter_eq_self.2 fun e he => by
          obtain ⟨i, _, rfl⟩ := List.mem_map.1 he; simp
      have h2 : (valuesMap gs keys).filter (fun e => e.2 = q) = [] :=
        List.filter_eq_nil_iff.2 fun e he => by
          have := (mem_valuesMap.1 he).1
          simp only [decide_eq_true_eq]
          rintro rfl; exact h.1 this
      rw [h1, h2, List.append_nil]
    · have h1 : ((paramIndices gs q).map fun i => (i, q)).filter (fun e => e.2 = p) = [] :=
        List.filter_eq_nil_iff.2 fun e he => by
          obtain ⟨i, _, rfl⟩ := List.mem_map.1 he; simpa using hq
      rw [h1, List.nil_append]
      exact ih h.2 ((List.mem_cons.1 hp).resolve_left (Ne.symm hq))

theorem stackValues_map {α : Type} (l : List α) (hl : l ≠ []) (f : α → String) (v : α → ℝ) :
    stackValues (l.map fun e => (f e, .num (v e))) = .ok (l.map v) := by
  rw [stackValues, if_neg (by simpa using hl), List.mapM_map]
  exact mapM_ok_map fun _ _ => rfl

/-- The dictionary with temporary names of a shifted evaluation. -/
noncomputable def tempValues (fresh : ℕ → String) (vm : List (ℕ × String)) (v : String → ℝ) (i : ℕ) (δ : ℝ) : Values :=
  vm.mapIdx fun j e => (fresh e.1, .num (if j = i then v e.2 + δ else v e.2))

theorem shiftAt_temp (fresh : ℕ → String) (vm : List (ℕ × String)) (v : String → ℝ) (i : ℕ) (δ : ℝ) :
    shiftAt (vm.map fun e => fresh e.1) (vm.map fun e => v e.2) i δ = tempValues fresh vm v i δ := by
  refine List.ext_getElem (by simp [shiftAt, tempValues]) fun j h1 h2 => ?_
  simp [shiftAt, tempValues]

theorem tempValues_lookup {fresh : ℕ → String} (hf : Function.Injective fresh) {vm : List (ℕ × String)}
    (hn : (vm.map Prod.fst).Nodup) (v : String → ℝ) (i : ℕ) (δ : ℝ) {m : ℕ} (hm : m < vm.length) :
    (tempValues fresh vm v i δ).lookup (fresh vm[m].1) = some (.num (if m = i then v vm[m].2 + δ else v vm[m].2)) := by
  refine lookup_of_mem ?_ ?_
  · have : (tempValues fresh vm v i δ).map Prod.fst = (vm.map Prod.fst).map fresh := by
      refine List.ext_getElem (by simp [tempValues]) fun j h1 h2 => ?_
      simp [tempValues]
    rw [this]
    exact hn.map hf
  · rw [tempValues, List.mem_mapIdx]
    exact ⟨m, hm, rfl⟩

theorem NamedRot.newNamed {g : Gate} {p : String} {sh : ℝ} {R : ℝ → StdGate} (h : NamedRot g p sh R) (hr : g.Registered)
    (q : String) : NamedRot (newNamed g q) q sh R := by
  cases h with
  | RX => exact .RX ..
  | RY => exact .RY ..
  | RZ => exact .RZ ..
  | PHASE => exact hr.elim

theorem newNamed_same (g : Gate) (q : String) : SamePlace g (newNamed g q) := by
  obtain ⟨cls, _⟩ := g
  cases cls <;> exact ⟨rfl, rfl⟩

theorem newNamed_control (g : Gate) (q : String) : (newNamed g q).control = g.control := by
  obtain ⟨cls, _⟩ := g
  cases cls <;> rfl

theorem newNamed_registered {g : Gate} (h : g.Registered) (q : String) : (newNamed g q).Registered := by
  obtain ⟨cls, _⟩ := g
  cases cls with
  | phase => exact h.elim
  | hamEvo => exact h
  | _ => trivial

theorem createRenamed_length (fresh : ℕ → String) (keys : List String) : (createRenamed fresh gs keys).length = gs.length := by
  simp [createRenamed]

theorem createRenamed_uses {fresh : ℕ → String} {keys : List String} {j : ℕ} (hj : j < gs.length) {p : String}
    (hu : gs[j].Uses p) (hp : p ∈ keys) (hj' : j < (createRenamed fresh gs keys).length) :
    (createRenamed fresh gs keys)[j] = newNamed gs[j] (fresh j) := by
  simp only [createRenamed, List.getElem_mapIdx, (Gate.uses_iff _ _).1 hu, if_pos hp]

theorem createRenamed_not {fresh : ℕ → String} {keys : List String} {j : ℕ} (hj : j < gs.length)
    (hu : ∀ p, ¬ gs[j].Uses p) (hj' : j < (createRenamed fresh gs keys).length) :
    (createRenamed fresh gs keys)[j] = gs[j] := by
  have : gs[j].paramName = none := Option.eq_none_iff_forall_ne_some.2 fun p hp => hu p ((Gate.uses_iff _ _).2 hp)
  simp only [createRenamed, List.getElem_mapIdx, this]

theorem createRenamed_same (fresh : ℕ → String) (keys : List String) :
    List.Forall₂ SamePlace gs (createRenamed fresh gs keys) := by
  refine List.forall₂_iff_get.2 ⟨(createRenamed_length _ _).symm, fun j h1 h2 => ?_⟩
  simp only [List.get_eq_getElem, createRenamed, List.getElem_mapIdx]
  split
  · split_ifs
    · exact newNamed_same _ _
    · exact ⟨rfl, rfl⟩
  · exact ⟨rfl, rfl⟩

theorem BaseSetting.key_of_uses (h : BaseSetting so n values gs nss st obs Os) {g : Gate} (hg : g ∈ gs) {p : String} (hu : g.Uses p) :
    p ∈ values.keys ∧ values.lookup p = some (.num (values.real p)) := by
  obtain ⟨s, hs⟩ := h.std g hg
  obtain ⟨x, hx⟩ := hs.lookup hu
  exact ⟨mem_keys_of_lookup hx, by rw [Values.real, hx]⟩

/-- The renamed gates, evaluated with the temporary dictionary in which one value is shifted. -/
theorem BaseSetting.renamed_gate (h : BaseSetting so n values gs nss st obs Os) (hr : ∀ g ∈ gs, (∃ p, g.Uses p) → g.Registered)
    {fresh : ℕ → String} (hf : Function.Injective fresh) {i : ℕ} (hi : i < (valuesMap gs values.keys).length) (δ : ℝ)
    {j : ℕ} (hj : j < gs.length) (hj' : j < (createRenamed fresh gs values.keys).length) :
    ∃ s, (createRenamed fresh gs values.keys)[j].Std n (tempValues fresh (valuesMap gs values.keys) values.real i δ) s ∧
      (createRenamed fresh gs values.keys)[j].mat n .unitary (tempValues fresh (valuesMap gs values.keys) values.real i δ)
        = gs[j].mat n .unitary (values.upd (valuesMap gs values.keys)[i].2 (if j = (valuesMap gs values.keys)[i].1
          then values.real (valuesMap gs values.keys)[i].2 + δ else values.real (valuesMap gs values.keys)[i].2)) := by
  have hn : ((valuesMap gs values.keys).map Prod.fst).Nodup := valuesMap_nodup (gs := gs) h.numeric.nodup
  have hmem := mem_valuesMap.1 (List.getElem_mem hi)
  have hvm := @mem_valuesMap gs values.keys
  generalize valuesMap gs values.keys = vm at hi hn hmem hvm ⊢
  have hgj := List.getElem_mem hj
  obtain ⟨s, hs⟩ := h.std _ hgj
  by_cases hu : ∃ q, gs[j].Uses q
  · obtain ⟨q, hu⟩ := hu
    obtain ⟨hq, hx⟩ := h.key_of_uses hgj hu
    obtain ⟨sh, R, hR⟩ := hs.named hu
    have hR' := hR.newNamed (hr _ hgj ⟨q, hu⟩) (fresh j)
    have hv' : (newNamed gs[j] (fresh j)).ValidOn n := hs.valid.of_same (newNamed_same _ _).1 (newNamed_control _ _)
    obtain ⟨m, hm, hme⟩ := List.mem_iff_getElem.1 (hvm.2 ⟨hq, mem_paramIndices.2 ⟨hj, hu⟩⟩ : (j, q) ∈ vm)
    have hl := tempValues_lookup hf hn values.real i δ hm
    rw [hme] at hl
    rw [createRenamed_uses hj hu hq hj']
    have hstd := hR'.std hv' hl
    refine ⟨_, hstd, ?_⟩
    have hmi : m = i ↔ j = vm[i].1 := by
      constructor
      · rintro rfl; rw [hme]
      · intro e
        have := (List.Nodup.getElem_inj_iff hn (i := m) (j := i) (hi := by simpa using hm) (hj := by simpa using hi)).1
          (by simp [hme, e])
        exact this
    rw [hstd.mat]
    by_cases hqp : q = vm[i].2
    · subst hqp
      rw [(hR.std hs.valid (Values.lookup_set_self hx _)).mat]
      simp only [stdMat, (newNamed_same gs[j] (fresh j)).1, newNamed_control]
      by_cases e : j = vm[i].1
      · rw [if_pos e, if_pos (hmi.2 e)]
      · rw [if_neg e, if_neg (mt hmi.1 e)]
    · have hne : j ≠ vm[i].1 := by
        rintro rfl
        exact hqp (hu.unique (mem_paramIndices.1 hmem.2).2)
      rw [(hR.std hs.valid ((Values.lookup_set_of_ne hqp _).trans hx)).mat]
      simp only [stdMat, (newNamed_same gs[j] (fresh j)).1, newNamed_control]
      rw [if_neg (mt hmi.1 hne)]
  · push Not at hu
    rw [createRenamed_not hj hu hj']
    have h1 := hs.congr (values' := tempValues fresh vm values.real i δ) fun q hq => absurd hq (hu q)
    refine ⟨_, h1, ?_⟩
    rw [h1.mat, (hs.congr fun q hq => absurd hq (hu q)).mat]

theorem BaseSetting.variant_renamed (h : BaseSetting so n values gs nss st obs Os) (hr : ∀ g ∈ gs, (∃ p, g.Uses p) → g.Registered)
    {fresh : ℕ → String} (hf : Function.Injective fresh) {i : ℕ} (hi : i < (valuesMap gs values.keys).length) (δ : ℝ) :
    Variant n gs (createRenamed fresh gs values.keys) (tempValues fresh (valuesMap gs values.keys) values.real i δ) := by
  refine ⟨createRenamed_same _ _, fun g hg => ?_⟩
  obtain ⟨j, hj, rfl⟩ := List.mem_iff_getElem.1 hg
  obtain ⟨s, hs, -⟩ := h.renamed_gate hr hf hi δ (by simpa [createRenamed_length] using hj) hj
  exact ⟨s, hs⟩

/-- Evaluation of the renamed gates with one temporary value shifted. -/
theorem BaseSetting.eval_renamed (h : BaseSetting so n values gs nss st obs Os) (hr : ∀ g ∈ gs, (∃ p, g.Uses p) → g.Registered)
    {fresh : ℕ → String} (hf : Function.Injective fresh) {i : ℕ} (hi : i < (valuesMap gs values.keys).length) (δ : ℝ) :
    gatesExpectation so st obs (.list (createRenamed fresh gs values.keys))
        (tempValues fresh (valuesMap gs values.keys) values.real i δ)
      = .ok (Os.map fun O => expVal O (matRun n (altAt (stepsOf n values (valuesMap gs values.keys)[i].2 gs nss)
        (values.real (valuesMap gs values.keys)[i].2) (valuesMap gs values.keys)[i].1
        (values.real (valuesMap gs values.keys)[i].2 + δ)) (st.mat n))) := by
  refine h.eval_alt (createRenamed_same _ _) (fun g hg => ?_) _ _ _ _ fun j hj hj' =>
    (h.renamed_gate hr hf hi δ hj hj').choose_spec.2
  obtain ⟨s, hs⟩ := (h.variant_renamed hr hf hi δ).2 g hg
  exact hs.ok

theorem _root_.List.mapM_congr_left' {α β : Type} {f g : α → Py β} {l : List α} (h : ∀ a ∈ l, f a = g a) :
    l.mapM f = l.mapM g := by
  induction l with
  | nil => rfl
  | cons a l ih => rw [List.mapM_cons, List.mapM_cons, h a (by simp), ih fun b hb => h b (by simp [hb])]

theorem Setting.jvp_core (h : Setting so n values gs nss st obs Os) (hs : ¬ SingleUse gs)
    (hr : ∀ g ∈ gs, (∃ p, g.Uses p) → g.Registered) (eigh : Eigh)
    (hc : ∀ g ∈ gs, ∀ p, g.Uses p → isControlled g.control = false)
    (hgt : values.keys.length < (extractGateNames gs).length) {fresh : ℕ → String} (hf : Function.Injective fresh)
    (ts : List ℝ) {F : GateArg → Values → Py (List ℝ)}
    (hF : ∀ gs' v', Variant n gs gs' v' → F (.list gs') v' = gatesExpectation so st obs (.list gs') v') :
    ∃ fwd, gatesExpectation so st obs (.list gs) values = .ok fwd ∧
      gpsrJvp eigh fresh F (.list gs) values ts = (do
        let grads ← values.keys.mapM fun p =>
          if paramIndices gs p = [] then Except.error Err.valueError else Except.ok (gradOf n values gs nss st Os p)
        pure (fwd, contract fwd.length grads ts)) := by
  refine ⟨_, h.eval_self, ?_⟩
  set vm := valuesMap gs values.keys with hvm
  have hvne : vm ≠ [] := by
    rw [SingleUse, List.pairwise_iff_getElem] at hs
    push Not at hs
    obtain ⟨k, j, hk, hj, hkj, p, hu, -⟩ := hs
    exact List.ne_nil_of_mem (a := (k, p)) (mem_valuesMap.2 ⟨(h.key_of_uses (List.getElem_mem hk) hu).1,
      mem_paramIndices.2 ⟨hk, hu⟩⟩)
  have hvals : vm.mapM (fun e => values.get e.2) = .ok (vm.map fun e => .num (values.real e.2)) := by
    refine mapM_ok_map fun e he => ?_
    obtain ⟨hlt, hu⟩ := mem_paramIndices.1 (mem_valuesMap.1 he).2
    rw [Values.get, (h.key_of_uses (List.getElem_mem hlt) hu).2]
  have hgaps : vm.mapM (fun e => do
        let gg ← (paramIndices gs e.2).mapM fun i => match (createRenamed fresh gs values.keys)[i]? with
          | some g => g.spectralGap eigh
          | none => Except.error (α := ℝ) Err.indexError
        pure (gg.getLastD 0) : _ → Py ℝ) = .ok (vm.map fun _ => 2) := by
    refine mapM_ok_map fun e he => ?_
    have hp := (mem_valuesMap.1 he).1
    have : ((paramIndices gs e.2).mapM fun i => match (createRenamed fresh gs values.keys)[i]? with
          | some g => g.spectralGap eigh
          | none => Except.error (α := ℝ) Err.indexError) = .ok ((paramIndices gs e.2).map fun _ => 2) := by
      refine mapM_ok_map fun i hi => ?_
      obtain ⟨hlt, hu⟩ := mem_paramIndices.1 hi
      have hlt' : i < (createRenamed fresh gs values.keys).length := by rwa [createRenamed_length]
      have hm := List.getElem_mem hlt
      obtain ⟨s, hstd⟩ := h.std _ hm
      obtain ⟨sh, R, hR⟩ := hstd.named hu
      rw [List.getElem?_eq_getElem hlt', createRenamed_uses hlt hu hp]
      refine (hR.newNamed (hr _ hm ⟨_, hu⟩) _).gap eigh (newNamed_registered (hr _ hm ⟨_, hu⟩) _) ?_
      rw [newNamed_control]; exact hc _ hm _ hu
    simp only [this, bind, Except.bind, pure, Except.pure]
    rcases hl : paramIndices gs e.2 with _ | ⟨a, l⟩
    · exact absurd hl (List.ne_nil_of_mem (mem_valuesMap.1 he).2)
    · congr 1
      rw [List.map_const', List.length_cons, List.replicate_succ', List.getLastD_concat]
  have hzip : (vm.map fun e => fresh e.1).zip (vm.map fun e => PyVal.num (values.real e.2))
      = vm.map fun e => (fresh e.1, .num (values.real e.2)) := by
    rw [List.zip_map', ]
  have hscan : jvpScan F (.list (createRenamed fresh gs values.keys)) (vm.map fun e => fresh e.1)
      (vm.map fun e => values.real e.2) (vm.map fun _ => 2)
      = .ok (vm.map fun e => Os.map fun O => expVal O (shiftTerm (stepsOf n values e.2 gs nss) (values.real e.2) (st.mat n) e.1)) := by
    rw [jvpScan, List.length_map]
    refine mapM_range _ fun i hi => ?_
    have hgap : (vm.map fun _ => (2 : ℝ)).getD i 0 = 2 := by simp [List.getD_eq_getElem?_getD, hi]
    have hev : ∀ δ, F (.list (createRenamed fresh gs values.keys))
        (tempValues fresh vm values.real i δ)
      = .ok (Os.map fun O => expVal O (matRun n (altAt (stepsOf n values vm[i].2 gs nss)
        (values.real vm[i].2) vm[i].1 (values.real vm[i].2 + δ)) (st.mat n))) := fun δ =>
      (hF _ _ (h.variant_renamed hr hf hi δ)).trans (h.eval_renamed hr hf hi δ)
    rw [jvpRow, hgap]
    simp only [shiftAt_temp, hev, bind, Except.bind]
    rw [gpsrRule_two, zipWith_map_self]
    congr 2
    funext O
    rw [shiftTerm_exp h.toBaseSetting (mem_valuesMap.1 (List.getElem_mem hi)).2]
  have hregroup : values.keys.mapM (fun p =>
        match sumVecs (((vm.zip (vm.map fun e => Os.map fun O =>
          expVal O (shiftTerm (stepsOf n values e.2 gs nss) (values.real e.2) (st.mat n) e.1))).filter fun e => e.1.2 = p).map Prod.snd) with
        | some v => Except.ok v
        | none => Except.error Err.valueError) = values.keys.mapM fun p =>
          if paramIndices gs p = [] then Except.error Err.valueError else Except.ok (gradOf n values gs nss st Os p) := by
    refine List.mapM_congr_left' fun p hp => ?_
    have hz : ∀ (f : ℕ × String → List ℝ) (l : List (ℕ × String)),
        ((l.zip (l.map f)).filter fun e => e.1.2 = p).map Prod.snd = (l.filter fun e => e.2 = p).map f := by
      intro f l
      induction l with
      | nil => rfl
      | cons a l ih =>
        by_cases ha : a.2 = p
        · simp [List.filter_cons, ha, ih]
        · simp [List.filter_cons, ha, ih]
    rw [hz, hvm, valuesMap_filter (keys := values.keys) h.numeric.nodup hp, List.map_map]
    simp only [Function.comp_def]
    split_ifs with he
    · rw [he]; rfl
    · rw [sumVecs_map _ he]
      simp only [gradOf, h.dRun_eq]
  have hflat : (values.keys.flatMap fun p => (paramIndices gs p).map fun i => (i, p)) = vm := rfl
  rw [gpsrJvp, hF _ _ h.variant_self, h.eval_self]
  have hb : ∀ {α β : Type} {x : Py α} {a : α} (_ : x = .ok a) (f : α → Py β), x >>= f = f a := by
    intro α β x a hx f; rw [hx]; rfl
  refine (hb rfl _).trans ?_
  simp only [if_pos hgt]
  refine (hb (h.hasRepeated_eq hs) _).trans ?_
  rw [if_pos rfl]
  simp only [hflat]
  refine (hb hvals _).trans ?_
  refine (hb hgaps _).trans ?_
  rw [hzip]
  refine (hb (stackValues_map vm hvne _ _) _).trans ?_
  refine (hb hscan _).trans ?_
  exact congrArg (fun x => x >>= _) hregroup

theorem Setting.jvp_repeated (h : Setting so n values gs nss st obs Os) (hs : ¬ SingleUse gs)
    (hr : ∀ g ∈ gs, (∃ p, g.Uses p) → g.Registered) (eigh : Eigh)
    (hc : ∀ g ∈ gs, ∀ p, g.Uses p → isControlled g.control = false)
    (hall : ∀ p ∈ values.keys, ∃ g ∈ gs, g.Uses p) {fresh : ℕ → String} (hf : Function.Injective fresh) (ts : List ℝ)
    {F : GateArg → Values → Py (List ℝ)}
    (hF : ∀ gs' v', Variant n gs gs' v' → F (.list gs') v' = gatesExpectation so st obs (.list gs') v') :
    ∃ fwd, gatesExpectation so st obs (.list gs) values = .ok fwd ∧
      gpsrJvp eigh fresh F (.list gs) values ts
        = .ok (fwd, List.ofFn fun i : Fin fwd.length =>
          (List.zipWith (fun p t => (gradOf n values gs nss st Os p).getD i 0 * t) values.keys ts).sum) := by
  obtain ⟨fwd, h1, h2⟩ := h.jvp_core hs hr eigh hc (h.names_gt hs hall) hf ts hF
  refine ⟨fwd, h1, ?_⟩
  rw [h2, mapM_ok_map (g := gradOf n values gs nss st Os) fun p hp => if_neg ?_]
  · simp only [← contract_map]; rfl
  · obtain ⟨g, hg, hu⟩ := hall p hp
    obtain ⟨k, hk, rfl⟩ := List.mem_iff_getElem.1 hg
    exact List.ne_nil_of_mem (mem_paramIndices.2 ⟨hk, hu⟩)

theorem mapM_some_error {α β : Type} {f : α → Py β} {e : Err} {l : List α} (h : ∀ a ∈ l, f a = .error e ∨ ∃ b, f a = .ok b)
    (he : ∃ a ∈ l, f a = .error e) : l.mapM f = .error e := by
  induction l with
  | nil => obtain ⟨a, ha, -⟩ := he; cases ha
  | cons a l ih =>
    rw [List.mapM_cons]
    rcases h a (by simp) with h1 | ⟨b, h1⟩
    · rw [h1]; rfl
    · rw [h1]
      obtain ⟨a', ha', he'⟩ := he
      rcases List.mem_cons.1 ha' with rfl | ha'
      · rw [h1] at he'; cases he'
      · have := ih (fun a ha => h a (by simp [ha])) ⟨a', ha', he'⟩
        simp only [bind, Except.bind, this]

/-- A value that no gate uses, with more named gates than values. -/
theorem Setting.jvp_unused (h : Setting so n values gs nss st obs Os) (hs : ¬ SingleUse gs)
    (hr : ∀ g ∈ gs, (∃ p, g.Uses p) → g.Registered) (eigh : Eigh)
    (hc : ∀ g ∈ gs, ∀ p, g.Uses p → isControlled g.control = false)
    (hgt : values.keys.length < (extractGateNames gs).length) {fresh : ℕ → String} (hf : Function.Injective fresh)
    {q : String} (hq : q ∈ values.keys) (hun : ∀ g ∈ gs, ¬ g.Uses q) (ts : List ℝ) :
    gpsrJvp eigh fresh (gatesExpectation so st obs) (.list gs) values ts = .error .valueError := by
  obtain ⟨fwd, h1, h2⟩ := h.jvp_core hs hr eigh hc hgt hf ts fun _ _ _ => rfl
  rw [h2, mapM_some_error (e := .valueError)]
  · rfl
  · intro p _
    by_cases hp : paramIndices gs p = []
    · exact .inl (if_pos hp)
    · exact .inr ⟨_, if_neg hp⟩
  · refine ⟨q, hq, if_pos (List.eq_nil_iff_forall_not_mem.2 fun k hk => ?_)⟩
    obtain ⟨hk, hu⟩ := mem_paramIndices.1 hk
    exact hun _ (List.getElem_mem hk) hu

theorem Setting.bwd_unused (h : Setting so n values gs nss st obs Os) (hs : ¬ SingleUse gs) (hr : ∀ g ∈ gs, g.Registered)
    (eigh : Eigh) (hc : ∀ g ∈ gs, ∀ p, g.Uses p → isControlled g.control = false)
    (hgt : values.keys.length < (extractGateNames gs).length) {F : GateArg → Values → Py (List ℝ)}
    (hF : ∀ gs' : List Gate, (∀ g ∈ gs', g.Registered) → Variant n gs gs' values →
      F (.list gs') values = gatesExpectation so st obs (.list gs') values)
    {q : String} (hq : q ∈ values.keys) (hun : ∀ g ∈ gs, ¬ g.Uses q) :
    gpsrBwd eigh F (.list gs) values = .error .valueError := by
  classical
  have hrow : ∀ p ∈ values.keys, repeatedJvp eigh F gs values p
      = .ok (if ∃ g ∈ gs, g.Uses p then some (gradOf n values gs nss st Os p) else none) := by
    intro p _
    split_ifs with hp
    · exact h.repeated_eq hr eigh hc hF hp
    · have : paramIndices gs p = [] := List.eq_nil_iff_forall_not_mem.2 fun k hk => by
        obtain ⟨hk, hu⟩ := mem_paramIndices.1 hk
        exact hp ⟨_, List.getElem_mem hk, hu⟩
      rw [repeatedJvp, this]; rfl
  rw [gpsrBwd]
  simp only [if_pos hgt, h.hasRepeated_eq hs, bind, Except.bind, if_true]
  rw [mapM_ok_map hrow]
  simp only [stackSum]
  rw [if_neg (by simpa using h.keys_ne hs)]
  refine mapM_some_error (fun r _ => ?_) ⟨none, ?_, rfl⟩
  · cases r with
    | none => exact .inl rfl
    | some v => exact .inr ⟨_, rfl⟩
  · refine List.mem_map.2 ⟨q, hq, if_neg ?_⟩
    rintro ⟨g, hg, hu⟩
    exact hun g hg hu

end Verif
