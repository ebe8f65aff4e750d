import Verif.Lemmas.Gpsr

/-! # Lemmas about the code paths of the parameter-shift rule -/

namespace Verif
set_option autoImplicit false
open NDArray
variable {n : ℕ}

/-! ## The spectral gap -/

theorem eigh_pauli (eigh : Eigh) {A : Matrix (Fin 2) (Fin 2) ℂ} (hA : A.conjTranspose = A) (h2 : A * A = 1)
    (htr : A.trace = 0) : eigh.vals A 0 = -1 ∧ eigh.vals A 1 = 1 := by
  set V := eigh.vecs A with hV
  set L : Matrix (Fin 2) (Fin 2) ℂ := Matrix.diagonal fun i => (eigh.vals A i : ℂ) with hL
  have hu : V.conjTranspose * V = 1 := eigh.unitary A
  have hu' : V * V.conjTranspose = 1 := mul_eq_one_comm.1 hu
  have he : A * V = V * L := by
    have := eigh.eigen A
    rw [hA, ← two_smul ℂ A, smul_smul] at this
    norm_num at this
    exact this
  have hLL : L * L = 1 := by
    calc L * L = V.conjTranspose * (V * L * L) := by
          rw [← Matrix.mul_assoc, ← Matrix.mul_assoc, hu, Matrix.one_mul]
      _ = V.conjTranspose * (A * A * V) := by rw [← he, Matrix.mul_assoc, ← he, Matrix.mul_assoc]
      _ = 1 := by rw [h2, Matrix.one_mul, hu]
  have htL : L.trace = 0 := by
    calc L.trace = (V.conjTranspose * (V * L)).trace := by rw [← Matrix.mul_assoc, hu, Matrix.one_mul]
      _ = (A * (V * V.conjTranspose)).trace := by rw [← he, Matrix.trace_mul_comm, Matrix.mul_assoc]
      _ = 0 := by rw [hu', Matrix.mul_one, htr]
  have hsq : ∀ i, eigh.vals A i * eigh.vals A i = 1 := by
    intro i
    have := congrFun (congrFun hLL i) i
    rw [hL, Matrix.diagonal_mul_diagonal, Matrix.diagonal_apply_eq, Matrix.one_apply_eq] at this
    exact_mod_cast this
  have hsum : eigh.vals A 0 + eigh.vals A 1 = 0 := by
    have := htL
    rw [hL, Matrix.trace_fin_two, Matrix.diagonal_apply_eq, Matrix.diagonal_apply_eq] at this
    exact_mod_cast this
  have hle : eigh.vals A 0 ≤ eigh.vals A 1 := eigh.sorted A (by decide)
  have h0 := hsq 0
  have h1 : eigh.vals A 1 = -eigh.vals A 0 := by linarith
  have : eigh.vals A 0 = -1 := by
    rcases mul_self_eq_one_iff.1 h0 with h | h
    · linarith
    · exact h
  exact ⟨this, by rw [h1, this]; norm_num⟩

theorem gap_two : firstNonzero (unique2 (trilDiffs [-1, 1])) = 2 := by
  have h : trilDiffs [-1, 1] = [0, 0, 2, 0] := by
    simp [trilDiffs, List.range_succ]
    norm_num
  have hu : uniqueSorted [0, 0, 2, 0] = [0, 2] := by
    rw [uniqueSorted, List.dedup_cons_of_mem (by simp), List.dedup_cons_of_mem (by simp),
      List.dedup_cons_of_notMem (by simp), List.dedup_cons_of_notMem (by simp), List.dedup_nil]
    simp [List.insertionSort, List.orderedInsert]
  rw [h]
  simp [unique2, hu, firstNonzero, List.find?]

theorem eigvalsh_mat2 (eigh : Eigh) {a b c d : ℂ} (hA : (!![a, b; c, d] : Matrix (Fin 2) (Fin 2) ℂ).conjTranspose = !![a, b; c, d])
    (h2 : (!![a, b; c, d] : Matrix (Fin 2) (Fin 2) ℂ) * !![a, b; c, d] = 1)
    (htr : (!![a, b; c, d] : Matrix (Fin 2) (Fin 2) ℂ).trace = 0) : eigvalsh eigh (mat2 a b c d) = .ok [-1, 1] := by
  have e : toMat 2 (mat2 a b c d) = !![a, b; c, d] := by
    ext i j
    fin_cases i <;> fin_cases j <;> rfl
  obtain ⟨h0, h1⟩ := eigh_pauli eigh hA h2 htr
  have : eigvalsh eigh (mat2 a b c d) = .ok (List.ofFn (eigh.vals (toMat 2 (mat2 a b c d)))) := rfl
  rw [this, e]
  simp [List.ofFn_succ, h0, h1]

theorem eigvalsh_pauli (eigh : Eigh) {nm : String} (hnm : nm = "X" ∨ nm = "Y" ∨ nm = "Z") :
    ∃ M, operationsDict nm = .ok M ∧ eigvalsh eigh M = .ok [-1, 1] := by
  rcases hnm with rfl | rfl | rfl
  all_goals
    refine ⟨_, rfl, eigvalsh_mat2 eigh ?_ ?_ ?_⟩
    · ext i j; fin_cases i <;> fin_cases j <;> simp
    · ext i j; fin_cases i <;> fin_cases j <;> simp [Matrix.mul_apply]
    · simp [Matrix.trace_fin_two]

/-- The spectral gap of an uncontrolled `RX`, `RY` or `RZ` gate is `2`. -/
theorem spectralGap_pauli (eigh : Eigh) {p : Param} {sh : ℝ} {nm : String} {ts : List ℕ} {c : Ctl}
    {nz : Option (List NoiseInstance)} (hnm : nm = "X" ∨ nm = "Y" ∨ nm = "Z") (hc : isControlled c = false) :
    (⟨.parametric p sh, nm, ts, c, nz, false⟩ : Gate).spectralGap eigh = .ok 2 := by
  obtain ⟨M, h1, h2⟩ := eigvalsh_pauli eigh hnm
  simp only [Gate.spectralGap, Gate.eigenvalsGenerator, Gate.generator, h1, h2, bind, Except.bind, pure, Except.pure, hc,
    Bool.false_eq_true, if_false, gap_two]

theorem gpsrRule_two (up down : List ℝ) :
    gpsrRule 2 gpsrShift up down = .ok (List.zipWith (fun u d => (u - d) / 2) up down) := by
  have : Real.sin (2 * gpsrShift / 2) = 1 := by
    rw [gpsrShift, show 2 * (Real.pi / 2) / 2 = Real.pi / 2 by ring, Real.sin_pi_div_two]
  rw [gpsrRule, this, if_neg one_ne_zero]
  congr 2
  funext u d
  ring

/-! ## The setting -/

/-- The number stored under a key. -/
noncomputable def Values.real (values : Values) (p : String) : ℝ :=
  match values.lookup p with
  | some (.num x) => x
  | _ => 0

theorem Values.Numeric.real {values : Values} (h : values.Numeric) {p : String} (hp : p ∈ values.keys) :
    values.lookup p = some (.num (values.real p)) := by
  obtain ⟨x, hx⟩ := h.lookup hp
  rw [Values.real, hx]

theorem mem_keys_of_lookup {values : Values} {p : String} {v : PyVal} (h : values.lookup p = some v) : p ∈ values.keys := by
  induction values with
  | nil => cases h
  | cons e values ih =>
    obtain ⟨k, w⟩ := e
    by_cases hk : p = k
    · simp [Values.keys, hk]
    · have : (p == k) = false := by simpa using hk
      simp only [List.lookup, this] at h
      simpa [Values.keys, hk] using ih h

/-- The steps of a list of gates for the parameter `p`. -/
noncomputable def stepsOf (n : ℕ) (values : Values) (p : String) (gs : List Gate) (nss : List (List StdNoise)) :
    List (PStep n) := (gs.zip nss).map (stepOf n values p)

section
variable {so : SetOrder} {values : Values} {gs : List Gate} {nss : List (List StdNoise)} {st : State}
  {obs : List Observable} {Os : List (Matrix (Lab n) (Lab n) ℂ)}

theorem Setting.good (h : Setting so n values gs nss st obs Os) (p : String) :
    ∀ e ∈ stepsOf n values p gs nss, e.Good := by
  intro e he
  obtain ⟨⟨g, ns⟩, hg, rfl⟩ := List.mem_map.1 he
  have hm := (List.of_mem_zip hg).1
  obtain ⟨s, hs⟩ := h.std g hm
  exact stepOf_good hs (h.uncontrolled g hm p) ns

theorem BaseSetting.length (h : BaseSetting so n values gs nss st obs Os) (p : String) :
    (stepsOf n values p gs nss).length = gs.length := by
  have := h.noise.length_eq
  simp [stepsOf, this]

theorem BaseSetting.rot (h : BaseSetting so n values gs nss st obs Os) (p : String) (k : ℕ) :
    ((stepsOf n values p gs nss)[k]?.map PStep.rot).getD false = ((gs[k]?.bind Gate.paramName) == some p) := by
  have hl := h.noise.length_eq
  by_cases hk : k < gs.length
  · have hz : (gs.zip nss)[k]? = some (gs[k], nss[k]'(hl ▸ hk)) := by
      rw [List.getElem?_eq_some_iff]
      exact ⟨by simp [← hl, hk], by simp⟩
    rw [stepsOf, List.getElem?_map, hz, List.getElem?_eq_getElem hk]
    rfl
  · have h1 : (gs.zip nss)[k]? = none := by rw [List.getElem?_eq_none]; simp; omega
    rw [stepsOf, List.getElem?_map, h1, List.getElem?_eq_none (by omega)]
    rfl

/-- The derivative of the run. -/
noncomputable def dRun (n : ℕ) (values : Values) (gs : List Gate) (nss : List (List StdNoise)) (st : State) (p : String) :
    Matrix (Lab n) (Lab n) ℂ :=
  ∑ k ∈ Finset.range gs.length, shiftTerm (stepsOf n values p gs nss) (values.real p) (st.mat n) k

/-- The partial derivatives of the expectation values. -/
noncomputable def gradOf (n : ℕ) (values : Values) (gs : List Gate) (nss : List (List StdNoise)) (st : State)
    (Os : List (Matrix (Lab n) (Lab n) ℂ)) (p : String) : List ℝ :=
  Os.map fun O => expVal O (dRun n values gs nss st p)

theorem BaseSetting.std_upd (h : BaseSetting so n values gs nss st obs Os) (p : String) (x : ℝ) :
    ∀ g ∈ gs, ∃ s, g.Std n (values.upd p x) s := by
  intro g hg
  obtain ⟨s, hs⟩ := h.std g hg
  by_cases hu : g.Uses p
  · obtain ⟨sh, R, hR⟩ := hs.named hu
    obtain ⟨y, hy⟩ := hs.lookup hu
    exact ⟨_, hR.std hs.valid (Values.lookup_set_self hy x)⟩
  · exact ⟨s, hs.congr fun q hq => Values.lookup_set_of_ne (by rintro rfl; exact hu hq) x⟩

theorem BaseSetting.eval (h : BaseSetting so n values gs nss st obs Os) (p : String) (x : ℝ) :
    gatesExpectation so st obs (.list gs) (values.upd p x)
      = .ok (Os.map fun O => expVal O (matRun n (evalAt (stepsOf n values p gs nss) x) (st.mat n))) := by
  rw [gatesExpectation_eq so h.ne (fun g hg => (h.std_upd p x g hg).choose_spec.ok) h.noise h.on h.obs_ne h.fixed]
  simp only [stepsOf, evalAt_steps]

/-- The same gates on the same targets with the same noise. -/
def SamePlace (g g' : Gate) : Prop := g'.target = g.target ∧ g'.noise = g.noise

/-- The gates `gs'` are standard gates with the values `values'`, in the places of `gs` and with the same noise. -/
def Variant (n : ℕ) (gs gs' : List Gate) (values' : Values) : Prop :=
  List.Forall₂ SamePlace gs gs' ∧ ∀ g ∈ gs', ∃ s, g.Std n values' s

theorem SamePlace.noiseIs {g g' : Gate} (h : SamePlace g g') {ns : List StdNoise} (hn : g.NoiseIs ns) : g'.NoiseIs ns := by
  cases hn with
  | none e => exact .none (h.2.trans e)
  | some e hn ht => exact .some (h.2.trans e) hn (by rw [h.1]; exact ht)

theorem forall₂_noiseIs {gs' : List Gate} (hs : List.Forall₂ SamePlace gs gs') (hn : List.Forall₂ Gate.NoiseIs gs nss) :
    List.Forall₂ Gate.NoiseIs gs' nss := by
  induction hs generalizing nss with
  | nil => exact hn
  | cons h _ ih =>
    cases hn with
    | cons h1 h2 => exact .cons (h.noiseIs h1) (ih h2)

theorem mixed_iff {gs' : List Gate} (hs : List.Forall₂ SamePlace gs gs') : Mixed st gs' ↔ Mixed st gs := by
  have : (∀ g ∈ gs', g.noise = none) ↔ ∀ g ∈ gs, g.noise = none := by
    induction hs with
    | nil => rfl
    | cons h _ ih => simp only [List.mem_cons, forall_eq_or_imp, ih, h.2]
  simp only [Mixed, this]

theorem BaseSetting.eval_alt (h : BaseSetting so n values gs nss st obs Os) {gs' : List Gate} {values' : Values}
    (hs : List.Forall₂ SamePlace gs gs') (hok : ∀ g ∈ gs', g.Ok n .unitary values') (p : String) (x y : ℝ) (k : ℕ)
    (hm : ∀ j (hj : j < gs.length) (hj' : j < gs'.length), gs'[j].mat n .unitary values'
      = gs[j].mat n .unitary (values.upd p (if j = k then y else x))) :
    gatesExpectation so st obs (.list gs') values'
      = .ok (Os.map fun O => expVal O (matRun n (altAt (stepsOf n values p gs nss) x k y) (st.mat n))) := by
  have hl := hs.length_eq
  have hl2 := h.noise.length_eq
  have hne : gs' ≠ [] := by
    intro e; rw [e, List.length_nil] at hl; exact h.ne (List.length_eq_zero_iff.1 hl)
  have hfix : List.Forall₂ (fun o O => o.Fixed so n (Mixed st gs') O) obs Os :=
    h.fixed.imp fun o O hO values => ⟨(hO values).1, fun hmx => (hO values).2 ((mixed_iff hs).1 hmx)⟩
  rw [gatesExpectation_eq so hne hok (forall₂_noiseIs hs h.noise) h.on h.obs_ne hfix]
  simp only [noisyRun_matRun]
  have e : ((gs'.zip nss).map fun e => (e.1.mat n .unitary values', e.1.target.headD 0, e.2))
      = altAt (stepsOf n values p gs nss) x k y := by
    refine List.ext_getElem (by simp [altAt, stepsOf, hl]) fun j h1 h2 => ?_
    simp only [List.length_map, List.length_zip] at h1
    have hj' : j < gs'.length := by omega
    have hj : j < gs.length := by omega
    simp only [altAt, stepsOf, List.getElem_map, List.getElem_zip, List.getElem_mapIdx, stepOf]
    have hsame : SamePlace gs[j] gs'[j] := List.forall₂_iff_get.1 hs |>.2 j hj hj'
    rw [hm j hj hj', hsame.1]
  rw [e]

/-! ## The derivative -/

theorem Setting.partial (h : Setting so n values gs nss st obs Os) {E : Values → Py (List ℝ)} {p : String}
    (hp : p ∈ values.keys) (hE : ∀ x, E (values.upd p x) = gatesExpectation so st obs (.list gs) (values.upd p x)) :
    IsPartial E values p (gradOf n values gs nss st Os p) := by
  refine ⟨values.real p, fun t => Os.map fun O => expVal O (matRun n (evalAt (stepsOf n values p gs nss) t) (st.mat n)),
    h.numeric.real hp, fun t => by rw [hE, h.eval], fun t => by simp [gradOf], fun i => ?_⟩
  have hd := deriv_run (h.good p) (MatDeriv.const (st.mat n) (values.real p))
  rw [(isLin_matRun _).zero, zero_add, h.length p] at hd
  by_cases hi : i < Os.length
  · simp only [gradOf, List.getD_eq_getElem?_getD, List.getElem?_map, List.getElem?_eq_getElem hi, Option.map_some,
      Option.getD_some]
    exact expVal_deriv _ hd
  · simp only [gradOf, List.getD_eq_getElem?_getD, List.getElem?_map, List.getElem?_eq_none (not_lt.1 hi), Option.map_none,
      Option.getD_none]
    exact hasDerivAt_const _ _

theorem samePlace_refl (gs : List Gate) : List.Forall₂ SamePlace gs gs := List.forall₂_same.2 fun _ _ => ⟨rfl, rfl⟩

theorem BaseSetting.variant_self (h : BaseSetting so n values gs nss st obs Os) : Variant n gs gs values := ⟨samePlace_refl _, h.std⟩

theorem BaseSetting.variant_upd (h : BaseSetting so n values gs nss st obs Os) (p : String) (x : ℝ) :
    Variant n gs gs (values.upd p x) := ⟨samePlace_refl _, h.std_upd p x⟩

/-! ## Path for parameters used once -/

theorem zipWith_map_self {α : Type} (f : ℝ → ℝ → ℝ) (u d : α → ℝ) (l : List α) :
    List.zipWith f (l.map u) (l.map d) = l.map fun a => f (u a) (d a) := by
  induction l with
  | nil => rfl
  | cons a l ih => simp [ih]

theorem Setting.single (h : Setting so n values gs nss st obs Os) (hs : SingleUse gs) (p : String) :
    dRun n values gs nss st p = (1 / 2 : ℂ) •
      (matRun n (evalAt (stepsOf n values p gs nss) (values.real p + Real.pi / 2)) (st.mat n)
        - matRun n (evalAt (stepsOf n values p gs nss) (values.real p - Real.pi / 2)) (st.mat n)) := by
  rw [dRun, ← h.length p]
  refine shiftTerm_single (h.good p) (fun i j hi hj => ?_) _ _
  rw [h.rot] at hi hj
  have key : ∀ k : ℕ, ((gs[k]?.bind Gate.paramName) == some p) = true → ∃ hk : k < gs.length, gs[k].Uses p := by
    intro k hk
    by_cases hlt : k < gs.length
    · rw [List.getElem?_eq_getElem hlt] at hk
      exact ⟨hlt, (Gate.uses_iff _ _).2 (by simpa using hk)⟩
    · rw [List.getElem?_eq_none (by omega)] at hk
      simp at hk
  obtain ⟨hi, hiu⟩ := key i hi
  obtain ⟨hj, hju⟩ := key j hj
  have hp := List.pairwise_iff_getElem.1 hs
  rcases lt_trichotomy i j with hlt | he | hlt
  · exact absurd hju (hp i j hi hj hlt p hiu)
  · exact he
  · exact absurd hiu (hp j i hj hi hlt p hju)

theorem Setting.component (h : Setting so n values gs nss st obs Os) (hs : SingleUse gs)
    {F : GateArg → Values → Py (List ℝ)} {p : String} (hp : p ∈ values.keys)
    (hF : ∀ x, F (.list gs) (values.upd p x) = gatesExpectation so st obs (.list gs) (values.upd p x)) :
    jvpComponent F (.list gs) values p = .ok (gradOf n values gs nss st Os p) := by
  have hx := h.numeric.real hp
  simp only [jvpComponent, Values.shiftKey_eq hx, bind, Except.bind, hF, h.eval]
  rw [initialGap, gpsrRule_two, zipWith_map_self, gradOf]
  congr 2
  funext O
  rw [h.single hs, expVal_half, expVal_sub, gpsrShift, sub_eq_add_neg (values.real p)]

theorem extractGateNames_le (h : BaseSetting so n values gs nss st obs Os) (hs : SingleUse gs) :
    (extractGateNames gs).length ≤ values.keys.length := by
  have hnd : (extractGateNames gs).Nodup := by
    have := hs
    clear h
    induction gs with
    | nil => simp [extractGateNames]
    | cons g gs ih =>
      obtain ⟨h1, h2⟩ := List.pairwise_cons.1 hs
      rw [extractGateNames, List.filterMap_cons]
      rcases hg : g.paramName with _ | p
      · exact ih h2 h2
      · refine List.nodup_cons.2 ⟨fun hmem => ?_, ih h2 h2⟩
        obtain ⟨g', hg', hp'⟩ := List.mem_filterMap.1 hmem
        exact h1 g' hg' p ((Gate.uses_iff _ _).2 hg) ((Gate.uses_iff _ _).2 hp')
  refine (List.subperm_of_subset hnd fun p hp => ?_).length_le
  obtain ⟨g, hg, hp⟩ := List.mem_filterMap.1 hp
  obtain ⟨s, hs'⟩ := h.std g hg
  obtain ⟨x, hx⟩ := hs'.lookup ((Gate.uses_iff _ _).2 hp)
  exact mem_keys_of_lookup hx

theorem mapM_ok_map {α β : Type} {f : α → Py β} {g : α → β} {l : List α} (h : ∀ a ∈ l, f a = .ok (g a)) :
    l.mapM f = .ok (l.map g) := by
  induction l with
  | nil => rfl
  | cons a l ih => rw [List.mapM_cons, h a (by simp), ih fun b hb => h b (by simp [hb])]; rfl

theorem stackSum_some {α : Type} (l : List α) (hl : l ≠ []) (f : α → List ℝ) :
    stackSum (l.map fun a => some (f a)) = .ok (l.map fun a => (f a).sum) := by
  rw [stackSum, if_neg (by simpa using hl), List.mapM_map]
  exact mapM_ok_map fun a _ => rfl

theorem Setting.bwd_single (h : Setting so n values gs nss st obs Os) (hs : SingleUse gs) (hk : values ≠ []) (eigh : Eigh)
    {F : GateArg → Values → Py (List ℝ)}
    (hF : ∀ p x, F (.list gs) (values.upd p x) = gatesExpectation so st obs (.list gs) (values.upd p x)) :
    gpsrBwd eigh F (.list gs) values = .ok (values.keys.map fun p => (gradOf n values gs nss st Os p).sum) := by
  have hle := extractGateNames_le h.toBaseSetting hs
  have hm : (values.keys.mapM fun key => do pure (some (← jvpComponent F (.list gs) values key)))
      = Except.ok (ε := Err) (values.keys.map fun p => some (gradOf n values gs nss st Os p)) :=
    mapM_ok_map fun p hp => by rw [h.component hs hp (hF p)]; rfl
  rw [gpsrBwd]
  simp only [if_neg (not_lt.2 hle)]
  rw [hm]
  exact stackSum_some _ (by simpa [Values.keys] using hk) _

end

end Verif
