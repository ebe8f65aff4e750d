import Verif.Lemmas.GpsrCtl
import Verif.Lemmas.GpsrRename

/-! # Lemmas about the paths for repeated parameters, with controlled gates -/

namespace Verif
set_option autoImplicit false
open NDArray
variable {n : ℕ} {so : SetOrder} {values : Values} {gs : List Gate} {nss : List (List StdNoise)} {st : State}
  {obs : List Observable} {Os : List (Matrix (Lab n) (Lab n) ℂ)}

theorem gap_one : firstNonzero (unique2 (trilDiffs [0, 0, -1, 1])) = 1 := by
  have h : trilDiffs [0, 0, -1, 1] = [0, 0, 0, 0, 0, 0, 0, 0, 1, 1, 0, 0, 1, 1, 2, 0] := by
    simp [trilDiffs, List.range_succ]
    norm_num
  have hu : uniqueSorted [0, 0, 0, 0, 0, 0, 0, 0, 1, 1, 0, 0, 1, 1, 2, 0] = [0, 1, 2] := by
    rw [uniqueSorted]
    iterate 8 rw [List.dedup_cons_of_mem (by simp)]
    iterate 5 rw [List.dedup_cons_of_mem (by simp)]
    rw [List.dedup_cons_of_notMem (by simp), List.dedup_cons_of_notMem (by simp), List.dedup_cons_of_notMem (by simp),
      List.dedup_nil]
    norm_num [List.insertionSort, List.orderedInsert]
  rw [h]
  simp [unique2, hu, firstNonzero, List.find?]

/-- The spectral gap of a controlled `RX`, `RY` or `RZ` gate is `1`. -/
theorem spectralGap_ctl (eigh : Eigh) {p : Param} {sh : ℝ} {nm : String} {ts : List ℕ} {c : Ctl}
    {nz : Option (List NoiseInstance)} (hnm : nm = "X" ∨ nm = "Y" ∨ nm = "Z") (hc : isControlled c = true) :
    (⟨.parametric p sh, nm, ts, c, nz, false⟩ : Gate).spectralGap eigh = .ok 1 := by
  obtain ⟨M, h1, h2⟩ := eigvalsh_pauli eigh hnm
  simp only [Gate.spectralGap, Gate.eigenvalsGenerator, Gate.generator, h1, h2, bind, Except.bind, pure, Except.pure, hc,
    if_true, Gate.controlTuple]
  exact congrArg Except.ok gap_one

/-- The spectral gap of a named `RX`, `RY` or `RZ` gate. -/
noncomputable def gapOf (c : Bool) : ℝ := if c then 1 else 2

/-- The weight of the difference of the two shifted expectation values. -/
noncomputable def shiftWeight (c : Bool) : ℝ := if c then Real.sqrt 2 / 4 else 1 / 2

theorem NamedRot.gap' (eigh : Eigh) {g : Gate} {p : String} {sh : ℝ} {R : ℝ → StdGate} (h : NamedRot g p sh R)
    (hr : g.Registered) : g.spectralGap eigh = .ok (gapOf (isControlled g.control)) := by
  rcases hc : isControlled g.control
  · exact h.gap eigh hr hc
  · cases h with
    | RX => exact spectralGap_ctl eigh (.inl rfl) hc
    | RY => exact spectralGap_ctl eigh (.inr (.inl rfl)) hc
    | RZ => exact spectralGap_ctl eigh (.inr (.inr rfl)) hc
    | PHASE => exact hr.elim

theorem gpsrRule_gapOf (c : Bool) (up down : List ℝ) :
    gpsrRule (gapOf c) gpsrShift up down = .ok (List.zipWith (fun u d => shiftWeight c * (u - d)) up down) := by
  cases c
  · rw [gapOf, if_neg (by simp), gpsrRule_two, shiftWeight, if_neg (by simp)]
    congr 2
    funext u d
    ring
  · have : Real.sin (1 * gpsrShift / 2) = Real.sqrt 2 / 2 := by
      rw [gpsrShift, show 1 * (Real.pi / 2) / 2 = Real.pi / 4 by ring, Real.sin_pi_div_four]
    have h2 : Real.sqrt 2 * Real.sqrt 2 = 2 := Real.mul_self_sqrt (by norm_num)
    have h0 : Real.sqrt 2 ≠ 0 := by positivity
    rw [gapOf, if_pos rfl, gpsrRule, this, if_neg (by simp [h0]), shiftWeight, if_pos rfl]
    congr 2
    funext u d
    field_simp
    linear_combination (-(u - d)) * h2

/-- The expectation value with the angle of the gate at index `k` changed by `δ`. -/
noncomputable def turnedVal (n : ℕ) (values : Values) (gs : List Gate) (nss : List (List StdNoise)) (st : State) (p : String)
    (k : ℕ) (δ : ℝ) (O : Matrix (Lab n) (Lab n) ℂ) : ℝ :=
  expVal O (matRun n (altAt (stepsOf n values p gs nss) (values.real p) k (values.real p + δ)) (st.mat n))

/-- What the code computes for the parameter `p`, if it uses the weight `w k` for the gate at index `k`. -/
noncomputable def codeGrad (n : ℕ) (values : Values) (gs : List Gate) (nss : List (List StdNoise)) (st : State)
    (Os : List (Matrix (Lab n) (Lab n) ℂ)) (w : ℕ → ℝ) (p : String) : List ℝ :=
  Os.map fun O => ((paramIndices gs p).map fun k =>
    w k * (turnedVal n values gs nss st p k gpsrShift O - turnedVal n values gs nss st p k (-gpsrShift) O)).sum

/-- Whether the gate at index `k` is controlled. -/
def ctlAt (gs : List Gate) (k : ℕ) : Bool := ((gs[k]?).map fun g => isControlled g.control).getD false

theorem ctlAt_eq {k : ℕ} (hk : k < gs.length) : ctlAt gs k = isControlled gs[k].control := by
  rw [ctlAt, List.getElem?_eq_getElem hk]; rfl

theorem BaseSetting.shiftJvp_eq (h : BaseSetting so n values gs nss st obs Os) (hr : ∀ g ∈ gs, g.Registered) (eigh : Eigh)
    {F : GateArg → Values → Py (List ℝ)}
    (hF : ∀ gs' : List Gate, (∀ g ∈ gs', g.Registered) → Variant n gs gs' values →
      F (.list gs') values = gatesExpectation so st obs (.list gs') values)
    {p : String} {k : ℕ} (hk : k ∈ paramIndices gs p) :
    shiftJvp eigh F gs values k = .ok (Os.map fun O => shiftWeight (ctlAt gs k) *
      (turnedVal n values gs nss st p k gpsrShift O - turnedVal n values gs nss st p k (-gpsrShift) O)) := by
  obtain ⟨hlt, hu⟩ := mem_paramIndices.1 hk
  have hmem := List.getElem_mem hlt
  obtain ⟨s, hs⟩ := h.std _ hmem
  obtain ⟨sh, R, hR⟩ := hs.named hu
  have hreg : ∀ δ, ∀ g ∈ gs.set k (shifted gs[k] δ), g.Registered := by
    intro δ g hg
    rcases List.mem_or_eq_of_mem_set hg with hg | rfl
    · exact hr g hg
    · exact shifted_registered (hr _ hmem) hu δ
  have hvar := fun δ => h.variant_shifted (fun g hg _ => hr g hg) hlt hu δ
  have hev := fun δ => h.eval_shifted (fun g hg _ => hr g hg) hlt hu δ
  rw [shiftJvp, List.getElem?_eq_getElem hlt]
  simp only [hR.gap' eigh (hr _ hmem), alter_eq hlt hu, bind, Except.bind, hF _ (hreg _) (hvar _), hev]
  rw [gpsrRule_gapOf, zipWith_map_self, ctlAt_eq hlt]
  rfl

theorem BaseSetting.repeated_eq (h : BaseSetting so n values gs nss st obs Os) (hr : ∀ g ∈ gs, g.Registered) (eigh : Eigh)
    {F : GateArg → Values → Py (List ℝ)}
    (hF : ∀ gs' : List Gate, (∀ g ∈ gs', g.Registered) → Variant n gs gs' values →
      F (.list gs') values = gatesExpectation so st obs (.list gs') values)
    {p : String} (hp : ∃ g ∈ gs, g.Uses p) :
    repeatedJvp eigh F gs values p
      = .ok (some (codeGrad n values gs nss st Os (fun k => shiftWeight (ctlAt gs k)) p)) := by
  have hne : paramIndices gs p ≠ [] := by
    obtain ⟨g, hg, hu⟩ := hp
    obtain ⟨k, hk, rfl⟩ := List.mem_iff_getElem.1 hg
    exact List.ne_nil_of_mem (mem_paramIndices.2 ⟨hk, hu⟩)
  rw [repeatedJvp, mapM_ok_map fun k hk => h.shiftJvp_eq hr eigh hF hk]
  simp only [bind, Except.bind, pure, Except.pure]
  rw [sumVecs_map _ hne, codeGrad]

theorem BaseSetting.bwd_repeated (h : BaseSetting so n values gs nss st obs Os) (hs : ¬ SingleUse gs)
    (hr : ∀ g ∈ gs, g.Registered) (eigh : Eigh)
    (hall : ∀ p ∈ values.keys, ∃ g ∈ gs, g.Uses p) {F : GateArg → Values → Py (List ℝ)}
    (hF : ∀ gs' : List Gate, (∀ g ∈ gs', g.Registered) → Variant n gs gs' values →
      F (.list gs') values = gatesExpectation so st obs (.list gs') values) :
    gpsrBwd eigh F (.list gs) values
      = .ok (values.keys.map fun p => (codeGrad n values gs nss st Os (fun k => shiftWeight (ctlAt gs k)) p).sum) := by
  have hgt := h.names_gt hs hall
  rw [gpsrBwd]
  simp only [if_pos hgt, h.hasRepeated_eq hs, bind, Except.bind, if_true]
  rw [mapM_ok_map fun p hp => h.repeated_eq hr eigh hF (hall p hp)]
  exact stackSum_some _ (h.keys_ne hs) _

/-- Whether the last gate with the parameter `p` is controlled. -/
def lastCtl (gs : List Gate) (p : String) : Bool := ctlAt gs ((paramIndices gs p).getLastD 0)

theorem getLastD_map {α β : Type} (l : List α) (f : α → β) (hl : l ≠ []) (a : α) (b : β) :
    (l.map f).getLastD b = f (l.getLastD a) := by
  rw [List.getLastD_eq_getLast?, List.getLastD_eq_getLast?, List.getLast?_map, List.getLast?_eq_some_getLast hl]; rfl

theorem BaseSetting.jvp_repeated (h : BaseSetting so n values gs nss st obs Os) (hs : ¬ SingleUse gs)
    (hr : ∀ g ∈ gs, (∃ p, g.Uses p) → g.Registered) (eigh : Eigh)
    (hall : ∀ p ∈ values.keys, ∃ g ∈ gs, g.Uses p) {fresh : ℕ → String} (hf : Function.Injective fresh)
    (ts : List ℝ) {F : GateArg → Values → Py (List ℝ)}
    (hF : ∀ gs' v', Variant n gs gs' v' → F (.list gs') v' = gatesExpectation so st obs (.list gs') v') :
    ∃ fwd, gatesExpectation so st obs (.list gs) values = .ok fwd ∧ fwd.length = obs.length ∧
      gpsrJvp eigh fresh F (.list gs) values ts
        = .ok (fwd, List.ofFn fun i : Fin fwd.length => (List.zipWith (fun p t =>
          (codeGrad n values gs nss st Os (fun _ => shiftWeight (lastCtl gs p)) p).getD i 0 * t) values.keys ts).sum) := by
  have hgt := h.names_gt hs hall
  refine ⟨_, h.eval_self, by simp [h.fixed.length_eq], ?_⟩
  set vm := valuesMap gs values.keys with hvm
  have hvne : vm ≠ [] := by
    rw [SingleUse, List.pairwise_iff_getElem] at hs
    push Not at hs
    obtain ⟨k, j, hk, hj, hkj, p, hu, -⟩ := hs
    exact List.ne_nil_of_mem (a := (k, p)) (mem_valuesMap.2 ⟨(h.key_of_uses (List.getElem_mem hk) hu).1,
      mem_paramIndices.2 ⟨hk, hu⟩⟩)
  have hvals : vm.mapM (fun e => values.get e.2) = .ok (vm.map fun e => .num (values.real e.2)) := by
    refine mapM_ok_map fun e he => ?_
    obtain ⟨hlt, hu⟩ := mem_paramIndices.1 (mem_valuesMap.1 he).2
    rw [Values.get, (h.key_of_uses (List.getElem_mem hlt) hu).2]
  have hgaps : vm.mapM (fun e => do
        let gg ← (paramIndices gs e.2).mapM fun i => match (createRenamed fresh gs values.keys)[i]? with
          | some g => g.spectralGap eigh
          | none => Except.error (α := ℝ) Err.indexError
        pure (gg.getLastD 0) : _ → Py ℝ) = .ok (vm.map fun e => gapOf (lastCtl gs e.2)) := by
    refine mapM_ok_map fun e he => ?_
    have hp := (mem_valuesMap.1 he).1
    have : ((paramIndices gs e.2).mapM fun i => match (createRenamed fresh gs values.keys)[i]? with
          | some g => g.spectralGap eigh
          | none => Except.error (α := ℝ) Err.indexError) = .ok ((paramIndices gs e.2).map fun k => gapOf (ctlAt gs k)) := by
      refine mapM_ok_map fun i hi => ?_
      obtain ⟨hlt, hu⟩ := mem_paramIndices.1 hi
      have hlt' : i < (createRenamed fresh gs values.keys).length := by rwa [createRenamed_length]
      have hm := List.getElem_mem hlt
      obtain ⟨s, hstd⟩ := h.std _ hm
      obtain ⟨sh, R, hR⟩ := hstd.named hu
      rw [List.getElem?_eq_getElem hlt', createRenamed_uses hlt hu hp]
      have := (hR.newNamed (hr _ hm ⟨_, hu⟩) (fresh i)).gap' eigh (newNamed_registered (hr _ hm ⟨_, hu⟩) _)
      rw [newNamed_control, ← ctlAt_eq hlt] at this
      exact this
    simp only [this, bind, Except.bind, pure, Except.pure]
    rw [getLastD_map _ _ (List.ne_nil_of_mem (mem_valuesMap.1 he).2) 0]
    rfl
  have hzip : (vm.map fun e => fresh e.1).zip (vm.map fun e => PyVal.num (values.real e.2))
      = vm.map fun e => (fresh e.1, .num (values.real e.2)) := by
    rw [List.zip_map', ]
  have hscan : jvpScan F (.list (createRenamed fresh gs values.keys)) (vm.map fun e => fresh e.1)
      (vm.map fun e => values.real e.2) (vm.map fun e => gapOf (lastCtl gs e.2))
      = .ok (vm.map fun e => Os.map fun O => shiftWeight (lastCtl gs e.2) *
        (turnedVal n values gs nss st e.2 e.1 gpsrShift O - turnedVal n values gs nss st e.2 e.1 (-gpsrShift) O)) := by
    rw [jvpScan, List.length_map]
    refine mapM_range _ fun i hi => ?_
    have hgap : (vm.map fun e => gapOf (lastCtl gs e.2)).getD i 0 = gapOf (lastCtl gs vm[i].2) := by
      simp [List.getD_eq_getElem?_getD, hi]
    have hev : ∀ δ, F (.list (createRenamed fresh gs values.keys))
        (tempValues fresh vm values.real i δ)
      = .ok (Os.map fun O => expVal O (matRun n (altAt (stepsOf n values vm[i].2 gs nss)
        (values.real vm[i].2) vm[i].1 (values.real vm[i].2 + δ)) (st.mat n))) := fun δ =>
      (hF _ _ (h.variant_renamed hr hf hi δ)).trans (h.eval_renamed hr hf hi δ)
    rw [jvpRow, hgap]
    simp only [shiftAt_temp, hev, bind, Except.bind]
    rw [gpsrRule_gapOf, zipWith_map_self]
    rfl
  have hregroup : values.keys.mapM (fun p =>
        match sumVecs (((vm.zip (vm.map fun e => Os.map fun O => shiftWeight (lastCtl gs e.2) *
          (turnedVal n values gs nss st e.2 e.1 gpsrShift O - turnedVal n values gs nss st e.2 e.1 (-gpsrShift) O))).filter
            fun e => e.1.2 = p).map Prod.snd) with
        | some v => Except.ok v
        | none => Except.error Err.valueError) = .ok (values.keys.map fun p =>
          codeGrad n values gs nss st Os (fun _ => shiftWeight (lastCtl gs p)) p) := by
    refine mapM_ok_map fun p hp => ?_
    have hz : ∀ (f : ℕ × String → List ℝ) (l : List (ℕ × String)),
        ((l.zip (l.map f)).filter fun e => e.1.2 = p).map Prod.snd = (l.filter fun e => e.2 = p).map f := by
      intro f l
      induction l with
      | nil => rfl
      | cons a l ih =>
        by_cases ha : a.2 = p
        · simp [List.filter_cons, ha, ih]
        · simp [List.filter_cons, ha, ih]
    rw [hz, hvm, valuesMap_filter (keys := values.keys) h.numeric.nodup hp, List.map_map]
    simp only [Function.comp_def]
    have hne : paramIndices gs p ≠ [] := by
      obtain ⟨g, hg, hu⟩ := hall p hp
      obtain ⟨k, hk, rfl⟩ := List.mem_iff_getElem.1 hg
      exact List.ne_nil_of_mem (mem_paramIndices.2 ⟨hk, hu⟩)
    rw [sumVecs_map _ hne]
    rfl
  have hflat : (values.keys.flatMap fun p => (paramIndices gs p).map fun i => (i, p)) = vm := rfl
  rw [gpsrJvp, hF _ _ h.variant_self, h.eval_self]
  have hb : ∀ {α β : Type} {x : Py α} {a : α} (_ : x = .ok a) (f : α → Py β), x >>= f = f a := by
    intro α β x a hx f; rw [hx]; rfl
  refine (hb rfl _).trans ?_
  simp only [if_pos hgt]
  refine (hb (h.hasRepeated_eq hs) _).trans ?_
  rw [if_pos rfl]
  simp only [hflat]
  refine (hb hvals _).trans ?_
  refine (hb hgaps _).trans ?_
  rw [hzip]
  refine (hb (stackValues_map vm hvne _ _) _).trans ?_
  refine (hb hscan _).trans ?_
  refine (hb hregroup _).trans ?_
  rw [contract_map]
  rfl

/-! ## The error -/

theorem shiftTerm4_exp (h : BaseSetting so n values gs nss st obs Os) {p : String} {k : ℕ} (hk : k ∈ paramIndices gs p)
    (O : Matrix (Lab n) (Lab n) ℂ) :
    expVal O (shiftTerm4 (stepsOf n values p gs nss) (values.real p) (st.mat n) k)
      = (turnedVal n values gs nss st p k gpsrShift O - turnedVal n values gs nss st p k (-gpsrShift) O) / 2
        - (Real.sqrt 2 - 1) / 4 * (turnedVal n values gs nss st p k Real.pi O - turnedVal n values gs nss st p k (-Real.pi) O) := by
  have h1 := h.rot p k
  rw [show ((gs[k]?.bind Gate.paramName) == some p) = true from (List.mem_filter.1 hk).2] at h1
  rw [shiftTerm4, h1, if_pos rfl, expVal_term4, gpsrShift, sub_eq_add_neg (values.real p), sub_eq_add_neg (values.real p)]
  rfl

theorem BaseSetting.grad4_eq (h : BaseSetting so n values gs nss st obs Os) (p : String) (O : Matrix (Lab n) (Lab n) ℂ) :
    expVal O (∑ k ∈ Finset.range gs.length, shiftTerm4 (stepsOf n values p gs nss) (values.real p) (st.mat n) k)
      = ((paramIndices gs p).map fun k => expVal O (shiftTerm4 (stepsOf n values p gs nss) (values.real p) (st.mat n) k)).sum := by
  rw [expVal_sum, paramIndices, ← sum_filter_list]
  · rfl
  · intro k _ hk
    have h1 := h.rot p k
    rw [hk] at h1
    rw [shiftTerm4, h1]
    exact expVal_zero O

/-- The code's gradient is the true gradient plus the errors of the gates. -/
theorem BaseSetting.codeGrad_eq (h : BaseSetting so n values gs nss st obs Os) (w : ℕ → ℝ) (p : String) :
    codeGrad n values gs nss st Os w p = Os.map fun O =>
      expVal O (∑ k ∈ Finset.range gs.length, shiftTerm4 (stepsOf n values p gs nss) (values.real p) (st.mat n) k)
      + ((paramIndices gs p).map fun k =>
        (w k - 1 / 2) * (turnedVal n values gs nss st p k (Real.pi / 2) O - turnedVal n values gs nss st p k (-(Real.pi / 2)) O)
        + (Real.sqrt 2 - 1) / 4 * (turnedVal n values gs nss st p k Real.pi O - turnedVal n values gs nss st p k (-Real.pi) O)).sum := by
  refine List.map_congr_left fun O _ => ?_
  rw [h.grad4_eq, ← List.sum_map_add]
  refine congrArg List.sum (List.map_congr_left fun k hk => ?_)
  rw [shiftTerm4_exp h hk, gpsrShift]
  ring

theorem altAt_congr {l : List (PStep n)} {x y y' : ℝ} {k : ℕ}
    (h : ∀ e, l[k]? = some e → ∀ X, conjBy (e.M y) X = conjBy (e.M y') X) (ρ : Matrix (Lab n) (Lab n) ℂ) :
    matRun n (altAt l x k y) ρ = matRun n (altAt l x k y') ρ := by
  induction l generalizing k ρ with
  | nil => rfl
  | cons e l ih =>
    cases k with
    | zero =>
      rw [altAt_zero, altAt_zero, matRun, matRun, noisyStep, noisyStep, h e rfl]
    | succ k =>
      rw [altAt_succ, altAt_succ, matRun, matRun]
      exact ih (fun e he => h e he) _

/-- The expectation value has period `2π` in the angle of an uncontrolled rotation. -/
theorem BaseSetting.turned_pi (h : BaseSetting so n values gs nss st obs Os) {p : String} {k : ℕ}
    (hk : k ∈ paramIndices gs p) (hc : ctlAt gs k = false) (O : Matrix (Lab n) (Lab n) ℂ) :
    turnedVal n values gs nss st p k Real.pi O = turnedVal n values gs nss st p k (-Real.pi) O := by
  obtain ⟨hlt, hu⟩ := mem_paramIndices.1 hk
  rw [ctlAt_eq hlt] at hc
  obtain ⟨s, hs⟩ := h.std _ (List.getElem_mem hlt)
  have hctl : ctlInts gs[k].control = [] := by
    rcases hs.valid.ctl with e | e | ⟨cs, e⟩
    · rw [e]; rfl
    · rw [e]; rfl
    · cases cs with
      | nil => rw [e]; rfl
      | cons c cs => rw [e] at hc; cases hc
  rw [turnedVal, turnedVal]
  refine congrArg (expVal O) (altAt_congr (fun e he X => ?_) _)
  rw [stepsOf, List.getElem?_map, List.getElem?_eq_getElem (by
    have := h.noise.length_eq
    simp only [List.length_zip]; omega), List.getElem_zip] at he
  cases he
  have hg := stepOf_good (p := p) hs (fun _ => .inl hctl) (nss[k]'(h.noise.length_eq ▸ hlt))
  have hrot : (stepOf n values p (gs[k], nss[k]'(h.noise.length_eq ▸ hlt))).rot = true := by
    simpa [stepOf] using (Gate.uses_iff _ _).1 hu
  rw [PStep.Good, if_pos hrot] at hg
  obtain ⟨sh, A, B, C, -, -, -, hg⟩ := hg
  rw [hg, hg, show values.real p + Real.pi + sh = values.real p + sh + Real.pi by ring,
    show values.real p + -Real.pi + sh = values.real p + sh - Real.pi by ring, Real.cos_add_pi, Real.sin_add_pi,
    Real.cos_sub_pi, Real.sin_sub_pi]

theorem lastCtl_eq {p : String} {k : ℕ} (hk : k < gs.length) (hu : gs[k].Uses p)
    (hl : ∀ j (hj : j < gs.length), k < j → ¬ gs[j].Uses p) : lastCtl gs p = isControlled gs[k].control := by
  have hm : k ∈ paramIndices gs p := mem_paramIndices.2 ⟨hk, hu⟩
  have hne : paramIndices gs p ≠ [] := List.ne_nil_of_mem hm
  have hlast := mem_paramIndices.1 (List.getLast_mem hne)
  have hpw : (paramIndices gs p).Pairwise (· < ·) := List.pairwise_lt_range.filter _
  have hle : (paramIndices gs p).getLast hne = k := by
    obtain ⟨h1, h2⟩ := hlast
    have h3 : (paramIndices gs p).getLast hne ≤ k := by
      by_contra hlt
      exact hl _ h1 (not_le.1 hlt) h2
    refine le_antisymm h3 ?_
    rw [← List.dropLast_append_getLast hne, List.pairwise_append] at hpw
    rw [← List.dropLast_append_getLast hne, List.mem_append] at hm
    rcases hm with hm | hm
    · exact (hpw.2.2 _ hm _ (by simp)).le
    · exact (List.mem_singleton.1 hm).le
  rw [lastCtl, List.getLastD_eq_getLast?, List.getLast?_eq_some_getLast hne, Option.getD_some, hle, ctlAt_eq hk]

end Verif
