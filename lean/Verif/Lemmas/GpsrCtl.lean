import Verif.Lemmas.GpsrPlain

/-! # The four-term parameter-shift rule of controlled rotations -/

namespace Verif
set_option autoImplicit false
open NDArray
variable {n : ℕ} {so : SetOrder} {values : Values} {gs : List Gate} {nss : List (List StdNoise)} {st : State}
  {obs : List Observable} {Os : List (Matrix (Lab n) (Lab n) ℂ)}

/-! ## Controlled rotations -/

/-- A gate whose action is a controlled rotation by the parameter plus `s`: it has the frequencies `1/2` and `1`. -/
def IsCtlRot (s : ℝ) (M : ℝ → Matrix (Lab n) (Lab n) ℂ) : Prop :=
  ∃ A B C D F : Matrix (Lab n) (Lab n) ℂ → Matrix (Lab n) (Lab n) ℂ, IsLin A ∧ IsLin B ∧ IsLin C ∧ IsLin D ∧ IsLin F ∧
    ∀ x X, conjBy (M x) X = A X + ((Real.cos ((x + s) / 2) : ℂ) • B X + (Real.sin ((x + s) / 2) : ℂ) • C X)
      + ((Real.cos (x + s) : ℂ) • D X + (Real.sin (x + s) : ℂ) • F X)

theorem IsRot.ctl {s : ℝ} {M : ℝ → Matrix (Lab n) (Lab n) ℂ} (h : IsRot s M) : IsCtlRot s M := by
  obtain ⟨A, B, C, hA, hB, hC, h⟩ := h
  have h0 : IsLin fun _ : Matrix (Lab n) (Lab n) ℂ => (0 : Matrix (Lab n) (Lab n) ℂ) := ⟨fun _ _ => by simp, fun _ _ => by simp⟩
  refine ⟨A, _, _, B, C, hA, h0, h0, hB, hC, fun x X => ?_⟩
  rw [h]; simp

theorem isCtlRot_of {M : ℝ → Matrix (Lab n) (Lab n) ℂ} {s : ℝ} (P V W : Matrix (Lab n) (Lab n) ℂ)
    (h : ∀ x, M x = P + (Real.cos ((x + s) / 2) : ℂ) • V + (Real.sin ((x + s) / 2) : ℂ) • W) : IsCtlRot s M := by
  refine ⟨fun X => P * X * P.conjTranspose + (1 / 2 : ℂ) • (V * X * V.conjTranspose + W * X * W.conjTranspose),
    fun X => P * X * V.conjTranspose + V * X * P.conjTranspose, fun X => P * X * W.conjTranspose + W * X * P.conjTranspose,
    fun X => (1 / 2 : ℂ) • (V * X * V.conjTranspose + (-1 : ℂ) • (W * X * W.conjTranspose)),
    fun X => (1 / 2 : ℂ) • (V * X * W.conjTranspose + W * X * V.conjTranspose),
    (isLin_mul _ _).plus (((isLin_mul _ _).plus (isLin_mul _ _)).scale _), (isLin_mul _ _).plus (isLin_mul _ _),
    (isLin_mul _ _).plus (isLin_mul _ _), ((isLin_mul _ _).plus ((isLin_mul _ _).scale _)).scale _,
    ((isLin_mul _ _).plus (isLin_mul _ _)).scale _, fun x X => ?_⟩
  rw [h]
  have e1 : ((Real.cos ((x + s) / 2) : ℝ) : ℂ) * (Real.cos ((x + s) / 2) : ℝ) = 1 / 2 + (Real.cos (x + s) : ℝ) / 2 := by
    have := Real.cos_sq ((x + s) / 2)
    rw [show 2 * ((x + s) / 2) = x + s by ring, sq] at this
    rw [← Complex.ofReal_mul, this]; push_cast; ring
  have e2 : ((Real.sin ((x + s) / 2) : ℝ) : ℂ) * (Real.sin ((x + s) / 2) : ℝ) = 1 / 2 - (Real.cos (x + s) : ℝ) / 2 := by
    have h1 := csq_add_ssq ((x + s) / 2)
    rw [e1] at h1
    linear_combination h1
  have e3 : ((Real.cos ((x + s) / 2) : ℝ) : ℂ) * (Real.sin ((x + s) / 2) : ℝ) = (Real.sin (x + s) : ℝ) / 2 := by
    have := Real.sin_two_mul ((x + s) / 2)
    rw [show 2 * ((x + s) / 2) = x + s by ring] at this
    rw [this]; push_cast; ring
  have hs : ∀ r : ℝ, star (r : ℂ) = r := Complex.conj_ofReal
  simp only [conjBy, Matrix.conjTranspose_add, Matrix.conjTranspose_smul, Matrix.add_mul, Matrix.mul_add, Matrix.smul_mul,
    Matrix.mul_smul, smul_smul, hs]
  generalize ((Real.cos ((x + s) / 2) : ℝ) : ℂ) = c at e1 e3 ⊢
  generalize ((Real.sin ((x + s) / 2) : ℝ) : ℂ) = d at e2 e3 ⊢
  ext i j
  simp only [Matrix.add_apply, Matrix.smul_apply, smul_eq_mul]
  linear_combination ((V * X * V.conjTranspose) i j) * e1 + ((W * X * W.conjTranspose) i j) * e2
    + ((V * X * W.conjTranspose) i j + (W * X * V.conjTranspose) i j) * e3

theorem RotFam.isCtlRot {R : ℝ → StdGate} (h : RotFam R) (s : ℝ) (t : ℕ) (cs : List ℕ) :
    IsCtlRot s fun x => gateMat n (R (x + s)).mat [t] cs := by
  have key : ∀ {a b c d a' b' c' d' : ℂ}, (∀ y : ℝ, ∀ i j, i < 2 → j < 2 → (R y).mat i j
      = (Real.cos (y / 2) : ℝ) * matE !![a, b; c, d] i j + (Real.sin (y / 2) : ℝ) * matE !![a', b'; c', d'] i j) →
      IsCtlRot s fun x => gateMat n (R (x + s)).mat [t] cs := by
    intro a b c d a' b' c' d' hR
    refine isCtlRot_of (gateMat n (fun _ _ => 0) [t] cs)
      (gateMat n (matE !![a, b; c, d]) [t] cs - gateMat n (fun _ _ => 0) [t] cs)
      (gateMat n (matE !![a', b'; c', d']) [t] cs - gateMat n (fun _ _ => 0) [t] cs) fun x => ?_
    rw [← gateMat_affine]
    exact gateMat_congr (by simpa using hR (x + s))
  have ent : ∀ {a b c d : ℂ} {i j : ℕ}, i < 2 → j < 2 → matE !![a, b; c, d] i j
      = if i = 0 then (if j = 0 then a else b) else (if j = 0 then c else d) := fun hi hj => matE_two _ _ _ _ _ _ hi hj
  cases h with
  | RX =>
    refine key (a := 1) (b := 0) (c := 0) (d := 1) (a' := 0) (b' := -Complex.I) (c' := -Complex.I) (d' := 0)
      fun y i j hi hj => ?_
    rw [StdGate.mat, ent hi hj, ent hi hj, ent hi hj]
    split_ifs <;> ring
  | RY =>
    refine key (a := 1) (b := 0) (c := 0) (d := 1) (a' := 0) (b' := -1) (c' := 1) (d' := 0) fun y i j hi hj => ?_
    rw [StdGate.mat, ent hi hj, ent hi hj, ent hi hj]
    split_ifs <;> ring
  | RZ =>
    refine key (a := 1) (b := 0) (c := 0) (d := 1) (a' := -Complex.I) (b' := 0) (c' := 0) (d' := Complex.I)
      fun y i j hi hj => ?_
    rw [StdGate.mat, ent hi hj, ent hi hj, ent hi hj, exp_half, exp_neg_half]
    split_ifs <;> ring
  | PHASE => exact (phase_isRot s t cs).ctl

/-- The four-term shift rule. -/
noncomputable def term4 (f : ℝ → Matrix (Lab n) (Lab n) ℂ) (x : ℝ) : Matrix (Lab n) (Lab n) ℂ :=
  (1 / 2 : ℂ) • (f (x + Real.pi / 2) - f (x - Real.pi / 2))
    - (((Real.sqrt 2 - 1) / 4 : ℝ) : ℂ) • (f (x + Real.pi) - f (x - Real.pi))

theorem IsLin.term4 {L : Matrix (Lab n) (Lab n) ℂ → Matrix (Lab n) (Lab n) ℂ} (h : IsLin L)
    (f : ℝ → Matrix (Lab n) (Lab n) ℂ) (x : ℝ) : L (term4 f x) = Verif.term4 (fun y => L (f y)) x := by
  simp only [Verif.term4, h.sub, h.smul]

theorem IsCtlRot.deriv {s : ℝ} {M : ℝ → Matrix (Lab n) (Lab n) ℂ} (h : IsCtlRot s M) {σ : ℝ → Matrix (Lab n) (Lab n) ℂ}
    {σ' : Matrix (Lab n) (Lab n) ℂ} {x : ℝ} (hσ : MatDeriv σ σ' x) :
    MatDeriv (fun t => conjBy (M t) (σ t)) (conjBy (M x) σ' + term4 (fun y => conjBy (M y) (σ x)) x) x := by
  obtain ⟨A, B, C, D, F, hA, hB, hC, hD, hF, h⟩ := h
  simp only [h, term4]
  have hc : HasDerivAt (fun t : ℝ => Real.cos (t + s)) (-Real.sin (x + s)) x := by
    simpa using (Real.hasDerivAt_cos (x + s)).comp_add_const x s
  have hs : HasDerivAt (fun t : ℝ => Real.sin (t + s)) (Real.cos (x + s)) x := by
    simpa using (Real.hasDerivAt_sin (x + s)).comp_add_const x s
  have hid : HasDerivAt (fun t : ℝ => (t + s) / 2) (1 / 2) x := ((hasDerivAt_id x).add_const s).div_const 2
  have hc2 : HasDerivAt (fun t : ℝ => Real.cos ((t + s) / 2)) (-Real.sin ((x + s) / 2) * (1 / 2)) x := hid.cos
  have hs2 : HasDerivAt (fun t : ℝ => Real.sin ((t + s) / 2)) (Real.cos ((x + s) / 2) * (1 / 2)) x := hid.sin
  have := ((hσ.lin hA).add (((hσ.lin hB).smul hc2).add ((hσ.lin hC).smul hs2))).add
    (((hσ.lin hD).smul hc).add ((hσ.lin hF).smul hs))
  convert this using 1
  have a1 : x + Real.pi / 2 + s = x + s + Real.pi / 2 := by ring
  have a2 : x - Real.pi / 2 + s = x + s - Real.pi / 2 := by ring
  have a3 : x + Real.pi + s = x + s + Real.pi := by ring
  have a4 : x - Real.pi + s = x + s - Real.pi := by ring
  have b1 : (x + s + Real.pi / 2) / 2 = (x + s) / 2 + Real.pi / 4 := by ring
  have b2 : (x + s - Real.pi / 2) / 2 = (x + s) / 2 - Real.pi / 4 := by ring
  have b3 : (x + s + Real.pi) / 2 = (x + s) / 2 + Real.pi / 2 := by ring
  have b4 : (x + s - Real.pi) / 2 = (x + s) / 2 - Real.pi / 2 := by ring
  rw [a1, a2, a3, a4, b1, b2, b3, b4, Real.cos_add_pi_div_two, Real.sin_add_pi_div_two, Real.cos_sub_pi_div_two,
    Real.sin_sub_pi_div_two, Real.cos_add_pi, Real.sin_add_pi, Real.cos_sub_pi, Real.sin_sub_pi,
    Real.cos_add_pi_div_two, Real.sin_add_pi_div_two, Real.cos_sub_pi_div_two, Real.sin_sub_pi_div_two,
    Real.cos_add ((x + s) / 2), Real.cos_sub ((x + s) / 2), Real.sin_add ((x + s) / 2), Real.sin_sub ((x + s) / 2), Real.cos_pi_div_four, Real.sin_pi_div_four]
  ext i j
  simp only [Matrix.add_apply, Matrix.smul_apply, Matrix.sub_apply, smul_eq_mul, Complex.ofReal_neg, Complex.ofReal_add,
    Complex.ofReal_mul, Complex.ofReal_sub, Complex.ofReal_div, Complex.ofReal_one, Complex.ofReal_ofNat]
  ring

/-- A controlled rotation by the parameter, or independent of it. -/
def PStep.CGood (e : PStep n) : Prop := if e.rot then ∃ s, IsCtlRot s e.M else ∀ x y, e.M x = e.M y

/-- The contribution of step `k` to the derivative. -/
noncomputable def shiftTerm4 (l : List (PStep n)) (x : ℝ) (ρ : Matrix (Lab n) (Lab n) ℂ) (k : ℕ) :
    Matrix (Lab n) (Lab n) ℂ :=
  if (l[k]?.map PStep.rot).getD false then term4 (fun y => matRun n (altAt l x k y) ρ) x else 0

/-- The product rule. -/
theorem deriv_run4 {l : List (PStep n)} (h : ∀ e ∈ l, e.CGood) {σ : ℝ → Matrix (Lab n) (Lab n) ℂ}
    {σ' : Matrix (Lab n) (Lab n) ℂ} {x : ℝ} (hσ : MatDeriv σ σ' x) :
    MatDeriv (fun t => matRun n (evalAt l t) (σ t))
      (matRun n (evalAt l x) σ' + ∑ k ∈ Finset.range l.length, shiftTerm4 l x (σ x) k) x := by
  induction l generalizing σ σ' with
  | nil => simpa [evalAt, matRun] using hσ
  | cons e l ih =>
    have he := h e (by simp)
    have hstep : MatDeriv (fun t => noisyStep n (e.M t) e.t e.ns (σ t))
        (noisyStep n (e.M x) e.t e.ns σ' +
          if e.rot then term4 (fun y => noisyStep n (e.M y) e.t e.ns (σ x)) x else 0) x := by
      by_cases hr : e.rot
      · simp only [PStep.CGood, hr, if_true] at he ⊢
        obtain ⟨s, he⟩ := he
        have := (he.deriv hσ).lin (isLin_chans e.t e.ns)
        rwa [(isLin_chans e.t e.ns).add, (isLin_chans e.t e.ns).term4] at this
      · simp only [PStep.CGood, hr, Bool.false_eq_true, if_false, add_zero] at he ⊢
        have := hσ.lin (isLin_noisyStep (e.M x) e.t e.ns)
        have hM : ∀ t, e.M t = e.M x := fun t => he t x
        simpa only [hM] using this
    have := ih (fun e he => h e (by simp [he])) hstep
    have hrun : ∀ t, matRun n (evalAt (e :: l) t) (σ t) = matRun n (evalAt l t) (noisyStep n (e.M t) e.t e.ns (σ t)) :=
      fun t => rfl
    simp only [hrun]
    convert this using 1
    rw [List.length_cons, Finset.sum_range_succ', (isLin_matRun _).add]
    have e0 : shiftTerm4 (e :: l) x (σ x) 0 = matRun n (evalAt l x)
        (if e.rot then term4 (fun y => noisyStep n (e.M y) e.t e.ns (σ x)) x else 0) := by
      rw [shiftTerm4]
      simp only [altAt_zero, List.getElem?_cons_zero, Option.map_some, Option.getD_some]
      split_ifs
      · rw [(isLin_matRun _).term4]; rfl
      · rw [(isLin_matRun _).zero]
    have e1 : ∀ k, shiftTerm4 (e :: l) x (σ x) (k + 1) = shiftTerm4 l x (noisyStep n (e.M x) e.t e.ns (σ x)) k := by
      intro k
      rw [shiftTerm4, shiftTerm4]
      simp only [altAt_succ]; rfl
    rw [e0, Finset.sum_congr rfl fun k _ => e1 k]
    change matRun n (evalAt l x) (noisyStep n (e.M x) e.t e.ns σ') + _ = _
    abel

/-- If at most one gate has the parameter `p`, the sum of the contributions is the rule for the whole run. -/
theorem shiftTerm4_single {l : List (PStep n)} (h : ∀ e ∈ l, e.CGood)
    (hu : ∀ i j : ℕ, (l[i]?.map PStep.rot).getD false = true → (l[j]?.map PStep.rot).getD false = true → i = j)
    (x : ℝ) (ρ : Matrix (Lab n) (Lab n) ℂ) :
    ∑ k ∈ Finset.range l.length, shiftTerm4 l x ρ k = term4 (fun y => matRun n (evalAt l y) ρ) x := by
  have hconst : ∀ (k : ℕ) (y : ℝ), (∀ i, i ≠ k → (l[i]?.map PStep.rot).getD false = false) → altAt l x k y = evalAt l y := by
    intro k y hk
    refine List.ext_getElem? fun j => ?_
    rw [altAt, evalAt, List.getElem?_mapIdx, List.getElem?_map]
    rcases hj : l[j]? with _ | e
    · rfl
    · simp only [Option.map_some]
      by_cases hjk : j = k
      · rw [if_pos hjk]
      · rw [if_neg hjk]
        have h1 := hk j hjk
        rw [hj] at h1
        have h2 := h e (List.mem_of_getElem? hj)
        simp only [Option.map_some, Option.getD_some] at h1
        simp only [PStep.CGood, h1, Bool.false_eq_true, if_false] at h2
        rw [h2 x y]
  by_cases hex : ∃ k : ℕ, (l[k]?.map PStep.rot).getD false = true
  · obtain ⟨k, hk⟩ := hex
    have hoth : ∀ i, i ≠ k → (l[i]?.map PStep.rot).getD false = false := by
      intro i hi
      by_contra hne
      exact hi (hu i k (by simpa using hne) hk)
    rw [Finset.sum_eq_single k]
    · rw [shiftTerm4, if_pos hk]
      simp only [hconst k _ hoth]
    · intro i _ hi
      rw [shiftTerm4, hoth i hi]; rfl
    · intro hk'
      rw [Finset.mem_range, not_lt] at hk'
      rw [List.getElem?_eq_none hk'] at hk
      cases hk
  · have hoth : ∀ i : ℕ, (l[i]?.map PStep.rot).getD false = false := by
      intro i
      by_contra hne
      exact hex ⟨i, by simpa using hne⟩
    rw [Finset.sum_eq_zero fun k _ => by rw [shiftTerm4, hoth k]; rfl]
    have : ∀ y, evalAt l y = evalAt l x := by
      intro y
      rw [← hconst l.length _ fun i _ => hoth i]
      refine List.ext_getElem? fun j => ?_
      rw [altAt, evalAt, List.getElem?_mapIdx, List.getElem?_map]
      rcases hj : l[j]? with _ | e
      · rfl
      · have : j < l.length := (List.getElem?_eq_some_iff.1 hj).1
        simp only [Option.map_some]
        rw [if_neg (by omega)]
    simp [term4, this]

/-! ## Gates -/

theorem stepOf_cgood {p : String} {g : Gate} {s : StdGate} (h : g.Std n values s) (ns : List StdNoise) :
    (stepOf n values p (g, ns)).CGood := by
  by_cases hu : g.Uses p
  · have : (g.paramName == some p) = true := by simpa using (Gate.uses_iff g p).1 hu
    simp only [PStep.CGood, stepOf, this, if_true]
    obtain ⟨sh, R, hR⟩ := h.named hu
    obtain ⟨x, hx⟩ := h.lookup hu
    obtain ⟨t, ht⟩ := hR.target
    refine ⟨sh, ?_⟩
    have e : (fun x => g.mat n .unitary (values.upd p x)) = fun x => gateMat n (R (x + sh)).mat [t] (ctlInts g.control) := by
      funext y
      rw [(hR.std h.valid (Values.lookup_set_self hx y)).mat, stdMat, ht]
    rw [e]
    exact hR.fam.isCtlRot sh t _
  · have : (g.paramName == some p) = false := by
      simpa using fun h => hu ((Gate.uses_iff g p).2 h)
    simp only [PStep.CGood, stepOf, this, Bool.false_eq_true, if_false]
    have key : ∀ x, g.mat n .unitary (values.upd p x) = stdMat n g s := fun x =>
      (h.congr fun q hq => Values.lookup_set_of_ne (by rintro rfl; exact hu hq) x).mat
    intro x y
    rw [key, key]

theorem BaseSetting.cgood (h : BaseSetting so n values gs nss st obs Os) (p : String) :
    ∀ e ∈ stepsOf n values p gs nss, e.CGood := by
  intro e he
  obtain ⟨⟨g, ns⟩, hg, rfl⟩ := List.mem_map.1 he
  obtain ⟨s, hs⟩ := h.std g (List.of_mem_zip hg).1
  exact stepOf_cgood hs ns

/-- The partial derivatives of the expectation values. -/
noncomputable def gradOf4 (n : ℕ) (values : Values) (gs : List Gate) (nss : List (List StdNoise)) (st : State)
    (Os : List (Matrix (Lab n) (Lab n) ℂ)) (p : String) : List ℝ :=
  Os.map fun O => expVal O (∑ k ∈ Finset.range gs.length, shiftTerm4 (stepsOf n values p gs nss) (values.real p) (st.mat n) k)

theorem BaseSetting.partial4 (h : BaseSetting so n values gs nss st obs Os) {E : Values → Py (List ℝ)} {p : String}
    (hp : p ∈ values.keys) (hE : ∀ x, E (values.upd p x) = gatesExpectation so st obs (.list gs) (values.upd p x)) :
    IsPartial E values p (gradOf4 n values gs nss st Os p) := by
  refine ⟨values.real p, fun t => Os.map fun O => expVal O (matRun n (evalAt (stepsOf n values p gs nss) t) (st.mat n)),
    h.numeric.real hp, fun t => by rw [hE, h.eval], fun t => by simp [gradOf4], fun i => ?_⟩
  have hd := deriv_run4 (h.cgood p) (MatDeriv.const (st.mat n) (values.real p))
  rw [(isLin_matRun _).zero, zero_add, h.length p] at hd
  by_cases hi : i < Os.length
  · simp only [gradOf4, List.getD_eq_getElem?_getD, List.getElem?_map, List.getElem?_eq_getElem hi, Option.map_some,
      Option.getD_some]
    exact expVal_deriv _ hd
  · simp only [gradOf4, List.getD_eq_getElem?_getD, List.getElem?_map, List.getElem?_eq_none (not_lt.1 hi), Option.map_none,
      Option.getD_none]
    exact hasDerivAt_const _ _

theorem expVal_ofReal_smul (O A : Matrix (Lab n) (Lab n) ℂ) (r : ℝ) : expVal O ((r : ℂ) • A) = r * expVal O A := by
  rw [expVal, Matrix.mul_smul, Matrix.trace_smul, smul_eq_mul, Complex.re_ofReal_mul, expVal]

theorem expVal_term4 (O : Matrix (Lab n) (Lab n) ℂ) (f : ℝ → Matrix (Lab n) (Lab n) ℂ) (x : ℝ) :
    expVal O (term4 f x) = (expVal O (f (x + Real.pi / 2)) - expVal O (f (x - Real.pi / 2))) / 2
      - (Real.sqrt 2 - 1) / 4 * (expVal O (f (x + Real.pi)) - expVal O (f (x - Real.pi))) := by
  rw [term4, expVal_sub, expVal_half, expVal_sub, expVal_ofReal_smul, expVal_sub]

/-- At most one step depends on the parameter. -/
theorem BaseSetting.unique (h : BaseSetting so n values gs nss st obs Os) (hs : SingleUse gs) (p : String) (i j : ℕ)
    (hi : ((stepsOf n values p gs nss)[i]?.map PStep.rot).getD false = true)
    (hj : ((stepsOf n values p gs nss)[j]?.map PStep.rot).getD false = true) : i = j := by
  rw [h.rot] at hi hj
  have key : ∀ k : ℕ, ((gs[k]?.bind Gate.paramName) == some p) = true → ∃ hk : k < gs.length, gs[k].Uses p := by
    intro k hk
    by_cases hlt : k < gs.length
    · rw [List.getElem?_eq_getElem hlt] at hk
      exact ⟨hlt, (Gate.uses_iff _ _).2 (by simpa using hk)⟩
    · rw [List.getElem?_eq_none (by omega)] at hk
      simp at hk
  obtain ⟨hi, hiu⟩ := key i hi
  obtain ⟨hj, hju⟩ := key j hj
  have hp := List.pairwise_iff_getElem.1 hs
  rcases lt_trichotomy i j with hlt | he | hlt
  · exact absurd hju (hp i j hi hj hlt p hiu)
  · exact he
  · exact absurd hiu (hp j i hj hi hlt p hju)

/-- The expectation values with the parameter `p` equal to `t`. -/
noncomputable def valuesOf (n : ℕ) (values : Values) (gs : List Gate) (nss : List (List StdNoise)) (st : State)
    (Os : List (Matrix (Lab n) (Lab n) ℂ)) (p : String) (t : ℝ) : List ℝ :=
  Os.map fun O => expVal O (matRun n (evalAt (stepsOf n values p gs nss) t) (st.mat n))

/-- What the two-term rule of the code computes. -/
theorem BaseSetting.halfDiff_eq (h : BaseSetting so n values gs nss st obs Os) (hs : SingleUse gs) (p : String) :
    halfDiff (valuesOf n values gs nss st Os p) (values.real p) = List.zipWith (fun d e => d + (Real.sqrt 2 - 1) / 4 * e)
      (gradOf4 n values gs nss st Os p) (List.zipWith (fun u d => u - d)
        (valuesOf n values gs nss st Os p (values.real p + Real.pi)) (valuesOf n values gs nss st Os p (values.real p - Real.pi))) := by
  simp only [halfDiff, gradOf4, valuesOf, zipWith_map_self]
  refine List.map_congr_left fun O _ => ?_
  rw [← h.length p, shiftTerm4_single (h.cgood p) (h.unique hs p), expVal_term4]
  ring

end Verif
