import Mathlib.Analysis.SpecialFunctions.Trigonometric.Deriv
import Mathlib.Analysis.Calculus.Deriv.Mul
import Verif.Lemmas.Noise
import Verif.AbsOp

/-! # Derivatives of runs of parametric gates -/

namespace Verif
set_option autoImplicit false
variable {n : ℕ}

/-- The entrywise derivative of a matrix function. -/
def MatDeriv (f : ℝ → Matrix (Lab n) (Lab n) ℂ) (f' : Matrix (Lab n) (Lab n) ℂ) (x : ℝ) : Prop :=
  ∀ i j, HasDerivAt (fun t => f t i j) (f' i j) x

/-- A linear map on matrices. -/
structure IsLin (L : Matrix (Lab n) (Lab n) ℂ → Matrix (Lab n) (Lab n) ℂ) : Prop where
  add : ∀ A B, L (A + B) = L A + L B
  smul : ∀ (c : ℂ) A, L (c • A) = c • L A

theorem IsLin.id : IsLin (fun A : Matrix (Lab n) (Lab n) ℂ => A) := ⟨fun _ _ => rfl, fun _ _ => rfl⟩

theorem IsLin.comp {L M : Matrix (Lab n) (Lab n) ℂ → Matrix (Lab n) (Lab n) ℂ} (hL : IsLin L) (hM : IsLin M) :
    IsLin fun A => L (M A) :=
  ⟨fun A B => by rw [hM.add, hL.add], fun c A => by rw [hM.smul, hL.smul]⟩

theorem IsLin.plus {L M : Matrix (Lab n) (Lab n) ℂ → Matrix (Lab n) (Lab n) ℂ} (hL : IsLin L) (hM : IsLin M) :
    IsLin fun A => L A + M A :=
  ⟨fun A B => by rw [hM.add, hL.add]; abel, fun c A => by rw [hM.smul, hL.smul, smul_add]⟩

theorem IsLin.scale {L : Matrix (Lab n) (Lab n) ℂ → Matrix (Lab n) (Lab n) ℂ} (hL : IsLin L) (d : ℂ) :
    IsLin fun A => d • L A :=
  ⟨fun A B => by rw [hL.add, smul_add], fun c A => by rw [hL.smul, smul_comm]⟩

theorem isLin_conjBy (M : Matrix (Lab n) (Lab n) ℂ) : IsLin (conjBy M) :=
  ⟨fun A B => by simp [conjBy, Matrix.mul_add, Matrix.add_mul], fun c A => by simp [conjBy]⟩

theorem IsLin.sub {L : Matrix (Lab n) (Lab n) ℂ → Matrix (Lab n) (Lab n) ℂ} (hL : IsLin L)
    (A B : Matrix (Lab n) (Lab n) ℂ) : L (A - B) = L A - L B := by
  rw [sub_eq_add_neg, hL.add, ← neg_one_smul ℂ B, hL.smul, neg_one_smul, ← sub_eq_add_neg]

theorem IsLin.zero {L : Matrix (Lab n) (Lab n) ℂ → Matrix (Lab n) (Lab n) ℂ} (hL : IsLin L) : L 0 = 0 := by
  have := hL.smul 0 0
  simpa using this

theorem IsLin.sum {L : Matrix (Lab n) (Lab n) ℂ → Matrix (Lab n) (Lab n) ℂ} (hL : IsLin L) {α : Type} (s : Finset α)
    (f : α → Matrix (Lab n) (Lab n) ℂ) : L (∑ a ∈ s, f a) = ∑ a ∈ s, L (f a) := by
  classical
  induction s using Finset.induction_on with
  | empty => simp [hL.zero]
  | insert a s ha ih => rw [Finset.sum_insert ha, hL.add, ih, Finset.sum_insert ha]

theorem isLin_chan (t : ℕ) (s : StdNoise) : IsLin (fun ρ : Matrix (Lab n) (Lab n) ℂ => s.chan n t ρ) := by
  cases s with
  | bitFlip p => exact (IsLin.id.scale _).plus ((isLin_conjBy _).scale _)
  | phaseFlip p => exact (IsLin.id.scale _).plus ((isLin_conjBy _).scale _)
  | depolarizing p =>
    exact (((IsLin.id.scale _).plus ((isLin_conjBy _).scale _)).plus ((isLin_conjBy _).scale _)).plus
      ((isLin_conjBy _).scale _)
  | pauli px py pz =>
    exact (((IsLin.id.scale _).plus ((isLin_conjBy _).scale _)).plus ((isLin_conjBy _).scale _)).plus
      ((isLin_conjBy _).scale _)
  | amplitudeDamping γ => exact (isLin_conjBy _).plus (isLin_conjBy _)
  | phaseDamping γ => exact (isLin_conjBy _).plus (isLin_conjBy _)
  | generalizedAmplitudeDamping p γ =>
    exact (((isLin_conjBy _).plus (isLin_conjBy _)).scale _).plus (((isLin_conjBy _).plus (isLin_conjBy _)).scale _)

theorem isLin_chans (t : ℕ) (ns : List StdNoise) :
    IsLin (fun ρ : Matrix (Lab n) (Lab n) ℂ => ns.foldl (fun ρ s => s.chan n t ρ) ρ) := by
  induction ns with
  | nil => exact IsLin.id
  | cons s ns ih => exact ih.comp (isLin_chan t s)

theorem isLin_noisyStep (M : Matrix (Lab n) (Lab n) ℂ) (t : ℕ) (ns : List StdNoise) : IsLin (noisyStep n M t ns) :=
  (isLin_chans t ns).comp (isLin_conjBy M)

/-- Steps executed one after the other. -/
noncomputable def matRun (n : ℕ) : List (Matrix (Lab n) (Lab n) ℂ × ℕ × List StdNoise) → Matrix (Lab n) (Lab n) ℂ →
    Matrix (Lab n) (Lab n) ℂ
  | [], ρ => ρ
  | (M, t, ns) :: rest, ρ => matRun n rest (noisyStep n M t ns ρ)

theorem isLin_matRun (l : List (Matrix (Lab n) (Lab n) ℂ × ℕ × List StdNoise)) : IsLin (matRun n l) := by
  induction l with
  | nil => exact IsLin.id
  | cons e l ih => exact ih.comp (isLin_noisyStep _ _ _)

theorem noisyRun_matRun {ot : OpType} {values : Values} (l : List (Gate × List StdNoise)) (ρ : Matrix (Lab n) (Lab n) ℂ) :
    noisyRun n ot values l ρ = matRun n (l.map fun e => (e.1.mat n ot values, e.1.target.headD 0, e.2)) ρ := by
  induction l generalizing ρ with
  | nil => rfl
  | cons e l ih => rw [noisyRun, List.map_cons, matRun, ih]

/-- A linear map commutes with the entrywise derivative. -/
theorem MatDeriv.lin {f : ℝ → Matrix (Lab n) (Lab n) ℂ} {f' : Matrix (Lab n) (Lab n) ℂ} {x : ℝ} (h : MatDeriv f f' x)
    {L : Matrix (Lab n) (Lab n) ℂ → Matrix (Lab n) (Lab n) ℂ} (hL : IsLin L) : MatDeriv (fun t => L (f t)) (L f') x := by
  have key : ∀ (A : Matrix (Lab n) (Lab n) ℂ) i j,
      L A i j = ∑ k, ∑ l, A k l * L (Matrix.single k l (1 : ℂ)) i j := by
    intro A i j
    conv_lhs => rw [Matrix.matrix_eq_sum_single A, hL.sum]
    rw [Matrix.sum_apply]
    refine Finset.sum_congr rfl fun k _ => ?_
    rw [hL.sum, Matrix.sum_apply]
    refine Finset.sum_congr rfl fun l _ => ?_
    have : Matrix.single k l (A k l) = A k l • Matrix.single k l (1 : ℂ) := by simp
    rw [this, hL.smul, Matrix.smul_apply, smul_eq_mul]
  intro i j
  have e : (fun t => L (f t) i j) = fun t => ∑ k, ∑ l, f t k l * L (Matrix.single k l (1 : ℂ)) i j :=
    funext fun t => key (f t) i j
  rw [e, key f' i j]
  refine HasDerivAt.fun_sum fun k _ => HasDerivAt.fun_sum fun l _ => ?_
  exact (h k l).mul_const _

theorem MatDeriv.add {f g : ℝ → Matrix (Lab n) (Lab n) ℂ} {f' g' : Matrix (Lab n) (Lab n) ℂ} {x : ℝ} (h : MatDeriv f f' x)
    (hg : MatDeriv g g' x) : MatDeriv (fun t => f t + g t) (f' + g') x := fun i j => (h i j).add (hg i j)

theorem MatDeriv.smul {f : ℝ → Matrix (Lab n) (Lab n) ℂ} {f' : Matrix (Lab n) (Lab n) ℂ} {x : ℝ} (h : MatDeriv f f' x)
    {c : ℝ → ℝ} {c' : ℝ} (hc : HasDerivAt c c' x) :
    MatDeriv (fun t => (c t : ℂ) • f t) ((c' : ℂ) • f x + (c x : ℂ) • f') x :=
  fun i j => hc.ofReal_comp.mul (h i j)

theorem MatDeriv.const (A : Matrix (Lab n) (Lab n) ℂ) (x : ℝ) : MatDeriv (fun _ => A) 0 x := fun _ _ => hasDerivAt_const _ _

/-- A gate whose action is a rotation by the parameter plus `s`. -/
def IsRot (s : ℝ) (M : ℝ → Matrix (Lab n) (Lab n) ℂ) : Prop :=
  ∃ A B C : Matrix (Lab n) (Lab n) ℂ → Matrix (Lab n) (Lab n) ℂ, IsLin A ∧ IsLin B ∧ IsLin C ∧
    ∀ x X, conjBy (M x) X = A X + ((Real.cos (x + s) : ℂ) • B X + (Real.sin (x + s) : ℂ) • C X)

theorem IsRot.deriv {s : ℝ} {M : ℝ → Matrix (Lab n) (Lab n) ℂ} (h : IsRot s M) {σ : ℝ → Matrix (Lab n) (Lab n) ℂ}
    {σ' : Matrix (Lab n) (Lab n) ℂ} {x : ℝ} (hσ : MatDeriv σ σ' x) :
    MatDeriv (fun t => conjBy (M t) (σ t))
      (conjBy (M x) σ' + (1 / 2 : ℂ) • (conjBy (M (x + Real.pi / 2)) (σ x) - conjBy (M (x - Real.pi / 2)) (σ x))) x := by
  obtain ⟨A, B, C, hA, hB, hC, h⟩ := h
  simp only [h]
  have hc : HasDerivAt (fun t : ℝ => Real.cos (t + s)) (-Real.sin (x + s)) x := by
    simpa using (Real.hasDerivAt_cos (x + s)).comp_add_const x s
  have hs : HasDerivAt (fun t : ℝ => Real.sin (t + s)) (Real.cos (x + s)) x := by
    simpa using (Real.hasDerivAt_sin (x + s)).comp_add_const x s
  have := ((hσ.lin hA).add (((hσ.lin hB).smul hc).add ((hσ.lin hC).smul hs)))
  convert this using 1
  have e1 : Real.cos (x + Real.pi / 2 + s) = -Real.sin (x + s) := by
    rw [show x + Real.pi / 2 + s = x + s + Real.pi / 2 by ring, Real.cos_add_pi_div_two]
  have e2 : Real.sin (x + Real.pi / 2 + s) = Real.cos (x + s) := by
    rw [show x + Real.pi / 2 + s = x + s + Real.pi / 2 by ring, Real.sin_add_pi_div_two]
  have e3 : Real.cos (x - Real.pi / 2 + s) = Real.sin (x + s) := by
    rw [show x - Real.pi / 2 + s = x + s - Real.pi / 2 by ring, Real.cos_sub_pi_div_two]
  have e4 : Real.sin (x - Real.pi / 2 + s) = -Real.cos (x + s) := by
    rw [show x - Real.pi / 2 + s = x + s - Real.pi / 2 by ring, Real.sin_sub_pi_div_two]
  rw [e1, e2, e3, e4]
  ext i j
  simp only [Matrix.add_apply, Matrix.smul_apply, Matrix.sub_apply, smul_eq_mul, Complex.ofReal_neg]
  ring

/-- A step of a run with one parameter: is it a rotation by the parameter (with which fixed shift), its matrix, its
target and its noise. -/
structure PStep (n : ℕ) where
  rot : Bool
  M : ℝ → Matrix (Lab n) (Lab n) ℂ
  t : ℕ
  ns : List StdNoise

/-- A rotation by the parameter, or independent of it. -/
def PStep.Good (e : PStep n) : Prop := if e.rot then ∃ s, IsRot s e.M else ∀ x y, e.M x = e.M y

/-- The steps with every parameter equal to `x`. -/
def evalAt (l : List (PStep n)) (x : ℝ) : List (Matrix (Lab n) (Lab n) ℂ × ℕ × List StdNoise) :=
  l.map fun e => (e.M x, e.t, e.ns)

/-- The steps with parameter `x`, except that step `k` has parameter `y`. -/
def altAt (l : List (PStep n)) (x : ℝ) (k : ℕ) (y : ℝ) : List (Matrix (Lab n) (Lab n) ℂ × ℕ × List StdNoise) :=
  l.mapIdx fun j e => (e.M (if j = k then y else x), e.t, e.ns)

theorem altAt_zero (e : PStep n) (l : List (PStep n)) (x y : ℝ) :
    altAt (e :: l) x 0 y = (e.M y, e.t, e.ns) :: evalAt l x := by
  refine List.ext_getElem? fun j => ?_
  cases j <;> simp [altAt, evalAt, List.mapIdx_cons]

theorem altAt_succ (e : PStep n) (l : List (PStep n)) (x : ℝ) (k : ℕ) (y : ℝ) :
    altAt (e :: l) x (k + 1) y = (e.M x, e.t, e.ns) :: altAt l x k y := by
  simp [altAt, List.mapIdx_cons]

/-- The parameter-shift contribution of step `k`. -/
noncomputable def shiftTerm (l : List (PStep n)) (x : ℝ) (ρ : Matrix (Lab n) (Lab n) ℂ) (k : ℕ) :
    Matrix (Lab n) (Lab n) ℂ :=
  if (l[k]?.map PStep.rot).getD false then
    (1 / 2 : ℂ) • (matRun n (altAt l x k (x + Real.pi / 2)) ρ - matRun n (altAt l x k (x - Real.pi / 2)) ρ)
  else 0

/-- The product rule: the derivative of a run is the sum of the parameter-shift contributions of its rotations. -/
theorem deriv_run {l : List (PStep n)} (h : ∀ e ∈ l, e.Good) {σ : ℝ → Matrix (Lab n) (Lab n) ℂ}
    {σ' : Matrix (Lab n) (Lab n) ℂ} {x : ℝ} (hσ : MatDeriv σ σ' x) :
    MatDeriv (fun t => matRun n (evalAt l t) (σ t))
      (matRun n (evalAt l x) σ' + ∑ k ∈ Finset.range l.length, shiftTerm l x (σ x) k) x := by
  induction l generalizing σ σ' with
  | nil => simpa [evalAt, matRun] using hσ
  | cons e l ih =>
    have he := h e (by simp)
    have hstep : MatDeriv (fun t => noisyStep n (e.M t) e.t e.ns (σ t))
        (noisyStep n (e.M x) e.t e.ns σ' +
          if e.rot then (1 / 2 : ℂ) • (noisyStep n (e.M (x + Real.pi / 2)) e.t e.ns (σ x)
            - noisyStep n (e.M (x - Real.pi / 2)) e.t e.ns (σ x)) else 0) x := by
      by_cases hr : e.rot
      · simp only [PStep.Good, hr, if_true] at he ⊢
        obtain ⟨s, he⟩ := he
        have := (he.deriv hσ).lin (isLin_chans e.t e.ns)
        rwa [(isLin_chans e.t e.ns).add, (isLin_chans e.t e.ns).smul, (isLin_chans e.t e.ns).sub] at this
      · simp only [PStep.Good, hr, Bool.false_eq_true, if_false, add_zero] at he ⊢
        have := hσ.lin (isLin_noisyStep (e.M x) e.t e.ns)
        have hM : ∀ t, e.M t = e.M x := fun t => he t x
        simpa only [hM] using this
    have := ih (fun e he => h e (by simp [he])) hstep
    have hrun : ∀ t, matRun n (evalAt (e :: l) t) (σ t) = matRun n (evalAt l t) (noisyStep n (e.M t) e.t e.ns (σ t)) :=
      fun t => rfl
    simp only [hrun]
    convert this using 1
    rw [List.length_cons, Finset.sum_range_succ', (isLin_matRun _).add]
    have e0 : shiftTerm (e :: l) x (σ x) 0 = matRun n (evalAt l x)
        (if e.rot then (1 / 2 : ℂ) • (noisyStep n (e.M (x + Real.pi / 2)) e.t e.ns (σ x)
            - noisyStep n (e.M (x - Real.pi / 2)) e.t e.ns (σ x)) else 0) := by
      rw [shiftTerm, altAt_zero, altAt_zero]
      simp only [List.getElem?_cons_zero, Option.map_some, Option.getD_some]
      split_ifs
      · rw [(isLin_matRun _).smul, (isLin_matRun _).sub]; rfl
      · rw [(isLin_matRun _).zero]
    have e1 : ∀ k, shiftTerm (e :: l) x (σ x) (k + 1) = shiftTerm l x (noisyStep n (e.M x) e.t e.ns (σ x)) k := by
      intro k
      rw [shiftTerm, shiftTerm, altAt_succ, altAt_succ]; rfl
    rw [e0, Finset.sum_congr rfl fun k _ => e1 k]
    change matRun n (evalAt l x) (noisyStep n (e.M x) e.t e.ns σ') + _ = _
    abel

end Verif
