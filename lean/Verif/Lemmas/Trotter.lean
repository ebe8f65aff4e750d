import Mathlib.Analysis.Calculus.MeanValue
import Mathlib.Analysis.SpecialFunctions.Exponential
import Verif.Lemmas.Rounding
import Verif.Lemmas.Pauli

/-! # Products of exponentials of matrices -/

set_option autoImplicit false

namespace Verif
open scoped Matrix.Norms.L2Operator
variable {m : Type} [Fintype m] [DecidableEq m]

/-- `exp (s A)` for a real `s`. -/
noncomputable def mexp (A : Matrix m m ℂ) (s : ℝ) : Matrix m m ℂ := NormedSpace.exp (s • A)

theorem mexp_deriv (A : Matrix m m ℂ) (s : ℝ) : HasDerivAt (mexp A) (mexp A s * A) s := by
  letI : NormedAlgebra ℚ (Matrix m m ℂ) := NormedAlgebra.restrictScalars ℚ ℂ _
  exact hasDerivAt_exp_smul_const (𝕂 := ℝ) A s

theorem mexp_deriv' (A : Matrix m m ℂ) (s : ℝ) : HasDerivAt (mexp A) (A * mexp A s) s := by
  letI : NormedAlgebra ℚ (Matrix m m ℂ) := NormedAlgebra.restrictScalars ℚ ℂ _
  exact hasDerivAt_exp_smul_const' (𝕂 := ℝ) A s

theorem mexp_add (A : Matrix m m ℂ) (s t : ℝ) : mexp A (s + t) = mexp A s * mexp A t := by
  rw [mexp, mexp, mexp, add_smul]
  exact Matrix.exp_add_of_commute _ _ (((Commute.refl A).smul_left s).smul_right t)

theorem mexp_zero (A : Matrix m m ℂ) : mexp A 0 = 1 := by rw [mexp, zero_smul, NormedSpace.exp_zero]

theorem mexp_neg_mul (A : Matrix m m ℂ) (s : ℝ) : mexp A (-s) * mexp A s = 1 := by
  rw [← mexp_add, neg_add_cancel, mexp_zero]

theorem mexp_mul_neg (A : Matrix m m ℂ) (s : ℝ) : mexp A s * mexp A (-s) = 1 := by
  rw [← mexp_add, add_neg_cancel, mexp_zero]

theorem mexp_neg (A : Matrix m m ℂ) (s : ℝ) : mexp (-A) s = mexp A (-s) := by
  rw [mexp, mexp, smul_neg, neg_smul]

theorem mexp_one (A : Matrix m m ℂ) : mexp A 1 = NormedSpace.exp A := by rw [mexp, one_smul]

/-- The exponential of an anti-Hermitian matrix is unitary. -/
theorem mexp_unitary {A : Matrix m m ℂ} (hA : A.conjTranspose = -A) (s : ℝ) : (mexp A s).conjTranspose * mexp A s = 1 := by
  have : (mexp A s).conjTranspose = mexp A (-s) := by
    rw [mexp, ← Matrix.exp_conjTranspose, Matrix.conjTranspose_smul, hA, mexp]
    simp
  rw [this, mexp_neg_mul]

theorem mexp_norm {A : Matrix m m ℂ} (hA : A.conjTranspose = -A) (s : ℝ) : ‖mexp A s‖ ≤ 1 :=
  norm_le_one_of_star_mul (mexp_unitary hA s)

theorem norm_mul_le_right {A B : Matrix m m ℂ} (h : ‖B‖ ≤ 1) : ‖A * B‖ ≤ ‖A‖ :=
  (norm_mul_le _ _).trans (mul_le_of_le_one_right (norm_nonneg _) h)

theorem norm_mul_le_left {A B : Matrix m m ℂ} (h : ‖A‖ ≤ 1) : ‖A * B‖ ≤ ‖B‖ :=
  (norm_mul_le _ _).trans (mul_le_of_le_one_left (norm_nonneg _) h)

theorem commutator_mexp (A : Matrix m m ℂ) {B : Matrix m m ℂ} (hB : B.conjTranspose = -B) {s : ℝ} (hs : 0 ≤ s) :
    ‖A * mexp B s - mexp B s * A‖ ≤ s * ‖A * B - B * A‖ := by
  have hd : ∀ x : ℝ, HasDerivAt (fun s : ℝ => mexp (-B) s * A * mexp B s - A) (mexp (-B) x * (A * B - B * A) * mexp B x) x := by
    intro x
    have := (((mexp_deriv (-B) x).mul_const A).fun_mul (mexp_deriv' B x)).sub_const A
    refine this.congr_deriv ?_
    noncomm_ring
  have h := image_norm_le_of_norm_deriv_right_le_deriv_boundary (a := 0) (b := s)
    (f := fun s : ℝ => mexp (-B) s * A * mexp B s - A) (f' := fun x => mexp (-B) x * (A * B - B * A) * mexp B x)
    (B := fun x => x * ‖A * B - B * A‖) (B' := fun _ => 1 * ‖A * B - B * A‖)
    (fun x _ => (hd x).continuousAt.continuousWithinAt) (fun x _ => (hd x).hasDerivWithinAt)
    (by simp [mexp_zero]) (fun x => (hasDerivAt_id x).mul_const _) (fun x _ => by
      rw [one_mul]
      exact (norm_mul_le_right (mexp_norm hB x)).trans (norm_mul_le_left (mexp_norm (by rw [Matrix.conjTranspose_neg, hB]) x)))
    (Set.right_mem_Icc.2 hs)
  have e : A * mexp B s - mexp B s * A = mexp B s * (mexp (-B) s * A * mexp B s - A) := by
    rw [mul_sub, ← mul_assoc, ← mul_assoc, mexp_neg, mexp_mul_neg, one_mul]
  rw [e]
  exact (norm_mul_le_left (mexp_norm hB s)).trans h

/-- The error of splitting one exponential in two. -/
theorem exp_mul_exp_sub {A B : Matrix m m ℂ} (hA : A.conjTranspose = -A) (hB : B.conjTranspose = -B) :
    ‖NormedSpace.exp A * NormedSpace.exp B - NormedSpace.exp (A + B)‖ ≤ 1 / 2 * ‖A * B - B * A‖ := by
  have hC : (A + B).conjTranspose = -(A + B) := by rw [Matrix.conjTranspose_add, hA, hB]; abel
  have hC' : (-(A + B)).conjTranspose = -(-(A + B)) := by rw [Matrix.conjTranspose_neg, hC]
  have hd : ∀ x : ℝ, HasDerivAt (fun s : ℝ => mexp A s * mexp B s * mexp (-(A + B)) s - 1)
      (mexp A x * (A * mexp B x - mexp B x * A) * mexp (-(A + B)) x) x := by
    intro x
    have := (((mexp_deriv A x).fun_mul (mexp_deriv B x)).fun_mul (mexp_deriv' (-(A + B)) x)).sub_const 1
    refine this.congr_deriv ?_
    noncomm_ring
  have h := image_norm_le_of_norm_deriv_right_le_deriv_boundary (a := 0) (b := 1)
    (f := fun s : ℝ => mexp A s * mexp B s * mexp (-(A + B)) s - 1)
    (f' := fun x => mexp A x * (A * mexp B x - mexp B x * A) * mexp (-(A + B)) x)
    (B := fun x => x ^ 2 * (1 / 2 * ‖A * B - B * A‖)) (B' := fun x => (2 * x) * (1 / 2 * ‖A * B - B * A‖))
    (fun x _ => (hd x).continuousAt.continuousWithinAt) (fun x _ => (hd x).hasDerivWithinAt)
    (by simp [mexp_zero]) (fun x => by
      have := (hasDerivAt_pow 2 x).mul_const (1 / 2 * ‖A * B - B * A‖)
      simpa using this) (fun x hx => by
      refine ((norm_mul_le_right (mexp_norm hC' x)).trans (norm_mul_le_left (mexp_norm hA x))).trans ?_
      refine (commutator_mexp A hB hx.1).trans (le_of_eq (by ring)))
    (Set.right_mem_Icc.2 zero_le_one)
  have e : NormedSpace.exp A * NormedSpace.exp B - NormedSpace.exp (A + B)
      = (mexp A 1 * mexp B 1 * mexp (-(A + B)) 1 - 1) * mexp (A + B) 1 := by
    rw [sub_mul, mul_assoc, mexp_neg, mexp_neg_mul, mul_one, one_mul, mexp_one, mexp_one, mexp_one]
  rw [e]
  refine (norm_mul_le_right (mexp_norm hC 1)).trans (h.trans (by simp))

/-- The sum of the norms of the commutators of all pairs. -/
noncomputable def commSum : List (Matrix m m ℂ) → ℝ
  | [] => 0
  | A :: l => (l.map fun B => ‖A * B - B * A‖).sum + commSum l

theorem sum_anti {l : List (Matrix m m ℂ)} (h : ∀ A ∈ l, A.conjTranspose = -A) : l.sum.conjTranspose = -l.sum := by
  induction l with
  | nil => simp
  | cons A l ih =>
    rw [List.sum_cons, Matrix.conjTranspose_add, h A List.mem_cons_self, ih fun B hB => h B (List.mem_cons_of_mem _ hB)]
    abel

theorem comm_sum_le (A : Matrix m m ℂ) (l : List (Matrix m m ℂ)) :
    ‖A * l.sum - l.sum * A‖ ≤ (l.map fun B => ‖A * B - B * A‖).sum := by
  induction l with
  | nil => simp
  | cons B l ih =>
    rw [List.sum_cons, List.map_cons, List.sum_cons]
    have : A * (B + l.sum) - (B + l.sum) * A = (A * B - B * A) + (A * l.sum - l.sum * A) := by noncomm_ring
    rw [this]
    exact (norm_add_le _ _).trans (by gcongr)

/-- The product of exponentials, first factor on the right. -/
noncomputable def expProd : List (Matrix m m ℂ) → Matrix m m ℂ
  | [] => 1
  | A :: l => expProd l * NormedSpace.exp A

theorem exp_norm {A : Matrix m m ℂ} (hA : A.conjTranspose = -A) : ‖NormedSpace.exp A‖ ≤ 1 := by
  rw [← mexp_one]; exact mexp_norm hA 1

theorem expProd_unitary {l : List (Matrix m m ℂ)} (h : ∀ A ∈ l, A.conjTranspose = -A) :
    (expProd l).conjTranspose * expProd l = 1 := by
  induction l with
  | nil => simp [expProd]
  | cons A l ih =>
    have h1 := mexp_unitary (h A List.mem_cons_self) 1
    rw [mexp_one] at h1
    rw [expProd, Matrix.conjTranspose_mul, Matrix.mul_assoc, ← Matrix.mul_assoc (expProd l).conjTranspose,
      ih fun B hB => h B (List.mem_cons_of_mem _ hB), one_mul, h1]

/-- The error of splitting one exponential in many. -/
theorem expProd_sub {l : List (Matrix m m ℂ)} (h : ∀ A ∈ l, A.conjTranspose = -A) :
    ‖expProd l - NormedSpace.exp l.sum‖ ≤ 1 / 2 * commSum l := by
  induction l with
  | nil => simp [expProd, commSum, NormedSpace.exp_zero]
  | cons A l ih =>
    have hA := h A List.mem_cons_self
    have hl : ∀ B ∈ l, B.conjTranspose = -B := fun B hB => h B (List.mem_cons_of_mem _ hB)
    have e : expProd (A :: l) - NormedSpace.exp (A :: l).sum
        = (expProd l - NormedSpace.exp l.sum) * NormedSpace.exp A
          + (NormedSpace.exp l.sum * NormedSpace.exp A - NormedSpace.exp (l.sum + A)) := by
      rw [expProd, List.sum_cons, add_comm A]
      noncomm_ring
    rw [e, commSum, mul_add, add_comm (1 / 2 * (List.map _ l).sum)]
    refine (norm_add_le _ _).trans (add_le_add ((norm_mul_le_right (exp_norm hA)).trans (ih hl)) ?_)
    refine (exp_mul_exp_sub (sum_anti hl) hA).trans ?_
    rw [norm_sub_rev]
    exact mul_le_mul_of_nonneg_left (comm_sum_le A l) (by norm_num)

theorem pow_norm {U : Matrix m m ℂ} (hU : ‖U‖ ≤ 1) (r : ℕ) : ‖U ^ r‖ ≤ 1 := by
  induction r with
  | zero => rw [pow_zero]; exact norm_le_one_of_star_mul (by simp)
  | succ r ih => rw [pow_succ]; exact (norm_mul_le_right hU).trans ih

/-- Errors add up. -/
theorem pow_sub_norm {U V : Matrix m m ℂ} (hU : ‖U‖ ≤ 1) (hV : ‖V‖ ≤ 1) (r : ℕ) : ‖U ^ r - V ^ r‖ ≤ r * ‖U - V‖ := by
  induction r with
  | zero => simp
  | succ r ih =>
    have e : U ^ (r + 1) - V ^ (r + 1) = (U ^ r - V ^ r) * U + V ^ r * (U - V) := by
      rw [pow_succ, pow_succ]; noncomm_ring
    rw [e]
    refine (norm_add_le _ _).trans ((add_le_add ((norm_mul_le_right hU).trans ih) (norm_mul_le_left (pow_norm hV r))).trans ?_)
    push_cast
    linarith

end Verif
