import Mathlib.Analysis.SpecialFunctions.Trigonometric.Series
import Mathlib.Analysis.Normed.Algebra.MatrixExponential

/-! # The exponential of matrices with two eigenvalues -/

namespace Verif
set_option autoImplicit false
variable {m : Type} [Fintype m] [DecidableEq m]

theorem exp_smul_invol {G : Matrix m m ℂ} (hG : G * G = 1) (z : ℂ) :
    NormedSpace.exp (z • G) = Complex.cosh z • (1 : Matrix m m ℂ) + Complex.sinh z • G := by
  have hev : ∀ k : ℕ, G ^ (2 * k) = 1 := fun k => by rw [pow_mul, pow_two, hG, one_pow]
  have hodd : ∀ k : ℕ, G ^ (2 * k + 1) = G := fun k => by rw [pow_succ, hev, one_mul]
  have key : HasSum (fun k : ℕ => ((k.factorial : ℂ)⁻¹) • (z • G) ^ k)
      (Complex.cosh z • (1 : Matrix m m ℂ) + Complex.sinh z • G) := by
    refine HasSum.even_add_odd ?_ ?_
    · have := (Complex.hasSum_cosh z).smul_const (1 : Matrix m m ℂ)
      convert this using 1
      funext k
      rw [smul_pow, hev, smul_smul, div_eq_inv_mul]
    · have := (Complex.hasSum_sinh z).smul_const G
      convert this using 1
      funext k
      rw [smul_pow, hodd, smul_smul, div_eq_inv_mul]
  rw [NormedSpace.exp_eq_tsum ℂ]
  exact key.tsum_eq

/-- If `(H - c)² = (d/2)²` (the eigenvalues of `H` are `c - d/2` and `c + d/2`), the evolution operator is a phase times
`cos (d t / 2) - i sin (d t / 2) G`, where `G = (2/d) (H - c)`. -/
theorem exp_two_level {H : Matrix m m ℂ} {c d : ℝ} (hd : d ≠ 0)
    (h : (H - (c : ℂ) • (1 : Matrix m m ℂ)) * (H - (c : ℂ) • (1 : Matrix m m ℂ)) = ((d / 2 : ℝ) ^ 2 : ℂ) • (1 : Matrix m m ℂ)) (t : ℝ) :
    NormedSpace.exp ((-Complex.I * (t : ℂ)) • H) = Complex.exp (-Complex.I * (t : ℂ) * c) •
      ((Real.cos (d * t / 2) : ℂ) • (1 : Matrix m m ℂ)
        + (-(Complex.I * (Real.sin (d * t / 2) : ℝ))) • ((2 / d : ℂ) • (H - (c : ℂ) • (1 : Matrix m m ℂ)))) := by
  have hd' : (d : ℂ) ≠ 0 := by exact_mod_cast hd
  set K := H - (c : ℂ) • (1 : Matrix m m ℂ) with hK
  set G := (2 / d : ℂ) • K with hG
  have hGG : G * G = 1 := by
    rw [hG, Matrix.smul_mul, Matrix.mul_smul, h, smul_smul, smul_smul]
    have : (2 / d : ℂ) * (2 / d) * ((d / 2 : ℝ) ^ 2 : ℂ) = 1 := by push_cast; field_simp
    rw [this, one_smul]
  have hsum : (-Complex.I * (t : ℂ)) • H = Matrix.diagonal (fun _ : m => -Complex.I * (t : ℂ) * c) + (-(((d * t / 2 : ℝ) : ℂ) * Complex.I)) • G := by
    have : H = (c : ℂ) • (1 : Matrix m m ℂ) + K := by rw [hK]; abel
    have e2 : Matrix.diagonal (fun _ : m => -Complex.I * (t : ℂ) * c) = (-Complex.I * (t : ℂ) * c) • (1 : Matrix m m ℂ) := by
      rw [Matrix.smul_one_eq_diagonal]
    rw [e2, this, smul_add, smul_smul, hG, smul_smul]
    congr 2
    push_cast
    field_simp
  rw [hsum, Matrix.exp_add_of_commute, Matrix.exp_diagonal, exp_smul_invol hGG, Complex.cosh_neg, Complex.sinh_neg,
    Complex.cosh_mul_I, Complex.sinh_mul_I]
  · have e3 : Matrix.diagonal (NormedSpace.exp fun _ : m => -Complex.I * (t : ℂ) * c) = Complex.exp (-Complex.I * (t : ℂ) * c) • (1 : Matrix m m ℂ) := by
      rw [Matrix.smul_one_eq_diagonal]
      congr 1
      funext i
      rw [Pi.coe_exp, Complex.exp_eq_exp_ℂ]
    rw [e3, Matrix.smul_mul, Matrix.one_mul, ← Complex.ofReal_cos, ← Complex.ofReal_sin]
    congr 3
    ring
  · have e2 : Matrix.diagonal (fun _ : m => -Complex.I * (t : ℂ) * c) = (-Complex.I * (t : ℂ) * c) • (1 : Matrix m m ℂ) := by
      rw [Matrix.smul_one_eq_diagonal]
    rw [e2]
    exact ((Commute.one_left _).smul_left _)

end Verif
