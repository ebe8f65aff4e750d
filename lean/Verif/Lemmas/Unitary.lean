import Verif.Lemmas.Gates

/-! # Textbook gates are unitary; dagger of a gate -/

namespace Verif
open NDArray Complex

theorem matE_lt {d : ℕ} (M : Matrix (Fin d) (Fin d) ℂ) {i j : ℕ} (hi : i < d) (hj : j < d) :
    matE M i j = M ⟨i, hi⟩ ⟨j, hj⟩ := by simp [matE, hi, hj]

theorem mulE_matE {d : ℕ} (A B : ℕ → ℕ → ℂ) (M N : Matrix (Fin d) (Fin d) ℂ)
    (hA : ∀ i j (hi : i < d) (hj : j < d), A i j = M ⟨i, hi⟩ ⟨j, hj⟩)
    (hB : ∀ i j (hi : i < d) (hj : j < d), B i j = N ⟨i, hi⟩ ⟨j, hj⟩) {i j : ℕ} (hi : i < d) (hj : j < d) :
    mulE d A B i j = (M * N) ⟨i, hi⟩ ⟨j, hj⟩ := by
  rw [mulE, Finset.sum_range, Matrix.mul_apply]
  exact Finset.sum_congr rfl fun l _ => by rw [hA i l hi l.2, hB l j l.2 hj]

theorem isUnitaryE_matE {d : ℕ} {M : Matrix (Fin d) (Fin d) ℂ} (h : M.conjTranspose * M = 1) :
    IsUnitaryE d (matE M) := by
  have h' : M * M.conjTranspose = 1 := mul_eq_one_comm.1 h
  have hA : ∀ i j (hi : i < d) (hj : j < d), matE M i j = M ⟨i, hi⟩ ⟨j, hj⟩ := fun i j hi hj => matE_lt M hi hj
  have hB : ∀ i j (hi : i < d) (hj : j < d), conjT (matE M) i j = M.conjTranspose ⟨i, hi⟩ ⟨j, hj⟩ :=
    fun i j hi hj => by rw [conjT, matE_lt M hj hi]; rfl
  intro i j hi hj
  rw [mulE_matE _ _ _ _ hB hA hi hj, mulE_matE _ _ _ _ hA hB hi hj, h, h', oneE, Matrix.one_apply]
  simp

theorem isUnitaryE_congr {K : Type} [CommRing K] [StarRing K] {d : ℕ} {U V : ℕ → ℕ → K}
    (h : ∀ i j, i < d → j < d → U i j = V i j) (hV : IsUnitaryE d V) : IsUnitaryE d U := by
  intro i j hi hj
  have := hV i j hi hj
  constructor
  · rw [← this.1]
    exact Finset.sum_congr rfl fun l hl => by
      have hl := Finset.mem_range.1 hl
      simp only [conjT]; rw [h l i hl hi, h l j hl hj]
  · rw [← this.2]
    exact Finset.sum_congr rfl fun l hl => by
      have hl := Finset.mem_range.1 hl
      simp only [conjT]; rw [h i l hi hl, h j l hj hl]

theorem sqrt_two_mul : ((√2 : ℝ) : ℂ)⁻¹ * ((√2 : ℝ) : ℂ)⁻¹ = 1 / 2 := by
  rw [← mul_inv, ← ofReal_mul, Real.mul_self_sqrt (by norm_num)]; norm_num

theorem csq_add_ssq (x : ℝ) : (Real.cos x : ℂ) * Real.cos x + (Real.sin x : ℂ) * Real.sin x = 1 := by
  rw [← ofReal_mul, ← ofReal_mul, ← ofReal_add]
  have := Real.cos_sq_add_sin_sq x
  rw [show Real.cos x * Real.cos x + Real.sin x * Real.sin x = 1 by nlinarith]; simp

theorem conj_exp_mul (z : ℂ) (h : z.re = 0) : (starRingEnd ℂ) (exp z) * exp z = 1 := by
  rw [← exp_conj, ← exp_add]
  have : (starRingEnd ℂ) z + z = 0 := by
    apply Complex.ext <;> simp [h]
  rw [this, exp_zero]

theorem isUnitaryE_two {a b c d : ℂ} (h1 : star a * a + star c * c = 1) (h2 : star a * b + star c * d = 0)
    (h4 : star b * b + star d * d = 1) : IsUnitaryE 2 (matE !![a, b; c, d]) := by
  apply isUnitaryE_matE (d := 2)
  have h3 : star b * a + star d * c = 0 := by
    have := congrArg star h2
    simpa [mul_comm] using this
  ext i j
  fin_cases i <;> fin_cases j <;> simpa [Matrix.mul_apply, Fin.sum_univ_two]

/-- Every textbook gate is unitary. -/
theorem StdGate.isUnitary (s : StdGate) : IsUnitaryE (2 ^ s.arity) s.mat := by
  cases s with
  | I => exact isUnitaryE_two (by simp) (by simp) (by simp)
  | X => exact isUnitaryE_two (by simp) (by simp) (by simp)
  | Y => exact isUnitaryE_two (by simp) (by simp) (by simp)
  | Z => exact isUnitaryE_two (by simp) (by simp) (by simp)
  | H => exact isUnitaryE_two (by simp [sqrt_two_mul]; norm_num) (by simp) (by simp [sqrt_two_mul]; norm_num)
  | S => exact isUnitaryE_two (by simp) (by simp) (by simp)
  | T => exact isUnitaryE_two (by simp) (by simp) (by
      simp only [star_zero, mul_zero, zero_add]
      exact conj_exp_mul _ (by simp [Complex.div_re, Complex.normSq]))
  | SWAP => exact isUnitaryE_matE (d := 4) (by
      ext i j; fin_cases i <;> fin_cases j <;> simp [Matrix.mul_apply, Fin.sum_univ_four])
  | RX θ =>
    have := csq_add_ssq (θ / 2)
    refine isUnitaryE_two ?_ ?_ ?_ <;> simp [-ofReal_cos, -ofReal_sin] <;> ring_nf <;>
      simp [-ofReal_cos, -ofReal_sin] <;> ring_nf at this ⊢ <;> linear_combination this
  | RY θ =>
    have := csq_add_ssq (θ / 2)
    refine isUnitaryE_two ?_ ?_ ?_ <;> simp [-ofReal_cos, -ofReal_sin] <;> first | linear_combination this | ring
  | RZ θ =>
    refine isUnitaryE_two ?_ ?_ ?_
    · simp only [star_zero, mul_zero, add_zero]
      exact conj_exp_mul _ (by simp [Complex.div_re, Complex.normSq])
    · simp
    · simp only [star_zero, mul_zero, zero_add]
      exact conj_exp_mul _ (by simp [Complex.div_re, Complex.normSq])
  | PHASE θ =>
    refine isUnitaryE_two (by simp) (by simp) ?_
    simp only [star_zero, mul_zero, zero_add]
    exact conj_exp_mul _ (by simp)

end Verif
