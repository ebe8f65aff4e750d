import Mathlib.Algebra.BigOperators.Ring.Finset
import Mathlib.Analysis.Matrix.PosDef
import Mathlib.Analysis.Matrix.Order
import Verif.SpecPauli
import Verif.AbsOp

/-! # Tensor products and Pauli strings -/

namespace Verif
set_option autoImplicit false
open scoped ComplexOrder
variable {n : ℕ}

theorem tensorProd_mul (f g : ℕ → Matrix (Fin 2) (Fin 2) ℂ) :
    tensorProd n f * tensorProd n g = tensorProd n fun q => f q * g q := by
  ext x z
  simp only [Matrix.mul_apply, tensorProd]
  rw [Finset.prod_univ_sum]
  simp only [Fintype.piFinset_univ, Finset.prod_mul_distrib]

theorem tensorProd_one : tensorProd n (fun _ => 1) = 1 := by
  ext x y
  simp only [tensorProd, Matrix.one_apply, Finset.prod_ite_zero, Finset.prod_const_one]
  exact if_congr ⟨fun h => funext fun i => h i (Finset.mem_univ _), fun h i _ => congrFun h i⟩ rfl rfl

theorem tensorProd_hermitian {f : ℕ → Matrix (Fin 2) (Fin 2) ℂ} (h : ∀ q, (f q).IsHermitian) :
    (tensorProd n f).IsHermitian := by
  ext x y
  simp only [Matrix.conjTranspose_apply, tensorProd, star_prod]
  exact Finset.prod_congr rfl fun i _ => (h i).apply _ _

theorem gateMat_single (U : Matrix (Fin 2) (Fin 2) ℂ) {q : ℕ} (hq : q < n) :
    gateMat n (matE U) [q] [] = tensorProd n fun i => if i = q then U else 1 := by
  ext x y
  simp only [gateMat, tensorProd, List.not_mem_nil, false_implies, implies_true, if_true, Lab.idx, List.map_cons,
    List.map_nil, binVal, List.foldl_cons, List.foldl_nil, Nat.mul_zero, Nat.zero_add, Lab.bit, dif_pos hq]
  rw [← Finset.mul_prod_erase Finset.univ _ (Finset.mem_univ (⟨q, hq⟩ : Fin n))]
  have h1 : ∀ i ∈ Finset.univ.erase (⟨q, hq⟩ : Fin n),
      (if (i : ℕ) = q then U else (1 : Matrix (Fin 2) (Fin 2) ℂ)) (x i) (y i) = if x i = y i then 1 else 0 := by
    intro i hi
    rw [if_neg fun h => (Finset.mem_erase.1 hi).1 (Fin.ext h), Matrix.one_apply]
  rw [Finset.prod_congr rfl h1, Finset.prod_ite_zero, Finset.prod_const_one, if_pos rfl]
  by_cases h : Lab.AgreeOff [q] x y
  · rw [if_pos h, if_pos, mul_one, matE, dif_pos ⟨Fin.is_lt _, Fin.is_lt _⟩]
    · intro i hi
      exact h i (by simpa [Fin.ext_iff] using (Finset.mem_erase.1 hi).1)
  · rw [if_neg h, if_neg, mul_zero]
    intro h'
    exact h fun i hi => h' i (Finset.mem_erase.2 ⟨fun e => hi (by simp [e]), Finset.mem_univ _⟩)

theorem pauliAt_hermitian (l : List (Pauli × ℕ)) (q : ℕ) : (pauliAt l q).IsHermitian := by
  rw [pauliAt]
  split
  · rename_i e _
    rcases e with ⟨P, q⟩
    cases P
    · exact Matrix.isHermitian_one
    all_goals
      ext i j
      fin_cases i <;> fin_cases j <;> simp [Pauli.mat]
  · exact Matrix.isHermitian_one

theorem pauliSum_hermitian (ts : List (ℝ × List (Pauli × ℕ))) : (pauliSum n ts).IsHermitian := by
  rw [pauliSum]
  induction ts with
  | nil => exact Matrix.isHermitian_zero
  | cons t ts ih =>
    rw [List.map_cons, List.sum_cons]
    refine Matrix.IsHermitian.add ?_ ih
    rw [Matrix.IsHermitian, Matrix.conjTranspose_smul, pauliString, (tensorProd_hermitian (pauliAt_hermitian t.2)).eq]
    simp

theorem pauliAt_cons (P : Pauli) (k : ℕ) (l : List (Pauli × ℕ)) (h : ∀ e ∈ l, e.2 ≠ k) (q : ℕ) :
    pauliAt ((P, k) :: l) q = (if q = k then P.mat else 1) * pauliAt l q ∧
    pauliAt ((P, k) :: l) q = pauliAt l q * (if q = k then P.mat else 1) := by
  by_cases hq : k = q
  · subst hq
    have : pauliAt l k = 1 := by
      rw [pauliAt, List.find?_eq_none.2]
      intro e he
      simpa using h e he
    rw [this]
    simp [pauliAt]
  · have : pauliAt ((P, k) :: l) q = pauliAt l q := by
      simp [pauliAt, List.find?_cons, hq]
    rw [this, if_neg fun e => hq e.symm]
    simp

theorem pauliString_cons (P : Pauli) {k : ℕ} (hk : k < n) {l : List (Pauli × ℕ)} (h : ∀ e ∈ l, e.2 ≠ k) :
    pauliString n ((P, k) :: l) = gateMat n (matE P.mat) [k] [] * pauliString n l ∧
    pauliString n ((P, k) :: l) = pauliString n l * gateMat n (matE P.mat) [k] [] := by
  rw [gateMat_single _ hk]
  simp only [pauliString, tensorProd_mul]
  constructor
  · exact congrArg _ (funext fun q => (pauliAt_cons P k l h q).1)
  · exact congrArg _ (funext fun q => (pauliAt_cons P k l h q).2)

theorem pauliString_nil : pauliString n [] = 1 := by
  rw [pauliString, ← tensorProd_one]; rfl

open scoped MatrixOrder Matrix.Norms.L2Operator in
/-- The real part of the trace of a product of positive matrices is not negative. -/
theorem trace_mul_nonneg {A ρ : Matrix (Lab n) (Lab n) ℂ} (hA : A.PosSemidef) (hρ : ρ.PosSemidef) :
    0 ≤ expVal A ρ := by
  obtain ⟨B, rfl⟩ := CStarAlgebra.nonneg_iff_eq_star_mul_self.mp hρ.nonneg
  rw [Matrix.star_eq_conjTranspose, expVal, ← Matrix.mul_assoc, Matrix.trace_mul_comm, ← Matrix.mul_assoc]
  exact (Complex.le_def.1 (hA.mul_mul_conjTranspose_same B).trace_nonneg).1

theorem expVal_lower {O ρ : Matrix (Lab n) (Lab n) ℂ} (hO : O.IsHermitian) (hρ : ρ.PosSemidef) (ht : ρ.trace = 1)
    {lo : ℝ} (h : ∀ (x : ℝ) (v : Lab n → ℂ), v ≠ 0 → O.mulVec v = (x : ℂ) • v → lo ≤ x) : lo ≤ expVal O ρ := by
  have hH : (O - (lo : ℂ) • (1 : Matrix (Lab n) (Lab n) ℂ)).IsHermitian := by
    refine hO.sub ?_
    rw [Matrix.IsHermitian, Matrix.conjTranspose_smul, Matrix.conjTranspose_one]
    simp
  have hp : (O - (lo : ℂ) • (1 : Matrix (Lab n) (Lab n) ℂ)).PosSemidef := by
    rw [hH.posSemidef_iff_eigenvalues_nonneg]
    intro i
    have h1 := hH.mulVec_eigenvectorBasis i
    have h2 := h (lo + hH.eigenvalues i) (hH.eigenvectorBasis i) ?_ ?_
    · simpa using h2
    · intro h0
      refine hH.eigenvectorBasis.orthonormal.ne_zero i ?_
      ext j
      exact congrFun h0 j
    · rw [Matrix.sub_mulVec, Matrix.smul_mulVec, Matrix.one_mulVec, sub_eq_iff_eq_add] at h1
      rw [h1, Complex.ofReal_add, add_smul, add_comm]
      rfl
  have := trace_mul_nonneg hp hρ
  rw [expVal, sub_mul, Matrix.trace_sub, Matrix.smul_mul, one_mul, Matrix.trace_smul, ht] at this
  simp only [Complex.sub_re, smul_eq_mul, mul_one, Complex.ofReal_re] at this
  rw [expVal]
  linarith

theorem expVal_upper {O ρ : Matrix (Lab n) (Lab n) ℂ} (hO : O.IsHermitian) (hρ : ρ.PosSemidef) (ht : ρ.trace = 1)
    {hi : ℝ} (h : ∀ (x : ℝ) (v : Lab n → ℂ), v ≠ 0 → O.mulVec v = (x : ℂ) • v → x ≤ hi) : expVal O ρ ≤ hi := by
  have := expVal_lower (lo := -hi) hO.neg hρ ht fun x v hv hx => by
    have h1 := h (-x) v hv (by
      rw [Matrix.neg_mulVec, neg_eq_iff_eq_neg] at hx
      rw [hx]; simp)
    linarith
  rw [expVal, neg_mul, Matrix.trace_neg, Complex.neg_re] at this
  rw [expVal]
  linarith

end Verif
