import Mathlib.Analysis.Normed.Algebra.MatrixExponential
import Mathlib.Analysis.SpecialFunctions.Exponential
import Mathlib.Analysis.Calculus.ContDiff.Operations
import Mathlib.Analysis.Calculus.Deriv.Mul
import Mathlib.Analysis.Calculus.Deriv.Slope

/-!
# The derivative of the matrix exponential

The derivative of `exp` at `A` in direction `E` is the upper right block of the exponential of the block matrix `[[A, E], [0, A]]`.
-/

set_option autoImplicit false

namespace Verif
open scoped ContDiff

section
variable {d : ℕ}

/-- The matrix `[[A, E], [0, B]]`. -/
def blockMat (A E B : Matrix (Fin d) (Fin d) ℂ) : Matrix (Fin (d + d)) (Fin (d + d)) ℂ :=
  (Matrix.fromBlocks A E 0 B).submatrix finSumFinEquiv.symm finSumFinEquiv.symm

theorem blockMat_11 (A E B : Matrix (Fin d) (Fin d) ℂ) (i j : Fin d) : blockMat A E B (Fin.castAdd d i) (Fin.castAdd d j) = A i j := by
  simp [blockMat]

theorem blockMat_12 (A E B : Matrix (Fin d) (Fin d) ℂ) (i j : Fin d) : blockMat A E B (Fin.castAdd d i) (Fin.natAdd d j) = E i j := by
  simp [blockMat, -Fin.natAdd_eq_addNat]

theorem blockMat_21 (A E B : Matrix (Fin d) (Fin d) ℂ) (i j : Fin d) : blockMat A E B (Fin.natAdd d i) (Fin.castAdd d j) = 0 := by
  simp [blockMat, -Fin.natAdd_eq_addNat]

theorem blockMat_22 (A E B : Matrix (Fin d) (Fin d) ℂ) (i j : Fin d) : blockMat A E B (Fin.natAdd d i) (Fin.natAdd d j) = B i j := by
  simp [blockMat, -Fin.natAdd_eq_addNat]

/-- Pairs of matrices as block matrices. -/
noncomputable def blockHom (c : ℂ) :
    Matrix (Fin d) (Fin d) ℂ × Matrix (Fin d) (Fin d) ℂ →+* Matrix (Fin (d + d)) (Fin (d + d)) ℂ where
  toFun P := blockMat P.1 (c • (P.2 - P.1)) P.2
  map_one' := by simp [blockMat, Matrix.fromBlocks_one]
  map_zero' := by simp [blockMat, Matrix.fromBlocks_zero]
  map_add' P Q := by
    ext i j
    simp only [blockMat, Matrix.add_apply, Matrix.submatrix_apply]
    rw [← Matrix.add_apply, Matrix.fromBlocks_add]
    congr 2
    · simp only [Prod.fst_add, Prod.snd_add, ← smul_add]
      congr 1
      abel
    · simp
  map_mul' P Q := by
    rw [blockMat, blockMat, blockMat, Matrix.submatrix_mul_equiv, Matrix.fromBlocks_multiply]
    congr 2
    · simp
    · simp only [Prod.fst_mul, Prod.snd_mul, Matrix.mul_smul, Matrix.smul_mul, ← smul_add]
      congr 1
      rw [mul_sub, sub_mul]
      abel
    · simp
    · simp

theorem blockHom_continuous (c : ℂ) : Continuous (blockHom (d := d) c) := by
  have h12 : Continuous fun P : Matrix (Fin d) (Fin d) ℂ × Matrix (Fin d) (Fin d) ℂ => c • (P.2 - P.1) := by
    fun_prop
  have : Continuous fun P : Matrix (Fin d) (Fin d) ℂ × Matrix (Fin d) (Fin d) ℂ => blockMat P.1 (c • (P.2 - P.1)) P.2 := by
    unfold blockMat
    exact Continuous.matrix_submatrix (Continuous.matrix_fromBlocks continuous_fst h12 continuous_const continuous_snd) _ _
  exact this

theorem exp_blockMat {s : ℝ} (hs : s ≠ 0) (A E : Matrix (Fin d) (Fin d) ℂ) :
    NormedSpace.exp (blockMat A E (A + s • E))
      = blockMat (NormedSpace.exp A) ((s : ℂ)⁻¹ • (NormedSpace.exp (A + s • E) - NormedSpace.exp A)) (NormedSpace.exp (A + s • E)) := by
  letI : NormedRing (Matrix (Fin d) (Fin d) ℂ) := Matrix.linftyOpNormedRing
  letI : NormedAlgebra ℂ (Matrix (Fin d) (Fin d) ℂ) := Matrix.linftyOpNormedAlgebra
  letI : NormedAlgebra ℚ (Matrix (Fin d) (Fin d) ℂ) := NormedAlgebra.restrictScalars ℚ ℂ _
  letI : NormedRing (Matrix (Fin (d + d)) (Fin (d + d)) ℂ) := Matrix.linftyOpNormedRing
  letI : NormedAlgebra ℂ (Matrix (Fin (d + d)) (Fin (d + d)) ℂ) := Matrix.linftyOpNormedAlgebra
  have hc : Continuous (blockHom (d := d) (s : ℂ)⁻¹) := blockHom_continuous _
  have h := NormedSpace.map_exp (blockHom (d := d) (s : ℂ)⁻¹) hc (A, A + s • E)
  have h1 : blockHom (d := d) (s : ℂ)⁻¹ (A, A + s • E) = blockMat A E (A + s • E) := by
    change blockMat A ((s : ℂ)⁻¹ • (A + s • E - A)) (A + s • E) = _
    congr 1
    rw [add_sub_cancel_left]
    ext i j
    simp only [Matrix.smul_apply, smul_eq_mul, Complex.real_smul]
    rw [← mul_assoc, inv_mul_cancel₀ (by exact_mod_cast hs), one_mul]
  rw [h1] at h
  refine Eq.trans h.symm ?_
  change blockMat _ ((s : ℂ)⁻¹ • (_ - _)) _ = _
  rw [Prod.fst_exp, Prod.snd_exp]
  rfl

theorem exp_block_tendsto (A E : Matrix (Fin d) (Fin d) ℂ) (i j : Fin (d + d)) :
    Filter.Tendsto (fun s : ℝ => NormedSpace.exp (blockMat A E (A + s • E)) i j) (nhdsWithin 0 {0}ᶜ)
      (nhds (NormedSpace.exp (blockMat A E A) i j)) := by
  letI : NormedRing (Matrix (Fin (d + d)) (Fin (d + d)) ℂ) := Matrix.linftyOpNormedRing
  letI : NormedAlgebra ℂ (Matrix (Fin (d + d)) (Fin (d + d)) ℂ) := Matrix.linftyOpNormedAlgebra
  letI : NormedAlgebra ℚ (Matrix (Fin (d + d)) (Fin (d + d)) ℂ) := NormedAlgebra.restrictScalars ℚ ℂ _
  have hc : Continuous fun s : ℝ => NormedSpace.exp (blockMat A E (A + s • E)) i j := by
    have h1 : Continuous fun s : ℝ => blockMat A E (A + s • E) :=
      Continuous.matrix_submatrix (Continuous.matrix_fromBlocks continuous_const continuous_const continuous_const
        (continuous_const.add (continuous_id.smul continuous_const))) _ _
    exact (NormedSpace.exp_continuous.comp h1).matrix_elem i j
  have h2 := (hc.tendsto 0).mono_left (nhdsWithin_le_nhds (s := {0}ᶜ))
  simpa using h2

theorem exp_block_11 (A E : Matrix (Fin d) (Fin d) ℂ) (i j : Fin d) :
    NormedSpace.exp (blockMat A E A) (Fin.castAdd d i) (Fin.castAdd d j) = NormedSpace.exp A i j := by
  refine tendsto_nhds_unique (exp_block_tendsto A E _ _) ?_
  refine Filter.Tendsto.congr' (f₁ := fun _ => NormedSpace.exp A i j) ?_ tendsto_const_nhds
  filter_upwards [self_mem_nhdsWithin] with s hs
  rw [exp_blockMat hs, blockMat_11]

theorem exp_block_12 (A E : Matrix (Fin d) (Fin d) ℂ) (i j : Fin d) :
    HasDerivAt (fun s : ℝ => NormedSpace.exp (A + s • E) i j)
      (NormedSpace.exp (blockMat A E A) (Fin.castAdd d i) (Fin.natAdd d j)) 0 := by
  rw [hasDerivAt_iff_tendsto_slope]
  refine Filter.Tendsto.congr' ?_ (exp_block_tendsto A E _ _)
  filter_upwards [self_mem_nhdsWithin] with s hs
  rw [exp_blockMat hs, blockMat_12, slope_def_module]
  simp only [sub_zero, zero_smul, add_zero, Matrix.smul_apply, Matrix.sub_apply, smul_eq_mul]
  rw [← Complex.ofReal_inv, ← Complex.real_smul]

theorem exp_contDiff :
    letI : NormedRing (Matrix (Fin d) (Fin d) ℂ) := Matrix.linftyOpNormedRing
    letI : NormedAlgebra ℝ (Matrix (Fin d) (Fin d) ℂ) := Matrix.linftyOpNormedAlgebra
    ContDiff ℝ ω (NormedSpace.exp : Matrix (Fin d) (Fin d) ℂ → Matrix (Fin d) (Fin d) ℂ) := by
  letI : NormedRing (Matrix (Fin d) (Fin d) ℂ) := Matrix.linftyOpNormedRing
  letI : NormedAlgebra ℝ (Matrix (Fin d) (Fin d) ℂ) := Matrix.linftyOpNormedAlgebra
  rw [← contDiffOn_univ]
  exact AnalyticOn.contDiffOn (fun x _ => (NormedSpace.exp_analytic (𝕂 := ℝ) x).analyticWithinAt) uniqueDiffOn_univ

end

section
variable {d : ℕ} {V : Type} [NormedAddCommGroup V] [NormedSpace ℝ V]

theorem contDiff_matrix {M : V → Matrix (Fin d) (Fin d) ℂ} (h : ∀ i j, ContDiff ℝ ω fun x => M x i j) :
    letI : NormedRing (Matrix (Fin d) (Fin d) ℂ) := Matrix.linftyOpNormedRing
    letI : NormedAlgebra ℝ (Matrix (Fin d) (Fin d) ℂ) := Matrix.linftyOpNormedAlgebra
    ContDiff ℝ ω M := by
  letI : NormedRing (Matrix (Fin d) (Fin d) ℂ) := Matrix.linftyOpNormedRing
  letI : NormedAlgebra ℝ (Matrix (Fin d) (Fin d) ℂ) := Matrix.linftyOpNormedAlgebra
  let S : Fin d → Fin d → ℂ →ₗ[ℝ] Matrix (Fin d) (Fin d) ℂ := fun i j =>
    { toFun := fun c => Matrix.single i j c
      map_add' := fun a b => Matrix.single_add i j a b
      map_smul' := fun a b => (Matrix.smul_single a i j b).symm }
  have hs : ∀ i j : Fin d, ContDiff ℝ ω fun x => Matrix.single i j (M x i j) := fun i j =>
    (LinearMap.toContinuousLinearMap (S i j)).contDiff.comp (h i j)
  have : M = fun x => ∑ i, ∑ j, Matrix.single i j (M x i j) := funext fun x => Matrix.matrix_eq_sum_single (M x)
  rw [this]
  exact ContDiff.sum fun i _ => ContDiff.sum fun j _ => hs i j

/-- The entries of the exponential of a matrix of analytic functions are analytic. -/
theorem expEntry_contDiff {M : V → Matrix (Fin d) (Fin d) ℂ} (h : ∀ i j, ContDiff ℝ ω fun x => M x i j) (i j : Fin d) :
    ContDiff ℝ ω fun x => NormedSpace.exp (M x) i j := by
  letI : NormedRing (Matrix (Fin d) (Fin d) ℂ) := Matrix.linftyOpNormedRing
  letI : NormedAlgebra ℝ (Matrix (Fin d) (Fin d) ℂ) := Matrix.linftyOpNormedAlgebra
  let L : Matrix (Fin d) (Fin d) ℂ →ₗ[ℝ] ℂ :=
    { toFun := fun A => A i j
      map_add' := fun _ _ => rfl
      map_smul' := fun _ _ => rfl }
  exact (LinearMap.toContinuousLinearMap L).contDiff.comp (exp_contDiff.comp (contDiff_matrix h))

/-- The derivative of the exponential of a matrix of analytic functions. -/
theorem expEntry_fderiv {M : V → Matrix (Fin d) (Fin d) ℂ} (h : ∀ i j, ContDiff ℝ ω fun x => M x i j) (i j : Fin d) (x v : V) :
    fderiv ℝ (fun x => NormedSpace.exp (M x) i j) x v
      = NormedSpace.exp (blockMat (M x) (Matrix.of fun k l => fderiv ℝ (fun x => M x k l) x v) (M x)) (Fin.castAdd d i) (Fin.natAdd d j) := by
  letI : NormedRing (Matrix (Fin d) (Fin d) ℂ) := Matrix.linftyOpNormedRing
  letI : NormedAlgebra ℝ (Matrix (Fin d) (Fin d) ℂ) := Matrix.linftyOpNormedAlgebra
  let L : Fin d → Fin d → Matrix (Fin d) (Fin d) ℂ →ₗ[ℝ] ℂ := fun i j =>
    { toFun := fun A => A i j
      map_add' := fun _ _ => rfl
      map_smul' := fun _ _ => rfl }
  have hM : HasFDerivAt M (fderiv ℝ M x) x := ((contDiff_matrix h).differentiable (by simp) x).hasFDerivAt
  have hE : (Matrix.of fun k l => fderiv ℝ (fun x => M x k l) x v) = fderiv ℝ M x v := by
    ext k l
    have := ((LinearMap.toContinuousLinearMap (L k l)).hasFDerivAt.comp x hM).fderiv
    change fderiv ℝ (fun x => M x k l) x v = _
    have h2 := congrArg (fun g : V →L[ℝ] ℂ => g v) this
    exact h2
  rw [hE]
  have hexp : HasFDerivAt (NormedSpace.exp : Matrix (Fin d) (Fin d) ℂ → _) (fderiv ℝ NormedSpace.exp (M x)) (M x) :=
    (exp_contDiff.differentiable (by simp) (M x)).hasFDerivAt
  have h1 := ((LinearMap.toContinuousLinearMap (L i j)).hasFDerivAt.comp x (hexp.comp x hM)).fderiv
  have h2 := congrArg (fun g : V →L[ℝ] ℂ => g v) h1
  have h3 : HasDerivAt (fun s : ℝ => NormedSpace.exp (M x + s • fderiv ℝ M x v) i j)
      (LinearMap.toContinuousLinearMap (L i j) (fderiv ℝ NormedSpace.exp (M x) (fderiv ℝ M x v))) 0 := by
    have hl : HasDerivAt (fun s : ℝ => M x + s • fderiv ℝ M x v) (fderiv ℝ M x v) 0 := by
      have := ((hasDerivAt_id (0 : ℝ)).smul_const (fderiv ℝ M x v)).const_add (M x)
      rw [one_smul] at this
      exact this
    have hexp' : HasFDerivAt (NormedSpace.exp : Matrix (Fin d) (Fin d) ℂ → _) (fderiv ℝ NormedSpace.exp (M x))
        (M x + (0 : ℝ) • fderiv ℝ M x v) := by
      rwa [zero_smul, add_zero]
    exact (LinearMap.toContinuousLinearMap (L i j)).hasFDerivAt.comp_hasDerivAt 0 (hexp'.comp_hasDerivAt 0 hl)
  exact Eq.trans h2 (h3.unique (exp_block_12 (M x) (fderiv ℝ M x v) i j))

end
/-- The derivative of the entries of `exp (s M)`. -/
theorem expEntry_hasDerivAt {d : ℕ} (M : Matrix (Fin d) (Fin d) ℂ) (i j : Fin d) (s : ℝ) :
    HasDerivAt (fun s : ℝ => NormedSpace.exp (s • M) i j) ((M * NormedSpace.exp (s • M)) i j) s := by
  letI : NormedRing (Matrix (Fin d) (Fin d) ℂ) := Matrix.linftyOpNormedRing
  letI : NormedAlgebra ℝ (Matrix (Fin d) (Fin d) ℂ) := Matrix.linftyOpNormedAlgebra
  have h := hasDerivAt_exp_smul_const' (𝕂 := ℝ) M s
  let L : Matrix (Fin d) (Fin d) ℂ →ₗ[ℝ] ℂ :=
    { toFun := fun A => A i j
      map_add' := fun _ _ => rfl
      map_smul' := fun _ _ => rfl }
  exact (LinearMap.toContinuousLinearMap L).hasFDerivAt.comp_hasDerivAt s h

end Verif
