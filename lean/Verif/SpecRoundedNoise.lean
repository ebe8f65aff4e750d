import Verif.SpecRounding
import Verif.Model.RoundedNoise
import Verif.SpecNoise

/-! # How accurate an arithmetic on density matrices is -/

set_option autoImplicit false

namespace Verif
open scoped Matrix.Norms.L2Operator

/-- The trace norm of `X` is at most `c`: no observable of norm 1 has an expectation value beyond `c` in `X`.  (For a
density matrix `c` is the trace; for the difference of two density matrices the bound is on all their differences that
a measurement can show.) -/
def TraceNormLe {n : ℕ} (X : Matrix (Lab n) (Lab n) ℂ) (c : ℝ) : Prop := ∀ O, ‖(O * X).trace‖ ≤ c * ‖O‖

/-- The number of noise channels of a list of gates. -/
def noiseSteps (gs : List Gate) : ℕ := (gs.map fun g => (g.noise.getD []).length).sum

/-- Every operation succeeds whenever its operands make sense, with relative error at most `ε`: matrices in the operator
norm (as in `Arith.Accurate`), density matrices in the trace norm. -/
structure ArithDM.Accurate (A : ArithDM) (n : ℕ) (ε : ℝ) (values : Values) (gs : List Gate) : Prop where
  op : ∀ g ∈ gs, ∀ u, g.operator .unitary values = .ok u → IsOp g.target.length u →
    ∃ r, A.op g = .ok r ∧ IsOp g.target.length r ∧
      ‖matOf (2 ^ g.target.length) (entries r) - matOf (2 ^ g.target.length) (entries u)‖ ≤ ε
  mul : ∀ g ∈ gs, ∀ a b : NDArray ℂ, IsOp g.target.length a → IsOp g.target.length b →
    ∃ r, A.mul a b = .ok r ∧ IsOp g.target.length r ∧
      ‖matOf (2 ^ g.target.length) (entries r)
          - matOf (2 ^ g.target.length) (entries a) * matOf (2 ^ g.target.length) (entries b)‖
        ≤ ε * (‖matOf (2 ^ g.target.length) (entries a)‖ * ‖matOf (2 ^ g.target.length) (entries b)‖)
  app : ∀ g ∈ gs, ∀ (ρ : DensityMatrix ℂ) (u : NDArray ℂ) (T : ℝ), IsDM n ρ → WfOp n (u, g.target, g.control) →
    TraceNormLe (dmMat n ρ.array) T →
    ∃ r, A.app ρ u g.target g.control = .ok r ∧ IsDM n r ∧
      TraceNormLe (dmMat n r.array - conjBy (opMat n (u, g.target, g.control)) (dmMat n ρ.array))
        (ε * (‖opMat n (u, g.target, g.control)‖ ^ 2 * T))
  noise : ∀ g ∈ gs, ∀ nis, g.noise = some nis → ∀ ni ∈ nis, ∀ s, ni.Is s → ∀ t, g.target = [t] →
    ∀ (ρ : DensityMatrix ℂ) (T : ℝ), IsDM n ρ → TraceNormLe (dmMat n ρ.array) T →
    ∃ r, A.noise ρ ni [t] (List.range n) = .ok r ∧ IsDM n r ∧
      TraceNormLe (dmMat n r.array - s.chan n t (dmMat n ρ.array)) (ε * T)

/-- The square root of the sum of the squared entries. -/
noncomputable def frob {n : ℕ} (X : Matrix (Lab n) (Lab n) ℂ) : ℝ := Real.sqrt (∑ i, ∑ j, ‖X i j‖ ^ 2)

/-- As `ArithDM.Accurate`, with the errors of density matrices measured entry by entry (root of the sum of squares),
relative to the matrix that the operation is applied to. -/
structure ArithDM.EntryAccurate (A : ArithDM) (n : ℕ) (η : ℝ) (values : Values) (gs : List Gate) : Prop where
  op : ∀ g ∈ gs, ∀ u, g.operator .unitary values = .ok u → IsOp g.target.length u →
    ∃ r, A.op g = .ok r ∧ IsOp g.target.length r ∧
      ‖matOf (2 ^ g.target.length) (entries r) - matOf (2 ^ g.target.length) (entries u)‖ ≤ η
  mul : ∀ g ∈ gs, ∀ a b : NDArray ℂ, IsOp g.target.length a → IsOp g.target.length b →
    ∃ r, A.mul a b = .ok r ∧ IsOp g.target.length r ∧
      ‖matOf (2 ^ g.target.length) (entries r)
          - matOf (2 ^ g.target.length) (entries a) * matOf (2 ^ g.target.length) (entries b)‖
        ≤ η * (‖matOf (2 ^ g.target.length) (entries a)‖ * ‖matOf (2 ^ g.target.length) (entries b)‖)
  app : ∀ g ∈ gs, ∀ (ρ : DensityMatrix ℂ) (u : NDArray ℂ), IsDM n ρ → WfOp n (u, g.target, g.control) →
    ∃ r, A.app ρ u g.target g.control = .ok r ∧ IsDM n r ∧
      frob (dmMat n r.array - conjBy (opMat n (u, g.target, g.control)) (dmMat n ρ.array))
        ≤ η * (‖opMat n (u, g.target, g.control)‖ ^ 2 * frob (dmMat n ρ.array))
  noise : ∀ g ∈ gs, ∀ nis, g.noise = some nis → ∀ ni ∈ nis, ∀ s, ni.Is s → ∀ t, g.target = [t] →
    ∀ (ρ : DensityMatrix ℂ), IsDM n ρ →
    ∃ r, A.noise ρ ni [t] (List.range n) = .ok r ∧ IsDM n r ∧
      frob (dmMat n r.array - s.chan n t (dmMat n ρ.array)) ≤ η * frob (dmMat n ρ.array)

end Verif
