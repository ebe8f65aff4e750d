import Verif.AbsGate
import Verif.Model.Rounding
import Mathlib.Analysis.CStarAlgebra.Matrix

/-! # How accurate an arithmetic is -/

set_option autoImplicit false

namespace Verif
open scoped Matrix.Norms.L2Operator

/-- The length of a state vector. -/
noncomputable def ketNorm {n : ℕ} (v : Lab n → ℂ) : ℝ := Real.sqrt (∑ b, ‖v b‖ ^ 2)

/-- The `d × d` matrix with the given entries. -/
def matOf (d : ℕ) (U : ℕ → ℕ → ℂ) : Matrix (Fin d) (Fin d) ℂ := fun i j => U i j

/-- Every operation succeeds whenever its operands make sense, and its result has relative error at most `ε`, measured
in the operator norm: a computed gate matrix against the exact one (which has norm 1), a computed product against the
product of the computed factors, a computed state against the application of the computed matrix to the computed state.
Products and applications are only needed on the qubits of the gates of the circuit. -/
structure Arith.Accurate (A : Arith) (n : ℕ) (ε : ℝ) (values : Values) (gs : List Gate) : Prop where
  op : ∀ g ∈ gs, ∀ u, g.operator .unitary values = .ok u → IsOp g.target.length u →
    ∃ r, A.op g = .ok r ∧ IsOp g.target.length r ∧
      ‖matOf (2 ^ g.target.length) (entries r) - matOf (2 ^ g.target.length) (entries u)‖ ≤ ε
  mul : ∀ g ∈ gs, ∀ a b : NDArray ℂ, IsOp g.target.length a → IsOp g.target.length b →
    ∃ r, A.mul a b = .ok r ∧ IsOp g.target.length r ∧
      ‖matOf (2 ^ g.target.length) (entries r)
          - matOf (2 ^ g.target.length) (entries a) * matOf (2 ^ g.target.length) (entries b)‖
        ≤ ε * (‖matOf (2 ^ g.target.length) (entries a)‖ * ‖matOf (2 ^ g.target.length) (entries b)‖)
  app : ∀ g ∈ gs, ∀ st u : NDArray ℂ, IsKet n st → WfOp n (u, g.target, g.control) →
    ∃ r, A.app st u g.target g.control = .ok r ∧ IsKet n r ∧
      ketNorm (ket n r - (opMat n (u, g.target, g.control)).mulVec (ket n st))
        ≤ ε * (‖opMat n (u, g.target, g.control)‖ * ketNorm (ket n st))

/-- The gate has a unitary matrix on its targets, which with its controls are distinct qubits of the register. -/
structure Gate.UnitaryOn (n : ℕ) (values : Values) (g : Gate) : Prop where
  op : ∃ U, g.operator .unitary values = .ok U ∧ IsOp g.target.length U ∧
    IsUnitaryE (2 ^ g.target.length) (entries U)
  valid : g.ValidOn n

end Verif
