import Mathlib.Analysis.Complex.Order
import Mathlib.LinearAlgebra.Matrix.PosDef

/-!
# Specification of distinguishability (C90)
-/

set_option autoImplicit false

namespace Verif
open scoped ComplexOrder

/-- A measurement effect: `0 ≤ E ≤ 1`.  Its outcome has probability `tr (E ρ)` in the state `ρ`. -/
def IsEffect {ι : Type} [Fintype ι] [DecidableEq ι] (E : Matrix ι ι ℂ) : Prop := E.PosSemidef ∧ (1 - E).PosSemidef

/-- No measurement tells `ρ` and `σ` apart with an advantage above `ε`: the probabilities of every outcome differ by at
most `ε`.  (The smallest such `ε` is the trace distance.) -/
def WithinDist {ι : Type} [Fintype ι] [DecidableEq ι] (ε : ℝ) (ρ σ : Matrix ι ι ℂ) : Prop :=
  ∀ E, IsEffect E → |(E * ρ).trace.re - (E * σ).trace.re| ≤ ε

end Verif
