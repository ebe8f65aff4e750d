import Mathlib.Analysis.SpecialFunctions.Trigonometric.Basic
import Verif.AbsGrad

/-!
# Trigonometric polynomials
-/

namespace Verif
set_option autoImplicit false

/-- A trigonometric polynomial of degree at most `m`. -/
def TrigPoly (m : ℕ) (f : ℝ → ℝ) : Prop :=
  ∃ a b : ℕ → ℝ, ∀ x, f x = ∑ k ∈ Finset.range (m + 1), (a k * Real.cos (k * x) + b k * Real.sin (k * x))

open Classical in
/-- The number of gates with the parameter name `p`. -/
noncomputable def numUses (gs : List Gate) (p : String) : ℕ := gs.countP fun g => decide (g.Uses p)

end Verif
