import Mathlib.Analysis.SpecialFunctions.Trigonometric.Basic
import Mathlib.Data.Fintype.BigOperators

/-! # The linear system of the generalised parameter-shift rule, as in the documentation -/

set_option autoImplicit false

namespace Verif

/-- The numbers `R` solve the system of docs/differentiation.md:52-60 for the function `f` at `x`, the spectral gaps `Δ` and
the shifts `δ`: `f(x + δ_j) - f(x - δ_j) = 4 Σ_s sin(δ_j Δ_s / 2) R_s`. -/
def GapSystem {S M : ℕ} (f : ℝ → ℝ) (x : ℝ) (Δ : Fin S → ℝ) (δ : Fin M → ℝ) (R : Fin S → ℝ) : Prop :=
  ∀ j, f (x + δ j) - f (x - δ j) = 4 * ∑ s, Real.sin (δ j * Δ s / 2) * R s

end Verif
