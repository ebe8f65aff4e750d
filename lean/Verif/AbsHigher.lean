import Mathlib.Analysis.Calculus.Deriv.Basic
import Verif.AbsGrad

/-! # Directional derivatives of any order, in the specification vocabulary -/

namespace Verif
set_option autoImplicit false

/-- The dictionary with the keys `keys` and the numbers `x`. -/
def valuesAt (keys : List String) (x : String → ℝ) : Values := keys.map fun p => (p, .num (x p))

/-- `g` is the derivative of `f` along the first direction of the list, then along the second one, and so on: at every
point all these derivatives exist. -/
def IterDeriv {ι : Type} : List (ι → ℝ) → ((ι → ℝ) → ℝ) → ((ι → ℝ) → ℝ) → Prop
  | [], f, g => ∀ x, g x = f x
  | t :: ts, f, g => ∃ f' : (ι → ℝ) → ℝ, (∀ x, HasDerivAt (fun ε : ℝ => f (fun i => x i + ε * t i)) (f' x) 0) ∧ IterDeriv ts f' g

end Verif
