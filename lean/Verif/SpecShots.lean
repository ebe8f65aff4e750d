import Mathlib.Probability.Independence.Basic
import Mathlib.MeasureTheory.Measure.Lebesgue.Basic

/-! # Random numbers -/

namespace Verif
set_option autoImplicit false
open MeasureTheory ProbabilityTheory

/-- Numbers uniform on `[0, 1)` that are pairwise independent. -/
structure PairwiseUniform {Ω : Type} [MeasurableSpace Ω] (μ : Measure Ω) {k : ℕ} (U : Ω → Fin k → ℝ) : Prop where
  uniform : ∀ j, MeasurePreserving (fun ω => U ω j) μ (volume.restrict (Set.Ico 0 1))
  indep : Pairwise fun i j => IndepFun (fun ω => U ω i) (fun ω => U ω j) μ

/-- Numbers uniform on `[0, 1)` that are independent. -/
structure IndepUniform {Ω : Type} [MeasurableSpace Ω] (μ : Measure Ω) {k : ℕ} (U : Ω → Fin k → ℝ) : Prop where
  uniform : ∀ j, MeasurePreserving (fun ω => U ω j) μ (volume.restrict (Set.Ico 0 1))
  indep : iIndepFun (fun j ω => U ω j) μ

end Verif
