import Verif.AbsShots
import Verif.SpecShots

/-!
# Random keys in the specification vocabulary
-/

namespace Verif
set_option autoImplicit false
open MeasureTheory ProbabilityTheory

/-- The numbers drawn are uniform on `[0, 1)`, and any two of them, drawn with different keys or at different places of the
same draw, are independent. -/
structure IndepDraws {Ω κ : Type} [MeasurableSpace Ω] (μ : Measure Ω) (U : Ω → κ → Draw) : Prop where
  uniform : UniformDraws μ U
  indep : ∀ k, Pairwise fun e e' : κ × Fin k => IndepFun (fun ω => U ω e.1 k e.2) (fun ω => U ω e'.1 k e'.2) μ

/-- The numbers drawn are uniform on `[0, 1)`, and those drawn with different keys or at different places of the same draw are
(mutually) independent. -/
structure MutualDraws {Ω κ : Type} [MeasurableSpace Ω] (μ : Measure Ω) (U : Ω → κ → Draw) : Prop where
  uniform : UniformDraws μ U
  indep : ∀ k, iIndepFun (fun (e : κ × Fin k) ω => U ω e.1 k e.2) μ

/-- The `2 m` keys obtained by splitting `key` in `m` and each of the results in two are different. -/
def DistinctKeys {κ : Type} (split : κ → ℕ → ℕ → κ) (key : κ) (m : ℕ) : Prop :=
  ∀ i < m, ∀ j < m, ∀ a < 2, ∀ b < 2, split (split key m i) 2 a = split (split key m j) 2 b → i = j ∧ a = b

/-- All the keys obtained by splitting the keys `key 0, key 1, …` in `m` and each of the results in two are different. -/
def FreshKeys {κ : Type} (split : κ → ℕ → ℕ → κ) (key : ℕ → κ) (m : ℕ) : Prop :=
  ∀ s t, ∀ i < m, ∀ j < m, ∀ a < 2, ∀ b < 2,
    split (split (key s) m i) 2 a = split (split (key t) m j) 2 b → s = t ∧ i = j ∧ a = b

/-- The keys obtained by splitting `key` in `m`, the `i`-th of them in `c i`, and each of the results in two are different. -/
def DistinctKeysRep {κ : Type} (split : κ → ℕ → ℕ → κ) (key : κ) (m : ℕ) (c : ℕ → ℕ) : Prop :=
  ∀ i < m, ∀ j < m, ∀ a < c i, ∀ b < c j, ∀ s < 2, ∀ t < 2,
    split (split (split key m i) (c i) a) 2 s = split (split (split key m j) (c j) b) 2 t → i = j ∧ a = b ∧ s = t

/-- All the keys obtained in this way from the keys `key 0, key 1, …` are different. -/
def FreshKeysRep {κ : Type} (split : κ → ℕ → ℕ → κ) (key : ℕ → κ) (m : ℕ) (c : ℕ → ℕ) : Prop :=
  ∀ u v, ∀ i < m, ∀ j < m, ∀ a < c i, ∀ b < c j, ∀ s < 2, ∀ t < 2,
    split (split (split (key u) m i) (c i) a) 2 s = split (split (split (key v) m j) (c j) b) 2 t → u = v ∧ i = j ∧ a = b ∧ s = t

open scoped Classical in
/-- The places of the gates with the parameter name `p`. -/
noncomputable def usePlaces (gs : List Gate) (p : String) : Finset ℕ :=
  (Finset.range gs.length).filter fun k => ∃ hk : k < gs.length, gs[k].Uses p

/-- The variance of a measurement of `O` on the state `ρ`. -/
noncomputable def quantumVariance {n : ℕ} (O ρ : Matrix (Lab n) (Lab n) ℂ) : ℝ := expVal (O * O) ρ - expVal O ρ ^ 2

end Verif
