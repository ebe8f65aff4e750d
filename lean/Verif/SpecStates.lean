import Verif.AbsGate
import Mathlib.Analysis.Complex.Basic

/-! # Specification vocabulary for states and samples -/

namespace Verif
open NDArray

/-- The bit string of a basis label. -/
def Lab.str {n : ℕ} (b : Lab n) : String := String.ofList (b.bits.map fun d => if d = 0 then '0' else '1')

/-- The label with the bit of qubit `q` flipped. -/
def Lab.flip {n : ℕ} (b : Lab n) (q : ℕ) : Lab n := fun i => if i.val = q then 1 - b i else b i

/-- The squared norm of an array on `n` qubits. -/
noncomputable def normSq (n : ℕ) (a : NDArray ℂ) : ℝ := ∑ b : Lab n, ‖ket n a b‖ ^ 2

/-- The probability of a basis label in a state: the diagonal entry of its density operator, `|ψ_b|²` for a state
vector. -/
noncomputable def State.prob (n : ℕ) (s : State) (b : Lab n) : ℝ := (s.mat n b b).re

/-- A state of weight one: `⟨ψ|ψ⟩ = 1`, or `tr ρ = 1` with non-negative diagonal. -/
def State.Normalised (n : ℕ) (s : State) : Prop := (∀ b, 0 ≤ s.prob n b) ∧ ∑ b : Lab n, s.prob n b = 1

end Verif
