import Verif.SpecAlgorithms
import Verif.SpecPauli
import Mathlib.Analysis.Normed.Algebra.MatrixExponential
import Mathlib.Analysis.CStarAlgebra.Matrix

/-! # Digital simulation of the evolution under a sum of Pauli strings -/

set_option autoImplicit false

namespace Verif
open scoped Matrix.Norms.L2Operator

/-- The evolution operator `exp (-i t K)` of a Hamiltonian on the register. -/
noncomputable def evolve {n : ℕ} (K : Matrix (Lab n) (Lab n) ℂ) (t : ℝ) : Matrix (Lab n) (Lab n) ℂ :=
  NormedSpace.exp ((-Complex.I * (t : ℂ)) • K)

/-- The gate that turns the eigenvectors of a Pauli operator into those of `Z`: `H` for `X`, a quarter turn for `Y`. -/
noncomputable def Pauli.toZ : Pauli × ℕ → List Placed
  | (.X, q) => [⟨.H, [q], []⟩]
  | (.Y, q) => [⟨.RX (Real.pi / 2), [q], []⟩]
  | _ => []

/-- Its inverse. -/
noncomputable def Pauli.fromZ : Pauli × ℕ → List Placed
  | (.X, q) => [⟨.H, [q], []⟩]
  | (.Y, q) => [⟨.RX (-(Real.pi / 2)), [q], []⟩]
  | _ => []

/-- Controlled nots from each qubit to the next in the list. -/
def parityChain : List ℕ → List Placed
  | a :: b :: l => ⟨.X, [b], [a]⟩ :: parityChain (b :: l)
  | _ => []

/-- The textbook circuit of `exp (-i θ/2 P)` for a Pauli string `P`: change of basis, the parity of the bits in the last
qubit, a rotation of that qubit, and everything back. -/
noncomputable def pauliRotation (θ : ℝ) (l : List (Pauli × ℕ)) : List Placed :=
  l.flatMap Pauli.toZ ++ parityChain (l.map Prod.snd) ++ [⟨.RZ θ, [(l.map Prod.snd).getLastD 0], []⟩] ++
    (parityChain (l.map Prod.snd)).reverse ++ l.flatMap Pauli.fromZ

/-- One step of duration `dt` of the product formula for `Σ c_k P_k`. -/
noncomputable def trotterStep (ts : List (ℝ × List (Pauli × ℕ))) (dt : ℝ) : List Placed :=
  ts.flatMap fun t => pauliRotation (2 * t.1 * dt) t.2

/-- The product formula with `r` steps for the time `t`. -/
noncomputable def trotterCircuit (ts : List (ℝ × List (Pauli × ℕ))) (t : ℝ) (r : ℕ) : List Placed :=
  (List.replicate r (trotterStep ts (t / r))).flatten

/-- Two Pauli operators that anticommute. -/
def Pauli.clash : Pauli → Pauli → Bool
  | .X, .Y | .X, .Z | .Y, .X | .Y, .Z | .Z, .X | .Z, .Y => true
  | _, _ => false

/-- The operator of a Pauli string at a qubit. -/
def pauliOf (l : List (Pauli × ℕ)) (q : ℕ) : Pauli := ((l.find? fun e => e.2 = q).map Prod.fst).getD .I

/-- The number of qubits at which the operators of two strings anticommute.  The strings commute if it is even. -/
def clashes (n : ℕ) (l l' : List (Pauli × ℕ)) : ℕ := ((List.range n).filter fun q => (pauliOf l q).clash (pauliOf l' q)).length

/-- The sum of `2 |c_j c_k|` over the pairs of strings that do not commute. -/
noncomputable def pauliCommutators (n : ℕ) : List (ℝ × List (Pauli × ℕ)) → ℝ
  | [] => 0
  | t :: ts => (ts.map fun t' => if clashes n t.2 t'.2 % 2 = 1 then 2 * (|t.1| * |t'.1|) else 0).sum + pauliCommutators n ts

end Verif
