import Verif.SpecGates

/-!
# Pauli strings and their sums

Textbook definitions used to state the properties about Hamiltonians written as sums of Pauli strings.
-/

namespace Verif
set_option autoImplicit false

/-- The tensor product of one `2 × 2` matrix for each qubit. -/
def tensorProd (n : ℕ) (f : ℕ → Matrix (Fin 2) (Fin 2) ℂ) : Matrix (Lab n) (Lab n) ℂ :=
  fun x y => ∏ i : Fin n, f i (x i) (y i)

/-- The Pauli operators. -/
inductive Pauli
  | I | X | Y | Z

/-- The matrix of a Pauli operator. -/
noncomputable def Pauli.mat : Pauli → Matrix (Fin 2) (Fin 2) ℂ
  | .I => 1
  | .X => !![0, 1; 1, 0]
  | .Y => !![0, -Complex.I; Complex.I, 0]
  | .Z => !![1, 0; 0, -1]

/-- The factor of a Pauli string at qubit `q`: the listed operator, or the identity if the qubit is not listed. -/
noncomputable def pauliAt (l : List (Pauli × ℕ)) (q : ℕ) : Matrix (Fin 2) (Fin 2) ℂ :=
  match l.find? fun e => e.2 = q with
  | some e => e.1.mat
  | none => 1

/-- The operator of a Pauli string such as `Y₀ X₁ X₂ Y₃` on `n` qubits. -/
noncomputable def pauliString (n : ℕ) (l : List (Pauli × ℕ)) : Matrix (Lab n) (Lab n) ℂ := tensorProd n (pauliAt l)

/-- The Hamiltonian `Σ c_k P_k` of real coefficients and Pauli strings. -/
noncomputable def pauliSum (n : ℕ) (ts : List (ℝ × List (Pauli × ℕ))) : Matrix (Lab n) (Lab n) ℂ :=
  (ts.map fun t => (t.1 : ℂ) • pauliString n t.2).sum

end Verif
