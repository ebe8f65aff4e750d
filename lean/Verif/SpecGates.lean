import Mathlib.LinearAlgebra.Matrix.Notation
import Mathlib.Analysis.SpecialFunctions.Trigonometric.Basic
import Verif.Spec

/-!
# Textbook gates

The matrices of the standard gates as found in any textbook, independent of the model of the code.
-/

namespace Verif

/-- Entries of a matrix as a function on naturals. -/
def matE {d : ℕ} (M : Matrix (Fin d) (Fin d) ℂ) : ℕ → ℕ → ℂ :=
  fun i j => if h : i < d ∧ j < d then M ⟨i, h.1⟩ ⟨j, h.2⟩ else 0

/-- The standard gates (without targets and controls). -/
inductive StdGate
  | I | X | Y | Z | H | S | T | SWAP
  | RX (θ : ℝ) | RY (θ : ℝ) | RZ (θ : ℝ) | PHASE (θ : ℝ)

open Complex in
/-- The textbook matrix of a standard gate. -/
noncomputable def StdGate.mat : StdGate → ℕ → ℕ → ℂ
  | .I => matE !![1, 0; 0, 1]
  | .X => matE !![0, 1; 1, 0]
  | .Y => matE !![0, -Complex.I; Complex.I, 0]
  | .Z => matE !![1, 0; 0, -1]
  | .H => matE !![1 / (√2 : ℝ), 1 / (√2 : ℝ); 1 / (√2 : ℝ), -(1 / (√2 : ℝ))]
  | .S => matE !![1, 0; 0, Complex.I]
  | .T => matE !![1, 0; 0, exp (Complex.I * Real.pi / 4)]
  | .SWAP => matE !![1, 0, 0, 0; 0, 0, 1, 0; 0, 1, 0, 0; 0, 0, 0, 1]
  | .RX θ => matE !![(Real.cos (θ / 2) : ℂ), -Complex.I * Real.sin (θ / 2);
                     -Complex.I * Real.sin (θ / 2), Real.cos (θ / 2)]
  | .RY θ => matE !![(Real.cos (θ / 2) : ℂ), -(Real.sin (θ / 2)); (Real.sin (θ / 2) : ℂ), Real.cos (θ / 2)]
  | .RZ θ => matE !![exp (-Complex.I * θ / 2), 0; 0, exp (Complex.I * θ / 2)]
  | .PHASE θ => matE !![1, 0; 0, exp (Complex.I * θ)]

/-- Number of target qubits of a standard gate. -/
def StdGate.arity : StdGate → ℕ
  | .SWAP => 2
  | _ => 1

end Verif
