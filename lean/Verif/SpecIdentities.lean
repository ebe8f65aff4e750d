import Verif.SpecGates
import Verif.Spec

/-! # Textbook identities between circuits of standard gates -/

set_option autoImplicit false

namespace Verif

/-- A standard gate with its target and control qubits. -/
structure Placed where
  gate : StdGate
  targets : List ℕ
  controls : List ℕ

/-- The matrix of the gate on an `n`-qubit register. -/
noncomputable def Placed.mat (n : ℕ) (x : Placed) : Matrix (Lab n) (Lab n) ℂ := gateMat n x.gate.mat x.targets x.controls

/-- The matrix of a list of gates, first gate first. -/
noncomputable def placedMat (n : ℕ) : List Placed → Matrix (Lab n) (Lab n) ℂ
  | [] => 1
  | x :: xs => placedMat n xs * x.mat n

/-- Textbook identities.  The lists are in order of time.  All identities can have any number of additional controls `cs`. -/
inductive SameGates : List Placed → List Placed → Prop
  /-- `X`, `Y`, `Z` and `H` are their own inverses. -/
  | square {P : StdGate} (h : P = .X ∨ P = .Y ∨ P = .Z ∨ P = .H) (t : ℕ) (cs : List ℕ) :
      SameGates [⟨P, [t], cs⟩, ⟨P, [t], cs⟩] [⟨.I, [t], cs⟩]
  | SS (t : ℕ) (cs : List ℕ) : SameGates [⟨.S, [t], cs⟩, ⟨.S, [t], cs⟩] [⟨.Z, [t], cs⟩]
  | TT (t : ℕ) (cs : List ℕ) : SameGates [⟨.T, [t], cs⟩, ⟨.T, [t], cs⟩] [⟨.S, [t], cs⟩]
  | HXH (t : ℕ) (cs : List ℕ) : SameGates [⟨.H, [t], cs⟩, ⟨.X, [t], cs⟩, ⟨.H, [t], cs⟩] [⟨.Z, [t], cs⟩]
  | HZH (t : ℕ) (cs : List ℕ) : SameGates [⟨.H, [t], cs⟩, ⟨.Z, [t], cs⟩, ⟨.H, [t], cs⟩] [⟨.X, [t], cs⟩]
  /-- `Y = S X S†`, with `S† = S S S`. -/
  | SXS (t : ℕ) (cs : List ℕ) : SameGates
      [⟨.S, [t], cs⟩, ⟨.S, [t], cs⟩, ⟨.S, [t], cs⟩, ⟨.X, [t], cs⟩, ⟨.S, [t], cs⟩] [⟨.Y, [t], cs⟩]
  /-- `Z`, `S` and `T` are phase gates. -/
  | phaseZ (t : ℕ) (cs : List ℕ) : SameGates [⟨.PHASE Real.pi, [t], cs⟩] [⟨.Z, [t], cs⟩]
  | phaseS (t : ℕ) (cs : List ℕ) : SameGates [⟨.PHASE (Real.pi / 2), [t], cs⟩] [⟨.S, [t], cs⟩]
  | phaseT (t : ℕ) (cs : List ℕ) : SameGates [⟨.PHASE (Real.pi / 4), [t], cs⟩] [⟨.T, [t], cs⟩]
  /-- Hadamard gates exchange the `x` and the `z` axis. -/
  | HRXH (θ : ℝ) (t : ℕ) (cs : List ℕ) : SameGates [⟨.H, [t], cs⟩, ⟨.RX θ, [t], cs⟩, ⟨.H, [t], cs⟩] [⟨.RZ θ, [t], cs⟩]
  | HRZH (θ : ℝ) (t : ℕ) (cs : List ℕ) : SameGates [⟨.H, [t], cs⟩, ⟨.RZ θ, [t], cs⟩, ⟨.H, [t], cs⟩] [⟨.RX θ, [t], cs⟩]
  | HRYH (θ : ℝ) (t : ℕ) (cs : List ℕ) : SameGates [⟨.H, [t], cs⟩, ⟨.RY θ, [t], cs⟩, ⟨.H, [t], cs⟩] [⟨.RY (-θ), [t], cs⟩]
  /-- Pauli gates turn the rotations about the other axes around. -/
  | XRZX (θ : ℝ) (t : ℕ) (cs : List ℕ) : SameGates [⟨.X, [t], cs⟩, ⟨.RZ θ, [t], cs⟩, ⟨.X, [t], cs⟩] [⟨.RZ (-θ), [t], cs⟩]
  | XRYX (θ : ℝ) (t : ℕ) (cs : List ℕ) : SameGates [⟨.X, [t], cs⟩, ⟨.RY θ, [t], cs⟩, ⟨.X, [t], cs⟩] [⟨.RY (-θ), [t], cs⟩]
  | ZRXZ (θ : ℝ) (t : ℕ) (cs : List ℕ) : SameGates [⟨.Z, [t], cs⟩, ⟨.RX θ, [t], cs⟩, ⟨.Z, [t], cs⟩] [⟨.RX (-θ), [t], cs⟩]
  | ZRYZ (θ : ℝ) (t : ℕ) (cs : List ℕ) : SameGates [⟨.Z, [t], cs⟩, ⟨.RY θ, [t], cs⟩, ⟨.Z, [t], cs⟩] [⟨.RY (-θ), [t], cs⟩]
  | YRXY (θ : ℝ) (t : ℕ) (cs : List ℕ) : SameGates [⟨.Y, [t], cs⟩, ⟨.RX θ, [t], cs⟩, ⟨.Y, [t], cs⟩] [⟨.RX (-θ), [t], cs⟩]
  | YRZY (θ : ℝ) (t : ℕ) (cs : List ℕ) : SameGates [⟨.Y, [t], cs⟩, ⟨.RZ θ, [t], cs⟩, ⟨.Y, [t], cs⟩] [⟨.RZ (-θ), [t], cs⟩]
  /-- A quarter turn about `z` carries the `x` axis to the `y` axis. -/
  | ZXZ (θ : ℝ) (t : ℕ) (cs : List ℕ) : SameGates
      [⟨.RZ (-(Real.pi / 2)), [t], cs⟩, ⟨.RX θ, [t], cs⟩, ⟨.RZ (Real.pi / 2), [t], cs⟩] [⟨.RY θ, [t], cs⟩]
  /-- Periods. -/
  | periodX (θ : ℝ) (t : ℕ) (cs : List ℕ) : SameGates [⟨.RX (θ + 4 * Real.pi), [t], cs⟩] [⟨.RX θ, [t], cs⟩]
  | periodY (θ : ℝ) (t : ℕ) (cs : List ℕ) : SameGates [⟨.RY (θ + 4 * Real.pi), [t], cs⟩] [⟨.RY θ, [t], cs⟩]
  | periodZ (θ : ℝ) (t : ℕ) (cs : List ℕ) : SameGates [⟨.RZ (θ + 4 * Real.pi), [t], cs⟩] [⟨.RZ θ, [t], cs⟩]
  | periodP (θ : ℝ) (t : ℕ) (cs : List ℕ) : SameGates [⟨.PHASE (θ + 2 * Real.pi), [t], cs⟩] [⟨.PHASE θ, [t], cs⟩]
  /-- A controlled phase is a controlled `RZ` and a phase on the control. -/
  | kick (θ : ℝ) (a b : ℕ) (cs : List ℕ) : SameGates
      [⟨.RZ θ, [b], a :: cs⟩, ⟨.PHASE (θ / 2), [a], cs⟩] [⟨.PHASE θ, [b], a :: cs⟩]
  /-- A swap is three controlled nots. -/
  | swap (a b : ℕ) (cs : List ℕ) : SameGates
      [⟨.X, [b], a :: cs⟩, ⟨.X, [a], b :: cs⟩, ⟨.X, [b], a :: cs⟩] [⟨.SWAP, [a, b], cs⟩]
  | swapSwap (a b : ℕ) (cs : List ℕ) : SameGates [⟨.SWAP, [a, b], cs⟩, ⟨.SWAP, [a, b], cs⟩] [⟨.I, [a], cs⟩]
  | swapComm (a b : ℕ) (cs : List ℕ) : SameGates [⟨.SWAP, [a, b], cs⟩] [⟨.SWAP, [b, a], cs⟩]
  /-- Swaps carry a one-qubit gate to the other qubit. -/
  | swapGate {s : StdGate} (h : s.arity = 1) (a b : ℕ) (cs : List ℕ) : SameGates
      [⟨.SWAP, [a, b], cs⟩, ⟨s, [a], cs⟩, ⟨.SWAP, [a, b], cs⟩] [⟨s, [b], cs⟩]
  /-- Controlled `Z` and controlled phases are symmetric. -/
  | symmZ (a b : ℕ) (cs : List ℕ) : SameGates [⟨.Z, [b], a :: cs⟩] [⟨.Z, [a], b :: cs⟩]
  | symmPhase (θ : ℝ) (a b : ℕ) (cs : List ℕ) : SameGates [⟨.PHASE θ, [b], a :: cs⟩] [⟨.PHASE θ, [a], b :: cs⟩]
  /-- Controlled not from controlled `Z`, and its reversal. -/
  | HCZH (a b : ℕ) (cs : List ℕ) : SameGates [⟨.H, [b], cs⟩, ⟨.Z, [b], a :: cs⟩, ⟨.H, [b], cs⟩] [⟨.X, [b], a :: cs⟩]
  | reverse (a b : ℕ) (cs : List ℕ) : SameGates
      [⟨.H, [a], cs⟩, ⟨.H, [b], cs⟩, ⟨.X, [b], a :: cs⟩, ⟨.H, [a], cs⟩, ⟨.H, [b], cs⟩] [⟨.X, [a], b :: cs⟩]
  /-- A controlled not copies bit flips forwards and phase flips backwards. -/
  | copyX (a b : ℕ) (cs : List ℕ) : SameGates
      [⟨.X, [a], cs⟩, ⟨.X, [b], a :: cs⟩] [⟨.X, [b], a :: cs⟩, ⟨.X, [a], cs⟩, ⟨.X, [b], cs⟩]
  | copyZ (a b : ℕ) (cs : List ℕ) : SameGates
      [⟨.Z, [b], cs⟩, ⟨.X, [b], a :: cs⟩] [⟨.X, [b], a :: cs⟩, ⟨.Z, [a], cs⟩, ⟨.Z, [b], cs⟩]

end Verif
