import Verif.SpecIdentities

/-! # Reversible logic, and the states of textbook algorithms -/

set_option autoImplicit false

namespace Verif

/-- A gate of reversible logic: a (multiply controlled) not, or a (multiply controlled) exchange of two bits. -/
inductive Logic
  | not (t : ℕ) (cs : List ℕ)
  | swap (a b : ℕ) (cs : List ℕ)

/-- The bits after the gate. -/
def Logic.act {n : ℕ} (x : Lab n) : Logic → Lab n
  | .not t cs => if ∀ c ∈ cs, x.bit c = 1 then fun q => if q.val = t then 1 - x q else x q else x
  | .swap a b cs => if ∀ c ∈ cs, x.bit c = 1 then
      fun q => if q.val = a then (if x.bit b = 1 then 1 else 0) else if q.val = b then (if x.bit a = 1 then 1 else 0) else x q
    else x

/-- The bits after a list of gates, first gate first. -/
def logicRun {n : ℕ} (ls : List Logic) (x : Lab n) : Lab n := ls.foldl Logic.act x

/-- The quantum gate. -/
def Logic.placed : Logic → Placed
  | .not t cs => ⟨.X, [t], cs⟩
  | .swap a b cs => ⟨.SWAP, [a, b], cs⟩

/-- The number with the bits `x`, qubit `0` most significant. -/
def Lab.value {n : ℕ} (x : Lab n) : ℕ := ∑ q : Fin n, (x q).val * 2 ^ (n - 1 - q.val)

/-- The parity of the bitwise product. -/
def Lab.dot {n : ℕ} (x y : Lab n) : ℕ := ∑ q : Fin n, (x q).val * (y q).val

/-! ## Textbook circuits, for every number of qubits -/

/-- A Hadamard gate on each of the first `k` qubits. -/
def hadamards (k : ℕ) : List Placed := (List.range k).map fun q => ⟨.H, [q], []⟩

/-- The circuit for `(|0…0⟩ + |1…1⟩)/√2`: a Hadamard gate and a chain of CNOT gates. -/
def ghzCircuit (n : ℕ) : List Placed := ⟨.H, [0], []⟩ :: (List.range (n - 1)).map fun i => ⟨.X, [i + 1], [i]⟩

/-- The circuit of Bernstein and Vazirani for the function `x ↦ s·x`, whose oracle adds the value to qubit `n`. -/
def bernsteinVazirani {n : ℕ} (s : Lab n) : List Placed :=
  hadamards (n + 1) ++ ((List.finRange n).filter fun q => s q = 1).map (fun q => ⟨.X, [n], [q.val]⟩) ++ hadamards (n + 1)

/-- The quantum Fourier transform: on every qubit a Hadamard gate and controlled phases from the later qubits; then the
order of the qubits is reversed. -/
noncomputable def qftCircuit (n : ℕ) : List Placed :=
  (List.range n).flatMap (fun j => ⟨.H, [j], []⟩ :: (List.range (n - 1 - j)).map fun d =>
    ⟨.PHASE (Real.pi / 2 ^ (d + 1)), [j], [j + 1 + d]⟩) ++
  (List.range (n / 2)).map fun i => ⟨.SWAP, [i, n - 1 - i], []⟩

/-- The change of sign of `|w⟩`: not gates on the qubits with `w q = 0`, before and after a `Z` gate on the last qubit
controlled by all others. -/
def signFlip {n : ℕ} (w : Lab n) : List Placed :=
  ((List.finRange n).filter fun q => w q = 0).map (fun q => ⟨.X, [q.val], []⟩) ++ [⟨.Z, [n - 1], List.range (n - 1)⟩] ++
  ((List.finRange n).filter fun q => w q = 0).map (fun q => ⟨.X, [q.val], []⟩)

/-- One iteration of Grover's search for `w`. -/
def groverStep {n : ℕ} (w : Lab n) : List Placed := signFlip w ++ hadamards n ++ signFlip (0 : Lab n) ++ hadamards n

/-- Grover's search with `k` iterations. -/
def groverCircuit {n : ℕ} (w : Lab n) (k : ℕ) : List Placed := hadamards n ++ (List.replicate k (groverStep w)).flatten

end Verif
