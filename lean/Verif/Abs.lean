import Verif.Spec
import Verif.Model.Apply
import Mathlib.Data.Matrix.Mul

/-!
# Reading model values in the specification vocabulary

What an array means as a state vector, density matrix or operator, and how user-level arguments
(lists of control qubits) are written as Python arguments.
-/

namespace Verif
variable {K : Type}

/-- The amplitudes of an array of shape `(2,)*n`. -/
def ket [Zero K] (n : ℕ) (a : NDArray K) : Lab n → K := fun b => a.get b.bits

/-- The matrix of an array of shape `(2,)*2n`: rows are the first `n` axes. -/
def dmMat [Zero K] (n : ℕ) (a : NDArray K) : Matrix (Lab n) (Lab n) K := fun r c => a.get (r.bits ++ c.bits)

/-- The entries of a two-axis array. -/
def entries [Zero K] (a : NDArray K) : ℕ → ℕ → K := fun i j => a.get [i, j]

/-- `a` is a state vector on `n` qubits: an array of shape `(2,)*n`. -/
structure IsKet (n : ℕ) (a : NDArray K) : Prop where
  shape : a.shape = List.replicate n 2
  wf : a.WF

/-- `ρ` is a density-matrix array on `n` qubits: an array of shape `(2,)*2n`. -/
structure IsDM (n : ℕ) (ρ : DensityMatrix K) : Prop where
  shape : ρ.array.shape = List.replicate (n + n) 2
  wf : ρ.array.WF

/-- `op` is a `2^k × 2^k` matrix. -/
structure IsOp (k : ℕ) (op : NDArray K) : Prop where
  shape : op.shape = [2 ^ k, 2 ^ k]
  wf : op.WF

/-- A list of distinct qubits of an `n`-qubit register. -/
structure ValidDims (n : ℕ) (dims : List ℕ) : Prop where
  nodup : dims.Nodup
  lt : ∀ q ∈ dims, q < n

instance (n : ℕ) (dims : List ℕ) : Decidable (ValidDims n dims) :=
  decidable_of_iff (dims.Nodup ∧ ∀ q ∈ dims, q < n) ⟨fun h => ⟨h.1, h.2⟩, fun h => ⟨h.nodup, h.lt⟩⟩

/-- The control tuple `(c₁, …, c_m)` of Python ints; the empty list stands for the default `(None,)`. -/
def ctlOf : List ℕ → Ctl
  | [] => some [.none]
  | cs => some (cs.map .int)

/-- The qubits that a control tuple lists as Python ints. -/
def ctlInts (c : Ctl) : List ℕ := (c.getD []).filterMap fun
  | .int q => some q
  | _ => none

/-- The documented forms of a control: `None`, `(None,)`, or a tuple of ints. -/
def WfCtl (c : Ctl) : Prop := c = none ∨ c = some [.none] ∨ ∃ cs : List ℕ, c = some (cs.map .int)

/-- An operation (operator, targets, controls) that makes sense on an `n`-qubit register. -/
structure WfOp (n : ℕ) (o : NDArray K × List ℕ × Ctl) : Prop where
  op : IsOp o.2.1.length o.1
  ctl : WfCtl o.2.2
  dims : ValidDims n (ctlInts o.2.2 ++ o.2.1)

/-- The register matrix of an operation. -/
def opMat [Zero K] [One K] (n : ℕ) (o : NDArray K × List ℕ × Ctl) : Matrix (Lab n) (Lab n) K :=
  gateMat n (entries o.1) o.2.1 (ctlInts o.2.2)

/-- The matrix of executing operations one after the other (the first one acts first). -/
def circMat [CommRing K] (n : ℕ) : List (NDArray K × List ℕ × Ctl) → Matrix (Lab n) (Lab n) K
  | [] => 1
  | o :: os => circMat n os * opMat n o

end Verif
