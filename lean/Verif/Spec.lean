import Mathlib.LinearAlgebra.Matrix.Hermitian
import Mathlib.LinearAlgebra.Matrix.Trace
import Mathlib.Algebra.BigOperators.Fin
import Mathlib.Data.Fintype.Pi

/-!
# Specification vocabulary

Small textbook definitions, independent of the model of the code: basis labels, the operator of a (controlled)
gate on an `n`-qubit register, and what it means for a matrix to be unitary.  Property theorems are stated with
these.
-/

namespace Verif

/-- Big-endian value of a list of bits: `binVal [b₀,…,b_{k-1}] = Σ bᵢ 2^(k-1-i)`. -/
def binVal (l : List ℕ) : ℕ := l.foldl (fun a x => 2 * a + x) 0

/-- A computational-basis label of an `n`-qubit register: one bit per qubit. -/
abbrev Lab (n : ℕ) := Fin n → Fin 2

namespace Lab
variable {n : ℕ}

/-- The bit of qubit `q` (as a number); `0` if there is no such qubit. -/
def bit (b : Lab n) (q : ℕ) : ℕ := if h : q < n then (b ⟨q, h⟩).val else 0

/-- The bits of a label in qubit order: the multi-index of that amplitude in an array of shape `(2,)*n`. -/
def bits (b : Lab n) : List ℕ := List.ofFn fun i => (b i).val

/-- The integer read off the listed qubits, first listed qubit most significant. -/
def idx (b : Lab n) (qs : List ℕ) : ℕ := binVal (qs.map b.bit)

/-- Labels that agree on every qubit outside `qs`. -/
def AgreeOff (qs : List ℕ) (b b' : Lab n) : Prop := ∀ q : Fin n, q.val ∉ qs → b q = b' q

instance (qs : List ℕ) (b b' : Lab n) : Decidable (AgreeOff qs b b') :=
  inferInstanceAs (Decidable (∀ _, _))

end Lab

variable {K : Type}

/-- The operator on `n` qubits of a `2^k × 2^k` matrix `U` acting on the qubits `ts = [t₀,…,t_{k-1}]` (`t₀` the
most significant row/column bit), controlled on the qubits `cs`:
on labels where some control is `0` it is the identity, on labels where all controls are `1` it acts as `U` on the
target bits and as the identity elsewhere. -/
def gateMat [Zero K] [One K] (n : ℕ) (U : ℕ → ℕ → K) (ts cs : List ℕ) : Matrix (Lab n) (Lab n) K :=
  fun b b' =>
    if ∀ c ∈ cs, b.bit c = 1 then
      if Lab.AgreeOff ts b b' then U (b.idx ts) (b'.idx ts) else 0
    else if b = b' then 1 else 0

/-- Entries of the product of two `d × d` matrices. -/
def mulE [CommRing K] (d : ℕ) (U V : ℕ → ℕ → K) : ℕ → ℕ → K := fun i j => ∑ l ∈ Finset.range d, U i l * V l j

/-- Entries of the identity matrix. -/
def oneE [Zero K] [One K] : ℕ → ℕ → K := fun i j => if i = j then 1 else 0

/-- The conjugate transpose, entrywise. -/
def conjT [Star K] (U : ℕ → ℕ → K) : ℕ → ℕ → K := fun i j => star (U j i)

/-- A `d × d` matrix given by its entries is unitary: `U†U = 1` and `UU† = 1`. -/
def IsUnitaryE [CommRing K] [StarRing K] (d : ℕ) (U : ℕ → ℕ → K) : Prop :=
  ∀ i j, i < d → j < d → mulE d (conjT U) U i j = oneE i j ∧ mulE d U (conjT U) i j = oneE i j

/-- The position of qubit `q` in the increasing enumeration of the distinct qubits `F`: how many are smaller. -/
def posIn (F : List ℕ) (q : ℕ) : ℕ := F.countP (· < q)

/-- The operator, on the register formed by the distinct qubits `F` in increasing order, of a matrix `U` acting on
the qubits `ts` controlled on the qubits `cs`. -/
def gateMatOn [Zero K] [One K] (F : List ℕ) (U : ℕ → ℕ → K) (ts cs : List ℕ) :
    Matrix (Lab F.length) (Lab F.length) K := gateMat F.length U (ts.map (posIn F)) (cs.map (posIn F))

end Verif
