import Verif.Model.NegIndex

/-!
# Model of `apply_operator` on density matrices with an arbitrary `np.argsort`

`np.argsort` (default `kind`) does not say in which order it puts equal keys.  The other modules use one fixed order,
which is harmless for distinct qubits (`C69_distinct`).  Here `np.argsort` is any function that sorts, and the qubit
numbers are arbitrary integers: repeated, negative or outside the register.
-/

set_option autoImplicit false

namespace Verif
open NDArray

/-- What numpy documents about `np.argsort`: it returns the positions in an order that sorts the keys. -/
structure Argsort where
  fn : List ℤ → List ℕ
  perm : ∀ l, (fn l).Perm (List.range l.length)
  sorted : ∀ l, (fn l).Pairwise fun i j => l.getD i 0 ≤ l.getD j 0

variable {K : Type} [CommRing K]

/-- `permute_basis` (operator_utils.py:69-93). -/
def permuteBasisA (as : Argsort) (operator : NDArray K) (qubitSupport : List ℤ) (inv : Bool) : Py (NDArray K) :=
  let ordered := as.fn qubitSupport
  let ranked := as.fn (ordered.map Int.ofNat)
  let n := qubitSupport.length
  if ranked = List.range n then .ok operator
  else
    let perm := ranked ++ ranked.map (· + n)
    let perm := if inv then as.fn (perm.map Int.ofNat) else perm
    operator.transpose perm

variable [StarRing K]

/-- `apply_operator` on a density matrix (apply.py:137-179). -/
def applyOperatorDMA (as : Argsort) (so : SetOrder) (state : DensityMatrix K) (operator : NDArray K)
    (target control : List ℤ) : Py (DensityMatrix K) := do
  let (op, nq, dims) ← prepareOperatorZ operator target control
  let opOut := (List.range (2 * nq)).drop nq
  let opIn := List.range nq
  let rest := so.order ((List.range (state.array.ndim / 2)).filter fun q => (q : ℤ) ∉ dims)
  let perm := dims ++ rest.map Int.ofNat
  let a ← permuteBasisA as state.array perm false
  let a ← tensordot op a opOut (List.range dims.length)
  let a ← dagger a
  let a ← tensordot op a opOut opIn
  let a ← dagger a
  let a ← permuteBasisA as a perm true
  pure ⟨a⟩

end Verif
