import Verif.Model.Apply

/-!
# Model of `apply_operator` with possibly negative qubit numbers

The other modules take qubit numbers in `ℕ`.  Nothing in `/repo` checks the sign of a qubit number
(primitives/primitive.py:38-47 accepts any `int`), and numpy reads a negative axis from the end.  Here the two dense
implementations of `apply_operator` are modelled again with qubit numbers in `ℤ`.
-/

set_option autoImplicit false

namespace Verif
open NDArray

variable {K : Type} [CommRing K]

/-- How `jnp.tensordot` and `jnp.moveaxis` read an axis number of an array with `ndim` axes: negative numbers count from
the end, other numbers outside the range raise ValueError. -/
def canonAxis (ndim : ℕ) (q : ℤ) : Py ℕ :=
  if 0 ≤ q ∧ q < ndim then .ok q.toNat
  else if -ndim ≤ q ∧ q < 0 then .ok (q + ndim).toNat
  else .error .valueError

/-- `jnp.tensordot(a, b, axes=(axesA, axesB))` with integers in `axesB`. -/
def tensordotZ (a b : NDArray K) (axesA : List ℕ) (axesB : List ℤ) : Py (NDArray K) := do
  tensordot a b axesA (← axesB.mapM (canonAxis b.ndim))

/-- `jnp.moveaxis(a, source, destination)` with integers in `destination`. -/
def moveaxisZ (a : NDArray K) (source : List ℕ) (destination : List ℤ) : Py (NDArray K) := do
  moveaxis a source (← destination.mapM (canonAxis a.ndim))

/-- `np.argsort` of integers. -/
def argsortZ (l : List ℤ) : List ℕ :=
  (List.range l.length).insertionSort fun i j => l.getD i 0 ≤ l.getD j 0

/-- `permute_basis` (operator_utils.py:69-93) with integers in the support. -/
def permuteBasisZ (operator : NDArray K) (qubitSupport : List ℤ) (inv : Bool) : Py (NDArray K) :=
  let ordered := argsortZ qubitSupport
  let ranked := argsort ordered
  let n := qubitSupport.length
  if ranked = List.range n then .ok operator
  else
    let perm := ranked ++ ranked.map (· + n)
    let perm := if inv then argsort perm else perm
    operator.transpose perm

/-- The common preamble of the `apply_operator` implementations (apply.py:79-85, 156-162) for a tuple of Python ints as
controls; the empty list is a gate without controls (`control = (None,)`). -/
def prepareOperatorZ (operator : NDArray K) (target control : List ℤ) : Py (NDArray K × ℕ × List ℤ) := do
  let operator ← if control = [] then pure operator else controlledBlock operator control.length
  let nq := intLog2 (operator.shape.getD 1 0)
  let op ← operator.reshape (List.replicate (2 * nq) 2)
  pure (op, nq, control ++ target)

/-- `apply_operator` on a state vector (apply.py:53-90). -/
def applyOperatorZ (state operator : NDArray K) (target control : List ℤ) : Py (NDArray K) := do
  let (op, nq, dims) ← prepareOperatorZ operator target control
  let opOut := (List.range (2 * nq)).drop nq
  let st ← tensordotZ op state opOut dims
  moveaxisZ st (List.range dims.length) dims

variable [StarRing K]

/-- `apply_operator` on a density matrix (apply.py:137-179). -/
def applyOperatorDMZ (so : SetOrder) (state : DensityMatrix K) (operator : NDArray K) (target control : List ℤ) :
    Py (DensityMatrix K) := do
  let (op, nq, dims) ← prepareOperatorZ operator target control
  let opOut := (List.range (2 * nq)).drop nq
  let opIn := List.range nq
  let rest := so.order ((List.range (state.array.ndim / 2)).filter fun q => (q : ℤ) ∉ dims)
  let perm := dims ++ rest.map Int.ofNat
  let a ← permuteBasisZ state.array perm false
  let a ← tensordot op a opOut (List.range dims.length)
  let a ← dagger a
  let a ← tensordot op a opOut opIn
  let a ← dagger a
  let a ← permuteBasisZ a perm true
  pure ⟨a⟩

end Verif
