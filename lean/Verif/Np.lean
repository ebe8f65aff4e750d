import Mathlib.Data.List.Sort
import Mathlib.Data.List.Range
import Mathlib.Algebra.BigOperators.Group.List.Basic
import Mathlib.Algebra.Star.Basic
import Mathlib.Data.Nat.Log

/-!
# A model of the array library used by horqrux

This file models the part of `jax.numpy` / `numpy` that `/repo/horqrux` calls, following the documented
numpy semantics: an array is a shape together with its row-major data.  Python exceptions are `Except Err`
values.  Scalars `K` are exact; floating-point rounding and dtypes are not modelled.
-/

namespace Verif

/-- Python exception classes that the modelled code can raise (messages are dropped).
`unsupported` marks inputs that are deliberately outside the model (see DESIGN.md). -/
inductive Err
  | typeError | valueError | keyError | indexError | notImplemented | attributeError
  | unboundLocal | unsupported
deriving DecidableEq, Repr

/-- A Python computation that either returns or raises. -/
abbrev Py := Except Err

/-- numpy array: shape and row-major (C order) data. -/
structure NDArray (K : Type) where
  shape : List ℕ
  data : List K
deriving DecidableEq, Repr

/-- All multi-indices of an array of the given shape, in row-major order (last axis fastest). -/
def allIdx : List ℕ → List (List ℕ)
  | [] => [[]]
  | d :: ds => (List.range d).flatMap fun i => (allIdx ds).map (i :: ·)

/-- Row-major position of a multi-index (`numpy.ravel_multi_index`). -/
def ravel : List ℕ → List ℕ → ℕ
  | _ :: ds, i :: is => i * ds.prod + ravel ds is
  | _, _ => 0

namespace NDArray
variable {K : Type}

/-- Number of axes (`a.ndim`). -/
def ndim (a : NDArray K) : ℕ := a.shape.length

/-- Number of elements (`a.size`). -/
def size (a : NDArray K) : ℕ := a.shape.prod

/-- The data has as many entries as the shape prescribes. -/
def WF (a : NDArray K) : Prop := a.data.length = a.shape.prod

/-- Element access `a[idx]`; only used on in-range indices. -/
def get [Zero K] (a : NDArray K) (idx : List ℕ) : K := a.data.getD (ravel a.shape idx) 0

/-- Array of given shape with entries `f idx`. -/
def ofFn (shape : List ℕ) (f : List ℕ → K) : NDArray K := ⟨shape, (allIdx shape).map f⟩

/-- `a.reshape(s)`: same row-major data under a new shape; jax raises TypeError if sizes differ. -/
def reshape (a : NDArray K) (s : List ℕ) : Py (NDArray K) :=
  if s.prod = a.shape.prod then .ok ⟨s, a.data⟩ else .error .typeError

/-- Source index read by `transpose`: coordinate `perm[i]` of the source is coordinate `i` of the result. -/
def permIdx (perm idx : List ℕ) : List ℕ :=
  (List.range perm.length).map fun p => idx.getD (perm.idxOf p) 0

/-- `jax.lax.transpose(a, perm)` / `jnp.transpose`: axis `i` of the result is axis `perm[i]` of `a`. -/
def transpose [Zero K] (a : NDArray K) (perm : List ℕ) : Py (NDArray K) :=
  if perm.Perm (List.range a.ndim) then
    .ok (ofFn (perm.map fun p => a.shape.getD p 0) fun idx => a.get (permIdx perm idx))
  else .error .typeError

/-- Python `list.insert(d, x)`. -/
def pyInsert {α : Type} (l : List α) (d : ℕ) (x : α) : List α := l.take d ++ x :: l.drop d

/-- Lexicographic order on pairs (Python tuple comparison). -/
def pairLe (p q : ℕ × ℕ) : Prop := p.1 < q.1 ∨ (p.1 = q.1 ∧ p.2 ≤ q.2)
instance : DecidableRel pairLe := fun _ _ => inferInstanceAs (Decidable (_ ∨ _))

/-- The axis order computed by `numpy.moveaxis` / `jnp.moveaxis`. -/
def moveaxisOrder (ndim : ℕ) (source destination : List ℕ) : List ℕ :=
  ((destination.zip source).insertionSort pairLe).foldl (fun order p => pyInsert order p.1 p.2)
    ((List.range ndim).filter fun i => i ∉ source)

/-- `jnp.moveaxis(a, source, destination)`. -/
def moveaxis [Zero K] (a : NDArray K) (source destination : List ℕ) : Py (NDArray K) :=
  if source.length = destination.length ∧ source.Nodup ∧ destination.Nodup ∧
      (∀ q ∈ source, q < a.ndim) ∧ (∀ q ∈ destination, q < a.ndim) then
    a.transpose (moveaxisOrder a.ndim source destination)
  else .error .valueError

/-- Axes of an `n`-axis array that are not contracted, in increasing order. -/
def freeAxes (n : ℕ) (axes : List ℕ) : List ℕ := (List.range n).filter fun p => p ∉ axes

/-- The multi-index whose contracted axes `axes` carry `s` and whose free axes carry `free`. -/
def assemble (n : ℕ) (axes s free : List ℕ) : List ℕ :=
  (List.range n).map fun p =>
    if p ∈ axes then s.getD (axes.idxOf p) 0 else free.getD ((freeAxes n axes).idxOf p) 0

/-- `jnp.tensordot(a, b, axes=(axesA, axesB))`: contracts the listed axes pairwise; the result has the free
axes of `a` followed by the free axes of `b`. -/
def tensordot [Zero K] [Add K] [Mul K] (a b : NDArray K) (axesA axesB : List ℕ) : Py (NDArray K) :=
  if axesA.length = axesB.length ∧ axesA.Nodup ∧ axesB.Nodup ∧
      (∀ q ∈ axesA, q < a.ndim) ∧ (∀ q ∈ axesB, q < b.ndim) ∧
      axesA.map (fun q => a.shape.getD q 0) = axesB.map (fun q => b.shape.getD q 0) then
    let fa := freeAxes a.ndim axesA
    let fb := freeAxes b.ndim axesB
    .ok (ofFn (fa.map (fun q => a.shape.getD q 0) ++ fb.map (fun q => b.shape.getD q 0)) fun idx =>
      ((allIdx (axesA.map fun q => a.shape.getD q 0)).map fun s =>
        a.get (assemble a.ndim axesA s (idx.take fa.length)) *
        b.get (assemble b.ndim axesB s (idx.drop fa.length))).sum)
  else .error .typeError

/-- `jnp.eye(n)`. -/
def eye [Zero K] [One K] (n : ℕ) : NDArray K :=
  ofFn [n, n] fun idx => if idx.getD 0 0 = idx.getD 1 0 then 1 else 0

/-- `a @ b` for two matrices. -/
def matmul [Zero K] [Add K] [Mul K] (a b : NDArray K) : Py (NDArray K) :=
  match a.shape, b.shape with
  | [m, k], [k', n] =>
    if k = k' then
      .ok (ofFn [m, n] fun idx =>
        ((List.range k).map fun l => a.get [idx.getD 0 0, l] * b.get [l, idx.getD 1 0]).sum)
    else .error .typeError
  | _, _ => .error .typeError

/-- `jnp.kron(a, b)` for two matrices. -/
def kron [Zero K] [Mul K] (a b : NDArray K) : Py (NDArray K) :=
  match a.shape, b.shape with
  | [m, n], [p, q] =>
    .ok (ofFn [m * p, n * q] fun idx =>
      a.get [idx.getD 0 0 / p, idx.getD 1 0 / q] * b.get [idx.getD 0 0 % p, idx.getD 1 0 % q])
  | _, _ => .error .unsupported

/-- `jnp.conj(a)`. -/
def conj [Star K] (a : NDArray K) : NDArray K := ⟨a.shape, a.data.map star⟩

/-- `c * a` for a scalar `c`. -/
def smul [Mul K] (c : K) (a : NDArray K) : NDArray K := ⟨a.shape, a.data.map (c * ·)⟩

/-- `a + b` for arrays of the same shape. Simplification: numpy broadcasting between different shapes is not
modelled (`unsupported`). -/
def add [Add K] (a b : NDArray K) : Py (NDArray K) :=
  if a.shape = b.shape then .ok ⟨a.shape, List.zipWith (· + ·) a.data b.data⟩ else .error .unsupported

/-- `a.flatten()` / `a.ravel()`. -/
def flatten (a : NDArray K) : NDArray K := ⟨[a.shape.prod], a.data⟩

/-- `jnp.dot(a, b)` for two vectors. -/
def dot [Zero K] [Add K] [Mul K] (a b : NDArray K) : Py K :=
  if a.shape.length = 1 ∧ a.shape = b.shape then .ok (List.zipWith (· * ·) a.data b.data).sum
  else .error .typeError

/-- `jnp.trace(a)` of a matrix. -/
def trace [Zero K] [Add K] (a : NDArray K) : Py K :=
  match a.shape with
  | [m, n] => .ok ((List.range (min m n)).map fun i => a.get [i, i]).sum
  | _ => .error .unsupported

end NDArray

/-- `int(np.log2(x))` for a positive integer `x` (computed exactly; the code uses floating point). -/
def intLog2 (x : ℕ) : ℕ := Nat.log 2 x

/-- `np.argsort(l)`; stable for equal keys (only used with distinct keys). -/
def argsort (l : List ℕ) : List ℕ :=
  (List.range l.length).insertionSort fun i j => l.getD i 0 ≤ l.getD j 0

/-- Python `sorted` on integers. -/
def pySorted (l : List ℕ) : List ℕ := l.insertionSort (· ≤ ·)

end Verif
