import Verif.Np

/-!
# Model of `/repo/horqrux/utils/operator_utils.py`, dense part

Only the dense (`jax.Array`) implementations; the `BCOO` ones are in `Verif/Model/Sparse.lean`.
-/

namespace Verif
open NDArray

/-- One entry of a control tuple.  `int` is a Python `int`; `npInt` is a `numpy.int64`, which
`Primitive.parse_idx` accepts (primitives/primitive.py:43) but which is not an instance of `int`. -/
inductive CIdx
  | none
  | int (q : ℕ)
  | npInt (q : ℕ)
deriving DecidableEq, Repr

/-- The control tuple of one gate, or `None`: an element of `Primitive.control`
(operator_utils.py:26 `ControlQubits`). -/
abbrev Ctl := Option (List CIdx)

/-- The entry as Python's `==` sees it: `numpy.int64(q) == q`. -/
def CIdx.plain : CIdx → CIdx
  | .npInt q => .int q
  | c => c

/-- `control == merged_control` (apply.py:319): Python's equality of control tuples. -/
def Ctl.Same (c d : Ctl) : Prop := c.map (List.map CIdx.plain) = d.map (List.map CIdx.plain)

instance : DecidableRel Ctl.Same := fun c d =>
  inferInstanceAs (Decidable (c.map (List.map CIdx.plain) = d.map (List.map CIdx.plain)))

/-- `is_controlled` on an entry of a control tuple (operator_utils.py:463-468, the `int` and fallback branches). -/
def CIdx.isControlled : CIdx → Bool
  | .int _ => true
  | _ => false

/-- `is_controlled` on a control tuple or `None` (operator_utils.py:463-468). -/
def isControlled : Ctl → Bool
  | some l => l.any CIdx.isControlled
  | none => false

/-- The qubit numbers of a control tuple when it is used as axis numbers (apply.py:83 `(*control, *target)`);
a `None` among them makes `jnp.tensordot` raise TypeError. -/
def ctlQubits : Ctl → Py (List ℕ)
  | some l => l.mapM fun
    | .none => .error .typeError
    | .int q => .ok q
    | .npInt q => .ok q
  | none => .error .typeError

/-- The iteration order of Python sets of integers.  CPython's order depends on the hash table, so it is left
abstract: `order l` is the order in which `set(l)` (built from the elements `l`) is traversed; all that is known is
that it lists every element once. -/
structure SetOrder where
  order : List ℕ → List ℕ
  nodup : ∀ l, (order l).Nodup
  mem : ∀ l x, x ∈ order l ↔ x ∈ l

/-- Dataclass `DensityMatrix` (operator_utils.py:32-46). -/
structure DensityMatrix (K : Type) where
  array : NDArray K
deriving DecidableEq, Repr

section
variable {K : Type} [CommRing K]

/-- `density_mat` on an array (operator_utils.py:52-66): outer product `ket * conj(ket)`. -/
def densityMat [Star K] (state : NDArray K) : DensityMatrix K :=
  ⟨ofFn (state.shape ++ state.shape) fun idx =>
    state.get (idx.take state.ndim) * star (state.get (idx.drop state.ndim))⟩

/-- `permute_basis` (operator_utils.py:69-93). -/
def permuteBasis (operator : NDArray K) (qubitSupport : List ℕ) (inv : Bool) : Py (NDArray K) :=
  let ordered := argsort qubitSupport
  let ranked := argsort ordered
  let n := qubitSupport.length
  if ranked = List.range n then .ok operator
  else
    let perm := ranked ++ ranked.map (· + n)
    let perm := if inv then argsort perm else perm
    operator.transpose perm

/-- `_dagger` (operator_utils.py:126-139). -/
def dagger [Star K] (operator : NDArray K) : Py (NDArray K) :=
  if 2 < operator.ndim then
    let half := operator.ndim / 2
    operator.conj.transpose ((List.range operator.ndim).drop half ++ List.range half)
  else (operator.transpose (List.range operator.ndim).reverse).map conj

/-- `_controlled` for arrays (operator_utils.py:195-210): identity of size `2^(nc+nq)` with `operator` written to
the bottom-right block.  Simplification: `.set` with an operator that is not a square `2^nq` matrix is an error
(jax would also accept shapes that broadcast). -/
def controlledBlock (operator : NDArray K) (nControl : ℕ) : Py (NDArray K) :=
  let nq := intLog2 (operator.shape.getD 0 0)
  let dim := 2 ^ (nControl + nq)
  let off := dim - 2 ^ nq
  if operator.shape = [2 ^ nq, 2 ^ nq] then
    .ok (ofFn [dim, dim] fun idx =>
      let i := idx.getD 0 0
      let j := idx.getD 1 0
      if off ≤ i ∧ off ≤ j then operator.get [i - off, j - off] else if i = j then 1 else 0)
  else .error .valueError

/-- `hilbert_reshape` (operator_utils.py:419-430). -/
def hilbertReshape (operator : NDArray K) : Py (NDArray K) :=
  operator.reshape (List.replicate (intLog2 operator.size) 2)

/-- `_I` (matrices.py): the 2×2 identity. -/
def matI : NDArray K := eye 2

/-- `expand_operator` for arrays (operator_utils.py:339-378). -/
def expandOperator (operator : NDArray K) (qubitSupport fullSupport : List ℕ) : Py (NDArray K) := do
  let full := pySorted fullSupport
  let supp := pySorted qubitSupport
  let nFull := 2 ^ full.length
  if supp.all (· ∈ full) then
    let kronQubits := pySorted ((full.filter (· ∉ supp)).dedup)
    let k ← (List.replicate kronQubits.length matI).foldlM (fun acc m => kron acc m) operator
    let k ← hilbertReshape k
    let k ← permuteBasis k (supp ++ kronQubits) true
    k.reshape [nFull, nFull]
  else .error .valueError

/-- Qubit numbers of the tuple `control_qubits[0]` as used by `prepare_controlled` (operator_utils.py:251-254):
integers are compared and sorted, a `None` among them makes `sorted` raise TypeError. -/
def controlTuple : Ctl → Py (List ℕ)
  | none => .ok []
  | c => ctlQubits c

/-- `prepare_controlled` (operator_utils.py:248-279): dimension of the full space and the sorted list of basis
indices on which all controls are 1. -/
def prepareControlled (operator : NDArray K) (targets : List ℕ) (control : Ctl) : Py (ℕ × List ℕ) := do
  let controls ← controlTuple control
  let nOp := intLog2 (operator.shape.getD 0 0)
  let nTargets := targets.length
  if nOp ≠ nTargets then .error .valueError
  else
    let total := controls.length + nTargets
    let support := pySorted (controls ++ targets)
    let controlInd := (List.range support.length).filter fun i => support.getD i 0 ∈ controls
    let fullDim := 2 ^ total
    let mask := (controlInd.map fun c => 1 <<< (total - c - 1)).sum
    .ok (fullDim, (List.range fullDim).filter fun i => i &&& mask = mask)

/-- `controlled` for arrays (operator_utils.py:282-308): identity with `operator` written to the rows and columns
listed by `prepare_controlled`. -/
def controlled (operator : NDArray K) (targets : List ℕ) (control : Ctl) : Py (NDArray K) := do
  let (fullDim, ind) ← prepareControlled operator targets control
  if operator.shape = [ind.length, ind.length] then
    .ok (ofFn [fullDim, fullDim] fun idx =>
      let i := idx.getD 0 0
      let j := idx.getD 1 0
      if i ∈ ind ∧ j ∈ ind then operator.get [ind.idxOf i, ind.idxOf j] else if i = j then 1 else 0)
  else .error .valueError

/-- `num_qubits` of an array (operator_utils.py:549-551). -/
def numQubitsVec (state : NDArray K) : ℕ := state.shape.length

/-- `num_qubits` of a density matrix (operator_utils.py:554-556). -/
def numQubitsDM (state : DensityMatrix K) : ℕ := state.array.shape.length / 2

end
end Verif
