import Verif.Model.Api

/-!
# Model of the sparse (`BCOO`) code of horqrux

`jax.experimental.sparse.BCOO` arrays are lists of coordinates and values; duplicate, unsorted and out-of-range
coordinates are allowed, as in JAX, where values at the same coordinates add up and out-of-range coordinates are padding.
-/

set_option autoImplicit false

namespace Verif
open NDArray

/-- A `BCOO` array without batch and dense dimensions: the rows of `indices` with the elements of `data`. -/
structure Bcoo (K : Type) where
  shape : List ℕ
  entries : List (List ℕ × K)

/-- `np.unravel_index(k, shape)`. -/
def unravel : List ℕ → ℕ → List ℕ
  | [], _ => []
  | _ :: ds, k => k / ds.prod :: unravel ds (k % ds.prod)

/-- All coordinates are below the axis lengths. -/
def inRange : List ℕ → List ℕ → Bool
  | [], [] => true
  | d :: ds, i :: is => decide (i < d) && inRange ds is
  | _, _ => false

namespace Bcoo
section
variable {K : Type}

/-- Every row of `indices` has one coordinate per axis (checked by JAX on construction). -/
def WF (b : Bcoo K) : Prop := ∀ e ∈ b.entries, e.1.length = b.shape.length

/-- `b.todense()`: values at the same coordinates add up, out-of-range coordinates are dropped. -/
def todense [AddMonoid K] (b : Bcoo K) : NDArray K :=
  ofFn b.shape fun idx => (b.entries.map fun e => if e.1 = idx then e.2 else 0).sum

/-- `BCOO.fromdense(a)`: the nonzero elements in row-major order. -/
noncomputable def fromdense [Zero K] (a : NDArray K) : Bcoo K :=
  open scoped Classical in
  ⟨a.shape, ((allIdx a.shape).filter fun i => a.get i ≠ 0).map fun i => (i, a.get i)⟩

/-- `jax.experimental.sparse.eye(n)`. -/
def eye [One K] (n : ℕ) : Bcoo K := ⟨[n, n], (List.range n).map fun i => ([i, i], 1)⟩

/-- `bcoo_reshape`: padding stays padding. -/
def reshape (b : Bcoo K) (s : List ℕ) : Py (Bcoo K) :=
  if s.prod = b.shape.prod then
    .ok ⟨s, b.entries.map fun e => (if inRange b.shape e.1 then unravel s (ravel b.shape e.1) else s, e.2)⟩
  else .error .typeError

/-- `bcoo_transpose`. -/
def transpose (b : Bcoo K) (perm : List ℕ) : Py (Bcoo K) :=
  if perm.Perm (List.range b.shape.length) then
    .ok ⟨perm.map fun p => b.shape.getD p 0, b.entries.map fun e => (perm.map fun p => e.1.getD p 0, e.2)⟩
  else .error .typeError

/-- `sparsify(jnp.moveaxis)`. -/
def moveaxis (b : Bcoo K) (source destination : List ℕ) : Py (Bcoo K) :=
  if source.length = destination.length ∧ source.Nodup ∧ destination.Nodup ∧
      (∀ q ∈ source, q < b.shape.length) ∧ (∀ q ∈ destination, q < b.shape.length) then
    b.transpose (moveaxisOrder b.shape.length source destination)
  else .error .valueError

/-- Apply a function that maps 0 to 0 to all values (`sparsify` of conjugation, real part, multiplication by a number). -/
def mapData {L : Type} (f : K → L) (b : Bcoo K) : Bcoo L := ⟨b.shape, b.entries.map fun e => (e.1, f e.2)⟩

/-- `jnp.array(c) * b` for a number `c`. -/
def smul [Mul K] (c : K) (b : Bcoo K) : Bcoo K := b.mapData (c * ·)

/-- `sparsify(_dagger)` (operator_utils.py:126-139). -/
def dagger [Star K] (b : Bcoo K) : Py (Bcoo K) :=
  if 2 < b.shape.length then
    let half := b.shape.length / 2
    (b.mapData star).transpose ((List.range b.shape.length).drop half ++ List.range half)
  else (b.transpose (List.range b.shape.length).reverse).map (mapData star)
end
end Bcoo

/-- How JAX lays out the result of an operation on two `BCOO` arrays: it may merge duplicate coordinates, sort and pad.
Only the dense meaning is fixed. -/
structure Layout where
  norm {K : Type} [CommRing K] : Bcoo K → Bcoo K
  shape {K : Type} [CommRing K] (b : Bcoo K) : (norm b).shape = b.shape
  wf {K : Type} [CommRing K] (b : Bcoo K) : b.WF → (norm b).WF
  dense {K : Type} [CommRing K] (b : Bcoo K) : (norm b).todense = b.todense

namespace Bcoo
variable {K : Type} [CommRing K] (lay : Layout)

/-- `a + b`: concatenation of the coordinates; arrays of different shapes raise NotImplementedError. -/
def add (a b : Bcoo K) : Py (Bcoo K) :=
  if a.shape = b.shape then .ok (lay.norm ⟨a.shape, a.entries ++ b.entries⟩) else .error .notImplemented

/-- `sparsify(jnp.tensordot)` (`bcoo_dot_general` of two sparse arrays): all pairs of entries, with value 0 unless the
contracted coordinates agree and are in range. -/
def tensordot (a b : Bcoo K) (axesA axesB : List ℕ) : Py (Bcoo K) :=
  if axesA.length = axesB.length ∧ axesA.Nodup ∧ axesB.Nodup ∧
      (∀ q ∈ axesA, q < a.shape.length) ∧ (∀ q ∈ axesB, q < b.shape.length) ∧
      axesA.map (fun q => a.shape.getD q 0) = axesB.map (fun q => b.shape.getD q 0) then
    let fa := freeAxes a.shape.length axesA
    let fb := freeAxes b.shape.length axesB
    .ok (lay.norm ⟨fa.map (fun q => a.shape.getD q 0) ++ fb.map (fun q => b.shape.getD q 0),
      a.entries.flatMap fun e => b.entries.map fun f =>
        let ca := axesA.map fun q => e.1.getD q 0
        let cb := axesB.map fun q => f.1.getD q 0
        (fa.map (fun q => e.1.getD q 0) ++ fb.map (fun q => f.1.getD q 0),
          if ca = cb ∧ inRange (axesA.map fun q => a.shape.getD q 0) ca = true then e.2 * f.2 else 0)⟩)
  else .error .typeError

/-- `a @ b` for two matrices. -/
def matmul (a b : Bcoo K) : Py (Bcoo K) :=
  match a.shape, b.shape with
  | [_, _], [_, _] => tensordot lay a b [1] [0]
  | _, _ => .error .typeError

/-- `kron_sp(a, b)` for two matrices (utils/sparse_utils.py:8). -/
def kron (a b : Bcoo K) : Py (Bcoo K) :=
  match a.shape, b.shape with
  | [m, n], [p, q] =>
    .ok (lay.norm ⟨[m * p, n * q], a.entries.flatMap fun e => b.entries.map fun f =>
      (if inRange [m, n] e.1 && inRange [p, q] f.1 then
        [e.1.getD 0 0 * p + f.1.getD 0 0, e.1.getD 1 0 * q + f.1.getD 1 0] else [m * p, n * q], e.2 * f.2)⟩)
  | _, _ => .error .unsupported

/-- `_controlled` for `BCOO` (operator_utils.py:213-236). -/
def controlledBlock (operator : Bcoo K) (nControl : ℕ) : Bcoo K :=
  let nq := intLog2 (operator.shape.getD 0 0)
  let dim := 2 ^ (nControl + nq)
  let off := dim - 2 ^ nq
  ⟨[dim, dim], (eye off).entries ++ operator.entries.map fun e => (e.1.map (· + off), e.2)⟩

/-- The preamble of `apply_operator` for sparse operators (apply.py:119-125). -/
def prepareOperator (operator : Bcoo K) (target : List ℕ) (control : Ctl) : Py (Bcoo K × ℕ × List ℕ) := do
  let (operator, dims) ← (if isControlled control then do
      let cs ← ctlQubits control
      pure (controlledBlock operator (control.getD []).length, cs ++ target)
    else pure (operator, target) : Py (Bcoo K × List ℕ))
  let nq := intLog2 (operator.shape.getD 1 0)
  let op ← operator.reshape (List.replicate (2 * nq) 2)
  pure (op, nq, dims)

/-- `apply_operator` of a sparse operator on a sparse state (apply.py:93-134). -/
def applyOperator (state operator : Bcoo K) (target : List ℕ) (control : Ctl) : Py (Bcoo K) := do
  let (op, nq, dims) ← prepareOperator operator target control
  let opOut := (List.range (2 * nq)).drop nq
  let st ← tensordot lay op state opOut dims
  st.moveaxis (List.range dims.length) dims

/-- `permute_basis` for `BCOO` (operator_utils.py:69-93). -/
def permuteBasis (operator : Bcoo K) (qubitSupport : List ℕ) (inv : Bool) : Py (Bcoo K) :=
  let ordered := argsort qubitSupport
  let ranked := argsort ordered
  let n := qubitSupport.length
  if ranked = List.range n then .ok operator
  else
    let perm := ranked ++ ranked.map (· + n)
    let perm := if inv then argsort perm else perm
    operator.transpose perm

/-- `expand_operator` for `BCOO` (operator_utils.py:339-378). -/
def expandOperator (operator : Bcoo K) (qubitSupport fullSupport : List ℕ) : Py (Bcoo K) := do
  let full := pySorted fullSupport
  let supp := pySorted qubitSupport
  let nFull := 2 ^ full.length
  if supp.all (· ∈ full) then
    let kronQubits := pySorted ((full.filter (· ∉ supp)).dedup)
    let k ← (List.replicate kronQubits.length (eye 2)).foldlM (fun acc m => kron lay acc m) operator
    let k ← k.reshape (List.replicate (intLog2 k.shape.prod) 2)
    let k ← permuteBasis k (supp ++ kronQubits) true
    k.reshape [nFull, nFull]
  else .error .valueError

/-- `controlled` for `BCOO` (operator_utils.py:311-336): through the dense array. -/
noncomputable def controlled (operator : Bcoo K) (targets : List ℕ) (control : Ctl) : Py (Bcoo K) :=
  (Verif.controlled operator.todense targets control).map fromdense

/-- `inner` on two sparse arrays (operator_utils.py:446-448): a sparse array without axes. -/
def inner [StarRing K] (state projection : Bcoo K) : Py (Bcoo K) := do
  let a ← state.reshape [state.shape.prod]
  let b ← projection.reshape [projection.shape.prod]
  tensordot lay (a.mapData star) b [0] [0]

end Bcoo

/-- An array value: dense (`jax.Array`) or sparse (`BCOO`). -/
inductive Arr
  | dense (a : NDArray ℂ)
  | sparse (b : Bcoo ℂ)

/-- The dense content. -/
def Arr.todense : Arr → NDArray ℂ
  | .dense a => a
  | .sparse b => b.todense

/-- `_unitary` for `BCOO` (operator_utils.py:154-159): `cos(θ/2) * eye(2) - 1j * sin(θ/2) * generator`. -/
noncomputable def rotUnitarySp (lay : Layout) (generator : Bcoo ℂ) (θ : ℝ) : Py (Bcoo ℂ) :=
  (Bcoo.smul (Real.cos (θ / 2) : ℂ) (Bcoo.eye 2)).add lay
    ((Bcoo.smul (Complex.I * (Real.sin (θ / 2) : ℂ)) generator).mapData (- ·))

namespace Gate

/-- `Primitive.generator` for a sparse gate: `SPARSE_OPERATIONS_DICT[name]` (primitives/primitive.py:77-83,
matrices.py:57). -/
noncomputable def generatorSp (g : Gate) : Py (Bcoo ℂ) := (operationsDict g.generatorName).map Bcoo.fromdense

/-- `_unitary` of a gate, sparse or dense (primitives/primitive.py:85-94, primitives/parametric.py:76-77, 202-207;
analog.py:28-31, where `sparse` is not looked at). -/
noncomputable def unitaryArr (lay : Layout) (g : Gate) (values : Values) : Py Arr :=
  if g.sparse then match g.cls with
    | .primitive => g.generatorSp.map .sparse
    | .parametric p s => do
      let gen ← g.generatorSp
      let θ ← parseValues p s values
      (rotUnitarySp lay gen θ).map .sparse
    | .phase p s => do
      let θ ← parseValues p s values
      .ok (.sparse (Bcoo.fromdense (mat2 1 0 0 (Complex.exp (Complex.I * (θ : ℂ))))))
    | .hamEvo _ => (({ g with sparse := false } : Gate).unitary values).map .dense
  else (g.unitary values).map .dense

/-- `dagger` of a gate (primitives/primitive.py:96-105). -/
noncomputable def daggerArr (lay : Layout) (g : Gate) (values : Values) : Py Arr := do
  match ← g.unitaryArr lay values with
  | .dense a => (Verif.dagger a).map .dense
  | .sparse b => b.dagger.map .sparse

/-- `jacobian` of a gate (primitives/parametric.py:79-80, 209-214).  For a sparse rotation the sum
`sparse.eye(2) * sin + 1j * cos` (operator_utils.py:177-187) of a sparse matrix and a number raises
NotImplementedError. -/
noncomputable def jacobianArr (g : Gate) (values : Values) : Py Arr :=
  if g.sparse then match g.cls with
    | .parametric p s => do
      let _ ← g.generatorSp
      let _ ← parseValues p s values
      .error .notImplemented
    | .phase p s => do
      let θ ← parseValues p s values
      .ok (.sparse (Bcoo.fromdense (mat2 0 0 0 (Complex.I * Complex.exp (Complex.I * (θ : ℂ))))))
    | _ => .error .attributeError
  else (g.jacobian values).map .dense

/-- `getattr(gate, op_type)(values)`. -/
noncomputable def operatorArr (lay : Layout) (g : Gate) (opType : OpType) (values : Values) : Py Arr :=
  match opType with
  | .unitary => g.unitaryArr lay values
  | .dagger => g.daggerArr lay values
  | .jacobian => g.jacobianArr values

/-- `Primitive.tensor` (primitives/primitive.py:107-127). -/
noncomputable def tensorArr (lay : Layout) (g : Gate) (values : Values) (fullSupport : Option (List ℕ)) : Py Arr := do
  match ← g.unitaryArr lay values with
  | .dense u =>
    let u ← if isControlled g.control then controlled u g.target g.control else .ok u
    match fullSupport with
    | none => pure (.dense u)
    | some full => (expandOperator u (← g.qubitSupport) full).map .dense
  | .sparse u =>
    let u ← if isControlled g.control then u.controlled g.target g.control else .ok u
    match fullSupport with
    | none => pure (.sparse u)
    | some full => (u.expandOperator lay (← g.qubitSupport) full).map .sparse

end Gate

namespace Arr
variable (lay : Layout)

/-- `a @ b`: sparse if both are sparse. -/
noncomputable def matmul : Arr → Arr → Py Arr
  | .sparse a, .sparse b => (Bcoo.matmul lay a b).map .sparse
  | a, b => (NDArray.matmul a.todense b.todense).map .dense

/-- `apply_operator` on an array (apply.py:53-134).  For a dense state `jnp.tensordot` is called directly and refuses
`BCOO` operators with TypeError; for a sparse state it is wrapped by `sparsify`, and a dense operator gives a dense
result. -/
noncomputable def applyOperator (state operator : Arr) (target : List ℕ) (control : Ctl) : Py Arr :=
  match state, operator with
  | .dense a, .dense o => (Verif.applyOperator a o target control).map .dense
  | .dense _, .sparse _ => .error .typeError
  | .sparse b, .dense o => (Verif.applyOperator b.todense o target control).map .dense
  | .sparse b, .sparse o => (Bcoo.applyOperator lay b o target control).map .sparse

/-- `apply_gates` on a state of either format (apply.py:387-465).  Noisy gates on a sparse state raise
NotImplementedError; on a dense state they are modelled by `applyGates` only. -/
noncomputable def applyGates (state : Arr) (gate : GateArg) (values : Values) (opType : OpType := .unitary)
    (groupGates : Bool := false) (mergeOps : Bool := true) : Py Arr := do
  let (ops, noise) ← prepareSequenceReduce (fun g => g.operatorArr lay opType values) (matmul lay) gate groupGates mergeOps
  if !allNoiseless noise then
    match state with
    | .sparse _ => .error .notImplemented
    | .dense _ => .error .unsupported
  else ops.foldlM (fun st o => applyOperator lay st o.1 o.2.1 o.2.2) state

/-- `a + b`: a sparse array and a dense array of the same shape give a dense array. -/
def add : Arr → Arr → Py Arr
  | .sparse a, .sparse b => (a.add lay b).map .sparse
  | a, b => (a.todense.add b.todense).map .dense

/-- `jnp.array(x) * a`. -/
def scale (x : ℝ) : Arr → Arr
  | .dense a => .dense (NDArray.smul (x : ℂ) a)
  | .sparse b => .sparse (b.smul (x : ℂ))

/-- `real_sp(inner(state, projected))` resp. `inner(state, projected).real` (differentiation/ad.py:42, 55): the
product is sparse if both arrays are. -/
def innerReal : Arr → Arr → Py Arr
  | .sparse a, .sparse b => do
    pure (.sparse ((← a.inner lay b).mapData fun z => (z.re : ℂ)))
  | a, b => do
    let z ← Verif.inner a.todense b.todense
    pure (.dense ⟨[], [(z.re : ℂ)]⟩)

end Arr

namespace Op
variable (lay : Layout)

mutual
/-- `op(state, values)` for a state in either format (primitives/primitive.py:56-61, composite/sequence.py:32-33,
composite/compose.py:33-35, 88-89, 134-146). -/
noncomputable def callArr (values : Values) : Op → Arr → Py Arr
  | .prim g, st => Arr.applyGates lay st (.single g) values
  | .comp .seq ops, st => callSeqArr values ops st
  | .comp (.circ _ _) ops, st => callSeqArr values ops st
  | .comp (.scale p) ops, st => do
    let x ← scaleParam p values
    pure ((← callSeqArr values ops st).scale x)
  | .comp .add ops, st => pyReduce (Arr.add lay) (callListArr values ops st)
  | .comp .obs ops, st => do
    Arr.innerReal lay st (← pyReduce (Arr.add lay) (callListArr values ops st))
/-- `reduce(lambda state, gate: gate.__call__(state, values), operations, state)` (composite/sequence.py:33). -/
noncomputable def callSeqArr (values : Values) : List Op → Arr → Py Arr
  | [], st => .ok st
  | o :: os, st => do callSeqArr values os (← callArr values o st)
/-- `map(lambda op: op(state, values), self.operations)` (composite/compose.py:89). -/
noncomputable def callListArr (values : Values) : List Op → Arr → List (Py Arr)
  | [], _ => []
  | o :: os, st => callArr values o st :: callListArr values os st
end
end Op

/-- `product_state(bitstring, sparse=True)` (operator_utils.py:381-400): one stored element. -/
def productStateSp (bitstring : String) : Py (Bcoo ℂ) := do
  let n := bitstring.toList.length
  let ind ← bitstring.toList.mapM pyIntOfChar
  pure ⟨List.replicate n 2, [(ind, 1)]⟩

/-- `zero_state(n_qubits, sparse=True)` (operator_utils.py:403-404). -/
def zeroStateSp (n : ℕ) : Py (Bcoo ℂ) := productStateSp (String.ofList (List.replicate n '0'))

/-- `uniform_state(n_qubits, sparse=True)` (operator_utils.py:455-460): converted to sparse, then reshaped. -/
noncomputable def uniformStateSp (n : ℕ) : Py (Bcoo ℂ) :=
  (Bcoo.fromdense ⟨[2 ^ n], (List.replicate (2 ^ n) (1 : ℂ)).map (· / (Real.sqrt (2 ^ n : ℝ) : ℂ))⟩).reshape
    (List.replicate n 2)

/-- `random_state(n_qubits, sparse=True)` (operator_utils.py:471-485). -/
noncomputable def randomStateSp (n : ℕ) (u : List ℝ) : Py (Bcoo ℂ) := (randomState n u).map Bcoo.fromdense

/-- `apply_gates(state, list(iter(circuit)), values)` where the list may contain operations without the methods of a gate
(see `applyOps`). -/
noncomputable def applyOpsArr (lay : Layout) (state : Arr) (ops : List Op) (values : Values) : Py Arr := do
  let gs ← opsToGates ops
  Arr.applyGates lay state (.list gs) values

/-- `ad_expectation` (differentiation/ad.py:71-105) on a state in either format; the results before stacking. -/
noncomputable def adExpectationArr (lay : Layout) (state : Arr) (circuit : Op) (observables : List Observable)
    (values : Values) : Py (List Arr) := do
  let (vc, vo) ← valuesProcessing values
  let outs ← observables.mapM fun o => do
    let st ← applyOpsArr lay state circuit.iter vc
    Op.callArr lay vo o.toOp st
  if outs.isEmpty then .error .valueError else pure outs

/-- `num_qubits` (operator_utils.py:536-556): not implemented for `BCOO`. -/
def Arr.numQubits : Arr → Py ℕ
  | .dense a => .ok (numQubitsVec a)
  | .sparse _ => .error .notImplemented

/-- `probabilities` (operator_utils.py:510-533): not implemented for `BCOO`. -/
noncomputable def Arr.probabilities : Arr → Py (NDArray ℝ)
  | .dense a => Verif.probabilities (.vec a)
  | .sparse _ => .error .notImplemented

/-- `sample` (api.py:33-62) on a state in either format that is not a density matrix. -/
noncomputable def sampleArr (lay : Layout) (draw : Draw) (state : Arr) (circuit : Op) (values : Values) (nShots : ℤ := 1000) :
    Py (List (String × ℕ)) :=
  if nShots < 1 then .error .valueError
  else do
    let out ← circuit.callArr lay values state
    let n ← out.numQubits
    sampleFromProbs (← out.probabilities) n (List.ofFn (draw nShots.toNat))

end Verif
