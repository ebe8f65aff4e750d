import Mathlib.Analysis.Normed.Algebra.MatrixExponential
import Verif.Model.Noise
import Verif.Model.Apply

/-!
# Model of `/repo/horqrux/primitives/` and `/repo/horqrux/analog.py`

Gate objects and their dense matrices.  The sparse (`BCOO`) matrices are in `Verif/Model/Sparse.lean`.
-/

namespace Verif
open NDArray

/-- A parameter: a name or a number (primitives/parametric.py:42). -/
inductive Param
  | str (s : String)
  | num (x : ℝ)

/-- The class of a gate object with the fields that class adds to `Primitive`:
`Primitive`, `Parametric` (primitives/parametric.py:34-43), `_PHASE` (primitives/parametric.py:201) and
`_HamiltonianEvolution` (analog.py:14-23). -/
inductive GateClass
  | primitive
  | parametric (param : Param) (shift : ℝ)
  | phase (param : Param) (shift : ℝ)
  | hamEvo (shift : ℝ)

/-- A gate object after `__post_init__` (primitives/primitive.py:28-54).  `target` and `control` are the only
elements of the one-element tuples `self.target` and `self.control` (`parse_idx` always wraps in a one-element
tuple); `control = none` is `self.control = (None,)`. -/
structure Gate where
  cls : GateClass
  generatorName : String
  target : List ℕ
  control : Ctl
  noise : Option (List NoiseInstance)
  sparse : Bool

/-- A value in the `values` dictionary: a number, an array (only used for `values["hamiltonian"]`) or a nested
dictionary.  Simplification: array-valued (batched) parameters are not modelled. -/
inductive PyVal
  | num (x : ℝ)
  | arr (a : NDArray ℂ)
  | dict (d : List (String × PyVal))

/-- A Python dictionary: keys in insertion order. -/
abbrev Values := List (String × PyVal)

/-- `values[key]`. -/
def Values.get (values : Values) (key : String) : Py PyVal :=
  match values.lookup key with
  | some v => .ok v
  | none => .error .keyError

/-- `v + shift` for a dictionary value `v`. -/
noncomputable def PyVal.addShift (v : PyVal) (shift : ℝ) : Py ℝ :=
  match v with
  | .num x => .ok (x + shift)
  | .arr _ => .error .unsupported
  | .dict _ => .error .typeError

/-- `Parametric.parse_values` (primitives/parametric.py:48-55). -/
noncomputable def parseValues (param : Param) (shift : ℝ) (values : Values) : Py ℝ :=
  match param with
  | .str s => do (← values.get s).addShift shift
  | .num x => .ok (x + shift)

/-- A target argument: an `int`, a `numpy.int64` or a tuple of ints. -/
inductive TArg
  | int (q : ℕ)
  | npInt (q : ℕ)
  | tuple (qs : List ℕ)

/-- A control argument: `None`, an `int`, a `numpy.int64`, or a tuple. -/
inductive CArg
  | none
  | int (q : ℕ)
  | npInt (q : ℕ)
  | tuple (l : List CIdx)

/-- `Primitive.parse_idx` on a target (primitives/primitive.py:38-47, 50).  Simplification: array arguments
(`idx.astype(int)`) are not modelled. -/
def parseTarget : TArg → List ℕ
  | .int q => [q]
  | .npInt q => [q]
  | .tuple qs => qs

/-- `control` in `Primitive.__post_init__` (primitives/primitive.py:38-47, 51-54): `None` becomes
`none_like(self.target) = (None,)`. -/
def parseControl : CArg → Ctl
  | .none => Option.none
  | .int q => some [.int q]
  | .npInt q => some [.npInt q]
  | .tuple l => some l

/-- The dataclass constructor with `__post_init__` (primitives/primitive.py:28-54). -/
def mkGate (cls : GateClass) (name : String) (target : TArg) (control : CArg)
    (noise : Option (List NoiseInstance)) (sparse : Bool) : Gate :=
  ⟨cls, name, parseTarget target, parseControl control, noise, sparse⟩

namespace Gate

section constructors
variable (target : TArg) (control : CArg := .tuple [.none]) (noise : Option (List NoiseInstance) := none)
  (sparse : Bool := false)

/-- `I` (primitives/primitive.py:162-182). -/
def I : Gate := mkGate .primitive "I" target control noise sparse
/-- `X`, also exported as `NOT` (primitives/primitive.py:185-211). -/
def X : Gate := mkGate .primitive "X" target control noise sparse
/-- `Y` (primitives/primitive.py:214-235). -/
def Y : Gate := mkGate .primitive "Y" target control noise sparse
/-- `Z` (primitives/primitive.py:238-259). -/
def Z : Gate := mkGate .primitive "Z" target control noise sparse
/-- `H` (primitives/primitive.py:262-282). -/
def H : Gate := mkGate .primitive "H" target control noise sparse
/-- `S` (primitives/primitive.py:285-305). -/
def S : Gate := mkGate .primitive "S" target control noise sparse
/-- `T` (primitives/primitive.py:308-328). -/
def T : Gate := mkGate .primitive "T" target control noise sparse
/-- `SWAP` (primitives/primitive.py:334-356). -/
def SWAP : Gate := mkGate .primitive "SWAP" target control noise sparse
/-- `SQRTSWAP` (primitives/primitive.py:359-365). -/
def SQRTSWAP : Gate := mkGate .primitive "SQSWAP" target control noise sparse
/-- `ISWAP` (primitives/primitive.py:368-374). -/
def ISWAP : Gate := mkGate .primitive "ISWAP" target control noise sparse
/-- `ISQRTSWAP` (primitives/primitive.py:377-383). -/
def ISQRTSWAP : Gate := mkGate .primitive "ISQSWAP" target control noise sparse
end constructors

section parametric
variable (param : Param) (target : TArg) (control : CArg := .tuple [.none])
  (noise : Option (List NoiseInstance) := none) (sparse : Bool := false)

/-- `RX` (primitives/parametric.py:138-156). -/
noncomputable def RX : Gate := mkGate (.parametric param 0) "X" target control noise sparse
/-- `RY` (primitives/parametric.py:159-177). -/
noncomputable def RY : Gate := mkGate (.parametric param 0) "Y" target control noise sparse
/-- `RZ` (primitives/parametric.py:180-198). -/
noncomputable def RZ : Gate := mkGate (.parametric param 0) "Z" target control noise sparse
/-- `PHASE` (primitives/parametric.py:222-241). -/
noncomputable def PHASE : Gate := mkGate (.phase param 0) "I" target control noise sparse
end parametric

/-- `HamiltonianEvolution` (analog.py:34-37). -/
noncomputable def HamiltonianEvolution (target : TArg) (control : CArg := .tuple [.none]) : Gate :=
  mkGate (.hamEvo 0) "I" target control none false

end Gate

/-- `_unitary` for arrays (operator_utils.py:147-151): `cos(θ/2) * eye(2) - 1j * sin(θ/2) * generator`. -/
noncomputable def rotUnitary (generator : NDArray ℂ) (θ : ℝ) : Py (NDArray ℂ) :=
  (smul (Real.cos (θ / 2) : ℂ) (eye 2)).add (smul (-(Complex.I * (Real.sin (θ / 2) : ℂ))) generator)

/-- `a * b` entrywise for arrays of the same shape (broadcasting is not modelled). -/
def NDArray.mulEntry {K : Type} [Mul K] (a b : NDArray K) : Py (NDArray K) :=
  if a.shape = b.shape then .ok ⟨a.shape, List.zipWith (· * ·) a.data b.data⟩ else .error .unsupported

/-- `_jacobian` for arrays (operator_utils.py:167-174):
`-1/2 * (sin(θ/2) * eye(2) + 1j * cos(θ/2)) * generator`, where the scalar `1j * cos(θ/2)` is added to every entry
and the last product is entrywise. -/
noncomputable def rotJacobian (generator : NDArray ℂ) (θ : ℝ) : Py (NDArray ℂ) :=
  (ofFn [2, 2] fun idx =>
    -1 / 2 * ((Real.sin (θ / 2) : ℂ) * (eye 2 : NDArray ℂ).get idx + Complex.I * (Real.cos (θ / 2) : ℂ))).mulEntry
    generator

/-- `jax.scipy.linalg.expm`: the matrix exponential of a square array. -/
noncomputable def expm (a : NDArray ℂ) : Py (NDArray ℂ) :=
  match a.shape with
  | [d, d'] =>
    if d = d' then
      .ok (ofFn [d, d] fun idx =>
        if h : idx.getD 0 0 < d ∧ idx.getD 1 0 < d then
          NormedSpace.exp (Matrix.of fun i j : Fin d => a.get [i.val, j.val]) ⟨_, h.1⟩ ⟨_, h.2⟩
        else 0)
    else .error .valueError
  | _ => .error .valueError

/-- `OperationType` (operator_utils.py:107-110). -/
inductive OpType
  | unitary | dagger | jacobian
deriving DecidableEq, Repr

namespace Gate

/-- `Primitive.generator` for a dense gate (primitives/primitive.py:77-83). -/
noncomputable def generator (g : Gate) : Py (NDArray ℂ) := operationsDict g.generatorName

/-- `_unitary` of the gate classes, dense case: `Primitive` (primitives/primitive.py:85-94), `Parametric`
(primitives/parametric.py:76-77), `_PHASE` (primitives/parametric.py:202-207) and `_HamiltonianEvolution`
(analog.py:28-31).  The sparse case is in `Verif/Model/Sparse.lean`. -/
noncomputable def unitary (g : Gate) (values : Values) : Py (NDArray ℂ) :=
  if g.sparse then .error .unsupported
  else match g.cls with
    | .primitive => g.generator
    | .parametric p s => do
      let gen ← g.generator
      let θ ← parseValues p s values
      rotUnitary gen θ
    | .phase p s => do
      let θ ← parseValues p s values
      .ok (mat2 1 0 0 (Complex.exp (Complex.I * (θ : ℂ))))
    | .hamEvo s => do
      let t ← (← values.get "time_evolution").addShift s
      match ← values.get "hamiltonian" with
      | .arr h => expm ⟨h.shape, h.data.map (· * (-Complex.I * (t : ℂ)))⟩
      | .num _ => .error .valueError
      | .dict _ => .error .typeError

/-- `Primitive.dagger` (primitives/primitive.py:96-105). -/
noncomputable def daggerOp (g : Gate) (values : Values) : Py (NDArray ℂ) := do
  dagger (← g.unitary values)

/-- `jacobian`: `Parametric` (primitives/parametric.py:79-80) and `_PHASE` (primitives/parametric.py:209-214);
`Primitive` and `_HamiltonianEvolution` have no such attribute. -/
noncomputable def jacobian (g : Gate) (values : Values) : Py (NDArray ℂ) :=
  match g.cls with
  | .parametric p s =>
    if g.sparse then .error .unsupported
    else do
      let gen ← g.generator
      let θ ← parseValues p s values
      rotJacobian gen θ
  | .phase p s =>
    if g.sparse then .error .unsupported
    else do
      let θ ← parseValues p s values
      .ok (mat2 0 0 0 (Complex.I * Complex.exp (Complex.I * (θ : ℂ))))
  | _ => .error .attributeError

/-- `getattr(gate, op_type)(values)` (apply.py:370-371, 376). -/
noncomputable def operator (g : Gate) (opType : OpType) (values : Values) : Py (NDArray ℂ) :=
  match opType with
  | .unitary => g.unitary values
  | .dagger => g.daggerOp values
  | .jacobian => g.jacobian values

/-- The tuple `self.target` (primitives/primitive.py:50). -/
def targetTuple (g : Gate) : List (List ℕ) := [g.target]
/-- The tuple `self.control` (primitives/primitive.py:51-54). -/
def controlTuple (g : Gate) : List Ctl := [g.control]

/-- `Primitive.n_qubits` (primitives/primitive.py:133-138). -/
def nQubits (g : Gate) : ℕ :=
  g.targetTuple.length + if g.control ≠ none then g.controlTuple.length else 0

/-- `Primitive.qubit_support` (primitives/primitive.py:140-152): `sorted(set(target + control))`.  A control tuple
mixing `None` with integers makes `sorted` raise TypeError. -/
def qubitSupport (g : Gate) : Py (List ℕ) := do
  if isControlled g.control then
    let cs ← ctlQubits g.control
    pure (pySorted (g.target ++ cs).dedup)
  else pure (pySorted g.target.dedup)

/-- `name`: `Primitive` and `_HamiltonianEvolution` (primitives/primitive.py:129-131), `Parametric`
(primitives/parametric.py:82-85), `_PHASE` (primitives/parametric.py:216-219). -/
def name (g : Gate) : String :=
  let base := match g.cls with
    | .parametric _ _ => "R" ++ g.generatorName
    | .phase _ _ => "PHASE"
    | _ => g.generatorName
  if isControlled g.control then "C" ++ base else base

/-- `is_parametric` (primitives/primitive.py:154-156, primitives/parametric.py:133-135). -/
def isParametric (g : Gate) : Bool :=
  match g.cls with
  | .parametric (.str _) _ => true
  | .phase (.str _) _ => true
  | _ => false

/-- `Primitive.tensor` for dense gates (primitives/primitive.py:107-127). -/
noncomputable def tensor (g : Gate) (values : Values) (fullSupport : Option (List ℕ)) : Py (NDArray ℂ) := do
  let u ← g.unitary values
  let u ← if isControlled g.control then controlled u g.target g.control else .ok u
  match fullSupport with
  | none => pure u
  | some full => expandOperator u (← g.qubitSupport) full

end Gate
end Verif
