import Verif.Model.States

/-!
# Model of `/repo/horqrux/composite/` and of `QuantumCircuit` (`/repo/horqrux/circuit.py`)

Operator trees: gates, `OpSequence`, `Scale`, `Add`, `Observable`, `QuantumCircuit`; dense gates and states.
-/

namespace Verif
open NDArray

/-- The classes of composite operations with the fields they add to `OpSequence.operations`:
`OpSequence` (composite/sequence.py:14-17), `Scale` (composite/compose.py:17-31), `Add` (composite/compose.py:67-77),
`Observable` (composite/compose.py:115-129), `QuantumCircuit` (circuit.py:14-32). -/
inductive CompKind
  | seq
  | scale (param : Param)
  | add
  | obs
  | circ (nQubits : ℕ) (fparams : List String)

/-- An operation object: a gate, or a composite object with its `operations` list. -/
inductive Op
  | prim (g : Gate)
  | comp (k : CompKind) (ops : List Op)

namespace Op

mutual
/-- The inner function `flatten` of `OpSequence.__iter__` (composite/sequence.py:59-66): every composite object,
whatever its class, is replaced by its flattened operations. -/
def flatten : Op → List Op
  | .prim g => [.prim g]
  | .comp _ ops => flattenList ops
/-- `for operation in operations: yield from flatten(operation)` (composite/sequence.py:69-70). -/
def flattenList : List Op → List Op
  | [] => []
  | o :: os => o.flatten ++ flattenList os
end

/-- `list(iter(op))`: `Primitive.__iter__` (primitives/primitive.py:63-64) and `Scale.__iter__`
(composite/compose.py:46-47) yield the object itself, the other classes flatten
(`OpSequence.__iter__`, composite/sequence.py:58-70). -/
def iter : Op → List Op
  | .prim g => [.prim g]
  | .comp (.scale p) ops => [.comp (.scale p) ops]
  | .comp _ ops => flattenList ops

end Op

/-- The `operations` argument of a constructor: one operation or a list. -/
inductive OpArg
  | one (o : Op)
  | list (os : List Op)

/-- `list(operations)` in the constructors (composite/compose.py:30, 77, 129; circuit.py:30). -/
def OpArg.toList : OpArg → List Op
  | .one o => o.iter
  | .list os => os

/-- `OpSequence(operations)`: the list is stored as given (composite/sequence.py:14-17). -/
def mkSeq (os : List Op) : Op := .comp .seq os
/-- `Scale(operations, parameter_name)` (composite/compose.py:27-31). -/
def mkScale (a : OpArg) (p : Param) : Op := .comp (.scale p) a.toList
/-- `Add(operations)` (composite/compose.py:76-77). -/
def mkAdd (a : OpArg) : Op := .comp .add a.toList
/-- `Observable(operations)` (composite/compose.py:128-129). -/
def mkObservable (a : OpArg) : Op := .comp .obs a.toList
/-- `QuantumCircuit(n_qubits, operations, fparams)` (circuit.py:27-32). -/
def mkCircuit (n : ℕ) (a : OpArg) (fparams : List String := []) : Op := .comp (.circ n fparams) a.toList

/-- An `Observable` object (composite/compose.py:115-129), for functions that require this class. -/
structure Observable where
  ops : List Op

/-- The object as an operation. -/
def Observable.toOp (o : Observable) : Op := .comp .obs o.ops

/-- `Observable(operations)`. -/
def Observable.new (a : OpArg) : Observable := ⟨a.toList⟩

/-- `values[self.parameter] if isinstance(self.parameter, str) else self.parameter`
(composite/compose.py:34, 63), used as a factor: a dictionary is not a valid factor. -/
def scaleParam (p : Param) (values : Values) : Py ℝ :=
  match p with
  | .num x => .ok x
  | .str s => do
    match ← values.get s with
    | .num x => .ok x
    | .arr _ => .error .unsupported
    | .dict _ => .error .typeError

/-- `functools.reduce(f, map(…))` without initial value over lazily evaluated items: TypeError when empty. -/
def pyReduce {α : Type} (f : α → α → Py α) : List (Py α) → Py α
  | [] => .error .typeError
  | x :: xs => do
    let a ← x
    xs.foldlM (fun acc y => do f acc (← y)) a

namespace Op

mutual
/-- `qubit_support` (primitives/primitive.py:140-152, composite/sequence.py:28-30): for composite objects the
iteration order of a Python set. -/
def qubitSupport (so : SetOrder) : Op → Py (List ℕ)
  | .prim g => g.qubitSupport
  | .comp _ ops => do pure (so.order (← supportList so ops))
/-- The elements put into the set by `set().union(*(op.qubit_support for op in self.operations))`. -/
def supportList (so : SetOrder) : List Op → Py (List ℕ)
  | [] => .ok []
  | o :: os => do
    let a ← qubitSupport so o
    let b ← supportList so os
    pure (a ++ b)
end

/-- The `full_support` used by the operations of a composite object (composite/sequence.py:49-55,
composite/compose.py:105-111). -/
def fullSupport (support : Py (List ℕ)) : Option (List ℕ) → Py (List ℕ)
  | none => support
  | some full => do
    if (← support).all (· ∈ full) then pure full else .error .valueError

mutual
/-- `tensor`: `Primitive` (primitives/primitive.py:107-127), `OpSequence` (composite/sequence.py:35-56: matrix
product in listing order), `Scale` (composite/compose.py:49-64), `Add` and `Observable`
(composite/compose.py:91-112), `QuantumCircuit` (inherits `OpSequence.tensor`). -/
noncomputable def tensor (so : SetOrder) (values : Values) : Op → Option (List ℕ) → Py (NDArray ℂ)
  | .prim g, full => g.tensor values full
  | .comp .seq ops, full => do
    pyReduce NDArray.matmul (tensorList so values ops (← fullSupport (qubitSupport so (.comp .seq ops)) full))
  | .comp (.circ n fs) ops, full => do
    pyReduce NDArray.matmul (tensorList so values ops (← fullSupport (qubitSupport so (.comp (.circ n fs) ops)) full))
  | .comp (.scale p) ops, full => do
    let x ← scaleParam p values
    let m ← do
      pyReduce NDArray.matmul (tensorList so values ops (← fullSupport (qubitSupport so (.comp (.scale p) ops)) full))
    pure (smul (x : ℂ) m)
  | .comp .add ops, full => do
    pyReduce NDArray.add (tensorList so values ops (← fullSupport (qubitSupport so (.comp .add ops)) full))
  | .comp .obs ops, full => do
    pyReduce NDArray.add (tensorList so values ops (← fullSupport (qubitSupport so (.comp .obs ops)) full))
/-- `map(lambda op: op.tensor(values, full_support), self.operations)`. -/
noncomputable def tensorList (so : SetOrder) (values : Values) : List Op → List ℕ → List (Py (NDArray ℂ))
  | [], _ => []
  | o :: os, full => tensor so values o (some full) :: tensorList so values os full
end

/-- `_ad_expectation_single_observable` on a density matrix (differentiation/ad.py:58-68). -/
noncomputable def expectDM (so : SetOrder) (values : Values) (ops : List Op) (ρ : DensityMatrix ℂ) : Py ℝ := do
  let matObs ← tensor so values (.comp .obs ops) none
  let d := 2 ^ numQubitsDM ρ
  let prod ← (← applyOperator ρ.array matObs (← qubitSupport so (.comp .obs ops)) none).reshape [d, d]
  pure (← prod.trace).re

/-- `inner(state, projected).real` for a projected state of any kind (differentiation/ad.py:42,
differentiation/adjoint.py:22): a density matrix has no `flatten`, neither has `None`. -/
def innerReal (state : NDArray ℂ) : Option State → Py ℝ
  | some (.vec a) => do pure (← inner state a).re
  | _ => .error .attributeError

/-- `a + b` for the results of two calls: only arrays can be added (composite/compose.py:89). -/
def addStates : Option State → Option State → Py (Option State)
  | some (.vec a), some (.vec b) => do pure (some (.vec (← a.add b)))
  | _, _ => .error .typeError

/-- `jnp.array(param) * state` (composite/compose.py:35): only arrays can be multiplied. -/
def scaleState (x : ℝ) : Option State → Py (Option State)
  | some (.vec a) => .ok (some (.vec (smul (x : ℂ) a)))
  | _ => .error .typeError

mutual
/-- `op(state, values)`: `Primitive.__call__` (primitives/primitive.py:56-61), `OpSequence.__call__`
(composite/sequence.py:32-33), `Scale.__call__` (composite/compose.py:33-35), `Add.__call__`
(composite/compose.py:88-89), `Observable.__call__` (composite/compose.py:134-146, a number, returned as an array
without axes), `QuantumCircuit` (inherits `OpSequence.__call__`).  The state `None` is `none`. -/
noncomputable def call (so : SetOrder) (values : Values) : Op → Option State → Py (Option State)
  | .prim g, st => do
    let st ← match st with
      | some s => .ok s
      | none => do
        let z ← zeroState (← g.qubitSupport).length
        pure (State.vec z)
    some <$> applyGates so st (.single g) values
  | .comp .seq ops, st => callSeq so values ops st
  | .comp (.circ _ _) ops, st => callSeq so values ops st
  | .comp (.scale p) ops, st => do
    let x ← scaleParam p values
    scaleState x (← callSeq so values ops st)
  | .comp .add ops, st => pyReduce addStates (callList so values ops st)
  | .comp .obs ops, st =>
    match st with
    | none => .error .notImplemented
    | some (.vec a) => do
      let x ← innerReal a (← pyReduce addStates (callList so values ops (some (.vec a))))
      pure (some (.vec ⟨[], [(x : ℂ)]⟩))
    | some (.dm ρ) => do
      let x ← expectDM so values ops ρ
      pure (some (.vec ⟨[], [(x : ℂ)]⟩))
/-- `reduce(lambda state, gate: gate.__call__(state, values), operations, state)` (composite/sequence.py:33). -/
noncomputable def callSeq (so : SetOrder) (values : Values) : List Op → Option State → Py (Option State)
  | [], st => .ok st
  | o :: os, st => do callSeq so values os (← call so values o st)
/-- `map(lambda op: op(state, values), self.operations)` (composite/compose.py:89). -/
noncomputable def callList (so : SetOrder) (values : Values) : List Op → Option State → List (Py (Option State))
  | [], _ => []
  | o :: os, st => call so values o st :: callList so values os st
end

/-- `OpSequence.param_names` (composite/sequence.py:72-82): the set of `str(op.param)` of the parametric gates, as a
list without repetitions.  `strOf` is Python's `str` on floats. -/
def paramNames (strOf : ℝ → String) (o : Op) : List String :=
  (o.iter.filterMap fun
    | .prim g => match g.cls with
      | .parametric (.str s) _ | .phase (.str s) _ => some s
      | .parametric (.num x) _ | .phase (.num x) _ => some (strOf x)
      | _ => none
    | _ => none).dedup

/-- `QuantumCircuit.vparams` (circuit.py:34-41). -/
def vparams (strOf : ℝ → String) (fparams : List String) (o : Op) : List String :=
  (o.paramNames strOf).filter (· ∉ fparams)

/-- `n_vparams`: `QuantumCircuit` (circuit.py:43-50), other composite objects (composite/sequence.py:84-91). -/
def nVparams (strOf : ℝ → String) (o : Op) : ℕ :=
  match o with
  | .comp (.circ _ fs) _ => (o.vparams strOf fs).length
  | _ => (o.paramNames strOf).length

end Op

/-- `Observable.forward` (composite/compose.py:131-132), i.e. `Add.__call__`. -/
noncomputable def Observable.forward (so : SetOrder) (values : Values) (o : Observable) (st : Option State) :
    Py (Option State) := pyReduce Op.addStates (Op.callList so values o.ops st)

end Verif
