import Verif.Model.Sparse

/-!
# `tensor` of operation trees with sparse gates

`Primitive.tensor` for sparse gates is `Gate.tensorArr` in `Model/Sparse.lean`.  `OpSequence.tensor` multiplies with
`jnp.matmul` itself (not with its `sparsify`-wrapped form), which accepts arrays only; `Add.tensor` uses `operator.add`
and `Scale.tensor` uses `*`, which `BCOO` overloads.
-/

set_option autoImplicit false

namespace Verif

/-- `jnp.matmul(a, b)`: TypeError for `BCOO` operands. -/
def Arr.jnpMatmul : Arr → Arr → Py Arr
  | .dense a, .dense b => (NDArray.matmul a b).map .dense
  | _, _ => .error .typeError

namespace Op
variable (lay : Layout)

mutual
/-- `tensor` of gates and composites in either format: `Primitive` (primitives/primitive.py:107-127), `OpSequence`
(composite/sequence.py:35-56), `Scale` (composite/compose.py:49-65), `Add` and `Observable` (composite/compose.py:91-112),
`QuantumCircuit` (inherits `OpSequence.tensor`). -/
noncomputable def tensorArr (so : SetOrder) (values : Values) : Op → Option (List ℕ) → Py Arr
  | .prim g, full => g.tensorArr lay values full
  | .comp .seq ops, full => do
    pyReduce Arr.jnpMatmul (tensorListArr so values ops (← fullSupport (qubitSupport so (.comp .seq ops)) full))
  | .comp (.circ n fs) ops, full => do
    pyReduce Arr.jnpMatmul (tensorListArr so values ops (← fullSupport (qubitSupport so (.comp (.circ n fs) ops)) full))
  | .comp (.scale p) ops, full => do
    let x ← scaleParam p values
    let m ← do
      pyReduce Arr.jnpMatmul (tensorListArr so values ops (← fullSupport (qubitSupport so (.comp (.scale p) ops)) full))
    pure (m.scale x)
  | .comp .add ops, full => do
    pyReduce (Arr.add lay) (tensorListArr so values ops (← fullSupport (qubitSupport so (.comp .add ops)) full))
  | .comp .obs ops, full => do
    pyReduce (Arr.add lay) (tensorListArr so values ops (← fullSupport (qubitSupport so (.comp .obs ops)) full))
/-- `map(lambda op: op.tensor(values, full_support), self.operations)`. -/
noncomputable def tensorListArr (so : SetOrder) (values : Values) : List Op → List ℕ → List (Py Arr)
  | [], _ => []
  | o :: os, full => tensorArr so values o (some full) :: tensorListArr so values os full
end
end Op
end Verif
