import Verif.Model.Pytree

/-! # Model of `/repo/horqrux/utils/conversion.py`: `to_sparse` and `to_dense` of operations -/

set_option autoImplicit false

namespace Verif

/-- `to_sparse` (`sparse = true`) and `to_dense` (`sparse = false`) of a gate.  For `Primitive` and
`_HamiltonianEvolution` (conversion.py:40-49) the object is rebuilt from `aux_data[:-1] + (sparse,)`, where
`Primitive.tree_flatten` has no `shift`; for `Parametric` and `_PHASE` (conversion.py:52-61) from
`aux_data[:-3] + (sparse,) + aux_data[-2:]`. -/
noncomputable def convertGate (sparse : Bool) (g : Gate) : Gate :=
  match g.cls with
  | .hamEvo _ => { g with cls := .hamEvo 0, sparse := sparse }
  | _ => { g with sparse := sparse }

mutual
/-- `to_sparse` and `to_dense` of an operation: gates as above; `OpSequence`, `Add` and `Observable`
(conversion.py:64-71) are rebuilt from the list of converted operations; `Scale` (conversion.py:74-81) from its first
operation only, which the constructor iterates over; `QuantumCircuit` (conversion.py:84-91) without `fparams`. -/
noncomputable def convert (sparse : Bool) : Op → Py Op
  | .prim g => .ok (.prim (convertGate sparse g))
  | .comp .seq ops => do pure (mkSeq (← convertList sparse ops))
  | .comp .add ops => do pure (mkAdd (.list (← convertList sparse ops)))
  | .comp .obs ops => do pure (mkObservable (.list (← convertList sparse ops)))
  | .comp (.scale p) ops =>
    match ops with
    | [] => .error .indexError
    | o :: _ => do pure (mkScale (.one (← convert sparse o)) p)
  | .comp (.circ n _) ops => do pure (mkCircuit n (.list (← convertList sparse ops)))
/-- `[to_sparse(op) for op in operations.operations]`. -/
noncomputable def convertList (sparse : Bool) : List Op → Py (List Op)
  | [] => .ok []
  | o :: os => do
    let a ← convert sparse o
    let b ← convertList sparse os
    pure (a :: b)
end

/-- `to_sparse` of an operation. -/
noncomputable def toSparse (o : Op) : Py Op := convert true o
/-- `to_dense` of an operation. -/
noncomputable def toDense (o : Op) : Py Op := convert false o

end Verif
