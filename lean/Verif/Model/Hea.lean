import Verif.Model.Composite

/-! # Model of `hea` (`/repo/horqrux/circuit.py`) -/

set_option autoImplicit false

namespace Verif

/-- `op.param` for a gate object: `Parametric` and `_PHASE` have the attribute (primitives/parametric.py:42),
`Primitive` and `_HamiltonianEvolution` do not. -/
def Gate.paramAttr (g : Gate) : Py Param :=
  match g.cls with
  | .parametric p _ => .ok p
  | .phase p _ => .ok p
  | _ => .error .attributeError

/-- One pass of the loop over the qubits of `hea` (circuit.py:87-93).  `count` is the number of calls of `uuid4` made
before; `str(uuid4())` at the `k`-th call is `fresh k`.  The inner variable `i` of circuit.py:93 shadows the outer one
only inside the comprehension. -/
def heaBlock (fresh : ℕ → String) (nQubits : ℕ) (rotFns : List (Param → TArg → Gate)) (pre : String)
    (i count : ℕ) : Py (List Gate × ℕ) := do
  let ops := rotFns.mapIdx fun j fn => fn (.str (pre ++ fresh (count + j))) (.int i)
  let _ ← ops.mapM Gate.paramAttr
  let ring := (List.range nQubits).map fun i => Gate.X (.int ((i + 1) % nQubits)) (.int (i % nQubits))
  pure (ops ++ ring, count + rotFns.length)

/-- `hea` (circuit.py:65-96).  Simplifications: the rotation functions do not raise; negative numbers of qubits or
layers (for which the ranges are empty) are not modelled separately from 0. -/
def hea (fresh : ℕ → String) (nQubits nLayers : ℕ) (rotFns : List (Param → TArg → Gate)) (pre : String) :
    Py (List Gate) := do
  let r ← (List.range nLayers).foldlM (init := (([] : List Gate), 0)) fun st _ =>
    (List.range nQubits).foldlM (init := st) fun st i => do
      let (ops, count) ← heaBlock fresh nQubits rotFns pre i st.2
      pure (st.1 ++ ops, count)
  pure r.1

end Verif
