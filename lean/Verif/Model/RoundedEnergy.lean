import Verif.Model.Rounding
import Verif.Model.Api

/-!
# Expectation values whose arithmetic is not exact

`ad_expectation` on a state vector for an observable that is a sum of scaled gate sequences, as the Hamiltonians of the
documentation are, with the operations on numbers of `Verif/Model/Rounding.lean`.
-/

set_option autoImplicit false

namespace Verif

/-- `Observable([Scale(OpSequence([g, …]), c), …])` (docs/vqe.md:26-42). -/
noncomputable def stringObs (ts : List (ℝ × List Gate)) : Observable :=
  .new (.list (ts.map fun t => mkScale (.one (mkSeq (t.2.map .prim))) (.num t.1)))

namespace Flops
variable (F : Flops) (op : Gate → Py (NDArray ℂ))

/-- `OpSequence.__call__` for a sequence of gates (composite/sequence.py:32-33): one `apply_gates` per gate
(primitives/primitive.py:56-61). -/
noncomputable def string (gs : List Gate) (st : NDArray ℂ) : Py (NDArray ℂ) :=
  gs.foldlM (fun st g => (F.arith op).run st (.single g) false true) st

/-- `jnp.array(param) * state` (composite/compose.py:35). -/
noncomputable def scale (c : ℝ) (a : NDArray ℂ) : NDArray ℂ := ⟨a.shape, a.data.map (F.mul (c : ℂ))⟩

/-- `a + b` of arrays of the same shape (composite/compose.py:89). -/
noncomputable def plus (a b : NDArray ℂ) : Py (NDArray ℂ) :=
  if a.shape = b.shape then .ok ⟨a.shape, List.zipWith F.add a.data b.data⟩ else .error .unsupported

/-- `Scale.__call__` of a sequence of gates (composite/compose.py:33-35). -/
noncomputable def term (st : NDArray ℂ) (t : ℝ × List Gate) : Py (NDArray ℂ) := do
  .ok (F.scale t.1 (← F.string op t.2 st))

/-- `jnp.dot(jnp.conj(state.flatten()), projection.flatten())` (utils/operator_utils.py:447-448). -/
noncomputable def inner (a b : NDArray ℂ) : Py ℂ :=
  if a.shape.prod = b.shape.prod then .ok (F.sum (List.zipWith F.mul (a.data.map star) b.data)) else .error .typeError

/-- `_ad_expectation_single_observable` on a state vector (differentiation/ad.py:23-42) for `stringObs ts`:
`Observable.forward` adds the terms from left to right (composite/compose.py:88-89, 131-132). -/
noncomputable def energy (ts : List (ℝ × List Gate)) (st : NDArray ℂ) : Py ℝ := do
  let projected ← pyReduce F.plus (ts.map (F.term op st))
  pure (← F.inner st projected).re

end Flops
end Verif
