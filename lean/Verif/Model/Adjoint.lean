import Verif.Model.Api

/-!
# Model of the backward rule of `/repo/horqrux/differentiation/adjoint.py`

`adjoint_expectation_single_observable_fwd` and `adjoint_expectation_single_observable_bwd`, registered with
`defvjp` for a function that no other code calls: the public `adjoint_expectation` (adjoint.py:32-38) calls
`ad_expectation` directly (`adjointSingle`).  Simplification: dense states.
-/

set_option autoImplicit false

namespace Verif

/-- The residuals `(out_state, projected_state, list(iter(circuit)), values)`. -/
structure AdjointRes where
  out : State
  projected : Option State
  gates : List Op
  values : Values

/-- `adjoint_expectation_single_observable_fwd` (adjoint.py:41-51). -/
noncomputable def adjointFwd (so : SetOrder) (state : State) (circuit : Op) (o : Observable) (values : Values) :
    Py (ℝ × AdjointRes) := do
  let out ← applyOps so state circuit.iter values
  let projected ← o.forward so values (some out)
  match out with
  | .vec a => do
    let x ← Op.innerReal a projected
    pure (x, ⟨out, projected, circuit.iter, values⟩)
  | .dm _ => .error .attributeError

/-- The dictionary `grads`: numbers or `None`. -/
abbrev GradDict := List (String × Option ℝ)

/-- `if gate.param not in grads: grads[gate.param] = grad else: grads[gate.param] += grad` (adjoint.py:82-85): adding to
`None` raises TypeError. -/
def GradDict.accumulate (grads : GradDict) (p : String) (grad : ℝ) : Py GradDict :=
  match grads.lookup p with
  | none => .ok (grads ++ [(p, some grad)])
  | some none => .error .typeError
  | some (some _) => .ok (grads.map fun e => if e.1 = p then (p, e.2.map (· + grad)) else e)

/-- `gates[i]` for an integer `i`: negative indices count from the end. -/
def pyIndex {α : Type} (l : List α) (i : ℤ) : Py α :=
  match (if 0 ≤ i then l[i.toNat]? else if (-i).toNat ≤ l.length then l[l.length - (-i).toNat]? else none) with
  | some x => .ok x
  | none => .error .indexError

/-- The name of the parameter of a gate with `is_parametric` (primitives/parametric.py:134-135,
primitives/primitive.py:155-156): parameters that are numbers do not count. -/
def Gate.trainable (g : Gate) : Option String :=
  match g.cls with
  | .parametric (.str s) _ => some s
  | .phase (.str s) _ => some s
  | _ => none

/-- `gate_bwd_apply` (adjoint.py:65-87) for an integer index. -/
noncomputable def adjointBody (so : SetOrder) (gates : List Op) (values : Values) (tangent : ℝ) (i : ℤ)
    (st : State × Option State × GradDict) : Py (State × Option State × GradDict) := do
  let (out, projected, grads) := st
  match ← pyIndex gates i with
  | .comp _ _ => .error .attributeError
  | .prim g => do
    let out ← applyGates so out (.single g) values .dagger
    let grads ← match g.trainable with
      | some p => do
        match ← applyGates so out (.single g) values .jacobian with
        | .vec mu => do
          let x ← Op.innerReal mu projected
          grads.accumulate p (tangent * 2 * x)
        | .dm _ => .error .attributeError
      | none => .ok grads
    match projected with
    | some s => do
      let s ← applyGates so s (.single g) values .dagger
      pure (out, some s, grads)
    | none => .error .notImplemented

/-- `range(lower, upper)`. -/
def intRange (lower upper : ℤ) : List ℤ := (List.range (upper - lower).toNat).map fun (k : ℕ) => lower + k

/-- `jax.lax.fori_loop(lower, upper, body, init)`.  By default the body is traced with an abstract index, also when the
loop has no iterations; then `gates[i]` raises (a subclass of) TypeError.  With `jax.disable_jit` it is a Python loop. -/
def foriLoop {α : Type} (traced : Bool) (lower upper : ℤ) (body : ℤ → α → Py α) (init : α) : Py α :=
  if traced then .error .typeError else (intRange lower upper).foldlM (fun st i => body i st) init

/-- `adjoint_expectation_single_observable_bwd` (adjoint.py:54-90): the dictionary of gradients. -/
noncomputable def adjointBwd (so : SetOrder) (traced : Bool) (res : AdjointRes) (tangent : ℝ) : Py GradDict := do
  let grads : GradDict := res.values.map fun e => (e.1, none)
  let (_, _, grads) ← foriLoop traced (res.gates.length - 1) 0 (adjointBody so res.gates res.values tangent)
    (res.out, res.projected, grads)
  pure grads

end Verif
