import Verif.Model.Api

/-!
# Model of the gradients in `/repo/horqrux/differentiation/gpsr/` and of `Parametric.spectral_gap`

`jax.jit` is modelled as executing the function, after the pytree round trip of its arguments (`jitGate`, `jitOps`).
The gradient functions are generic in the function `F` that computes the (shifted) expectation values.
-/

namespace Verif
open NDArray

/-! ## `Parametric.spectral_gap` -/

/-- `jnp.linalg.eigvalsh` of a square array: the eigenvalues of the contract `Eigh`. -/
noncomputable def eigvalsh (eigh : Eigh) (a : NDArray ℂ) : Py (List ℝ) :=
  match a.shape with
  | [d, d'] => if d = d' then .ok (List.ofFn (eigh.vals (toMat d a))) else .error .valueError
  | _ => .error .valueError

/-- `Parametric.eigenvals_generator` for a dense gate (primitives/parametric.py:93-117): for a controlled gate preceded
by `2 ** len(self.control)` zeros, where `self.control` is the one-element tuple `controlTuple`. -/
noncomputable def Gate.eigenvalsGenerator (eigh : Eigh) (g : Gate) : Py (List ℝ) := do
  let ev ← eigvalsh eigh (← g.generator)
  pure (if isControlled g.control then List.replicate (2 ^ g.controlTuple.length) 0 ++ ev else ev)

/-- `jnp.unique(xs)`: the different values in increasing order. -/
noncomputable def uniqueSorted (xs : List ℝ) : List ℝ := by
  classical exact xs.dedup.insertionSort (· ≤ ·)

/-- `jnp.unique(xs, size=2)`: the two smallest values, padded with the smallest one. -/
noncomputable def unique2 (xs : List ℝ) : List ℝ :=
  let u := uniqueSorted xs
  [u.getD 0 0, u.getD 1 (u.getD 0 0)]

/-- `xs[jnp.nonzero(xs, size=1)]`: the first non-zero entry; without one, index `0` is used. -/
noncomputable def firstNonzero (xs : List ℝ) : ℝ := by
  classical exact (xs.find? fun x => decide (x ≠ 0)).getD (xs.getD 0 0)

/-- The entries of `|tril(spectrum - spectrum.T)|`. -/
noncomputable def trilDiffs (ev : List ℝ) : List ℝ :=
  (List.range ev.length).flatMap fun i => (List.range ev.length).map fun j =>
    if j ≤ i then |ev.getD j 0 - ev.getD i 0| else 0

/-- `Parametric.spectral_gap` (primitives/parametric.py:119-131); other gates have no such attribute.  The array of
shape `(1,)` is a number here. -/
noncomputable def Gate.spectralGap (eigh : Eigh) (g : Gate) : Py ℝ :=
  match g.cls with
  | .parametric _ _ | .phase _ _ => do pure (firstNonzero (unique2 (trilDiffs (← g.eigenvalsGenerator eigh))))
  | _ => .error .attributeError

/-! ## `gpsr_utils.py` -/

/-- The parameter name of a gate: `gate.param` if it has that attribute and it is a string. -/
def Gate.paramName (g : Gate) : Option String :=
  match g.cls with
  | .parametric (.str s) _ => some s
  | .phase (.str s) _ => some s
  | _ => none

/-- `extract_gate_names` (gpsr_utils.py:82-98). -/
def extractGateNames (gates : List Gate) : List String := gates.filterMap Gate.paramName

/-- One entry of the dictionary of `prepare_param_gates_seq` (gpsr_utils.py:28-44): the indices of the gates with
parameter name `key`. -/
def paramIndices (gates : List Gate) (key : String) : List ℕ :=
  (List.range gates.length).filter fun i => (gates[i]?.bind Gate.paramName) == some key

/-- `to_shift` (gpsr_utils.py:14-25): `Parametric.tree_unflatten`, so the class of the result is `Parametric`.
Gates of other classes are never shifted; their last field is not a number. -/
noncomputable def toShift (g : Gate) (δ : ℝ) : Py Gate :=
  match g.cls with
  | .parametric p s => .ok { g with cls := .parametric p (s + δ) }
  | .phase p s => .ok { g with cls := .parametric p (s + δ) }
  | _ => .error .typeError

/-- `alter_gate_sequence` (gpsr_utils.py:47-62). -/
noncomputable def alterGateSequence (gates : List Gate) (ind : ℕ) (δ : ℝ) : Py (List Gate) := do
  match gates[ind]? with
  | none => .error .indexError
  | some g => do
    let s ← toShift g δ
    pure (gates.take ind ++ [s] ++ gates.drop (min (ind + 1) gates.length))

/-- The keys of a dictionary. -/
def Values.keys (values : Values) : List String := values.map Prod.fst

/-- `initialize_gpsr_ingredients` (gpsr_utils.py:65-79): the spectral gap of every parameter, and the shift. -/
def initialGap : ℝ := 2
/-- See `initialGap`. -/
noncomputable def gpsrShift : ℝ := Real.pi / 2

/-- `spectral_gap_from_gates` (gpsr_utils.py:101-116): the first entry of a tuple of indices is an int, which has no
attribute `spectral_gap`; the tuple may be empty. -/
def spectralGapFromGates (gates : List Gate) : List String → Py (List ℝ)
  | [] => .ok []
  | key :: _ => if paramIndices gates key = [] then .error .indexError else .error .attributeError

/-- `new_named_parametric` (gpsr_utils.py:119-138) with the new name `name`. -/
def newNamed (g : Gate) (name : String) : Gate :=
  match g.cls with
  | .parametric _ s => { g with cls := .parametric (.str name) s }
  | .phase _ s => { g with cls := .parametric (.str name) s }
  | _ => g

/-- `create_renamed_operators` (gpsr_utils.py:141-161); `fresh i` is the uuid made for the gate at index `i`. -/
def createRenamed (fresh : ℕ → String) (gates : List Gate) (keys : List String) : List Gate :=
  gates.mapIdx fun i g =>
    match g.paramName with
    | some s => if s ∈ keys then newNamed g (fresh i) else g
    | none => g

/-! ## `analytical.py` -/

/-- `apply_gates(state, gates, values)` and the expectation values: `analytical_expectation`
(differentiation/gpsr/analytical.py:26-54) for one gate or a list of gates. -/
noncomputable def gatesExpectation (so : SetOrder) (state : State) (observables : List Observable) (gates : GateArg)
    (values : Values) : Py (List ℝ) := do
  let outs ← observables.mapM fun o => do
    let st ← applyGates so state gates values
    expectSingle so values o st
  stackReal outs

/-- The pytree round trip of a gate: `_PHASE` is not registered as a pytree and is no valid JAX type (TypeError);
`Primitive.tree_flatten`, which `_HamiltonianEvolution` inherits, has no `shift`. -/
noncomputable def jitGate (g : Gate) : Py Gate :=
  match g.cls with
  | .phase _ _ => .error .typeError
  | .hamEvo _ => .ok { g with cls := .hamEvo 0 }
  | _ => .ok g

mutual
/-- The pytree round trip of an operation.  `QuantumCircuit.tree_flatten` (circuit.py:52-58) returns its children and
auxiliary data in the wrong order, so that the rebuilt object is `QuantumCircuit(operations, fparams, n_qubits)`: its
operations are the old `fparams` (see `Verif/Model/Pytree.lean`).  Without `fparams` these are no operations at all; its
`n_qubits` and `fparams` are then unusable, but are not read again (they are `0` and `[]` here).  With `fparams`, the
operations are strings, and using any of them raises AttributeError (here: at once). -/
noncomputable def jitOp : Op → Py Op
  | .prim g => do pure (.prim (← jitGate g))
  | .comp (.circ _ []) _ => .ok (.comp (.circ 0 []) [])
  | .comp (.circ _ (_ :: _)) _ => .error .attributeError
  | .comp k ops => do pure (.comp k (← jitOps ops))
/-- The pytree round trip of a list of operations. -/
noncomputable def jitOps : List Op → Py (List Op)
  | [] => .ok []
  | o :: os => do pure ((← jitOp o) :: (← jitOps os))
end

/-- The pytree round trip of the `gates` argument. -/
noncomputable def jitArg : GateArg → Py GateArg
  | .single g => do pure (.single (← jitGate g))
  | .list gs => do pure (.list (← gs.mapM jitGate))

/-- `jitted_analytical_exp` (differentiation/gpsr/analytical.py:57). -/
noncomputable def jittedExpectation (so : SetOrder) (state : State) (observables : List Observable) (gates : GateArg)
    (values : Values) : Py (List ℝ) := do
  let gates ← jitArg gates
  let observables ← observables.mapM fun o => do pure ({ o with ops := ← jitOps o.ops } : Observable)
  gatesExpectation so state observables gates values

/-- `gap * (f_up - f_down) / (4 * sin(gap * shift / 2))`.  A division by zero (a result with NaN or infinite entries) is
not modelled. -/
noncomputable def gpsrRule (gap shift : ℝ) (up down : List ℝ) : Py (List ℝ) :=
  if Real.sin (gap * shift / 2) = 0 then .error .unsupported
  else .ok (List.zipWith (fun u d => gap * (u - d) / (4 * Real.sin (gap * shift / 2))) up down)

/-- `v + δ` for a dictionary value `v`: a number is added to every entry of an array. -/
noncomputable def PyVal.shift (v : PyVal) (δ : ℝ) : Py PyVal :=
  match v with
  | .num x => .ok (.num (x + δ))
  | .arr a => .ok (.arr ⟨a.shape, a.data.map (· + (δ : ℂ))⟩)
  | .dict _ => .error .typeError

/-- `v = values.copy(); v[key] = v[key] + δ`. -/
noncomputable def Values.shiftKey (values : Values) (key : String) (δ : ℝ) : Py Values := do
  let v ← (← values.get key).shift δ
  pure (values.map fun e => if e.1 = key then (key, v) else e)

/-- `jvp_component` (analytical.py:86-98). -/
noncomputable def jvpComponent (F : GateArg → Values → Py (List ℝ)) (gates : GateArg) (values : Values) (key : String) :
    Py (List ℝ) := do
  let up ← F gates (← values.shiftKey key gpsrShift)
  let down ← F gates (← values.shiftKey key (-gpsrShift))
  gpsrRule initialGap gpsrShift up down

/-- `shift_jvp` (analytical.py:111-121). -/
noncomputable def shiftJvp (eigh : Eigh) (F : GateArg → Values → Py (List ℝ)) (gates : List Gate) (values : Values)
    (ind : ℕ) : Py (List ℝ) := do
  let gap ← match gates[ind]? with
    | some g => g.spectralGap eigh
    | none => .error .indexError
  let up ← F (.list (← alterGateSequence gates ind gpsrShift)) values
  let down ← F (.list (← alterGateSequence gates ind (-gpsrShift))) values
  gpsrRule gap gpsrShift up down

/-- Python's `sum` of vectors; `none` is the number `0` that `sum` returns for an empty generator. -/
noncomputable def sumVecs : List (List ℝ) → Option (List ℝ)
  | [] => none
  | v :: vs => some (vs.foldl (fun a b => List.zipWith (· + ·) a b) v)

/-- `jvp_component_repeated_param` (analytical.py:108-123). -/
noncomputable def repeatedJvp (eigh : Eigh) (F : GateArg → Values → Py (List ℝ)) (gates : List Gate) (values : Values)
    (key : String) : Py (Option (List ℝ)) := do
  pure (sumVecs (← (paramIndices gates key).mapM (shiftJvp eigh F gates values)))

/-- `jnp.stack(rows).sum(axis=-1)`: stacking nothing, or a number with vectors, raises ValueError. -/
noncomputable def stackSum (rows : List (Option (List ℝ))) : Py (List ℝ) :=
  if rows = [] then .error .valueError
  else rows.mapM fun r => match r with
    | some v => .ok v.sum
    | none => .error .valueError

/-- Is a parameter name used by several gates?  `max(map(len, param_to_gates_indices.values())) > 1`
(analytical.py:106); the maximum of nothing raises ValueError. -/
def hasRepeated (gates : List Gate) (keys : List String) : Py Bool :=
  if keys = [] then .error .valueError else .ok (keys.any fun key => 1 < (paramIndices gates key).length)

/-- `analytical_gpsr_bwd` (analytical.py:60-130) with `F = jitted_analytical_exp`. -/
noncomputable def gpsrBwd (eigh : Eigh) (F : GateArg → Values → Py (List ℝ)) (gates : GateArg) (values : Values) :
    Py (List ℝ) := do
  let plain := values.keys.mapM fun key => do pure (some (← jvpComponent F gates values key))
  let rows ← match gates with
    | .single _ => plain
    | .list gs =>
      if (extractGateNames gs).length > values.keys.length then do
        if ← hasRepeated gs values.keys then values.keys.mapM (repeatedJvp eigh F gs values)
        else do
          let _ ← spectralGapFromGates gs values.keys
          plain
      else plain
  stackSum rows

/-- Is the value a number? -/
def PyVal.isNum : PyVal → Bool
  | .num _ => true
  | _ => false

/-- Is the value a dictionary? -/
def PyVal.isDict : PyVal → Bool
  | .dict _ => true
  | _ => false

/-- `stack_sp(list(values.values()))` (analytical.py:214) for numbers.  Stacking nothing, or a number with an array (a
matrix, so of another shape), raises ValueError; stacking a dictionary raises TypeError.  Stacking arrays only is not
modelled. -/
def stackValues (values : Values) : Py (List ℝ) :=
  if values = [] then .error .valueError
  else values.mapM fun e => match e.2 with
    | .num x => .ok x
    | .arr _ =>
      if values.any fun e => e.2.isDict then .error .typeError
      else if values.any fun e => e.2.isNum then .error .valueError
      else .error .unsupported
    | .dict _ => .error .typeError

/-- `values_to_dict(values_array ± shift_vector)` (analytical.py:219-228), where `shift_vector` is row `i` of
`shift * eye`. -/
noncomputable def shiftAt (keys : List String) (xs : List ℝ) (i : ℕ) (δ : ℝ) : Values :=
  (keys.zip (xs.mapIdx fun j x => if j = i then x + δ else x)).map fun e => (e.1, .num e.2)

/-- `jvp_caller` (analytical.py:222-230) for row `i`. -/
noncomputable def jvpRow (F : GateArg → Values → Py (List ℝ)) (gates : GateArg) (keys : List String) (xs : List ℝ)
    (gap : ℝ) (i : ℕ) : Py (List ℝ) := do
  let up ← F gates (shiftAt keys xs i gpsrShift)
  let down ← F gates (shiftAt keys xs i (-gpsrShift))
  gpsrRule gap gpsrShift up down

/-- The scan over all parameters (analytical.py:232-239). -/
noncomputable def jvpScan (F : GateArg → Values → Py (List ℝ)) (gates : GateArg) (keys : List String) (xs gaps : List ℝ) :
    Py (List (List ℝ)) :=
  (List.range keys.length).mapM fun i => jvpRow F gates keys xs (gaps.getD i 0) i

/-- `(stack_sp(grads) * tangent_array).sum(axis=0)` (analytical.py:247): `Σ_p tangent_p · grad_p`, for a forward value
with `m` entries. -/
noncomputable def contract (m : ℕ) (grads : List (List ℝ)) (tangents : List ℝ) : List ℝ :=
  List.ofFn fun i : Fin m => (List.zipWith (fun g t => g.getD i 0 * t) grads tangents).sum

/-- `analytical_gpsr_jvp` (analytical.py:161-248) with `F = analytical_gpsr_fwd`: the forward value and the tangent.
`tangents` are the values of `tangent_dict`, which has the keys of `values` in the same order. -/
noncomputable def gpsrJvp (eigh : Eigh) (fresh : ℕ → String) (F : GateArg → Values → Py (List ℝ)) (gates : GateArg)
    (values : Values) (tangents : List ℝ) : Py (List ℝ × List ℝ) := do
  let fwd ← F gates values
  let keys := values.keys
  let plain : Py (List ℝ × List ℝ) := do
    let xs ← stackValues values
    let grads ← jvpScan F gates keys xs (keys.map fun _ => initialGap)
    pure (fwd, contract fwd.length grads tangents)
  match gates with
  | .single _ => plain
  | .list gs =>
    if (extractGateNames gs).length > keys.length then do
      if ← hasRepeated gs keys then do
        let gs' := createRenamed fresh gs keys
        -- `values_map` as a list of (index, parameter name); the temporary name is `fresh index`
        let vmap := keys.flatMap fun p => (paramIndices gs p).map fun i => (i, p)
        let tempKeys := vmap.map fun e => fresh e.1
        let vals ← vmap.mapM fun e => values.get e.2
        -- the comprehension evaluates the gap of every gate of the parameter and keeps the last one
        let gaps ← vmap.mapM fun e => do
          let gg ← (paramIndices gs e.2).mapM fun i => match gs'[i]? with
            | some g => g.spectralGap eigh
            | none => .error .indexError
          pure (gg.getLastD 0)
        let xs ← stackValues (tempKeys.zip vals)
        let grads ← jvpScan F (.list gs') tempKeys xs gaps
        -- `stack_sp(grads_legit_dict[name]).sum(axis=0)` (analytical.py:240-246)
        let grads ← keys.mapM fun p =>
          match sumVecs (((vmap.zip grads).filter fun e => e.1.2 = p).map Prod.snd) with
          | some v => .ok v
          | none => .error .valueError
        pure (fwd, contract fwd.length grads tangents)
      else do
        let _ ← spectralGapFromGates gs keys
        plain
    else plain

end Verif
