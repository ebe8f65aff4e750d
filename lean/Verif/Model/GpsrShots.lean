import Verif.Model.Gpsr

/-!
# Model of `/repo/horqrux/differentiation/gpsr/shots.py`

JAX's random keys are elements of an arbitrary type `κ`; `split key num i` is `random.split(key, num)[i]`, and the
uniform numbers that `jax.random.choice` draws for a key are an argument.  The gradient functions are generic in the
function `F` that computes the (shifted) estimates from a key.
-/

namespace Verif
set_option autoImplicit false
open NDArray
variable {κ : Type}

/-- `finite_shots` (shots.py:157-184) for one gate or a list of gates; `us` are the uniform numbers drawn.  The
density-matrix reshape happens inside `eigenProbabilities`. -/
noncomputable def finiteShotsGates (so : SetOrder) (eigh : Eigh) (state : State) (observables : List Observable)
    (us : List ℝ) (gates : GateArg) (values : Values) : Py (List ℝ) := do
  let out ← applyGates so state gates values
  eigenSample so eigh out observables values (numQubits out) us

/-- `jitted_finite_shots` (differentiation/gpsr/shots.py:24). -/
noncomputable def jittedFiniteShots (so : SetOrder) (eigh : Eigh) (state : State) (observables : List Observable)
    (us : List ℝ) (gates : GateArg) (values : Values) : Py (List ℝ) := do
  let gates ← jitArg gates
  let observables ← observables.mapM fun o => do pure ({ o with ops := ← jitOps o.ops } : Observable)
  finiteShotsGates so eigh state observables us gates values

/-- `random.split(key, num)`. -/
def splitKeys (split : κ → ℕ → ℕ → κ) (key : κ) (num : ℕ) : List κ := (List.range num).map (split key num)

/-- `jvp_component` (differentiation/gpsr/shots.py:56-69). -/
noncomputable def shotsComponent (split : κ → ℕ → ℕ → κ) (F : κ → GateArg → Values → Py (List ℝ)) (gates : GateArg)
    (values : Values) (name : String) (key : κ) : Py (List ℝ) := do
  let up ← F (split key 2 0) gates (← values.shiftKey name gpsrShift)
  let down ← F (split key 2 1) gates (← values.shiftKey name (-gpsrShift))
  gpsrRule initialGap gpsrShift up down

/-- `shift_jvp` (differentiation/gpsr/shots.py:84-99). -/
noncomputable def shotsShiftJvp (eigh : Eigh) (split : κ → ℕ → ℕ → κ) (F : κ → GateArg → Values → Py (List ℝ))
    (gates : List Gate) (values : Values) (ind : ℕ) (key : κ) : Py (List ℝ) := do
  let gap ← match gates[ind]? with
    | some g => g.spectralGap eigh
    | none => .error .indexError
  let up ← F (split key 2 0) (.list (← alterGateSequence gates ind gpsrShift)) values
  let down ← F (split key 2 1) (.list (← alterGateSequence gates ind (-gpsrShift))) values
  gpsrRule gap gpsrShift up down

/-- `jvp_component_repeated_param` (differentiation/gpsr/shots.py:80-103). -/
noncomputable def shotsRepeatedJvp (eigh : Eigh) (split : κ → ℕ → ℕ → κ) (F : κ → GateArg → Values → Py (List ℝ))
    (gates : List Gate) (values : Values) (name : String) (key : κ) : Py (Option (List ℝ)) := do
  let inds := paramIndices gates name
  pure (sumVecs (← (inds.zip (splitKeys split key inds.length)).mapM fun e =>
    shotsShiftJvp eigh split F gates values e.1 e.2))

/-- `finite_shots_gpsr_backward` (differentiation/gpsr/shots.py:27-110) with `F = jitted_finite_shots`.  If there are
more names than values and no repetition, `spectral_gap_from_gates` raises before `jvp_component_repeated_param`, which
is then undefined, is used. -/
noncomputable def shotsBwd (eigh : Eigh) (split : κ → ℕ → ℕ → κ) (F : κ → GateArg → Values → Py (List ℝ))
    (gates : GateArg) (values : Values) (key : κ) : Py (List ℝ) := do
  let named := values.keys.zip (splitKeys split key values.keys.length)
  let plain := named.mapM fun e => do pure (some (← shotsComponent split F gates values e.1 e.2))
  let rows ← match gates with
    | .single _ => plain
    | .list gs =>
      if (extractGateNames gs).length > values.keys.length then do
        if ← hasRepeated gs values.keys then named.mapM fun e => shotsRepeatedJvp eigh split F gs values e.1 e.2
        else do
          let _ ← spectralGapFromGates gs values.keys
          plain
      else plain
  stackSum rows

/-- `jvp_caller` (differentiation/gpsr/shots.py:211-221) for row `i`. -/
noncomputable def shotsRow (split : κ → ℕ → ℕ → κ) (F : κ → GateArg → Values → Py (List ℝ)) (gates : GateArg)
    (keys : List String) (xs : List ℝ) (gap : ℝ) (i : ℕ) (key : κ) : Py (List ℝ) := do
  let up ← F (split key 2 0) gates (shiftAt keys xs i gpsrShift)
  let down ← F (split key 2 1) gates (shiftAt keys xs i (-gpsrShift))
  gpsrRule gap gpsrShift up down

/-- The scan over all parameters (differentiation/gpsr/shots.py:223-232). -/
noncomputable def shotsScan (split : κ → ℕ → ℕ → κ) (F : κ → GateArg → Values → Py (List ℝ)) (gates : GateArg)
    (keys : List String) (xs gaps : List ℝ) (key : κ) : Py (List (List ℝ)) :=
  ((List.range keys.length).zip (splitKeys split key keys.length)).mapM fun e =>
    shotsRow split F gates keys xs (gaps.getD e.1 0) e.1 e.2

/-- `finite_shots_jvp` (differentiation/gpsr/shots.py:145-241) with `F = finite_shots_fwd`: the forward value and the
tangent.  `tangents` are the values of `tangent_dict`, which has the keys of `values` in the same order. -/
noncomputable def shotsJvp (eigh : Eigh) (fresh : ℕ → String) (split : κ → ℕ → ℕ → κ)
    (F : κ → GateArg → Values → Py (List ℝ)) (gates : GateArg) (values : Values) (tangents : List ℝ) (key : κ) :
    Py (List ℝ × List ℝ) := do
  let fwd ← F key gates values
  let keys := values.keys
  let plain : Py (List ℝ × List ℝ) := do
    let xs ← stackValues values
    let grads ← shotsScan split F gates keys xs (keys.map fun _ => initialGap) key
    pure (fwd, contract fwd.length grads tangents)
  match gates with
  | .single _ => plain
  | .list gs =>
    if (extractGateNames gs).length > keys.length then do
      if ← hasRepeated gs keys then do
        let gs' := createRenamed fresh gs keys
        -- `values_map` as a list of (index, parameter name); the temporary name is `fresh index`
        let vmap := keys.flatMap fun p => (paramIndices gs p).map fun i => (i, p)
        let tempKeys := vmap.map fun e => fresh e.1
        let vals ← vmap.mapM fun e => values.get e.2
        -- the comprehension evaluates the gap of every gate of the parameter and keeps the last one
        let gaps ← vmap.mapM fun e => do
          let gg ← (paramIndices gs e.2).mapM fun i => match gs'[i]? with
            | some g => g.spectralGap eigh
            | none => .error .indexError
          pure (gg.getLastD 0)
        let xs ← stackValues (tempKeys.zip vals)
        let grads ← shotsScan split F (.list gs') tempKeys xs gaps key
        -- `stack_sp(grads_legit_dict[name]).sum(axis=0)` (differentiation/gpsr/shots.py:233-239)
        let grads ← keys.mapM fun p =>
          match sumVecs (((vmap.zip grads).filter fun e => e.1.2 = p).map Prod.snd) with
          | some v => .ok v
          | none => .error .valueError
        pure (fwd, contract fwd.length grads tangents)
      else do
        let _ ← spectralGapFromGates gs keys
        plain
    else plain

end Verif
