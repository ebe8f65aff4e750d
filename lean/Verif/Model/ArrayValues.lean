import Verif.Model.ArrayParams
import Verif.Model.GpsrShots

/-!
# Model of `run`, `sample`, `expectation` and the parameter-shift gradients for array-valued parameters

`Model/ArrayParams.lean` models gates and `apply_gates` for dictionaries with arrays; here is the code around them, dense case.
Factors of `Scale` are numbers (an array is reported as `unsupported`, as in `scaleParam`).
-/

set_option autoImplicit false

namespace Verif
open NDArray

/-! ## Operations -/

/-- `Primitive.tensor` for dense gates (primitives/primitive.py:107-127). -/
noncomputable def Gate.tensorA (g : Gate) (values : Values) (fullSupport : Option (List ℕ)) : Py (NDArray ℂ) := do
  let u ← g.unitaryA values
  let u ← if isControlled g.control then controlled u g.target g.control else .ok u
  match fullSupport with
  | none => pure u
  | some full => expandOperator u (← g.qubitSupport) full

namespace Op

mutual
/-- `tensor` (composite/sequence.py:35-56, composite/compose.py:49-64, 91-112), see `Op.tensor`. -/
noncomputable def tensorA (so : SetOrder) (values : Values) : Op → Option (List ℕ) → Py (NDArray ℂ)
  | .prim g, full => g.tensorA values full
  | .comp .seq ops, full => do
    pyReduce NDArray.matmul (tensorListA so values ops (← fullSupport (qubitSupport so (.comp .seq ops)) full))
  | .comp (.circ n fs) ops, full => do
    pyReduce NDArray.matmul (tensorListA so values ops (← fullSupport (qubitSupport so (.comp (.circ n fs) ops)) full))
  | .comp (.scale p) ops, full => do
    let x ← scaleParam p values
    let m ← do
      pyReduce NDArray.matmul (tensorListA so values ops (← fullSupport (qubitSupport so (.comp (.scale p) ops)) full))
    pure (smul (x : ℂ) m)
  | .comp .add ops, full => do
    pyReduce NDArray.add (tensorListA so values ops (← fullSupport (qubitSupport so (.comp .add ops)) full))
  | .comp .obs ops, full => do
    pyReduce NDArray.add (tensorListA so values ops (← fullSupport (qubitSupport so (.comp .obs ops)) full))
/-- `map(lambda op: op.tensor(values, full_support), self.operations)`. -/
noncomputable def tensorListA (so : SetOrder) (values : Values) : List Op → List ℕ → List (Py (NDArray ℂ))
  | [], _ => []
  | o :: os, full => tensorA so values o (some full) :: tensorListA so values os full
end

/-- `_ad_expectation_single_observable` on a density matrix (differentiation/ad.py:58-68). -/
noncomputable def expectDMA (so : SetOrder) (values : Values) (ops : List Op) (ρ : DensityMatrix ℂ) : Py ℝ := do
  let matObs ← tensorA so values (.comp .obs ops) none
  let d := 2 ^ numQubitsDM ρ
  let prod ← (← applyOperator ρ.array matObs (← qubitSupport so (.comp .obs ops)) none).reshape [d, d]
  pure (← prod.trace).re

mutual
/-- `op(state, values)` (primitives/primitive.py:56-61, composite/sequence.py:32-33, composite/compose.py:33-35, 88-89,
134-146), see `Op.call`. -/
noncomputable def callA (so : SetOrder) (values : Values) : Op → Option State → Py (Option State)
  | .prim g, st => do
    let st ← match st with
      | some s => .ok s
      | none => do
        let z ← zeroState (← g.qubitSupport).length
        pure (State.vec z)
    some <$> applyGatesA so st (.single g) values
  | .comp .seq ops, st => callSeqA so values ops st
  | .comp (.circ _ _) ops, st => callSeqA so values ops st
  | .comp (.scale p) ops, st => do
    let x ← scaleParam p values
    scaleState x (← callSeqA so values ops st)
  | .comp .add ops, st => pyReduce addStates (callListA so values ops st)
  | .comp .obs ops, st =>
    match st with
    | none => .error .notImplemented
    | some (.vec a) => do
      let x ← innerReal a (← pyReduce addStates (callListA so values ops (some (.vec a))))
      pure (some (.vec ⟨[], [(x : ℂ)]⟩))
    | some (.dm ρ) => do
      let x ← expectDMA so values ops ρ
      pure (some (.vec ⟨[], [(x : ℂ)]⟩))
/-- `reduce(lambda state, gate: gate.__call__(state, values), operations, state)` (composite/sequence.py:33). -/
noncomputable def callSeqA (so : SetOrder) (values : Values) : List Op → Option State → Py (Option State)
  | [], st => .ok st
  | o :: os, st => do callSeqA so values os (← callA so values o st)
/-- `map(lambda op: op(state, values), self.operations)` (composite/compose.py:89). -/
noncomputable def callListA (so : SetOrder) (values : Values) : List Op → Option State → List (Py (Option State))
  | [], _ => []
  | o :: os, st => callA so values o st :: callListA so values os st
end

end Op

/-! ## `api.py` -/

/-- `run` (api.py:25-30). -/
noncomputable def runA (so : SetOrder) (circuit : Op) (state : State) (values : Values) : Py (Option State) :=
  circuit.callA so values (some state)

/-- `sample` (api.py:33-62), see `sample`. -/
noncomputable def sampleA (so : SetOrder) (draw : Draw) (state : State) (circuit : Op) (values : Values)
    (nShots : ℤ := 1000) : Py SampleResult :=
  if nShots < 1 then .error .valueError
  else do
    match ← circuit.callA so values (some state) with
    | none => .error .notImplemented
    | some out =>
      let n := numQubits out
      let out ← match out with
        | .vec a => .ok (State.vec a)
        | .dm ρ => do
          let r ← ρ.array.reshape [2 ^ n, 2 ^ n]
          pure (State.dm ⟨r⟩)
      let counts ← sampleFromProbs (← probabilities out) n (List.ofFn (draw nShots.toNat))
      pure ⟨counts, if circuit.returnsInput then out else state⟩

/-- `Observable.forward` (composite/compose.py:131-132). -/
noncomputable def Observable.forwardA (so : SetOrder) (values : Values) (o : Observable) (st : Option State) :
    Py (Option State) := pyReduce Op.addStates (Op.callListA so values o.ops st)

/-- `_ad_expectation_single_observable` (differentiation/ad.py:23-68). -/
noncomputable def expectSingleA (so : SetOrder) (values : Values) (o : Observable) : State → Py ℝ
  | .vec a => do Op.innerReal a (← o.forwardA so values (some (.vec a)))
  | .dm ρ => Op.expectDMA so values o.ops ρ

/-- `apply_gates(state, ops, values)` for a list of operations. -/
noncomputable def applyOpsA (so : SetOrder) (state : State) (ops : List Op) (values : Values) : Py State := do
  applyGatesA so state (.list (← opsToGates ops)) values

/-- `ad_expectation` (differentiation/ad.py:71-105). -/
noncomputable def adExpectationA (so : SetOrder) (state : State) (circuit : Op) (observables : List Observable)
    (values : Values) : Py (List ℝ) := do
  let (vc, vo) ← valuesProcessing values
  let outs ← observables.mapM fun o => do
    let st ← applyOpsA so state circuit.iter vc
    expectSingleA so vo o st
  stackReal outs

/-- `ad_expectation` of the adjoint module (differentiation/adjoint.py:13-22). -/
noncomputable def adjointSingleA (so : SetOrder) (state : State) (circuit : Op) (values : Values) (o : Observable) :
    Py ℝ := do
  let out ← applyOpsA so state circuit.iter values
  let projected ← o.forwardA so values (some out)
  match out with
  | .vec a => Op.innerReal a projected
  | .dm _ => .error .attributeError

/-- `api.adjoint_expectation` (api.py:65-89). -/
noncomputable def adjointExpectationA (so : SetOrder) (state : State) (circuit : Op) (observables : List Observable)
    (values : Values) : Py (List ℝ) := do
  stackReal (← observables.mapM (adjointSingleA so state circuit values))

/-- `analytical_expectation` (differentiation/gpsr/analytical.py:26-54). -/
noncomputable def analyticalExpectationA (so : SetOrder) (state : State) (ops : List Op) (observables : List Observable)
    (values : Values) : Py (List ℝ) := do
  let outs ← observables.mapM fun o => do
    let st ← applyOpsA so state ops values
    expectSingleA so values o st
  stackReal outs

/-- The matrix of an observable on the whole register (shots.py:92-99). -/
noncomputable def observableMatrixA (so : SetOrder) (values : Values) (n : ℕ) (o : Observable) : Py (NDArray ℂ) := do
  let t ← o.toOp.tensorA so values none
  let e ← expandOperator t (← o.toOp.qubitSupport so) (List.range n)
  e.reshape [2 ^ n, 2 ^ n]

/-- `eigen_sample` (shots.py:68-103), see `eigenSample`. -/
noncomputable def eigenSampleA (so : SetOrder) (eigh : Eigh) (state : State) (observables : List Observable)
    (values : Values) (n : ℕ) (us : List ℝ) : Py (List ℝ) := do
  let mats ← observables.mapM (observableMatrixA so values n)
  match mats with
  | [] => .error .valueError
  | m :: _ =>
    let V := eigh.vecs (toMat (2 ^ n) m)
    let probs ← eigenProbabilities (2 ^ n) V state
    if us = [] then .error .unsupported
    else
      let idx := us.map (choiceIndex probs)
      pure (mats.map fun m' =>
        let A := toMat (2 ^ n) m'
        let w := alignedEigenvalues (eigh.vals A) (eigh.vecs A) V
        (idx.map fun i => if h : i < 2 ^ n then w ⟨i, h⟩ else 0).sum / us.length)

/-- `finite_shots` (shots.py:157-184). -/
noncomputable def finiteShotsA (so : SetOrder) (eigh : Eigh) (state : State) (ops : List Op)
    (observables : List Observable) (values : Values) (us : List ℝ) : Py (List ℝ) := do
  let out ← applyOpsA so state ops values
  eigenSampleA so eigh out observables values (numQubits out) us

/-- `expectation` (api.py:92-162). -/
noncomputable def expectationA (so : SetOrder) (eigh : Eigh) (draw : Draw) (state : State) (circuit : Op)
    (observables : List Observable) (values : Values) (mode : DiffMode := .ad) (nShots : ℤ := 0) : Py (List ℝ) :=
  match mode with
  | .ad =>
    if nShots < 0 then .error .valueError
    else if nShots = 0 then adExpectationA so state circuit observables values
    else finiteShotsA so eigh state circuit.iter observables values (List.ofFn (draw nShots.toNat))
  | .adjoint =>
    match state with
    | .dm _ => .error .typeError
    | .vec _ => adjointExpectationA so state circuit observables values
  | .gpsr =>
    if nShots < 0 then .error .valueError
    else if nShots = 0 then analyticalExpectationA so state circuit.iter observables values
    else finiteShotsA so eigh state circuit.iter observables values (List.ofFn (draw nShots.toNat))
  | .other => .error .valueError

/-! ## Parameter-shift gradients -/

/-- `analytical_expectation` (differentiation/gpsr/analytical.py:26-54) for one gate or a list of gates. -/
noncomputable def gatesExpectationA (so : SetOrder) (state : State) (observables : List Observable) (gates : GateArg)
    (values : Values) : Py (List ℝ) := do
  let outs ← observables.mapM fun o => do
    let st ← applyGatesA so state gates values
    expectSingleA so values o st
  stackReal outs

/-- `jitted_analytical_exp` (differentiation/gpsr/analytical.py:57). -/
noncomputable def jittedExpectationA (so : SetOrder) (state : State) (observables : List Observable) (gates : GateArg)
    (values : Values) : Py (List ℝ) := do
  let gates ← jitArg gates
  let observables ← observables.mapM fun o => do pure ({ o with ops := ← jitOps o.ops } : Observable)
  gatesExpectationA so state observables gates values

/-- `finite_shots` (shots.py:157-184) for one gate or a list of gates, see `finiteShotsGates`. -/
noncomputable def finiteShotsGatesA (so : SetOrder) (eigh : Eigh) (state : State) (observables : List Observable)
    (us : List ℝ) (gates : GateArg) (values : Values) : Py (List ℝ) := do
  let out ← applyGatesA so state gates values
  eigenSampleA so eigh out observables values (numQubits out) us

/-- `jitted_finite_shots` (differentiation/gpsr/shots.py:24). -/
noncomputable def jittedFiniteShotsA (so : SetOrder) (eigh : Eigh) (state : State) (observables : List Observable)
    (us : List ℝ) (gates : GateArg) (values : Values) : Py (List ℝ) := do
  let gates ← jitArg gates
  let observables ← observables.mapM fun o => do pure ({ o with ops := ← jitOps o.ops } : Observable)
  finiteShotsGatesA so eigh state observables us gates values

/-- A dictionary value as an array. -/
noncomputable def PyVal.toArr : PyVal → Py (NDArray ℂ)
  | .num x => .ok (arr0 (x : ℂ))
  | .arr a => .ok a
  | .dict _ => .error .typeError

/-- `stack_sp(list(values.values()))` (analytical.py:214, gpsr/shots.py:204): stacking nothing, or arrays of different shapes,
raises ValueError. -/
noncomputable def stackArrays (values : Values) : Py (NDArray ℂ) := do
  let arrs ← values.mapM fun e => e.2.toArr
  match arrs with
  | [] => .error .valueError
  | a :: _ =>
    if arrs.all fun b => b.shape = a.shape then .ok ⟨arrs.length :: a.shape, arrs.flatMap fun b => b.data⟩
    else .error .valueError

/-- `if values_array.shape[-1] == 1: values_array = values_array.squeeze(-1)` (analytical.py:215-216,
gpsr/shots.py:205-206). -/
def squeezeLast (a : NDArray ℂ) : NDArray ℂ := if a.shape.getLastD 0 = 1 then ⟨a.shape.dropLast, a.data⟩ else a

/-- Row `i` of `δ * jnp.eye(num)`. -/
noncomputable def shiftVector (num i : ℕ) (δ : ℝ) : NDArray ℂ :=
  ⟨[num], (List.range num).map fun j => if j = i then (δ : ℂ) else 0⟩

/-- Iterating over an array: the subarrays along its first axis. -/
def arrayRows (a : NDArray ℂ) : List (NDArray ℂ) :=
  match a.shape with
  | [] => []
  | p :: s => (List.range p).map fun j => ⟨s, (a.data.drop (j * s.prod)).take s.prod⟩

/-- `values_to_dict(values_array ± shift_vector)` (analytical.py:219-228), with numpy broadcasting. -/
noncomputable def shiftRows (keys : List String) (a : NDArray ℂ) (i : ℕ) (δ : ℝ) : Py Values := do
  let r ← bcast2 (· + ·) a (shiftVector keys.length i δ)
  pure ((keys.zip (arrayRows r)).map fun e => (e.1, .arr e.2))

/-- `jvp_caller` (analytical.py:222-230) for row `i`. -/
noncomputable def jvpRowA (F : GateArg → Values → Py (List ℝ)) (gates : GateArg) (keys : List String) (a : NDArray ℂ)
    (gap : ℝ) (i : ℕ) : Py (List ℝ) := do
  let up ← F gates (← shiftRows keys a i gpsrShift)
  let down ← F gates (← shiftRows keys a i (-gpsrShift))
  gpsrRule gap gpsrShift up down

/-- The scan over all parameters (analytical.py:232-239). -/
noncomputable def jvpScanA (F : GateArg → Values → Py (List ℝ)) (gates : GateArg) (keys : List String) (a : NDArray ℂ)
    (gaps : List ℝ) : Py (List (List ℝ)) :=
  (List.range keys.length).mapM fun i => jvpRowA F gates keys a (gaps.getD i 0) i

/-- `jvp_caller` (differentiation/gpsr/shots.py:211-221) for row `i`. -/
noncomputable def shotsRowA {κ : Type} (split : κ → ℕ → ℕ → κ) (F : κ → GateArg → Values → Py (List ℝ)) (gates : GateArg)
    (keys : List String) (a : NDArray ℂ) (gap : ℝ) (i : ℕ) (key : κ) : Py (List ℝ) := do
  let up ← F (split key 2 0) gates (← shiftRows keys a i gpsrShift)
  let down ← F (split key 2 1) gates (← shiftRows keys a i (-gpsrShift))
  gpsrRule gap gpsrShift up down

/-- The scan over all parameters (differentiation/gpsr/shots.py:223-232). -/
noncomputable def shotsScanA {κ : Type} (split : κ → ℕ → ℕ → κ) (F : κ → GateArg → Values → Py (List ℝ)) (gates : GateArg)
    (keys : List String) (a : NDArray ℂ) (gaps : List ℝ) (key : κ) : Py (List (List ℝ)) :=
  ((List.range keys.length).zip (splitKeys split key keys.length)).mapM fun e =>
    shotsRowA split F gates keys a (gaps.getD e.1 0) e.1 e.2

/-- Does the value have size one? -/
def PyVal.size1 : PyVal → Bool
  | .num _ => true
  | .arr a => a.size = 1
  | .dict _ => true

/-- `analytical_gpsr_jvp` (analytical.py:161-248) with `F = analytical_gpsr_fwd`, see `gpsrJvp`.  Values that are arrays of a
size other than one are not modelled: the tangents have one entry per parameter. -/
noncomputable def gpsrJvpA (eigh : Eigh) (fresh : ℕ → String) (F : GateArg → Values → Py (List ℝ)) (gates : GateArg)
    (values : Values) (tangents : List ℝ) : Py (List ℝ × List ℝ) := do
  let fwd ← F gates values
  if values.any fun e => !e.2.size1 then .error .unsupported
  let keys := values.keys
  let plain : Py (List ℝ × List ℝ) := do
    let a ← stackArrays values
    let grads ← jvpScanA F gates keys (squeezeLast a) (keys.map fun _ => initialGap)
    pure (fwd, contract fwd.length grads tangents)
  match gates with
  | .single _ => plain
  | .list gs =>
    if (extractGateNames gs).length > keys.length then do
      if ← hasRepeated gs keys then do
        let gs' := createRenamed fresh gs keys
        let vmap := keys.flatMap fun p => (paramIndices gs p).map fun i => (i, p)
        let tempKeys := vmap.map fun e => fresh e.1
        let vals ← vmap.mapM fun e => values.get e.2
        let gaps ← vmap.mapM fun e => do
          let gg ← (paramIndices gs e.2).mapM fun i => match gs'[i]? with
            | some g => g.spectralGap eigh
            | none => .error .indexError
          pure (gg.getLastD 0)
        let a ← stackArrays (tempKeys.zip vals)
        let grads ← jvpScanA F (.list gs') tempKeys (squeezeLast a) gaps
        let grads ← keys.mapM fun p =>
          match sumVecs (((vmap.zip grads).filter fun e => e.1.2 = p).map Prod.snd) with
          | some v => .ok v
          | none => .error .valueError
        pure (fwd, contract fwd.length grads tangents)
      else do
        let _ ← spectralGapFromGates gs keys
        plain
    else plain

/-- `finite_shots_jvp` (differentiation/gpsr/shots.py:145-241) with `F = finite_shots_fwd`, see `shotsJvp` and `gpsrJvpA`. -/
noncomputable def shotsJvpA {κ : Type} (eigh : Eigh) (fresh : ℕ → String) (split : κ → ℕ → ℕ → κ)
    (F : κ → GateArg → Values → Py (List ℝ)) (gates : GateArg) (values : Values) (tangents : List ℝ) (key : κ) :
    Py (List ℝ × List ℝ) := do
  let fwd ← F key gates values
  if values.any fun e => !e.2.size1 then .error .unsupported
  let keys := values.keys
  let plain : Py (List ℝ × List ℝ) := do
    let a ← stackArrays values
    let grads ← shotsScanA split F gates keys (squeezeLast a) (keys.map fun _ => initialGap) key
    pure (fwd, contract fwd.length grads tangents)
  match gates with
  | .single _ => plain
  | .list gs =>
    if (extractGateNames gs).length > keys.length then do
      if ← hasRepeated gs keys then do
        let gs' := createRenamed fresh gs keys
        let vmap := keys.flatMap fun p => (paramIndices gs p).map fun i => (i, p)
        let tempKeys := vmap.map fun e => fresh e.1
        let vals ← vmap.mapM fun e => values.get e.2
        let gaps ← vmap.mapM fun e => do
          let gg ← (paramIndices gs e.2).mapM fun i => match gs'[i]? with
            | some g => g.spectralGap eigh
            | none => .error .indexError
          pure (gg.getLastD 0)
        let a ← stackArrays (tempKeys.zip vals)
        let grads ← shotsScanA split F (.list gs') tempKeys (squeezeLast a) gaps key
        let grads ← keys.mapM fun p =>
          match sumVecs (((vmap.zip grads).filter fun e => e.1.2 = p).map Prod.snd) with
          | some v => .ok v
          | none => .error .valueError
        pure (fwd, contract fwd.length grads tangents)
      else do
        let _ ← spectralGapFromGates gs keys
        plain
    else plain

end Verif
