import Verif.Model.Shots

/-!
# Model of `/repo/horqrux/api.py`, `/repo/horqrux/differentiation/ad.py`, the forward passes of
`/repo/horqrux/differentiation/adjoint.py` and `/repo/horqrux/differentiation/gpsr/`, and
`/repo/horqrux/utils/values_utils.py`
-/

namespace Verif
open NDArray

/-- `_values_processing` (utils/values_utils.py:4-13).  Simplification: the two entries must be dictionaries. -/
def valuesProcessing (values : Values) : Py (Values × Values) :=
  match values.lookup "circuit", values.lookup "observables" with
  | some (.dict c), some (.dict o) => .ok (c, o)
  | some _, some _ => .error .unsupported
  | _, _ => .ok (values, values)

/-- `_ad_expectation_single_observable` (differentiation/ad.py:23-68). -/
noncomputable def expectSingle (so : SetOrder) (values : Values) (o : Observable) : State → Py ℝ
  | .vec a => do Op.innerReal a (← o.forward so values (some (.vec a)))
  | .dm ρ => Op.expectDM so values o.ops ρ

/-- `stack_sp(outputs)` for a list of numbers: stacking an empty list raises ValueError. -/
def stackReal (outs : List ℝ) : Py (List ℝ) := if outs = [] then .error .valueError else .ok outs

/-- `ad_expectation` (differentiation/ad.py:71-105). -/
noncomputable def adExpectation (so : SetOrder) (state : State) (circuit : Op) (observables : List Observable)
    (values : Values) : Py (List ℝ) := do
  let (vc, vo) ← valuesProcessing values
  let outs ← observables.mapM fun o => do
    let st ← applyOps so state circuit.iter vc
    expectSingle so vo o st
  stackReal outs

/-- `ad_expectation` of the adjoint module (differentiation/adjoint.py:13-22), which
`adjoint_expectation` calls (differentiation/adjoint.py:32-38). -/
noncomputable def adjointSingle (so : SetOrder) (state : State) (circuit : Op) (values : Values) (o : Observable) :
    Py ℝ := do
  let out ← applyOps so state circuit.iter values
  let projected ← o.forward so values (some out)
  match out with
  | .vec a => Op.innerReal a projected
  | .dm _ => .error .attributeError

/-- `api.adjoint_expectation` (api.py:65-89). -/
noncomputable def adjointExpectation (so : SetOrder) (state : State) (circuit : Op) (observables : List Observable)
    (values : Values) : Py (List ℝ) := do
  stackReal (← observables.mapM (adjointSingle so state circuit values))

/-- `analytical_expectation` (differentiation/gpsr/analytical.py:26-54); also the value of `analytical_gpsr_fwd`
(differentiation/gpsr/analytical.py:133-158). -/
noncomputable def analyticalExpectation (so : SetOrder) (state : State) (ops : List Op) (observables : List Observable)
    (values : Values) : Py (List ℝ) := do
  let outs ← observables.mapM fun o => do
    let st ← applyOps so state ops values
    expectSingle so values o st
  stackReal outs

/-- `DiffMode` (operator_utils.py:113-123), and any other value. -/
inductive DiffMode
  | ad | adjoint | gpsr | other
deriving DecidableEq

/-- The random numbers behind a PRNG key: the uniform numbers drawn for a given number of shots. -/
abbrev Draw := (shots : ℕ) → Fin shots → ℝ

/-- `expectation` (api.py:92-162). -/
noncomputable def expectation (so : SetOrder) (eigh : Eigh) (draw : Draw) (state : State) (circuit : Op)
    (observables : List Observable) (values : Values) (mode : DiffMode := .ad) (nShots : ℤ := 0) : Py (List ℝ) :=
  match mode with
  | .ad =>
    if nShots < 0 then .error .valueError
    else if nShots = 0 then adExpectation so state circuit observables values
    else finiteShots so eigh state circuit.iter observables values (List.ofFn (draw nShots.toNat))
  | .adjoint =>
    match state with
    | .dm _ => .error .typeError
    | .vec _ => adjointExpectation so state circuit observables values
  | .gpsr =>
    if nShots < 0 then .error .valueError
    else if nShots = 0 then analyticalExpectation so state circuit.iter observables values
    else finiteShots so eigh state circuit.iter observables values (List.ofFn (draw nShots.toNat))
  | .other => .error .valueError

/-- `run` (api.py:25-30). -/
noncomputable def run (so : SetOrder) (circuit : Op) (state : State) (values : Values) : Py (Option State) :=
  circuit.call so values (some state)

namespace Op
mutual
/-- Does `op(state)` return the very object `state`?  A call on a gate always builds a new object; a sequence returns
its argument when all its operations do; `reduce(add, …)` over one item returns that item. -/
def returnsInput : Op → Bool
  | .prim _ => false
  | .comp .seq ops => allReturnInput ops
  | .comp (.circ _ _) ops => allReturnInput ops
  | .comp (.scale _) _ => false
  | .comp .add [o] => returnsInput o
  | .comp .add _ => false
  | .comp .obs _ => false
/-- All operations return their argument. -/
def allReturnInput : List Op → Bool
  | [] => true
  | o :: os => returnsInput o && allReturnInput os
end
end Op

/-- What a call of `sample` does: the counter it returns, and the caller's state object afterwards. -/
structure SampleResult where
  counts : List (String × ℕ)
  stateAfter : State

/-- `sample` (api.py:33-62).  `output_circuit.array = …` (api.py:59) assigns to the output object, which is the
caller's object when the circuit returns its input. -/
noncomputable def sample (so : SetOrder) (draw : Draw) (state : State) (circuit : Op) (values : Values)
    (nShots : ℤ := 1000) : Py SampleResult :=
  if nShots < 1 then .error .valueError
  else do
    match ← circuit.call so values (some state) with
    | none => .error .notImplemented
    | some out =>
      let n := numQubits out
      let out ← match out with
        | .vec a => .ok (State.vec a)
        | .dm ρ => do
          let r ← ρ.array.reshape [2 ^ n, 2 ^ n]
          pure (State.dm ⟨r⟩)
      let counts ← sampleFromProbs (← probabilities out) n (List.ofFn (draw nShots.toNat))
      pure ⟨counts, if circuit.returnsInput then out else state⟩

end Verif
