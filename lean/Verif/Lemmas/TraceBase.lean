import Verif.Lemmas.Trace

/-!
# The traced program on plain numbers is the model of `run` and `expectation`
-/

set_option autoImplicit false

namespace Verif
open NDArray

theorem mapArr_id' (a : NDArray ℂ) : a.mapArr (RingHom.id ℂ) = a := by
  simp [mapArr]

theorem State.const_base (st : State) : st.const Tracer.base = st.toT := by
  cases st with
  | vec a => exact congrArg TState.vec (mapArr_id' a)
  | dm ρ => exact congrArg (fun a => TState.dm ⟨a⟩) (mapArr_id' ρ.array)

namespace TraceBase

theorem lookup_eq (d : TDict ℝ ℂ) (k : String) : d.toValues.lookup k = (d.lookup k).map TVal.toPy := by
  induction d with
  | nil => rfl
  | cons e d ih =>
    change List.lookup k ((e.1, e.2.toPy) :: TDict.toValues d) = _
    rw [List.lookup_cons, List.lookup_cons, ih]
    split <;> rfl

theorem get_eq (d : TDict ℝ ℂ) (k : String) : d.toValues.get k = (d.get k).map TVal.toPy := by
  simp only [Values.get, TDict.get, lookup_eq]
  cases d.lookup k <;> rfl

theorem parse_eq (p : Param) (s : ℝ) (d : TDict ℝ ℂ) : parseValues p s d.toValues = parseT Tracer.base p s d := by
  cases p with
  | num x => rfl
  | str k =>
    simp only [parseT, parseValues, get_eq]
    rcases d.get k with e | v
    · rfl
    · cases v <;> rfl

theorem rot_eq (gen : NDArray ℂ) (θ : ℝ) : rotUnitary gen θ = rotUnitaryT Tracer.base gen θ := by
  have h : θ / 2 = θ * (1 / 2) := by ring
  have h2 : gen.mapArr (RingHom.id ℂ) = gen := mapArr_id' gen
  change _ = (smul ((Real.cos (θ * (1 / 2)) : ℝ) : ℂ) (eye 2 : NDArray ℂ)).add
    (smul (-(Complex.I * ((Real.sin (θ * (1 / 2)) : ℝ) : ℂ))) (gen.mapArr (RingHom.id ℂ)))
  rw [h2, ← h]; rfl

theorem unitary_eq (g : Gate) (d : TDict ℝ ℂ) : g.unitary d.toValues = g.unitaryT Tracer.base d := by
  simp only [Gate.unitary, Gate.unitaryT]
  split_ifs
  · rfl
  rcases g.cls with _ | ⟨p, s⟩ | ⟨p, s⟩ | s
  · simp only
    rcases g.generator with e | a
    · rfl
    · exact congrArg Except.ok (mapArr_id' a).symm
  · simp only [parse_eq, rot_eq]
  · simp only [parse_eq]; rfl
  · have := parse_eq (.str "time_evolution") s d
    simp only [parseValues] at this
    simp only [← this, get_eq]
    rcases d.get "time_evolution" with e | v
    · rfl
    · cases v with
      | arr a => rfl
      | num x =>
        rcases d.get "hamiltonian" with e | v
        · rfl
        · cases v <;> rfl

theorem noise_eq (n : Option (List NoiseInstance)) : noiseKraus n = noiseKrausT Tracer.base n := by
  cases n with
  | none => rfl
  | some l =>
    simp only [noiseKraus, noiseKrausT, Option.map_some]
    congr 1
    refine List.map_congr_left fun i _ => ?_
    rcases i.kraus with e | ks
    · rfl
    · refine congrArg Except.ok ?_
      have : (mapArr (RingHom.id ℂ) : NDArray ℂ → NDArray ℂ) = id := funext mapArr_id'
      change ks = ks.map (mapArr (RingHom.id ℂ))
      rw [this, List.map_id]

theorem gates_eq (so : SetOrder) (st : State) (ga : GateArg) (d : TDict ℝ ℂ) :
    applyGatesT Tracer.base so st.toT ga d = (applyGates so st ga d.toValues).map State.toT := by
  have hp : prepareSequenceReduce (fun g => g.operator .unitary d.toValues) NDArray.matmul ga false true
      = prepareSequenceReduce (fun g => g.unitaryT Tracer.base d) NDArray.matmul ga false true := by
    congr 1
    funext g
    exact unitary_eq g d
  have hr : ∀ ops noise ρ, reduceApplyNoise so ops noise ρ = reduceApplyNoiseT Tracer.base so ops noise ρ := by
    intro ops noise ρ
    simp only [reduceApplyNoise, reduceApplyNoiseT, noise_eq]
  simp only [applyGates, applyGatesT, hp, hr]
  rcases prepareSequenceReduce (fun g => g.unitaryT Tracer.base d) NDArray.matmul ga false true with e | ⟨ops, noise⟩
  · rfl
  · cases st with
    | vec a =>
      simp only [State.toT]
      change (if (!allNoiseless noise) = true then
          reduceApplyNoiseT Tracer.base so ops noise (densityMat (K := ℂ) a) >>= fun r => .ok (.dm r)
        else reduceApply (K := ℂ) ops a >>= fun r => .ok (.vec r)) =
        Except.map State.toT (if (!allNoiseless noise) = true then
          reduceApplyNoiseT Tracer.base so ops noise (densityMat (K := ℂ) a) >>= fun r => .ok (.dm r)
        else reduceApply (K := ℂ) ops a >>= fun r => .ok (.vec r))
      split_ifs
      · exact bind_nat (Tracer.Hom.support_id _) fun r => rfl
      · exact bind_nat (Tracer.Hom.support_id _) fun r => rfl
    | dm ρ =>
      change (reduceApplyNoiseT Tracer.base so ops noise ρ >>= fun r => .ok (.dm r)) =
        Except.map State.toT (reduceApplyNoiseT Tracer.base so ops noise ρ >>= fun r => .ok (.dm r))
      exact bind_nat (Tracer.Hom.support_id _) fun r => rfl

theorem scaleParam_eq (p : Param) (d : TDict ℝ ℂ) : scaleParam p d.toValues = scaleParamT Tracer.base p d := by
  cases p with
  | num x => rfl
  | str k =>
    simp only [scaleParamT, scaleParam, get_eq]
    rcases d.get k with e | v
    · rfl
    · cases v <;> rfl

theorem tensorGate_eq (g : Gate) (d : TDict ℝ ℂ) (full : Option (List ℕ)) :
    g.tensorT Tracer.base d full = g.tensor d.toValues full := by
  simp only [Gate.tensorT, Gate.tensor, unitary_eq]
  rfl

mutual
theorem tensor_eq (so : SetOrder) (d : TDict ℝ ℂ) : ∀ (o : Op) (full : Option (List ℕ)),
    Op.tensorT Tracer.base so d o full = Op.tensor so d.toValues o full
  | .prim g, full => by
    simp only [Op.tensorT, Op.tensor]
    exact tensorGate_eq g d full
  | .comp k ops, full => by
    have ih := tensorList_eq so d ops
    cases k with
    | scale p => simp only [Op.tensorT, Op.tensor, ih, scaleParam_eq]; rfl
    | _ => simp only [Op.tensorT, Op.tensor, ih]
theorem tensorList_eq (so : SetOrder) (d : TDict ℝ ℂ) : ∀ (os : List Op) (full : List ℕ),
    Op.tensorListT Tracer.base so d os full = Op.tensorList so d.toValues os full
  | [], full => by simp only [Op.tensorListT, Op.tensorList]
  | o :: os, full => by
    simp only [Op.tensorListT, Op.tensorList]
    rw [tensor_eq so d o (some full), tensorList_eq so d os full]
end

theorem expectDM_eq (so : SetOrder) (d : TDict ℝ ℂ) (ops : List Op) (ρ : DensityMatrix ℂ) :
    Op.expectDMT Tracer.base so d ops ρ = Op.expectDM so d.toValues ops ρ := by
  simp only [Op.expectDMT, Op.expectDM, tensor_eq]
  rfl

theorem innerReal_eq (a : NDArray ℂ) (st : Option State) :
    Op.innerRealT Tracer.base a (st.map State.toT) = Op.innerReal a st := by
  rcases st with _ | ⟨b⟩ | ρ <;> rfl

theorem addStates_eq (s t : Option State) :
    Op.addStatesT (T := Tracer.base) (s.map State.toT) (t.map State.toT)
      = (Op.addStates s t).map (Option.map State.toT) := by
  rcases s with _ | ⟨a⟩ | ρ <;> rcases t with _ | ⟨b⟩ | ρ <;> try rfl
  exact bind_nat (Tracer.Hom.support_id _) fun r => rfl

theorem scaleState_eq (x : ℝ) (s : Option State) :
    Op.scaleStateT Tracer.base x (s.map State.toT) = (Op.scaleState x s).map (Option.map State.toT) := by
  rcases s with _ | ⟨a⟩ | ρ <;> rfl

mutual
theorem call_eq (so : SetOrder) (d : TDict ℝ ℂ) : ∀ (o : Op) (st : Option State),
    Op.callT Tracer.base so d o (st.map State.toT) = (Op.call so d.toValues o st).map (Option.map State.toT)
  | .prim g, st => by
    have hs : ∀ s : State,
        (some <$> applyGatesT Tracer.base so s.toT (.single g) d : Py (Option (TState ℂ)))
          = (some <$> applyGates so s (.single g) d.toValues : Py (Option State)).map (Option.map State.toT) := by
      intro s
      rw [gates_eq]
      cases applyGates so s (.single g) d.toValues <;> rfl
    simp only [Op.callT, Op.call]
    rcases st with _ | s
    · simp only [Option.map_none]
      refine bind_nat (Tracer.Hom.support_id _) fun S => bind_nat (Tracer.Hom.support_id _) fun z => ?_
      have := hs (.vec z)
      have e : (TState.vec (z.mapArr Tracer.base.const) : TState ℂ) = State.toT (.vec z) := congrArg TState.vec (mapArr_id' z)
      rw [← e] at this
      exact this
    · exact hs s
  | .comp .seq ops, st => by simp only [Op.callT, Op.call]; exact callSeq_eq so d ops st
  | .comp (.circ _ _) ops, st => by simp only [Op.callT, Op.call]; exact callSeq_eq so d ops st
  | .comp (.scale p) ops, st => by
    simp only [Op.callT, Op.call, scaleParam_eq]
    exact bind_nat (Tracer.Hom.support_id _) fun x => bind_nat (callSeq_eq so d ops st) fun s => scaleState_eq x s
  | .comp .add ops, st => by
    simp only [Op.callT, Op.call]
    rw [callList_eq so d ops st]
    exact pyReduce_nat addStates_eq _
  | .comp .obs ops, st => by
    rcases st with _ | ⟨a⟩ | ρ
    · simp only [Op.callT, Op.call, Option.map_none]; rfl
    · have := callList_eq so d ops (some (.vec a))
      simp only [Op.callT, Op.call, Option.map_some, State.toT]
      simp only [Option.map_some, State.toT] at this
      rw [this]
      refine bind_nat (pyReduce_nat addStates_eq _) fun s => ?_
      rw [innerReal_eq]
      exact bind_nat (Tracer.Hom.support_id _) fun x => rfl
    · simp only [Op.callT, Op.call, Option.map_some, State.toT]
      rw [expectDM_eq]
      exact bind_nat (Tracer.Hom.support_id _) fun x => rfl
theorem callSeq_eq (so : SetOrder) (d : TDict ℝ ℂ) : ∀ (os : List Op) (st : Option State),
    Op.callSeqT Tracer.base so d os (st.map State.toT) = (Op.callSeq so d.toValues os st).map (Option.map State.toT)
  | [], st => by simp only [Op.callSeqT, Op.callSeq]; rfl
  | o :: os, st => by
    simp only [Op.callSeqT, Op.callSeq]
    exact bind_nat (call_eq so d o st) fun s => callSeq_eq so d os s
theorem callList_eq (so : SetOrder) (d : TDict ℝ ℂ) : ∀ (os : List Op) (st : Option State),
    Op.callListT Tracer.base so d os (st.map State.toT)
      = (Op.callList so d.toValues os st).map fun x => x.map (Option.map State.toT)
  | [], st => by simp only [Op.callListT, Op.callList, List.map_nil]
  | o :: os, st => by
    simp only [Op.callListT, Op.callList, List.map_cons]
    rw [call_eq so d o st, callList_eq so d os st]
end

theorem single_eq (so : SetOrder) (d : TDict ℝ ℂ) (o : Observable) (st : State) :
    expectSingleT Tracer.base so d o st.toT = expectSingle so d.toValues o st := by
  cases st with
  | vec a =>
    have := callList_eq so d o.ops (some (.vec a))
    simp only [Option.map_some, State.toT] at this
    simp only [expectSingleT, expectSingle, Observable.forward, State.toT, this, pyReduce_nat addStates_eq]
    cases pyReduce Op.addStates (Op.callList so d.toValues o.ops (some (.vec a))) with
    | error e => rfl
    | ok s => exact innerReal_eq a s
  | dm ρ => exact expectDM_eq so d o.ops ρ

theorem run_eq (so : SetOrder) (circuit : Op) (st : State) (d : TDict ℝ ℂ) :
    runT Tracer.base so circuit st.toT d = (run so circuit st d.toValues).map (Option.map State.toT) :=
  call_eq so d circuit (some st)

theorem expectation_eq (so : SetOrder) (st : State) (circuit : Op) (obs : List Observable) (dc do' : TDict ℝ ℂ) {values : Values}
    (hv : valuesProcessing values = .ok (dc.toValues, do'.toValues)) :
    adExpectationT Tracer.base so st.toT circuit obs dc do' = adExpectation so st circuit obs values := by
  have h : ∀ o : Observable, (do
        let st ← applyGatesT Tracer.base so st.toT (.list (← opsToGates circuit.iter)) dc
        expectSingleT Tracer.base so do' o st : Py ℝ)
      = (do
        let st ← applyOps so st circuit.iter dc.toValues
        expectSingle so do'.toValues o st : Py ℝ) := by
    intro o
    simp only [applyOps]
    rcases opsToGates circuit.iter with e | gs
    · rfl
    · simp only [bind, Except.bind, gates_eq]
      cases applyGates so st (.list gs) dc.toValues with
      | error e => rfl
      | ok s => exact single_eq so do' o s
  simp only [adExpectationT, adExpectation, hv, h]
  change (_ >>= fun outs => _) = (_ >>= fun outs => _)
  congr 1
  funext outs
  cases outs <;> rfl

theorem api_eq (so : SetOrder) (st : State) (circuit : Op) (obs : List Observable) (a : TArgs ℝ ℂ) :
    expectationT Tracer.base so st.toT circuit obs a = adExpectation so st circuit obs a.toValues := by
  simp only [expectationT]
  cases a with
  | split dc do' => exact expectation_eq so st circuit obs dc do' rfl
  | flat d =>
    simp only [TArgs.toValues, TArgs.process]
    rcases hc : d.lookup "circuit" with _ | c
    · refine expectation_eq so st circuit obs d d ?_
      simp only [valuesProcessing, lookup_eq, hc, Option.map_none]
    · rcases ho : d.lookup "observables" with _ | o
      · refine expectation_eq so st circuit obs d d ?_
        simp only [valuesProcessing, lookup_eq, hc, ho, Option.map_none]
        cases c <;> rfl
      · simp only [adExpectation, valuesProcessing, lookup_eq, hc, ho, Option.map_some]
        cases c <;> cases o <;> rfl

end TraceBase
end Verif
