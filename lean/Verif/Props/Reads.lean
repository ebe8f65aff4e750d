import Verif.Props.Expectation
import Verif.Props.Sampling
import Verif.Props.Group
import Verif.Props.Vqe

/-!
# C73: which entries of the values dictionary are read
-/

namespace Verif
set_option autoImplicit false

variable {v v' : Values} (so : SetOrder) (eigh : Eigh) (draw : Draw)

/-- The gate refers to the entry `s` of the values dictionary: the parameter name of a rotation, or the two fixed names
used by Hamiltonian evolution. -/
def Gate.Reads (g : Gate) (s : String) : Prop :=
  match g.cls with
  | .parametric (.str t) _ => s = t
  | .phase (.str t) _ => s = t
  | .hamEvo _ => s = "time_evolution" ∨ s = "hamiltonian"
  | _ => False

mutual
/-- The operation refers to the entry `s`: a gate inside does, or the factor of a `Scale` is that name. -/
def Op.Reads : Op → String → Prop
  | .prim g, s => g.Reads s
  | .comp k ops, s => k = .scale (.str s) ∨ Op.ReadsAny ops s
/-- An operation of the list refers to the entry `s`. -/
def Op.ReadsAny : List Op → String → Prop
  | [], _ => False
  | o :: os, s => o.Reads s ∨ Op.ReadsAny os s
end

theorem get_congr {s : String} (h : v.lookup s = v'.lookup s) : v.get s = v'.get s := by
  rw [Values.get, Values.get, h]

theorem unitary_congr {g : Gate} (h : ∀ s, g.Reads s → v.lookup s = v'.lookup s) : g.unitary v = g.unitary v' := by
  rcases g with ⟨cls, name, tg, ctl, nz, sp⟩
  rcases cls with _ | ⟨p, sh⟩ | ⟨p, sh⟩ | sh
  · rfl
  · cases p with
    | num x => rfl
    | str t => simp only [Gate.unitary, parseValues, get_congr (h t rfl)]
  · cases p with
    | num x => rfl
    | str t => simp only [Gate.unitary, parseValues, get_congr (h t rfl)]
  · simp only [Gate.unitary, get_congr (h "time_evolution" (.inl rfl)), get_congr (h "hamiltonian" (.inr rfl))]

theorem jacobian_congr {g : Gate} (h : ∀ s, g.Reads s → v.lookup s = v'.lookup s) : g.jacobian v = g.jacobian v' := by
  rcases g with ⟨cls, name, tg, ctl, nz, sp⟩
  rcases cls with _ | ⟨p, sh⟩ | ⟨p, sh⟩ | sh
  · rfl
  · cases p with
    | num x => rfl
    | str t => simp only [Gate.jacobian, parseValues, get_congr (h t rfl)]
  · cases p with
    | num x => rfl
    | str t => simp only [Gate.jacobian, parseValues, get_congr (h t rfl)]
  · rfl

theorem operator_congr {g : Gate} (h : ∀ s, g.Reads s → v.lookup s = v'.lookup s) (ot : OpType) :
    g.operator ot v = g.operator ot v' := by
  cases ot with
  | unitary => exact unitary_congr h
  | dagger => rw [Gate.operator, Gate.operator, Gate.daggerOp, Gate.daggerOp, unitary_congr h]
  | jacobian => exact jacobian_congr h

theorem mapM_congr_mem {α β : Type} {f f' : α → Py β} {l : List α} (h : ∀ a ∈ l, f a = f' a) : l.mapM f = l.mapM f' := by
  induction l with
  | nil => rfl
  | cons a l ih =>
    rw [List.mapM_cons, List.mapM_cons, h a (by simp), ih fun b hb => h b (List.mem_cons_of_mem _ hb)]

/-- The gates of the argument of `apply_gates`. -/
def GateArg.members : GateArg → List Gate
  | .single g => [g]
  | .list gs => gs

/-- **C73** (`apply_gates`): the result depends only on the entries that the gates refer to, in every operator type and
with every setting of `group_gates` and `merge_ops`. -/
theorem C73_applyGates {ga : GateArg} (h : ∀ g ∈ ga.members, ∀ s, g.Reads s → v.lookup s = v'.lookup s) (st : State)
    (ot : OpType) (group merge : Bool) : applyGates so st ga v ot group merge = applyGates so st ga v' ot group merge := by
  have hp : prepareSequenceReduce (fun g => g.operator ot v) NDArray.matmul ga group merge
      = prepareSequenceReduce (fun g => g.operator ot v') NDArray.matmul ga group merge := by
    cases ga with
    | single g => simp only [prepareSequenceReduce, operator_congr (h g (by simp [GateArg.members])) ot]
    | list gs =>
      have hm : ∀ g ∈ (if group then groupByIndex gs else gs), g.operator ot v = g.operator ot v' := by
        intro g hg
        refine operator_congr (h g ?_) ot
        cases group with
        | false => exact hg
        | true => exact (groupByIndex_perm gs).mem_iff.1 hg
      simp only [prepareSequenceReduce, mapM_congr_mem hm]
  simp only [applyGates, hp]

theorem scaleParam_congr {p : Param} (h : ∀ s, p = .str s → v.lookup s = v'.lookup s) : scaleParam p v = scaleParam p v' := by
  cases p with
  | num x => rfl
  | str s => simp only [scaleParam, get_congr (h s rfl)]

mutual
theorem tensor_congr (o : Op) (h : ∀ s, o.Reads s → v.lookup s = v'.lookup s) (full : Option (List ℕ)) :
    o.tensor so v full = o.tensor so v' full := by
  match o with
  | .prim g => simp only [Op.tensor, Gate.tensor, unitary_congr h]
  | .comp k ops =>
    have ih := tensorList_congr ops fun s hs => h s (.inr hs)
    cases k with
    | scale p =>
      simp only [Op.tensor, ih, scaleParam_congr (p := p) fun s hs => h s (.inl (by rw [hs]))]
    | _ => simp only [Op.tensor, ih]
theorem tensorList_congr (os : List Op) (h : ∀ s, Op.ReadsAny os s → v.lookup s = v'.lookup s) (full : List ℕ) :
    Op.tensorList so v os full = Op.tensorList so v' os full := by
  match os with
  | [] => rfl
  | o :: os =>
    simp only [Op.tensorList]
    rw [tensor_congr o fun s hs => h s (.inl hs), tensorList_congr os fun s hs => h s (.inr hs)]
end

theorem expectDM_congr (ops : List Op) (h : ∀ s, Op.ReadsAny ops s → v.lookup s = v'.lookup s) (ρ : DensityMatrix ℂ) :
    Op.expectDM so v ops ρ = Op.expectDM so v' ops ρ := by
  simp only [Op.expectDM]
  rw [tensor_congr so (.comp .obs ops) fun s hs => h s (hs.resolve_left (by simp))]

mutual
theorem call_congr (o : Op) (h : ∀ s, o.Reads s → v.lookup s = v'.lookup s) (st : Option State) :
    o.call so v st = o.call so v' st := by
  match o with
  | .prim g =>
    have hg : ∀ g' ∈ (GateArg.single g).members, ∀ s, g'.Reads s → v.lookup s = v'.lookup s := by
      intro g' hg'
      simp only [GateArg.members, List.mem_singleton] at hg'
      subst hg'
      exact h
    simp only [Op.call, C73_applyGates so hg]
  | .comp k ops =>
    have ih := callSeq_congr ops fun s hs => h s (.inr hs)
    have ih' := callList_congr ops fun s hs => h s (.inr hs)
    have ih2 := expectDM_congr so ops fun s hs => h s (.inr hs)
    cases k with
    | scale p => simp only [Op.call, ih, scaleParam_congr (p := p) fun s hs => h s (.inl (by rw [hs]))]
    | obs =>
      cases st with
      | none => rfl
      | some st =>
        cases st with
        | vec a => simp only [Op.call, ih']
        | dm ρ => simp only [Op.call, ih2]
    | add => simp only [Op.call, ih']
    | _ => simp only [Op.call, ih]
theorem callSeq_congr (os : List Op) (h : ∀ s, Op.ReadsAny os s → v.lookup s = v'.lookup s) (st : Option State) :
    Op.callSeq so v os st = Op.callSeq so v' os st := by
  match os with
  | [] => rfl
  | o :: os =>
    simp only [Op.callSeq]
    rw [call_congr o fun s hs => h s (.inl hs)]
    simp only [callSeq_congr os fun s hs => h s (.inr hs)]
theorem callList_congr (os : List Op) (h : ∀ s, Op.ReadsAny os s → v.lookup s = v'.lookup s) (st : Option State) :
    Op.callList so v os st = Op.callList so v' os st := by
  match os with
  | [] => rfl
  | o :: os =>
    simp only [Op.callList]
    rw [call_congr o fun s hs => h s (.inl hs), callList_congr os fun s hs => h s (.inr hs)]
end

/-- **C73** (`run` and `sample`): the result, including any error, depends only on the entries that the circuit refers to;
other entries, and the order of the dictionary, do not matter. -/
theorem C73_run {circuit : Op} (h : ∀ s, circuit.Reads s → v.lookup s = v'.lookup s) (st : State) :
    run so circuit st v = run so circuit st v' ∧
    ∀ k, sample so draw st circuit v k = sample so draw st circuit v' k := by
  have := call_congr so circuit h (some st)
  exact ⟨this, fun k => by simp only [sample, this]⟩

mutual
theorem reads_flatten (o : Op) {o' : Op} (h : o' ∈ o.flatten) {s : String} (hr : o'.Reads s) : o.Reads s := by
  match o with
  | .prim g => simp only [Op.flatten, List.mem_singleton] at h; rw [← h]; exact hr
  | .comp k ops => exact .inr (reads_flattenList ops h hr)
theorem reads_flattenList (os : List Op) {o' : Op} (h : o' ∈ Op.flattenList os) {s : String} (hr : o'.Reads s) :
    Op.ReadsAny os s := by
  match os with
  | [] => simp [Op.flattenList] at h
  | o :: os =>
    simp only [Op.flattenList, List.mem_append] at h
    rcases h with h | h
    · exact .inl (reads_flatten o h hr)
    · exact .inr (reads_flattenList os h hr)
end

theorem reads_iter (o : Op) {o' : Op} (h : o' ∈ o.iter) {s : String} (hr : o'.Reads s) : o.Reads s := by
  match o with
  | .prim g => simp only [Op.iter, List.mem_singleton] at h; rw [← h]; exact hr
  | .comp k ops =>
    cases k with
    | scale p => simp only [Op.iter, List.mem_singleton] at h; rw [← h]; exact hr
    | _ => exact .inr (reads_flattenList ops (by simpa only [Op.iter] using h) hr)

theorem opsToGates_mem {ops : List Op} {gs : List Gate} (h : opsToGates ops = .ok gs) : ∀ g ∈ gs, Op.prim g ∈ ops := by
  induction ops generalizing gs with
  | nil => cases h; simp
  | cons o os ih =>
    cases o with
    | comp k os' => cases h
    | prim g =>
      simp only [opsToGates, bind, Except.bind] at h
      rcases ho : opsToGates os with e | gs'
      · rw [ho] at h; cases h
      · rw [ho] at h
        cases h
        intro g' hg'
        rcases List.mem_cons.1 hg' with rfl | hg'
        · simp
        · exact List.mem_cons_of_mem _ (ih ho g' hg')

theorem applyOps_congr {circuit : Op} (h : ∀ s, circuit.Reads s → v.lookup s = v'.lookup s) (st : State) :
    applyOps so st circuit.iter v = applyOps so st circuit.iter v' := by
  simp only [applyOps, bind, Except.bind]
  rcases ho : opsToGates circuit.iter with e | gs
  · rfl
  · refine C73_applyGates so (fun g hg s hs => h s ?_) st _ _ _
    exact reads_iter circuit (opsToGates_mem ho g hg) hs

theorem expectSingle_congr {o : Observable} (h : ∀ s, Op.ReadsAny o.ops s → v.lookup s = v'.lookup s) (st : State) :
    expectSingle so v o st = expectSingle so v' o st := by
  cases st with
  | vec a => simp only [expectSingle, Observable.forward, callList_congr so o.ops h]
  | dm ρ => exact expectDM_congr so o.ops h ρ

/-- **C73** (`expectation`): in every mode, exact or with shots, the result, including any error, depends only on the
entries that the circuit and the observables refer to and, in mode AD without shots, on the two entries `"circuit"` and
`"observables"`; other entries, and the order of the dictionary, do not matter. -/
theorem C73_expectation {circuit : Op} {obs : List Observable} {mode : DiffMode} {k : ℤ}
    (h : ∀ s, circuit.Reads s ∨ (∃ o ∈ obs, Op.ReadsAny o.ops s) ∨
      (mode = .ad ∧ k = 0 ∧ (s = "circuit" ∨ s = "observables")) → v.lookup s = v'.lookup s) (st : State) :
    expectation so eigh draw st circuit obs v mode k = expectation so eigh draw st circuit obs v' mode k := by
  have h1 : ∀ st, applyOps so st circuit.iter v = applyOps so st circuit.iter v' :=
    applyOps_congr so fun s hs => h s (.inl hs)
  have h2 : ∀ o ∈ obs, ∀ s, Op.ReadsAny o.ops s → v.lookup s = v'.lookup s := fun o ho s hs => h s (.inr (.inl ⟨o, ho, hs⟩))
  have hshots : ∀ us, finiteShots so eigh st circuit.iter obs v us = finiteShots so eigh st circuit.iter obs v' us := by
    intro us
    have hm : ∀ n, obs.mapM (observableMatrix so v n) = obs.mapM (observableMatrix so v' n) := fun n =>
      mapM_congr_mem fun o ho => by
        simp only [observableMatrix]
        rw [tensor_congr so o.toOp fun s hs => h2 o ho s (hs.resolve_left (by simp))]
    simp only [finiteShots, eigenSample, h1, hm]
  have hsingle : obs.mapM (fun o => do
      let st ← applyOps so st circuit.iter v
      expectSingle so v o st) = obs.mapM (fun o => do
      let st ← applyOps so st circuit.iter v'
      expectSingle so v' o st) :=
    mapM_congr_mem fun o ho => by simp only [h1, expectSingle_congr so (h2 o ho)]
  cases mode with
  | other => rfl
  | gpsr =>
    simp only [expectation, analyticalExpectation, hsingle, hshots]
  | adjoint =>
    cases st with
    | dm ρ => rfl
    | vec a =>
      have : obs.mapM (adjointSingle so (.vec a) circuit v) = obs.mapM (adjointSingle so (.vec a) circuit v') :=
        mapM_congr_mem fun o ho => by
          simp only [adjointSingle, h1, Observable.forward, callList_congr so o.ops (h2 o ho)]
      simp only [expectation, adjointExpectation, this]
  | ad =>
    by_cases hk : k = 0
    · subst hk
      have c1 := h "circuit" (.inr (.inr ⟨rfl, rfl, .inl rfl⟩))
      have c2 := h "observables" (.inr (.inr ⟨rfl, rfl, .inr rfl⟩))
      have : adExpectation so st circuit obs v = adExpectation so st circuit obs v' := by
        simp only [adExpectation, valuesProcessing, c1, c2, bind, Except.bind]
        rcases v'.lookup "circuit" with _ | a <;> rcases v'.lookup "observables" with _ | b
        · simp only [bind, Except.bind] at hsingle; simp only [hsingle]
        · simp only [bind, Except.bind] at hsingle; simp only [hsingle]
        · simp only [bind, Except.bind] at hsingle; cases a <;> simp only [hsingle]
        · cases a <;> cases b <;> rfl
      simp only [expectation, this, lt_irrefl, if_true, if_false]
    · simp only [expectation, if_neg hk, hshots]

/-- Reordering a dictionary. -/
theorem lookup_perm (h : v.Perm v') (hn : v.keys.Nodup) (s : String) : v.lookup s = v'.lookup s := by
  induction h with
  | nil => rfl
  | cons e _ ih =>
    rcases e with ⟨k, x⟩
    simp only [Values.keys, List.map_cons, List.nodup_cons] at hn
    simp only [List.lookup]
    rw [ih hn.2]
  | swap e e' l =>
    rcases e with ⟨k, x⟩
    rcases e' with ⟨k', x'⟩
    simp only [Values.keys, List.map_cons, List.nodup_cons, List.mem_cons, not_or] at hn
    simp only [List.lookup]
    by_cases h1 : s = k
    · by_cases h2 : s = k'
      · exact absurd (h2.symm.trans h1) hn.1.1
      · have e1 : (s == k) = true := by simpa using h1
        have e2 : (s == k') = false := by simpa using h2
        rw [e1, e2]
    · have e1 : (s == k) = false := by simpa using h1
      rw [e1]
  | trans h1 _ ih1 ih2 =>
    rw [ih1 hn, ih2]
    exact (h1.map Prod.fst).nodup_iff.1 hn

/-- **C73** (order of the dictionary): reordering the entries changes neither `run`, nor `sample`, nor `expectation`. -/
theorem C73_order (h : v.Perm v') (hn : v.keys.Nodup) (circuit : Op) (obs : List Observable) (st : State) :
    run so circuit st v = run so circuit st v' ∧
    (∀ k, sample so draw st circuit v k = sample so draw st circuit v' k) ∧
    ∀ mode k, expectation so eigh draw st circuit obs v mode k = expectation so eigh draw st circuit obs v' mode k :=
  ⟨(C73_run so draw (fun s _ => lookup_perm h hn s) st).1, (C73_run so draw (fun s _ => lookup_perm h hn s) st).2,
    fun _ _ => C73_expectation so eigh draw (fun s _ => lookup_perm h hn s) st⟩

/-- The circuit `RX("a", 0)`, `RY("b", 0)` and the observable `X(0)`. -/
noncomputable def circuitAB : Op := gateCircuit 1 [Gate.RX (.str "a") (.int 0), Gate.RY (.str "b") (.int 0)]

theorem circuitAB_value {x y : ℝ} (ha : v.lookup "a" = some (.num x)) (hb : v.lookup "b" = some (.num y)) :
    expectation so eigh draw (.vec zero1) circuitAB [pauliObs [(1, [(.X, 0)])]] v .gpsr 0
      = .ok [Real.sin y * Real.cos x] := by
  have h1 : (Gate.RX (.str "a") (.int 0)).Std 1 v (.RX x) := ⟨.RX _ _ _ (.str ha) (by simp), rfl, ⟨.inr (.inl rfl), by decide⟩⟩
  have h2 : (Gate.RY (.str "b") (.int 0)).Std 1 v (.RY y) := ⟨.RY _ _ _ (.str hb) (by simp), rfl, ⟨.inr (.inl rfl), by decide⟩⟩
  have hm1 : (Gate.RX (.str "a") (.int 0)).mat 1 .unitary v = gateMat 1 (StdGate.RX x).mat [0] [] := h1.mat
  have hm2 : (Gate.RY (.str "b") (.int 0)).mat 1 .unitary v = gateMat 1 (StdGate.RY y).mat [0] [] := h2.mat
  have hO : pauliSum 1 [(1, [(Pauli.X, 0)])] = gateMat 1 StdGate.X.mat [0] [] := by
    have := (pauliString_cons (n := 1) Pauli.X one_pos (l := []) (by simp)).1
    rw [pauliString_nil, mul_one] at this
    simp only [pauliSum, List.map_cons, List.map_nil, List.sum_cons, List.sum_nil, add_zero, Complex.ofReal_one, one_smul, this]
    rfl
  rw [circuitAB, expectation_gates so eigh draw (gateCircuit_plain 1 _), gateCircuit_gates,
    gatesExpectation_pure (n := 1) (O := gateMat 1 StdGate.X.mat [0] []) (by simp) (by
      simp only [List.mem_cons, List.not_mem_nil, or_false, forall_eq_or_imp, forall_eq]
      exact ⟨h1.ok, h2.ok⟩) (by simp [Gate.RX, Gate.RY, mkGate]) zero1_isKet (fun w => ⟨by
        rw [← hO]; exact (C70_operator ⟨by simp, by simp⟩ w).1, False.elim⟩)]
  rw [gatesMat, gatesMat, gatesMat, hm1, hm2, one_mul, sum_lab1]
  simp only [← Matrix.mulVec_mulVec, mulVec_lab1, ket, zero1_get, StdGate.mat, matE]
  have e1 : Real.cos x = Real.cos (x / 2) ^ 2 - Real.sin (x / 2) ^ 2 := by
    rw [← Real.cos_two_mul']; ring_nf
  have e2 : Real.sin y = 2 * Real.sin (y / 2) * Real.cos (y / 2) := by
    rw [← Real.sin_two_mul]; ring_nf
  refine congrArg (fun z => Except.ok [z]) ?_
  rw [e1, e2]
  generalize Real.cos (x / 2) = c
  generalize Real.sin (x / 2) = d
  generalize Real.cos (y / 2) = c'
  generalize Real.sin (y / 2) = d'
  norm_num [Complex.add_re, Complex.mul_re, Complex.mul_im, Complex.add_im]
  ring

/-- **C73** (the recipe `dict(zip(circuit.vparams, vals))` of docs/vqe.md): `vparams` is a Python set, so its order is
not determined by the circuit, and the energy for a given list of numbers depends on that order: for two enumerations of
the same set of names, the same numbers give the energies 1 and 0. -/
theorem C73_set_order (strOf : ℝ → String) : ∃ (circuit : Op) (names names' : List String) (vals : List ℝ)
    (a : NDArray ℂ) (o : Observable), IsKet 1 a ∧ (∀ s, s ∈ names ↔ s ∈ circuit.vparams strOf []) ∧ names'.Perm names ∧ names.Nodup ∧
    expectation so eigh draw (.vec a) circuit [o] (zipValues names vals) .ad 0 = .ok [1] ∧
    expectation so eigh draw (.vec a) circuit [o] (zipValues names' vals) .ad 0 = .ok [0] := by
  refine ⟨circuitAB, ["a", "b"], ["b", "a"], [0, Real.pi / 2], zero1, pauliObs [(1, [(.X, 0)])], zero1_isKet, ?_, .swap _ _ _, by simp,
    ?_, ?_⟩
  · intro s
    simp [circuitAB, gateCircuit, mkCircuit, OpArg.toList, Op.vparams, Op.paramNames, Op.iter, Op.flattenList, Op.flatten, Gate.RX,
      Gate.RY, mkGate]
  · rw [C20_ad_gpsr so eigh draw (.inl rfl), circuitAB_value so eigh draw (x := 0) (y := Real.pi / 2) rfl rfl]
    simp
  · rw [C20_ad_gpsr so eigh draw (.inl rfl), circuitAB_value so eigh draw (x := Real.pi / 2) (y := 0) rfl rfl]
    simp

/-- Non-vacuity of C73: two dictionaries that differ in an entry that the circuit does not refer to. -/
example : (∀ s, circuitAB.Reads s → ([("a", .num 1), ("b", .num 2), ("c", .num 3)] : Values).lookup s
      = ([("b", .num 2), ("a", .num 1)] : Values).lookup s) ∧ circuitAB.Reads "a" ∧ ¬ circuitAB.Reads "c" := by
  have h : ∀ s, circuitAB.Reads s ↔ s = "a" ∨ s = "b" := by
    intro s
    simp [circuitAB, gateCircuit, mkCircuit, OpArg.toList, Op.Reads, Op.ReadsAny, Gate.Reads, Gate.RX, Gate.RY, mkGate]
  refine ⟨fun s hs => ?_, (h _).2 (.inl rfl), fun hc => ?_⟩
  · rcases (h s).1 hs with rfl | rfl <;> rfl
  · rcases (h _).1 hc with e | e <;> simp at e

end Verif
