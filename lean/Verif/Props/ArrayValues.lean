import Verif.Lemmas.ArrayValues
import Verif.Props.Gpsr
import Verif.Props.GpsrShots

/-!
# C91: parameter values given as arrays of size one

They act as numbers in `run`, `sample`, `expectation` and the parameter-shift gradients, with two exceptions in the JVPs:
values of different shapes are refused and, silently, arrays of shape `(1, 1)` give a wrong gradient.
-/

set_option autoImplicit false

namespace Verif
open NDArray

variable {v v' : Values} (so : SetOrder) (eigh : Eigh) (draw : Draw)

/-- A circuit or observable whose values may be replaced by arrays of size one: its gates are as in `Gate.ArrayOk`, and the
factors of `Scale` are the same in both dictionaries. -/
abbrev Op.ArrayOk (v v' : Values) (o : Op) : Prop := o.OnGates (·.ArrayOk v v') (Param.Same v v')

/-- The same for the operations of an observable. -/
abbrev Observable.ArrayOk (v v' : Values) (o : Observable) : Prop := Op.AllOnGates (·.ArrayOk v v') (Param.Same v v') o.ops

theorem Op.ArrayOk.same (h : v.SizeOne v') {o : Op} (ho : o.ArrayOk v v') : o.SameA v v' :=
  Op.OnGates.mono (fun _ hg => unitaryA_sizeOne h hg) (fun _ hp => hp) o ho

theorem Observable.ArrayOk.same (h : v.SizeOne v') {o : Observable} (ho : o.ArrayOk v v') : Op.AllSameA v v' o.ops :=
  Op.AllOnGates.mono (fun _ hg => unitaryA_sizeOne h hg) (fun _ hp => hp) o.ops ho

/-- **C91** (`run`, `sample`): replacing numbers in `values` by arrays of size one changes no result and no error. -/
theorem C91_run (h : v.SizeOne v') {circuit : Op} (hc : circuit.ArrayOk v v') (st : State) :
    runA so circuit st v' = run so circuit st v ∧
    ∀ k, sampleA so draw st circuit v' k = sample so draw st circuit v k := by
  have := callA_eq so circuit (hc.same h) (some st)
  refine ⟨this, fun k => ?_⟩
  simp only [sampleA, sample, this]
  rfl

/-- **C91** (`expectation`, one dictionary): in every mode, exact or with shots, replacing numbers in `values` by arrays of
size one changes no result and no error. -/
theorem C91_expectation (h : v.SizeOne v') (hf : v.Flat) {circuit : Op} (hc : circuit.ArrayOk v v') {obs : List Observable}
    (ho : ∀ o ∈ obs, o.ArrayOk v v') (st : State) (mode : DiffMode) (k : ℤ) :
    expectationA so eigh draw st circuit obs v' mode k = expectation so eigh draw st circuit obs v mode k := by
  have hc' := hc.same h
  have ho' : ∀ o ∈ obs, Op.AllSameA v v' o.ops := fun o hm => (ho o hm).same h
  have h1 := fun st => applyOpsA_eq so hc' st
  have hshots : ∀ us, finiteShotsA so eigh st circuit.iter obs v' us = finiteShots so eigh st circuit.iter obs v us := by
    intro us
    simp only [finiteShotsA, finiteShots, h1, eigenSampleA_eq so ho']
  have hsingle : (obs.mapM fun o => (do
      let st ← applyOpsA so st circuit.iter v'
      expectSingleA so v' o st : Py ℝ)) = obs.mapM fun o => (do
      let st ← applyOps so st circuit.iter v
      expectSingle so v o st : Py ℝ) :=
    mapM_congr_mem fun o hm => by simp only [h1, expectSingleA_eq so (ho' o hm)]
  have hf' : v'.Flat := by
    refine hf.imp (fun e => ?_) (fun e => ?_)
    · rcases h.lookup "circuit" with ⟨-, h2⟩ | ⟨w, w', h2, -⟩
      · exact h2
      · rw [e] at h2; cases h2
    · rcases h.lookup "observables" with ⟨-, h2⟩ | ⟨w, w', h2, -⟩
      · exact h2
      · rw [e] at h2; cases h2
  have hv : ∀ {w : Values}, w.Flat → valuesProcessing w = .ok (w, w) := fun hw =>
    Values.Splits.processing (.inr ⟨hw, rfl, rfl⟩)
  cases mode with
  | other => rfl
  | gpsr => simp only [expectationA, expectation, analyticalExpectationA, analyticalExpectation, hsingle, hshots]
  | adjoint =>
    cases st with
    | dm ρ => rfl
    | vec a =>
      have : obs.mapM (adjointSingleA so (.vec a) circuit v') = obs.mapM (adjointSingle so (.vec a) circuit v) :=
        mapM_congr_mem fun o hm => by
          simp only [adjointSingleA, adjointSingle, h1, Observable.forwardA, Observable.forward,
            callListA_eq so o.ops (ho' o hm)]
          rfl
      simp only [expectationA, expectation, adjointExpectationA, adjointExpectation, this]
  | ad =>
    simp only [expectationA, expectation, hshots, adExpectationA, adExpectation, hv hf, hv hf', bind, Except.bind]
    simp only [bind, Except.bind] at hsingle
    simp only [hsingle]

/-- **C91** (`expectation`, separate dictionaries): the same in mode AD for values of the form
`{"circuit": vc, "observables": vo}`. -/
theorem C91_separate {vc vc' vo vo' : Values} (hv : v.Splits vc vo) (hv' : v'.Splits vc' vo') (h : vc.SizeOne vc')
    (h' : vo.SizeOne vo') {circuit : Op} (hc : circuit.ArrayOk vc vc') {obs : List Observable}
    (ho : ∀ o ∈ obs, o.ArrayOk vo vo') (st : State) :
    expectationA so eigh draw st circuit obs v' .ad 0 = expectation so eigh draw st circuit obs v .ad 0 := by
  have hsingle : (obs.mapM fun o => (do
      let st ← applyOpsA so st circuit.iter vc'
      expectSingleA so vo' o st : Py ℝ)) = obs.mapM fun o => (do
      let st ← applyOps so st circuit.iter vc
      expectSingle so vo o st : Py ℝ) :=
    mapM_congr_mem fun o hm => by simp only [applyOpsA_eq so (hc.same h), expectSingleA_eq so ((ho o hm).same h')]
  simp only [expectationA, expectation, lt_irrefl, if_false, if_true, adExpectationA, adExpectation, hv.processing,
    hv'.processing, bind, Except.bind]
  simp only [bind, Except.bind] at hsingle
  simp only [hsingle]

/-! ## Gradients -/

/-- Gates whose operator may be shifted and renamed: fixed gates, rotations about X, Y or Z, and `PHASE` gates with a number as
parameter. -/
inductive Gate.Rot (g : Gate) : Prop
  | primitive (h : g.cls = .primitive)
  | rotation {p : Param} {s : ℝ} {M : Matrix (Fin 2) (Fin 2) ℂ} (h : g.cls = .parametric p s) (hG : RotGen g.generatorName M)
  | phase {x s : ℝ} (h : g.cls = .phase (.num x) s)

/-- An observable all of whose gates are in `Gate.Rot` and all of whose `Scale` factors are numbers. -/
abbrev Observable.Rot (o : Observable) : Prop := Op.AllOnGates Gate.Rot (fun p => ∃ x, p = .num x) o.ops

theorem Values.AllNum.lookup (hn : v.AllNum) (q : String) (a : NDArray ℂ) : v.lookup q ≠ some (.arr a) := by
  induction v with
  | nil => simp
  | cons e l ih =>
    obtain ⟨k, w⟩ := e
    rw [List.lookup_cons]
    obtain ⟨x, hx⟩ := hn (k, w) (by simp)
    cases hk : q == k with
    | true =>
      intro h
      simp only [Option.some.injEq] at h
      rw [show w = .num x from hx] at h
      cases h
    | false => exact ih fun e he => hn e (List.mem_cons_of_mem _ he)

theorem Gate.Rot.arrayOk {g : Gate} (h : g.Rot) (hn : v.AllNum) : g.ArrayOk v v' := by
  cases h with
  | primitive h => exact .primitive h
  | rotation h hG => exact .rotation h hG fun q a _ => hn.lookup q a
  | phase h => exact .phase h (fun q a e => by cases e) (fun q a e => by cases e)

theorem Gate.Rot.same {g : Gate} (h : g.Rot) (hn : v.AllNum) (hs : v.SizeOne v') : g.unitaryA v' = g.unitary v :=
  unitaryA_sizeOne hs (h.arrayOk hn)

theorem Observable.Rot.same {o : Observable} (h : o.Rot) (hn : v.AllNum) (hs : v.SizeOne v') : Op.AllSameA v v' o.ops :=
  Op.AllOnGates.mono (fun _ hg => hg.same hn hs) (fun p hp s e => by obtain ⟨x, rfl⟩ := hp; cases e) o.ops h

theorem Gate.Rot.jit {g g' : Gate} (h : g.Rot) (hj : jitGate g = .ok g') : g'.Rot := by
  cases h with
  | primitive h => simp only [jitGate, h] at hj; cases hj; exact .primitive h
  | rotation h hG => simp only [jitGate, h] at hj; cases hj; exact .rotation h hG
  | phase h => simp only [jitGate, h] at hj; cases hj

theorem Gate.Rot.newNamed {g : Gate} (h : g.Rot) (hp : g.paramName ≠ none) (q : String) : (newNamed g q).Rot := by
  cases h with
  | primitive h => simp only [Verif.newNamed, h]; exact .primitive h
  | rotation h hG => simp only [Verif.newNamed, h]; exact .rotation rfl hG
  | phase h => simp only [Gate.paramName, h] at hp; exact absurd rfl hp

theorem rot_renamed {fresh : ℕ → String} {gs : List Gate} {keys : List String} (h : ∀ g ∈ gs, g.Rot) :
    ∀ g ∈ createRenamed fresh gs keys, g.Rot := by
  intro g hg
  simp only [createRenamed, List.mem_mapIdx] at hg
  obtain ⟨i, hi, rfl⟩ := hg
  have hr := h gs[i] (List.getElem_mem hi)
  rcases hp : gs[i].paramName with _ | s
  · exact hr
  · simp only
    split_ifs
    · exact hr.newNamed (by rw [hp]; simp) _
    · exact hr

theorem mapM_mem_ok {α β : Type} {f : α → Py β} {l : List α} {r : List β} (h : l.mapM f = .ok r) :
    ∀ b ∈ r, ∃ a ∈ l, f a = .ok b := by
  induction l generalizing r with
  | nil => cases h; simp
  | cons a l ih =>
    rw [List.mapM_cons] at h
    simp only [bind, Except.bind] at h
    rcases h1 : f a with e | b
    · rw [h1] at h; cases h
    · rcases h2 : l.mapM f with e | bs
      · rw [h1, h2] at h; cases h
      · rw [h1, h2] at h
        cases h
        intro b' hb'
        rcases List.mem_cons.1 hb' with rfl | hb'
        · exact ⟨a, by simp, h1⟩
        · obtain ⟨a', ha', e⟩ := ih h2 b' hb'
          exact ⟨a', List.mem_cons_of_mem _ ha', e⟩

/-- The evaluations of `F'` on arrays of size one agree with those of `F` on numbers. -/
def Agrees (F' F : GateArg → Values → Py (List ℝ)) (ga : GateArg) : Prop :=
  ∀ u u' : Values, u.AllNum → u.SizeOne u' → F' ga u' = F ga u

theorem agrees_gates {obs : List Observable} (ho : ∀ o ∈ obs, o.Rot) (st : State) {ga : GateArg} (hg : ∀ g ∈ ga.members, g.Rot) :
    Agrees (gatesExpectationA so st obs) (gatesExpectation so st obs) ga := fun _ _ hn hs =>
  gatesExpectationA_eq so (fun g hm => (hg g hm).same hn hs) (fun o hm => (ho o hm).same hn hs) st

theorem agrees_shots {obs : List Observable} (ho : ∀ o ∈ obs, o.Rot) (st : State) (us : List ℝ) {ga : GateArg}
    (hg : ∀ g ∈ ga.members, g.Rot) :
    Agrees (finiteShotsGatesA so eigh st obs us) (finiteShotsGates so eigh st obs us) ga := fun _ _ hn hs =>
  finiteShotsGatesA_eq so (fun g hm => (hg g hm).same hn hs) (fun o hm => (ho o hm).same hn hs) eigh st us

theorem rot_jitArg {ga ga' : GateArg} (hg : ∀ g ∈ ga.members, g.Rot) (h : jitArg ga = .ok ga') : ∀ g ∈ ga'.members, g.Rot := by
  cases ga with
  | single g =>
    simp only [jitArg, bind, Except.bind] at h
    rcases h1 : jitGate g with e | g'
    · rw [h1] at h; cases h
    · rw [h1] at h
      cases h
      simp only [GateArg.members, List.mem_singleton, forall_eq] at hg ⊢
      exact hg.jit h1
  | list gs =>
    simp only [jitArg, bind, Except.bind] at h
    rcases h1 : gs.mapM jitGate with e | gs'
    · rw [h1] at h; cases h
    · rw [h1] at h
      cases h
      intro g' hg'
      obtain ⟨g, hm, e⟩ := mapM_mem_ok h1 g' hg'
      exact (hg g hm).jit e

theorem rot_jitObs {obs obs' : List Observable} (ho : ∀ o ∈ obs, o.Rot)
    (h : (obs.mapM fun o => (do pure ({ o with ops := ← jitOps o.ops } : Observable) : Py Observable)) = .ok obs') :
    ∀ o ∈ obs', o.Rot := by
  intro o' ho'
  obtain ⟨o, hm, e⟩ := mapM_mem_ok h o' ho'
  simp only [bind, Except.bind] at e
  rcases h1 : jitOps o.ops with e' | os
  · rw [h1] at e; cases e
  · rw [h1] at e
    cases e
    exact allOnGates_jit (fun g g' hg hj => hg.jit hj) o.ops (ho o hm) h1

theorem agrees_jitted {obs : List Observable} (ho : ∀ o ∈ obs, o.Rot) (st : State) {ga : GateArg}
    (hg : ∀ g ∈ ga.members, g.Rot) : Agrees (jittedExpectationA so st obs) (jittedExpectation so st obs) ga := by
  intro u u' hn hs
  simp only [jittedExpectationA, jittedExpectation, bind, Except.bind]
  rcases h1 : jitArg ga with e | ga'
  · rfl
  · have h2 := @rot_jitObs obs
    simp only [bind, Except.bind] at h2
    simp only
    generalize hm : (List.mapM (m := Py) _ obs) = r
    cases r with
    | error e => rfl
    | ok obs' => exact agrees_gates so (h2 ho hm) st (rot_jitArg hg h1) u u' hn hs

theorem agrees_jittedShots {obs : List Observable} (ho : ∀ o ∈ obs, o.Rot) (st : State) (us : List ℝ) {ga : GateArg}
    (hg : ∀ g ∈ ga.members, g.Rot) :
    Agrees (jittedFiniteShotsA so eigh st obs us) (jittedFiniteShots so eigh st obs us) ga := by
  intro u u' hn hs
  simp only [jittedFiniteShotsA, jittedFiniteShots, bind, Except.bind]
  rcases h1 : jitArg ga with e | ga'
  · rfl
  · have h2 := @rot_jitObs obs
    simp only [bind, Except.bind] at h2
    simp only
    generalize hm : (List.mapM (m := Py) _ obs) = r
    cases r with
    | error e => rfl
    | ok obs' => exact agrees_shots so eigh (h2 ho hm) st us (rot_jitArg hg h1) u u' hn hs

/-! ### Backward passes -/

theorem PyVal.SizeOne.shift {x : ℝ} {w : PyVal} (h : PyVal.SizeOne (.num x) w) (δ : ℝ) :
    ∃ w', w.shift δ = .ok w' ∧ PyVal.SizeOne (.num (x + δ)) w' := by
  cases h with
  | refl => exact ⟨_, rfl, .refl _⟩
  | array x hs =>
    refine ⟨_, rfl, ?_⟩
    have := PyVal.SizeOne.array (x + δ) hs
    simpa using this

theorem shiftKey_sizeOne (hn : v.AllNum) (hs : v.SizeOne v') (key : String) (δ : ℝ) :
    (∃ e, v.shiftKey key δ = .error e ∧ v'.shiftKey key δ = .error e) ∨
    ∃ u u', v.shiftKey key δ = .ok u ∧ v'.shiftKey key δ = .ok u' ∧ u.AllNum ∧ u.SizeOne u' := by
  rcases hs.lookup key with ⟨h1, h2⟩ | ⟨w, w', h1, h2, hw⟩
  · exact .inl ⟨.keyError, by simp only [Values.shiftKey, Values.get, h1]; rfl,
      by simp only [Values.shiftKey, Values.get, h2]; rfl⟩
  · obtain ⟨x, rfl⟩ : ∃ x, w = .num x := by
      rcases w with x | a | d
      · exact ⟨x, rfl⟩
      · exact absurd h1 (hn.lookup key a)
      · exfalso
        clear h2 hw hs
        induction v with
        | nil => cases h1
        | cons e l ih =>
          obtain ⟨k, w⟩ := e
          obtain ⟨x, hx⟩ := hn (k, w) (by simp)
          rw [List.lookup_cons] at h1
          cases hk : key == k with
          | true => rw [hk] at h1; simp only [Option.some.injEq] at h1; rw [show w = .num x from hx] at h1; cases h1
          | false => rw [hk] at h1; exact ih (fun e he => hn e (List.mem_cons_of_mem _ he)) h1
    obtain ⟨w1, e1, e2⟩ := hw.shift δ
    refine .inr ⟨v.map fun e => if e.1 = key then (key, .num (x + δ)) else e,
      v'.map fun e => if e.1 = key then (key, w1) else e, ?_, ?_, ?_, ?_⟩
    · simp only [Values.shiftKey, Values.get, h1]; rfl
    · simp only [Values.shiftKey, Values.get, h2, bind, Except.bind, e1]; rfl
    · intro e he
      obtain ⟨e', he', rfl⟩ := List.mem_map.1 he
      split_ifs
      · exact ⟨_, rfl⟩
      · exact hn e' he'
    · rw [Values.SizeOne, List.forall₂_map_left_iff, List.forall₂_map_right_iff]
      refine List.Forall₂.imp (fun e e' he => ?_) hs
      rw [← he.1]
      split_ifs
      · exact ⟨rfl, e2⟩
      · exact he

theorem jvpComponent_agrees {F F' : GateArg → Values → Py (List ℝ)} {ga : GateArg} (hF : Agrees F' F ga) (hn : v.AllNum)
    (hs : v.SizeOne v') (key : String) : jvpComponent F' ga v' key = jvpComponent F ga v key := by
  have h1 := shiftKey_sizeOne hn hs key gpsrShift
  have h2 := shiftKey_sizeOne hn hs key (-gpsrShift)
  simp only [jvpComponent, bind, Except.bind]
  rcases h1 with ⟨e, e1, e2⟩ | ⟨u, u', e1, e2, e3, e4⟩
  · simp only [e1, e2]
  · simp only [e1, e2, hF u u' e3 e4]
    rcases h2 with ⟨e, d1, d2⟩ | ⟨w, w', d1, d2, d3, d4⟩
    · simp only [d1, d2]
    · simp only [d1, d2, hF w w' d3 d4]

theorem rot_alter {gs gs' : List Gate} {i : ℕ} {δ : ℝ} (h : ∀ g ∈ gs, g.Rot) (hp : ∃ s, gs[i]?.bind Gate.paramName = some s)
    (ha : alterGateSequence gs i δ = .ok gs') : ∀ g ∈ gs', g.Rot := by
  obtain ⟨s, hs⟩ := hp
  rcases hi : gs[i]? with _ | g
  · rw [hi] at hs; cases hs
  · rw [hi] at hs
    have hr := h g (List.mem_of_getElem? hi)
    have : ∃ g', toShift g δ = .ok g' ∧ g'.Rot := by
      cases hr with
      | primitive hc => simp [Gate.paramName, hc] at hs
      | @rotation q r _ hc hG =>
        exact ⟨{ g with cls := .parametric q (r + δ) }, by simp only [toShift, hc], .rotation rfl hG⟩
      | phase hc => simp [Gate.paramName, hc] at hs
    obtain ⟨g', e1, e2⟩ := this
    simp only [alterGateSequence, hi, e1, bind, Except.bind, pure, Except.pure, Except.ok.injEq] at ha
    subst ha
    intro g'' hg''
    simp only [List.append_assoc, List.mem_append, List.mem_singleton] at hg''
    rcases hg'' with hm | rfl | hm
    · exact h _ (List.mem_of_mem_take hm)
    · exact e2
    · exact h _ (List.mem_of_mem_drop hm)

theorem shiftJvp_agrees {F F' : GateArg → Values → Py (List ℝ)} {gs : List Gate} (hg : ∀ g ∈ gs, g.Rot)
    (hF : ∀ gs' : List Gate, (∀ g ∈ gs', g.Rot) → Agrees F' F (.list gs')) (hn : v.AllNum) (hs : v.SizeOne v') {i : ℕ}
    (hp : ∃ s, gs[i]?.bind Gate.paramName = some s) : shiftJvp eigh F' gs v' i = shiftJvp eigh F gs v i := by
  simp only [shiftJvp, bind, Except.bind]
  have key : ∀ δ, (alterGateSequence gs i δ).bind (fun l => F' (.list l) v') = (alterGateSequence gs i δ).bind fun l => F (.list l) v := by
    intro δ
    rcases ha : alterGateSequence gs i δ with e | gs'
    · rfl
    · exact hF gs' (rot_alter hg hp ha) v v' hn hs
  have k1 := key gpsrShift
  have k2 := key (-gpsrShift)
  rcases ha : alterGateSequence gs i gpsrShift with e | g1 <;> rcases hb : alterGateSequence gs i (-gpsrShift) with e' | g2 <;>
    simp only [ha, hb, Except.bind] at k1 k2 ⊢ <;> simp only [k1, k2]

theorem paramIndices_named {gs : List Gate} {key : String} {i : ℕ} (h : i ∈ paramIndices gs key) :
    ∃ s, gs[i]?.bind Gate.paramName = some s := by
  simp only [paramIndices, List.mem_filter, beq_iff_eq] at h
  exact ⟨key, h.2⟩

/-- **C91** (backward pass): `analytical_gpsr_bwd` gives the same gradient, or the same error, when numbers in `values` are
replaced by arrays of size one. -/
theorem C91_bwd (hn : v.AllNum) (hs : v.SizeOne v') {ga : GateArg} (hg : ∀ g ∈ ga.members, g.Rot) {obs : List Observable}
    (ho : ∀ o ∈ obs, o.Rot) (st : State) :
    gpsrBwd eigh (jittedExpectationA so st obs) ga v' = gpsrBwd eigh (jittedExpectation so st obs) ga v := by
  have hF := fun (gs' : List Gate) (h : ∀ g ∈ gs', g.Rot) => agrees_jitted so ho st (ga := .list gs') h
  have hplain : (fun key => (do pure (some (← jvpComponent (jittedExpectationA so st obs) ga v' key)) : Py (Option (List ℝ))))
      = fun key => (do pure (some (← jvpComponent (jittedExpectation so st obs) ga v key)) : Py (Option (List ℝ))) := by
    funext key
    rw [jvpComponent_agrees (agrees_jitted so ho st hg) hn hs key]
  have hrep : ∀ gs, ga = .list gs → repeatedJvp eigh (jittedExpectationA so st obs) gs v'
      = repeatedJvp eigh (jittedExpectation so st obs) gs v := by
    rintro gs rfl
    funext key
    simp only [repeatedJvp]
    rw [mapM_congr_mem (l := paramIndices gs key) fun i hi => shiftJvp_agrees eigh (gs := gs) hg hF hn hs (paramIndices_named hi)]
  simp only [gpsrBwd, hs.keys, hplain]
  cases ga with
  | single g => rfl
  | list gs => simp only [hrep gs rfl]

/-- **C91** (backward pass with shots): the same for `finite_shots_gpsr_backward`, for the same keys. -/
theorem C91_shots_bwd {κ : Type} (split : κ → ℕ → ℕ → κ) (us : κ → List ℝ) (hn : v.AllNum) (hs : v.SizeOne v') {ga : GateArg}
    (hg : ∀ g ∈ ga.members, g.Rot) {obs : List Observable} (ho : ∀ o ∈ obs, o.Rot) (st : State) (key : κ) :
    shotsBwd eigh split (fun k => jittedFiniteShotsA so eigh st obs (us k)) ga v' key
      = shotsBwd eigh split (fun k => jittedFiniteShots so eigh st obs (us k)) ga v key := by
  have hF := fun (k : κ) (gs' : List Gate) (h : ∀ g ∈ gs', g.Rot) =>
    agrees_jittedShots so eigh ho st (us k) (ga := .list gs') h
  have hcomp : ∀ name k, shotsComponent split (fun k => jittedFiniteShotsA so eigh st obs (us k)) ga v' name k
      = shotsComponent split (fun k => jittedFiniteShots so eigh st obs (us k)) ga v name k := by
    intro name k
    have hA := fun k => agrees_jittedShots so eigh ho st (us k) hg
    simp only [shotsComponent, bind, Except.bind]
    rcases shiftKey_sizeOne hn hs name gpsrShift with ⟨e, e1, e2⟩ | ⟨u, u', e1, e2, e3, e4⟩
    · simp only [e1, e2]
    · simp only [e1, e2, hA _ u u' e3 e4]
      rcases shiftKey_sizeOne hn hs name (-gpsrShift) with ⟨e, d1, d2⟩ | ⟨w, w', d1, d2, d3, d4⟩
      · simp only [d1, d2]
      · simp only [d1, d2, hA _ w w' d3 d4]
  have hrep : ∀ gs, ga = .list gs → ∀ name k, shotsRepeatedJvp eigh split (fun k => jittedFiniteShotsA so eigh st obs (us k)) gs v' name k
      = shotsRepeatedJvp eigh split (fun k => jittedFiniteShots so eigh st obs (us k)) gs v name k := by
    rintro gs rfl name k
    simp only [shotsRepeatedJvp]
    rw [mapM_congr_mem fun e he => ?_]
    have hp := paramIndices_named (List.of_mem_zip (a := e.1) (b := e.2) he).1
    simp only [shotsShiftJvp, bind, Except.bind]
    have key : ∀ δ k', (alterGateSequence gs e.1 δ).bind (fun l => jittedFiniteShotsA so eigh st obs (us k') (.list l) v')
        = (alterGateSequence gs e.1 δ).bind fun l => jittedFiniteShots so eigh st obs (us k') (.list l) v := by
      intro δ k'
      rcases ha : alterGateSequence gs e.1 δ with e' | gs'
      · rfl
      · exact hF k' gs' (rot_alter hg hp ha) v v' hn hs
    have k1 := key gpsrShift (split e.2 2 0)
    have k2 := key (-gpsrShift) (split e.2 2 1)
    rcases ha : alterGateSequence gs e.1 gpsrShift with e' | g1 <;>
      rcases hb : alterGateSequence gs e.1 (-gpsrShift) with e' | g2 <;>
      simp only [ha, hb, Except.bind] at k1 k2 ⊢ <;> simp only [k1, k2]
  simp only [shotsBwd, hs.keys, hcomp]
  cases ga with
  | single g => rfl
  | list gs => simp only [hrep gs rfl]

/-! ### JVPs -/

theorem jvpRow_agrees {F F' : GateArg → Values → Py (List ℝ)} {ga : GateArg} (hF : Agrees F' F ga) {keys : List String}
    {xs : List ℝ} (hk : keys.length = xs.length) {a : NDArray ℂ} (ha : IsVector (xs.map Complex.ofReal) a) (gap : ℝ) (i : ℕ) :
    jvpRowA F' ga keys a gap i = jvpRow F ga keys xs gap i := by
  obtain ⟨u, e1, e2⟩ := shiftRows_vec hk ha i gpsrShift
  obtain ⟨w, d1, d2⟩ := shiftRows_vec hk ha i (-gpsrShift)
  simp only [jvpRowA, jvpRow, e1, d1, bind, Except.bind, hF _ u (shiftAt_allNum _ _ _ _) e2, hF _ w (shiftAt_allNum _ _ _ _) d2]

theorem shotsRow_agrees {κ : Type} (split : κ → ℕ → ℕ → κ) {F F' : κ → GateArg → Values → Py (List ℝ)} {ga : GateArg}
    (hF : ∀ k, Agrees (F' k) (F k) ga) {keys : List String} {xs : List ℝ} (hk : keys.length = xs.length) {a : NDArray ℂ}
    (ha : IsVector (xs.map Complex.ofReal) a) (gap : ℝ) (i : ℕ) (k : κ) :
    shotsRowA split F' ga keys a gap i k = shotsRow split F ga keys xs gap i k := by
  obtain ⟨u, e1, e2⟩ := shiftRows_vec hk ha i gpsrShift
  obtain ⟨w, d1, d2⟩ := shiftRows_vec hk ha i (-gpsrShift)
  simp only [shotsRowA, shotsRow, e1, d1, bind, Except.bind, hF _ _ u (shiftAt_allNum _ _ _ _) e2,
    hF _ _ w (shiftAt_allNum _ _ _ _) d2]

theorem rel_get {R : PyVal → PyVal → Prop} (h : List.Forall₂ (fun e e' : String × PyVal => e.1 = e'.1 ∧ R e.2 e'.2) v v')
    {α : Type} (f : α → String) (l : List α) :
    (∃ e, (l.mapM fun a => v.get (f a)) = .error e ∧ (l.mapM fun a => v'.get (f a)) = .error e) ∨
    ∃ r r', (l.mapM fun a => v.get (f a)) = .ok r ∧ (l.mapM fun a => v'.get (f a)) = .ok r' ∧ List.Forall₂ R r r' := by
  have hget : ∀ s, (v.get s = .error .keyError ∧ v'.get s = .error .keyError) ∨
      ∃ w w', v.get s = .ok w ∧ v'.get s = .ok w' ∧ R w w' := by
    intro s
    simp only [Values.get]
    induction h with
    | nil => exact .inl ⟨rfl, rfl⟩
    | @cons e e' l l' he _ ih =>
      obtain ⟨k, x⟩ := e
      obtain ⟨k', x'⟩ := e'
      obtain ⟨rfl, hx⟩ := he
      simp only [List.lookup_cons]
      cases s == k with
      | true => exact .inr ⟨x, x', rfl, rfl, hx⟩
      | false => exact ih
  induction l with
  | nil => exact .inr ⟨[], [], rfl, rfl, .nil⟩
  | cons a l ih =>
    rcases hget (f a) with ⟨h1, h2⟩ | ⟨w, w', h1, h2, hw⟩
    · exact .inl ⟨.keyError, by rw [List.mapM_cons, h1]; rfl, by rw [List.mapM_cons, h2]; rfl⟩
    · rcases ih with ⟨e, e1, e2⟩ | ⟨r, r', e1, e2, e3⟩
      · exact .inl ⟨e, by rw [List.mapM_cons, h1, e1]; rfl, by rw [List.mapM_cons, h2, e2]; rfl⟩
      · exact .inr ⟨w :: r, w' :: r', by rw [List.mapM_cons, h1, e1]; rfl, by rw [List.mapM_cons, h2, e2]; rfl, .cons hw e3⟩

theorem rel_zip {R : PyVal → PyVal → Prop} {r r' : List PyVal} (h : List.Forall₂ R r r') (ks : List String) :
    List.Forall₂ (fun e e' : String × PyVal => e.1 = e'.1 ∧ R e.2 e'.2) (ks.zip r) (ks.zip r') := by
  induction h generalizing ks with
  | nil => cases ks <;> exact .nil
  | cons hw _ ih =>
    cases ks with
    | nil => exact .nil
    | cons k ks => exact .cons ⟨rfl, hw⟩ (ih ks)

/-- The dictionary of the renamed circuit. -/
theorem renamed_values (h : v.AsScalars v' ∨ v.AsVectors v') {α : Type} (f : α → String) (l : List α) (ks : List String) :
    (∃ e, (l.mapM fun a => v.get (f a)) = .error e ∧ (l.mapM fun a => v'.get (f a)) = .error e) ∨
    ∃ r r', (l.mapM fun a => v.get (f a)) = .ok r ∧ (l.mapM fun a => v'.get (f a)) = .ok r' ∧ r.length = l.length ∧
      (Values.AsScalars (ks.zip r) (ks.zip r') ∨ Values.AsVectors (ks.zip r) (ks.zip r')) := by
  have hlen : ∀ {r : List PyVal}, (l.mapM fun a => v.get (f a)) = .ok r → r.length = l.length := by
    intro r hr
    induction l generalizing r with
    | nil => cases hr; rfl
    | cons a l ih =>
      rw [List.mapM_cons] at hr
      simp only [bind, Except.bind] at hr
      rcases h1 : v.get (f a) with e | w
      · rw [h1] at hr; cases hr
      · rcases h2 : (l.mapM fun a => v.get (f a)) with e | ws
        · rw [h1, h2] at hr; cases hr
        · rw [h1, h2] at hr
          cases hr
          simp [ih h2]
  rcases h with h | h
  · rcases rel_get (R := fun w w' => ∃ x : ℝ, w = .num x ∧ (w' = .num x ∨ w' = .arr ⟨[], [(x : ℂ)]⟩)) h f l with h1 | ⟨r, r', h1, h2, h3⟩
    · exact .inl h1
    · exact .inr ⟨r, r', h1, h2, hlen h1, .inl (rel_zip h3 ks)⟩
  · rcases rel_get (R := fun w w' => ∃ x : ℝ, w = .num x ∧ w' = .arr ⟨[1], [(x : ℂ)]⟩) h f l with h1 | ⟨r, r', h1, h2, h3⟩
    · exact .inl h1
    · exact .inr ⟨r, r', h1, h2, hlen h1, .inr (rel_zip h3 ks)⟩

theorem asOne_facts (h0 : v.AsScalars v' ∨ v.AsVectors v') : v.SizeOne v' ∧ v.AllNum := by
  have key : ∀ {R : PyVal → PyVal → Prop}, (∀ w w', R w w' → ∃ x, w = .num x) →
      List.Forall₂ (fun e e' : String × PyVal => e.1 = e'.1 ∧ R e.2 e'.2) v v' → v.AllNum := by
    intro R hR h
    clear h0
    induction h with
    | nil => intro e he; cases he
    | cons he _ ih =>
      intro e hm
      rcases List.mem_cons.1 hm with rfl | hm
      · exact hR _ _ he.2
      · exact ih e hm
  rcases h0 with h | h
  · exact ⟨h.sizeOne, key (R := fun w w' => ∃ x : ℝ, w = .num x ∧ (w' = .num x ∨ w' = .arr ⟨[], [(x : ℂ)]⟩)) (fun w w' ⟨x, hx, _⟩ => ⟨x, hx⟩) h⟩
  · exact ⟨h.sizeOne, key (R := fun w w' => ∃ x : ℝ, w = .num x ∧ w' = .arr ⟨[1], [(x : ℂ)]⟩) (fun w w' ⟨x, hx, _⟩ => ⟨x, hx⟩) h⟩

/-- The scan, for any evaluations that agree. -/
theorem jvpScan_agrees {F F' : GateArg → Values → Py (List ℝ)} {ga : GateArg} (hF : Agrees F' F ga) {u u' : Values}
    (h : u.AsScalars u' ∨ u.AsVectors u') (gaps : List ℝ) :
    (do jvpScanA F' ga u.keys (squeezeLast (← stackArrays u')) gaps : Py (List (List ℝ)))
      = (do jvpScan F ga u.keys (← stackValues u) gaps) := by
  rcases stack_eq h with ⟨rfl, rfl⟩ | ⟨xs, hk, h1, a, h2, ha⟩
  · rfl
  · simp only [h1, h2, bind, Except.bind, jvpScanA, jvpScan, jvpRow_agrees hF hk ha]

/-- The JVP, for any evaluations that agree. -/
theorem gpsrJvp_agrees {F F' : GateArg → Values → Py (List ℝ)} {ga : GateArg} (fresh : ℕ → String) (hF : Agrees F' F ga)
    (hF' : ∀ gs, ga = .list gs → Agrees F' F (.list (createRenamed fresh gs v.keys)))
    (h : v.AsScalars v' ∨ v.AsVectors v') (ts : List ℝ) :
    gpsrJvpA eigh fresh F' ga v' ts = gpsrJvp eigh fresh F ga v ts := by
  obtain ⟨hs, hn⟩ := asOne_facts h
  simp only [gpsrJvpA, gpsrJvp, hF v v' hn hs, hs.keys, hs.size1 hn, Bool.false_eq_true, if_false, pure_bind]
  have hscan := jvpScan_agrees hF h (v.keys.map fun _ => initialGap)
  congr 1
  funext fwd
  have hplain : (do
      let a ← stackArrays v'
      let grads ← jvpScanA F' ga v.keys (squeezeLast a) (v.keys.map fun _ => initialGap)
      pure (fwd, contract fwd.length grads ts) : Py (List ℝ × List ℝ)) = (do
      let xs ← stackValues v
      let grads ← jvpScan F ga v.keys xs (v.keys.map fun _ => initialGap)
      pure (fwd, contract fwd.length grads ts)) := by
    rw [← bind_assoc, ← bind_assoc, hscan]
  rw [hplain]
  cases ga with
  | single g => rfl
  | list gs =>
    by_cases hlen : (extractGateNames gs).length > v.keys.length
    · simp only [if_pos hlen]
      congr 1
      funext b
      cases b with
      | false => rfl
      | true =>
        simp only [if_true]
        generalize (v.keys.flatMap fun p => (paramIndices gs p).map fun i => (i, p)) = vmap
        rcases renamed_values h Prod.snd vmap (vmap.map fun e => fresh e.1) with ⟨e, e1, e2⟩ | ⟨r, r', e1, e2, e3, e4⟩
        · simp only [e1, e2]
          rfl
        · simp only [e1, e2, bind, Except.bind]
          have hkeys : Values.keys ((vmap.map fun e => fresh e.1).zip r) = vmap.map fun e => fresh e.1 := by
            simp [Values.keys, List.map_fst_zip, e3]
          generalize (List.mapM (m := Py) _ vmap) = gaps
          cases gaps with
          | error e => rfl
          | ok gaps =>
            have hsc := jvpScan_agrees (hF' gs rfl) e4 gaps
            rw [hkeys] at hsc
            simp only [bind, Except.bind] at hsc
            rcases s1 : stackArrays ((vmap.map fun e => fresh e.1).zip r') with d | a <;>
              rcases s2 : stackValues ((vmap.map fun e => fresh e.1).zip r) with d' | xs <;>
              simp only [s1, s2] at hsc ⊢
            · rw [Except.error.inj hsc]
            · rw [← hsc]
            · rw [hsc]
            · rw [hsc]
              rfl
    · simp only [if_neg hlen]

/-- **C91** (JVP): the JVP of `analytical_gpsr_fwd`, which `jax.grad` uses, gives the same value and derivative, or the same
error, when all numbers in `values` are replaced by arrays of shape `(1,)`, or some of them by arrays without axes. -/
theorem C91_jvp (fresh : ℕ → String) (h : v.AsScalars v' ∨ v.AsVectors v') {ga : GateArg} (hg : ∀ g ∈ ga.members, g.Rot)
    {obs : List Observable} (ho : ∀ o ∈ obs, o.Rot) (st : State) (ts : List ℝ) :
    gpsrJvpA eigh fresh (gatesExpectationA so st obs) ga v' ts = gpsrJvp eigh fresh (gatesExpectation so st obs) ga v ts :=
  gpsrJvp_agrees eigh fresh (agrees_gates so ho st hg)
    (fun gs e => agrees_gates so ho st (by subst e; exact rot_renamed hg)) h ts

/-- The scan with shots, for any evaluations that agree. -/
theorem shotsScan_agrees {κ : Type} (split : κ → ℕ → ℕ → κ) {F F' : κ → GateArg → Values → Py (List ℝ)} {ga : GateArg}
    (hF : ∀ k, Agrees (F' k) (F k) ga) {u u' : Values} (h : u.AsScalars u' ∨ u.AsVectors u') (gaps : List ℝ) (key : κ) :
    (do shotsScanA split F' ga u.keys (squeezeLast (← stackArrays u')) gaps key : Py (List (List ℝ)))
      = (do shotsScan split F ga u.keys (← stackValues u) gaps key) := by
  rcases stack_eq h with ⟨rfl, rfl⟩ | ⟨xs, hk, h1, a, h2, ha⟩
  · rfl
  · simp only [h1, h2, bind, Except.bind, shotsScanA, shotsScan, shotsRow_agrees split hF hk ha]

/-- **C91** (JVP with shots): the same for the JVP of `finite_shots_fwd`, for the same keys. -/
theorem C91_shots_jvp {κ : Type} (split : κ → ℕ → ℕ → κ) (us : κ → List ℝ) (fresh : ℕ → String)
    (h : v.AsScalars v' ∨ v.AsVectors v') {ga : GateArg} (hg : ∀ g ∈ ga.members, g.Rot)
    {obs : List Observable} (ho : ∀ o ∈ obs, o.Rot) (st : State) (ts : List ℝ) (key : κ) :
    shotsJvpA eigh fresh split (fun k => finiteShotsGatesA so eigh st obs (us k)) ga v' ts key
      = shotsJvp eigh fresh split (fun k => finiteShotsGates so eigh st obs (us k)) ga v ts key := by
  have hF : ∀ k, Agrees (finiteShotsGatesA so eigh st obs (us k)) (finiteShotsGates so eigh st obs (us k)) ga :=
    fun k => agrees_shots so eigh ho st (us k) hg
  have hF' : ∀ gs, ga = .list gs → ∀ k, Agrees (finiteShotsGatesA so eigh st obs (us k)) (finiteShotsGates so eigh st obs (us k))
      (.list (createRenamed fresh gs v.keys)) :=
    fun gs e k => agrees_shots so eigh ho st (us k) (by subst e; exact rot_renamed hg)
  obtain ⟨hs, hn⟩ := asOne_facts h
  simp only [shotsJvpA, shotsJvp, hF key v v' hn hs, hs.keys, hs.size1 hn, Bool.false_eq_true, if_false, pure_bind]
  have hscan := shotsScan_agrees split hF h (v.keys.map fun _ => initialGap) key
  congr 1
  funext fwd
  have hplain : (do
      let a ← stackArrays v'
      let grads ← shotsScanA split (fun k => finiteShotsGatesA so eigh st obs (us k)) ga v.keys (squeezeLast a)
        (v.keys.map fun _ => initialGap) key
      pure (fwd, contract fwd.length grads ts) : Py (List ℝ × List ℝ)) = (do
      let xs ← stackValues v
      let grads ← shotsScan split (fun k => finiteShotsGates so eigh st obs (us k)) ga v.keys xs
        (v.keys.map fun _ => initialGap) key
      pure (fwd, contract fwd.length grads ts)) := by
    rw [← bind_assoc, ← bind_assoc, hscan]
  rw [hplain]
  cases ga with
  | single g => rfl
  | list gs =>
    by_cases hlen : (extractGateNames gs).length > v.keys.length
    · simp only [if_pos hlen]
      congr 1
      funext b
      cases b with
      | false => rfl
      | true =>
        simp only [if_true]
        generalize (v.keys.flatMap fun p => (paramIndices gs p).map fun i => (i, p)) = vmap
        rcases renamed_values h Prod.snd vmap (vmap.map fun e => fresh e.1) with ⟨e, e1, e2⟩ | ⟨r, r', e1, e2, e3, e4⟩
        · simp only [e1, e2]
          rfl
        · simp only [e1, e2, bind, Except.bind]
          have hkeys : Values.keys ((vmap.map fun e => fresh e.1).zip r) = vmap.map fun e => fresh e.1 := by
            simp [Values.keys, List.map_fst_zip, e3]
          generalize (List.mapM (m := Py) _ vmap) = gaps
          cases gaps with
          | error e => rfl
          | ok gaps =>
            have hsc := shotsScan_agrees split (hF' gs rfl) e4 gaps key
            rw [hkeys] at hsc
            simp only [bind, Except.bind] at hsc
            rcases s1 : stackArrays ((vmap.map fun e => fresh e.1).zip r') with d | a <;>
              rcases s2 : stackValues ((vmap.map fun e => fresh e.1).zip r) with d' | xs <;>
              simp only [s1, s2] at hsc ⊢
            · rw [Except.error.inj hsc]
            · rw [← hsc]
            · rw [hsc]
            · rw [hsc]
              rfl
    · simp only [if_neg hlen]

section
variable {n : ℕ} {nss : List (List StdNoise)} {st : State} {obs : List Observable} {Os : List (Matrix (Lab n) (Lab n) ℂ)}

/-- **C91** (exact gradients): with values of shape `(1,)`, as in the tests, the JVP is the exact directional derivative in
the setting of C23 (every name used by at most one gate). -/
theorem C91_gradient {circuit : Op} (hp : circuit.Plain) (h : Setting so n v circuit.gates nss st obs Os)
    (hs : SingleUse circuit.gates) (hk : v ≠ []) (hg : ∀ g ∈ circuit.gates, g.Rot) (ho : ∀ o ∈ obs, o.Rot)
    (hv : v.AsScalars v' ∨ v.AsVectors v') (fresh : ℕ → String) (ts : List ℝ) :
    ∃ (D : String → List ℝ) (fwd : List ℝ),
      (∀ p ∈ v.map Prod.fst, IsPartial (fun u => expectation so eigh draw st circuit obs u .gpsr 0) v p (D p)) ∧
      gpsrJvpA eigh fresh (gatesExpectationA so st obs) (.list circuit.gates) v' ts
        = .ok (fwd, List.ofFn fun i : Fin fwd.length =>
          (List.zipWith (fun p t => (D p).getD i 0 * t) (v.map Prod.fst) ts).sum) := by
  obtain ⟨D, fwd, h1, -, h3⟩ := C23_jvp so eigh draw hp h hs hk fresh ts
  exact ⟨D, fwd, h1, by rw [C91_jvp so eigh fresh hv (ga := .list circuit.gates) hg ho, h3]⟩

/-- **C91** (exact gradients, shared names): the same in the setting of C24. -/
theorem C91_gradient_repeated {circuit : Op} (hp : circuit.Plain) (h : Setting so n v circuit.gates nss st obs Os)
    (hs : ¬ SingleUse circuit.gates) (hall : ∀ p ∈ v.map Prod.fst, ∃ g ∈ circuit.gates, g.Uses p)
    (hr : ∀ g ∈ circuit.gates, (∃ p, g.Uses p) → g.Registered) {fresh : ℕ → String} (hf : Function.Injective fresh)
    (hg : ∀ g ∈ circuit.gates, g.Rot) (ho : ∀ o ∈ obs, o.Rot) (hv : v.AsScalars v' ∨ v.AsVectors v') (ts : List ℝ) :
    ∃ (D : String → List ℝ) (fwd : List ℝ),
      (∀ p ∈ v.map Prod.fst, IsPartial (fun u => expectation so eigh draw st circuit obs u .gpsr 0) v p (D p)) ∧
      gpsrJvpA eigh fresh (gatesExpectationA so st obs) (.list circuit.gates) v' ts
        = .ok (fwd, List.ofFn fun i : Fin fwd.length =>
          (List.zipWith (fun p t => (D p).getD i 0 * t) (v.map Prod.fst) ts).sum) := by
  obtain ⟨D, fwd, h1, -, h3⟩ := C24_jvp_partial so eigh draw hp h hs hall hr hf ts
  exact ⟨D, fwd, h1, by rw [C91_jvp so eigh fresh hv (ga := .list circuit.gates) hg ho, h3]⟩
end

/-! ### Where the JVP differs -/

/-- **C91 is false of the code for values of different shapes**: although the forward pass accepts any mixture of numbers and
arrays of size one (`C91_expectation`), the JVP raises ValueError as soon as two values have different shapes (for circuits
with at most as many parametrized gates as values). -/
theorem C91_mixed (hn : v.AllNum) (hs : v.SizeOne v') {ga : GateArg}
    (hlen : ∀ gs, ga = .list gs → (extractGateNames gs).length ≤ v.keys.length) {F : GateArg → Values → Py (List ℝ)}
    {fwd : List ℝ} (hf : F ga v' = .ok fwd) {e e' : String × PyVal} (he : e ∈ v') (he' : e' ∈ v') {a b : NDArray ℂ}
    (ha : e.2.toArr = .ok a) (hb : e'.2.toArr = .ok b) (hne : a.shape ≠ b.shape) (fresh : ℕ → String) (ts : List ℝ) :
    gpsrJvpA eigh fresh F ga v' ts = .error .valueError := by
  have hall : ∀ e ∈ v', ∃ c, e.2.toArr = .ok c := by
    clear hf he he' hlen
    induction hs with
    | nil => intro e he; cases he
    | @cons d d' l l' hd _ ih =>
      intro e he
      rcases List.mem_cons.1 he with rfl | he
      · obtain ⟨x, hx⟩ := hn d (by simp)
        have h2 := hd.2
        rw [hx] at h2
        rcases h3 : e.2 with y | c | c <;> rw [h3] at h2
        · exact ⟨_, rfl⟩
        · exact ⟨_, rfl⟩
        · cases h2
      · exact ih (fun e he => hn e (List.mem_cons_of_mem _ he)) e he
  have hmap : ∃ cs, (v'.mapM fun e => e.2.toArr) = .ok cs ∧ ∀ e ∈ v', ∀ c, e.2.toArr = .ok c → c ∈ cs := by
    clear hf he he' hlen hs
    induction v' with
    | nil => exact ⟨[], rfl, by simp⟩
    | cons d l ih =>
      obtain ⟨cs, h1, h2⟩ := ih fun e he => hall e (List.mem_cons_of_mem _ he)
      obtain ⟨c, hc⟩ := hall d (by simp)
      refine ⟨c :: cs, by rw [List.mapM_cons, hc, h1]; rfl, fun e he c' hc' => ?_⟩
      rcases List.mem_cons.1 he with rfl | he
      · rw [hc] at hc'; cases hc'; simp
      · exact List.mem_cons_of_mem _ (h2 e he c' hc')
  obtain ⟨cs, h1, h2⟩ := hmap
  have hst : stackArrays v' = .error .valueError := by
    simp only [stackArrays, h1, bind, Except.bind]
    cases cs with
    | nil => rfl
    | cons c cs =>
      simp only
      rw [if_neg]
      intro h
      rw [List.all_eq_true] at h
      have r1 := h a (h2 e he a ha)
      have r2 := h b (h2 e' he' b hb)
      simp only [decide_eq_true_eq] at r1 r2
      exact hne (r1.trans r2.symm)
  simp only [gpsrJvpA, hf, hs.keys, hs.size1 hn, Bool.false_eq_true, if_false, pure_bind, hst]
  cases ga with
  | single g => rfl
  | list gs =>
    simp only [if_neg (not_lt.2 (hlen gs rfl))]
    rfl

/-- `RX("a", 0)` on `|0⟩` with `a = [x, y]`: only the first entry matters. -/
theorem once_two {u : Values} {x y : ℝ} (h : u.lookup "a" = some (.arr ⟨[2], [(x : ℂ), (y : ℂ)]⟩)) :
    gatesExpectationA so (.vec zero1) [obsZ] (.list onceRX.gates) u = .ok [Real.cos x] := by
  obtain ⟨r, h1, h2, h3⟩ := C77_two (n := 1) so (g := Gate.RX (.str "a") (.int 0)) (p := "a") rfl rfl rfl .X (t := 0) rfl
    ⟨.inr (.inl rfl), by decide⟩ (values := u) h zero1_isKet false true
  have hl : applyGatesA so (.vec zero1) (.list onceRX.gates) u = .ok (.vec r) := by
    obtain ⟨U, hU, -, -⟩ := C77_entries (g := Gate.RX (.str "a") (.int 0)) (p := "a") rfl rfl .X (values := u) h (.two x y)
    rw [← h1, onceRX_gates]
    simp only [applyGatesA, applyGatesOf, prepareSequenceReduce, Bool.false_eq_true, if_false, List.mapM_cons, List.mapM_nil,
      Gate.operatorA, hU]
    rfl
  have ho : expectSingleA so u obsZ (.vec r) = .ok (expVal (gateMat 1 StdGate.Z.mat [0] []) ((State.vec r).mat 1)) := by
    rw [expectSingleA_eq so (v := u) (o := obsZ) (show Op.AllSameA u u [.prim (Gate.Z (.int 0))] from ⟨rfl, trivial⟩),
      expectSingle_vec so (Op.MeansSum.mono (fun _ _ h => StdLeaf.any h) (obsZ_fixed so True u).1) h2]
  simp only [gatesExpectationA, List.mapM_cons, List.mapM_nil, hl, ho, bind, Except.bind, pure, Except.pure, stackReal,
    List.cons_ne_nil, if_false]
  rw [expVal_vec, h3, sum_lab1]
  have hk : ∀ i : Fin 2, (gateMat 1 (matE (rotEntry !![0, 1; 1, 0] !![x, y; x, y])) [0] []).mulVec (ket 1 zero1) (lab1 i)
      = rotEntry !![0, 1; 1, 0] !![x, y; x, y] i 0 := by
    intro i
    have := mulVec_lab1 (matE (rotEntry !![0, 1; 1, 0] !![x, y; x, y])) (ket 1 zero1) i
    rw [matE_lt _ i.isLt (by norm_num), matE_lt _ i.isLt (by norm_num)] at this
    rw [this]
    simp [ket, zero1_get]
  have hc : ctlInts (Gate.RX (.str "a") (.int 0)).control = [] := rfl
  rw [hc]
  simp only [mulVec_lab1 StdGate.Z.mat, hk]
  have hs := Real.sin_sq_add_cos_sq (x / 2)
  have h2 : Real.cos x = 2 * Real.cos (x / 2) ^ 2 - 1 := by
    rw [← Real.cos_two_mul (x / 2)]; ring_nf
  refine congrArg (fun z => Except.ok [z]) ?_
  rw [h2]
  simp only [rotEntry, StdGate.mat, matE, Matrix.cons_val', Matrix.cons_val_zero, Matrix.cons_val_one, Matrix.of_apply,
    Matrix.cons_val_fin_one]
  clear h2
  generalize Real.cos (x / 2) = c at hs ⊢
  generalize Real.sin (x / 2) = d at hs ⊢
  norm_num [Complex.add_re, Complex.mul_re, Complex.mul_im, Complex.add_im]
  nlinarith

theorem once_valueZ {u : Values} {t : ℝ} (hu : u.lookup "a" = some (.num t)) :
    gatesExpectation so (.vec zero1) [obsZ] (.list onceRX.gates) u = .ok [Real.cos t] := by
  have hm : (Gate.RX (.str "a") (.int 0)).mat 1 .unitary u = gateMat 1 (StdGate.RX t).mat [0] [] := (rxStd hu).mat
  rw [gatesExpectation_pure (n := 1) (O := gateMat 1 StdGate.Z.mat [0] []) (by simp [onceRX_gates]) (by
    simp only [onceRX_gates, List.mem_cons, List.not_mem_nil, or_false, forall_eq]
    exact (rxStd hu).ok) (by simp [onceRX_gates, Gate.RX, mkGate]) zero1_isKet (obsZ_fixed so _)]
  rw [onceRX_gates, gatesMat, gatesMat, hm, one_mul, sum_lab1]
  simp only [mulVec_lab1, ket, zero1_get, StdGate.mat, matE]
  have hs := Real.sin_sq_add_cos_sq (t / 2)
  have h2 : Real.cos t = 2 * Real.cos (t / 2) ^ 2 - 1 := by
    rw [← Real.cos_two_mul (t / 2)]; ring_nf
  refine congrArg (fun z => Except.ok [z]) ?_
  rw [h2]
  clear h2
  generalize Real.cos (t / 2) = c at hs ⊢
  generalize Real.sin (t / 2) = d at hs ⊢
  norm_num [Complex.add_re, Complex.mul_re, Complex.mul_im, Complex.add_im]
  nlinarith

/-- **C91 is false of the code for values of shape `(1, 1)`**: for the circuit `[RX("a", 0)]` on `|0⟩`, the observable `Z(0)`
and the values `b = [[y]]`, `a = [[x]]`, the forward pass returns `cos x`, whose derivatives with respect to `a` and `b` are
`-sin x` and `0`; but the JVP returns `0` for `a` and `-sin x` for `b`, which no gate uses.  (`squeeze(-1)` removes one
axis only, so that adding the shift vector broadcasts it over the remaining one.) -/
theorem C91_matrix_wrong (fresh : ℕ → String) (x y : ℝ) :
    let v : Values := [("b", .num y), ("a", .num x)]
    let v' : Values := [("b", .arr ⟨[1, 1], [(y : ℂ)]⟩), ("a", .arr ⟨[1, 1], [(x : ℂ)]⟩)]
    IsPartial (fun u => expectation so eigh draw (.vec zero1) onceRX [obsZ] u .gpsr 0) v "a" [-Real.sin x] ∧
    IsPartial (fun u => expectation so eigh draw (.vec zero1) onceRX [obsZ] u .gpsr 0) v "b" [0] ∧
    expectationA so eigh draw (.vec zero1) onceRX [obsZ] v' .gpsr 0 = .ok [Real.cos x] ∧
    gpsrJvpA eigh fresh (gatesExpectationA so (.vec zero1) [obsZ]) (.list onceRX.gates) v' [0, 1] = .ok ([Real.cos x], [0]) ∧
    gpsrJvpA eigh fresh (gatesExpectationA so (.vec zero1) [obsZ]) (.list onceRX.gates) v' [1, 0]
      = .ok ([Real.cos x], [-Real.sin x]) := by
  intro v v'
  have hs : v.SizeOne v' := .cons ⟨rfl, .array y (.inr (.inr rfl))⟩ (.cons ⟨rfl, .array x (.inr (.inr rfl))⟩ .nil)
  have hn : v.AllNum := by
    intro e he
    simp only [v, List.mem_cons, List.not_mem_nil, or_false] at he
    rcases he with rfl | rfl <;> exact ⟨_, rfl⟩
  have hval : ∀ {u : Values} {t : ℝ}, u.lookup "a" = some (.num t) →
      gatesExpectation so (.vec zero1) [obsZ] (.list onceRX.gates) u = .ok [Real.cos t] := fun hu => once_valueZ so hu
  have hexp : ∀ {u : Values} {t : ℝ}, u.lookup "a" = some (.num t) →
      expectation so eigh draw (.vec zero1) onceRX [obsZ] u .gpsr 0 = .ok [Real.cos t] := fun hu =>
    (expectation_gates so eigh draw (.seq (.cons (.prim _) .nil)) _).trans (hval hu)
  have hrot : ∀ g ∈ (GateArg.list onceRX.gates).members, g.Rot := by
    intro g hg
    simp only [GateArg.members, onceRX_gates, List.mem_singleton] at hg
    subst hg
    exact .rotation rfl .X
  have hobs : ∀ o ∈ [obsZ], o.Rot := by
    intro o ho
    rw [List.mem_singleton] at ho
    subst ho
    exact ⟨.primitive rfl, trivial⟩
  have hfwd : gatesExpectationA so (.vec zero1) [obsZ] (.list onceRX.gates) v' = .ok [Real.cos x] := by
    rw [agrees_gates so hobs (.vec zero1) hrot v v' hn hs]
    exact hval rfl
  have hstack : stackArrays v' = .ok ⟨[2, 1, 1], [(y : ℂ), (x : ℂ)]⟩ := by
    simp only [v', stackArrays, List.mapM_cons, List.mapM_nil, PyVal.toArr]
    rfl
  have hsq : squeezeLast ⟨[2, 1, 1], [(y : ℂ), (x : ℂ)]⟩ = ⟨[2, 1], [(y : ℂ), (x : ℂ)]⟩ := rfl
  have hshift : ∀ (i : ℕ) (δ : ℝ), shiftRows ["b", "a"] ⟨[2, 1], [(y : ℂ), (x : ℂ)]⟩ i δ
      = .ok [("b", .arr ⟨[2], [(y : ℂ) + if 0 = i then (δ : ℂ) else 0, (y : ℂ) + if 1 = i then (δ : ℂ) else 0]⟩),
        ("a", .arr ⟨[2], [(x : ℂ) + if 0 = i then (δ : ℂ) else 0, (x : ℂ) + if 1 = i then (δ : ℂ) else 0]⟩)] := by
    intro i δ
    simp [shiftRows, bcast2, shiftVector, bcastShape, padShape, bcastDim, ofFn_two, mat2, bcastIdx, NDArray.get, ravel,
      List.range_succ, bind, Except.bind, arrayRows, pure, Except.pure]
  have hrow : ∀ (i : ℕ), jvpRowA (gatesExpectationA so (.vec zero1) [obsZ]) (.list onceRX.gates) ["b", "a"]
      ⟨[2, 1], [(y : ℂ), (x : ℂ)]⟩ initialGap i = .ok [if 0 = i then -Real.sin x else 0] := by
    intro i
    have hv2 : ∀ δ : ℝ, gatesExpectationA so (.vec zero1) [obsZ] (.list onceRX.gates)
        [("b", .arr ⟨[2], [(y : ℂ) + if 0 = i then (δ : ℂ) else 0, (y : ℂ) + if 1 = i then (δ : ℂ) else 0]⟩),
        ("a", .arr ⟨[2], [(x : ℂ) + if 0 = i then (δ : ℂ) else 0, (x : ℂ) + if 1 = i then (δ : ℂ) else 0]⟩)]
        = .ok [Real.cos (x + if 0 = i then δ else 0)] := by
      intro δ
      refine once_two so (y := x + if 1 = i then δ else 0) ?_
      simp only [List.lookup]
      split_ifs <;> simp
    simp only [jvpRowA, hshift, bind, Except.bind, hv2]
    split_ifs with hi
    · simp [gpsrRule, gpsrShift, initialGap, Real.cos_add_pi_div_two, Real.cos_sub_pi_div_two, ← sub_eq_add_neg]
      ring
    · simp [gpsrRule, gpsrShift, initialGap]
  have hjvp : ∀ ts, gpsrJvpA eigh fresh (gatesExpectationA so (.vec zero1) [obsZ]) (.list onceRX.gates) v' ts
      = .ok ([Real.cos x], contract 1 [[-Real.sin x], [0]] ts) := by
    intro ts
    have hk : v'.keys = ["b", "a"] := rfl
    have hlen : ¬ (extractGateNames onceRX.gates).length > 2 := by
      simp [extractGateNames, onceRX_gates, Gate.RX, mkGate, Gate.paramName]
    have h0 := hrow 0
    have h1 := hrow 1
    simp only [gpsrJvpA, hfwd, hs.size1 hn, Bool.false_eq_true, if_false, hk, hstack, hsq, jvpScanA, bind, Except.bind,
      List.length_cons, List.length_nil, zero_add, Nat.reduceAdd, if_neg hlen]
    simp only [List.range_succ, List.range_zero, List.nil_append, List.cons_append, List.mapM_cons, List.mapM_nil, List.map_cons,
      List.map_nil, List.getD_cons_zero, List.getD_cons_succ, h0, h1, bind, Except.bind, pure, Except.pure]
    simp
  refine ⟨⟨x, fun t => [Real.cos t], rfl, fun t => hexp rfl, fun t => rfl, fun i => ?_⟩,
    ⟨y, fun _ => [Real.cos x], rfl, fun t => hexp rfl, fun t => rfl, fun i => ?_⟩, ?_, ?_, ?_⟩
  · cases i with
    | zero => simpa using Real.hasDerivAt_cos x
    | succ i => simpa using hasDerivAt_const x (0 : ℝ)
  · cases i with
    | zero => simpa using hasDerivAt_const y (Real.cos x)
    | succ i => simpa using hasDerivAt_const y (0 : ℝ)
  · rw [C91_expectation so eigh draw hs (.inl rfl) (circuit := onceRX) ⟨by simp, (hrot _ (by simp [GateArg.members, onceRX_gates])).arrayOk hn, trivial⟩ (fun o ho => ?_)]
    · exact hexp rfl
    · rw [List.mem_singleton] at ho
      subst ho
      exact ⟨.primitive rfl, trivial⟩
  · rw [hjvp]
    simp [contract]
  · rw [hjvp]
    simp [contract]

/-! ## Non-vacuity -/

theorem twiceRX_rot : ∀ g ∈ twiceRX.gates, g.Rot := by
  intro g hg
  simp only [twiceRX_gates, List.mem_cons, List.not_mem_nil, or_false, or_self] at hg
  subst hg
  exact .rotation rfl .X

theorem obsZ_rot : ∀ o ∈ [obsZ], o.Rot := by
  intro o ho
  rw [List.mem_singleton] at ho
  subst ho
  exact ⟨.primitive rfl, trivial⟩

theorem asVectors_one (k : String) (x : ℝ) : Values.AsVectors [(k, .num x)] [(k, .arr ⟨[1], [(x : ℂ)]⟩)] :=
  .cons ⟨rfl, x, rfl, rfl⟩ .nil

/-- Non-vacuity of `C91_gradient_repeated` (and of `C91_jvp`, `C91_bwd`): the circuit of tests/differentiation/test_gpsr.py with
one name used twice and a value of shape `(1,)`. -/
example : twiceRX.Plain ∧ Setting so 1 [("a", .num 1)] twiceRX.gates [[], []] (.vec zero1) [obsZ]
      [gateMat 1 StdGate.Z.mat [0] []] ∧ ¬ SingleUse twiceRX.gates ∧
    (∀ p ∈ ([("a", .num 1)] : Values).map Prod.fst, ∃ g ∈ twiceRX.gates, g.Uses p) ∧
    (∀ g ∈ twiceRX.gates, (∃ p, g.Uses p) → g.Registered) ∧ (∀ g ∈ twiceRX.gates, g.Rot) ∧ (∀ o ∈ [obsZ], o.Rot) ∧
    Values.AsVectors [("a", .num 1)] [("a", .arr ⟨[1], [((1 : ℝ) : ℂ)]⟩)] := by
  refine ⟨twiceRX_plain, twiceSetting so ⟨by simp, by simp⟩ rfl, twice_not_single, ?_, fun g hg _ => twice_registered g hg,
    twiceRX_rot, obsZ_rot, asVectors_one "a" 1⟩
  simp only [List.map_cons, List.map_nil, List.mem_singleton, forall_eq]
  exact ⟨Gate.RX (.str "a") (.int 0), by simp [twiceRX_gates], rfl⟩

/-- Non-vacuity of `C91_run` and `C91_expectation`, with a result: `cos(2x)`. -/
example (x : ℝ) (mode : DiffMode) (hm : mode = .gpsr ∨ mode = .ad) :
    expectationA so eigh draw (.vec zero1) twiceRX [obsZ] [("a", .arr ⟨[1, 1], [(x : ℂ)]⟩)] mode 0 = .ok [Real.cos (2 * x)] := by
  have hs : Values.SizeOne [("a", .num x)] [("a", .arr ⟨[1, 1], [(x : ℂ)]⟩)] := .cons ⟨rfl, .array x (.inr (.inr rfl))⟩ .nil
  have hn : Values.AllNum [("a", .num x)] := by
    intro e he
    rw [List.mem_singleton] at he
    subst he
    exact ⟨x, rfl⟩
  have hg := (twiceRX_rot _ (by rw [twiceRX_gates]; exact List.mem_cons_self)).arrayOk hn
    (v' := [("a", .arr ⟨[1, 1], [(x : ℂ)]⟩)])
  rw [C91_expectation so eigh draw hs (.inl rfl) (circuit := twiceRX) ⟨by simp, hg, hg, trivial⟩ (fun o ho => ?_)]
  · have := (expectation_gates so eigh draw twiceRX_plain [("a", .num x)]).trans (twice_value so rfl)
    rcases hm with rfl | rfl
    · exact this
    · rw [C20_ad_gpsr so eigh draw (.inl rfl)]; exact this
  · rw [List.mem_singleton] at ho
    subst ho
    exact ⟨.primitive rfl, trivial⟩

/-- Non-vacuity of `C91_separate`. -/
example (x : ℝ) : Values.Splits [("circuit", .dict [("a", .num x)]), ("observables", .dict [])] [("a", .num x)] [] ∧
    Values.Splits [("circuit", .dict [("a", .arr ⟨[1], [(x : ℂ)]⟩)]), ("observables", .dict [])] [("a", .arr ⟨[1], [(x : ℂ)]⟩)] [] ∧
    Values.SizeOne [("a", .num x)] [("a", .arr ⟨[1], [(x : ℂ)]⟩)] :=
  ⟨.inl ⟨rfl, rfl⟩, .inl ⟨rfl, rfl⟩, (asVectors_one "a" x).sizeOne⟩

/-- Non-vacuity of `C91_mixed`: a number and an array of shape `(1,)`. -/
example (x y : ℝ) (fresh : ℕ → String) :
    gpsrJvpA eigh fresh (gatesExpectationA so (.vec zero1) [obsZ]) (.list onceRX.gates)
      [("b", .num y), ("a", .arr ⟨[1], [(x : ℂ)]⟩)] [0, 1] = .error .valueError := by
  have hs : Values.SizeOne [("b", .num y), ("a", .num x)] [("b", .num y), ("a", .arr ⟨[1], [(x : ℂ)]⟩)] :=
    .cons ⟨rfl, .refl _⟩ (.cons ⟨rfl, .array x (.inr (.inl rfl))⟩ .nil)
  have hn : Values.AllNum [("b", .num y), ("a", .num x)] := by
    intro e he
    simp only [List.mem_cons, List.not_mem_nil, or_false] at he
    rcases he with rfl | rfl <;> exact ⟨_, rfl⟩
  have hrot : ∀ g ∈ (GateArg.list onceRX.gates).members, g.Rot := by
    intro g hg
    simp only [GateArg.members, onceRX_gates, List.mem_singleton] at hg
    subst hg
    exact .rotation rfl .X
  have hf : gatesExpectationA so (.vec zero1) [obsZ] (.list onceRX.gates) [("b", .num y), ("a", .arr ⟨[1], [(x : ℂ)]⟩)]
      = .ok [Real.cos x] := by
    rw [agrees_gates so obsZ_rot (.vec zero1) hrot _ _ hn hs]
    exact once_valueZ so rfl
  refine C91_mixed eigh hn hs (ga := .list onceRX.gates) (fun gs e => ?_) hf
    (e := ("b", .num y)) (by simp) (e' := ("a", .arr ⟨[1], [(x : ℂ)]⟩)) (by simp) rfl rfl (by simp [arr0]) fresh [0, 1]
  cases e
  simp [extractGateNames, onceRX_gates, Gate.RX, mkGate, Gate.paramName, Values.keys]

end Verif
