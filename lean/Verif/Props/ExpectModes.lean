import Verif.Props.Expectation
import Verif.Lemmas.Subst

/-!
# Property theorems about the modes of `expectation`

C20, C37, C38, C46 (`run` and `expectation`).
-/

namespace Verif
open NDArray
variable {n : ℕ} {values : Values} (so : SetOrder) (eigh : Eigh) (draw : Draw)

/-! ## C20 -/

/-- **C20** (AD and GPSR): with flat values, `diff_mode=AD` and `diff_mode=GPSR` return the same values or raise the
same error, for every circuit, state, list of observables and number of shots. -/
theorem C20_ad_gpsr (hf : values.Flat) (state : State) (circuit : Op) (obs : List Observable) (nShots : ℤ) :
    expectation so eigh draw state circuit obs values .ad nShots
      = expectation so eigh draw state circuit obs values .gpsr nShots := by
  have : adExpectation so state circuit obs values = analyticalExpectation so state circuit.iter obs values := by
    simp only [adExpectation, analyticalExpectation, hf.splits.processing, bind, Except.bind]
  simp only [expectation, this]

theorem applyGates_vec_kind {a : NDArray ℂ} {gs : List Gate} (hz : ∀ g ∈ gs, g.noise = none) (ot : OpType) (group merge : Bool)
    {r : State} (h : applyGates so (.vec a) (.list gs) values ot group merge = .ok r) : ∃ b, r = .vec b := by
  simp only [applyGates, bind, Except.bind] at h
  rcases hp : prepareSequenceReduce (fun g : Gate => g.operator ot values) matmul (.list gs) group merge with e | ⟨ops, noise⟩
  · simp [hp] at h
  · simp only [hp] at h
    by_cases hn : allNoiseless noise = true
    · simp only [hn] at h
      rcases hr : reduceApply ops a with e | b
      · simp [hr] at h
      · simp only [hr] at h
        exact ⟨b, by simpa using h.symm⟩
    · exfalso
      apply hn
      have hnoise : noise = (if group then groupByIndex gs else gs).map Gate.noise := by
        simp only [prepareSequenceReduce, bind, Except.bind] at hp
        generalize (if group = true then groupByIndex gs else gs) = l at hp ⊢
        rcases hm : l.mapM (fun g : Gate => g.operator ot values) with e | us
        · simp [hm] at hp
        · simp only [hm] at hp
          split at hp
          · simp at hp
          · split at hp
            · rcases hmo : mergeOperators matmul (List.zipWith (fun o (g : Gate) => (o, g.target, g.control)) us l) with e | q
              · simp [hmo] at hp
              · simp only [hmo] at hp
                simp only [Except.ok.injEq, Prod.mk.injEq] at hp
                exact hp.2.symm
            · simp only [Except.ok.injEq, Prod.mk.injEq] at hp
              exact hp.2.symm
      rw [hnoise]
      refine allNoiseless_map fun g hg => hz g ?_
      split at hg
      · exact (groupByIndex_perm gs).subset hg
      · exact hg

/-- **C20** (AD and ADJOINT): with flat values and `n_shots=0`, `diff_mode=AD` and `diff_mode=ADJOINT` return the same
values or raise the same error on state vectors, for every circuit without noise and every list of observables.
With noise ADJOINT raises (`C20_adjoint_noise`). -/
theorem C20_ad_adjoint_partial (hf : values.Flat) (a : NDArray ℂ) (circuit : Op)
    (hz : ∀ g, Op.prim g ∈ circuit.iter → g.noise = none) (obs : List Observable) :
    expectation so eigh draw (.vec a) circuit obs values .ad 0
      = expectation so eigh draw (.vec a) circuit obs values .adjoint 0 := by
  have : (fun o => do
      let st ← applyOps so (.vec a) circuit.iter values
      expectSingle so values o st) = adjointSingle so (.vec a) circuit values := by
    funext o
    simp only [adjointSingle, bind, Except.bind]
    rcases h : applyOps so (.vec a) circuit.iter values with e | r
    · rfl
    · have hv : ∃ b, r = .vec b := by
        simp only [applyOps, bind, Except.bind] at h
        rcases hg : opsToGates circuit.iter with e | gs
        · simp [hg] at h
        · simp only [hg] at h
          refine applyGates_vec_kind so (fun g hgm => hz g ?_) _ _ _ h
          clear h hz
          generalize circuit.iter = l at hg ⊢
          induction l generalizing gs with
          | nil => cases hg; cases hgm
          | cons x xs ih =>
            cases x with
            | comp k ops => cases hg
            | prim g' =>
              simp only [opsToGates, bind, Except.bind] at hg
              rcases hx : opsToGates xs with e | gs'
              · simp [hx] at hg
              · simp only [hx, pure, Except.pure, Except.ok.injEq] at hg
                subst hg
                rcases List.mem_cons.1 hgm with rfl | hm
                · simp
                · exact List.mem_cons_of_mem _ (ih gs' hm hx)
      obtain ⟨b, rfl⟩ := hv
      simp only [expectSingle, bind, Except.bind]
  simp only [expectation, lt_irrefl, if_false, if_true, adExpectation, adjointExpectation, hf.splits.processing]
  rw [← this]
  rfl

/-- The circuit `X(0)` followed by a bit flip. -/
noncomputable def noisyX : Op := mkCircuit 1 (.list [.prim (Gate.X (.int 0) (noise := some [⟨.bitFlip, .float (1 / 4)⟩]))])

theorem noisyX_circuit : noisyX.Circuit 1 values [[.bitFlip (1 / 4)]] := by
  refine ⟨.circ _ _ (.cons (.prim _) .nil), by simp [noisyX, mkCircuit, OpArg.toList, Op.gates, Op.gatesList], ?_, ?_⟩
  · simp only [noisyX, mkCircuit, OpArg.toList, Op.gates, Op.gatesList, List.append_nil, List.mem_singleton, forall_eq]
    exact Gate.Std.ok ⟨.X _ _ _, rfl, ⟨.inr (.inl rfl), by decide⟩⟩
  · exact .cons (.some rfl (.cons (.bitFlip (by norm_num)) .nil) (.inr ⟨0, rfl⟩)) .nil

/-- **C20 is false of the code for noisy circuits**: for `X(0)` with a bit flip, applied to `|0⟩`, and the observable
`Z(0)`, ADJOINT raises AttributeError while AD (and GPSR, by `C20_ad_gpsr`) returns a value. -/
theorem C20_adjoint_noise : ∃ (circuit : Op) (a : NDArray ℂ),
    (∃ x, expectation so eigh draw (.vec a) circuit [obsZ] [] .ad 0 = .ok [x]) ∧
    expectation so eigh draw (.vec a) circuit [obsZ] [] .adjoint 0 = .error .attributeError := by
  obtain ⟨r, h1, h2, h3⟩ := circuit_run so (noisyX_circuit (values := [])) (st := .vec zero1) zero1_isKet
  have hn : ¬ ∀ g ∈ noisyX.gates, g.noise = none := by
    simp [noisyX, mkCircuit, OpArg.toList, Op.gates, Op.gatesList, Gate.X, mkGate]
  cases r with
  | vec b => exact absurd h3.1 hn
  | dm ρ =>
    have hρ : IsDM 1 ρ := h3.2.1
    refine ⟨noisyX, zero1, ⟨_, ad_of_single so eigh draw (.inr ⟨.inl rfl, rfl, rfl⟩) h2 (by simp)
      (.cons ((obsZ_simple so).single_dm so hρ) .nil)⟩, ?_⟩
    obtain ⟨q, q1, -⟩ := applyGates_dm so (gs := [Gate.Z (.int 0)]) (values := []) (ot := .unitary) (by simp)
      (by simpa using (leafZ (values := [])).any.1) (by simp [Gate.Z, mkGate]) hρ true
    rw [← applyGates_singleton so (.dm ρ) (Gate.Z (.int 0)) [] .unitary false true false true] at q1
    simp only [expectation, adjointExpectation, List.mapM_cons, List.mapM_nil, adjointSingle, h2, bind, Except.bind]
    simp only [Observable.forward, obsZ, Observable.new, OpArg.toList, Op.callList, pyReduce, Op.call, bind, Except.bind, q1,
      Functor.map, Except.map, List.foldlM_nil, pure, Except.pure]

/-- Non-vacuity: a circuit without noise, and flat values. -/
example : Values.Flat [("theta", .num 1)] ∧
    ∀ g, Op.prim g ∈ (mkSeq [.prim (Gate.RX (.str "theta") (.int 0))]).iter → g.noise = none := by
  refine ⟨.inl rfl, fun g hg => ?_⟩
  have : g = Gate.RX (.str "theta") (.int 0) := by simpa [mkSeq, Op.iter, Op.flattenList, Op.flatten] using hg
  rw [this]; rfl

/-! ## C37 -/

/-- **C37**: `expectation` raises ValueError for negative `n_shots` with AD and GPSR. -/
theorem C37_negative_shots (state : State) (circuit : Op) (obs : List Observable) (mode : DiffMode)
    (hm : mode = .ad ∨ mode = .gpsr) {nShots : ℤ} (h : nShots < 0) :
    expectation so eigh draw state circuit obs values mode nShots = .error .valueError := by
  rcases hm with rfl | rfl <;> simp only [expectation, h, if_true]

/-- **C37**: an unknown `diff_mode` raises ValueError. -/
theorem C37_unknown_mode (state : State) (circuit : Op) (obs : List Observable) (nShots : ℤ) :
    expectation so eigh draw state circuit obs values .other nShots = .error .valueError := rfl

/-- **C37**: a density matrix with ADJOINT raises TypeError. -/
theorem C37_adjoint_density_matrix (ρ : DensityMatrix ℂ) (circuit : Op) (obs : List Observable) (nShots : ℤ) :
    expectation so eigh draw (.dm ρ) circuit obs values .adjoint nShots = .error .typeError := rfl

/-- **C37**: with valid arguments nothing else is refused: on a circuit of valid gates and observables that have a
meaning, every accepted mode with `n_shots=0` returns one number per observable. -/
theorem C37_accepted {circuit : Op} {nss : List (List StdNoise)} (hc : circuit.Circuit n values nss)
    (hz : ∀ g ∈ circuit.gates, g.noise = none) (hf : values.Flat) {a : NDArray ℂ} (ha : IsKet n a) {obs : List Observable}
    {Os : List (Matrix (Lab n) (Lab n) ℂ)} (hne : obs ≠ [])
    (ho : List.Forall₂ (fun o O => o.Means (AnyLeaf n values) values O) obs Os) {mode : DiffMode} (hm : mode ≠ .other) :
    ∃ xs : List ℝ, xs.length = obs.length ∧ expectation so eigh draw (.vec a) circuit obs values mode 0 = .ok xs := by
  obtain ⟨ψ, -, -, -, h⟩ := C19_expectation so eigh draw hc hz hf ha hne ho
  obtain ⟨xs, hl, h⟩ : ∃ xs : List ℝ, xs.length = obs.length ∧
      expectation so eigh draw (.vec a) circuit obs values .ad 0 = .ok xs := ⟨_, by rw [List.length_map, ho.length_eq], h⟩
  refine ⟨xs, hl, ?_⟩
  · cases mode with
    | ad => exact h
    | gpsr => rw [← C20_ad_gpsr so eigh draw hf]; exact h
    | adjoint =>
      rw [← C20_ad_adjoint_partial so eigh draw hf a circuit _ obs]
      · exact h
      · intro g hg
        rw [hc.plain.iter] at hg
        exact hz g (by simpa using hg)
    | other => exact absurd rfl hm

/-- **C37**: ADJOINT accepts and ignores any `n_shots`, negative ones too. -/
theorem C37_adjoint_ignores_shots (state : State) (circuit : Op) (obs : List Observable) (k l : ℤ) :
    expectation so eigh draw state circuit obs values .adjoint k
      = expectation so eigh draw state circuit obs values .adjoint l := by cases state <;> rfl

/-- **C37**: an empty list of observables is refused whatever the other arguments are, by the ValueError of stacking nothing when
the states are evaluated exactly. -/
theorem C37_no_observables (state : State) (circuit : Op) (mode : DiffMode) (nShots : ℤ) :
    (∀ xs, expectation so eigh draw state circuit [] values mode nShots ≠ .ok xs) ∧
    (∀ a, values.Flat → mode ≠ .other → expectation so eigh draw (.vec a) circuit [] values mode 0 = .error .valueError) := by
  constructor
  · intro xs
    cases mode with
    | ad =>
      simp only [expectation]
      split_ifs
      · simp
      · rw [adExpectation]
        cases valuesProcessing values <;> simp [stackReal, bind, Except.bind, pure, Except.pure]
      · rw [finiteShots]
        cases applyOps so state circuit.iter values <;> simp [eigenSample, bind, Except.bind, pure, Except.pure]
    | adjoint => cases state <;> simp [expectation, adjointExpectation, stackReal, bind, Except.bind, pure, Except.pure]
    | gpsr =>
      simp only [expectation]
      split_ifs
      · simp
      · simp [analyticalExpectation, stackReal, bind, Except.bind, pure, Except.pure]
      · rw [finiteShots]
        cases applyOps so state circuit.iter values <;> simp [eigenSample, bind, Except.bind, pure, Except.pure]
    | other => simp [expectation]
  · intro a hf hm
    cases mode with
    | ad => rw [C20_ad_gpsr so eigh draw hf]; rfl
    | adjoint => rfl
    | gpsr => rfl
    | other => exact absurd rfl hm

/-- Non-vacuity of `C37_accepted`: `X(0)` with the observable `Z(0)`. -/
example : (mkSeq [.prim (Gate.X (.int 0))]).Circuit 1 [] [[]] ∧
    List.Forall₂ (fun o O => o.Means (AnyLeaf 1 []) [] O) [obsZ] [gateMat 1 StdGate.Z.mat [0] []] := by
  refine ⟨⟨.seq (.cons (.prim _) .nil), by simp [mkSeq, Op.gates, Op.gatesList], ?_, .cons (.none rfl) .nil⟩,
    .cons (.one (.gate (leafZ (values := [])).any)) .nil⟩
  simpa [mkSeq, Op.gates, Op.gatesList] using gateX_ok

/-! ## C38 -/

/-- **C38, restricted to `diff_mode=AD` with `n_shots=0`**: with the two keys `circuit` and `observables`, the circuit
is run with the first dictionary and the observables are evaluated with the second; otherwise the same dictionary is
used for both (`Values.Splits`).  The other modes do not do this (`C38_nested_refused`). -/
theorem C38_nested_partial {vc vo : Values} (hs : values.Splits vc vo) {circuit : Op} {nss : List (List StdNoise)}
    (hc : circuit.Circuit n vc nss) {st : State} (hst : st.On n) {obs : List Observable} (hne : obs ≠ []) :
    ∃ r, run so circuit st vc = .ok (some r) ∧
      ∀ xs, List.Forall₂ (fun o x => expectSingle so vo o r = .ok x) obs xs →
        expectation so eigh draw st circuit obs values .ad 0 = .ok xs := by
  obtain ⟨r, h1, h2, -⟩ := circuit_run so hc hst
  exact ⟨r, h1, fun xs hx => ad_of_single so eigh draw hs h2 hne hx⟩

/-- **C38** for state vectors: the value is `Re ⟨ψ|O|ψ⟩` with `ψ` computed from the circuit values and `O` from the
observable values. -/
theorem C38_nested_value_partial {vc vo : Values} (hs : values.Splits vc vo) {circuit : Op} {nss : List (List StdNoise)}
    (hc : circuit.Circuit n vc nss) (hz : ∀ g ∈ circuit.gates, g.noise = none) {a : NDArray ℂ} (ha : IsKet n a)
    {obs : List Observable} {Os : List (Matrix (Lab n) (Lab n) ℂ)} (hne : obs ≠ [])
    (ho : List.Forall₂ (fun o O => o.Means (AnyLeaf n vo) vo O) obs Os) :
    ∃ ψ, run so circuit (.vec a) vc = .ok (some (.vec ψ)) ∧
      ket n ψ = (gatesMat n .unitary vc circuit.gates).mulVec (ket n a) ∧
      expectation so eigh draw (.vec a) circuit obs values .ad 0
        = .ok (Os.map fun O => (∑ x, star (ket n ψ x) * O.mulVec (ket n ψ) x).re) := by
  obtain ⟨r, h1, h2, h3⟩ := circuit_run so hc (st := .vec a) ha
  cases r with
  | dm r => exact absurd hz h3.1
  | vec r =>
    refine ⟨r, h1, h3.2.2, ad_of_single so eigh draw hs h2 hne ?_⟩
    rw [List.forall₂_map_right_iff]
    refine ho.imp fun o O hO => ?_
    rw [expectSingle_vec so hO h3.2.1, expVal_vec]

/-- Separate values for the circuit and the observables. -/
noncomputable def nestedValues : Values := [("circuit", .dict [("a", .num 1)]), ("observables", .dict [("s", .num 2)])]

/-- The circuit `RX("a", 0)`. -/
noncomputable def circuitRX : Op := mkSeq [.prim (Gate.RX (.str "a") (.int 0))]

/-- The observable `"s" * Z(0)`. -/
noncomputable def obsScaledZ : Observable := Observable.new (.list [mkScale (.list [.prim (Gate.Z (.int 0))]) (.str "s")])

/-- Non-vacuity: nested values, a circuit that needs `a` and an observable that needs `s`. -/
example : nestedValues.Splits [("a", .num 1)] [("s", .num 2)] ∧ circuitRX.Circuit 1 [("a", .num 1)] [[]] ∧
    obsScaledZ.Means (AnyLeaf 1 [("s", .num 2)]) [("s", .num 2)] (((2 : ℝ) : ℂ) • (1 * gateMat 1 StdGate.Z.mat [0] [])) := by
  refine ⟨.inl ⟨rfl, rfl⟩, ⟨.seq (.cons (.prim _) .nil), by simp [circuitRX, mkSeq, Op.gates, Op.gatesList], ?_, .cons (.none rfl) .nil⟩, ?_⟩
  · simp only [circuitRX, mkSeq, Op.gates, Op.gatesList, List.append_nil, List.mem_singleton, forall_eq]
    exact Gate.Std.ok ⟨.RX _ _ _ (.str rfl) rfl, rfl, ⟨.inr (.inl rfl), by decide⟩⟩
  · exact .one (.scale (.str rfl) (.cons (.gate (leafZ (values := [("s", .num 2)])).any) .nil))

/-- **C38 is false of the code for the other modes**: GPSR, ADJOINT and AD with a positive number of shots look up the
circuit's parameter in the outer dictionary and raise KeyError. -/
theorem C38_nested_refused (state : State) (o : Observable) (obs : List Observable) {k : ℤ} (hk : 0 < k) :
    expectation so eigh draw state circuitRX (o :: obs) nestedValues .gpsr 0 = .error .keyError ∧
    expectation so eigh draw state circuitRX (o :: obs) nestedValues .gpsr k = .error .keyError ∧
    expectation so eigh draw state circuitRX (o :: obs) nestedValues .ad k = .error .keyError ∧
    ∀ a, expectation so eigh draw (.vec a) circuitRX (o :: obs) nestedValues .adjoint 0 = .error .keyError := by
  have h : ∀ st, applyOps so st circuitRX.iter nestedValues = .error .keyError := by
    intro st
    have : circuitRX.iter = [Gate.RX (.str "a") (.int 0)].map .prim := by
      simp [circuitRX, mkSeq, Op.iter, Op.flattenList, Op.flatten]
    rw [applyOps, this, opsToGates_prim]
    have he : (Gate.RX (.str "a") (.int 0)).operator .unitary nestedValues = .error .keyError := rfl
    exact applyGates_error so st (gs := [Gate.RX (.str "a") (.int 0)]) (e := .keyError) (ot := .unitary)
      (values := nestedValues) (by simp only [List.mem_singleton, forall_eq]; exact .inr he)
      ⟨_, List.mem_singleton.2 rfl, he⟩ false true
  refine ⟨?_, ?_, ?_, fun a => ?_⟩
  · simp only [expectation, lt_irrefl, if_false, if_true, analyticalExpectation, List.mapM_cons, h, bind, Except.bind]
  · simp only [expectation, not_lt.2 hk.le, if_false, hk.ne', finiteShots, h, bind, Except.bind]
  · simp only [expectation, not_lt.2 hk.le, if_false, hk.ne', finiteShots, h, bind, Except.bind]
  · simp only [expectation, adjointExpectation, List.mapM_cons, adjointSingle, h, bind, Except.bind]

/-! ## C46 -/

/-- **C46, restricted to `run`**: a circuit without gates (possibly nested) returns the state itself. -/
theorem C46_run_partial {circuit : Op} (h : circuit.Plain) (he : circuit.gates = []) (st : State) :
    run so circuit st values = .ok (some st) := by
  rw [run, h.call so, he]; simp [Op.callSeq]

/-- **C46 is false of the code for `expectation`**: a circuit without gates raises TypeError for every state, every
non-empty list of observables and every accepted mode and number of shots. -/
theorem C46_expectation_refused {circuit : Op} (h : circuit.Plain) (he : circuit.gates = []) (hf : values.Flat) (st : State) (o : Observable)
    (obs : List Observable) {k : ℤ} (hk : 0 ≤ k) {mode : DiffMode} (hm : mode ≠ .other) :
    expectation so eigh draw st circuit (o :: obs) values mode k = .error .typeError := by
  have ha : ∀ s, applyOps so s circuit.iter values = .error .typeError := by
    intro s
    rw [applyOps, h.iter, opsToGates_prim, he]
    rfl
  cases mode with
  | other => exact absurd rfl hm
  | ad =>
    by_cases h0 : k = 0
    · subst h0
      simp only [expectation, lt_irrefl, if_false, if_true, adExpectation, hf.splits.processing, List.mapM_cons, ha, bind, Except.bind]
    · simp only [expectation, not_lt.2 hk, if_false, h0, finiteShots, ha, bind, Except.bind]
  | gpsr =>
    by_cases h0 : k = 0
    · subst h0
      simp only [expectation, lt_irrefl, if_false, if_true, analyticalExpectation, List.mapM_cons, ha, bind, Except.bind]
    · simp only [expectation, not_lt.2 hk, if_false, h0, finiteShots, ha, bind, Except.bind]
  | adjoint =>
    cases st with
    | dm ρ => rfl
    | vec a => simp only [expectation, adjointExpectation, List.mapM_cons, adjointSingle, ha, bind, Except.bind]

/-- Non-vacuity: the empty `QuantumCircuit`, and one with an empty sequence inside. -/
example : (mkCircuit 2 (.list [])).Plain ∧ (mkCircuit 2 (.list [mkSeq []])).Plain ∧ (mkCircuit 2 (.list [mkSeq []])).gates = [] :=
  ⟨.circ _ _ .nil, .circ _ _ (.cons (.seq .nil) .nil), by simp [mkCircuit, mkSeq, OpArg.toList, Op.gates, Op.gatesList]⟩

end Verif
