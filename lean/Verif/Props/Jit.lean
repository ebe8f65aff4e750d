import Verif.Model.Jit
import Verif.Props.Batch
import Verif.Props.Reads

/-!
# C111: compiled functions (`jax.jit`) compute what the Python code computes
-/

set_option autoImplicit false

namespace Verif
open NDArray

/-! ## Specification -/

/-- Python dictionaries and arrays: no key occurs twice, and arrays have as many entries as their shape says. -/
def TDict.Proper {R K : Type} (d : TDict R K) : Prop :=
  (d.map Prod.fst).Nodup ∧ ∀ e ∈ d, ∀ a, e.2 = .arr a → a.WF

/-- The same for the arguments of a compiled function. -/
def JArgs.Proper {R K : Type} (args : JArgs R K) : Prop :=
  args.state.WF ∧ match args.values with
    | .flat d => d.Proper
    | .split dc do' => dc.Proper ∧ do'.Proper

/-! ## The order of a dictionary -/

section order
variable {T : Tracer} {d d' : TDict T.R T.K} (h : ∀ k, d.lookup k = d'.lookup k) (so : SetOrder)
include h

theorem TDict.get_congr (k : String) : d.get k = d'.get k := by rw [TDict.get, TDict.get, h]

theorem parseT_congr (p : Param) (s : ℝ) : parseT T p s d = parseT T p s d' := by
  cases p <;> simp only [parseT, TDict.get_congr h]

theorem unitaryT_congr (g : Gate) : g.unitaryT T d = g.unitaryT T d' := by
  simp only [Gate.unitaryT, parseT_congr h, TDict.get_congr h]

theorem gateTensorT_congr (g : Gate) (full : Option (List ℕ)) : g.tensorT T d full = g.tensorT T d' full := by
  simp only [Gate.tensorT, unitaryT_congr h]

theorem applyGatesT_congr (st : TState T.K) (ga : GateArg) : applyGatesT T so st ga d = applyGatesT T so st ga d' := by
  simp only [applyGatesT, unitaryT_congr h]

theorem scaleParamT_congr (p : Param) : scaleParamT T p d = scaleParamT T p d' := by
  cases p <;> simp only [scaleParamT, TDict.get_congr h]

mutual
theorem tensorT_congr (o : Op) (full : Option (List ℕ)) : o.tensorT T so d full = o.tensorT T so d' full := by
  match o with
  | .prim g => simp only [Op.tensorT, gateTensorT_congr h]
  | .comp .seq ops => simp only [Op.tensorT, tensorListT_congr ops]
  | .comp (.circ _ _) ops => simp only [Op.tensorT, tensorListT_congr ops]
  | .comp (.scale p) ops => simp only [Op.tensorT, tensorListT_congr ops, scaleParamT_congr h]
  | .comp .add ops => simp only [Op.tensorT, tensorListT_congr ops]
  | .comp .obs ops => simp only [Op.tensorT, tensorListT_congr ops]
theorem tensorListT_congr (os : List Op) (full : List ℕ) : Op.tensorListT T so d os full = Op.tensorListT T so d' os full := by
  match os with
  | [] => rfl
  | o :: os => simp only [Op.tensorListT, tensorT_congr o, tensorListT_congr os]
end

theorem expectDMT_congr (ops : List Op) (ρ : DensityMatrix T.K) : Op.expectDMT T so d ops ρ = Op.expectDMT T so d' ops ρ := by
  simp only [Op.expectDMT, tensorT_congr h]

mutual
theorem callT_congr (o : Op) (st : Option (TState T.K)) : o.callT T so d st = o.callT T so d' st := by
  match o with
  | .prim g => simp only [Op.callT, applyGatesT_congr h]
  | .comp .seq ops => simp only [Op.callT, callSeqT_congr ops]
  | .comp (.circ _ _) ops => simp only [Op.callT, callSeqT_congr ops]
  | .comp (.scale p) ops => simp only [Op.callT, callSeqT_congr ops, scaleParamT_congr h]
  | .comp .add ops => simp only [Op.callT, callListT_congr ops]
  | .comp .obs ops =>
    rcases st with _ | _ | _ <;> simp only [Op.callT, callListT_congr ops, expectDMT_congr h]
theorem callSeqT_congr (os : List Op) (st : Option (TState T.K)) : Op.callSeqT T so d os st = Op.callSeqT T so d' os st := by
  match os with
  | [] => rfl
  | o :: os =>
    simp only [Op.callSeqT, callT_congr o]
    exact bind_congr fun s => callSeqT_congr os s
theorem callListT_congr (os : List Op) (st : Option (TState T.K)) : Op.callListT T so d os st = Op.callListT T so d' os st := by
  match os with
  | [] => rfl
  | o :: os => simp only [Op.callListT, callT_congr o, callListT_congr os]
end

theorem expectSingleT_congr (o : Observable) (st : TState T.K) : expectSingleT T so d o st = expectSingleT T so d' o st := by
  cases st <;> simp only [expectSingleT, callListT_congr h, expectDMT_congr h]

end order

theorem adExpectationT_congr {T : Tracer} {d d' e e' : TDict T.R T.K} (h : ∀ k, d.lookup k = d'.lookup k)
    (h' : ∀ k, e.lookup k = e'.lookup k) (so : SetOrder) (st : TState T.K) (circuit : Op) (obs : List Observable) :
    adExpectationT T so st circuit obs d e = adExpectationT T so st circuit obs d' e' := by
  simp only [adExpectationT, applyGatesT_congr h, expectSingleT_congr h']

theorem lookup_perm' {β : Type} {v v' : List (String × β)} (h : v.Perm v') (hn : (v.map Prod.fst).Nodup) (s : String) :
    v.lookup s = v'.lookup s := by
  induction h with
  | nil => rfl
  | cons e _ ih =>
    rcases e with ⟨k, x⟩
    simp only [List.map_cons, List.nodup_cons] at hn
    simp only [List.lookup]
    rw [ih hn.2]
  | swap e e' l =>
    rcases e with ⟨k, x⟩
    rcases e' with ⟨k', x'⟩
    simp only [List.map_cons, List.nodup_cons, List.mem_cons, not_or] at hn
    simp only [List.lookup]
    by_cases h1 : s = k
    · by_cases h2 : s = k'
      · exact absurd (h2.symm.trans h1) hn.1.1
      · simp [h1, h2, beq_eq_false_iff_ne.2 (h1 ▸ h2 : k ≠ k')]
    · simp [beq_eq_false_iff_ne.2 h1]
  | trans h1 _ ih1 ih2 => exact (ih1 hn).trans (ih2 ((h1.map _).nodup_iff.1 hn))

section
variable {R K : Type}

theorem TDict.sorted_perm (d : TDict R K) : d.sorted.Perm d := List.perm_insertionSort _ _

theorem TDict.Proper.lookup {d : TDict R K} (h : d.Proper) (k : String) : d.sorted.lookup k = d.lookup k :=
  lookup_perm' d.sorted_perm ((d.sorted_perm.map _).nodup_iff.2 h.1) k

theorem TDict.Proper.sorted {d : TDict R K} (h : d.Proper) : d.sorted.Proper :=
  ⟨(d.sorted_perm.map _).nodup_iff.2 h.1, fun e he => h.2 e (d.sorted_perm.mem_iff.1 he)⟩

/-! ## Tracers at the arguments -/

variable [Zero R] [Zero K]

theorem tracers_at {V : Type} (leaf : V → TDict R K) (v : V) (h : (leaf v).Proper) :
    TDict.mapVals (fun f => f v) (fun f => f v) (tracers leaf (leaf v).avals) = leaf v := by
  refine List.ext_getElem (by simp [TDict.mapVals, tracers, TDict.avals]) fun i hi hi' => ?_
  simp only [TDict.mapVals, tracers, TDict.avals, List.getElem_map, List.getElem_mapIdx]
  have hl : (leaf v)[i]? = some (leaf v)[i] := List.getElem?_eq_getElem hi'
  have hm := List.getElem_mem hi'
  generalize hx : (leaf v)[i] = x at hl hm
  obtain ⟨k, w⟩ := x
  cases w with
  | num x => simp [TVal.aval, TVal.map, TDict.numAt, hl]
  | arr a =>
    have hw : a.data.length = a.shape.prod := h.2 _ hm a rfl
    simp only [TVal.aval, TVal.map, mapArr]
    congr 2
    rw [NDArray.mk.injEq]
    refine ⟨rfl, List.ext_getElem (by simp [hw]) fun j hj hj' => ?_⟩
    simp [TDict.arrAt, hl, List.getElem?_eq_getElem hj']

theorem tracersOf_at (args : JArgs R K) (h : args.Proper) :
    (tracersOf (R := R) (K := K) args.values.sorted.avals).mapVals (fun f => f args) (fun f => f args) = args.values.sorted := by
  obtain ⟨st, v⟩ := args
  cases v with
  | flat d => exact congrArg TArgs.flat (tracers_at (fun v : JArgs R K => v.values.sorted.fst) ⟨st, .flat d⟩ (TDict.Proper.sorted h.2))
  | split dc do' =>
    exact congrArg₂ TArgs.split
      (tracers_at (fun v : JArgs R K => v.values.sorted.fst) ⟨st, .split dc do'⟩ (TDict.Proper.sorted h.2.1))
      (tracers_at (fun v : JArgs R K => v.values.sorted.snd) ⟨st, .split dc do'⟩ (TDict.Proper.sorted h.2.2))

end

theorem tracedWith_avals {R K : Type} (history : List (JArgs R K)) (args : JArgs R K) : (tracedWith history args).avals = args.avals := by
  rw [tracedWith]
  generalize h : (history.find? fun h => decide (h.avals = args.avals)) = o
  rcases o with _ | x
  · rfl
  · simpa using List.find?_some h

/-- The state that the plain function gets. -/
noncomputable def plainState (A : Tracer) (closed : Option State) (args : JArgs A.R A.K) : TState A.K :=
  match closed with
  | none => .vec args.state
  | some st => st.const A

theorem traceState_at {A : Tracer} (hA : A.Square) (closed : Option State) (args : JArgs A.R A.K) (h : args.Proper) :
    (traceState A closed args.state.shape).map (fun f => f args) = plainState A closed args := by
  cases closed with
  | none =>
    have hw : args.state.data.length = args.state.shape.prod := h.1
    refine congrArg TState.vec ?_
    rw [mapArr, NDArray.mk.injEq]
    refine ⟨rfl, List.ext_getElem (by simp [hw]) fun j hj hj' => ?_⟩
    simp [List.getElem?_eq_getElem hj']
  | some st => exact ((projHom hA args).const_state st).symm

section
variable {A : Tracer} (hA : A.Square) (so : SetOrder) (closed : Option State) (circuit : Op)
include hA

theorem jit_expectationT (obs : List Observable) (history : List (JArgs A.R A.K)) (args : JArgs A.R A.K) (h : args.Proper) :
    jitExpectation A so closed circuit obs history args = expectationT A so (plainState A closed args) circuit obs args.values := by
  have h1 := (projHom hA args).api so (traceState A closed args.state.shape) circuit obs (tracersOf args.values.sorted.avals)
  have h2 : (tracersOf (R := A.R) (K := A.K) args.values.sorted.avals).mapVals (projHom hA args).fR (projHom hA args).fK
      = args.values.sorted := tracersOf_at args h
  have h3 : (traceState A closed args.state.shape).map (projHom hA args).fK = plainState A closed args := traceState_at hA closed args h
  rw [h2, h3] at h1
  have h4 : expectationT A so (plainState A closed args) circuit obs args.values.sorted
      = expectationT A so (plainState A closed args) circuit obs args.values := by
    obtain ⟨st, v⟩ := args
    cases v with
    | flat d =>
      have hl := TDict.Proper.lookup (d := d) h.2
      simp only [expectationT, TArgs.sorted, TArgs.process, hl]
      rcases hx : (List.lookup "circuit" d, List.lookup "observables" d) with ⟨x, y⟩
      simp only [Prod.mk.injEq] at hx
      simp only [hx.1, hx.2]
      cases x <;> cases y <;> first | rfl | exact adExpectationT_congr hl hl so _ circuit obs
    | split dc do' => exact adExpectationT_congr (TDict.Proper.lookup h.2.1) (TDict.Proper.lookup h.2.2) so _ circuit obs
  rw [← h4, h1, jitExpectation, tracedWith_avals]
  change (programExpectation A so closed circuit obs args.avals >>= _) = _
  rw [programExpectation, JArgs.avals]
  cases expectationT (A.batch (JArgs A.R A.K)) so (traceState A closed args.state.shape) circuit obs (tracersOf args.values.sorted.avals) <;> rfl

end

theorem nest_square (k : ℕ) : (Tracer.base.nest k).Square := by
  induction k with
  | zero => exact base_square
  | succ k ih => exact dual_square ih

section
variable (so : SetOrder) (closed : Option State) (circuit : Op)

/-! ## C111 -/

/-- **C111 (expectation).** Whatever calls have been made before, the compiled `expectation` returns what `expectation` returns, and raises
what it raises, for a state vector as an argument and for every state that is closed over. -/
theorem C111_expectation (eigh : Eigh) (draw : Draw) (obs : List Observable) (history : List (JArgs ℝ ℂ)) (args : JArgs ℝ ℂ)
    (h : args.Proper) :
    jitExpectation Tracer.base so closed circuit obs history args
      = expectation so eigh draw (closed.getD (.vec args.state)) circuit obs args.values.toValues .ad 0 := by
  rw [jit_expectationT base_square so closed circuit obs history args h]
  have h1 := expectation_ad_traced so eigh draw circuit obs (plainState Tracer.base closed args) args.values
  rw [← h1]
  congr 1
  cases closed with
  | none => rfl
  | some st =>
    change (st.const Tracer.base).toState = st
    rw [State.const_base, State.toT_toState]

/-- **C111 (derivatives).** The same for derivatives of every order inside the compiled function. -/
theorem C111_derivatives (obs : List Observable) (k : ℕ) (history : List (JArgs (Tracer.base.nest k).R (Tracer.base.nest k).K))
    (args : JArgs (Tracer.base.nest k).R (Tracer.base.nest k).K) (h : args.Proper) :
    jitExpectation (Tracer.base.nest k) so none circuit obs history args = jvpExpectationN k so (.vec args.state) circuit obs args.values :=
  jit_expectationT (nest_square k) so none circuit obs history args h

/-- **C111 (run).** The compiled `run` raises what `run` raises; or it returns the state vector that `run` returns; or `run` returns a
density matrix, and then what the compiled function returns is unusable. -/
theorem C111_run (history : List (JArgs ℝ ℂ)) (a : NDArray ℂ) (d : TDict ℝ ℂ) (h : (⟨a, .flat d⟩ : JArgs ℝ ℂ).Proper) :
    (∃ e, jitRun Tracer.base so closed circuit history ⟨a, .flat d⟩ = .error e ∧
      run so circuit (closed.getD (.vec a)) d.toValues = .error e) ∨
    (∃ r, jitRun Tracer.base so closed circuit history ⟨a, .flat d⟩ = .ok (some (.vec r)) ∧
      run so circuit (closed.getD (.vec a)) d.toValues = .ok (some (.vec r))) ∨
    (jitRun Tracer.base so closed circuit history ⟨a, .flat d⟩ = .ok (some .leaked) ∧
      ∃ ρ, run so circuit (closed.getD (.vec a)) d.toValues = .ok (some (.dm ρ))) ∨
    (jitRun Tracer.base so closed circuit history ⟨a, .flat d⟩ = .ok none ∧
      run so circuit (closed.getD (.vec a)) d.toValues = .ok none) := by
  set args : JArgs ℝ ℂ := ⟨a, .flat d⟩ with hargs
  have h1 := (projHom base_square args).run so circuit (traceState Tracer.base closed args.state.shape)
    (tracersOf (R := ℝ) (K := ℂ) args.values.sorted.avals).fst
  have h2 : TDict.mapVals (projHom base_square args).fR (projHom base_square args).fK
      (tracersOf (R := ℝ) (K := ℂ) args.values.sorted.avals).fst = d.sorted :=
    tracers_at (fun v : JArgs ℝ ℂ => v.values.sorted.fst) args (TDict.Proper.sorted h.2)
  have h3 : (traceState Tracer.base closed args.state.shape).map (projHom base_square args).fK = (closed.getD (.vec a)).toT := by
    refine (traceState_at base_square closed args h).trans ?_
    cases closed with
    | none => rfl
    | some st => exact State.const_base st
  have h4 : runT Tracer.base so circuit (closed.getD (.vec a)).toT d.sorted = runT Tracer.base so circuit (closed.getD (.vec a)).toT d :=
    callT_congr (T := Tracer.base) (TDict.Proper.lookup h.2) so circuit _
  rw [h2, h3, h4, TraceBase.run_eq] at h1
  have h5 : jitRun Tracer.base so closed circuit history args
      = (runT (Tracer.base.batch (JArgs ℝ ℂ)) so circuit (traceState Tracer.base closed args.state.shape)
        (tracersOf (R := ℝ) (K := ℂ) args.values.sorted.avals).fst >>= fun r => match r with
      | some (.vec a) => .ok (some (.vec (a.mapArr fun f => f args)))
      | some (.dm _) => .ok (some .leaked)
      | none => .ok none) := by
    rw [jitRun]
    simp only [tracedWith_avals]
    refine bind_congr fun r => ?_
    rcases r with _ | ⟨_⟩ | _ <;> rfl
  rw [h5]
  generalize runT (Tracer.base.batch (JArgs ℝ ℂ)) so circuit (traceState Tracer.base closed args.state.shape)
        (tracersOf (R := ℝ) (K := ℂ) args.values.sorted.avals).fst = P at h1
  generalize run so circuit (closed.getD (.vec a)) d.toValues = Q at h1
  rcases P with e | _ | ⟨r⟩ | ρ
  · rcases Q with e' | s
    · cases h1; exact .inl ⟨_, rfl, rfl⟩
    · cases h1
  · rcases Q with e' | s
    · cases h1
    · rcases s with _ | s
      · exact .inr (.inr (.inr ⟨rfl, rfl⟩))
      · cases h1
  · rcases Q with e' | s
    · cases h1
    · rcases s with _ | s
      · cases h1
      · cases s with
        | dm ρ => cases h1
        | vec s =>
          refine .inr (.inl ⟨_, rfl, ?_⟩)
          cases h1
          rfl
  · rcases Q with e' | s
    · cases h1
    · rcases s with _ | s
      · cases h1
      · cases s with
        | vec s => cases h1
        | dm s => exact .inr (.inr (.inl ⟨rfl, s, rfl⟩))

/-- **C111 (control flow).** Whether `expectation` raises, which exception, and how many numbers it returns depends on the names in the
dictionary and on the shapes of the arrays, but not on any number. -/
theorem C111_control_flow (eigh : Eigh) (draw : Draw) (obs : List Observable) (args args' : JArgs ℝ ℂ) (h : args.Proper) (h' : args'.Proper)
    (hs : args.state.shape = args'.state.shape) (hv : args.values.sorted.avals = args'.values.sorted.avals) :
    (∃ e, expectation so eigh draw (.vec args.state) circuit obs args.values.toValues .ad 0 = .error e ∧
      expectation so eigh draw (.vec args'.state) circuit obs args'.values.toValues .ad 0 = .error e) ∨
    ∃ l l', expectation so eigh draw (.vec args.state) circuit obs args.values.toValues .ad 0 = .ok l ∧
      expectation so eigh draw (.vec args'.state) circuit obs args'.values.toValues .ad 0 = .ok l' ∧ l.length = l'.length := by
  have h1 := C111_expectation so none circuit eigh draw obs [] args h
  have h2 := C111_expectation so none circuit eigh draw obs [args] args' h'
  simp only [Option.getD_none] at h1 h2
  have e : args.avals = args'.avals := Prod.ext hs hv
  rw [← h1, ← h2, jitExpectation, jitExpectation, tracedWith_avals, tracedWith_avals, e]
  cases programExpectation Tracer.base so none circuit obs args'.avals with
  | error e => exact .inl ⟨e, rfl, rfl⟩
  | ok outs => exact .inr ⟨_, _, rfl, rfl, by simp⟩

/-! ## The order of gradients -/

theorem upd_perm {v v' : Values} (h : v.Perm v') (p : String) (x : ℝ) : (v.upd p x).Perm (v'.upd p x) := h.map _

theorem upd_keys (v : Values) (p : String) (x : ℝ) : (v.upd p x).keys = v.keys := by
  simp only [Values.upd, Values.keys, List.map_map]
  refine List.map_congr_left fun e _ => ?_
  by_cases h : e.1 = p
  · simp [h]
  · simp [h]

/-- **C111 (gradients), partial.** The compiled `analytical_gpsr_bwd` returns the partial derivatives, but in the order of the sorted
names. -/
theorem C111_bwd_partial {n : ℕ} {values : Values} (eigh : Eigh) (draw : Draw) {nss : List (List StdNoise)} {st : State}
    {obs : List Observable} {Os : List (Matrix (Lab n) (Lab n) ℂ)} {circuit : Op} (hp : circuit.Plain)
    (h : Setting so n values circuit.gates nss st obs Os) (hs : SingleUse circuit.gates) (hk : values ≠ [])
    (hr : ∀ g ∈ circuit.gates, g.Registered) (hro : ∀ o ∈ obs, Op.AllRegistered o.ops) :
    ∃ D : String → List ℝ,
      (∀ p ∈ values.map Prod.fst,
        IsPartial (fun v => expectation so eigh draw st circuit obs v .gpsr 0) values p (D p)) ∧
      jitGpsrBwd eigh (jittedExpectation so st obs) (.list circuit.gates) values
        = .ok (((values.map Prod.fst).insertionSort (· ≤ ·)).map fun p => (D p).sum) := by
  set w : Values := values.insertionSort fun e e' => e.1 ≤ e'.1 with hw
  have hperm : w.Perm values := List.perm_insertionSort _ _
  have hnd : w.keys.Nodup := (hperm.map _).nodup_iff.2 h.numeric.nodup
  have hl : ∀ s, w.lookup s = values.lookup s := lookup_perm hperm hnd
  have h' : Setting so n w circuit.gates nss st obs Os :=
    { ne := h.ne
      std := fun g hg => let ⟨s, hs⟩ := h.std g hg; ⟨s, hs.congr fun q _ => hl q⟩
      noise := h.noise
      on := h.on
      numeric := ⟨hnd, fun e he => h.numeric.num e (hperm.mem_iff.1 he)⟩
      obs_ne := h.obs_ne
      fixed := h.fixed
      uncontrolled := h.uncontrolled }
  obtain ⟨D, h1, h2⟩ := C23_bwd_partial so eigh draw hp h' hs (by
    intro e
    rw [e] at hperm
    exact hk hperm.symm.eq_nil) hr hro
  refine ⟨D, fun p hp' => ?_, ?_⟩
  · obtain ⟨x, f, k1, k2, k3⟩ := h1 p ((hperm.map _).mem_iff.2 hp')
    refine ⟨x, f, (hl p).symm.trans k1, fun t => ?_, k3⟩
    rw [← k2 t]
    exact ((C73_order so eigh draw (upd_perm hperm p t) (by rw [upd_keys]; exact hnd) circuit obs st).2.2 .gpsr 0).symm
  · rw [jitGpsrBwd, ← hw, h2]
    refine congrArg (fun l : List String => Except.ok (l.map fun p => (D p).sum)) ?_
    rw [hw]
    exact List.map_insertionSort _ _ _ _ fun _ _ _ _ => Iff.rfl

theorem IsPartial.single {E : Values → Py (List ℝ)} {values : Values} {p : String} {D : List ℝ} {x y : ℝ} {f : ℝ → ℝ}
    (h : IsPartial E values p D) (hx : values.lookup p = some (.num x)) (hE : ∀ t, E (values.upd p t) = .ok [f t])
    (hd : HasDerivAt f y x) : D.sum = y := by
  obtain ⟨x', g, h1, h2, h3, h4⟩ := h
  rw [hx] at h1
  cases h1
  have hg : ∀ t, g t = [f t] := fun t => by
    have := h2 t
    rw [hE] at this
    exact (Except.ok.inj this).symm
  obtain ⟨z, rfl⟩ : ∃ z, D = [z] := by
    have := h3 x
    rw [hg] at this
    exact List.length_eq_one_iff.1 this.symm
  have := h4 0
  simp only [hg, List.getD_cons_zero] at this
  simpa using this.unique hd

theorem circuitAB_Z {v : Values} {x y : ℝ} (ha : v.lookup "a" = some (.num x)) (hb : v.lookup "b" = some (.num y)) (eigh : Eigh) (draw : Draw) :
    expectation so eigh draw (.vec zero1) circuitAB [obsZ] v .gpsr 0 = .ok [Real.cos x * Real.cos y] := by
  have h1 : (Gate.RX (.str "a") (.int 0)).Std 1 v (.RX x) := ⟨.RX _ _ _ (.str ha) (by simp), rfl, ⟨.inr (.inl rfl), by decide⟩⟩
  have h2 : (Gate.RY (.str "b") (.int 0)).Std 1 v (.RY y) := ⟨.RY _ _ _ (.str hb) (by simp), rfl, ⟨.inr (.inl rfl), by decide⟩⟩
  have hm1 : (Gate.RX (.str "a") (.int 0)).mat 1 .unitary v = gateMat 1 (StdGate.RX x).mat [0] [] := h1.mat
  have hm2 : (Gate.RY (.str "b") (.int 0)).mat 1 .unitary v = gateMat 1 (StdGate.RY y).mat [0] [] := h2.mat
  rw [circuitAB, expectation_gates so eigh draw (gateCircuit_plain 1 _), gateCircuit_gates,
    gatesExpectation_pure (n := 1) (O := gateMat 1 StdGate.Z.mat [0] []) (by simp) (by
      simp only [List.mem_cons, List.not_mem_nil, or_false, forall_eq_or_imp, forall_eq]
      exact ⟨h1.ok, h2.ok⟩) (by simp [Gate.RX, Gate.RY, mkGate]) zero1_isKet (obsZ_fixed so _)]
  rw [gatesMat, gatesMat, gatesMat, hm1, hm2, one_mul, sum_lab1]
  simp only [← Matrix.mulVec_mulVec, mulVec_lab1, ket, zero1_get, StdGate.mat, matE]
  have e1 : Real.cos x = Real.cos (x / 2) ^ 2 - Real.sin (x / 2) ^ 2 := by
    rw [← Real.cos_two_mul']; ring_nf
  have e2 : Real.cos y = Real.cos (y / 2) ^ 2 - Real.sin (y / 2) ^ 2 := by
    rw [← Real.cos_two_mul']; ring_nf
  refine congrArg (fun z => Except.ok [z]) ?_
  rw [e1, e2]
  generalize Real.cos (x / 2) = c
  generalize Real.sin (x / 2) = d
  generalize Real.cos (y / 2) = c'
  generalize Real.sin (y / 2) = d'
  norm_num [Complex.add_re, Complex.mul_re, Complex.mul_im, Complex.add_im]
  ring

/-- Values whose names are not sorted. -/
noncomputable def valuesBA : Values := [("b", .num 0), ("a", .num (Real.pi / 2))]

theorem settingAB : Setting so 1 valuesBA circuitAB.gates [[], []] (.vec zero1) [obsZ] [gateMat 1 StdGate.Z.mat [0] []] where
  ne := by simp [circuitAB, gateCircuit_gates]
  std := by
    simp only [circuitAB, gateCircuit_gates, List.mem_cons, List.not_mem_nil, or_false, forall_eq_or_imp, forall_eq]
    exact ⟨⟨.RX (Real.pi / 2), .RX _ _ _ (.str rfl) (by simp), rfl, ⟨.inr (.inl rfl), by decide⟩⟩,
      ⟨.RY 0, .RY _ _ _ (.str rfl) (by simp), rfl, ⟨.inr (.inl rfl), by decide⟩⟩⟩
  noise := by
    rw [circuitAB, gateCircuit_gates]
    exact .cons (.none rfl) (.cons (.none rfl) .nil)
  on := zero1_isKet
  numeric := ⟨by simp [valuesBA], by simp [valuesBA]⟩
  obs_ne := by simp
  fixed := .cons (obsZ_fixed so _) .nil
  uncontrolled := by
    simp only [circuitAB, gateCircuit_gates, List.mem_cons, List.not_mem_nil, or_false, forall_eq_or_imp, forall_eq]
    exact ⟨fun _ _ => .inl rfl, fun _ _ => .inl rfl⟩

/-- **C111 is false of the code for gradients**: for the values `{"b": 0, "a": π/2}` the function `analytical_gpsr_bwd` returns the gradient
`(0, -1)` in the order of the dictionary, the compiled one `(-1, 0)`. -/
theorem C111_bwd_false (eigh : Eigh) :
    gpsrBwd eigh (jittedExpectation so (.vec zero1) [obsZ]) (.list circuitAB.gates) valuesBA = .ok [0, -1] ∧
    jitGpsrBwd eigh (jittedExpectation so (.vec zero1) [obsZ]) (.list circuitAB.gates) valuesBA = .ok [-1, 0] := by
  have hs : SingleUse circuitAB.gates := by
    rw [circuitAB, gateCircuit_gates, SingleUse]
    simp only [List.pairwise_cons, List.mem_cons, List.not_mem_nil, or_false, forall_eq_or_imp, forall_eq]
    simp [Gate.Uses, Gate.RX, Gate.RY, mkGate]
  have hr : ∀ g ∈ circuitAB.gates, g.Registered := by
    rw [circuitAB, gateCircuit_gates]
    simp [Gate.Registered, Gate.RX, Gate.RY, mkGate]
  have hp : circuitAB.Plain := gateCircuit_plain 1 _
  have hD : ∀ D : String → List ℝ, (∀ p ∈ valuesBA.map Prod.fst,
      IsPartial (fun v => expectation so eigh (fun _ _ => 0) (.vec zero1) circuitAB [obsZ] v .gpsr 0) valuesBA p (D p)) →
      (D "a").sum = -1 ∧ (D "b").sum = 0 := by
    intro D h
    constructor
    · refine (h "a" (by simp [valuesBA])).single (x := Real.pi / 2) (f := fun t => Real.cos t * Real.cos 0) rfl (fun t => ?_) ?_
      · exact circuitAB_Z so (by simp [valuesBA, Values.upd, List.lookup]) (by simp [valuesBA, Values.upd, List.lookup]) _ _
      · have := (Real.hasDerivAt_cos (Real.pi / 2)).mul_const (Real.cos 0)
        simpa using this
    · refine (h "b" (by simp [valuesBA])).single (x := 0) (f := fun t => Real.cos (Real.pi / 2) * Real.cos t) rfl (fun t => ?_) ?_
      · exact circuitAB_Z so (by simp [valuesBA, Values.upd, List.lookup]) (by simp [valuesBA, Values.upd, List.lookup]) _ _
      · have := (Real.hasDerivAt_cos 0).const_mul (Real.cos (Real.pi / 2))
        simpa using this
  constructor
  · obtain ⟨D, h1, h2⟩ := C23_bwd_partial so eigh (fun _ _ => 0) hp (settingAB so) hs (by simp [valuesBA]) hr obsZ_registered
    rw [h2]
    simp [valuesBA, hD D h1]
  · obtain ⟨D, h1, h2⟩ := C111_bwd_partial so eigh (fun _ _ => 0) hp (settingAB so) hs (by simp [valuesBA]) hr obsZ_registered
    rw [h2]
    have : ((valuesBA.map Prod.fst).insertionSort (· ≤ ·)) = ["a", "b"] := by
      simp only [valuesBA, List.map_cons, List.map_nil]
      decide
    rw [this]
    simp [hD D h1]

/-! ## Examples -/

/-- Non-vacuity of `C111_expectation` and `C111_run`: a Hamiltonian and an angle, not in sorted order; the structure is that of an earlier
call with other numbers. -/
example (x y : ℝ) : (⟨zero1, .flat [("t", .num x), ("hamiltonian", .arr ⟨[2, 2], [0, 1, 1, 0]⟩)]⟩ : JArgs ℝ ℂ).Proper ∧
    tracedWith [⟨zero1, .flat [("hamiltonian", .arr ⟨[2, 2], [1, 0, 0, -1]⟩), ("t", .num y)]⟩]
      (⟨zero1, .flat [("t", .num x), ("hamiltonian", .arr ⟨[2, 2], [0, 1, 1, 0]⟩)]⟩ : JArgs ℝ ℂ)
      = ⟨zero1, .flat [("hamiltonian", .arr ⟨[2, 2], [1, 0, 0, -1]⟩), ("t", .num y)]⟩ := by
  constructor
  · refine ⟨rfl, ?_, ?_⟩
    · simp
    · intro e he a ha
      simp only [List.mem_cons, List.not_mem_nil, or_false] at he
      rcases he with rfl | rfl
      · cases ha
      · cases ha; rfl
  · have h : JArgs.avals (⟨zero1, .flat [("hamiltonian", .arr ⟨[2, 2], [1, 0, 0, -1]⟩), ("t", .num y)]⟩ : JArgs ℝ ℂ)
        = JArgs.avals (⟨zero1, .flat [("t", .num x), ("hamiltonian", .arr ⟨[2, 2], [0, 1, 1, 0]⟩)]⟩ : JArgs ℝ ℂ) := by
      have e1 : ¬ ("t" : String) ≤ "hamiltonian" := by decide
      have e2 : ("hamiltonian" : String) ≤ "t" := by decide
      simp [JArgs.avals, TArgs.avals, TArgs.sorted, TDict.sorted, TDict.avals, TVal.aval, List.orderedInsert, e1, e2]
    simp [tracedWith, h]

/-- A compiled expectation value after a call with another angle. -/
example (eigh : Eigh) (draw : Draw) (x y : ℝ) :
    jitExpectation Tracer.base so none twiceRX [obsZ] [⟨zero1, .flat [("a", .num y)]⟩] ⟨zero1, .flat [("a", .num x)]⟩
      = .ok [Real.cos (2 * x)] := by
  rw [C111_expectation so none twiceRX eigh draw [obsZ] _ ⟨zero1, .flat [("a", .num x)]⟩ ⟨rfl, by simp, by simp⟩]
  refine (C20_ad_gpsr so eigh draw (.inl rfl) ..).trans ?_
  exact (expectation_gates so eigh draw twiceRX_plain _).trans (twice_value so rfl)

/-- The compiled noisy circuit returns an unusable object. -/
example : jitRun Tracer.base so none noisyX [] ⟨zero1, .flat []⟩ = .ok (some .leaked) := by
  obtain ⟨r, h1, -, h2⟩ := circuit_run so (noisyX_circuit (values := [])) (st := .vec zero1) zero1_isKet
  rcases C111_run so none noisyX [] zero1 [] ⟨rfl, by simp, by simp⟩ with ⟨e, -, h⟩ | ⟨R, -, h⟩ | ⟨h, -⟩ | ⟨-, h⟩
  · exact absurd (h.symm.trans h1) (by simp)
  · cases Except.ok.inj (h.symm.trans h1)
    have := h2.1
    simp [noisyX, mkCircuit, OpArg.toList, Op.gates, Op.gatesList, Gate.X, mkGate] at this
  · exact h
  · exact absurd (h.symm.trans h1) (by simp)

end
end Verif
