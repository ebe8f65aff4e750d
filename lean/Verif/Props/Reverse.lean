import Verif.AbsReverse
import Verif.Lemmas.AdjointLoop
import Verif.Lemmas.Reverse
import Verif.Props.Sgd
import Verif.Props.TraceState

/-!
# C112: what `jax.grad` and `jax.vjp` of `expectation` return
-/

set_option autoImplicit false

namespace Verif
open NDArray
open scoped ContDiff

/-! ## Tangents along a direction -/

/-- An array with the tangents of the direction. -/
def alongArr (v : Direction) (s : ℕ → CSlot) (a : NDArray ℂ) : NDArray (DualNumber ℂ) :=
  ⟨a.shape, a.data.mapIdx fun i z => jet z (v.cx (s i))⟩

/-- A dictionary with the tangents of the direction. -/
def alongDict (v : Direction) (w : Origin) (d : TDict ℝ ℂ) : TDict (DualNumber ℝ) (DualNumber ℂ) :=
  List.map (fun e : String × TVal ℝ ℂ => (e.1, match e.2 with
    | .num x => TVal.num (jet x (v.re (w, e.1)))
    | .arr a => TVal.arr (alongArr v (CSlot.value w e.1) a))) d

/-- The argument `values` with the tangents of the direction. -/
def alongArgs (v : Direction) : TArgs ℝ ℂ → TArgs (DualNumber ℝ) (DualNumber ℂ)
  | .flat d => .flat (alongDict v .flat d)
  | .split dc do' => .split (alongDict v .circuit dc) (alongDict v .observables do')

/-- A state with the tangents of the direction. -/
def alongState (v : Direction) : State → TState (DualNumber ℂ)
  | .vec a => .vec (alongArr v CSlot.state a)
  | .dm ρ => .dm ⟨alongArr v CSlot.state ρ.array⟩

theorem map_mapIdx' {A B C : Type} (f : ℕ → A → B) (g : B → C) (l : List A) : (l.mapIdx f).map g = l.mapIdx fun i z => g (f i z) := by
  apply List.ext_getElem <;> simp

theorem mapIdx_const' {A B : Type} (f : A → B) (l : List A) : (l.mapIdx fun _ z => f z) = l.map f := by
  apply List.ext_getElem <;> simp

theorem alongArr_line (v : Direction) (t : ℝ) (s : ℕ → CSlot) (a : NDArray ℂ) :
    (alongArr v s a).mapArr (fun z => z.fst + (t : ℂ) * z.snd) = movedArr v t s a := by
  simp only [alongArr, movedArr, mapArr, map_mapIdx', jet_fst, jet_snd]

theorem alongDict_line (v : Direction) (t : ℝ) (w : Origin) (d : TDict ℝ ℂ) :
    (alongDict v w d).mapVals (fun z => z.fst + t * z.snd) (fun z => z.fst + (t : ℂ) * z.snd) = movedDict v t w d := by
  simp only [alongDict, movedDict, TDict.mapVals, List.map_map]
  refine List.map_congr_left fun e _ => ?_
  rcases e with ⟨k, x | a⟩
  · rfl
  · simp only [Function.comp, TVal.map, alongArr_line]

theorem alongArgs_line (v : Direction) (t : ℝ) (a : TArgs ℝ ℂ) : (alongArgs v a).line t = movedArgs v t a := by
  cases a <;> simp only [TArgs.line, alongArgs, TArgs.mapVals, alongDict_line, movedArgs]

theorem alongState_line (v : Direction) (t : ℝ) (st : State) : (alongState v st).line t = movedState v t st := by
  cases st <;> simp only [TState.line, alongState, TState.map, alongArr_line, movedState, TState.toState]

theorem movedArr_zero (v : Direction) (s : ℕ → CSlot) (a : NDArray ℂ) : movedArr v 0 s a = a := by
  obtain ⟨sh, dat⟩ := a
  simp only [movedArr, Complex.ofReal_zero, zero_mul, add_zero]
  rw [mapIdx_const' fun z : ℂ => z]
  simp

theorem movedDict_zero (v : Direction) (w : Origin) (d : TDict ℝ ℂ) : movedDict v 0 w d = d := by
  refine Eq.trans (List.map_congr_left fun e _ => ?_) (List.map_id d)
  rcases e with ⟨k, x | a⟩
  · simp
  · simp [movedArr_zero]

theorem movedArgs_zero (v : Direction) (a : TArgs ℝ ℂ) : movedArgs v 0 a = a := by
  cases a <;> simp only [movedArgs, movedDict_zero]

theorem movedState_zero (v : Direction) (st : State) : movedState v 0 st = st := by
  cases st <;> simp only [movedState, movedArr_zero]

/-! ## Pullbacks and tangents -/

/-- The pairing with a direction as a map of gradients. -/
noncomputable def pairHom (v : Direction) : Grad →+ ℝ :=
  AddMonoidHom.coprod (Finsupp.liftAddHom fun s => AddMonoidHom.mulRight (v.re s))
    (Finsupp.liftAddHom fun s => Complex.reAddGroupHom.comp (AddMonoidHom.mulRight (v.cx s)))

theorem pairHom_apply (v : Direction) (g : Grad) : pairHom v g = pairGrad g v := rfl

theorem pairHom_gradR (v : Direction) (s : RSlot) (ct : ℝ) : pairHom v (gradR s ct) = ct * v.re s := by
  simp [pairHom, gradR]

theorem pairHom_gradC (v : Direction) (s : CSlot) (ct : ℂ) : pairHom v (gradC s ct) = (ct * v.cx s).re := by
  simp [pairHom, gradC]

theorem input_arr (v : Direction) (s : ℕ → CSlot) (a : NDArray ℂ) :
    (inputArr s a).mapArr (gradHom (pairHom v)).fK = (alongArr v s a).mapArr transposeHom.fK := by
  simp only [inputArr, alongArr, mapArr, map_mapIdx']
  congr 2
  funext i z
  exact RevC.ext rfl fun ct => pairHom_gradC v (s i) ct

theorem input_dict (v : Direction) (w : Origin) (d : TDict ℝ ℂ) :
    (inputDict w d).mapVals (gradHom (pairHom v)).fR (gradHom (pairHom v)).fK = (alongDict v w d).mapVals transposeHom.fR transposeHom.fK := by
  simp only [inputDict, alongDict, TDict.mapVals, List.map_map]
  refine List.map_congr_left fun e _ => ?_
  rcases e with ⟨k, x | a⟩
  · exact congrArg (fun y => (k, TVal.num y)) (RevR.ext rfl fun ct => pairHom_gradR v (w, k) ct)
  · exact congrArg (fun b => (k, TVal.arr b)) (input_arr v (CSlot.value w k) a)

theorem input_args (v : Direction) (a : TArgs ℝ ℂ) :
    (inputArgs a).mapVals (gradHom (pairHom v)).fR (gradHom (pairHom v)).fK = (alongArgs v a).mapVals transposeHom.fR transposeHom.fK := by
  cases a with
  | flat d => exact congrArg TArgs.flat (input_dict v .flat d)
  | split dc do' => exact congrArg₂ TArgs.split (input_dict v .circuit dc) (input_dict v .observables do')

theorem input_state (v : Direction) (st : State) :
    (inputState st).map (gradHom (pairHom v)).fK = (alongState v st).map transposeHom.fK := by
  cases st with
  | vec a => exact congrArg TState.vec (input_arr v CSlot.state a)
  | dm ρ => exact congrArg (fun b => TState.dm ⟨b⟩) (input_arr v CSlot.state ρ.array)

section
variable (so : SetOrder) (eigh : Eigh) (draw : Draw) (circuit : Op) (obs : List Observable)

/-- Reverse mode, paired with a direction, is the transpose of forward mode in that direction. -/
theorem reverse_forward (v : Direction) (st : State) (a : TArgs ℝ ℂ) :
    (expectationT (Tracer.rev Grad) so (inputState st) circuit obs (inputArgs a)).map (List.map (gradHom (pairHom v)).fR)
      = (jvpExpectation so (alongState v st) circuit obs (alongArgs v a)).map (List.map transposeHom.fR) := by
  rw [jvpExpectation, ← (gradHom (pairHom v)).api, ← transposeHom.api, input_state, input_args]

theorem pair_sum (v : Direction) : ∀ (l : List (RevR Grad)) (lv : List (DualNumber ℝ)) (cts : List ℝ),
    l.map (gradHom (pairHom v)).fR = lv.map transposeHom.fR →
      l.map TrivSqZeroExt.fst = lv.map TrivSqZeroExt.fst ∧
      pairGrad (List.zipWith (fun y ct => y.snd ct) l cts).sum v = (List.zipWith (fun y ct => ct * y.snd) lv cts).sum := by
  intro l
  induction l with
  | nil =>
    intro lv cts h
    cases lv with
    | nil => exact ⟨rfl, by simp [pairGrad]⟩
    | cons y lv => simp at h
  | cons x l ih =>
    intro lv cts h
    cases lv with
    | nil => simp at h
    | cons y lv =>
      simp only [List.map_cons, List.cons.injEq] at h
      obtain ⟨h1, h2⟩ := ih lv (cts.drop 1) h.2
      have hf : x.fst = y.fst := congrArg TrivSqZeroExt.fst h.1
      refine ⟨by rw [List.map_cons, List.map_cons, hf, h1], ?_⟩
      cases cts with
      | nil => simp [pairGrad]
      | cons ct cts =>
        have hs : pairHom v (x.snd ct) = ct * y.snd := congrArg (fun z : RevR ℝ => z.snd ct) h.1
        simp only [List.zipWith_cons_cons, List.sum_cons, ← pairHom_apply, map_add, hs]
        exact congrArg _ h2

theorem sum_deriv (fs : List (ℝ → ℝ)) (hd : ∀ f ∈ fs, DifferentiableAt ℝ f 0) : ∀ cts : List ℝ,
    HasDerivAt (fun t => (List.zipWith (fun f ct => ct * f t) fs cts).sum)
      (List.zipWith (fun f ct => ct * deriv f 0) fs cts).sum 0 := by
  induction fs with
  | nil => intro cts; simpa using hasDerivAt_const (0 : ℝ) (0 : ℝ)
  | cons f fs ih =>
    intro cts
    cases cts with
    | nil => simpa using hasDerivAt_const (0 : ℝ) (0 : ℝ)
    | cons ct cts =>
      simp only [List.zipWith_cons_cons, List.sum_cons]
      exact ((hd f (by simp)).hasDerivAt.const_mul ct).add (ih (fun f hf => hd f (by simp [hf])) cts)

/-- **C112 (gradients).** `jax.vjp` of `expectation` in mode AD raises the exception that `expectation` raises, or returns the
expectation values together with the gradient of their sum with the given factors: for every direction in the parameters, the entries
of the Hamiltonian and the entries of the state, the derivative along this direction is the pairing of the gradient with the
direction. -/
theorem C112_vjp (state : State) (a : TArgs ℝ ℂ) (cts : List ℝ) :
    (∃ e, expectation so eigh draw state circuit obs a.toValues .ad 0 = .error e ∧
      vjpExpectation so state circuit obs a cts = .error e) ∨
    ∃ ys, expectation so eigh draw state circuit obs a.toValues .ad 0 = .ok ys ∧
      (ys.length ≠ cts.length → vjpExpectation so state circuit obs a cts = .error .valueError) ∧
      (ys.length = cts.length → ∃ g, vjpExpectation so state circuit obs a cts = .ok (ys, g) ∧
        ∀ v : Direction, ∃ fs : List (ℝ → ℝ),
          (∀ t, expectation so eigh draw (movedState v t state) circuit obs (movedArgs v t a).toValues .ad 0 = .ok (fs.map (· t))) ∧
          HasDerivAt (fun t => (List.zipWith (fun f ct => ct * f t) fs cts).sum) (pairGrad g v) 0) := by
  have hv := fun v => C92_jvp so eigh draw circuit obs (alongState v state) (alongArgs v a)
  have hr := fun v => reverse_forward so circuit obs v state a
  simp only [alongState_line, alongArgs_line] at hv
  rw [vjpExpectation]
  generalize expectationT (Tracer.rev Grad) so (inputState state) circuit obs (inputArgs a) = L at hr
  have h0 := fun (v : Direction) => congrArg₂ (fun st b => expectation so eigh draw st circuit obs (TArgs.toValues b) .ad 0)
    (movedState_zero v state) (movedArgs_zero v a)
  cases L with
  | error e =>
    refine .inl ⟨e, ?_, rfl⟩
    have v : Direction := ⟨fun _ => 0, fun _ => 0⟩
    rcases hv v with ⟨e', h1, h2⟩ | ⟨fs, -, -, h2⟩
    · have := hr v
      rw [h2] at this
      obtain rfl := Except.error.inj this
      exact (h0 v).symm.trans (h1 0)
    · have := hr v
      rw [h2] at this
      cases this
  | ok l =>
    have key : ∀ v, ∃ fs : List (ℝ → ℝ),
        (∀ t, expectation so eigh draw (movedState v t state) circuit obs (movedArgs v t a).toValues .ad 0 = .ok (fs.map (· t))) ∧
        l.map TrivSqZeroExt.fst = fs.map (· 0) ∧
        HasDerivAt (fun t => (List.zipWith (fun f ct => ct * f t) fs cts).sum)
          (pairGrad (List.zipWith (fun y ct => y.snd ct) l cts).sum v) 0 := by
      intro v
      rcases hv v with ⟨e', h1, h2⟩ | ⟨fs, hc, h1, h2⟩
      · have := hr v
        rw [h2] at this
        cases this
      · have := hr v
        rw [h2] at this
        obtain ⟨p1, p2⟩ := pair_sum v l _ cts (Except.ok.inj this)
        refine ⟨fs, h1, ?_, ?_⟩
        · rw [p1, List.map_map]
          rfl
        · rw [p2, List.zipWith_map_left]
          exact sum_deriv fs (fun f hf => ((hc f hf).differentiable (by simp)) 0) cts
    obtain ⟨fs, k1, k2, -⟩ := key ⟨fun _ => 0, fun _ => 0⟩
    refine .inr ⟨l.map TrivSqZeroExt.fst, ?_, fun hl => ?_, fun hl => ?_⟩
    · rw [k2, ← k1 0]
      exact (h0 _).symm
    · rw [List.length_map] at hl
      exact if_neg hl
    · rw [List.length_map] at hl
      refine ⟨_, if_pos hl, fun v => ?_⟩
      obtain ⟨fs, k1, -, k3⟩ := key v
      exact ⟨fs, k1, k3⟩

/-- Reverse mode and forward mode: the pairing of the gradient with a direction is the sum of the tangents along the direction. -/
theorem vjp_pair {state : State} {a : TArgs ℝ ℂ} {cts ys : List ℝ} {g : Grad}
    (h : vjpExpectation so state circuit obs a cts = .ok (ys, g)) (v : Direction) :
    ∃ l, jvpExpectation so (alongState v state) circuit obs (alongArgs v a) = .ok l ∧ l.map TrivSqZeroExt.fst = ys ∧
      ys.length = cts.length ∧ pairGrad g v = (List.zipWith (fun y ct => ct * y.snd) l cts).sum := by
  have hr := reverse_forward so circuit obs v state a
  rw [vjpExpectation] at h
  generalize expectationT (Tracer.rev Grad) so (inputState state) circuit obs (inputArgs a) = L at hr h
  generalize jvpExpectation so (alongState v state) circuit obs (alongArgs v a) = J at hr
  cases L with
  | error e => cases h
  | ok l =>
    cases J with
    | error e => cases hr
    | ok lv =>
      obtain ⟨p1, p2⟩ := pair_sum v l lv cts (Except.ok.inj hr)
      change (if l.length = cts.length then _ else _) = _ at h
      split_ifs at h with hl
      obtain ⟨rfl, rfl⟩ := Prod.mk.inj (Except.ok.inj h)
      exact ⟨lv, rfl, p1.symm, by rw [List.length_map, hl], p2⟩

/-- The direction of a parameter of a flat dictionary. -/
noncomputable def nameDir (p : String) : Direction := ⟨fun s => if s = (.flat, p) then 1 else 0, fun _ => 0⟩

theorem pairGrad_nameDir (g : Grad) (p : String) : pairGrad g (nameDir p) = g.1 (.flat, p) := by
  simp only [pairGrad, nameDir, mul_ite, mul_one, mul_zero, Finsupp.sum_ite_self_eq', Complex.zero_re]
  simp [Finsupp.sum]

theorem alongArr_still (v : Direction) (hv : ∀ s, v.cx s = 0) (s : ℕ → CSlot) (a : NDArray ℂ) :
    alongArr v s a = a.mapArr fun z => jet z 0 := by
  simp only [alongArr, hv, mapArr]
  rw [mapIdx_const' fun z : ℂ => jet z 0]

theorem alongArgs_nameDir (d : TDict ℝ ℂ) (p : String) : alongArgs (nameDir p) (.flat d) = .flat (d.seed p) := by
  refine congrArg TArgs.flat (List.map_congr_left fun e _ => ?_)
  rcases e with ⟨k, x | a⟩
  · simp [nameDir, TVal.map]
  · simp only [TVal.map]
    rw [alongArr_still _ fun _ => rfl]

theorem alongState_still (v : Direction) (hv : ∀ s, v.cx s = 0) (st : State) : alongState v st = st.const Tracer.base.dual := by
  cases st with
  | vec a => exact congrArg TState.vec (alongArr_still v hv _ a)
  | dm ρ => exact congrArg (fun b => TState.dm ⟨b⟩) (alongArr_still v hv _ ρ.array)

/-- **C112 (`jax.grad`).** The gradient of an expectation value with respect to the dictionary of parameters, as reverse mode computes
it, consists of the partial derivatives of `expectation`; if `expectation` raises an exception, the same is raised. -/
theorem C112_grad (state : State) (o : Observable) {d : TDict ℝ ℂ} (hn : (d.map Prod.fst).Nodup) :
    (∃ e, expectation so eigh draw state circuit [o] d.toValues .ad 0 = .error e ∧
      jaxGradValues so state circuit o d = .error e) ∨
    ∃ g, jaxGradValues so state circuit o d = .ok g ∧ ∀ p x, d.lookup p = some (.num x) →
      IsPartial (fun values => expectation so eigh draw state circuit [o] values .ad 0) d.toValues p [g p] := by
  rcases C112_vjp so eigh draw circuit [o] state (.flat d) [1] with ⟨e, h1, h2⟩ | ⟨ys, h1, -, h3⟩
  · refine .inl ⟨e, h1, ?_⟩
    rw [jaxGradValues, h2]
    rfl
  · have hl : ys.length = [(1 : ℝ)].length := by
      have := expectation_ad_traced so eigh draw circuit [o] state.toT (.flat d)
      rw [State.toT_toState] at this
      have h4 := this.symm.trans h1
      rw [expectationT] at h4
      generalize (TArgs.flat d).process = P at h4
      rcases P with e | ⟨dc, do'⟩
      · cases h4
      change adExpectationT _ _ _ _ _ _ _ = _ at h4
      rw [adExpectationT] at h4
      simp only [List.mapM_cons, List.mapM_nil] at h4
      generalize (do
        let st ← applyGatesT Tracer.base so state.toT (.list (← opsToGates circuit.iter)) dc
        expectSingleT Tracer.base so do' o st) = Q at h4
      rcases Q with e | y
      · cases h4
      · obtain rfl := Except.ok.inj h4
        rfl
    obtain ⟨g, hg, -⟩ := h3 hl
    refine .inr ⟨_, by rw [jaxGradValues, hg]; rfl, fun p x hp => ?_⟩
    obtain ⟨l, k1, k2, -, k4⟩ := vjp_pair so circuit [o] hg (nameDir p)
    rw [alongArgs_nameDir, alongState_still _ fun _ => rfl] at k1
    have := C92_grad so eigh draw circuit [o] state hn hp k1
    rw [pairGrad_nameDir] at k4
    have hl' : l.length = 1 := by
      have := congrArg List.length k2
      rw [List.length_map] at this
      rw [this, hl]
      rfl
    obtain ⟨y, rfl⟩ := List.length_eq_one_iff.1 hl'
    change IsPartial _ _ _ [g.1 (.flat, p)]
    rw [k4]
    simpa using this

/-- **C112 (agreement with GPSR).** In the setting of `C23_bwd_partial`, reverse mode and the backward rule of the parameter-shift mode
return the same gradient. -/
theorem C112_gpsr (state : State) (o : Observable) {d : TDict ℝ ℂ} (hf : d.toValues.Flat) {n : ℕ} {nss : List (List StdNoise)}
    {O : Matrix (Lab n) (Lab n) ℂ} (hp : circuit.Plain) (h : Setting so n d.toValues circuit.gates nss state [o] [O])
    (hs : SingleUse circuit.gates) (hk : d.toValues ≠ []) (hr : ∀ g ∈ circuit.gates, g.Registered) (hro : Op.AllRegistered o.ops) :
    ∃ g, jaxGradValues so state circuit o d = .ok g ∧
      gpsrBwd eigh (jittedExpectation so state [o]) (.list circuit.gates) d.toValues = .ok ((d.toValues.map Prod.fst).map g) := by
  obtain ⟨D, h1, h2⟩ := C23_bwd_partial so eigh (fun _ _ => 0) hp h hs hk hr (by simpa using hro)
  have hn : (d.map Prod.fst).Nodup := by
    have := h.numeric.nodup
    rwa [TDict.toValues, List.map_map] at this
  rcases C112_grad so eigh (fun _ _ => 0) circuit state o hn with ⟨e, h3, -⟩ | ⟨g, h3, h4⟩
  · exfalso
    obtain ⟨k, hkm⟩ := List.exists_mem_of_ne_nil _ hk
    obtain ⟨x, f, hx, hE, -⟩ := h1 k.1 (List.mem_map_of_mem hkm)
    have h5 := C20_ad_gpsr so eigh (fun _ _ => 0) hf state circuit [o] 0
    have h6 := hE x
    rw [Values.upd_self h.numeric hx] at h6
    change expectation _ _ _ _ _ _ _ .gpsr 0 = _ at h6
    rw [h3, h6] at h5
    cases h5
  · refine ⟨g, h3, h2.trans (congrArg Except.ok (List.map_congr_left fun p hpm => ?_))⟩
    have h5 : IsPartial (fun values => expectation so eigh (fun _ _ => 0) state circuit [o] values .ad 0) d.toValues p (D p) := by
      obtain ⟨x, f, k1, k2, k3⟩ := h1 p hpm
      exact ⟨x, f, k1, fun t => (C20_ad_gpsr so eigh _ (hf.upd p t) state circuit [o] 0).trans (k2 t), k3⟩
    obtain ⟨x, f, hx, -⟩ := id h5
    have hpx : d.lookup p = some (.num x) := by
      rw [TraceBase.lookup_eq] at hx
      generalize d.lookup p = o at hx
      rcases o with _ | _ | _
      · cases hx
      · cases hx; rfl
      · cases hx
    rw [← (h4 p x hpx).unique h5]
    simp

theorem stateEntries_map {R S : Type} (f : R → S) (s : Option (TState R)) : stateEntries (s.map (TState.map f)) = (stateEntries s).map f := by
  rcases s with _ | _ | _ <;> rfl

theorem pair_entries (v : Direction) : ∀ (l : List (RevC Grad)) (lv : List (DualNumber ℂ)) (cts : List ℂ),
    l.map (gradHom (pairHom v)).fK = lv.map transposeHom.fK →
      pairGrad (List.zipWith (fun z ct => z.snd ct) l cts).sum v = (List.zipWith (fun z ct => (ct * z.snd).re) lv cts).sum := by
  intro l
  induction l with
  | nil =>
    intro lv cts h
    cases lv with
    | nil => simp [pairGrad]
    | cons y lv => simp at h
  | cons x l ih =>
    intro lv cts h
    cases lv with
    | nil => simp at h
    | cons y lv =>
      simp only [List.map_cons, List.cons.injEq] at h
      cases cts with
      | nil => simp [pairGrad]
      | cons ct cts =>
        have hs : pairHom v (x.snd ct) = (ct * y.snd).re := congrArg (fun z : RevC ℝ => z.snd ct) h.1
        simp only [List.zipWith_cons_cons, List.sum_cons, ← pairHom_apply, map_add, hs]
        exact congrArg _ (ih lv cts h.2)

theorem entries_deriv (fs : List (ℝ → ℂ)) (hd : ∀ f ∈ fs, DifferentiableAt ℝ f 0) : ∀ cts : List ℂ,
    HasDerivAt (fun t => (List.zipWith (fun f ct => (ct * f t).re) fs cts).sum)
      (List.zipWith (fun f ct => (ct * deriv f 0).re) fs cts).sum 0 := by
  induction fs with
  | nil => intro cts; simpa using hasDerivAt_const (0 : ℝ) (0 : ℝ)
  | cons f fs ih =>
    intro cts
    cases cts with
    | nil => simpa using hasDerivAt_const (0 : ℝ) (0 : ℝ)
    | cons ct cts =>
      simp only [List.zipWith_cons_cons, List.sum_cons]
      have h1 := (hd f (by simp)).hasDerivAt.const_mul ct
      exact (Complex.reCLM.hasFDerivAt.comp_hasDerivAt (0 : ℝ) h1).add (ih (fun f hf => hd f (by simp [hf])) cts)

/-- `C92_run` along a line. -/
theorem run_line (v : Direction) (state : State) (d : TDict ℝ ℂ) :
    (∃ e, (∀ t, run so circuit (movedState v t state) (movedDict v t .flat d).toValues = .error e) ∧
      jvpRun so circuit (alongState v state) (alongDict v .flat d) = .error e) ∨
    ∃ F : Option (TState (ℝ → ℂ)), (∀ f ∈ stateEntries F, DifferentiableAt ℝ f 0) ∧
      (∀ t, (run so circuit (movedState v t state) (movedDict v t .flat d).toValues).map (Option.map State.toT)
        = .ok (F.map (TState.map (· t)))) ∧
      jvpRun so circuit (alongState v state) (alongDict v .flat d) = .ok (F.map (TState.map fun f => jet (f 0) (deriv f 0))) := by
  let b : TDict (ℝ → ℝ) (ℝ → ℂ) := (alongDict v .flat d).mapVals (fun z t => z.fst + t * z.snd) fun z t => z.fst + (t : ℂ) * z.snd
  let s : TState (ℝ → ℂ) := (alongState v state).map fun z t => z.fst + (t : ℂ) * z.snd
  have hs : s.All (ContDiff ℝ ω) := by
    have h : ∀ st : TState (DualNumber ℂ), (st.map fun z (t : ℝ) => z.fst + (t : ℂ) * z.snd).All (ContDiff ℝ ω) := by
      rintro (a | ρ) f hf
      · obtain ⟨z, -, rfl⟩ := List.mem_map.1 hf
        exact lineC_contDiff z
      · obtain ⟨z, -, rfl⟩ := List.mem_map.1 hf
        exact lineC_contDiff z
    exact h _
  have hl : ∀ t, b.mapVals (· t) (· t) = movedDict v t .flat d := fun t =>
    (TDict.mapVals_comp _ _ _ _ (alongDict v .flat d)).trans (alongDict_line v t .flat d)
  have hls : ∀ t, (s.map (· t)).toState = movedState v t state := fun t =>
    (congrArg TState.toState (TState.map_comp _ _ (alongState v state))).trans (alongState_line v t state)
  have hj : b.mapVals (jetAt (0 : ℝ) 1) (jetAt (0 : ℝ) 1) = alongDict v .flat d := by
    have := TArgs.mapVals_id lineR_jet lineC_jet (.flat (alongDict v .flat d))
    exact (TDict.mapVals_comp _ _ _ _ (alongDict v .flat d)).trans (TArgs.flat.inj this)
  have hjs : s.map (jetAt (0 : ℝ) 1) = alongState v state := (TState.map_comp _ _ _).trans (TState.map_id lineC_jet _)
  rcases C92_run so circuit s hs b (line_all _) with ⟨e, h1, h2⟩ | ⟨F, h1, h2⟩
  · refine .inl ⟨e, fun t => by rw [← hl, ← hls]; exact h1 t, ?_⟩
    have := h2 0 1
    rwa [hj, hjs] at this
  · refine .inr ⟨F.map (TState.map Subtype.val), ?_, fun t => ?_, ?_⟩
    · rw [stateEntries_map]
      intro f hf
      obtain ⟨g, -, rfl⟩ := List.mem_map.1 hf
      exact (g.2.differentiable (by simp)) 0
    · rw [← hl, ← hls, h1 t, Option.map_map]
      refine congrArg Except.ok (congrArg (fun k => Option.map k F) (funext fun x => ?_))
      exact (TState.map_comp Subtype.val (fun f : ℝ → ℂ => f t) x).symm
    · have := h2 0 1
      rw [hj, hjs] at this
      rw [this, Option.map_map]
      refine congrArg Except.ok (congrArg (fun k => Option.map k F) (funext fun x => ?_))
      refine Eq.trans ?_ (TState.map_comp Subtype.val (fun f : ℝ → ℂ => jet (f 0) (deriv f 0)) x).symm
      congr 1

/-- **C112 (`run`).** `jax.vjp` of `run` raises the exception that `run` raises, or returns the state together with the gradient of the
real part of the sum of its entries with the given factors, for all directions in the parameters, the entries of the Hamiltonian and
the entries of the initial state. -/
theorem C112_run (state : State) (d : TDict ℝ ℂ) (cts : List ℂ) :
    (∃ e, run so circuit state d.toValues = .error e ∧ vjpRun so circuit state d cts = .error e) ∨
    ∃ s : Option State, run so circuit state d.toValues = .ok s ∧
      ((stateEntries (s.map State.toT)).length ≠ cts.length → vjpRun so circuit state d cts = .error .valueError) ∧
      ((stateEntries (s.map State.toT)).length = cts.length → ∃ g, vjpRun so circuit state d cts = .ok (s.map State.toT, g) ∧
        ∀ v : Direction, ∃ F : Option (TState (ℝ → ℂ)),
          (∀ t, (run so circuit (movedState v t state) (movedDict v t .flat d).toValues).map (Option.map State.toT)
            = .ok (F.map (TState.map (· t)))) ∧
          HasDerivAt (fun t => (List.zipWith (fun f ct => (ct * f t).re) (stateEntries F) cts).sum) (pairGrad g v) 0) := by
  have hv := fun v => run_line so circuit v state d
  have hr : ∀ v, (runT (Tracer.rev Grad) so circuit (inputState state) (inputDict .flat d)).map (Option.map (TState.map (gradHom (pairHom v)).fK))
      = (jvpRun so circuit (alongState v state) (alongDict v .flat d)).map (Option.map (TState.map transposeHom.fK)) := by
    intro v
    rw [jvpRun, ← (gradHom (pairHom v)).run, ← transposeHom.run, input_state, input_dict]
  rw [vjpRun]
  generalize runT (Tracer.rev Grad) so circuit (inputState state) (inputDict .flat d) = L at hr
  have h0 := fun (v : Direction) => congrArg₂ (fun st b => run so circuit st (TDict.toValues b)) (movedState_zero v state) (movedDict_zero v .flat d)
  cases L with
  | error e =>
    refine .inl ⟨e, ?_, rfl⟩
    have v : Direction := ⟨fun _ => 0, fun _ => 0⟩
    rcases hv v with ⟨e', h1, h2⟩ | ⟨fs, -, -, h2⟩
    · have := hr v
      rw [h2] at this
      obtain rfl := Except.error.inj this
      exact (h0 v).symm.trans (h1 0)
    · have := hr v
      rw [h2] at this
      cases this
  | ok S =>
    have key : ∀ v, ∃ F : Option (TState (ℝ → ℂ)),
        (∀ t, (run so circuit (movedState v t state) (movedDict v t .flat d).toValues).map (Option.map State.toT)
          = .ok (F.map (TState.map (· t)))) ∧
        S.map (TState.map TrivSqZeroExt.fst) = F.map (TState.map (· 0)) ∧
        HasDerivAt (fun t => (List.zipWith (fun f ct => (ct * f t).re) (stateEntries F) cts).sum)
          (pairGrad (List.zipWith (fun z ct => z.snd ct) (stateEntries S) cts).sum v) 0 := by
      intro v
      rcases hv v with ⟨e', h1, h2⟩ | ⟨F, hc, h1, h2⟩
      · have := hr v
        rw [h2] at this
        cases this
      · have := hr v
        rw [h2] at this
        have hS := Except.ok.inj this
        refine ⟨F, h1, ?_, ?_⟩
        · have h3 := congrArg (Option.map (TState.map (TrivSqZeroExt.fst : RevC ℝ → ℂ))) hS
          simp only [Option.map_map] at h3
          have c1 : TState.map (TrivSqZeroExt.fst : RevC ℝ → ℂ) ∘ TState.map (gradHom (pairHom v)).fK = TState.map TrivSqZeroExt.fst :=
            funext fun x => TState.map_comp _ _ x
          have c2 : TState.map (TrivSqZeroExt.fst : RevC ℝ → ℂ) ∘ (TState.map transposeHom.fK ∘ TState.map fun f : ℝ → ℂ => jet (f 0) (deriv f 0))
              = TState.map fun f : ℝ → ℂ => f 0 :=
            funext fun x => (congrArg (TState.map _) (TState.map_comp _ _ x)).trans (TState.map_comp _ _ x)
          rw [c1, c2] at h3
          exact h3
        · have h4 := congrArg stateEntries hS
          rw [stateEntries_map, stateEntries_map] at h4
          rw [pair_entries v _ _ cts h4, stateEntries_map, List.zipWith_map_left]
          exact entries_deriv _ hc cts
    obtain ⟨F, k1, k2, -⟩ := key ⟨fun _ => 0, fun _ => 0⟩
    have hok : (run so circuit state d.toValues).map (Option.map State.toT) = .ok (S.map (TState.map TrivSqZeroExt.fst)) := by
      rw [k2, ← k1 0]
      exact congrArg (Except.map _) (h0 _).symm
    generalize run so circuit state d.toValues = P at hok
    cases P with
    | error e => cases hok
    | ok s =>
      have hs : s.map State.toT = S.map (TState.map TrivSqZeroExt.fst) := Except.ok.inj hok
      refine .inr ⟨s, rfl, fun hl => ?_, fun hl => ?_⟩
      · rw [hs, stateEntries_map, List.length_map] at hl
        exact if_neg hl
      · rw [hs, stateEntries_map, List.length_map] at hl
        refine ⟨_, (if_pos hl).trans (by rw [hs]), fun v => ?_⟩
        obtain ⟨F, k1, -, k3⟩ := key v
        exact ⟨F, k1, k3⟩

/-- The direction of an entry of the state. -/
noncomputable def entryDir (i : ℕ) (z : ℂ) : Direction := ⟨fun _ => 0, fun s => if s = .state i then z else 0⟩

theorem pairGrad_entryDir (g : Grad) (i : ℕ) (z : ℂ) : pairGrad g (entryDir i z) = (g.2 (.state i) * z).re := by
  have h1 : (g.1.sum fun s c => c * (entryDir i z).re s) = 0 := by simp [entryDir, Finsupp.sum]
  rw [pairGrad, h1, zero_add, Finsupp.sum, Finset.sum_eq_single (CSlot.state i)]
  · simp [entryDir]
  · intro s _ hs
    simp [entryDir, hs]
  · intro hs
    rw [Finsupp.notMem_support_iff.1 hs]
    simp

theorem alongArgs_entryDir (d : TDict ℝ ℂ) (i : ℕ) (z : ℂ) : alongArgs (entryDir i z) (.flat d) = .flat d.still := by
  refine congrArg TArgs.flat (List.map_congr_left fun e _ => ?_)
  rcases e with ⟨k, x | a⟩
  · simp [entryDir, TVal.map]
  · simp only [TVal.map]
    refine congrArg (fun b => (k, TVal.arr b)) ?_
    simp only [alongArr, entryDir, reduceCtorEq, if_false, mapArr]
    rw [mapIdx_const' fun z : ℂ => jet z 0]

theorem alongArr_fst (v : Direction) (s : ℕ → CSlot) (a : NDArray ℂ) : (alongArr v s a).mapArr TrivSqZeroExt.fst = a := by
  obtain ⟨sh, dat⟩ := a
  simp only [alongArr, mapArr, map_mapIdx', jet_fst]
  rw [mapIdx_const' fun z : ℂ => z]
  simp

theorem alongArr_snd {n : ℕ} {a : NDArray ℂ} (ha : IsKet n a) (b : Lab n) (z : ℂ) :
    ket n ((alongArr (entryDir (binVal b.bits) z) CSlot.state a).mapArr TrivSqZeroExt.snd) = Pi.single b z := by
  funext c
  have hlt : binVal c.bits < a.data.length := by
    have h1 := ravel_lt (forall₂_replicate.2 c.isBits_bits)
    rw [ravel_two c.isBits_bits] at h1
    have h2 := ha.2
    rw [WF, ha.1] at h2
    omega
  have hinj : binVal c.bits = binVal b.bits ↔ c = b :=
    ⟨fun h => Lab.bits_injective (binVal_inj c.isBits_bits.2 b.isBits_bits.2 (by rw [c.isBits_bits.1, b.isBits_bits.1]) h), fun h => by rw [h]⟩
  have hs : ((alongArr (entryDir (binVal b.bits) z) CSlot.state a).mapArr TrivSqZeroExt.snd).shape = List.replicate n 2 := ha.1
  rw [ket, NDArray.get, hs, ravel_two c.isBits_bits]
  simp only [alongArr, mapArr, map_mapIdx', jet_snd, entryDir, CSlot.state.injEq]
  rw [List.getD_eq_getElem?_getD, List.getElem?_mapIdx, List.getElem?_eq_getElem hlt]
  simp only [Option.map_some, Option.getD_some, hinj, Pi.single_apply]

/-- **C112 (gradients with respect to a state vector).** For noiseless circuits `C` and Hermitian observables `O` reverse mode returns
as gradient with respect to the entries of the state vector `ψ` the conjugate of `2 C† O C ψ`. -/
theorem C112_vector {n : ℕ} {d : TDict ℝ ℂ} (hf : d.toValues.Flat) {nss : List (List StdNoise)} {circuit : Op}
    (hc : circuit.Circuit n d.toValues nss) (hz : ∀ g ∈ circuit.gates, g.noise = none) {a : NDArray ℂ} (ha : IsKet n a)
    {o : Observable} {O : Matrix (Lab n) (Lab n) ℂ} (ho : o.Fixed so n False O) (hO : O.IsHermitian) :
    ∃ ys g, vjpExpectation so (.vec a) circuit [o] (.flat d) [1] = .ok (ys, g) ∧ ∀ b : Lab n,
      g.2 (.state (binVal b.bits)) = star (2 * ((gatesMat n .unitary d.toValues circuit.gates).conjTranspose.mulVec
        (O.mulVec ((gatesMat n .unitary d.toValues circuit.gates).mulVec (ket n a)))) b) := by
  have key : ∀ (b : Lab n) (z : ℂ), ∃ l, jvpExpectation so (alongState (entryDir (binVal b.bits) z) (.vec a)) circuit [o]
        (alongArgs (entryDir (binVal b.bits) z) (.flat d)) = .ok l ∧
      l.map TrivSqZeroExt.snd = [2 * (star z * ((gatesMat n .unitary d.toValues circuit.gates).conjTranspose.mulVec
        (O.mulVec ((gatesMat n .unitary d.toValues circuit.gates).mulVec (ket n a)))) b).re] := by
    intro b z
    rw [alongArgs_entryDir]
    obtain ⟨l, h1, h2⟩ := C97_vector so hf hc hz (a := alongArr (entryDir (binVal b.bits) z) CSlot.state a)
      (by rw [alongArr_fst]; exact ha) (obs := [o]) (by simp) (.cons ho .nil) (by simpa using hO)
    refine ⟨l, h1, h2.trans ?_⟩
    rw [alongArr_fst, alongArr_snd ha]
    generalize gatesMat n .unitary d.toValues circuit.gates = C
    simp only [List.map_cons, List.map_nil]
    rw [Matrix.star_mulVec, ← Matrix.dotProduct_mulVec]
    generalize C.conjTranspose.mulVec (O.mulVec (C.mulVec (ket n a))) = w
    congr 3
    rw [dotProduct, Finset.sum_eq_single b]
    · simp
    · intro c _ hcb
      simp [Pi.single_eq_of_ne hcb]
    · simp
  have hv : ∃ ys g, vjpExpectation so (.vec a) circuit [o] (.flat d) [1] = .ok (ys, g) := by
    obtain ⟨eigh⟩ := eigh_exists
    obtain ⟨l, h1, h2⟩ := key default 0
    rcases C92_jvp so eigh (fun _ _ => 0) circuit [o] (alongState (entryDir (binVal (default : Lab n).bits) 0) (.vec a))
      (alongArgs (entryDir (binVal (default : Lab n).bits) 0) (.flat d)) with ⟨e, -, h3⟩ | ⟨fs, -, h3, h4⟩
    · rw [h1] at h3
      cases h3
    · rcases C112_vjp so eigh (fun _ _ => 0) circuit [o] (.vec a) (.flat d) [1] with ⟨e, h5, -⟩ | ⟨ys, h5, -, h6⟩
      · have := h3 0
        rw [alongState_line, alongArgs_line, movedState_zero, movedArgs_zero, h5] at this
        cases this
      · have := h3 0
        rw [alongState_line, alongArgs_line, movedState_zero, movedArgs_zero, h5] at this
        obtain rfl := Except.ok.inj this
        rw [h1] at h4
        obtain rfl := Except.ok.inj h4
        have hl := congrArg List.length h2
        simp only [List.length_map, List.length_cons, List.length_nil] at hl
        obtain ⟨g, hg, -⟩ := h6 (by simpa using hl)
        exact ⟨_, g, hg⟩
  obtain ⟨ys, g, hg⟩ := hv
  refine ⟨ys, g, hg, fun b => ?_⟩
  set w := (gatesMat n .unitary d.toValues circuit.gates).conjTranspose.mulVec
        (O.mulVec ((gatesMat n .unitary d.toValues circuit.gates).mulVec (ket n a))) with hw
  have hp : ∀ z : ℂ, (g.2 (.state (binVal b.bits)) * z).re = 2 * (star z * w b).re := by
    intro z
    obtain ⟨l, h1, -, -, h4⟩ := vjp_pair so circuit [o] hg (entryDir (binVal b.bits) z)
    obtain ⟨l', h1', h2'⟩ := key b z
    rw [h1] at h1'
    obtain rfl := Except.ok.inj h1'
    have hl := congrArg List.length h2'
    simp only [List.length_map, List.length_cons, List.length_nil] at hl
    obtain ⟨y, rfl⟩ := List.length_eq_one_iff.1 hl
    rw [pairGrad_entryDir] at h4
    rw [h4]
    simpa using h2'
  have p1 := hp 1
  have p2 := hp Complex.I
  apply Complex.ext
  · simpa using p1
  · simp at p2 ⊢
    linarith

end

/-! ## Examples -/

section examples
variable (so : SetOrder) (eigh : Eigh) (draw : Draw)

include eigh draw in
/-- Reverse mode on two rotations by the same angle: the cotangents of both uses are added up, and the gradient is `-2 sin 2x`. -/
theorem C112_twice (x : ℝ) : ∃ g, jaxGradValues so (.vec zero1) twiceRX obsZ [("a", .num x)] = .ok g ∧ g "a" = -2 * Real.sin (2 * x) := by
  have h := C92_grad so eigh draw twiceRX [obsZ] (.vec zero1) (d := [("a", .num x)]) (p := "a") (x := x) (by simp) rfl
    (l := [jet (Real.cos (2 * x)) (-2 * Real.sin (2 * x))])
    (by
      have := C92_twice so eigh draw x
      simpa [TDict.seed, TVal.map] using this)
  rcases C112_grad so eigh draw twiceRX (.vec zero1) obsZ (d := [("a", .num x)]) (by simp) with ⟨e, h1, -⟩ | ⟨g, h1, h2⟩
  · obtain ⟨y, f, hy, hE, -⟩ := h
    have h3 : y = x := by
      have := Option.some.inj hy
      simpa [TVal.toPy] using this.symm
    have := hE y
    rw [h3] at this
    change expectation so eigh draw (.vec zero1) twiceRX [obsZ] [("a", .num x)] .ad 0 = _ at this
    change expectation so eigh draw (.vec zero1) twiceRX [obsZ] [("a", .num x)] .ad 0 = _ at h1
    rw [h1] at this
    cases this
  · refine ⟨g, h1, ?_⟩
    have := (h2 "a" x rfl).unique h
    simpa using this

/-- `run` of one rotation. -/
theorem onceRX_run (x : ℝ) : run so onceRX (.vec zero1) [("a", .num x)]
    = .ok (some (.vec ⟨[2], [(Real.cos (x / 2) : ℂ), -Complex.I * Real.sin (x / 2)]⟩)) := by
  have hset := onceRX_setting so x
  have hc : onceRX.Circuit 1 [("a", .num x)] [[]] := ⟨onceRX_plain, hset.ne, fun g hg => (hset.std g hg).choose_spec.ok, hset.noise⟩
  obtain ⟨r, h1, -, h2⟩ := circuit_run so hc (st := .vec zero1) zero1_isKet
  rw [h1]
  cases r with
  | dm ρ => exact h2.1 (by simp [onceRX_gates, Gate.RX, mkGate]) |>.elim
  | vec r =>
    obtain ⟨-, hk, h3⟩ := h2
    have hm : (Gate.RX (.str "a") (.int 0)).mat 1 .unitary [("a", .num x)] = gateMat 1 (StdGate.RX x).mat [0] [] :=
      (rxStd (v := [("a", .num x)]) rfl).mat
    rw [onceRX_gates, gatesMat, gatesMat, one_mul, hm] at h3
    have e0 := congrFun h3 (lab1 0)
    have e1 := congrFun h3 (lab1 1)
    simp only [mulVec_lab1, ket, zero1_get, StdGate.mat, matE] at e0 e1
    obtain ⟨sh, dat⟩ := r
    obtain ⟨hsh, hw⟩ := hk
    obtain rfl : sh = [2] := hsh
    have hl : dat.length = 2 := hw
    obtain ⟨u, w, rfl⟩ := List.length_eq_two.1 hl
    simp [NDArray.get, ravel, lab1, Lab.bits] at e0 e1
    rw [e0, e1]
    simp

/-- Non-vacuity of `C112_run`: the gradient of the real part of the first entry of `RX(x)|0⟩` is `-sin(x/2)/2`. -/
example (x : ℝ) : ∃ s g, vjpRun so onceRX (.vec zero1) [("a", .num x)] [1, 0] = .ok (s, g) ∧ g.1 (.flat, "a") = -Real.sin (x / 2) / 2 := by
  rcases C112_run so onceRX (.vec zero1) [("a", .num x)] [1, 0] with ⟨e, h, -⟩ | ⟨s, h, -, h2⟩
  · have := onceRX_run so x
    rw [← show TDict.toValues [("a", .num x)] = [("a", .num x)] from rfl, h] at this
    cases this
  · have hr : run so onceRX (.vec zero1) (TDict.toValues [("a", .num x)]) = _ := onceRX_run so x
    rw [h] at hr
    obtain rfl := Except.ok.inj hr
    obtain ⟨g, hg, h3⟩ := h2 rfl
    refine ⟨_, g, hg, ?_⟩
    obtain ⟨F, k1, k2⟩ := h3 (nameDir "a")
    rw [pairGrad_nameDir] at k2
    have hz : ∀ t, movedState (nameDir "a") t (.vec zero1) = .vec zero1 := by
      intro t
      simp [movedState, movedArr, nameDir, zero1, List.mapIdx_cons]
    have hm : ∀ t, TDict.toValues (movedDict (nameDir "a") t .flat [("a", .num x)]) = [("a", .num (x + t))] := by
      intro t
      simp [movedDict, nameDir, TDict.toValues, TVal.toPy]
    simp only [hz, hm, onceRX_run] at k1
    have hF : ∃ u w : ℝ → ℂ, stateEntries F = [u, w] ∧ ∀ t, u t = Real.cos ((x + t) / 2) := by
      rcases F with _ | a | ρ
      · have := k1 0; cases this
      · obtain ⟨sh, dat⟩ := a
        have k : ∀ t, _ := fun t => congrArg stateEntries (Except.ok.inj (k1 t))
        simp only [Option.map_some, State.toT, TState.map, stateEntries, mapArr] at k
        have hl : dat.length = 2 := by simpa using (congrArg List.length (k 0)).symm
        obtain ⟨u, w, rfl⟩ := List.length_eq_two.1 hl
        refine ⟨u, w, rfl, fun t => ?_⟩
        have := k t
        simp only [List.map_cons, List.cons.injEq] at this
        exact this.1.symm
      · have := k1 0; cases this
    obtain ⟨u, w, hF, hu⟩ := hF
    rw [hF] at k2
    have hd : HasDerivAt (fun t => Real.cos ((x + t) / 2)) (-Real.sin (x / 2) / 2) 0 := by
      have := (((hasDerivAt_id (0 : ℝ)).const_add x).div_const 2).cos
      refine this.congr_deriv ?_
      simp
      ring
    refine k2.unique (hd.congr_of_eventuallyEq (.of_forall fun t => ?_))
    simp [hu, ← Complex.ofReal_add, -Complex.ofReal_cos]

/-- Non-vacuity of `C112_gpsr`: one rotation and the observable Z. -/
example (x : ℝ) : ∃ g, jaxGradValues so (.vec zero1) onceRX obsZ [("a", .num x)] = .ok g ∧
    gpsrBwd eigh (jittedExpectation so (.vec zero1) [obsZ]) (.list onceRX.gates) [("a", .num x)] = .ok [g "a"] := by
  have hro : Op.AllRegistered obsZ.ops := obsZ_registered _ (by simp)
  exact C112_gpsr so eigh onceRX (.vec zero1) obsZ (d := [("a", .num x)]) (.inl rfl) onceRX_plain (onceRX_setting so x) onceRX_single
    (by simp [TDict.toValues]) onceRX_registered hro

/-- The gradient of `⟨ψ|X Z X|ψ⟩` at `ψ = |0⟩` is `(-2, 0)`. -/
example : ∃ ys g, vjpExpectation so (.vec zero1) justX [obsZ] (.flat []) [1] = .ok (ys, g) ∧
    g.2 (.state 0) = -2 ∧ g.2 (.state 1) = 0 := by
  obtain ⟨ys, g, h1, h2⟩ := C112_vector (n := 1) so (d := []) (.inl rfl) justX_circuit
    (by simp [justX, Op.gates, Op.gatesList, mkSeq, Gate.X, mkGate]) (a := zero1) ⟨rfl, rfl⟩ (obsZ_fixed so _) gateZ_hermitian
  refine ⟨ys, g, h1, ?_⟩
  have e : gatesMat 1 .unitary [] justX.gates = gateMat 1 StdGate.X.mat [0] [] := by
    have : justX.gates = [Gate.X (.int 0)] := rfl
    rw [this, gatesMat, gatesMat, one_mul, justX_std.mat]
    rfl
  have h3 := h2 (lab1 0)
  have h4 := h2 (lab1 1)
  rw [TDict.toValues] at h3 h4
  simp only [List.map_nil, e, gateMat_conjTranspose StdGate.X.mat (show ValidDims 1 ([] ++ [0]) from ⟨by simp, by simp⟩), mulVec_lab1,
    ket] at h3 h4
  constructor
  · refine Eq.trans (congrArg (fun i => g.2 (.state i)) ?_) (h3.trans ?_)
    · simp [lab1, Lab.bits, binVal]
    · simp [zero1, NDArray.get, ravel, StdGate.mat, matE, conjT, lab1, Lab.bits]
  · refine Eq.trans (congrArg (fun i => g.2 (.state i)) ?_) (h4.trans ?_)
    · simp [lab1, Lab.bits, binVal]
    · simp [zero1, NDArray.get, ravel, StdGate.mat, matE, conjT, lab1, Lab.bits]

end examples

end Verif
