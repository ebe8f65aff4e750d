import Mathlib.Analysis.Calculus.FDeriv.Symmetric
import Mathlib.Analysis.Calculus.IteratedDeriv.Defs
import Verif.AbsGrad
import Verif.Lemmas.TraceSmooth
import Verif.Props.GpsrControlled
import Verif.Props.Spectrum

/-!
# C92: derivatives by automatic differentiation are exact

The numbers that `jax.jvp` returns for `expectation` in AD mode and for `run` are the derivatives of the numbers that these functions
return, for every circuit, every observable and every state, with or without noise, to every order.
-/

set_option autoImplicit false

namespace Verif
open NDArray
open scoped ContDiff

/-! ## Dictionaries of functions -/

/-- All numbers of the dictionary satisfy `P`, all entries of its arrays satisfy `Q`. -/
def TDict.All {R K : Type} (P : R → Prop) (Q : K → Prop) (d : TDict R K) : Prop :=
  (∀ k x, (k, TVal.num x) ∈ d → P x) ∧ ∀ k (a : NDArray K), (k, TVal.arr a) ∈ d → ∀ z ∈ a.data, Q z

/-- All numbers of the argument satisfy `P`, all entries of its arrays satisfy `Q`. -/
def TArgs.All {R K : Type} (P : R → Prop) (Q : K → Prop) : TArgs R K → Prop
  | .flat d => d.All P Q
  | .split dc do' => dc.All P Q ∧ do'.All P Q

/-- All entries of the state satisfy `Q`. -/
def TState.All {K : Type} (Q : K → Prop) : TState K → Prop
  | .vec a => ∀ z ∈ a.data, Q z
  | .dm ρ => ∀ z ∈ ρ.array.data, Q z

theorem NDArray.lift {K L : Type} {Q : K → Prop} {g : L → K} (hg : ∀ x, Q x → ∃ y, g y = x) {a : NDArray K}
    (h : ∀ z ∈ a.data, Q z) : ∃ a' : NDArray L, a = a'.mapArr g := by
  obtain ⟨sh, dat⟩ := a
  have : ∀ l : List K, (∀ z ∈ l, Q z) → ∃ l' : List L, l = l'.map g := by
    intro l
    induction l with
    | nil => exact fun _ => ⟨[], rfl⟩
    | cons z l ih =>
      intro hl
      obtain ⟨l', rfl⟩ := ih fun z hz => hl z (List.mem_cons_of_mem _ hz)
      obtain ⟨y, rfl⟩ := hg z (hl z List.mem_cons_self)
      exact ⟨y :: l', rfl⟩
  obtain ⟨l', rfl⟩ := this dat h
  exact ⟨⟨sh, l'⟩, rfl⟩

section
variable {R S K L : Type} {P : R → Prop} {Q : K → Prop} {f : S → R} {g : L → K}

theorem TDict.All.lift (hf : ∀ x, P x → ∃ y, f y = x) (hg : ∀ x, Q x → ∃ y, g y = x) {d : TDict R K} (h : d.All P Q) :
    ∃ d' : TDict S L, d = d'.mapVals f g := by
  induction d with
  | nil => exact ⟨[], rfl⟩
  | cons e d ih =>
    obtain ⟨d', rfl⟩ := ih ⟨fun k x hx => h.1 k x (List.mem_cons_of_mem _ hx), fun k a ha => h.2 k a (List.mem_cons_of_mem _ ha)⟩
    obtain ⟨k, v⟩ := e
    cases v with
    | num x =>
      obtain ⟨y, rfl⟩ := hf x (h.1 k x List.mem_cons_self)
      exact ⟨(k, .num y) :: d', rfl⟩
    | arr a =>
      obtain ⟨a', rfl⟩ := NDArray.lift hg (h.2 k a List.mem_cons_self)
      exact ⟨(k, .arr a') :: d', rfl⟩

theorem TArgs.All.lift (hf : ∀ x, P x → ∃ y, f y = x) (hg : ∀ x, Q x → ∃ y, g y = x) {a : TArgs R K} (h : a.All P Q) :
    ∃ a' : TArgs S L, a = a'.mapVals f g := by
  cases a with
  | flat d =>
    obtain ⟨d', rfl⟩ := TDict.All.lift hf hg h
    exact ⟨.flat d', rfl⟩
  | split dc do' =>
    obtain ⟨d', rfl⟩ := TDict.All.lift hf hg h.1
    obtain ⟨d'', rfl⟩ := TDict.All.lift hf hg h.2
    exact ⟨.split d' d'', rfl⟩

theorem TState.All.lift (hg : ∀ x, Q x → ∃ y, g y = x) {st : TState K} (h : st.All Q) : ∃ st' : TState L, st = st'.map g := by
  cases st with
  | vec a =>
    obtain ⟨a', rfl⟩ := NDArray.lift hg h
    exact ⟨.vec a', rfl⟩
  | dm ρ =>
    obtain ⟨ρ⟩ := ρ
    obtain ⟨a', rfl⟩ := NDArray.lift (a := ρ) hg h
    exact ⟨.dm ⟨a'⟩, rfl⟩
end

section
variable {R S T K L M : Type} (f : R → S) (g : S → T) (f' : K → L) (g' : L → M)

theorem TDict.mapVals_comp (d : TDict R K) :
    (d.mapVals f f').mapVals g g' = d.mapVals (fun x => g (f x)) fun x => g' (f' x) := by
  simp only [TDict.mapVals, List.map_map]
  refine List.map_congr_left fun e _ => ?_
  rcases e with ⟨k, v⟩
  cases v with
  | num x => rfl
  | arr a => simp only [Function.comp_apply, TVal.map, mapArr_comp]

theorem TArgs.mapVals_comp (a : TArgs R K) :
    (a.mapVals f f').mapVals g g' = a.mapVals (fun x => g (f x)) fun x => g' (f' x) := by
  cases a with
  | flat d => exact congrArg TArgs.flat (TDict.mapVals_comp f g f' g' d)
  | split dc do' => exact congrArg₂ TArgs.split (TDict.mapVals_comp f g f' g' dc) (TDict.mapVals_comp f g f' g' do')

theorem TState.map_comp (st : TState K) : (st.map f').map g' = st.map fun x => g' (f' x) := by
  cases st with
  | vec a => exact congrArg TState.vec (mapArr_comp f' g' a)
  | dm ρ => exact congrArg (fun a => TState.dm ⟨a⟩) (mapArr_comp f' g' ρ.array)
end

theorem mapArr_id_of {K : Type} {g : K → K} (hg : ∀ x, g x = x) (a : NDArray K) : a.mapArr g = a := by
  have : g = id := funext hg
  subst this
  simp [mapArr]

theorem TDict.mapVals_id {R K : Type} {f : R → R} {g : K → K} (hf : ∀ x, f x = x) (hg : ∀ x, g x = x) (d : TDict R K) :
    d.mapVals f g = d := by
  simp only [TDict.mapVals]
  refine (List.map_congr_left fun e _ => ?_).trans (List.map_id d)
  rcases e with ⟨k, v⟩
  cases v with
  | num x => simp only [TVal.map, hf, id]
  | arr a => simp only [TVal.map, mapArr_id_of hg, id]

theorem TArgs.mapVals_id {R K : Type} {f : R → R} {g : K → K} (hf : ∀ x, f x = x) (hg : ∀ x, g x = x) (a : TArgs R K) :
    a.mapVals f g = a := by
  cases a with
  | flat d => exact congrArg TArgs.flat (TDict.mapVals_id hf hg d)
  | split dc do' => exact congrArg₂ TArgs.split (TDict.mapVals_id hf hg dc) (TDict.mapVals_id hf hg do')

theorem TState.map_id {K : Type} {g : K → K} (hg : ∀ x, g x = x) (st : TState K) : st.map g = st := by
  cases st with
  | vec a => exact congrArg TState.vec (mapArr_id_of hg a)
  | dm ρ => exact congrArg (fun a => TState.dm ⟨a⟩) (mapArr_id_of hg ρ.array)

theorem TState.toState_toT (st : TState ℂ) : st.toState.toT = st := by cases st <;> rfl

theorem State.toT_toState (st : State) : st.toT.toState = st := by cases st <;> rfl

section
variable (so : SetOrder) (eigh : Eigh) (draw : Draw) (circuit : Op) (obs : List Observable)
variable {E : Type} [NormedAddCommGroup E] [NormedSpace ℝ E]

/-- The value and the derivative in direction `v` of a function at `x`. -/
noncomputable def jetAt {F : Type} [NormedAddCommGroup F] [NormedSpace ℝ F] (x v : E) (g : E → F) : DualNumber F :=
  jet (g x) (fderiv ℝ g x v)

theorem expectation_ad_traced (state : TState ℂ) (a : TArgs ℝ ℂ) :
    expectation so eigh draw state.toState circuit obs a.toValues .ad 0 = expectationT Tracer.base so state circuit obs a := by
  have := TraceBase.api_eq so state.toState circuit obs a
  rw [TState.toState_toT] at this
  rw [this]
  simp [expectation]

theorem lift_args {a : TArgs (E → ℝ) (E → ℂ)} (ha : a.All (ContDiff ℝ ω) (ContDiff ℝ ω)) :
    ∃ b : TArgs (smoothR E) (smoothC E), a = b.mapVals (fun f => f.1) fun f => f.1 :=
  TArgs.All.lift (fun x hx => ⟨smoothRMk x hx, rfl⟩) (fun x hx => ⟨smoothCMk x hx, rfl⟩) ha

theorem lift_state {st : TState (E → ℂ)} (hs : st.All (ContDiff ℝ ω)) : ∃ s : TState (smoothC E), st = s.map fun f => f.1 :=
  TState.All.lift (fun x hx => ⟨smoothCMk x hx, rfl⟩) hs

/-- **C92 (derivatives by AD).** Let the parameters, the entries of the Hamiltonian and the entries of the initial state be analytic
functions of some variables `x`.  If `expectation` raises, it raises the same exception for all `x` and so does its derivative by AD.
Otherwise the expectation values are analytic functions of `x`, and AD in direction `v` returns their values and their derivatives
in direction `v`. -/
theorem C92_chain (state : TState (E → ℂ)) (hs : state.All (ContDiff ℝ ω)) (a : TArgs (E → ℝ) (E → ℂ))
    (ha : a.All (ContDiff ℝ ω) (ContDiff ℝ ω)) :
    (∃ e, (∀ x, expectation so eigh draw (state.map (· x)).toState circuit obs (a.mapVals (· x) (· x)).toValues .ad 0 = .error e) ∧
      ∀ x v, jvpExpectation so (state.map (jetAt x v)) circuit obs (a.mapVals (jetAt x v) (jetAt x v)) = .error e) ∨
    ∃ fs : List (E → ℝ), (∀ f ∈ fs, ContDiff ℝ ω f) ∧
      (∀ x, expectation so eigh draw (state.map (· x)).toState circuit obs (a.mapVals (· x) (· x)).toValues .ad 0
        = .ok (fs.map (· x))) ∧
      ∀ x v, jvpExpectation so (state.map (jetAt x v)) circuit obs (a.mapVals (jetAt x v) (jetAt x v))
        = .ok (fs.map fun f => jet (f x) (fderiv ℝ f x v)) := by
  obtain ⟨b, rfl⟩ := lift_args ha
  obtain ⟨s, rfl⟩ := lift_state hs
  have h1 : ∀ x, expectation so eigh draw ((s.map fun f => f.1).map (· x)).toState circuit obs
        ((b.mapVals (fun f => f.1) fun f => f.1).mapVals (· x) (· x)).toValues .ad 0
      = (expectationT (Tracer.smooth E) so s circuit obs b).map (List.map (evalHom x).fR) := by
    intro x
    rw [TArgs.mapVals_comp, TState.map_comp, expectation_ad_traced]
    exact (evalHom x).api so s circuit obs b
  have h2 : ∀ x v, jvpExpectation so ((s.map fun f => f.1).map (jetAt x v)) circuit obs
        ((b.mapVals (fun f => f.1) fun f => f.1).mapVals (jetAt x v) (jetAt x v))
      = (expectationT (Tracer.smooth E) so s circuit obs b).map (List.map ((evalHom x).dual.comp (dirHom v)).fR) := by
    intro x v
    rw [TArgs.mapVals_comp, TState.map_comp]
    exact ((evalHom x).dual.comp (dirHom v)).api so s circuit obs b
  generalize expectationT (Tracer.smooth E) so s circuit obs b = P at h1 h2
  rcases P with e | fs
  · exact .inl ⟨e, h1, h2⟩
  · refine .inr ⟨fs.map fun f => f.1, ?_, ?_, ?_⟩
    · intro f hf
      obtain ⟨g, -, rfl⟩ := List.mem_map.1 hf
      exact smoothR_cd g
    · intro x
      rw [h1, List.map_map]; rfl
    · intro x v
      rw [h2, List.map_map]; rfl

/-- The argument at the point `x + t v` for pairs `(x, v)`. -/
noncomputable def TArgs.line (a : TArgs (DualNumber ℝ) (DualNumber ℂ)) (t : ℝ) : TArgs ℝ ℂ :=
  a.mapVals (fun z => z.fst + t * z.snd) fun z => z.fst + (t : ℂ) * z.snd

/-- The state at the point `x + t v` for pairs `(x, v)`. -/
noncomputable def TState.line (st : TState (DualNumber ℂ)) (t : ℝ) : State := (st.map fun z => z.fst + (t : ℂ) * z.snd).toState

theorem lineR_contDiff (z : DualNumber ℝ) : ContDiff ℝ ω fun t : ℝ => z.fst + t * z.snd :=
  contDiff_const.add (contDiff_id.mul contDiff_const)

theorem lineC_contDiff (z : DualNumber ℂ) : ContDiff ℝ ω fun t : ℝ => z.fst + (t : ℂ) * z.snd :=
  contDiff_const.add (Complex.ofRealCLM.contDiff.mul contDiff_const)

theorem lineR_jet (z : DualNumber ℝ) : jetAt (0 : ℝ) 1 (fun t : ℝ => z.fst + t * z.snd) = z := by
  have : HasDerivAt (fun t : ℝ => z.fst + t * z.snd) z.snd 0 := by
    simpa using ((hasDerivAt_id (0 : ℝ)).mul_const z.snd).const_add z.fst
  rw [jetAt, fderiv_apply_one_eq_deriv, this.deriv]
  simp only [zero_mul, add_zero]
  rfl

theorem lineC_jet (z : DualNumber ℂ) : jetAt (0 : ℝ) 1 (fun t : ℝ => z.fst + (t : ℂ) * z.snd) = z := by
  have : HasDerivAt (fun t : ℝ => z.fst + (t : ℂ) * z.snd) z.snd 0 := by
    simpa using ((Complex.ofRealCLM.hasDerivAt (x := (0 : ℝ))).mul_const z.snd).const_add z.fst
  rw [jetAt, fderiv_apply_one_eq_deriv, this.deriv]
  simp only [Complex.ofReal_zero, zero_mul, add_zero]
  rfl

theorem line_all (d : TDict (DualNumber ℝ) (DualNumber ℂ)) :
    (d.mapVals (fun z (t : ℝ) => z.fst + t * z.snd) fun z (t : ℝ) => z.fst + (t : ℂ) * z.snd).All (ContDiff ℝ ω) (ContDiff ℝ ω) := by
  constructor
  · intro k x hx
    obtain ⟨e, -, he⟩ := List.mem_map.1 hx
    rcases e with ⟨k', v⟩
    cases v with
    | arr a => cases he
    | num z =>
      cases he
      exact lineR_contDiff z
  · intro k a ha f hf
    obtain ⟨e, -, he⟩ := List.mem_map.1 ha
    rcases e with ⟨k', v⟩
    cases v with
    | num z => cases he
    | arr a =>
      cases he
      obtain ⟨z, -, rfl⟩ := List.mem_map.1 hf
      exact lineC_contDiff z

/-- **C92 (`jax.jvp`).** For every circuit and observables, and every state and dictionary of pairs of value and tangent: the pairs
returned by `jax.jvp` consist of the expectation values and their derivatives along the tangents; if `expectation` raises, so
does `jax.jvp`. -/
theorem C92_jvp (state : TState (DualNumber ℂ)) (a : TArgs (DualNumber ℝ) (DualNumber ℂ)) :
    (∃ e, (∀ t, expectation so eigh draw (state.line t) circuit obs (a.line t).toValues .ad 0 = .error e) ∧
      jvpExpectation so state circuit obs a = .error e) ∨
    ∃ fs : List (ℝ → ℝ), (∀ f ∈ fs, ContDiff ℝ ω f) ∧
      (∀ t, expectation so eigh draw (state.line t) circuit obs (a.line t).toValues .ad 0 = .ok (fs.map (· t))) ∧
      jvpExpectation so state circuit obs a = .ok (fs.map fun f => jet (f 0) (deriv f 0)) := by
  let b : TArgs (ℝ → ℝ) (ℝ → ℂ) := a.mapVals (fun z t => z.fst + t * z.snd) fun z t => z.fst + (t : ℂ) * z.snd
  let s : TState (ℝ → ℂ) := state.map fun z t => z.fst + (t : ℂ) * z.snd
  have hb : b.All (ContDiff ℝ ω) (ContDiff ℝ ω) := by
    cases a with
    | flat d => exact line_all d
    | split dc do' => exact ⟨line_all dc, line_all do'⟩
  have hs : s.All (ContDiff ℝ ω) := by
    cases state with
    | vec a =>
      intro f hf
      obtain ⟨z, -, rfl⟩ := List.mem_map.1 hf
      exact lineC_contDiff z
    | dm ρ =>
      intro f hf
      obtain ⟨z, -, rfl⟩ := List.mem_map.1 hf
      exact lineC_contDiff z
  have hl : ∀ t, b.mapVals (· t) (· t) = a.line t := fun t => TArgs.mapVals_comp _ _ _ _ a
  have hls : ∀ t, (s.map (· t)).toState = state.line t := fun t => congrArg TState.toState (TState.map_comp _ _ state)
  have hj : b.mapVals (jetAt (0 : ℝ) 1) (jetAt (0 : ℝ) 1) = a := by
    refine (TArgs.mapVals_comp _ _ _ _ a).trans ?_
    exact TArgs.mapVals_id lineR_jet lineC_jet a
  have hjs : s.map (jetAt (0 : ℝ) 1) = state := (TState.map_comp _ _ state).trans (TState.map_id lineC_jet state)
  rcases C92_chain so eigh draw circuit obs s hs b hb with ⟨e, h1, h2⟩ | ⟨fs, h0, h1, h2⟩
  · refine .inl ⟨e, fun t => by rw [← hl, ← hls]; exact h1 t, ?_⟩
    have := h2 0 1
    rwa [hj, hjs] at this
  · refine .inr ⟨fs, h0, fun t => by rw [← hl, ← hls]; exact h1 t, ?_⟩
    have := h2 0 1
    rw [hj, hjs] at this
    rw [this]
    refine congrArg Except.ok (List.map_congr_left fun f _ => ?_)
    rw [fderiv_apply_one_eq_deriv]

/-! ## Partial derivatives -/

section
variable (state : State)

theorem const_line (t : ℝ) : (state.const Tracer.base.dual).line t = state := by
  have h : ∀ a : NDArray ℂ, (a.mapArr Tracer.base.dual.const).mapArr (fun z : DualNumber ℂ => z.fst + (t : ℂ) * z.snd) = a := by
    intro a
    rw [mapArr_comp]
    refine mapArr_id_of (fun x => ?_) a
    change x + (t : ℂ) * 0 = x
    rw [mul_zero, add_zero]
  cases state with
  | vec a => exact congrArg State.vec (h a)
  | dm ρ => exact congrArg (fun a => State.dm ⟨a⟩) (h ρ.array)

/-- The tangent `1` for the key `p` and `0` for the others. -/
def TDict.seed (d : TDict ℝ ℂ) (p : String) : TDict (DualNumber ℝ) (DualNumber ℂ) :=
  List.map (fun e : String × TVal ℝ ℂ => (e.1, e.2.map (fun x => jet x (if e.1 = p then 1 else 0)) fun z => jet z 0)) d

theorem seed_line {d : TDict ℝ ℂ} (hn : (d.map Prod.fst).Nodup) {p : String} {x : ℝ} (hp : d.lookup p = some (.num x)) (t : ℝ) :
    ((TArgs.flat (d.seed p)).line t).toValues = d.toValues.upd p (x + t) := by
  have hmem : ∀ v, (p, v) ∈ d → v = .num x := by
    intro v hv
    have := List.lookup_eq_some_iff.1 hp
    obtain ⟨l1, l2, rfl, hl⟩ := this
    rw [List.map_append, List.map_cons, List.nodup_append, List.nodup_cons] at hn
    rcases List.mem_append.1 hv with hv | hv
    · exact absurd rfl (hn.2.2 p (List.mem_map_of_mem (f := Prod.fst) hv) p List.mem_cons_self)
    · rcases List.mem_cons.1 hv with hv | hv
      · exact (Prod.mk.inj hv).2
      · exact absurd (List.mem_map_of_mem (f := Prod.fst) hv) hn.2.1.1
  simp only [TArgs.line, TArgs.mapVals, TArgs.toValues, TDict.toValues, TDict.mapVals, TDict.seed, Values.upd, List.map_map]
  refine List.map_congr_left fun e he => ?_
  rcases e with ⟨k, v⟩
  by_cases hk : k = p
  · subst hk
    obtain rfl := hmem v he
    simp [TVal.map, TVal.toPy]
  · cases v with
    | arr a =>
      have : ∀ z : ℂ, (jet z 0).fst + (t : ℂ) * (jet z 0).snd = z := fun z => by simp
      simp [TVal.map, TVal.toPy, hk, mapArr_comp, mapArr_id_of]
    | num y => simp [TVal.map, TVal.toPy, hk]

/-- **C92 (gradients).** The tangents along the coordinate directions, which make up the gradient that `jax.grad` returns, are
the partial derivatives of the expectation values. -/
theorem C92_grad {d : TDict ℝ ℂ} (hn : (d.map Prod.fst).Nodup) {p : String} {x : ℝ} (hp : d.lookup p = some (.num x))
    {l : List (DualNumber ℝ)} (h : jvpExpectation so (state.const Tracer.base.dual) circuit obs (.flat (d.seed p)) = .ok l) :
    IsPartial (fun values => expectation so eigh draw state circuit obs values .ad 0) d.toValues p
      (l.map TrivSqZeroExt.snd) := by
  rcases C92_jvp so eigh draw circuit obs (state.const Tracer.base.dual) (.flat (d.seed p)) with ⟨e, -, h2⟩ | ⟨fs, h0, h1, h2⟩
  · rw [h] at h2; cases h2
  · rw [h] at h2
    cases h2
    refine ⟨x, fun t => fs.map (· (t - x)), ?_, ?_, ?_, ?_⟩
    · rw [TraceBase.lookup_eq, hp]; rfl
    · intro t
      have := h1 (t - x)
      rw [seed_line hn hp, const_line] at this
      simpa using this
    · intro t; simp
    · intro i
      simp only [List.map_map, List.getD_eq_getElem?_getD, List.getElem?_map]
      rcases hf : fs[i]? with _ | f
      · simpa using hasDerivAt_const x (0 : ℝ)
      · have hfd : HasDerivAt f (deriv f 0) (x - x) := by
          rw [sub_self]
          exact ((h0 f (List.mem_of_getElem? hf)).differentiable (by simp) 0).hasDerivAt
        simpa using hfd.comp_sub_const x x

/-- **C92 (agreement with GPSR).** Whatever the partial derivatives of the expectation values of the parameter-shift mode are, AD
returns them.  The gradient theorems C23, C24 and C25 compare the parameter-shift rules with these derivatives. -/
theorem C92_agree {d : TDict ℝ ℂ} (hn : (d.map Prod.fst).Nodup) (hf : d.toValues.Flat) {p : String} {D : List ℝ}
    (h : IsPartial (fun values => expectation so eigh draw state circuit obs values .gpsr 0) d.toValues p D) :
    ∃ l, jvpExpectation so (state.const Tracer.base.dual) circuit obs (.flat (d.seed p)) = .ok l ∧ l.map TrivSqZeroExt.snd = D := by
  have h' : IsPartial (fun values => expectation so eigh draw state circuit obs values .ad 0) d.toValues p D := by
    obtain ⟨x, f, h1, h2, h3⟩ := h
    exact ⟨x, f, h1, fun t => (C20_ad_gpsr so eigh draw (hf.upd p t) state circuit obs 0).trans (h2 t), h3⟩
  obtain ⟨x, f, hx, hE, -⟩ := id h'
  have hp : d.lookup p = some (.num x) := by
    rw [TraceBase.lookup_eq] at hx
    generalize d.lookup p = o at hx
    rcases o with _ | _ | _
    · cases hx
    · cases hx; rfl
    · cases hx
  rcases C92_jvp so eigh draw circuit obs (state.const Tracer.base.dual) (.flat (d.seed p)) with ⟨e, h1, -⟩ | ⟨fs, -, -, h2⟩
  · have h3 := hE (x + 0)
    have h4 := h1 0
    rw [seed_line hn hp, const_line] at h4
    beta_reduce at h3
    rw [h4] at h3
    cases h3
  · exact ⟨_, h2, (C92_grad so eigh draw circuit obs state hn hp h2).unique h'⟩

/-- **C92 (AD and the backward rule of GPSR).** In the setting of `C23_bwd_partial`, the gradient that `analytical_gpsr_bwd` returns
(summed over the observables) is the one of AD. -/
theorem C92_gpsr {d : TDict ℝ ℂ} (hf : d.toValues.Flat) {n : ℕ} {nss : List (List StdNoise)} {Os : List (Matrix (Lab n) (Lab n) ℂ)}
    (hp : circuit.Plain) (h : Setting so n d.toValues circuit.gates nss state obs Os) (hs : SingleUse circuit.gates)
    (hk : d.toValues ≠ []) (hr : ∀ g ∈ circuit.gates, g.Registered) (hro : ∀ o ∈ obs, Op.AllRegistered o.ops) :
    ∃ l : String → List (DualNumber ℝ),
      (∀ p ∈ d.toValues.map Prod.fst, jvpExpectation so (state.const Tracer.base.dual) circuit obs (.flat (d.seed p)) = .ok (l p)) ∧
      gpsrBwd eigh (jittedExpectation so state obs) (.list circuit.gates) d.toValues
        = .ok ((d.toValues.map Prod.fst).map fun p => ((l p).map TrivSqZeroExt.snd).sum) := by
  obtain ⟨D, h1, h2⟩ := C23_bwd_partial so eigh (fun _ _ => 0) hp h hs hk hr hro
  have hn : (d.map Prod.fst).Nodup := by
    have := h.numeric.nodup
    rwa [TDict.toValues, List.map_map] at this
  have h3 : ∀ p ∈ d.toValues.map Prod.fst, ∃ l, jvpExpectation so (state.const Tracer.base.dual) circuit obs (.flat (d.seed p)) = .ok l ∧
      l.map TrivSqZeroExt.snd = D p := fun p hp => C92_agree so eigh _ circuit obs state hn hf (h1 p hp)
  choose! l hl using h3
  refine ⟨l, fun p hp => (hl p hp).1, ?_⟩
  rw [h2]
  refine congrArg Except.ok (List.map_congr_left fun p hp => ?_)
  rw [(hl p hp).2]

end

/-! ## Higher derivatives -/

/-- The value, the derivatives in the directions `u` and `v`, and the second derivative in these directions. -/
noncomputable def jet2 {F : Type} [NormedAddCommGroup F] [NormedSpace ℝ F] (x u v : E) (f : E → F) : DualNumber (DualNumber F) :=
  jet (jet (f x) (fderiv ℝ f x u)) (jet (fderiv ℝ f x v) (fderiv ℝ (fun y => fderiv ℝ f y v) x u))

/-- **C92 (second derivatives).** Differentiating the derivative by AD (`jax.jvp` of `jax.jvp`, the entries of `jax.hessian`): the
last component is the second derivative in the directions `v` and `u`, and the order of the directions does not matter. -/
theorem C92_hessian (state : TState (E → ℂ)) (hs : state.All (ContDiff ℝ ω)) (a : TArgs (E → ℝ) (E → ℂ))
    (ha : a.All (ContDiff ℝ ω) (ContDiff ℝ ω)) :
    (∃ e, (∀ x, expectation so eigh draw (state.map (· x)).toState circuit obs (a.mapVals (· x) (· x)).toValues .ad 0 = .error e) ∧
      ∀ x u v, jvpExpectation2 so (state.map (jet2 x u v)) circuit obs (a.mapVals (jet2 x u v) (jet2 x u v)) = .error e) ∨
    ∃ fs : List (E → ℝ), (∀ f ∈ fs, ContDiff ℝ ω f) ∧
      (∀ x, expectation so eigh draw (state.map (· x)).toState circuit obs (a.mapVals (· x) (· x)).toValues .ad 0
        = .ok (fs.map (· x))) ∧
      (∀ x u v, jvpExpectation2 so (state.map (jet2 x u v)) circuit obs (a.mapVals (jet2 x u v) (jet2 x u v))
        = .ok (fs.map fun f => jet2 x u v f)) ∧
      ∀ f ∈ fs, ∀ x u v, fderiv ℝ (fun y => fderiv ℝ f y v) x u = fderiv ℝ (fun y => fderiv ℝ f y u) x v := by
  obtain ⟨b, rfl⟩ := lift_args ha
  obtain ⟨s, rfl⟩ := lift_state hs
  have h1 : ∀ x, expectation so eigh draw ((s.map fun f => f.1).map (· x)).toState circuit obs
        ((b.mapVals (fun f => f.1) fun f => f.1).mapVals (· x) (· x)).toValues .ad 0
      = (expectationT (Tracer.smooth E) so s circuit obs b).map (List.map (evalHom x).fR) := by
    intro x
    rw [TArgs.mapVals_comp, TState.map_comp, expectation_ad_traced]
    exact (evalHom x).api so s circuit obs b
  let H : E → E → E → (Tracer.smooth E).Hom Tracer.base.dual.dual :=
    fun x u v => (evalHom x).dual.dual.comp ((dirHom u).dual.comp (dirHom v))
  have h2 : ∀ x u v, jvpExpectation2 so ((s.map fun f => f.1).map (jet2 x u v)) circuit obs
        ((b.mapVals (fun f => f.1) fun f => f.1).mapVals (jet2 x u v) (jet2 x u v))
      = (expectationT (Tracer.smooth E) so s circuit obs b).map (List.map (H x u v).fR) := by
    intro x u v
    rw [TArgs.mapVals_comp, TState.map_comp]
    exact (H x u v).api so s circuit obs b
  generalize expectationT (Tracer.smooth E) so s circuit obs b = P at h1 h2
  rcases P with e | fs
  · exact .inl ⟨e, h1, h2⟩
  · refine .inr ⟨fs.map fun f => f.1, ?_, ?_, ?_, ?_⟩
    · intro f hf
      obtain ⟨g, -, rfl⟩ := List.mem_map.1 hf
      exact smoothR_cd g
    · intro x
      rw [h1, List.map_map]; rfl
    · intro x u v
      rw [h2, List.map_map]; rfl
    · intro f hf x u v
      obtain ⟨g, -, rfl⟩ := List.mem_map.1 hf
      have hd : DifferentiableAt ℝ (fderiv ℝ g.1) x :=
        ((smoothR_cd g).fderiv_right (m := 1) (by exact le_top)).differentiable (by simp) x
      have hc : ∀ w : E, HasFDerivAt (fun y => fderiv ℝ g.1 y w) ((fderiv ℝ (fderiv ℝ g.1) x).flip w) x := fun w =>
        hd.hasFDerivAt.clm_apply (hasFDerivAt_const w x) |>.congr_fderiv (by ext; simp)
      rw [(hc v).fderiv, (hc u).fderiv]
      exact (ContDiffAt.isSymmSndFDerivAt (n := ω) (smoothR_cd g).contDiffAt (by simp)).eq u v

/-- **C92 (derivatives of every order).** `n` nested calls of `jax.jvp` with the same tangents compute the `n`-th derivatives along
the tangents. -/
theorem C92_higher (n : ℕ) (state : TState (DualNumber ℂ)) (a : TArgs (DualNumber ℝ) (DualNumber ℂ)) :
    (∃ e, (∀ t, expectation so eigh draw (state.line t) circuit obs (a.line t).toValues .ad 0 = .error e) ∧
      jvpExpectationN n so (state.map fun z => nestSeedC z.fst z.snd n) circuit obs
        (a.mapVals (fun z => nestSeed z.fst z.snd n) fun z => nestSeedC z.fst z.snd n) = .error e) ∨
    ∃ (fs : List (ℝ → ℝ)) (l : List (Tracer.base.nest n).R), (∀ f ∈ fs, ContDiff ℝ ω f) ∧
      (∀ t, expectation so eigh draw (state.line t) circuit obs (a.line t).toValues .ad 0 = .ok (fs.map (· t))) ∧
      jvpExpectationN n so (state.map fun z => nestSeedC z.fst z.snd n) circuit obs
        (a.mapVals (fun z => nestSeed z.fst z.snd n) fun z => nestSeedC z.fst z.snd n) = .ok l ∧
      l.map (nestTop n) = fs.map fun f => iteratedDeriv n f 0 := by
  let L : DualNumber ℝ → smoothR ℝ := fun z => smoothRMk (fun t => z.fst + t * z.snd) (lineR_contDiff z)
  let M : DualNumber ℂ → smoothC ℝ := fun z => smoothCMk (fun t => z.fst + (t : ℂ) * z.snd) (lineC_contDiff z)
  have h1 : ∀ t, expectation so eigh draw (state.line t) circuit obs (a.line t).toValues .ad 0
      = (expectationT (Tracer.smooth ℝ) so (state.map M) circuit obs (a.mapVals L M)).map (List.map (evalHom t).fR) := by
    intro t
    rw [TState.line, expectation_ad_traced]
    refine Eq.trans ?_ ((evalHom t).api so (state.map M) circuit obs (a.mapVals L M))
    rw [TArgs.mapVals_comp, TState.map_comp]
    rfl
  have h2 : jvpExpectationN n so (state.map fun z => nestSeedC z.fst z.snd n) circuit obs
        (a.mapVals (fun z => nestSeed z.fst z.snd n) fun z => nestSeedC z.fst z.snd n)
      = (expectationT (Tracer.smooth ℝ) so (state.map M) circuit obs (a.mapVals L M)).map (List.map (nestHom n).fR) := by
    refine Eq.trans ?_ ((nestHom n).api so (state.map M) circuit obs (a.mapVals L M))
    rw [TArgs.mapVals_comp, TState.map_comp]
    have e1 : (fun z : DualNumber ℝ => nestSeed z.fst z.snd n) = fun z => (nestHom n).fR (L z) :=
      funext fun z => (nestHom_line n z.fst z.snd (L z) fun t => rfl).symm
    have e2 : (fun z : DualNumber ℂ => nestSeedC z.fst z.snd n) = fun z => (nestHom n).fK (M z) :=
      funext fun z => (nestHom_lineC n z.fst z.snd (M z) fun t => rfl).symm
    rw [e1, e2]
    rfl
  generalize expectationT (Tracer.smooth ℝ) so (state.map M) circuit obs (a.mapVals L M) = P at h1 h2
  rcases P with e | fs
  · exact .inl ⟨e, h1, h2⟩
  · refine .inr ⟨fs.map fun f => f.1, fs.map (nestHom n).fR, ?_, ?_, h2, ?_⟩
    · intro f hf
      obtain ⟨g, -, rfl⟩ := List.mem_map.1 hf
      exact smoothR_cd g
    · intro t
      rw [h1, List.map_map]; rfl
    · rw [List.map_map, List.map_map]
      exact List.map_congr_left fun f _ => nestTop_nestHom n f

/-! ## States -/

/-- **C92 (`run`).** The tangents of the state that `run` returns are the derivatives of its entries. -/
theorem C92_run (state : TState (E → ℂ)) (hs : state.All (ContDiff ℝ ω)) (d : TDict (E → ℝ) (E → ℂ))
    (hd : d.All (ContDiff ℝ ω) (ContDiff ℝ ω)) :
    (∃ e, (∀ x, run so circuit (state.map (· x)).toState (d.mapVals (· x) (· x)).toValues = .error e) ∧
      ∀ x v, jvpRun so circuit (state.map (jetAt x v)) (d.mapVals (jetAt x v) (jetAt x v)) = .error e) ∨
    ∃ F : Option (TState {f : E → ℂ // ContDiff ℝ ω f}),
      (∀ x, (run so circuit (state.map (· x)).toState (d.mapVals (· x) (· x)).toValues).map (Option.map State.toT)
        = .ok (F.map (TState.map fun f => f.1 x))) ∧
      ∀ x v, jvpRun so circuit (state.map (jetAt x v)) (d.mapVals (jetAt x v) (jetAt x v))
        = .ok (F.map (TState.map fun f => jet (f.1 x) (fderiv ℝ f.1 x v))) := by
  obtain ⟨b, rfl⟩ : ∃ b : TDict (smoothR E) (smoothC E), d = b.mapVals (fun f => f.1) fun f => f.1 :=
    TDict.All.lift (fun x hx => ⟨smoothRMk x hx, rfl⟩) (fun x hx => ⟨smoothCMk x hx, rfl⟩) hd
  obtain ⟨s, rfl⟩ := lift_state hs
  have h1 : ∀ x, (run so circuit ((s.map fun f => f.1).map (· x)).toState
        ((b.mapVals (fun f => f.1) fun f => f.1).mapVals (· x) (· x)).toValues).map (Option.map State.toT)
      = (runT (Tracer.smooth E) so circuit s b).map (Option.map (TState.map (evalHom x).fK)) := by
    intro x
    rw [TDict.mapVals_comp, TState.map_comp, ← TraceBase.run_eq, TState.toState_toT]
    exact (evalHom x).run so circuit _ b
  have h2 : ∀ x v, jvpRun so circuit ((s.map fun f => f.1).map (jetAt x v))
        ((b.mapVals (fun f => f.1) fun f => f.1).mapVals (jetAt x v) (jetAt x v))
      = (runT (Tracer.smooth E) so circuit s b).map (Option.map (TState.map ((evalHom x).dual.comp (dirHom v)).fK)) := by
    intro x v
    rw [TDict.mapVals_comp, TState.map_comp, jvpRun]
    exact ((evalHom x).dual.comp (dirHom v)).run so circuit _ b
  generalize runT (Tracer.smooth E) so circuit s b = P at h1 h2
  rcases P with e | F
  · refine .inl ⟨e, fun x => ?_, h2⟩
    have := h1 x
    generalize run so circuit _ _ = r at this ⊢
    rcases r with e' | r
    · exact congrArg Except.error (Except.error.inj this)
    · cases this
  · refine .inr ⟨F.map (TState.map fun f => ⟨f.1, smoothC_cd f⟩), fun x => ?_, fun x v => ?_⟩
    · rw [h1]
      rcases F with _ | ⟨a⟩ | ρ
      · rfl
      · simp only [Except.map, Option.map_some, TState.map, mapArr_comp]; rfl
      · simp only [Except.map, Option.map_some, TState.map, mapArr_comp]; rfl
    · rw [h2]
      rcases F with _ | ⟨a⟩ | ρ
      · rfl
      · simp only [Except.map, Option.map_some, TState.map, mapArr_comp]; rfl
      · simp only [Except.map, Option.map_some, TState.map, mapArr_comp]; rfl

/-! ## Examples -/

include eigh draw in
/-- AD on two rotations by the same angle: value `cos 2x` and derivative `-2 sin 2x` (which the adjoint mode, `C55_false`, does not
return). -/
theorem C92_twice (x : ℝ) :
    jvpExpectation so ((State.vec zero1).const Tracer.base.dual) twiceRX [obsZ] (.flat [("a", .num (jet x 1))])
      = .ok [jet (Real.cos (2 * x)) (-2 * Real.sin (2 * x))] := by
  have hE : ∀ t, expectation so eigh draw (((State.vec zero1).const Tracer.base.dual).line t) twiceRX [obsZ] ((TArgs.flat [("a", .num (jet x 1))]).line t).toValues .ad 0
      = .ok [Real.cos (2 * (x + t))] := by
    intro t
    have e : ((TArgs.flat [("a", .num (jet x 1))]).line t).toValues = [("a", .num (x + t))] := by
      simp [TArgs.line, TArgs.mapVals, TArgs.toValues, TDict.toValues, TDict.mapVals, TVal.map, TVal.toPy]
    rw [e, const_line, C20_ad_gpsr so eigh draw (.inl rfl)]
    exact (expectation_gates so eigh draw twiceRX_plain _).trans (twice_value so rfl)
  rcases C92_jvp so eigh draw twiceRX [obsZ] ((State.vec zero1).const Tracer.base.dual) (.flat [("a", .num (jet x 1))]) with ⟨e, h1, -⟩ | ⟨fs, -, h1, h2⟩
  · have := h1 0
    rw [hE] at this
    cases this
  · rw [h2]
    have h3 : ∀ t, fs.map (· t) = [Real.cos (2 * (x + t))] := fun t => by
      have := h1 t
      rw [hE] at this
      exact (Except.ok.inj this).symm
    obtain ⟨f, rfl⟩ : ∃ f, fs = [f] := by
      have := congrArg List.length (h3 0)
      rw [List.length_map] at this
      exact List.length_eq_one_iff.1 this
    have hf : f = fun t => Real.cos (2 * (x + t)) := funext fun t => by simpa using h3 t
    have hd : HasDerivAt f (-2 * Real.sin (2 * x)) 0 := by
      rw [hf]
      have h := (((hasDerivAt_id (0 : ℝ)).const_add x).const_mul 2).cos
      simp only [id, add_zero, mul_one] at h
      refine h.congr_deriv ?_
      ring
    rw [List.map_cons, List.map_nil, hd.deriv, hf]
    simp

/-- Non-vacuity of `C92_chain`, `C92_hessian` and `C92_run`: dictionaries of analytic functions of two variables, flat and nested, with
a Hamiltonian that depends on them, and a state that depends on them. -/
example : TArgs.All (ContDiff ℝ ω) (ContDiff ℝ ω) (TArgs.flat (R := ℝ × ℝ → ℝ) (K := ℝ × ℝ → ℂ) [("a", .num fun x : ℝ × ℝ => x.1 * x.2),
      ("hamiltonian", .arr ⟨[2, 2], [fun x : ℝ × ℝ => (x.1 : ℂ), fun _ => 0, fun _ => 0, fun _ => -1]⟩)]) ∧
    TArgs.All (ContDiff ℝ ω) (ContDiff ℝ ω) (TArgs.split (R := ℝ × ℝ → ℝ) (K := ℝ × ℝ → ℂ) [("a", .num fun x : ℝ × ℝ => x.1)] [("b", .num fun x : ℝ × ℝ => Real.sin x.2)]) ∧
    TState.All (ContDiff ℝ ω) (TState.vec (K := ℝ × ℝ → ℂ) ⟨[2], [fun x : ℝ × ℝ => Complex.exp x.1, fun _ => Complex.I]⟩) := by
  have h1 : ContDiff ℝ ω fun x : ℝ × ℝ => (x.1 : ℂ) := Complex.ofRealCLM.contDiff.comp contDiff_fst
  refine ⟨⟨?_, ?_⟩, ⟨⟨?_, ?_⟩, ?_, ?_⟩, ?_⟩
  · intro k f hf
    simp only [List.mem_cons, List.not_mem_nil, or_false, Prod.mk.injEq, TVal.num.injEq, reduceCtorEq, and_false] at hf
    rw [hf.2]
    exact contDiff_fst.mul contDiff_snd
  · intro k a ha f hf
    simp only [List.mem_cons, List.not_mem_nil, or_false, Prod.mk.injEq, TVal.arr.injEq, reduceCtorEq, and_false, false_or] at ha
    rw [ha.2] at hf
    simp only [List.mem_cons, List.not_mem_nil, or_false] at hf
    rcases hf with rfl | rfl | rfl | rfl
    · exact h1
    all_goals exact contDiff_const
  · intro k f hf
    simp only [List.mem_cons, List.not_mem_nil, or_false, Prod.mk.injEq, TVal.num.injEq] at hf
    rw [hf.2]
    exact contDiff_fst
  · intro k a ha
    simp at ha
  · intro k f hf
    simp only [List.mem_cons, List.not_mem_nil, or_false, Prod.mk.injEq, TVal.num.injEq] at hf
    rw [hf.2]
    exact Real.contDiff_sin.comp contDiff_snd
  · intro k a ha
    simp at ha
  · intro f hf
    simp only [List.mem_cons, List.not_mem_nil, or_false] at hf
    rcases hf with rfl | rfl
    · exact Complex.contDiff_exp.comp h1
    · exact contDiff_const

/-- Non-vacuity of `C92_grad` and `C92_agree`: the derivative of `cos 2x` with respect to `a`. -/
example (x : ℝ) : (([("a", .num x)] : TDict ℝ ℂ).map Prod.fst).Nodup ∧ ([("a", .num x)] : TDict ℝ ℂ).lookup "a" = some (.num x) ∧
    TDict.seed [("a", .num x)] "a" = [("a", .num (jet x 1))] ∧
    IsPartial (fun v => expectation so eigh draw (.vec zero1) twiceRX [obsZ] v .ad 0) [("a", .num x)] "a" [-2 * Real.sin (2 * x)] := by
  refine ⟨by simp, rfl, by simp [TDict.seed, TVal.map], ?_⟩
  have h := C92_grad so eigh draw twiceRX [obsZ] (.vec zero1) (d := [("a", .num x)]) (p := "a") (x := x) (by simp) rfl
    (l := [jet (Real.cos (2 * x)) (-2 * Real.sin (2 * x))])
    (by
      have := C92_twice so eigh draw x
      simpa [TDict.seed, TVal.map] using this)
  exact h

/-- Non-vacuity of `C92_gpsr`. -/
example (x : ℝ) : let d : TDict ℝ ℂ := [("a", .num x)]
    d.toValues.Flat ∧ onceRX.Plain ∧ d.toValues = [("a", .num x)] ∧ SingleUse onceRX.gates := by
  refine ⟨.inl rfl, .seq (.cons (.prim _) .nil), rfl, ?_⟩
  rw [onceRX_gates]
  exact List.pairwise_singleton _ _

end
end Verif
