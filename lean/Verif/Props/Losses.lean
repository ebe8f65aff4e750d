import Verif.Props.Batch

/-!
# C110: the gradients of the loss functions of the documentation are exact

Both loss functions of docs/dqc.md are means over a batch of inputs: the squared errors of the function fitter, and the squared residuals of
a differential equation and its boundary conditions, which contain second derivatives of the model.
-/

set_option autoImplicit false

namespace Verif
open NDArray
open scoped ContDiff

variable {E : Type} [NormedAddCommGroup E] [NormedSpace ℝ E] {n : ℕ}

/-! ## Specification -/

/-- The mean of half the squared errors of the model `f` with parameters `θ` on the data `(xs, ys)`. -/
noncomputable def fitLoss (f : E → ℝ → ℝ) (xs ys : Fin n → ℝ) (θ : E) : ℝ := (∑ b, (f θ (xs b) - ys b) ^ 2 / 2) / n

/-- The mean of the squared residuals of the Laplace equation `u_xx + u_yy = 0` at the points `(xs, ys)` and of the boundary conditions
`u(0, y) = 0`, `u(1, y) = 0`, `u(x, 1) = 0`, `u(x, 0) = sin(πx)`. -/
noncomputable def laplaceLoss (u : E → ℝ → ℝ → ℝ) (xs ys : Fin n → ℝ) (θ : E) : ℝ :=
  (∑ b, (u θ 0 (ys b) ^ 2 + u θ 1 (ys b) ^ 2 + u θ (xs b) 1 ^ 2 + (u θ (xs b) 0 - Real.sin (Real.pi * xs b)) ^ 2
    + (iteratedDeriv 2 (fun s => u θ s (ys b)) (xs b) + iteratedDeriv 2 (fun s => u θ (xs b) s) (ys b)) ^ 2)) / n

/-! ## Naturality -/

section nat
variable {A B : Tracer} (φ : A.Hom B) (so : SetOrder) (state : State) (obs : Observable)

theorem TDict.mapVals_append {R S K L : Type} (f : R → S) (g : K → L) (d d' : TDict R K) :
    TDict.mapVals f g (d ++ d') = d.mapVals f g ++ d'.mapVals f g := List.map_append

theorem solver_nat (gates : List Gate) (params : TDict A.R A.K) (x y : A.R) :
    solverT B so state gates obs (params.mapVals φ.fR φ.fK) (φ.fR x) (φ.fR y) = (solverT A so state gates obs params x y).map φ.fR := by
  have hd : params.mapVals φ.fR φ.fK ++ [("f_x", TVal.num (φ.fR x)), ("f_y", .num (φ.fR y))]
      = TDict.mapVals φ.fR φ.fK (params ++ [("f_x", TVal.num x), ("f_y", .num y)]) := by
    rw [TDict.mapVals_append]; rfl
  simp only [solverT, hd, φ.const_state]
  refine bind_nat (φ.gates so _ (.list gates) _) fun st => ?_
  cases st with
  | dm ρ => rfl
  | vec a => exact φ.single so [] obs (.vec a)

theorem spread_nat (ι : Type) (hA : A.Square) (params : TDict A.R A.K) :
    (params.mapVals φ.fR φ.fK).spread ι = (params.spread ι).mapVals (batchHom hA φ ι).fR (batchHom hA φ ι).fK := by
  simp only [TDict.spread, TDict.mapVals_comp]
  rfl

theorem still2_nat (params : TDict A.R A.K) :
    (params.mapVals φ.fR φ.fK).still2 = params.still2.mapVals φ.dual.dual.fR φ.dual.dual.fK := by
  simp only [TDict.still2, TDict.mapVals_comp]
  have h0 : ∀ x : A.R, φ.dual.dual.fR (jet (jet x 0) (jet 0 0)) = jet (jet (φ.fR x) 0) (jet 0 0) := by
    intro x
    change jet (jet (φ.fR x) (φ.fR 0)) (jet (φ.fR 0) (φ.fR 0)) = _
    simp only [map_zero]
  have h1 : ∀ x : A.K, φ.dual.dual.fK (jet (jet x 0) (jet 0 0)) = jet (jet (φ.fK x) 0) (jet 0 0) := by
    intro x
    change jet (jet (φ.fK x) (φ.fK 0)) (jet (φ.fK 0) (φ.fK 0)) = _
    simp only [map_zero]
  exact (congrArg₂ (fun f g => TDict.mapVals f g params) (funext h0) (funext h1)).symm

theorem fit_nat (hA : A.Square) (circuit : Op) (input : String) (params : TDict A.R A.K) (xs ys : Fin n → ℝ) :
    fitLossT B so state circuit obs input (params.mapVals φ.fR φ.fK) xs ys
      = (fitLossT A so state circuit obs input params xs ys).map φ.fR := by
  have hd : (params.mapVals φ.fR φ.fK).spread (Fin n) ++ [(input, TVal.num fun b => B.constR (xs b))]
      = TDict.mapVals (batchHom hA φ (Fin n)).fR (batchHom hA φ (Fin n)).fK
        (params.spread (Fin n) ++ [(input, TVal.num fun b => A.constR (xs b))]) := by
    rw [TDict.mapVals_append, spread_nat φ (Fin n) hA]
    have : (fun b => B.constR (xs b)) = (batchHom hA φ (Fin n)).fR fun b => A.constR (xs b) :=
      funext fun b => (φ.constR (xs b)).symm
    rw [this]; rfl
  simp only [fitLossT, hd, (batchHom hA φ (Fin n)).const_state]
  refine bind_nat ((batchHom hA φ (Fin n)).api so _ circuit [obs] (.flat _)) fun l => ?_
  rcases l with _ | ⟨f, _ | ⟨_, _⟩⟩
  · rfl
  · simp only [List.map_cons, List.map_nil, Except.map, map_mul, map_sum, map_pow, map_sub, φ.constR]
    rfl
  · rfl

theorem pde_nat (hA : A.Square) (gates : List Gate) (params : TDict A.R A.K) (xs ys : Fin n → ℝ) :
    pdeLossT B so state gates obs (params.mapVals φ.fR φ.fK) xs ys
      = (pdeLossT A so state gates obs params xs ys).map φ.fR := by
  let ψ := batchHom hA φ (Fin n)
  let χ := batchHom (batch_square A (Fin n)) ψ (Fin 4)
  have hx : ∀ zs : Fin n → ℝ, (fun b => B.constR (zs b)) = ψ.fR fun b => A.constR (zs b) := fun zs =>
    funext fun b => (φ.constR (zs b)).symm
  have h4 : ∀ a b c d : Fin n → A.R, (![ψ.fR a, ψ.fR b, ψ.fR c, ψ.fR d] : Fin 4 → Fin n → B.R) = χ.fR ![a, b, c, d] := by
    intro a b c d
    funext k
    fin_cases k <;> rfl
  have hj : ∀ a b c d : Fin n → A.R, jet (jet (ψ.fR a) (ψ.fR b)) (jet (ψ.fR c) (ψ.fR d)) = ψ.dual.dual.fR (jet (jet a b) (jet c d)) :=
    fun _ _ _ _ => rfl
  have h1 : (1 : Fin n → B.R) = ψ.fR 1 := (map_one _).symm
  have h0 : (0 : Fin n → B.R) = ψ.fR 0 := (map_zero _).symm
  simp only [pdeLossT]
  rw [spread_nat φ (Fin n) hA, spread_nat ψ (Fin 4) (batch_square A (Fin n)), still2_nat ψ, hx xs, hx ys]
  rw [h1, h0, h4, h4, hj, hj, hj, hj]
  refine bind_nat (solver_nat χ so state obs gates _ _ _) fun bd => bind_nat (solver_nat ψ.dual.dual so state obs gates _ _ _) fun uxx =>
    bind_nat (solver_nat ψ.dual.dual so state obs gates _ _ _) fun uyy => ?_
  simp only [Except.map, map_mul, map_sum, map_add, map_pow, map_sub, φ.constR, φ.sin]
  rfl

end nat

/-! ## The model as a function of parameters and inputs -/

section model
variable (so : SetOrder) (state : State) (obs : Observable)

theorem solver_base (gates : List Gate) (params : TDict ℝ ℂ) (x y : ℝ) :
    solverT Tracer.base so state gates obs params x y = solver so state gates obs params x y := by
  simp only [solverT, solver, State.const_base]
  rw [TraceBase.gates_eq]
  cases applyGates so state (.list gates) (TDict.toValues (params ++ [("f_x", .num x), ("f_y", .num y)])) with
  | error e => rfl
  | ok s =>
    cases s with
    | dm ρ => rfl
    | vec a => exact TraceBase.single_eq so [] obs (.vec a)

theorem single_output {T : Tracer} {st : TState T.K} {circuit : Op} {a : TArgs T.R T.K} {l : List T.R}
    (h : expectationT T so st circuit [obs] a = .ok l) : ∃ f, l = [f] := by
  simp only [expectationT] at h
  generalize a.process = Q at h
  rcases Q with e | ⟨dc, do'⟩
  · cases h
  change adExpectationT T so st circuit [obs] dc do' = _ at h
  simp only [adExpectationT, List.mapM_cons, List.mapM_nil] at h
  generalize (do
      let st ← applyGatesT T so st (.list (← opsToGates circuit.iter)) dc
      expectSingleT T so do' obs st : Py T.R) = Q at h
  rcases Q with e | f
  · cases h
  · cases h
    exact ⟨f, rfl⟩

variable (eigh : Eigh) (draw : Draw) (circuit : Op) (input : String)

/-- **C110 (function fitter).** Let the trainable parameters be analytic functions of `θ`.  If the expectation value raises, it raises the
same exception for all `θ` and all inputs, and so does the differentiated loss.  Otherwise, with `f θ x` the expectation value for
parameters `θ` and input `x`, the differentiated `loss_fn` returns the value of the mean squared error of `f` on the data and its derivative
in the direction `v`. -/
theorem C110_fit [NeZero n] {params : TDict (E → ℝ) (E → ℂ)} (hp : params.All (ContDiff ℝ ω) (ContDiff ℝ ω)) (xs ys : Fin n → ℝ) :
    (∃ e, (∀ θ x, expectation so eigh draw state circuit [obs]
          (TDict.toValues (params.mapVals (· θ) (· θ) ++ [(input, .num x)])) .ad 0 = .error e) ∧
      ∀ θ v, fitLossT Tracer.base.dual so state circuit obs input (params.mapVals (jetAt θ v) (jetAt θ v)) xs ys = .error e) ∨
    ∃ f : E → ℝ → ℝ, (∀ θ x, expectation so eigh draw state circuit [obs]
          (TDict.toValues (params.mapVals (· θ) (· θ) ++ [(input, .num x)])) .ad 0 = .ok [f θ x]) ∧
      ContDiff ℝ ω (fitLoss f xs ys) ∧
      ∀ θ v, fitLossT Tracer.base.dual so state circuit obs input (params.mapVals (jetAt θ v) (jetAt θ v)) xs ys
        = .ok (jet (fitLoss f xs ys θ) (fderiv ℝ (fitLoss f xs ys) θ v)) := by
  obtain ⟨b, rfl⟩ := TDict.All.lift (f := fun f : smoothR E => f.1) (g := fun f : smoothC E => f.1)
    (fun x hx => ⟨smoothRMk x hx, rfl⟩) (fun x hx => ⟨smoothCMk x hx, rfl⟩) hp
  let q := pullHom (E := E × ℝ) (F := E) Prod.fst contDiff_fst
  let X : smoothR (E × ℝ) := smoothRMk Prod.snd contDiff_snd
  let d : TDict (smoothR (E × ℝ)) (smoothC (E × ℝ)) := b.mapVals q.fR q.fK ++ [(input, .num X)]
  have h1 : ∀ θ x, expectation so eigh draw state circuit [obs]
        (TDict.toValues ((b.mapVals (fun f => f.1) fun f => f.1).mapVals (· θ) (· θ) ++ [(input, .num x)])) .ad 0
      = (expectationT (Tracer.smooth (E × ℝ)) so (state.const _) circuit [obs] (.flat d)).map (List.map (evalHom (θ, x)).fR) := by
    intro θ x
    have h2 := expectation_ad_traced so eigh draw circuit [obs] state.toT
      (.flat ((b.mapVals (fun f => f.1) fun f => f.1).mapVals (· θ) (· θ) ++ [(input, .num x)]))
    rw [State.toT_toState] at h2
    refine h2.trans ?_
    have h3 : (b.mapVals (fun f => f.1) fun f => f.1).mapVals (· θ) (· θ) ++ [(input, TVal.num x)]
        = TDict.mapVals (evalHom (θ, x)).fR (evalHom (θ, x)).fK d := by
      rw [TDict.mapVals_append, TDict.mapVals_comp, TDict.mapVals_comp]; rfl
    rw [h3, ← State.const_base, (evalHom (θ, x)).const_state]
    exact (evalHom (θ, x)).api so _ circuit [obs] (.flat d)
  let H := piHom (smooth_square (E × ℝ)) fun i : Fin n => pullHom (fun θ : E => (θ, xs i)) (contDiff_id.prodMk contDiff_const)
  have h2 : expectationT ((Tracer.smooth E).batch (Fin n)) so (state.const _) circuit [obs]
        (.flat (b.spread (Fin n) ++ [(input, TVal.num fun i => (Tracer.smooth E).constR (xs i))]))
      = (expectationT (Tracer.smooth (E × ℝ)) so (state.const _) circuit [obs] (.flat d)).map (List.map H.fR) := by
    have h3 : b.spread (Fin n) ++ [(input, TVal.num fun i => (Tracer.smooth E).constR (xs i))] = TDict.mapVals H.fR H.fK d := by
      rw [TDict.mapVals_append, TDict.mapVals_comp]; rfl
    rw [h3, H.const_state]
    exact H.api so _ circuit [obs] (.flat d)
  have h3 : ∀ θ v, fitLossT Tracer.base.dual so state circuit obs input
        ((b.mapVals (fun f => f.1) fun f => f.1).mapVals (jetAt θ v) (jetAt θ v)) xs ys
      = (fitLossT (Tracer.smooth E) so state circuit obs input b xs ys).map ((evalHom θ).dual.comp (dirHom v)).fR := by
    intro θ v
    rw [TDict.mapVals_comp]
    exact fit_nat ((evalHom θ).dual.comp (dirHom v)) so state obs (smooth_square E) circuit input b xs ys
  simp only [fitLossT, h2] at h3
  have hone := @single_output so obs (Tracer.smooth (E × ℝ)) (state.const _) circuit (.flat d)
  generalize expectationT (Tracer.smooth (E × ℝ)) so (state.const _) circuit [obs] (.flat d) = P at h1 h3 hone
  rcases P with e | l
  · exact .inl ⟨e, h1, h3⟩
  obtain ⟨U, rfl⟩ := hone rfl
  let Lh : smoothR E := (Tracer.smooth E).constR (1 / n) *
    ∑ i, (Tracer.smooth E).constR (1 / 2) * (H.fR U i - (Tracer.smooth E).constR (ys i)) ^ 2
  have hL : Lh.1 = fitLoss (fun θ x => U.1 (θ, x)) xs ys := by
    funext θ
    change (evalHom θ).fR Lh = _
    simp only [Lh, map_mul, map_sum, map_pow, map_sub, (evalHom θ).constR, fitLoss]
    change 1 / (n : ℝ) * ∑ i, 1 / 2 * (U.1 (θ, xs i) - ys i) ^ 2 = _
    rw [one_div, inv_mul_eq_div]
    refine congrArg (· / (n : ℝ)) (Finset.sum_congr rfl fun i _ => ?_)
    ring
  refine .inr ⟨fun θ x => U.1 (θ, x), h1, hL ▸ smoothR_cd Lh, fun θ v => (h3 θ v).trans ?_⟩
  rw [← hL]
  rfl

/-! ## Derivatives in the inputs -/

theorem dirR_inputs (w : ℝ × ℝ) (f : smoothR E) :
    dirR ((0, w) : E × ℝ × ℝ) ((pullHom (E := E × ℝ × ℝ) (F := E) Prod.fst contDiff_fst).fR f) = 0 := by
  refine smoothR_ext fun z => ?_
  have h := (smoothR_diff f z.1).hasFDerivAt.comp z (hasFDerivAt_fst (𝕜 := ℝ) (p := z))
  exact dirR_apply _ _ h (by simp)

theorem dirC_inputs (w : ℝ × ℝ) (f : smoothC E) :
    dirC ((0, w) : E × ℝ × ℝ) ((pullHom (E := E × ℝ × ℝ) (F := E) Prod.fst contDiff_fst).fK f) = 0 := by
  refine smoothC_ext fun z => ?_
  have h := (smoothC_diff f z.1).hasFDerivAt.comp z (hasFDerivAt_fst (𝕜 := ℝ) (p := z))
  exact dirC_apply _ _ h (by simp)

theorem dirR_const (w : E) (c : ℝ) : dirR w ((Tracer.smooth E).constR c) = 0 :=
  smoothR_ext fun x => dirR_apply w _ (hasFDerivAt_const c x) rfl

/-- The first input as a number. -/
noncomputable def inputX (E : Type) [NormedAddCommGroup E] [NormedSpace ℝ E] : smoothR (E × ℝ × ℝ) :=
  smoothRMk (fun z => z.2.1) (contDiff_fst.comp contDiff_snd)

/-- The second input as a number. -/
noncomputable def inputY (E : Type) [NormedAddCommGroup E] [NormedSpace ℝ E] : smoothR (E × ℝ × ℝ) :=
  smoothRMk (fun z => z.2.2) (contDiff_snd.comp contDiff_snd)

theorem dirR_inputX (w : E × ℝ × ℝ) : dirR w (inputX E) = (Tracer.smooth (E × ℝ × ℝ)).constR w.2.1 := by
  refine smoothR_ext fun z => ?_
  exact dirR_apply _ _ ((hasFDerivAt_fst (𝕜 := ℝ) (p := z.2)).comp z (hasFDerivAt_snd (𝕜 := ℝ) (p := z))) rfl

theorem dirR_inputY (w : E × ℝ × ℝ) : dirR w (inputY E) = (Tracer.smooth (E × ℝ × ℝ)).constR w.2.2 := by
  refine smoothR_ext fun z => ?_
  exact dirR_apply _ _ ((hasFDerivAt_snd (𝕜 := ℝ) (p := z.2)).comp z (hasFDerivAt_snd (𝕜 := ℝ) (p := z))) rfl

/-- The second derivative along a line. -/
theorem second_deriv (w : E) (f : smoothR E) (c : ℝ → E) (hc : ∀ s, HasDerivAt c w s) (s : ℝ) :
    (dirR w (dirR w f)).1 (c s) = iteratedDeriv 2 (fun t => f.1 (c t)) s := by
  have h1 : ∀ (g : smoothR E) (s : ℝ), HasDerivAt (fun t => g.1 (c t)) ((dirR w g).1 (c s)) s := fun g s =>
    (smoothR_diff g (c s)).hasFDerivAt.comp_hasDerivAt s (hc s)
  rw [iteratedDeriv_succ, iteratedDeriv_one]
  have h2 : deriv (fun t => f.1 (c t)) = fun t => (dirR w f).1 (c t) := funext fun t => (h1 f t).deriv
  rw [h2, (h1 (dirR w f) s).deriv]

variable (gates : List Gate)

/-- **C110 (differential equations).** Let the trainable parameters be analytic functions of `θ`.  If the solver raises, it raises the same
exception for all parameters and inputs, and so does the differentiated loss.  Otherwise, with `u θ x y` the number that the solver returns,
the differentiated `loss_fn` (derivatives of a mean over a batch of squares of second derivatives inside the batch) returns
the value of the mean squared residual of `u` and its derivative in the direction `v`. -/
theorem C110_pde [NeZero n] {params : TDict (E → ℝ) (E → ℂ)} (hp : params.All (ContDiff ℝ ω) (ContDiff ℝ ω)) (xs ys : Fin n → ℝ) :
    (∃ e, (∀ θ x y, solver so state gates obs (params.mapVals (· θ) (· θ)) x y = .error e) ∧
      ∀ θ v, pdeLossT Tracer.base.dual so state gates obs (params.mapVals (jetAt θ v) (jetAt θ v)) xs ys = .error e) ∨
    ∃ u : E → ℝ → ℝ → ℝ, (∀ θ x y, solver so state gates obs (params.mapVals (· θ) (· θ)) x y = .ok (u θ x y)) ∧
      ContDiff ℝ ω (laplaceLoss u xs ys) ∧
      ∀ θ v, pdeLossT Tracer.base.dual so state gates obs (params.mapVals (jetAt θ v) (jetAt θ v)) xs ys
        = .ok (jet (laplaceLoss u xs ys θ) (fderiv ℝ (laplaceLoss u xs ys) θ v)) := by
  obtain ⟨b, rfl⟩ := TDict.All.lift (f := fun f : smoothR E => f.1) (g := fun f : smoothC E => f.1)
    (fun x hx => ⟨smoothRMk x hx, rfl⟩) (fun x hx => ⟨smoothCMk x hx, rfl⟩) hp
  let q := pullHom (E := E × ℝ × ℝ) (F := E) Prod.fst contDiff_fst
  let d : TDict (smoothR (E × ℝ × ℝ)) (smoothC (E × ℝ × ℝ)) := b.mapVals q.fR q.fK
  have h1 : ∀ θ x y, solver so state gates obs ((b.mapVals (fun f => f.1) fun f => f.1).mapVals (· θ) (· θ)) x y
      = (solverT (Tracer.smooth (E × ℝ × ℝ)) so state gates obs d (inputX E) (inputY E)).map (evalHom (θ, x, y)).fR := by
    intro θ x y
    rw [← solver_base]
    refine Eq.trans ?_ (solver_nat (evalHom (θ, x, y)) so state obs gates d (inputX E) (inputY E))
    rw [TDict.mapVals_comp, TDict.mapVals_comp]
    rfl
  let at' : ℝ → ℝ → (Tracer.smooth (E × ℝ × ℝ)).Hom (Tracer.smooth E) := fun x y =>
    pullHom (fun θ : E => (θ, x, y)) (contDiff_id.prodMk contDiff_const)
  let H := piHom (smooth_square (E × ℝ × ℝ)) fun i : Fin n => at' (xs i) (ys i)
  let H4 := piHom (smooth_square (E × ℝ × ℝ)) fun k : Fin 4 => piHom (smooth_square (E × ℝ × ℝ)) fun i : Fin n =>
    at' (![0, 1, xs i, xs i] k) (![ys i, ys i, 1, 0] k)
  let D : E × ℝ × ℝ → (Tracer.smooth (E × ℝ × ℝ)).Hom ((Tracer.smooth E).batch (Fin n)).dual.dual := fun w =>
    H.dual.dual.comp ((dirHom w).dual.comp (dirHom w))
  have hD : ∀ w f, (D w).fR f = jet (jet (H.fR f) (H.fR (dirR w f))) (jet (H.fR (dirR w f)) (H.fR (dirR w (dirR w f)))) :=
    fun _ _ => rfl
  have hDC : ∀ w f, (D w).fK f = jet (jet (H.fK f) (H.fK (dirC w f))) (jet (H.fK (dirC w f)) (H.fK (dirC w (dirC w f)))) :=
    fun _ _ => rfl
  have hbd : solverT (((Tracer.smooth E).batch (Fin n)).batch (Fin 4)) so state gates obs ((b.spread (Fin n)).spread (Fin 4))
        ![0, 1, fun i => (Tracer.smooth E).constR (xs i), fun i => (Tracer.smooth E).constR (xs i)]
        ![fun i => (Tracer.smooth E).constR (ys i), fun i => (Tracer.smooth E).constR (ys i), 1, 0]
      = (solverT (Tracer.smooth (E × ℝ × ℝ)) so state gates obs d (inputX E) (inputY E)).map H4.fR := by
    refine Eq.trans ?_ (solver_nat H4 so state obs gates d (inputX E) (inputY E))
    have e1 : H4.fR (inputX E) = ![0, 1, fun i => (Tracer.smooth E).constR (xs i), fun i => (Tracer.smooth E).constR (xs i)] := by
      funext k
      fin_cases k <;> rfl
    have e2 : H4.fR (inputY E) = ![fun i => (Tracer.smooth E).constR (ys i), fun i => (Tracer.smooth E).constR (ys i), 1, 0] := by
      funext k
      fin_cases k <;> rfl
    have e3 : d.mapVals H4.fR H4.fK = (b.spread (Fin n)).spread (Fin 4) := by
      rw [TDict.mapVals_comp, TDict.spread, TDict.spread, TDict.mapVals_comp]; rfl
    rw [e1, e2, e3]
  have hdict : ∀ w : ℝ × ℝ, d.mapVals (D (0, w)).fR (D (0, w)).fK = (b.spread (Fin n)).still2 := by
    intro w
    rw [TDict.mapVals_comp, TDict.spread, TDict.still2, TDict.mapVals_comp]
    refine congrArg₂ (fun f g => TDict.mapVals f g b) (funext fun f => ?_) (funext fun f => ?_)
    · rw [hD, dirR_inputs w f]
      have h0 : dirR ((0, w) : E × ℝ × ℝ) 0 = 0 := dirR_const (E := E × ℝ × ℝ) (0, w) 0 |> fun h => by simpa using h
      rw [h0, map_zero]; rfl
    · rw [hDC, dirC_inputs w f, dirC_zero, map_zero]; rfl
  have hxy : ∀ w : ℝ × ℝ, solverT ((Tracer.smooth E).batch (Fin n)).dual.dual so state gates obs (b.spread (Fin n)).still2
        (jet (jet (fun i => (Tracer.smooth E).constR (xs i)) fun _ => (Tracer.smooth E).constR w.1)
          (jet (fun _ => (Tracer.smooth E).constR w.1) 0))
        (jet (jet (fun i => (Tracer.smooth E).constR (ys i)) fun _ => (Tracer.smooth E).constR w.2)
          (jet (fun _ => (Tracer.smooth E).constR w.2) 0))
      = (solverT (Tracer.smooth (E × ℝ × ℝ)) so state gates obs d (inputX E) (inputY E)).map (D (0, w)).fR := by
    intro w
    refine Eq.trans ?_ (solver_nat (D (0, w)) so state obs gates d (inputX E) (inputY E))
    rw [hdict w, hD, hD, dirR_inputX, dirR_inputY, dirR_const, dirR_const, map_zero]
    rfl
  have hxx := hxy (1, 0)
  have hyy := hxy (0, 1)
  simp only [map_one, map_zero] at hxx hyy
  have h3 : ∀ θ v, pdeLossT Tracer.base.dual so state gates obs
        ((b.mapVals (fun f => f.1) fun f => f.1).mapVals (jetAt θ v) (jetAt θ v)) xs ys
      = (pdeLossT (Tracer.smooth E) so state gates obs b xs ys).map ((evalHom θ).dual.comp (dirHom v)).fR := by
    intro θ v
    rw [TDict.mapVals_comp]
    exact pde_nat ((evalHom θ).dual.comp (dirHom v)) so state obs (smooth_square E) gates b xs ys
  have h4 : pdeLossT (Tracer.smooth E) so state gates obs b xs ys
      = (solverT (Tracer.smooth (E × ℝ × ℝ)) so state gates obs d (inputX E) (inputY E)).map fun U =>
        (Tracer.smooth E).constR (1 / n) * ∑ i, (H4.fR U 0 i ^ 2 + H4.fR U 1 i ^ 2 + H4.fR U 2 i ^ 2
          + (H4.fR U 3 i - (Tracer.smooth E).sin ((Tracer.smooth E).constR Real.pi * (Tracer.smooth E).constR (xs i))) ^ 2
          + (H.fR (dirR (0, 1, 0) (dirR (0, 1, 0) U)) i + H.fR (dirR (0, 0, 1) (dirR (0, 0, 1) U)) i) ^ 2) := by
    have hxx' : solverT ((Tracer.smooth E).batch (Fin n)).dual.dual so state gates obs (b.spread (Fin n)).still2
        (jet (jet (fun i => (Tracer.smooth E).constR (xs i)) 1) (jet 1 0))
        (jet (jet (fun i => (Tracer.smooth E).constR (ys i)) 0) (jet 0 0)) = _ := hxx
    have hyy' : solverT ((Tracer.smooth E).batch (Fin n)).dual.dual so state gates obs (b.spread (Fin n)).still2
        (jet (jet (fun i => (Tracer.smooth E).constR (xs i)) 0) (jet 0 0))
        (jet (jet (fun i => (Tracer.smooth E).constR (ys i)) 1) (jet 1 0)) = _ := hyy
    simp only [pdeLossT, hbd, hxx', hyy']
    cases solverT (Tracer.smooth (E × ℝ × ℝ)) so state gates obs d (inputX E) (inputY E) <;> rfl
  rw [h4] at h3
  generalize solverT (Tracer.smooth (E × ℝ × ℝ)) so state gates obs d (inputX E) (inputY E) = P at h1 h3
  rcases P with e | U
  · exact .inl ⟨e, h1, h3⟩
  let Lh : smoothR E := (Tracer.smooth E).constR (1 / n) * ∑ i, (H4.fR U 0 i ^ 2 + H4.fR U 1 i ^ 2 + H4.fR U 2 i ^ 2
    + (H4.fR U 3 i - (Tracer.smooth E).sin ((Tracer.smooth E).constR Real.pi * (Tracer.smooth E).constR (xs i))) ^ 2
    + (H.fR (dirR (0, 1, 0) (dirR (0, 1, 0) U)) i + H.fR (dirR (0, 0, 1) (dirR (0, 0, 1) U)) i) ^ 2)
  have hL : Lh.1 = laplaceLoss (fun θ x y => U.1 (θ, x, y)) xs ys := by
    funext θ
    change (evalHom θ).fR Lh = _
    simp only [Lh, map_mul, map_sum, map_pow, map_sub, map_add, (evalHom θ).constR, (evalHom θ).sin, laplaceLoss]
    have e1 : ∀ i, (evalHom θ).fR (H.fR (dirR (0, 1, 0) (dirR (0, 1, 0) U)) i)
        = iteratedDeriv 2 (fun s => U.1 (θ, s, ys i)) (xs i) := fun i =>
      second_deriv (0, 1, 0) U (fun s => (θ, s, ys i))
        (fun s => (hasDerivAt_const s θ).prodMk ((hasDerivAt_id s).prodMk (hasDerivAt_const s (ys i)))) (xs i)
    have e2 : ∀ i, (evalHom θ).fR (H.fR (dirR (0, 0, 1) (dirR (0, 0, 1) U)) i)
        = iteratedDeriv 2 (fun s => U.1 (θ, xs i, s)) (ys i) := fun i =>
      second_deriv (0, 0, 1) U (fun s => (θ, xs i, s))
        (fun s => (hasDerivAt_const s θ).prodMk ((hasDerivAt_const s (xs i)).prodMk (hasDerivAt_id s))) (ys i)
    simp only [e1, e2]
    change 1 / (n : ℝ) * ∑ i, (U.1 (θ, 0, ys i) ^ 2 + U.1 (θ, 1, ys i) ^ 2 + U.1 (θ, xs i, 1) ^ 2
      + (U.1 (θ, xs i, 0) - Real.sin (Real.pi * xs i)) ^ 2 + _) = _
    rw [one_div, inv_mul_eq_div]
  refine .inr ⟨fun θ x y => U.1 (θ, x, y), h1, hL ▸ smoothR_cd Lh, fun θ v => (h3 θ v).trans ?_⟩
  rw [← hL]
  rfl

/-! ## Examples -/

/-- The gates `RX(p, 0)`, `RX(q, 0)`. -/
noncomputable def rxPair (p q : String) : List Gate := [Gate.RX (.str p) (.int 0), Gate.RX (.str q) (.int 0)]

theorem rx_std {p : String} {v : Values} {x : ℝ} (h : v.lookup p = some (.num x)) : (Gate.RX (.str p) (.int 0)).Std 1 v (.RX x) :=
  ⟨.RX _ _ _ (.str h) (by simp), rfl, ⟨.inr (.inl rfl), (by decide : ValidDims 1 [0])⟩⟩

theorem rxPair_value {p q : String} {v : Values} {x y : ℝ} (hp : v.lookup p = some (.num x)) (hq : v.lookup q = some (.num y)) :
    gatesExpectation so (.vec zero1) [obsZ] (.list (rxPair p q)) v = .ok [Real.cos (x + y)] := by
  have hm : ∀ {p : String} {x : ℝ}, v.lookup p = some (.num x) →
      (Gate.RX (.str p) (.int 0)).mat 1 .unitary v = gateMat 1 (StdGate.RX x).mat [0] [] := fun h => (rx_std h).mat
  rw [gatesExpectation_pure (n := 1) (O := gateMat 1 StdGate.Z.mat [0] []) (by simp [rxPair]) (by
    simp only [rxPair, List.mem_cons, List.not_mem_nil, or_false, forall_eq_or_imp, forall_eq]
    exact ⟨(rx_std hp).ok, (rx_std hq).ok⟩) (by simp [rxPair, Gate.RX, mkGate]) zero1_isKet (obsZ_fixed so _)]
  rw [rxPair, gatesMat, gatesMat, gatesMat, hm hp, hm hq, one_mul, sum_lab1]
  simp only [← Matrix.mulVec_mulVec, mulVec_lab1, ket, zero1_get, StdGate.mat, matE]
  refine congrArg (fun z => Except.ok [z]) ?_
  have h2 : Real.cos (x + y) = Real.cos (x / 2 + y / 2) ^ 2 - Real.sin (x / 2 + y / 2) ^ 2 := by
    rw [← Real.cos_two_mul']; ring_nf
  rw [h2, Real.cos_add, Real.sin_add]
  clear h2
  generalize Real.cos (x / 2) = c
  generalize Real.sin (x / 2) = d
  generalize Real.cos (y / 2) = c'
  generalize Real.sin (y / 2) = d'
  norm_num [Complex.add_re, Complex.mul_re, Complex.mul_im, Complex.add_im]
  ring

theorem angle_all : TDict.All (ContDiff ℝ ω) (ContDiff ℝ ω) ([("t", .num fun θ : ℝ => θ)] : TDict (ℝ → ℝ) (ℝ → ℂ)) := by
  refine ⟨fun k f hf => ?_, fun k a ha => ?_⟩
  · simp only [List.mem_singleton, Prod.mk.injEq, TVal.num.injEq] at hf
    rw [hf.2]
    exact contDiff_id
  · simp at ha

/-- Non-vacuity of `C110_fit`: the circuit `[RX("t", 0), RX("x", 0)]` with the parameter `t` and the input `x` fits `cos(θ + x)`; the
derivative of its loss for two data points. -/
example (xs ys : Fin 2 → ℝ) (θ : ℝ) :
    fitLossT Tracer.base.dual so (.vec zero1) (mkSeq [.prim (Gate.RX (.str "t") (.int 0)), .prim (Gate.RX (.str "x") (.int 0))]) obsZ "x"
        [("t", .num (jet θ 1))] xs ys
      = .ok (jet (((Real.cos (θ + xs 0) - ys 0) ^ 2 / 2 + (Real.cos (θ + xs 1) - ys 1) ^ 2 / 2) / 2)
        (((Real.cos (θ + xs 0) - ys 0) * -Real.sin (θ + xs 0) + (Real.cos (θ + xs 1) - ys 1) * -Real.sin (θ + xs 1)) / 2)) := by
  set circuit := mkSeq [.prim (Gate.RX (.str "t") (.int 0)), .prim (Gate.RX (.str "x") (.int 0))] with hc
  have hv : ∀ θ x : ℝ, expectation so eigh draw (.vec zero1) circuit [obsZ]
      (TDict.toValues (TDict.mapVals (· θ) (· θ) ([("t", .num fun θ : ℝ => θ)] : TDict (ℝ → ℝ) (ℝ → ℂ)) ++ [("x", .num x)])) .ad 0
        = .ok [Real.cos (θ + x)] := by
    intro θ x
    rw [C20_ad_gpsr so eigh draw (.inl rfl)]
    exact (expectation_gates so eigh draw (.seq (.cons (.prim _) (.cons (.prim _) .nil))) _).trans (rxPair_value so rfl rfl)
  have hfd : HasDerivAt (fitLoss (fun θ x => Real.cos (θ + x)) xs ys)
      (((Real.cos (θ + xs 0) - ys 0) * -Real.sin (θ + xs 0) + (Real.cos (θ + xs 1) - ys 1) * -Real.sin (θ + xs 1)) / 2) θ := by
    have h1 : ∀ b, HasDerivAt (fun θ => (Real.cos (θ + xs b) - ys b) ^ 2 / 2) ((Real.cos (θ + xs b) - ys b) * -Real.sin (θ + xs b)) θ := by
      intro b
      have := (((((hasDerivAt_id θ).add_const (xs b)).cos).sub_const (ys b)).pow 2).div_const 2
      refine this.congr_deriv ?_
      simp
      ring
    have := (HasDerivAt.fun_sum (u := Finset.univ) fun (b : Fin 2) _ => h1 b).div_const ((2 : ℕ) : ℝ)
    refine this.congr_deriv ?_
    simp only [Fin.sum_univ_two, Nat.cast_ofNat]
  rcases C110_fit so (.vec zero1) obsZ eigh draw circuit "x" angle_all xs ys with ⟨e, h, -⟩ | ⟨f, h1, -, h2⟩
  · have := h 0 0
    rw [hv] at this
    cases this
  · have hf : f = fun θ x => Real.cos (θ + x) := by
      funext θ x
      have := h1 θ x
      rw [hv] at this
      simpa using (Except.ok.inj this).symm
    subst hf
    have h3 := h2 θ 1
    rw [fderiv_eq_smul_deriv, one_smul, hfd.deriv] at h3
    have hj : jetAt θ (1 : ℝ) (fun θ : ℝ => θ) = jet θ 1 := by
      simp [jetAt]
    change fitLossT Tracer.base.dual so (.vec zero1) circuit obsZ "x" [("t", .num (jetAt θ (1 : ℝ) fun θ : ℝ => θ))] xs ys = _ at h3
    rw [hj] at h3
    rw [h3]
    simp [fitLoss, Fin.sum_univ_two]

theorem rxPair_solver (θ x y : ℝ) : solver so (.vec zero1) (rxPair "f_x" "t") obsZ [("t", .num θ)] x y = .ok (Real.cos (x + θ)) := by
  have h := rxPair_value so (p := "f_x") (q := "t") (v := TDict.toValues (([("t", .num θ)] : TDict ℝ ℂ) ++ [("f_x", .num x), ("f_y", .num y)])) (x := x) (y := θ) rfl rfl
  revert h
  generalize hv : TDict.toValues (([("t", .num θ)] : TDict ℝ ℂ) ++ [("f_x", .num x), ("f_y", .num y)]) = v
  intro h
  have ht : v.lookup "t" = some (.num θ) := by rw [← hv]; rfl
  have hx : v.lookup "f_x" = some (.num x) := by rw [← hv]; rfl
  obtain ⟨r, h1, h2⟩ := applyGates_evolved (n := 1) (gs := rxPair "f_x" "t") (values := v) (nss := [[], []]) so (by simp [rxPair])
    (by
      simp only [rxPair, List.mem_cons, List.not_mem_nil, or_false, forall_eq_or_imp, forall_eq]
      exact ⟨(rx_std hx).ok, (rx_std ht).ok⟩) (.cons (.none rfl) (.cons (.none rfl) .nil)) (s := .vec zero1) zero1_isKet true
  cases r with
  | dm r => exact h2.1 (by simp [rxPair, Gate.RX, mkGate]) |>.elim
  | vec r =>
    simp only [solver, hv, h1]
    simp only [gatesExpectation, h1, List.mapM_cons, List.mapM_nil] at h
    change (Op.innerReal r =<< obsZ.forward so [] (some (.vec r))) = _
    have h' : ((Op.innerReal r =<< obsZ.forward so [] (some (.vec r))) >>= fun z => stackReal [z]) = .ok [Real.cos (x + θ)] := by
      have hf : obsZ.forward so v (some (.vec r)) = obsZ.forward so [] (some (.vec r)) := by
        simp only [Observable.forward, obsZ, Observable.new, OpArg.toList]
        rfl
      change (((Op.innerReal r =<< obsZ.forward so v (some (.vec r))) >>= fun z => pure [z]) >>= stackReal) = _ at h
      rw [hf] at h
      rw [← h]
      cases (Op.innerReal r =<< obsZ.forward so [] (some (.vec r))) <;> rfl
    generalize (Op.innerReal r =<< obsZ.forward so [] (some (.vec r))) = P at h' ⊢
    rcases P with e | z
    · cases h'
    · simpa [stackReal, bind, Except.bind] using h'

/-- Non-vacuity of `C110_pde`: the solver with the gates `[RX("f_x", 0), RX("t", 0)]` returns `cos(x + θ)`, and the second alternative
holds. -/
example (xs ys : Fin 2 → ℝ) (θ : ℝ) :
    ∃ D, pdeLossT Tracer.base.dual so (.vec zero1) (rxPair "f_x" "t") obsZ [("t", .num (jet θ 1))] xs ys
      = .ok (jet (laplaceLoss (fun θ x _ => Real.cos (x + θ)) xs ys θ) D) := by
  have hv : ∀ θ x y : ℝ, solver so (.vec zero1) (rxPair "f_x" "t") obsZ
      (TDict.mapVals (· θ) (· θ) ([("t", .num fun θ : ℝ => θ)] : TDict (ℝ → ℝ) (ℝ → ℂ))) x y = .ok (Real.cos (x + θ)) := rxPair_solver so
  rcases C110_pde so (.vec zero1) obsZ (rxPair "f_x" "t") angle_all xs ys with ⟨e, h, -⟩ | ⟨u, h1, -, h2⟩
  · have := h 0 0 0
    rw [hv] at this
    cases this
  · have hu : u = fun θ x _ => Real.cos (x + θ) := by
      funext θ x y
      have := h1 θ x y
      rw [hv] at this
      exact (Except.ok.inj this).symm
    subst hu
    have hj : jetAt θ (1 : ℝ) (fun θ : ℝ => θ) = jet θ 1 := by
      simp [jetAt]
    have h3 := h2 θ 1
    change pdeLossT Tracer.base.dual so (.vec zero1) (rxPair "f_x" "t") obsZ [("t", .num (jetAt θ (1 : ℝ) fun θ : ℝ => θ))] xs ys = _ at h3
    rw [hj] at h3
    exact ⟨_, h3⟩

end model

end Verif
