import Verif.Model.ReverseLosses
import Verif.Props.Losses
import Verif.Props.Reverse

/-!
# C110: `value_and_grad` of the loss functions of the documentation
-/

set_option autoImplicit false

namespace Verif
open NDArray
open scoped ContDiff

theorem rev_square (G : Type) [AddCommGroup G] : (Tracer.rev G).Square where
  square d dat := by
    obtain ⟨u, hu, -⟩ := expm_ok (a := (⟨[d, d], dat⟩ : NDArray (RevC G)).mapArr TrivSqZeroExt.fst) (d := d) rfl
    simp only [if_true, hu]
    exact ⟨_, rfl⟩
  other a h := by
    obtain ⟨sh, dat⟩ := a
    exact other_match h _

variable {n m : ℕ}

theorem paramDict_map {R S K L : Type} (f : R → S) (g : K → L) (names : Fin m → String) (θ : Fin m → R) :
    (paramDict (K := K) names θ).mapVals f g = paramDict names fun i => f (θ i) := by
  simp only [paramDict, TDict.mapVals, List.map_ofFn]
  rfl

theorem along_param {names : Fin m → String} (hn : Function.Injective names) (θ : Fin m → ℝ) (i : Fin m) :
    alongDict (nameDir (names i)) .flat (paramDict names θ) = paramDict names fun j => jet (θ j) (Pi.single (M := fun _ => ℝ) i 1 j) := by
  simp only [alongDict, paramDict, List.map_ofFn]
  congr 1
  funext j
  simp only [Function.comp, nameDir, Prod.mk.injEq, true_and, hn.eq_iff, Pi.single_apply]

theorem jetAt_proj (θ v : Fin m → ℝ) (i : Fin m) : jetAt θ v (fun η : Fin m → ℝ => η i) = jet (θ i) (v i) := by
  have h : HasFDerivAt (fun η : Fin m → ℝ => η i) (ContinuousLinearMap.proj (R := ℝ) (φ := fun _ : Fin m => ℝ) i) θ :=
    (ContinuousLinearMap.proj (R := ℝ) (φ := fun _ : Fin m => ℝ) i).hasFDerivAt
  rw [jetAt, h.fderiv]
  rfl

theorem along_still (names : Fin m → String) (θ : Fin m → ℝ) :
    alongDict ⟨fun _ => 0, fun _ => 0⟩ .flat (paramDict names θ) = paramDict names fun j => jet (θ j) ((0 : Fin m → ℝ) j) := by
  simp only [alongDict, paramDict, List.map_ofFn]
  rfl

/-- A loss function for which reverse mode paired with a direction is the transpose of forward mode, one entry of the gradient at a
time. -/
theorem valueAndGrad_of {loss : TDict (RevR Grad) (RevC Grad) → Py (RevR Grad)}
    {lossD : TDict (DualNumber ℝ) (DualNumber ℂ) → Py (DualNumber ℝ)}
    (hl : ∀ (d : TDict ℝ ℂ) (v : Direction), (loss (inputDict .flat d)).map (gradHom (pairHom v)).fR
      = (lossD (alongDict v .flat d)).map transposeHom.fR)
    {names : Fin m → String} (hn : Function.Injective names) (θ : Fin m → ℝ) :
    (∀ e, (∀ v : Fin m → ℝ, lossD (paramDict names fun j => jet (θ j) (v j)) = .error e) → valueAndGrad loss names θ = .error e) ∧
    ∀ (y : ℝ) (D : (Fin m → ℝ) → ℝ), (∀ v, lossD (paramDict names fun j => jet (θ j) (v j)) = .ok (jet y (D v))) →
      valueAndGrad loss names θ = .ok (y, fun i => D (Pi.single i 1)) := by
  have h0 := hl (paramDict names θ) ⟨fun _ => 0, fun _ => 0⟩
  have h1 := fun i => hl (paramDict names θ) (nameDir (names i))
  rw [along_still] at h0
  simp only [along_param hn] at h1
  rw [valueAndGrad]
  generalize loss (inputDict .flat (paramDict names θ)) = L at h0 h1
  constructor
  · intro e he
    rw [he] at h0
    cases L with
    | error e' => rw [Except.error.inj h0]; rfl
    | ok y => cases h0
  · intro y D hy
    rw [hy] at h0
    simp only [hy] at h1
    cases L with
    | error e' => cases h0
    | ok x =>
      have hf : x.fst = y := congrArg TrivSqZeroExt.fst (Except.ok.inj h0)
      refine congrArg Except.ok (Prod.ext hf (funext fun i => ?_))
      have hs : pairHom (nameDir (names i)) (x.snd 1) = 1 * D (Pi.single i 1) :=
        congrArg (fun z : RevR ℝ => z.snd 1) (Except.ok.inj (h1 i))
      rw [pairHom_apply, pairGrad_nameDir, one_mul] at hs
      exact hs

theorem param_all (names : Fin m → String) : TDict.All (ContDiff ℝ ω) (ContDiff ℝ ω)
    (paramDict names fun i (θ : Fin m → ℝ) => θ i : TDict ((Fin m → ℝ) → ℝ) ((Fin m → ℝ) → ℂ)) := by
  refine ⟨fun k f hf => ?_, fun k a ha => ?_⟩
  · simp only [paramDict, List.mem_ofFn, Prod.mk.injEq, TVal.num.injEq] at hf
    obtain ⟨i, -, rfl⟩ := hf
    exact contDiff_apply ℝ ℝ i
  · simp [paramDict, List.mem_ofFn] at ha

/-! ## Training -/

/-- Specification: the gradient, the vector of the partial derivatives. -/
noncomputable def gradVec (L : (Fin m → ℝ) → ℝ) (θ : Fin m → ℝ) : Fin m → ℝ := fun i => fderiv ℝ L θ (Pi.single i 1)

/-- Specification: one step of an optimizer with the exact gradient of the function `L`. -/
noncomputable def exactStep {S : Type} (opt : Optimizer m S) (L : (Fin m → ℝ) → ℝ) (s : (Fin m → ℝ) × S) : (Fin m → ℝ) × S :=
  (s.1 + (opt.update (gradVec L s.1) s.2 s.1).1, (opt.update (gradVec L s.1) s.2 s.1).2)

theorem foldlM_pure {α β : Type} (f : α → Py α) (g : α → α) (h : ∀ x, f x = .ok (g x)) (l : List β) (x : α) :
    l.foldlM (fun s _ => f s) x = .ok (g^[l.length] x) := by
  induction l generalizing x with
  | nil => rfl
  | cons b l ih =>
    rw [List.foldlM_cons, h, List.length_cons, Function.iterate_succ]
    exact ih (g x)

theorem trainLoop_error {S : Type} (opt : Optimizer m S) {vag : (Fin m → ℝ) → Py (ℝ × (Fin m → ℝ))} {e : Err} (h : ∀ θ, vag θ = .error e)
    (k : ℕ) (θ : Fin m → ℝ) : trainLoop opt vag k θ = .error e := by
  simp only [trainLoop, foriLoopPy, trainStep, h]
  rfl

theorem trainLoop_exact {S : Type} (opt : Optimizer m S) {vag : (Fin m → ℝ) → Py (ℝ × (Fin m → ℝ))} {L : (Fin m → ℝ) → ℝ}
    (h : ∀ θ, vag θ = .ok (L θ, gradVec L θ)) (k : ℕ) (θ : Fin m → ℝ) :
    trainLoop opt vag k θ = .ok ((exactStep opt L)^[k] (θ, opt.init θ)) := by
  have hs : ∀ s, trainStep opt vag s = .ok (exactStep opt L s) := by
    intro s
    simp only [trainStep, h]
    rfl
  have := foldlM_pure _ _ hs (List.range k) (θ, opt.init θ)
  rw [List.length_range] at this
  rw [trainLoop, foriLoopPy, hs, ← this]
  rfl

section
variable (so : SetOrder) (state : State) (obs : Observable) (eigh : Eigh) (draw : Draw)

/-- **C110 (`value_and_grad` of the loss of the function fitter).** For all circuits, observables, names of parameters, inputs and data
`value_and_grad(loss_fn)(param_vals)`, as reverse mode computes it, either raises the exception that `expectation` raises for all
parameters and inputs, or returns the loss and all its partial derivatives. -/
theorem C110_fit_reverse [NeZero n] (circuit : Op) (input : String) (xs ys : Fin n → ℝ) {names : Fin m → String}
    (hn : Function.Injective names) :
    (∃ e, (∀ (θ : Fin m → ℝ) (x : ℝ), expectation so eigh draw state circuit [obs]
          (TDict.toValues (paramDict names θ ++ [(input, .num x)])) .ad 0 = .error e) ∧
      ∀ θ, fitValueAndGrad so state circuit obs input xs ys names θ = .error e) ∨
    ∃ f : (Fin m → ℝ) → ℝ → ℝ, (∀ θ x, expectation so eigh draw state circuit [obs]
          (TDict.toValues (paramDict names θ ++ [(input, .num x)])) .ad 0 = .ok [f θ x]) ∧
      Differentiable ℝ (fitLoss f xs ys) ∧
      ∀ θ, fitValueAndGrad so state circuit obs input xs ys names θ
        = .ok (fitLoss f xs ys θ, fun i => fderiv ℝ (fitLoss f xs ys) θ (Pi.single i 1)) := by
  have hl : ∀ (d : TDict ℝ ℂ) (v : Direction),
      (fitLossT (Tracer.rev Grad) so state circuit obs input (inputDict .flat d) xs ys).map (gradHom (pairHom v)).fR
        = (fitLossT Tracer.base.dual so state circuit obs input (alongDict v .flat d) xs ys).map transposeHom.fR := by
    intro d v
    rw [← fit_nat (gradHom (pairHom v)) so state obs (rev_square Grad), ← fit_nat transposeHom so state obs (dual_square base_square),
      input_dict]
  have hv := fun θ => valueAndGrad_of (loss := fun d => fitLossT (Tracer.rev Grad) so state circuit obs input d xs ys)
    (lossD := fun d => fitLossT Tracer.base.dual so state circuit obs input d xs ys) hl hn θ
  rcases C110_fit so state obs eigh draw circuit input (param_all names) xs ys with ⟨e, h1, h2⟩ | ⟨f, h1, hc, h2⟩
  · simp only [paramDict_map] at h1 h2
    refine .inl ⟨e, h1, fun θ => (hv θ).1 e fun v => ?_⟩
    have := h2 θ v
    simp only [jetAt_proj] at this
    exact this
  · simp only [paramDict_map] at h1 h2
    refine .inr ⟨f, h1, hc.differentiable (by simp), fun θ => (hv θ).2 _ _ fun v => ?_⟩
    have := h2 θ v
    simp only [jetAt_proj] at this
    exact this

/-- **C110 (`value_and_grad` of the loss of the PDE solver).** The same for the residuals of the differential equation, which contain
second derivatives of the model: reverse mode of forward mode of forward mode. -/
theorem C110_pde_reverse [NeZero n] (gates : List Gate) (xs ys : Fin n → ℝ) {names : Fin m → String} (hn : Function.Injective names) :
    (∃ e, (∀ (θ : Fin m → ℝ) (x y : ℝ), solver so state gates obs (paramDict names θ) x y = .error e) ∧
      ∀ θ, pdeValueAndGrad so state gates obs xs ys names θ = .error e) ∨
    ∃ u : (Fin m → ℝ) → ℝ → ℝ → ℝ, (∀ θ x y, solver so state gates obs (paramDict names θ) x y = .ok (u θ x y)) ∧
      Differentiable ℝ (laplaceLoss u xs ys) ∧
      ∀ θ, pdeValueAndGrad so state gates obs xs ys names θ
        = .ok (laplaceLoss u xs ys θ, fun i => fderiv ℝ (laplaceLoss u xs ys) θ (Pi.single i 1)) := by
  have hl : ∀ (d : TDict ℝ ℂ) (v : Direction),
      (pdeLossT (Tracer.rev Grad) so state gates obs (inputDict .flat d) xs ys).map (gradHom (pairHom v)).fR
        = (pdeLossT Tracer.base.dual so state gates obs (alongDict v .flat d) xs ys).map transposeHom.fR := by
    intro d v
    rw [← pde_nat (gradHom (pairHom v)) so state obs (rev_square Grad), ← pde_nat transposeHom so state obs (dual_square base_square),
      input_dict]
  have hv := fun θ => valueAndGrad_of (loss := fun d => pdeLossT (Tracer.rev Grad) so state gates obs d xs ys)
    (lossD := fun d => pdeLossT Tracer.base.dual so state gates obs d xs ys) hl hn θ
  rcases C110_pde so state obs gates (param_all names) xs ys with ⟨e, h1, h2⟩ | ⟨u, h1, hc, h2⟩
  · simp only [paramDict_map] at h1 h2
    refine .inl ⟨e, h1, fun θ => (hv θ).1 e fun v => ?_⟩
    have := h2 θ v
    simp only [jetAt_proj] at this
    exact this
  · simp only [paramDict_map] at h1 h2
    refine .inr ⟨u, h1, hc.differentiable (by simp), fun θ => (hv θ).2 _ _ fun v => ?_⟩
    have := h2 θ v
    simp only [jetAt_proj] at this
    exact this

/-- **C110 (training).** With any optimizer and for any number of epochs the training loops of the documentation either raise the
exception of the model, or compute the iterates of the optimizer with the exact gradients of the loss. -/
theorem C110_train [NeZero n] (circuit : Op) (input : String) (gates : List Gate) (xs ys : Fin n → ℝ) {names : Fin m → String}
    (hn : Function.Injective names) {S : Type} (opt : Optimizer m S) :
    ((∃ e, (∀ (θ : Fin m → ℝ) (x : ℝ), expectation so eigh draw state circuit [obs]
          (TDict.toValues (paramDict names θ ++ [(input, .num x)])) .ad 0 = .error e) ∧
        ∀ k θ, trainLoop opt (fitValueAndGrad so state circuit obs input xs ys names) k θ = .error e) ∨
      ∃ f : (Fin m → ℝ) → ℝ → ℝ, (∀ θ x, expectation so eigh draw state circuit [obs]
          (TDict.toValues (paramDict names θ ++ [(input, .num x)])) .ad 0 = .ok [f θ x]) ∧
        ∀ k θ, trainLoop opt (fitValueAndGrad so state circuit obs input xs ys names) k θ
          = .ok ((exactStep opt (fitLoss f xs ys))^[k] (θ, opt.init θ))) ∧
    ((∃ e, (∀ (θ : Fin m → ℝ) (x y : ℝ), solver so state gates obs (paramDict names θ) x y = .error e) ∧
        ∀ k θ, trainLoop opt (pdeValueAndGrad so state gates obs xs ys names) k θ = .error e) ∨
      ∃ u : (Fin m → ℝ) → ℝ → ℝ → ℝ, (∀ θ x y, solver so state gates obs (paramDict names θ) x y = .ok (u θ x y)) ∧
        ∀ k θ, trainLoop opt (pdeValueAndGrad so state gates obs xs ys names) k θ
          = .ok ((exactStep opt (laplaceLoss u xs ys))^[k] (θ, opt.init θ))) := by
  constructor
  · rcases C110_fit_reverse so state obs eigh draw circuit input xs ys hn with ⟨e, h1, h2⟩ | ⟨f, h1, -, h2⟩
    · exact .inl ⟨e, h1, trainLoop_error opt h2⟩
    · exact .inr ⟨f, h1, trainLoop_exact opt h2⟩
  · rcases C110_pde_reverse so state obs gates xs ys hn with ⟨e, h1, h2⟩ | ⟨u, h1, -, h2⟩
    · exact .inl ⟨e, h1, trainLoop_error opt h2⟩
    · exact .inr ⟨u, h1, trainLoop_exact opt h2⟩

/-- Non-vacuity of `C110_fit_reverse`: the circuit `[RX("t", 0), RX("x", 0)]` with the parameter `t` and the input `x` fits `cos(θ + x)`;
the gradient of its loss for two data points. -/
theorem fit_example (xs ys : Fin 2 → ℝ) (θ : Fin 1 → ℝ) :
    fitValueAndGrad so (.vec zero1) (mkSeq [.prim (Gate.RX (.str "t") (.int 0)), .prim (Gate.RX (.str "x") (.int 0))]) obsZ "x" xs ys
        ![("t" : String)] θ
      = .ok (((Real.cos (θ 0 + xs 0) - ys 0) ^ 2 / 2 + (Real.cos (θ 0 + xs 1) - ys 1) ^ 2 / 2) / 2,
        fun _ => ((Real.cos (θ 0 + xs 0) - ys 0) * -Real.sin (θ 0 + xs 0) + (Real.cos (θ 0 + xs 1) - ys 1) * -Real.sin (θ 0 + xs 1)) / 2) := by
  set circuit := mkSeq [.prim (Gate.RX (.str "t") (.int 0)), .prim (Gate.RX (.str "x") (.int 0))] with hc
  obtain ⟨eigh⟩ := eigh_exists
  have hv : ∀ (θ : Fin 1 → ℝ) (x : ℝ), expectation so eigh (fun _ _ => 0) (.vec zero1) circuit [obsZ]
      (TDict.toValues (paramDict ![("t" : String)] θ ++ [("x", .num x)])) .ad 0 = .ok [Real.cos (θ 0 + x)] := by
    intro θ x
    rw [C20_ad_gpsr so eigh _ (.inl rfl)]
    exact (expectation_gates so eigh _ (.seq (.cons (.prim _) (.cons (.prim _) .nil))) _).trans (rxPair_value so rfl rfl)
  have hfd : HasFDerivAt (fitLoss (fun (θ : Fin 1 → ℝ) x => Real.cos (θ 0 + x)) xs ys)
      ((((Real.cos (θ 0 + xs 0) - ys 0) * -Real.sin (θ 0 + xs 0) + (Real.cos (θ 0 + xs 1) - ys 1) * -Real.sin (θ 0 + xs 1)) / 2)
        • ContinuousLinearMap.proj (R := ℝ) (φ := fun _ : Fin 1 => ℝ) 0) θ := by
    have h1 : ∀ b, HasDerivAt (fun θ => (Real.cos (θ + xs b) - ys b) ^ 2 / 2)
        ((Real.cos (θ 0 + xs b) - ys b) * -Real.sin (θ 0 + xs b)) (θ 0) := by
      intro b
      have := (((((hasDerivAt_id (θ 0)).add_const (xs b)).cos).sub_const (ys b)).pow 2).div_const 2
      refine this.congr_deriv ?_
      simp
      ring
    have := (HasDerivAt.fun_sum (u := Finset.univ) fun (b : Fin 2) _ => h1 b).div_const ((2 : ℕ) : ℝ)
    rw [Fin.sum_univ_two, Nat.cast_ofNat] at this
    exact this.comp_hasFDerivAt θ (ContinuousLinearMap.proj (R := ℝ) (φ := fun _ : Fin 1 => ℝ) 0).hasFDerivAt
  rcases C110_fit_reverse so (.vec zero1) obsZ eigh (fun _ _ => 0) circuit "x" xs ys (names := ![("t" : String)])
      (fun i j _ => Subsingleton.elim i j) with ⟨e, h, -⟩ | ⟨f, h1, -, h2⟩
  · have := h 0 0
    rw [hv] at this
    cases this
  · have hf : f = fun θ x => Real.cos (θ 0 + x) := by
      funext θ x
      have := h1 θ x
      rw [hv] at this
      simpa using (Except.ok.inj this).symm
    subst hf
    rw [h2 θ, hfd.fderiv]
    refine congrArg Except.ok (Prod.ext ?_ (funext fun i => ?_))
    · simp [fitLoss, Fin.sum_univ_two]
    · obtain rfl := Subsingleton.elim i 0
      simp

/-- Non-vacuity of `C110_pde_reverse`: the solver with the gates `[RX("f_x", 0), RX("t", 0)]` returns `cos(x + θ)`, and the second
alternative holds. -/
example (xs ys : Fin 2 → ℝ) (θ : Fin 1 → ℝ) :
    pdeValueAndGrad so (.vec zero1) (rxPair "f_x" "t") obsZ xs ys ![("t" : String)] θ
      = .ok (laplaceLoss (fun (θ : Fin 1 → ℝ) x _ => Real.cos (x + θ 0)) xs ys θ,
        fun i => fderiv ℝ (laplaceLoss (fun (θ : Fin 1 → ℝ) x _ => Real.cos (x + θ 0)) xs ys) θ (Pi.single i 1)) := by
  have hv : ∀ (θ : Fin 1 → ℝ) (x y : ℝ), solver so (.vec zero1) (rxPair "f_x" "t") obsZ (paramDict ![("t" : String)] θ) x y
      = .ok (Real.cos (x + θ 0)) := fun θ => rxPair_solver so (θ 0)
  rcases C110_pde_reverse so (.vec zero1) obsZ (rxPair "f_x" "t") xs ys (names := ![("t" : String)])
      (fun i j _ => Subsingleton.elim i j) with ⟨e, h, -⟩ | ⟨u, h1, -, h2⟩
  · have := h 0 0 0
    rw [hv] at this
    cases this
  · have hu : u = fun θ x _ => Real.cos (x + θ 0) := by
      funext θ x y
      have := h1 θ x y
      rw [hv] at this
      exact (Except.ok.inj this).symm
    subst hu
    exact h2 θ

/-- Non-vacuity of `C110_train`: one step of gradient descent with learning rate 1 (`optax.sgd(1.0)`) for the fit of `cos(θ + x)` to two equal
data points. -/
example (y θ : ℝ) :
    trainLoop (S := Unit) ⟨fun _ => (), fun g _ _ => (-g, ())⟩
        (fitValueAndGrad so (.vec zero1) (mkSeq [.prim (Gate.RX (.str "t") (.int 0)), .prim (Gate.RX (.str "x") (.int 0))]) obsZ "x"
          ![0, 0] ![y, y] ![("t" : String)]) 1 ![θ]
      = .ok (![θ + (Real.cos θ - y) * Real.sin θ], ()) := by
  have h : ∀ η : Fin 1 → ℝ, _ := fun η => fit_example so ![0, 0] ![y, y] η
  simp only [trainLoop, foriLoopPy, trainStep, h]
  refine congrArg Except.ok (Prod.ext (funext fun i => ?_) rfl)
  obtain rfl := Subsingleton.elim i 0
  simp

end

end Verif
