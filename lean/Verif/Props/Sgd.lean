import Verif.Lemmas.Sgd
import Verif.Props.GpsrVariance
import Verif.Props.Descent

/-!
# C108: gradient descent with finite-shot gradients

With fresh random numbers in every step, gradient descent with the gradients of `finite_shots_gpsr_backward` lowers the energy
in the mean, up to a term that falls with the number of shots; with the same key in every step it may stop where the gradient
is not zero.
-/

set_option autoImplicit false

namespace Verif
open NDArray MeasureTheory ProbabilityTheory
open scoped ComplexOrder
variable {n : ℕ} (so : SetOrder) (eigh : Eigh) (draw : Draw) {nss : List (List StdNoise)} {st : State}
  {o : Observable} {O : LMat n}

theorem MutualDraws.indepDraws {Ω κ : Type} [MeasurableSpace Ω] {μ : Measure Ω} {U : Ω → κ → Draw} (h : MutualDraws μ U) :
    IndepDraws μ U :=
  ⟨h.uniform, fun k _ _ hne => (h.indep k).indepFun hne⟩

theorem FreshKeys.distinct {κ : Type} {split : κ → ℕ → ℕ → κ} {key : ℕ → κ} {m : ℕ} (h : FreshKeys split key m) (t : ℕ) :
    DistinctKeys split (key t) m := fun i hi j hj a ha b hb e => (h t t i hi j hj a ha b hb e).2

/-- The σ-algebra of one of the numbers drawn. -/
def drawAlg {Ω κ : Type} (U : Ω → κ → Draw) (k : ℕ) (e : κ × Fin k) : MeasurableSpace Ω :=
  MeasurableSpace.comap (fun ω => U ω e.1 k e.2) inferInstance

/-- The σ-algebra of some of the numbers drawn. -/
def drawsAlg {Ω κ : Type} (U : Ω → κ → Draw) (k : ℕ) (A : Set (κ × Fin k)) : MeasurableSpace Ω := ⨆ e ∈ A, drawAlg U k e

theorem drawsAlg_le {Ω κ : Type} [mΩ : MeasurableSpace Ω] {μ : Measure Ω} {U : Ω → κ → Draw} (h : UniformDraws μ U) (k : ℕ)
    (A : Set (κ × Fin k)) : drawsAlg U k A ≤ mΩ := iSup₂_le fun e _ => (h e.1 k e.2).measurable.comap_le

theorem drawsAlg_mono {Ω κ : Type} {U : Ω → κ → Draw} {k : ℕ} {A B : Set (κ × Fin k)} (hAB : A ⊆ B) :
    drawsAlg U k A ≤ drawsAlg U k B :=
  iSup₂_le fun e he => le_iSup₂ (f := fun e (_ : e ∈ B) => drawAlg U k e) e (hAB he)

theorem drawAlg_le_of_mem {Ω κ : Type} {U : Ω → κ → Draw} {k : ℕ} {A : Set (κ × Fin k)} {e : κ × Fin k} (he : e ∈ A) :
    drawAlg U k e ≤ drawsAlg U k A := le_iSup₂ (f := fun e (_ : e ∈ A) => drawAlg U k e) e he

theorem MutualDraws.indep_of_disjoint {Ω κ : Type} [MeasurableSpace Ω] {μ : Measure Ω} {U : Ω → κ → Draw} (h : MutualDraws μ U)
    {k : ℕ} {A B : Set (κ × Fin k)} (hAB : Disjoint A B) : Indep (drawsAlg U k A) (drawsAlg U k B) μ := by
  have h1 := (iIndepFun_iff_iIndep (fun _ : κ × Fin k => (inferInstance : MeasurableSpace ℝ))
    (fun (e : κ × Fin k) ω => U ω e.1 k e.2) μ).1 (h.indep k)
  have h2 : iIndep (drawAlg U k) μ := h1
  have h3 : ∀ e : κ × Fin k, drawAlg U k e ≤ ‹MeasurableSpace Ω› := fun e => (h.uniform e.1 k e.2).measurable.comap_le
  exact indep_iSup_of_disjoint h3 h2 hAB

/-- The places of the numbers drawn in step `t`. -/
def stepDraws {κ : Type} (split : κ → ℕ → ℕ → κ) (key : ℕ → κ) (m k t : ℕ) : Set (κ × Fin k) :=
  {e | ∃ i < m, ∃ a < 2, e.1 = split (split (key t) m i) 2 a}

theorem FreshKeys.disjoint {κ : Type} {split : κ → ℕ → ℕ → κ} {key : ℕ → κ} {m : ℕ} (h : FreshKeys split key m) (k t : ℕ) :
    Disjoint (⋃ s < t, stepDraws split key m k s) (stepDraws split key m k t) := by
  rw [Set.disjoint_left]
  rintro e he ⟨i, hi, a, ha, h1⟩
  simp only [Set.mem_iUnion] at he
  obtain ⟨s, hst, j, hj, b, hb, h2⟩ := he
  have := (h t s i hi j hj a ha b hb (h1.symm.trans h2)).1
  omega

theorem drawAverage_discrete {Ω κ : Type} {U : Ω → κ → Draw} {k : ℕ} {key : κ} {f : ℝ → ℝ} (hf : Measurable f)
    (hr : (Set.range f).Finite) {m : MeasurableSpace Ω} (hm : ∀ j, drawAlg U k (key, j) ≤ m) :
    Discrete m (drawAverage U k key f) := by
  have h1 : ∀ j : Fin k, Discrete m fun ω => f (U ω key k j) := fun j => by
    refine .of_measurable ?_ (hr.subset (by rintro _ ⟨ω, rfl⟩; exact ⟨_, rfl⟩))
    have : Measurable[drawAlg U k (key, j)] fun ω => U ω key k j := comap_measurable _
    exact (hf.comp this).mono (hm j) le_rfl
  exact (Discrete.pi h1).comp fun v => (∑ j, v j) / k

/-- What the proofs below use about the gradient at one point. -/
theorem gradient_estimate {circuit : Op} (hp : circuit.Plain) {names : List String} (hne : names ≠ [])
    {x : Fin names.length → ℝ} (h : Setting so n (dictAt names x) circuit.gates nss st [o] [O])
    (hs : SingleUse circuit.gates) (hr : ∀ g ∈ circuit.gates, g.Registered) (hro : Op.AllRegistered o.ops)
    (hS : ShotSetting eigh n st [o] [O]) {lo hi : ℝ} (hO : SpectrumIn O lo hi) :
    ∃ D : String → ℝ,
      (∀ p ∈ names, IsPartial (fun v => expectation so eigh draw st circuit [o] v .gpsr 0) (dictAt names x) p [D p]) ∧
      ∀ (Ω κ : Type) [MeasurableSpace Ω] (μ : Measure Ω) (U : Ω → κ → Draw) (split : κ → ℕ → ℕ → κ) (key : κ) (k : ℕ),
        IndepDraws μ U → DistinctKeys split key names.length → 1 ≤ k → ∃ est : Ω → Fin names.length → ℝ,
          (∀ ω, shotsBwd eigh split (fun key => jittedFiniteShots so eigh st [o] (List.ofFn (U ω key k)))
            (.list circuit.gates) (dictAt names x) key = .ok (List.ofFn (est ω))) ∧
          (∀ i, MemLp (fun ω => est ω i) 2 μ ∧ ∫ ω, est ω i ∂μ = D names[i] ∧
            Var[fun ω => est ω i; μ] ≤ (hi - lo) ^ 2 / (8 * k)) ∧
          ∀ m : MeasurableSpace Ω, (∀ i < names.length, ∀ a < 2, ∀ j, drawAlg U k (split (split key names.length i) 2 a, j) ≤ m) →
            Discrete m est := by
  have hkeys := dictAt_keys names x
  have hkeys' : (dictAt names x).keys = names := hkeys
  have hlen : (dictAt names x).length = names.length := by
    have := congrArg List.length hkeys
    rwa [List.length_map] at this
  have hv : dictAt names x ≠ [] := fun h0 => hne (by rw [h0] at hkeys; exact hkeys.symm)
  obtain ⟨g, hg, hform⟩ := shotsBwd_formula so eigh hp h hs hv hr hro hS
  obtain ⟨D, d1, d2⟩ := C57_bwd_partial so eigh hp h hs hv hr (by simpa using hro) hS draw
  have hlenD : ∀ p ∈ names, D p = [(D p).sum] := by
    intro p hp'
    obtain ⟨x', f, -, e2, e3, -⟩ := d1 p (by rw [hkeys]; exact hp')
    have e4 := e2 x'
    have h1 := e3 x'
    beta_reduce at e4
    rw [expectation_gates so eigh draw hp, h.eval] at e4
    have e5 := Except.ok.inj e4
    rw [← e5] at h1
    obtain ⟨y, hy⟩ := List.length_eq_one_iff.1 h1.symm
    rw [hy]
    simp
  refine ⟨fun p => (D p).sum, fun p hp' => by rw [← hlenD p hp']; exact d1 p (by rw [hkeys]; exact hp'),
    fun Ω κ _ μ U split key k hU hd hk1 => ?_⟩
  obtain ⟨est, e1, e2, -⟩ := C105_bwd so eigh hp h hs hv hr hro hS Ω κ μ U split key k hU (by rw [hlen]; exact hd) hk1
  obtain ⟨est', f1, f2⟩ := d2 Ω κ μ U split key k hU.uniform hk1
  obtain rfl : est' = est := funext fun ω => Except.ok.inj ((f1 ω).symm.trans (e1 ω))
  have hE : ∀ ω, est' ω = List.ofFn fun i : Fin names.length => (est' ω).getD i 0 := fun ω => by
    have hl := f2.1 ω
    rw [List.length_map, hkeys] at hl
    refine List.ext_getElem (by simp [hl]) fun i h1 h2 => ?_
    simp [List.getD_eq_getElem?_getD, h1]
  refine ⟨fun ω i => (est' ω).getD i 0, fun ω => (f1 ω).trans (congrArg _ (hE ω)), fun i => ?_, fun m hm => ?_⟩
  · obtain ⟨x', r₁, r₂, x1, x2, x3, x4, x5⟩ := e2 i (by rw [hlen]; exact i.2)
    refine ⟨x4, ?_, ?_⟩
    · rw [(f2.2 i).2, hkeys]
      simp [List.getD_eq_getElem?_getD]
    · have hOh : O.IsHermitian := hS.hermitian O (by simp)
      have hi' : (i : ℕ) < (dictAt names x).length := by rw [hlen]; exact i.2
      obtain ⟨q₁, -, y1, y2, y3, -⟩ := shots_single so eigh hp h hS (h.variant_upd (dictAt names x)[(i : ℕ)].1 (x' + Real.pi / 2))
      obtain ⟨q₂, -, z1, z2, z3, -⟩ := shots_single so eigh hp h hS (h.variant_upd (dictAt names x)[(i : ℕ)].1 (x' - Real.pi / 2))
      obtain rfl : q₁ = r₁ := by rw [y1] at x2; cases x2; rfl
      obtain rfl : q₂ = r₂ := by rw [z1] at x3; cases x3; rfl
      have v1 := quantumVariance_le hOh y2 y3 hO
      have v2 := quantumVariance_le hOh z2 z3 hO
      have hkp : (0 : ℝ) < k := by exact_mod_cast hk1
      rw [x5, div_le_div_iff₀ (by positivity) (by positivity)]
      nlinarith [mul_le_mul_of_nonneg_right (add_le_add v1 v2) hkp.le]
  · have hle : (dictAt names x).keys.length = names.length := by rw [hkeys']
    have hform' : ∀ ω, est' ω = _ := fun ω => Except.ok.inj ((f1 ω).symm.trans (hform Ω κ U split key k hk1 ω))
    have : (fun ω (i : Fin names.length) => (est' ω).getD i 0) = fun ω (i : Fin names.length) =>
        (drawAverage U k (split (split key names.length i) 2 0) (g names[i] ((dictAt names x).real names[i] + Real.pi / 2)) ω
          - drawAverage U k (split (split key names.length i) 2 1) (g names[i] ((dictAt names x).real names[i] - Real.pi / 2)) ω) / 2 := by
      funext ω i
      rw [hform', getD_ofFn (by rw [hle]; exact i.2)]
      simp only [hkeys', Fin.getElem_fin]
    rw [this]
    refine Discrete.pi fun i => ?_
    have a0 := drawAverage_discrete (key := split (split key names.length i) 2 0)
      (hg names[i] ((dictAt names x).real names[i] + Real.pi / 2)).1 (hg names[i] ((dictAt names x).real names[i] + Real.pi / 2)).2.1
      (hm i i.2 0 (by norm_num))
    have a1 := drawAverage_discrete (key := split (split key names.length i) 2 1)
      (hg names[i] ((dictAt names x).real names[i] - Real.pi / 2)).1 (hg names[i] ((dictAt names x).real names[i] - Real.pi / 2)).2.1
      (hm i i.2 1 (by norm_num))
    exact a0.bind fun a => a1.comp fun b => (a - b) / 2

/-- The energies lie between the bounds on the eigenvalues. -/
theorem energy_bounds {mode : DiffMode} {circuit : Op} (hp : circuit.Plain) {names : List String}
    {x : Fin names.length → ℝ} (hm : ExactMode mode (dictAt names x) st circuit)
    (h : BaseSetting so n (dictAt names x) circuit.gates nss st [o] [O]) (hρ : (st.mat n).PosSemidef) (ht : (st.mat n).trace = 1)
    (hH : O.IsHermitian) {lo hi : ℝ} (hs : SpectrumIn O lo hi) {e : ℝ}
    (he : expectation so eigh draw st circuit [o] (dictAt names x) mode 0 = .ok [e]) : lo ≤ e ∧ e ≤ hi := by
  have h1 := expectation_exact so eigh draw hm hp h
  rw [h1] at he
  have h2 := Except.ok.inj he
  simp only [List.map_cons, List.map_nil, List.cons.injEq, and_true] at h2
  rw [← h2]
  have hp' := run_lip (v := dictAt names x) (v' := dictAt names x) h.std h.noise
    (d := fun _ => 0) (fun g hg => ⟨1, by simp, by rw [one_mul], fun ρ hρ => ⟨0, 0, .zero, .zero, by simp, by simp [conjBy]⟩⟩)
    (ρ := st.mat n) (ρ' := st.mat n) (w := 0) ⟨⟨hρ, hρ, ht, ht⟩, 0, 0, .zero, .zero, by simp, by simp⟩
  have := expVal_psd hH hs hp'.1.1
  rw [hp'.1.2.2.1, Complex.one_re, mul_one, mul_one] at this
  exact this

/-- The bound on the noise of a gradient with `k` shots: the sum over the parameters of the largest possible variances. -/
noncomputable def gradNoise (names : List String) (lo hi : ℝ) (k : ℕ) : ℝ := names.length * ((hi - lo) ^ 2 / (8 * k))

/-- **C108** (one step): after a step of size `η` against the gradient estimated with `k` shots by `finite_shots_gpsr_backward`
the energy is in the mean lower by at least `η (1 - L η / 2) ‖∇‖²`, up to `L η² / 2` times the noise of the gradient, which is at
most (number of parameters) · (hi - lo)² / (8 k). -/
theorem C108_step {circuit : Op} (hp : circuit.Plain) {names : List String} (hnd : names.Nodup) (hne : names ≠ [])
    {x : Fin names.length → ℝ} (h : Setting so n (dictAt names x) circuit.gates nss st [o] [O])
    (hs : SingleUse circuit.gates) (hr : ∀ g ∈ circuit.gates, g.Registered) (hro : Op.AllRegistered o.ops)
    (hS : ShotSetting eigh n st [o] [O]) {lo hi : ℝ} (hO : SpectrumIn O lo hi) {η : ℝ} (hη : 0 ≤ η) :
    ∃ (e : ℝ) (D : String → ℝ), expectation so eigh draw st circuit [o] (dictAt names x) .gpsr 0 = .ok [e] ∧
      (∀ p ∈ names, IsPartial (fun v => expectation so eigh draw st circuit [o] v .gpsr 0) (dictAt names x) p [D p]) ∧
      ∀ (Ω κ : Type) [MeasurableSpace Ω] (μ : Measure Ω) (U : Ω → κ → Draw) (split : κ → ℕ → ℕ → κ) (key : κ) (k : ℕ),
        IndepDraws μ U → DistinctKeys split key names.length → 1 ≤ k → ∃ (grad : Ω → List ℝ) (e' : Ω → ℝ),
          (∀ ω, shotsBwd eigh split (fun key => jittedFiniteShots so eigh st [o] (List.ofFn (U ω key k)))
            (.list circuit.gates) (dictAt names x) key = .ok (grad ω)) ∧
          (∀ ω, expectation so eigh draw st circuit [o] (dictAt names fun i => x i - η * (grad ω).getD i 0) .gpsr 0 = .ok [e' ω]) ∧
          Integrable e' μ ∧
          ∫ ω, e' ω ∂μ ≤ e - η * (1 - smoothness circuit.gates names lo hi * η / 2) * ∑ i : Fin names.length, D names[i] ^ 2
            + smoothness circuit.gates names lo hi * η ^ 2 / 2 * gradNoise names lo hi k := by
  have hH : O.IsHermitian := hS.hermitian O (by simp)
  obtain ⟨F, hF, hl, h3, h4, h5, h6⟩ := energy_facts so eigh draw hp hnd (mode := .gpsr) (.inl rfl) h.toBaseSetting hS.pos hS.trace
  have hF1 : ∀ y, F y = [(F y).getD 0 0] := by
    intro y
    obtain ⟨a, ha⟩ := List.length_eq_one_iff.1 (hl y)
    rw [ha]; rfl
  have hF' : ∀ y, expectation so eigh draw st circuit [o] (dictAt names y) .gpsr 0 = .ok [(F y).getD 0 0] := fun y =>
    (hF y).trans (congrArg _ (hF1 y))
  obtain ⟨D, hD, hest⟩ := gradient_estimate so eigh draw hp hne h hs hr hro hS hO
  refine ⟨_, D, hF' x, hD, fun Ω κ _ μ U split key k hU hd hk1 => ?_⟩
  have := (hU.pairwise key k).prob hk1
  obtain ⟨est, e1, e2, e3⟩ := hest Ω κ μ U split key k hU hd hk1
  have hfin := e3 inferInstance fun i _ a _ j => (hU.uniform _ k j).measurable.comap_le
  have hget : ∀ ω, (fun i : Fin names.length => x i - η * (List.ofFn (est ω)).getD i 0) = fun i => x i - η * est ω i := fun ω =>
    funext fun i => by rw [getD_ofFn i.2]
  refine ⟨fun ω => List.ofFn (est ω), fun ω => (F fun i => x i - η * est ω i).getD 0 0, e1, fun ω => by rw [hget]; exact hF' _,
    (hfin.comp fun d => (F fun i => x i - η * d i).getD 0 0).integrable, ?_⟩
  have hC := spread_nonneg hH hO hS.pos hS.trace
  refine (mean_step (F := fun x => (F x).getD 0 0) (c := fun i => useCount circuit.gates names[i]) (h3 0) hC
    (h5 0 O lo hi rfl hH hO) (h4 0) (D := fun i => D names[i]) (fun i => (h6 x i [D names[i]] (hD _ (List.getElem_mem _))).2 0)
    (fun i => (e2 i).1) (fun i => (e2 i).2.1) hη (hfin.comp fun d => (F fun i => x i - η * d i).getD 0 0).integrable).trans ?_
  have hV : ∑ i, Var[fun ω => est ω i; μ] ≤ gradNoise names lo hi k := by
    refine (Finset.sum_le_sum fun i _ => (e2 i).2.2).trans (le_of_eq ?_)
    rw [Finset.sum_const, Finset.card_univ, Fintype.card_fin, nsmul_eq_mul, gradNoise]
  have hL : 0 ≤ smoothness circuit.gates names lo hi * η ^ 2 / 2 := by rw [smoothness]; positivity
  have := mul_le_mul_of_nonneg_left hV hL
  exact add_le_add le_rfl this

/-- **C108** (training): start anywhere and repeat steps of size `0 < η ≤ 1/L` against gradients estimated with `k` shots, each with
a new key.  In every step the mean energy falls by at least `η/2` times the mean of `‖∇‖²`, up to `L η² / 2` times the noise; so
the mean of `‖∇‖²` over the first `T` points is at most `2 (e₀ - lo) / (η T)` plus `L η` times the noise. -/
theorem C108_converges {circuit : Op} (hp : circuit.Plain) {names : List String} (hnd : names.Nodup) (hne : names ≠ [])
    {x₀ : Fin names.length → ℝ} (h : Setting so n (dictAt names x₀) circuit.gates nss st [o] [O])
    (hs : SingleUse circuit.gates) (hr : ∀ g ∈ circuit.gates, g.Registered) (hro : Op.AllRegistered o.ops)
    (hS : ShotSetting eigh n st [o] [O]) {lo hi : ℝ} (hO : SpectrumIn O lo hi) {η : ℝ} (hη : 0 < η)
    (hL : smoothness circuit.gates names lo hi * η ≤ 1)
    {Ω κ : Type} [MeasurableSpace Ω] {μ : Measure Ω} {U : Ω → κ → Draw} {split : κ → ℕ → ℕ → κ} {key : ℕ → κ} {k : ℕ}
    (hU : MutualDraws μ U) (hfresh : FreshKeys split key names.length) (hk : 1 ≤ k)
    {x : ℕ → Ω → Fin names.length → ℝ} {grad : ℕ → Ω → List ℝ} (h0 : ∀ ω, x 0 ω = x₀)
    (hg : ∀ t ω, shotsBwd eigh split (fun key => jittedFiniteShots so eigh st [o] (List.ofFn (U ω key k)))
      (.list circuit.gates) (dictAt names (x t ω)) (key t) = .ok (grad t ω))
    (hx : ∀ t ω, x (t + 1) ω = fun i => x t ω i - η * (grad t ω).getD i 0) :
    ∃ (e : (Fin names.length → ℝ) → ℝ) (D : (Fin names.length → ℝ) → String → ℝ),
      (∀ y, expectation so eigh draw st circuit [o] (dictAt names y) .gpsr 0 = .ok [e y]) ∧
      (∀ y, ∀ p ∈ names, IsPartial (fun v => expectation so eigh draw st circuit [o] v .gpsr 0) (dictAt names y) p [D y p]) ∧
      (∀ t, Integrable (fun ω => e (x t ω)) μ ∧ Integrable (fun ω => ∑ i : Fin names.length, D (x t ω) names[i] ^ 2) μ) ∧
      (∀ t, ∫ ω, e (x (t + 1) ω) ∂μ ≤ (∫ ω, e (x t ω) ∂μ)
        - η / 2 * (∫ ω, ∑ i : Fin names.length, D (x t ω) names[i] ^ 2 ∂μ)
        + smoothness circuit.gates names lo hi * η ^ 2 / 2 * gradNoise names lo hi k) ∧
      ∀ T : ℕ, T ≠ 0 → (∑ t ∈ Finset.range T, ∫ ω, ∑ i : Fin names.length, D (x t ω) names[i] ^ 2 ∂μ) / T
        ≤ 2 * (e x₀ - lo) / (η * T) + smoothness circuit.gates names lo hi * η * gradNoise names lo hi k := by
  have hH : O.IsHermitian := hS.hermitian O (by simp)
  have hUi := hU.indepDraws
  have := (hUi.pairwise (key 0) k).prob hk
  have hset : ∀ y, Setting so n (dictAt names y) circuit.gates nss st [o] [O] := fun y =>
    ⟨h.toBaseSetting.everywhere so hnd y, h.uncontrolled⟩
  obtain ⟨F, hF, hl, h3, h4, h5, h6⟩ := energy_facts so eigh draw hp hnd (mode := .gpsr) (.inl rfl) h.toBaseSetting hS.pos hS.trace
  have hF1 : ∀ y, F y = [(F y).getD 0 0] := by
    intro y
    obtain ⟨a, ha⟩ := List.length_eq_one_iff.1 (hl y)
    rw [ha]; rfl
  have hF' : ∀ y, expectation so eigh draw st circuit [o] (dictAt names y) .gpsr 0 = .ok [(F y).getD 0 0] := fun y =>
    (hF y).trans (congrArg _ (hF1 y))
  choose D hD hest using fun y => gradient_estimate so eigh draw hp hne (hset y) hs hr hro hS hO
  choose est e1 e2 e3 using fun t y => hest y Ω κ μ U split (key t) k hUi (hfresh.distinct t) hk
  have hest' : ∀ t y, Discrete (drawsAlg U k (stepDraws split key names.length k t)) (est t y) := fun t y =>
    e3 t y _ fun i hi a ha j => drawAlg_le_of_mem ⟨i, hi, a, ha, rfl⟩
  have hgr : ∀ t ω (i : Fin names.length), (grad t ω).getD i 0 = est t (x t ω) ω i := fun t ω i => by
    have := Except.ok.inj ((hg t ω).symm.trans (e1 t (x t ω) ω))
    rw [this, getD_ofFn i.2]
  have hC := spread_nonneg hH hO hS.pos hS.trace
  obtain ⟨k1, k2, k3⟩ := sgd (μ := μ) (F := fun y => (F y).getD 0 0) (D := fun y i => D y names[i]) (lo := lo)
    (L := smoothness circuit.gates names lo hi) (V := gradNoise names lo hi k)
    (fun y => (energy_bounds so eigh draw hp (.inl rfl) (hset y).toBaseSetting hS.pos hS.trace hH hO (hF' y)).1) 
    (H := fun t => drawsAlg U k (⋃ s < t, stepDraws split key names.length k s))
    (G := fun t => drawsAlg U k (stepDraws split key names.length k t))
    (fun t => drawsAlg_le hU.uniform k _) (fun t => drawsAlg_le hU.uniform k _)
    (fun t => drawsAlg_mono (Set.biUnion_subset_biUnion_left fun s hs => Nat.lt_succ_of_lt hs))
    (fun t => drawsAlg_mono fun e he => Set.mem_biUnion (Nat.lt_succ_self t) he)
    (fun t => hU.indep_of_disjoint (hfresh.disjoint k t)) hest' hη hL (fun t y => by
      refine (mean_step (F := fun x => (F x).getD 0 0) (c := fun i => useCount circuit.gates names[i]) (h3 0) hC
        (h5 0 O lo hi rfl hH hO) (h4 0) (D := fun i => D y names[i]) (fun i => (h6 y i [D y names[i]] (hD y _ (List.getElem_mem _))).2 0)
        (fun i => (e2 t y i).1) (fun i => (e2 t y i).2.1) hη.le
        (((hest' t y).mono (drawsAlg_le hU.uniform k _)).comp fun d => (F fun i => y i - η * d i).getD 0 0).integrable).trans ?_
      have hV : ∑ i, Var[fun ω => est t y ω i; μ] ≤ gradNoise names lo hi k := by
        refine (Finset.sum_le_sum fun i _ => (e2 t y i).2.2).trans (le_of_eq ?_)
        rw [Finset.sum_const, Finset.card_univ, Fintype.card_fin, nsmul_eq_mul, gradNoise]
      have hL' : 0 ≤ smoothness circuit.gates names lo hi * η ^ 2 / 2 := by rw [smoothness]; positivity
      exact add_le_add le_rfl (mul_le_mul_of_nonneg_left hV hL'))
    h0 (fun t ω => by rw [hx t ω]; funext i; rw [hgr])
  refine ⟨fun y => (F y).getD 0 0, D, hF', hD, fun t => ?_, k2, k3⟩
  have hd := (k1 t).mono (drawsAlg_le hU.uniform k _)
  exact ⟨(hd.comp fun y => (F y).getD 0 0).integrable, (hd.comp fun y => ∑ i : Fin names.length, D y names[i] ^ 2).integrable⟩

/-! ### The same key in every step -/

theorem onceRX_plain : onceRX.Plain := .seq (.cons (.prim _) .nil)

theorem onceRX_setting (x : ℝ) : Setting so 1 [("a", .num x)] onceRX.gates [[]] (.vec zero1) [obsZ] [gateMat 1 StdGate.Z.mat [0] []] where
  ne := by simp [onceRX_gates]
  std := by
    simp only [onceRX_gates, List.mem_cons, List.not_mem_nil, or_false, forall_eq]
    exact ⟨_, rxStd rfl⟩
  noise := .cons (.none rfl) .nil
  on := zero1_isKet
  numeric := ⟨by simp, by simp⟩
  obs_ne := by simp
  fixed := .cons (obsZ_fixed so _) .nil
  uncontrolled := by
    simp only [onceRX_gates, List.mem_cons, List.not_mem_nil, or_false, forall_eq]
    exact fun _ _ => .inl rfl

theorem onceRX_single : SingleUse onceRX.gates := by
  rw [onceRX_gates, SingleUse]
  simp

theorem onceRX_registered : ∀ g ∈ onceRX.gates, g.Registered := by
  simp [onceRX_gates, Gate.Registered, Gate.RX, mkGate]

theorem onceRX_value (x : ℝ) : gatesExpectation so (.vec zero1) [obsZ] (.list onceRX.gates) [("a", .num x)] = .ok [Real.cos x] := by
  have h : List.lookup "a" ([("a", .num x)] : Values) = some (.num x) := rfl
  have hm : (Gate.RX (.str "a") (.int 0)).mat 1 .unitary [("a", .num x)] = gateMat 1 (StdGate.RX x).mat [0] [] := (rxStd h).mat
  rw [gatesExpectation_pure (n := 1) (O := gateMat 1 StdGate.Z.mat [0] []) (by simp [onceRX_gates]) (by
    simp only [onceRX_gates, List.mem_cons, List.not_mem_nil, or_false, forall_eq]
    exact (rxStd h).ok) (by simp [onceRX_gates, Gate.RX, mkGate]) zero1_isKet (obsZ_fixed so _)]
  rw [onceRX_gates, gatesMat, gatesMat, hm, one_mul, sum_lab1]
  simp only [mulVec_lab1, ket, zero1_get, StdGate.mat, matE]
  have hs := Real.sin_sq_add_cos_sq (x / 2)
  have h2 : Real.cos x = 2 * Real.cos (x / 2) ^ 2 - 1 := by
    rw [← Real.cos_two_mul (x / 2)]; ring_nf
  refine congrArg (fun z => Except.ok [z]) ?_
  rw [h2]
  clear h2
  generalize Real.cos (x / 2) = c at hs ⊢
  generalize Real.sin (x / 2) = d at hs ⊢
  norm_num [Complex.add_re, Complex.mul_re, Complex.mul_im, Complex.add_im]
  nlinarith

theorem gateMatZ_sq : gateMat 1 StdGate.Z.mat [0] [] * gateMat 1 StdGate.Z.mat [0] [] = 1 := by
  have hl : ∀ i : Lab 1, i = lab1 (i 0) := fun i => funext fun k => by rw [Subsingleton.elim k 0]; rfl
  ext i j
  rw [hl i, hl j, Matrix.mul_apply, sum_lab1, gateMat_lab1, gateMat_lab1, gateMat_lab1, gateMat_lab1]
  generalize i 0 = a
  generalize j 0 = b
  fin_cases a <;> fin_cases b <;> simp [StdGate.mat, matE, Matrix.one_apply] <;>
    exact fun h => by simpa [lab1] using congrFun h 0

include eigh in
theorem onceRX_variance {x : ℝ} {r : State} (hr : run so onceRX (.vec zero1) [("a", .num x)] = .ok (some r)) (ht : (r.mat 1).trace = 1) :
    quantumVariance (gateMat 1 StdGate.Z.mat [0] []) (r.mat 1) = Real.sin x ^ 2 := by
  have hset := onceRX_setting so x
  obtain ⟨ψ, h1, -, -, h2⟩ := C19_expectation so eigh (fun _ _ => 0) (n := 1) (values := [("a", .num x)]) (circuit := onceRX) (nss := [[]])
    ⟨onceRX_plain, hset.ne, fun g hg => (hset.std g hg).choose_spec.ok, hset.noise⟩
    (by simp [onceRX_gates, Gate.RX, mkGate]) (.inl rfl) zero1_isKet (obs := [obsZ]) (Os := [gateMat 1 StdGate.Z.mat [0] []]) (by simp)
    (.cons (Op.MeansSum.mono (fun _ _ h => StdLeaf.any h) (obsZ_fixed so True _).1) .nil)
  obtain rfl : r = .vec ψ := by rw [h1] at hr; cases hr; rfl
  rw [C20_ad_gpsr so eigh _ (.inl rfl), expectation_gates so eigh _ onceRX_plain, onceRX_value] at h2
  have h3 := Except.ok.inj h2
  simp only [List.map_cons, List.map_nil, List.cons.injEq, and_true] at h3
  rw [← expVal_vec] at h3
  rw [quantumVariance, gateMatZ_sq, ← h3, expVal, one_mul, ht, Complex.one_re]
  linarith [Real.sin_sq_add_cos_sq x]

theorem eigenvalue_Z {v : Lab 1 → ℂ} {c : ℝ} (hv : v ≠ 0) (h : (gateMat 1 StdGate.Z.mat [0] []).mulVec v = (c : ℂ) • v) :
    c = 1 ∨ c = -1 := by
  have h1 : v = ((c ^ 2 : ℝ) : ℂ) • v := by
    have := congrArg (gateMat 1 StdGate.Z.mat [0] []).mulVec h
    rw [Matrix.mulVec_mulVec, gateMatZ_sq, Matrix.one_mulVec, Matrix.mulVec_smul, h, smul_smul] at this
    rw [Complex.ofReal_pow, pow_two]
    exact this
  obtain ⟨b, hb⟩ := Function.ne_iff.1 hv
  have h2 := congrFun h1 b
  rw [Pi.smul_apply, smul_eq_mul] at h2
  have h3 : ((c ^ 2 : ℝ) : ℂ) = 1 := by
    have hb' : v b ≠ 0 := hb
    field_simp at h2
    exact h2.symm
  have h4 : c ^ 2 = 1 := by exact_mod_cast h3
  exact sq_eq_one_iff.1 h4

/-- **C108 needs the new keys**: the energy of `[RX("a", 0)]` on `|0⟩` for `Z(0)` is `cos x`, with derivative `-sin x`.  With one
shot and the same key in every step (as with the default key), gradient descent with finite-shot gradients, for any step size,
stays at its starting point `x` for ever with probability `cos² x / 2`, which is not zero unless the derivative is `±1`. -/
theorem C108_same_key (x : ℝ) :
    IsPartial (fun v => expectation so eigh draw (.vec zero1) onceRX [obsZ] v .gpsr 0) [("a", .num x)] "a" [-Real.sin x] ∧
    ∀ (Ω κ : Type) [MeasurableSpace Ω] (μ : Measure Ω) (U : Ω → κ → Draw) (split : κ → ℕ → ℕ → κ) (key : κ) (η : ℝ),
      IndepDraws μ U → DistinctKeys split key 1 → η ≠ 0 →
      μ {ω | ∃ y : ℕ → ℝ, y 0 = x ∧
        (∀ t, ∃ g, shotsBwd eigh split (fun key => jittedFiniteShots so eigh (.vec zero1) [obsZ] (List.ofFn (U ω key 1)))
          (.list onceRX.gates) [("a", .num (y t))] key = .ok [g] ∧ y (t + 1) = y t - η * g) ∧ ∀ t, y t = x}
        = ENNReal.ofReal (Real.cos x ^ 2 / 2) := by
  have hval : ∀ t, expectation so eigh draw (.vec zero1) onceRX [obsZ] [("a", .num t)] .gpsr 0 = .ok [Real.cos t] := fun t =>
    (expectation_gates so eigh draw onceRX_plain _).trans (onceRX_value so t)
  have hpart : IsPartial (fun v => expectation so eigh draw (.vec zero1) onceRX [obsZ] v .gpsr 0) [("a", .num x)] "a" [-Real.sin x] := by
    refine ⟨x, fun t => [Real.cos t], rfl, fun t => hval t, fun t => rfl, fun i => ?_⟩
    cases i with
    | zero => simpa using Real.hasDerivAt_cos x
    | succ i => simpa using hasDerivAt_const x (0 : ℝ)
  refine ⟨hpart, fun Ω κ _ μ U split key η hU hd hη => ?_⟩
  have hset := onceRX_setting so x
  have hS := shotSettingZ eigh
  have hro : Op.AllRegistered obsZ.ops := obsZ_registered _ (by simp)
  have := (hU.pairwise key 1).prob one_pos
  obtain ⟨g, hg, hform⟩ := shotsBwd_formula so eigh onceRX_plain hset onceRX_single (by simp) onceRX_registered hro hS
  obtain ⟨D, d1, d2⟩ := C57_bwd_partial so eigh onceRX_plain hset onceRX_single (by simp) onceRX_registered (by simpa using hro) hS draw
  obtain ⟨est, e1, e2, -⟩ := C105_bwd so eigh onceRX_plain hset onceRX_single (by simp) onceRX_registered hro hS Ω κ μ U split key 1 hU hd le_rfl
  obtain ⟨est', f1, f2⟩ := d2 Ω κ μ U split key 1 hU.uniform le_rfl
  obtain rfl : est' = est := funext fun ω => Except.ok.inj ((f1 ω).symm.trans (e1 ω))
  have hform' : ∀ ω, est' ω = _ := fun ω => Except.ok.inj ((f1 ω).symm.trans (hform Ω κ U split key 1 le_rfl ω))
  obtain ⟨X, hX⟩ : ∃ X : Ω → ℝ, X = fun ω => (est' ω).getD 0 0 := ⟨_, rfl⟩
  have hest : ∀ ω, est' ω = [X ω] := fun ω => by
    obtain ⟨a, ha⟩ := List.length_eq_one_iff.1 (f2.1 ω)
    rw [hX]
    simp only [ha, List.getD_cons_zero]
  -- the moments of the estimate
  obtain ⟨x', r₁, r₂, x1, x2, x3, x4, x5⟩ := e2 0 (by simp)
  obtain rfl : x = x' := by cases x1; rfl
  rw [← hX] at x4 x5
  have hmean : ∫ ω, X ω ∂μ = -Real.sin x := by
    rw [hX, (f2.2 0).2]
    have := IsPartial.unique (d1 "a" (by simp)) hpart
    simp [this]
  have hv : Var[X; μ] = Real.cos x ^ 2 / 2 := by
    obtain ⟨q₁, -, y1, y2, y3, -⟩ := shots_single so eigh onceRX_plain hset hS (hset.variant_upd "a" (x + Real.pi / 2))
    obtain ⟨q₂, -, z1, z2, z3, -⟩ := shots_single so eigh onceRX_plain hset hS (hset.variant_upd "a" (x - Real.pi / 2))
    obtain rfl : q₁ = r₁ := by
      have := y1.symm.trans x2; cases this; rfl
    obtain rfl : q₂ = r₂ := by
      have := z1.symm.trans x3; cases this; rfl
    have u1 : ∀ t, Values.upd [("a", .num x)] "a" t = [("a", .num t)] := fun t => by simp [Values.upd]
    rw [u1] at y1 z1
    rw [x5, onceRX_variance so eigh y1 y3, onceRX_variance so eigh z1 z3, Real.sin_add_pi_div_two, Real.sin_sub_pi_div_two]
    push_cast
    ring
  have hsq : ∫ ω, X ω ^ 2 ∂μ = (1 + Real.sin x ^ 2) / 2 := by
    have := variance_eq_sub x4
    rw [hv, hmean] at this
    simp only [Pi.pow_apply] at this
    have hs := Real.sin_sq_add_cos_sq x
    linarith
  -- its values
  have hvals : ∀ᵐ ω ∂μ, X ω ^ 2 = Set.indicator {ω | X ω = 0}ᶜ (fun _ => (1 : ℝ)) ω := by
    have hu : ∀ key' : κ, ∀ᵐ ω ∂μ, U ω key' 1 0 ∈ Set.Ico (0 : ℝ) 1 := fun key' =>
      (hU.uniform key' 1 0).quasiMeasurePreserving.ae (ae_restrict_mem measurableSet_Ico)
    filter_upwards [hu (split (split key 1 0) 2 0), hu (split (split key 1 0) 2 1)] with ω h1 h2
    have hXω : X ω = (g "a" (x + Real.pi / 2) (U ω (split (split key 1 0) 2 0) 1 0)
        - g "a" (x - Real.pi / 2) (U ω (split (split key 1 0) 2 1) 1 0)) / 2 := by
      have := (hest ω).symm.trans (hform' ω)
      simpa [Values.keys, drawAverage, Values.real] using this
    obtain ⟨v, v1, v2⟩ := (hg "a" (x + Real.pi / 2)).2.2 _ h1
    obtain ⟨w, w1, w2⟩ := (hg "a" (x - Real.pi / 2)).2.2 _ h2
    have hc : X ω = 0 ∨ X ω = 1 ∨ X ω = -1 := by
      rw [hXω]
      rcases eigenvalue_Z v1 v2 with h3 | h3 <;> rcases eigenvalue_Z w1 w2 with h4 | h4 <;> rw [h3, h4] <;> norm_num
    rw [Set.indicator_apply]
    rcases hc with h3 | h3 | h3 <;> simp [h3]
  have hXm : Measurable X := by
    have hd : Discrete inferInstance X := by
      have h0 := drawAverage_discrete (U := U) (k := 1) (key := split (split key 1 0) 2 0) (hg "a" (x + Real.pi / 2)).1
        (hg "a" (x + Real.pi / 2)).2.1 (m := inferInstance) fun j => (hU.uniform _ 1 j).measurable.comap_le
      have h1 := drawAverage_discrete (U := U) (k := 1) (key := split (split key 1 0) 2 1) (hg "a" (x - Real.pi / 2)).1
        (hg "a" (x - Real.pi / 2)).2.1 (m := inferInstance) fun j => (hU.uniform _ 1 j).measurable.comap_le
      have h2 := h0.bind fun a => h1.comp fun b => (a - b) / 2
      have : X = fun ω => (drawAverage U 1 (split (split key 1 0) 2 0) (g "a" (x + Real.pi / 2)) ω
          - drawAverage U 1 (split (split key 1 0) 2 1) (g "a" (x - Real.pi / 2)) ω) / 2 := funext fun ω => by
        have := (hest ω).symm.trans (hform' ω)
        simpa [Values.keys, Values.real] using this
      rw [this]; exact h2
    exact hd.measurable
  have hms : MeasurableSet {ω | X ω = 0} := hXm (measurableSet_singleton 0)
  have hP : μ.real {ω | X ω = 0}ᶜ = (1 + Real.sin x ^ 2) / 2 := by
    rw [← hsq, integral_congr_ae hvals, integral_indicator_const _ hms.compl, smul_eq_mul, mul_one]
  have hP' : μ.real {ω | X ω = 0} = Real.cos x ^ 2 / 2 := by
    have h1 := probReal_compl_eq_one_sub (μ := μ) hms
    have hs := Real.sin_sq_add_cos_sq x
    rw [hP] at h1
    linarith
  have hset' : {ω | ∃ y : ℕ → ℝ, y 0 = x ∧
        (∀ t, ∃ g, shotsBwd eigh split (fun key => jittedFiniteShots so eigh (.vec zero1) [obsZ] (List.ofFn (U ω key 1)))
          (.list onceRX.gates) [("a", .num (y t))] key = .ok [g] ∧ y (t + 1) = y t - η * g) ∧ ∀ t, y t = x} = {ω | X ω = 0} := by
    ext ω
    constructor
    · rintro ⟨y, y0, y1, y2⟩
      obtain ⟨d, k1, k2⟩ := y1 0
      rw [y2 0, f1 ω, hest ω] at k1
      rw [y2 0, y2 1] at k2
      have : η * d = 0 := by linarith
      have hd0 := (mul_eq_zero.1 this).resolve_left hη
      have := (List.cons.inj (Except.ok.inj k1)).1
      exact this.trans hd0
    · intro h0
      have h0' : X ω = 0 := h0
      exact ⟨fun _ => x, rfl, fun t => ⟨0, by rw [f1 ω, hest ω, h0'], by ring⟩, fun _ => rfl⟩
  rw [hset', ← hP', Measure.real, ENNReal.ofReal_toReal (measure_ne_top _ _)]

/-! ### Non-vacuity -/

/-- Mutually independent draws exist, for every set of keys. -/
theorem mutualDraws_exists (κ : Type) : ∃ (Ω : Type) (_ : MeasurableSpace Ω) (μ : Measure Ω) (U : Ω → κ → Draw), MutualDraws μ U := by
  have : IsProbabilityMeasure (volume.restrict (Set.Ico (0 : ℝ) 1)) :=
    ⟨by rw [Measure.restrict_apply_univ, Real.volume_Ico]; norm_num⟩
  refine ⟨κ × ℕ × ℕ → ℝ, inferInstance, Measure.infinitePi fun _ => volume.restrict (Set.Ico (0 : ℝ) 1),
    fun ω key k j => ω (key, k, j), fun key k j => measurePreserving_eval_infinitePi _ (key, k, (j : ℕ)), fun k => ?_⟩
  have h := iIndepFun_infinitePi (P := fun _ : κ × ℕ × ℕ => volume.restrict (Set.Ico (0 : ℝ) 1)) (X := fun _ => id) fun _ => measurable_id
  exact h.precomp (g := fun e : κ × Fin k => (e.1, k, (e.2 : ℕ))) fun e e' he => by
    have h1 := congrArg Prod.fst he
    have h2 := congrArg (fun z : κ × ℕ × ℕ => z.2.2) he
    exact Prod.ext h1 (Fin.ext h2)

/-- Keys that record how they were split, starting from numbered keys. -/
theorem freshKeys_exists (m : ℕ) : FreshKeys (κ := List (ℕ × ℕ)) (fun key m i => (m, i) :: key) (fun t => [(0, t)]) m :=
  fun s t i _ j _ a _ b _ e => by simp at e; exact ⟨e.2.2, e.2.1, e.1⟩

/-- Non-vacuity of C108: the hypotheses are met by `[RX("a", 0)]` on `|0⟩`, `Z(0)`, any starting point and the step size `1`, for which
`L η = 1`; and training loops exist. -/
example (x : ℝ) : onceRX.Plain ∧ ["a"].Nodup ∧ dictAt ["a"] (fun _ => x) = [("a", .num x)] ∧
    Setting so 1 [("a", .num x)] onceRX.gates [[]] (.vec zero1) [obsZ] [gateMat 1 StdGate.Z.mat [0] []] ∧
    SingleUse onceRX.gates ∧ (∀ g ∈ onceRX.gates, g.Registered) ∧ Op.AllRegistered obsZ.ops ∧
    ShotSetting eigh 1 (.vec zero1) [obsZ] [gateMat 1 StdGate.Z.mat [0] []] ∧
    SpectrumIn (gateMat 1 StdGate.Z.mat [0] []) (-1) 1 ∧ smoothness onceRX.gates ["a"] (-1) 1 * 1 = 1 ∧
    ∃ (Ω κ : Type) (_ : MeasurableSpace Ω) (μ : Measure Ω) (U : Ω → κ → Draw) (split : κ → ℕ → ℕ → κ) (key : ℕ → κ),
      MutualDraws μ U ∧ FreshKeys split key ["a"].length ∧
      ∃ (y : ℕ → Ω → Fin ["a"].length → ℝ) (grad : ℕ → Ω → List ℝ), (∀ ω, y 0 ω = fun _ => x) ∧
        (∀ t ω, shotsBwd eigh split (fun key => jittedFiniteShots so eigh (.vec zero1) [obsZ] (List.ofFn (U ω key 1)))
          (.list onceRX.gates) (dictAt ["a"] (y t ω)) (key t) = .ok (grad t ω)) ∧
        ∀ t ω, y (t + 1) ω = fun i => y t ω i - 1 * (grad t ω).getD i 0 := by
  obtain ⟨Ω, m, μ, U, hU⟩ := mutualDraws_exists (List (ℕ × ℕ))
  have hdict : ∀ y : Fin ["a"].length → ℝ, dictAt ["a"] y = [("a", .num (y 0))] := fun y => by simp [dictAt, zipValues]
  have hgr : ∀ (key : List (ℕ × ℕ)) (ω : Ω) (y : Fin ["a"].length → ℝ), ∃ gr, shotsBwd eigh (fun key m i => (m, i) :: key)
      (fun key => jittedFiniteShots so eigh (.vec zero1) [obsZ] (List.ofFn (U ω key 1))) (.list onceRX.gates) (dictAt ["a"] y) key
        = .ok gr := fun key ω y => by
    rw [hdict]
    obtain ⟨g, -, hform⟩ := shotsBwd_formula so eigh onceRX_plain (onceRX_setting so (y 0)) onceRX_single (by simp) onceRX_registered
      (obsZ_registered _ (by simp)) (shotSettingZ eigh)
    exact ⟨_, hform Ω _ U _ key 1 le_rfl ω⟩
  choose gr hgr using hgr
  refine ⟨onceRX_plain, by simp, hdict _, onceRX_setting so x, onceRX_single, onceRX_registered, obsZ_registered _ (by simp),
    shotSettingZ eigh, flip_spectrum.2, ?_, Ω, _, m, μ, U, _, _, hU, freshKeys_exists _,
    fun t ω => Nat.rec (fun _ => x) (fun t y i => y i - 1 * (gr [(0, t)] ω y).getD i 0) t,
    fun t ω => gr [(0, t)] ω (Nat.rec (fun _ => x) (fun t y i => y i - 1 * (gr [(0, t)] ω y).getD i 0) t), fun ω => rfl,
    fun t ω => hgr _ _ _, fun t ω => rfl⟩
  have hc : useCount onceRX.gates "a" = 1 := by
    have h : (Gate.RX (.str "a") (.int 0)).Uses "a" := rfl
    simp [useCount, onceRX_gates, h]
  simp [smoothness, hc]

end Verif
