import Verif.Lemmas.Descent
import Verif.Props.Lipschitz

/-!
# C106: gradient descent on expectation values

With the step size `η ≤ 1 / L`, `L = (hi - lo)/2 · Σ_p (number of gates with parameter p)²`, gradient descent on the energy returned by
`expectation` never increases it and finds points with an arbitrarily small gradient.
-/

set_option autoImplicit false

namespace Verif
open NDArray
open scoped ComplexOrder
variable {n : ℕ} (so : SetOrder) (eigh : Eigh) (draw : Draw) {nss : List (List StdNoise)} {st : State}
  {obs : List Observable} {Os : List (LMat n)}

/-- Everything the proofs below use about the expectation values as functions of all parameters. -/
theorem energy_facts {mode : DiffMode} {circuit : Op} (hp : circuit.Plain) {names : List String} (hnd : names.Nodup)
    {x₀ : Fin names.length → ℝ} (hm : ExactMode mode (dictAt names x₀) st circuit)
    (h : BaseSetting so n (dictAt names x₀) circuit.gates nss st obs Os) (hρ : (st.mat n).PosSemidef) (ht : (st.mat n).trace = 1) :
    ∃ F : (Fin names.length → ℝ) → List ℝ,
      (∀ x, expectation so eigh draw st circuit obs (dictAt names x) mode 0 = .ok (F x)) ∧ (∀ x, (F x).length = obs.length) ∧
      (∀ i, Differentiable ℝ fun x => (F x).getD i 0) ∧
      (∀ i x k, TrigPoly (2 * useCount circuit.gates names[k]) fun t => (F (Function.update x k (2 * t))).getD i 0) ∧
      (∀ i O lo hi, Os[i]? = some O → O.IsHermitian → SpectrumIn O lo hi → ∀ x y,
        |(F y).getD i 0 - (F x).getD i 0| ≤ (hi - lo) / 2 * ∑ k : Fin names.length, useCount circuit.gates names[k] * |y k - x k|) ∧
      ∀ x (k : Fin names.length) (D : List ℝ),
        IsPartial (fun v => expectation so eigh draw st circuit obs v mode 0) (dictAt names x) names[k] D →
        D.length = obs.length ∧ ∀ i, HasDerivAt (fun t => (F (Function.update x k t)).getD i 0) (D.getD i 0) (x k) := by
  obtain ⟨F, hF, hl, hL⟩ := C88_lipschitz so eigh draw hp hnd hm h hρ ht
  obtain ⟨F', hF', -, hs⟩ := C85_smooth so eigh draw hp hnd x₀ hm h 1
  obtain rfl : F' = F := funext fun x => Except.ok.inj ((hF' x).symm.trans (hF x))
  refine ⟨F', hF, hl, fun i => (hs i).differentiable (by norm_num), fun i x k => ?_, hL, fun x k D hD => ?_⟩
  · obtain ⟨f, h1, -, h3⟩ := C75_half so eigh draw (hm.everywhere x) hp (h.everywhere so hnd x) names[k]
    have hf : ∀ t, f t = F' (Function.update x k t) := fun t => by
      have := h1 t
      rw [dictAt_upd hnd, hF] at this
      exact (Except.ok.inj this).symm
    have := h3 i
    simp only [hf] at this
    exact this
  · obtain ⟨x', f, hx', hf, hlen, hder⟩ := hD
    have hx'' := dictAt_lookup hnd x k
    obtain rfl : x k = x' := by
      have := hx''.symm.trans hx'
      cases this; rfl
    have hfF : ∀ t, f t = F' (Function.update x k t) := fun t => by
      have h1 := hf t
      beta_reduce at h1
      rw [dictAt_upd hnd, hF] at h1
      exact (Except.ok.inj h1).symm
    exact ⟨by rw [← hlen 0, hfF, hl], fun i => by simpa only [hfF] using hder i⟩

theorem spread_nonneg {O : LMat n} {lo hi : ℝ} (hO : O.IsHermitian) (hs : SpectrumIn O lo hi) (hρ : (st.mat n).PosSemidef)
    (ht : (st.mat n).trace = 1) : 0 ≤ (hi - lo) / 2 := by
  have := expVal_psd hO hs hρ
  rw [ht, Complex.one_re, mul_one, mul_one] at this
  linarith [this.1.trans this.2]

/-- **C106** (the gradient is Lipschitz): between two points `x` and `y`, the partial derivative with respect to a parameter of `m` gates
changes by at most `m · (hi - lo)/2 · Σ_q (number of gates with parameter q) · |y_q - x_q|`.  (So every second derivative is at
most `m_p m_q (hi - lo)/2`.) -/
theorem C106_gradient {mode : DiffMode} {circuit : Op} (hp : circuit.Plain) {names : List String} (hnd : names.Nodup)
    {x y : Fin names.length → ℝ} (hm : ExactMode mode (dictAt names x) st circuit)
    (h : BaseSetting so n (dictAt names x) circuit.gates nss st obs Os) (hρ : (st.mat n).PosSemidef) (ht : (st.mat n).trace = 1)
    {p : String} (hpn : p ∈ names) {D D' : List ℝ}
    (hD : IsPartial (fun v => expectation so eigh draw st circuit obs v mode 0) (dictAt names x) p D)
    (hD' : IsPartial (fun v => expectation so eigh draw st circuit obs v mode 0) (dictAt names y) p D')
    {i : ℕ} {O : LMat n} {lo hi : ℝ} (hO : Os[i]? = some O) (hH : O.IsHermitian) (hs : SpectrumIn O lo hi) :
    |D'.getD i 0 - D.getD i 0| ≤ useCount circuit.gates p *
      ((hi - lo) / 2 * ∑ k : Fin names.length, useCount circuit.gates names[k] * |y k - x k|) := by
  obtain ⟨F, -, -, -, h4, h5, h6⟩ := energy_facts so eigh draw hp hnd hm h hρ ht
  obtain ⟨j, hj, rfl⟩ := List.getElem_of_mem hpn
  exact partial_lip (F := fun x => (F x).getD i 0) (c := fun k => useCount circuit.gates names[k]) (k := ⟨j, hj⟩)
    (h5 i O lo hi hO hH hs) (h4 i) ((h6 x ⟨j, hj⟩ D hD).2 i) ((h6 y ⟨j, hj⟩ D' hD').2 i)

/-- The constant `L` of gradient descent: half the spread of the observable times the sum over the parameters of the squared number of
gates that have the parameter. -/
noncomputable def smoothness (gs : List Gate) (names : List String) (lo hi : ℝ) : ℝ :=
  (hi - lo) / 2 * ∑ k : Fin names.length, (useCount gs names[k] : ℝ) ^ 2

/-- **C106** (one step): a step of size `η` against the gradient `D` lowers the returned energy by at least
`η (1 - L η / 2) ‖D‖²`; for every circuit of standard gates with any controls and any noise. -/
theorem C106_descent {mode : DiffMode} {circuit : Op} (hp : circuit.Plain) {names : List String} (hnd : names.Nodup)
    {x : Fin names.length → ℝ} (hm : ExactMode mode (dictAt names x) st circuit) {o : Observable} {O : LMat n}
    (h : BaseSetting so n (dictAt names x) circuit.gates nss st [o] [O]) (hρ : (st.mat n).PosSemidef) (ht : (st.mat n).trace = 1)
    (hH : O.IsHermitian) {lo hi : ℝ} (hs : SpectrumIn O lo hi) {D : String → ℝ}
    (hD : ∀ p ∈ names, IsPartial (fun v => expectation so eigh draw st circuit [o] v mode 0) (dictAt names x) p [D p])
    {η : ℝ} (hη : 0 ≤ η) :
    ∃ e e', expectation so eigh draw st circuit [o] (dictAt names x) mode 0 = .ok [e] ∧
      expectation so eigh draw st circuit [o] (dictAt names fun k => x k - η * D names[k]) mode 0 = .ok [e'] ∧
      e' ≤ e - η * (1 - smoothness circuit.gates names lo hi * η / 2) * ∑ k : Fin names.length, D names[k] ^ 2 := by
  obtain ⟨F, hF, hl, h3, h4, h5, h6⟩ := energy_facts so eigh draw hp hnd hm h hρ ht
  have hF1 : ∀ y, F y = [(F y).getD 0 0] := by
    intro y
    obtain ⟨a, ha⟩ := List.length_eq_one_iff.1 (hl y)
    rw [ha]; rfl
  refine ⟨_, _, (hF _).trans (congrArg _ (hF1 _)), (hF _).trans (congrArg _ (hF1 _)), ?_⟩
  exact descent (F := fun x => (F x).getD 0 0) (c := fun k => useCount circuit.gates names[k]) (h3 0) (spread_nonneg hH hs hρ ht)
    (h5 0 O lo hi rfl hH hs) (h4 0) (D := fun k => D names[k])
    (fun k => (h6 x k [D names[k]] (hD _ (List.getElem_mem _))).2 0) hη

/-- **C106** (convergence): run gradient descent from any point with a fixed step `0 < η ≤ 1/L`.  The energies never increase, and
among the first `T` points there is one where the squared norm of the gradient is at most `2 (e₀ - lo) / (η T)`, `e₀` the energy at
the start. -/
theorem C106_converges {mode : DiffMode} {circuit : Op} (hp : circuit.Plain) {names : List String} (hnd : names.Nodup)
    {x : ℕ → Fin names.length → ℝ} (hm : ExactMode mode (dictAt names (x 0)) st circuit) {o : Observable} {O : LMat n}
    (h : BaseSetting so n (dictAt names (x 0)) circuit.gates nss st [o] [O]) (hρ : (st.mat n).PosSemidef) (ht : (st.mat n).trace = 1)
    (hH : O.IsHermitian) {lo hi : ℝ} (hs : SpectrumIn O lo hi) {D : ℕ → String → ℝ}
    (hD : ∀ t, ∀ p ∈ names, IsPartial (fun v => expectation so eigh draw st circuit [o] v mode 0) (dictAt names (x t)) p [D t p])
    {η : ℝ} (hη : 0 < η) (hL : smoothness circuit.gates names lo hi * η ≤ 1)
    (hx : ∀ t, x (t + 1) = fun k => x t k - η * D t names[k]) :
    ∃ e : ℕ → ℝ, (∀ t, expectation so eigh draw st circuit [o] (dictAt names (x t)) mode 0 = .ok [e t]) ∧ Antitone e ∧
      ∀ T ≠ 0, ∃ t < T, ∑ k : Fin names.length, D t names[k] ^ 2 ≤ 2 * (e 0 - lo) / (η * T) := by
  have step := fun t => C106_descent so eigh draw hp hnd (hm.everywhere (x t)) (h.everywhere so hnd (x t)) hρ ht hH hs (hD t) hη.le
  obtain ⟨F, hF, hl, -, -, -, -⟩ := energy_facts so eigh draw hp hnd hm h hρ ht
  have hF1 : ∀ y, F y = [(F y).getD 0 0] := by
    intro y
    obtain ⟨a, ha⟩ := List.length_eq_one_iff.1 (hl y)
    rw [ha]; rfl
  have hdec : ∀ t, (F (x (t + 1))).getD 0 0 ≤ (F (x t)).getD 0 0 - η / 2 * ∑ k : Fin names.length, D t names[k] ^ 2 := by
    intro t
    obtain ⟨e, e', h1, h2, h3⟩ := step t
    rw [← hx, hF, hF1] at h2
    rw [hF, hF1] at h1
    cases h1; cases h2
    have hS : 0 ≤ ∑ k : Fin names.length, D t names[k] ^ 2 := Finset.sum_nonneg fun k _ => sq_nonneg _
    have : η / 2 ≤ η * (1 - smoothness circuit.gates names lo hi * η / 2) := by nlinarith
    have := mul_le_mul_of_nonneg_right this hS
    linarith
  have hbound : ∀ t, lo ≤ (F (x t)).getD 0 0 := fun t => by
    have h1 := expectation_exact so eigh draw (hm.everywhere (x t)) hp (h.everywhere so hnd (x t))
    have h2 := hF (x t)
    rw [h1] at h2
    rw [← Except.ok.inj h2]
    simp only [List.map_cons, List.map_nil, List.getD_cons_zero]
    have hp' := run_lip (v := dictAt names (x t)) (v' := dictAt names (x t)) (h.everywhere so hnd (x t)).std h.noise
      (d := fun _ => 0) (fun g hg => ⟨1, by simp, by rw [one_mul], fun ρ hρ => ⟨0, 0, .zero, .zero, by simp, by simp [conjBy]⟩⟩)
      (ρ := st.mat n) (ρ' := st.mat n) (w := 0) ⟨⟨hρ, hρ, ht, ht⟩, 0, 0, .zero, .zero, by simp, by simp⟩
    have := expVal_psd hH hs hp'.1.1
    rw [hp'.1.2.2.1, Complex.one_re, mul_one] at this
    exact this.1
  refine ⟨fun t => (F (x t)).getD 0 0, fun t => (hF _).trans (congrArg _ (hF1 _)), antitone_nat_of_succ_le fun t => ?_, fun T hT => ?_⟩
  · have hS : 0 ≤ ∑ k : Fin names.length, D t names[k] ^ 2 := Finset.sum_nonneg fun k _ => sq_nonneg _
    have := hdec t
    nlinarith
  · obtain ⟨t, h1, h2⟩ := small_step (half_pos hη) hdec hbound hT
    refine ⟨t, h1, h2.trans (le_of_eq ?_)⟩
    have : (T : ℝ) ≠ 0 := by exact_mod_cast hT
    field_simp

/-- **C106** (with the gradients of `analytical_gpsr_bwd`): the same for the training loop that subtracts `η` times the list that the
parameter-shift backward pass returns; every parameter belongs to one gate, or every parameter of the dictionary to some gate. -/
theorem C106_gpsr {circuit : Op} (hp : circuit.Plain) {names : List String} (hnd : names.Nodup) (hne : names ≠ [])
    {x : ℕ → Fin names.length → ℝ} {o : Observable} {O : LMat n}
    (h : Setting so n (dictAt names (x 0)) circuit.gates nss st [o] [O])
    (hu : SingleUse circuit.gates ∨ ∀ p ∈ names, ∃ g ∈ circuit.gates, g.Uses p) (hr : ∀ g ∈ circuit.gates, g.Registered)
    (hro : Op.AllRegistered o.ops) (hρ : (st.mat n).PosSemidef) (ht : (st.mat n).trace = 1) (hH : O.IsHermitian) {lo hi : ℝ}
    (hs : SpectrumIn O lo hi) {grad : ℕ → List ℝ}
    (hg : ∀ t, gpsrBwd eigh (jittedExpectation so st [o]) (.list circuit.gates) (dictAt names (x t)) = .ok (grad t))
    {η : ℝ} (hη : 0 < η) (hL : smoothness circuit.gates names lo hi * η ≤ 1)
    (hx : ∀ t, x (t + 1) = fun k => x t k - η * (grad t).getD k 0) :
    ∃ e : ℕ → ℝ, (∀ t, expectation so eigh draw st circuit [o] (dictAt names (x t)) .gpsr 0 = .ok [e t]) ∧ Antitone e ∧
      ∀ T ≠ 0, ∃ t < T, ((grad t).map (· ^ 2)).sum ≤ 2 * (e 0 - lo) / (η * T) := by
  have hm : ∀ t, ExactMode .gpsr (dictAt names (x t)) st circuit := fun _ => .inl rfl
  have hset : ∀ t, Setting so n (dictAt names (x t)) circuit.gates nss st [o] [O] := fun t =>
    ⟨h.toBaseSetting.everywhere so hnd (x t), h.uncontrolled⟩
  obtain ⟨F, -, -, -, -, -, h6⟩ := energy_facts so eigh draw hp hnd (hm 0) h.toBaseSetting hρ ht
  have hpart : ∀ t, ∃ D : String → ℝ,
      (∀ p ∈ names, IsPartial (fun v => expectation so eigh draw st circuit [o] v .gpsr 0) (dictAt names (x t)) p [D p]) ∧
      grad t = names.map D := by
    intro t
    obtain ⟨D, hD, hb⟩ : ∃ D : String → List ℝ, (∀ p ∈ (dictAt names (x t)).map Prod.fst,
          IsPartial (fun v => expectation so eigh draw st circuit [o] v .gpsr 0) (dictAt names (x t)) p (D p)) ∧
        gpsrBwd eigh (jittedExpectation so st [o]) (.list circuit.gates) (dictAt names (x t))
          = .ok (((dictAt names (x t)).map Prod.fst).map fun p => (D p).sum) := by
      by_cases hsu : SingleUse circuit.gates
      · refine C23_bwd_partial so eigh draw hp (hset t) hsu (fun h0 => hne ?_) hr (by simpa using hro)
        have := dictAt_keys names (x t)
        rw [h0] at this
        exact this.symm
      · refine C24_bwd_partial so eigh draw hp (hset t) hsu ?_ hr (by simpa using hro)
        rw [dictAt_keys]
        exact hu.resolve_left hsu
    rw [dictAt_keys] at hD hb
    refine ⟨fun p => (D p).sum, fun p hp' => ?_, Except.ok.inj ((hg t).symm.trans hb)⟩
    have := hD p hp'
    obtain ⟨j, hj, rfl⟩ := List.getElem_of_mem hp'
    obtain ⟨a, ha⟩ := List.length_eq_one_iff.1 (h6 (x t) ⟨j, hj⟩ _ this).1
    beta_reduce
    rw [ha] at this ⊢
    simpa using this
  choose D hD hgr using hpart
  have hget : ∀ t (k : Fin names.length), (grad t).getD k 0 = D t names[k] := fun t k => by
    rw [hgr]; simp [List.getD_eq_getElem?_getD]
  have hsum : ∀ t, ((grad t).map (· ^ 2)).sum = ∑ k : Fin names.length, D t names[k] ^ 2 := fun t => by
    rw [hgr, List.map_map, Fin.sum_univ_def]
    congr 1
    refine List.ext_getElem (by simp) fun i h1 h2 => ?_
    simp
  obtain ⟨e, h1, h2, h3⟩ := C106_converges so eigh draw hp hnd (hm 0) h.toBaseSetting hρ ht hH hs hD hη hL
    (fun t => by simpa only [hget] using hx t)
  exact ⟨e, h1, h2, fun T hT => by simpa only [hsum] using h3 T hT⟩

/-- **C106** (the bound on the step is needed): the energy `⟨Z⟩ = cos 2a` of `[RX("a", 0), RX("a", 0)]` on `|0⟩` has `L = 4`; for every
step `η > 2/L` there is a point with gradient `d ≠ 0` where the step against the gradient increases the energy. -/
theorem C106_step_needed {η : ℝ} (hη : 2 / 4 < η) :
    smoothness twiceRX.gates ["a"] (-1) 1 = 4 ∧ SpectrumIn (gateMat 1 StdGate.Z.mat [0] []) (-1) 1 ∧
    ∃ x d e e' : ℝ,
      IsPartial (fun v => expectation so eigh draw (.vec zero1) twiceRX [obsZ] v .gpsr 0) [("a", .num x)] "a" [d] ∧ d ≠ 0 ∧
      expectation so eigh draw (.vec zero1) twiceRX [obsZ] [("a", .num x)] .gpsr 0 = .ok [e] ∧
      expectation so eigh draw (.vec zero1) twiceRX [obsZ] [("a", .num (x - η * d))] .gpsr 0 = .ok [e'] ∧ e < e' := by
  have hval : ∀ t, expectation so eigh draw (.vec zero1) twiceRX [obsZ] [("a", .num t)] .gpsr 0 = .ok [Real.cos (2 * t)] := fun t =>
    (expectation_gates so eigh draw twiceRX_plain _).trans (twice_value so rfl)
  have hκ : 2 < 4 * η := by linarith
  have hκ0 : 0 < 4 * η := by linarith
  generalize hk : 4 * η = κ at hκ hκ0
  obtain ⟨u, hu0, hu1, huk, hu2⟩ : ∃ u : ℝ, 0 < u ∧ u ≤ 1 ∧ κ * u ≤ 1 ∧ u ≤ 1 - 2 / κ := by
    refine ⟨min 1 (min (1 / κ) (1 - 2 / κ)), ?_, min_le_left _ _, ?_, (min_le_right _ _).trans (min_le_right _ _)⟩
    · refine lt_min one_pos (lt_min (by positivity) ?_)
      rw [sub_pos, div_lt_one hκ0]; exact hκ
    · have := mul_le_mul_of_nonneg_left ((min_le_right 1 (min (1 / κ) (1 - 2 / κ))).trans (min_le_left _ _)) hκ0.le
      rwa [mul_one_div_cancel hκ0.ne'] at this
  have hsin : u - u ^ 3 / 6 < Real.sin u := Real.sin_gt_sub_cube hu0
  have hbig : 2 * u < κ * Real.sin u := by
    have h1 : 2 ≤ κ * (1 - u) := by
      have := mul_le_mul_of_nonneg_left hu2 hκ0.le
      rw [mul_sub, mul_div_cancel₀ _ hκ0.ne'] at this
      linarith
    have h2 : u * (1 - u) ≤ Real.sin u := by nlinarith [sq_nonneg u]
    have h3 : 2 * u ≤ κ * (u * (1 - u)) := by nlinarith
    have h4 : u * (1 - u) < Real.sin u := by nlinarith [mul_pos hu0 hu0]
    nlinarith
  have hsmall : κ * Real.sin u - u ≤ Real.pi := by
    have := mul_le_mul_of_nonneg_left (Real.sin_lt hu0).le hκ0.le
    linarith [Real.two_le_pi]
  refine ⟨?_, flip_spectrum.2, Real.pi / 2 + u / 2, 2 * Real.sin u, _, _, ?_, ?_, hval _, hval _, ?_⟩
  · have hc : useCount twiceRX.gates "a" = 2 := by
      have h : (Gate.RX (.str "a") (.int 0)).Uses "a" := rfl
      simp [useCount, twiceRX_gates, h]
    simp [smoothness, hc]
    norm_num
  · refine ⟨_, fun t => [Real.cos (2 * t)], rfl, fun t => hval t, fun t => rfl, fun i => ?_⟩
    cases i with
    | zero =>
      have h1 : HasDerivAt (fun t : ℝ => 2 * t) 2 (Real.pi / 2 + u / 2) := by simpa using (hasDerivAt_id (Real.pi / 2 + u / 2)).const_mul 2
      have h2 := h1.cos
      rw [show 2 * (Real.pi / 2 + u / 2) = u + Real.pi by ring, Real.sin_add_pi] at h2
      simpa [mul_comm] using h2
    | succ i => simpa using hasDerivAt_const (Real.pi / 2 + u / 2) (0 : ℝ)
  · nlinarith
  · have e1 : 2 * (Real.pi / 2 + u / 2) = u + Real.pi := by ring
    have e2 : 2 * (Real.pi / 2 + u / 2 - η * (2 * Real.sin u)) = Real.pi - (κ * Real.sin u - u) := by rw [← hk]; ring
    rw [e1, e2, Real.cos_add_pi, Real.cos_pi_sub, neg_lt_neg_iff]
    exact Real.cos_lt_cos_of_nonneg_of_le_pi hu0.le hsmall (by linarith)

/-- Non-vacuity of `C106_gradient`, `C106_descent` and `C106_gpsr`: two rotations by the same angle `π/4`; the energy `cos 2x` has there the
derivative `-2`, and `L = 4`. -/
example : twiceRX.Plain ∧ ["a"].Nodup ∧ dictAt ["a"] (fun _ => Real.pi / 4) = [("a", .num (Real.pi / 4))] ∧
    Setting so 1 (dictAt ["a"] fun _ => Real.pi / 4) twiceRX.gates [[], []] (.vec zero1) [obsZ] [gateMat 1 StdGate.Z.mat [0] []] ∧
    (∀ p ∈ ["a"], ∃ g ∈ twiceRX.gates, g.Uses p) ∧ (∀ g ∈ twiceRX.gates, g.Registered) ∧ Op.AllRegistered obsZ.ops ∧
    ((State.vec zero1).mat 1).PosSemidef ∧ ((State.vec zero1).mat 1).trace = 1 ∧
    (gateMat 1 StdGate.Z.mat [0] []).IsHermitian ∧ SpectrumIn (gateMat 1 StdGate.Z.mat [0] []) (-1) 1 ∧
    ∀ t, ∃ d, gpsrBwd eigh (jittedExpectation so (.vec zero1) [obsZ]) (.list twiceRX.gates) (dictAt ["a"] fun _ => t) = .ok [d] := by
  have hv : ∀ t, dictAt ["a"] (fun _ => t) = [("a", .num t)] := fun t => by simp [dictAt, zipValues]
  have hset : ∀ t, Setting so 1 (dictAt ["a"] fun _ => t) twiceRX.gates [[], []] (.vec zero1) [obsZ] [gateMat 1 StdGate.Z.mat [0] []] := fun t => by
    rw [hv]; exact twiceSetting so ⟨by simp, by simp⟩ rfl
  have hall : ∀ p ∈ ["a"], ∃ g ∈ twiceRX.gates, g.Uses p := by
    simp only [List.mem_singleton, forall_eq]
    exact ⟨Gate.RX (.str "a") (.int 0), by simp [twiceRX_gates], rfl⟩
  refine ⟨twiceRX_plain, by simp, hv _, hset _, hall, twice_registered, by simpa using obsZ_registered, zero1_density.1, zero1_density.2,
    flip_spectrum.1, flip_spectrum.2, fun t => ?_⟩
  obtain ⟨D, -, hb⟩ := C24_bwd_partial so eigh (fun _ _ => 0) twiceRX_plain (hset t) (by
    rw [twiceRX_gates]
    intro h
    have := (List.pairwise_cons.1 h).1 _ List.mem_cons_self "a" rfl
    exact this rfl) (by rw [dictAt_keys]; exact hall) twice_registered obsZ_registered
  rw [dictAt_keys] at hb
  exact ⟨_, hb⟩

end Verif
