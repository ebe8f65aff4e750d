import Mathlib.Analysis.Calculus.Deriv.Pi
import Mathlib.Analysis.Calculus.Deriv.Slope
import Mathlib.Analysis.Calculus.Deriv.Prod
import Verif.Lemmas.Smooth
import Verif.Props.Spectrum

/-!
# C85: expectation values as functions of all parameters

Jointly smooth, with the differential given by the partial derivatives, so that a small step against the gradient that GPSR
returns lowers the energy.
-/

set_option autoImplicit false

namespace Verif
open NDArray
variable {n : ℕ} (so : SetOrder) (eigh : Eigh) (draw : Draw)
  {nss : List (List StdNoise)} {st : State} {obs : List Observable} {Os : List (Matrix (Lab n) (Lab n) ℂ)}

/-- The dictionary `dict(zip(names, x))`. -/
def dictAt (names : List String) (x : Fin names.length → ℝ) : Values := zipValues names (List.ofFn x)

theorem dictAt_keys (names : List String) (x : Fin names.length → ℝ) : (dictAt names x).map Prod.fst = names :=
  zipValues_keys (by simp)

theorem dictAt_cons (a : String) (names : List String) (x : Fin (a :: names).length → ℝ) :
    dictAt (a :: names) x = (a, .num (x 0)) :: dictAt names fun i => x i.succ := by
  simp only [dictAt, zipValues]
  rw [show List.ofFn x = x 0 :: List.ofFn fun i : Fin names.length => x i.succ from List.ofFn_succ]
  rfl

theorem dictAt_lookup {names : List String} (hnd : names.Nodup) (x : Fin names.length → ℝ) (k : Fin names.length) :
    (dictAt names x).lookup names[k] = some (.num (x k)) := by
  induction names with
  | nil => exact k.elim0
  | cons a names ih =>
    rw [dictAt_cons]
    cases k using Fin.cases with
    | zero => simp
    | succ k =>
      have hne : (names[k] == a) = false := by
        simp only [beq_eq_false_iff_ne]
        rintro rfl
        exact (List.nodup_cons.1 hnd).1 (List.getElem_mem _)
      have := ih (List.nodup_cons.1 hnd).2 (fun i => x i.succ) k
      change List.lookup names[k] ((a, PyVal.num (x 0)) :: dictAt names fun i => x i.succ) = _
      rw [List.lookup_cons, hne]
      exact this

theorem dictAt_upd {names : List String} (hnd : names.Nodup) (x : Fin names.length → ℝ) (k : Fin names.length) (y : ℝ) :
    (dictAt names x).upd names[k] y = dictAt names (Function.update x k y) := by
  induction names with
  | nil => exact k.elim0
  | cons a names ih =>
    rw [dictAt_cons, dictAt_cons, Values.upd, List.map_cons]
    cases k using Fin.cases with
    | zero =>
      have e : (fun i : Fin names.length => Function.update x 0 y i.succ) = fun i : Fin names.length => x i.succ := by
        funext i; rw [Function.update_of_ne]; exact Fin.succ_ne_zero i
      rw [e]
      have h2 : ∀ e ∈ dictAt names (fun i => x i.succ), (if e.1 = a then (a, PyVal.num y) else e) = e := by
        intro e he
        rw [if_neg]
        rintro rfl
        refine (List.nodup_cons.1 hnd).1 ?_
        rw [← dictAt_keys names fun i => x i.succ]
        exact List.mem_map_of_mem he
      rw [show (a :: names)[(0 : Fin (names.length + 1))] = a from rfl, if_pos rfl, List.map_congr_left h2]
      simp
    | succ k =>
      have hne : ¬ a = names[k] := by
        rintro rfl
        exact (List.nodup_cons.1 hnd).1 (List.getElem_mem _)
      have e1 : Function.update x k.succ y 0 = x 0 := by rw [Function.update_of_ne]; exact (Fin.succ_ne_zero k).symm
      have e2 : (fun i : Fin names.length => Function.update x k.succ y i.succ) = Function.update (fun i => x i.succ) k y := by
        funext i
        by_cases hi : i = k
        · subst hi; simp
        · rw [Function.update_of_ne hi, Function.update_of_ne (by simpa using hi)]
      rw [e1, e2, ← ih (List.nodup_cons.1 hnd).2]
      change (if a = names[k] then (names[k], PyVal.num y) else (a, PyVal.num (x 0))) :: _ = _
      rw [if_neg hne]
      rfl

theorem dictAt_flat {names : List String} {x : Fin names.length → ℝ} (h : (dictAt names x).Flat) (y : Fin names.length → ℝ) :
    (dictAt names y).Flat := by
  have key : ∀ s, (dictAt names x).lookup s = none → (dictAt names y).lookup s = none := by
    intro s hs
    apply lookup_none
    rw [List.lookup_eq_none_iff] at hs
    rw [Values.keys, dictAt_keys, ← dictAt_keys names x]
    intro hmem
    obtain ⟨e, he, rfl⟩ := List.mem_map.1 hmem
    simpa using hs e he
  exact h.imp (key _) (key _)

theorem expectation_exact {values : Values} {mode : DiffMode} {circuit : Op} (hm : ExactMode mode values st circuit)
    (hp : circuit.Plain) (h : BaseSetting so n values circuit.gates nss st obs Os) :
    expectation so eigh draw st circuit obs values mode 0
      = .ok (Os.map fun O => expVal O (noisyRun n .unitary values (circuit.gates.zip nss) (st.mat n))) := by
  have key : expectation so eigh draw st circuit obs values .gpsr 0
      = .ok (Os.map fun O => expVal O (noisyRun n .unitary values (circuit.gates.zip nss) (st.mat n))) := by
    rw [expectation_gates so eigh draw hp, gatesExpectation_eq so h.ne (fun g hg => (h.std g hg).choose_spec.ok) h.noise h.on h.obs_ne h.fixed]
  rcases hm with rfl | ⟨rfl, hf⟩ | ⟨rfl, hf, hx⟩
  · exact key
  · rw [C20_ad_gpsr so eigh draw hf, key]
  · simp only [Mixed, not_or, not_not] at hx
    rcases st with a | ρ
    · rw [← C20_ad_adjoint_partial so eigh draw hf a circuit (fun g hg => hx.2 g ?_) obs, C20_ad_gpsr so eigh draw hf, key]
      rw [hp.iter] at hg
      obtain ⟨g', hg', e⟩ := List.mem_map.1 hg
      cases e
      exact hg'
    · exact absurd ⟨ρ, rfl⟩ hx.1

theorem uses_mem {names : List String} {x₀ : Fin names.length → ℝ} {gs : List Gate} (h : ∀ g ∈ gs, ∃ s, g.Std n (dictAt names x₀) s) :
    ∀ g ∈ gs, ∀ p, g.Uses p → p ∈ names := by
  intro g hg p hgp
  obtain ⟨s, hs⟩ := h g hg
  obtain ⟨y, hy⟩ := hs.lookup hgp
  by_contra hno
  rw [lookup_none (by rw [Values.keys, dictAt_keys]; exact hno)] at hy
  cases hy

theorem smoothValues_dictAt (k : WithTop ℕ∞) {names : List String} (hnd : names.Nodup) : SmoothValues k (dictAt names) names := by
  intro p hp
  obtain ⟨j, hj, rfl⟩ := List.getElem_of_mem hp
  exact ⟨fun x => x ⟨j, hj⟩, contDiff_apply ℝ ℝ _, fun x => dictAt_lookup hnd x ⟨j, hj⟩⟩

theorem BaseSetting.everywhere {names : List String} (hnd : names.Nodup) {x₀ : Fin names.length → ℝ} {gs : List Gate}
    (h : BaseSetting so n (dictAt names x₀) gs nss st obs Os) (x : Fin names.length → ℝ) :
    BaseSetting so n (dictAt names x) gs nss st obs Os :=
  ⟨h.ne, fun g hg => ((h.std g hg).choose_spec.smooth (smoothValues_dictAt 0 hnd) (uses_mem h.std g hg)).1 x, h.noise, h.on,
    zipValues_numeric hnd (by simp), h.obs_ne, h.fixed⟩

theorem ExactMode.everywhere {mode : DiffMode} {circuit : Op} {names : List String} {x₀ : Fin names.length → ℝ}
    (hm : ExactMode mode (dictAt names x₀) st circuit) (x : Fin names.length → ℝ) : ExactMode mode (dictAt names x) st circuit := by
  rcases hm with hm | ⟨hm, hf⟩ | ⟨hm, hf, hx⟩
  exacts [.inl hm, .inr (.inl ⟨hm, dictAt_flat hf x⟩), .inr (.inr ⟨hm, dictAt_flat hf x, hx⟩)]

/-- **C85** (smoothness): for every circuit of standard gates (with any controls and any noise) and every mode without
shots, the returned expectation values are infinitely often differentiable -- even analytic -- functions of all
parameters together. -/
theorem C85_smooth {mode : DiffMode} {circuit : Op} (hp : circuit.Plain) {names : List String} (hnd : names.Nodup)
    (x₀ : Fin names.length → ℝ) (hm : ExactMode mode (dictAt names x₀) st circuit)
    (h : BaseSetting so n (dictAt names x₀) circuit.gates nss st obs Os) (k : WithTop ℕ∞) :
    ∃ F : (Fin names.length → ℝ) → List ℝ,
      (∀ x, expectation so eigh draw st circuit obs (dictAt names x) mode 0 = .ok (F x)) ∧
      (∀ x, (F x).length = obs.length) ∧ ∀ i, ContDiff ℝ k fun x => (F x).getD i 0 := by
  have hu := uses_mem h.std
  have hsv := smoothValues_dictAt k hnd
  have hset := h.everywhere so hnd
  have hmode := hm.everywhere
  refine ⟨_, fun x => expectation_exact so eigh draw (hmode x) hp (hset x), fun x => by simp [h.fixed.length_eq], fun i => ?_⟩
  simp only [List.getD_eq_getElem?_getD, List.getElem?_map]
  rcases Os[i]? with _ | O
  · simpa using contDiff_const
  · simp only [Option.map_some, Option.getD_some]
    refine EntrySmooth.expVal (noisyRun_smooth _ (fun e he => ?_) (EntrySmooth.const _)) O
    have := (List.of_mem_zip he).1
    exact ((h.std _ this).choose_spec.smooth hsv (hu _ this)).2

/-- **C85** (differential): if `D p` is the list of partial derivatives with respect to `p` -- as GPSR returns it -- for every parameter `p`,
then the differential of the `i`-th expectation value is `Σ_p (D p)_i dp`. -/
theorem C85_differential {mode : DiffMode} {circuit : Op} (hp : circuit.Plain) {names : List String} (hnd : names.Nodup)
    (x : Fin names.length → ℝ) (hm : ExactMode mode (dictAt names x) st circuit)
    (h : BaseSetting so n (dictAt names x) circuit.gates nss st obs Os) {D : String → List ℝ}
    (hD : ∀ p ∈ names, IsPartial (fun v => expectation so eigh draw st circuit obs v mode 0) (dictAt names x) p (D p)) :
    ∃ F : (Fin names.length → ℝ) → List ℝ,
      (∀ y, expectation so eigh draw st circuit obs (dictAt names y) mode 0 = .ok (F y)) ∧
      (∀ y, (F y).length = obs.length) ∧
      ∀ i, HasFDerivAt (fun y => (F y).getD i 0)
        (∑ k : Fin names.length, (D names[k]).getD i 0 • ContinuousLinearMap.proj (R := ℝ) (φ := fun _ : Fin names.length => ℝ) k) x := by
  obtain ⟨F, hF, hlen, hs⟩ := C85_smooth so eigh draw hp hnd x hm h 1
  refine ⟨F, hF, hlen, fun i => ?_⟩
  have hd : DifferentiableAt ℝ (fun y => (F y).getD i 0) x := (hs i).differentiable (by norm_num) x
  have hL : fderiv ℝ (fun y => (F y).getD i 0) x
      = ∑ k : Fin names.length, (D names[k]).getD i 0 • ContinuousLinearMap.proj (R := ℝ) (φ := fun _ : Fin names.length => ℝ) k := by
    refine ContinuousLinearMap.ext fun v => ?_
    have hv : v = ∑ k : Fin names.length, v k • (Pi.single k 1 : Fin names.length → ℝ) := by
      funext j; simp [Finset.sum_apply, Pi.single_apply]
    have key : ∀ k : Fin names.length, fderiv ℝ (fun y => (F y).getD i 0) x (Pi.single k 1) = (D names[k]).getD i 0 := by
      intro k
      obtain ⟨x', f, hx', hf, -, hder⟩ := hD names[k] (List.getElem_mem _)
      rw [dictAt_lookup hnd] at hx'
      obtain rfl : x k = x' := by cases hx'; rfl
      have hfF : ∀ t, f t = F (Function.update x k t) := by
        intro t
        have := hf t
        beta_reduce at this
        rw [dictAt_upd hnd, hF] at this
        exact (Except.ok.inj this).symm
      have h1 : HasDerivAt (fun t => (F (Function.update x k t)).getD i 0) ((D names[k]).getD i 0) (x k) := by
        have := hder i
        simpa only [hfF] using this
      have h2 : HasDerivAt (fun t : ℝ => Function.update x k t) (Pi.single k 1 : Fin names.length → ℝ) (x k) := hasDerivAt_update x k (x k)
      have h3 : HasFDerivAt (fun y => (F y).getD i 0) (fderiv ℝ (fun y => (F y).getD i 0) x) (Function.update x k (x k)) := by
        rw [Function.update_eq_self]; exact hd.hasFDerivAt
      exact (h3.comp_hasDerivAt (x k) h2).unique h1
    conv_lhs => rw [hv]
    rw [map_sum]
    simp only [map_smul, key, ContinuousLinearMap.sum_apply, ContinuousLinearMap.smul_apply, ContinuousLinearMap.proj_apply, smul_eq_mul]
    exact Finset.sum_congr rfl fun k _ => mul_comm _ _
  rw [← hL]
  exact hd.hasFDerivAt

/-- **C85** (descent): if the partial derivatives of the energy are not all zero, every sufficiently small step against them
lowers the energy. -/
theorem C85_descent {mode : DiffMode} {circuit : Op} (hp : circuit.Plain) {names : List String} (hnd : names.Nodup)
    (x : Fin names.length → ℝ) (hm : ExactMode mode (dictAt names x) st circuit) {o : Observable}
    {O : Matrix (Lab n) (Lab n) ℂ}
    (h : BaseSetting so n (dictAt names x) circuit.gates nss st [o] [O]) {D : String → ℝ}
    (hD : ∀ p ∈ names, IsPartial (fun v => expectation so eigh draw st circuit [o] v mode 0) (dictAt names x) p [D p])
    (hne : ∃ p ∈ names, D p ≠ 0) :
    ∃ e η₀ : ℝ, expectation so eigh draw st circuit [o] (dictAt names x) mode 0 = .ok [e] ∧ 0 < η₀ ∧
      ∀ η, 0 < η → η < η₀ → ∃ e', e' < e ∧
        expectation so eigh draw st circuit [o] (dictAt names fun k => x k - η * D names[k]) mode 0 = .ok [e'] := by
  obtain ⟨F, hF, hlen, hder⟩ := C85_differential so eigh draw hp hnd x hm h (D := fun p => [D p]) hD
  have hF1 : ∀ y, F y = [(F y).getD 0 0] := by
    intro y
    obtain ⟨a, ha⟩ := List.length_eq_one_iff.1 (hlen y)
    rw [ha]; rfl
  let line : ℝ → Fin names.length → ℝ := fun η k => x k - η * D names[k]
  have hl : HasDerivAt line (fun k => -D names[k]) 0 := by
    rw [hasDerivAt_pi]
    intro k
    have := ((hasDerivAt_id (0 : ℝ)).mul_const (D names[k])).const_sub (x k)
    simp only [id, one_mul] at this
    exact this
  have hl0 : line 0 = x := by funext k; simp [line]
  have h0 := hder 0
  rw [← hl0] at h0
  have hcomp := h0.comp_hasDerivAt 0 hl
  have hval : (∑ k : Fin names.length, ([D names[k]] : List ℝ).getD 0 0 •
      ContinuousLinearMap.proj (R := ℝ) (φ := fun _ : Fin names.length => ℝ) k) (fun k => -D names[k])
      = -∑ k : Fin names.length, D names[k] ^ 2 := by
    simp only [ContinuousLinearMap.sum_apply, ContinuousLinearMap.smul_apply, ContinuousLinearMap.proj_apply, smul_eq_mul,
      List.getD_cons_zero]
    rw [← Finset.sum_neg_distrib]
    exact Finset.sum_congr rfl fun k _ => by ring
  have hpos : 0 < ∑ k : Fin names.length, D names[k] ^ 2 := by
    obtain ⟨p, hp, hDp⟩ := hne
    obtain ⟨j, hj, rfl⟩ := List.getElem_of_mem hp
    refine Finset.sum_pos' (fun k _ => sq_nonneg _) ⟨⟨j, hj⟩, Finset.mem_univ _, ?_⟩
    exact lt_of_le_of_ne (sq_nonneg _) (Ne.symm (pow_ne_zero 2 hDp))
  have hder0 : HasDerivAt (fun η => (F (line η)).getD 0 0) (-∑ k : Fin names.length, D names[k] ^ 2) 0 := by
    have := hcomp
    rw [hval] at this
    exact this
  have hs := hder0.tendsto_slope_zero_right
  have hev : ∀ᶠ η in nhdsWithin (0 : ℝ) (Set.Ioi 0), η⁻¹ • ((F (line (0 + η))).getD 0 0 - (F (line 0)).getD 0 0) < 0 :=
    hs.eventually (gt_mem_nhds (by linarith))
  rw [eventually_nhdsWithin_iff, Metric.eventually_nhds_iff] at hev
  obtain ⟨η₀, h1, h2⟩ := hev
  refine ⟨(F x).getD 0 0, η₀, by rw [hF, ← hF1], h1, fun η hη hη' => ⟨(F (line η)).getD 0 0, ?_, ?_⟩⟩
  · have := h2 (y := η) (by rw [Real.dist_eq, sub_zero, abs_of_pos hη]; exact hη') hη
    rw [zero_add, hl0, smul_eq_mul] at this
    have h3 := (mul_neg_iff.1 this).resolve_right (fun h => absurd h.1 (not_lt.2 (inv_nonneg.2 hη.le)))
    linarith [h3.2]
  · rw [← hF1]; exact hF _

/-- **C85** (GPSR descent): for the circuits of C23, the list that `analytical_gpsr_bwd` returns is a direction of ascent -- unless it
is zero, every sufficiently small step against it lowers the energy. -/
theorem C85_gpsr_descent {circuit : Op} (hp : circuit.Plain) {names : List String} (hnd : names.Nodup) (hne : names ≠ [])
    (x : Fin names.length → ℝ) {o : Observable} {O : Matrix (Lab n) (Lab n) ℂ}
    (h : Setting so n (dictAt names x) circuit.gates nss st [o] [O]) (hs : SingleUse circuit.gates)
    (hr : ∀ g ∈ circuit.gates, g.Registered) (hro : Op.AllRegistered o.ops) :
    ∃ (e : ℝ) (grad : List ℝ), expectation so eigh draw st circuit [o] (dictAt names x) .gpsr 0 = .ok [e] ∧
      gpsrBwd eigh (jittedExpectation so st [o]) (.list circuit.gates) (dictAt names x) = .ok grad ∧
      grad.length = names.length ∧
      ((∃ d ∈ grad, d ≠ 0) → ∃ η₀ : ℝ, 0 < η₀ ∧ ∀ η, 0 < η → η < η₀ → ∃ e', e' < e ∧
        expectation so eigh draw st circuit [o] (dictAt names fun k => x k - η * grad.getD k 0) .gpsr 0 = .ok [e']) := by
  have hm : ExactMode .gpsr (dictAt names x) st circuit := .inl rfl
  have hk : dictAt names x ≠ [] := by
    intro h0
    have := dictAt_keys names x
    rw [h0] at this
    exact hne this.symm
  obtain ⟨D, hD, hb⟩ := C23_bwd_partial so eigh draw hp h hs hk hr (by simpa using hro)
  rw [dictAt_keys] at hD hb
  obtain ⟨F, hF, hlen, -⟩ := C85_smooth so eigh draw hp hnd x hm h.toBaseSetting 1
  have hD1 : ∀ p ∈ names, D p = [(D p).sum] := by
    intro p hp'
    obtain ⟨j, hj, rfl⟩ := List.getElem_of_mem hp'
    obtain ⟨x', f, -, hf, hl, -⟩ := hD _ hp'
    have h0 := hf 0
    have hu := dictAt_upd hnd x ⟨j, hj⟩ 0
    beta_reduce at h0
    simp only [Fin.getElem_fin] at hu
    rw [hu, hF] at h0
    have h1 : (D names[j]).length = 1 := by
      rw [← hl 0, ← Except.ok.inj h0]
      exact hlen _
    obtain ⟨a, ha⟩ := List.length_eq_one_iff.1 h1
    rw [ha, List.sum_singleton]
  have hget : ∀ k : Fin names.length, (names.map fun p => (D p).sum).getD k 0 = (D names[k]).sum := fun k => by
    simp [List.getD_eq_getElem?_getD]
  obtain ⟨e, he⟩ := List.length_eq_one_iff.1 (hlen x)
  refine ⟨e, _, by rw [hF, he], hb, List.length_map _, fun hne' => ?_⟩
  obtain ⟨e₁, η₀, h1, h2, h3⟩ := C85_descent so eigh draw hp hnd x hm h.toBaseSetting (D := fun p => (D p).sum)
    (fun p hp' => by rw [← hD1 p hp']; exact hD p hp') (by simpa using hne')
  rw [hF, he] at h1
  cases h1
  refine ⟨η₀, h2, fun η h4 h5 => ?_⟩
  simp only [hget]
  exact h3 η h4 h5

/-- Non-vacuity of `C85_smooth`, `C85_differential` and `C85_descent`: two rotations by the same angle `π/4`, whose energy
`cos 2x` has the derivative `-2` there. -/
example : ∃ x : Fin ["a"].length → ℝ, ["a"].Nodup ∧ ExactMode .gpsr (dictAt ["a"] x) (.vec zero1) twiceRX ∧ twiceRX.Plain ∧
    BaseSetting so 1 (dictAt ["a"] x) twiceRX.gates [[], []] (.vec zero1) [obsZ] [gateMat 1 StdGate.Z.mat [0] []] ∧
    (∀ p ∈ ["a"], IsPartial (fun v => expectation so eigh draw (.vec zero1) twiceRX [obsZ] v .gpsr 0) (dictAt ["a"] x) p
      [(fun _ : String => (-2 : ℝ)) p]) := by
  have hv : dictAt ["a"] (fun _ => Real.pi / 4) = [("a", .num (Real.pi / 4))] := by simp [dictAt, zipValues]
  refine ⟨fun _ => Real.pi / 4, by simp, .inl rfl, twiceRX_plain, ?_, ?_⟩
  · rw [hv]
    exact (twiceSetting so ⟨by simp, by simp⟩ rfl).toBaseSetting
  · simp only [List.mem_singleton, forall_eq]
    rw [hv]
    refine ⟨Real.pi / 4, fun t => [Real.cos (2 * t)], rfl, fun t => ?_, fun t => rfl, fun i => ?_⟩
    · exact (expectation_gates so eigh draw twiceRX_plain _).trans (twice_value so rfl)
    · cases i with
      | zero =>
        have h1 : HasDerivAt (fun t : ℝ => 2 * t) (2 * 1) (Real.pi / 4) := (hasDerivAt_id _).const_mul 2
        have h2 := h1.cos
        rw [show 2 * (Real.pi / 4) = Real.pi / 2 by ring, Real.sin_pi_div_two] at h2
        simpa using h2
      | succ i => simpa using hasDerivAt_const (Real.pi / 4) (0 : ℝ)

/-- Non-vacuity of `C85_gpsr_descent`: a noisy circuit with two parameters and an unused value. -/
example : ∃ x : Fin ["a", "b", "c"].length → ℝ, gradCircuit.Plain ∧ ["a", "b", "c"].Nodup ∧
    Setting so 1 (dictAt ["a", "b", "c"] x) gradCircuit.gates [[], [.bitFlip (1 / 4)], []] (.vec zero1) [obsZ]
      [gateMat 1 StdGate.Z.mat [0] []] ∧ SingleUse gradCircuit.gates ∧
    (∀ g ∈ gradCircuit.gates, g.Registered) ∧ Op.AllRegistered obsZ.ops := by
  refine ⟨![1, 2, 3], .seq (.cons (.prim _) (.cons (.prim _) (.cons (.prim _) .nil))), by simp, ?_, ?_, ?_, ?_⟩
  · have hv : dictAt ["a", "b", "c"] ![1, 2, 3] = gradValues := by
      simp [dictAt, zipValues, gradValues, List.ofFn_succ]
    rw [hv]
    exact gradSetting so
  · rw [gradCircuit_gates, SingleUse]
    simp only [List.pairwise_cons, List.mem_cons, List.not_mem_nil, or_false, forall_eq_or_imp, forall_eq]
    simp [Gate.Uses, Gate.RX, Gate.RY, Gate.H, mkGate]
  · rw [gradCircuit_gates]
    simp [Gate.Registered, Gate.RX, Gate.RY, Gate.H, mkGate]
  · exact obsZ_registered _ (by simp)

end Verif
