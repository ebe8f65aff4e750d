import Verif.Lemmas.Spectrum
import Verif.Props.GpsrControlled
import Verif.Props.ExpectModes

/-!
# Property theorems about expectation values as functions of one parameter

C75.  In a parameter used by `m` rotations without controls, the returned expectation values are trigonometric polynomials of
degree at most `m`; with controls, they are trigonometric polynomials of degree at most `2m` in half the parameter.
-/

namespace Verif
set_option autoImplicit false
open NDArray
variable {n : ℕ} {values : Values} (so : SetOrder) (eigh : Eigh) (draw : Draw) {gs : List Gate}
  {nss : List (List StdNoise)} {st : State} {obs : List Observable} {Os : List (Matrix (Lab n) (Lab n) ℂ)}

theorem Values.Flat.upd {values : Values} (h : values.Flat) (p : String) (x : ℝ) : (values.upd p x).Flat := by
  have key : ∀ k, values.lookup k = none → (values.upd p x).lookup k = none := by
    intro k hk
    rw [List.lookup_eq_none_iff] at hk ⊢
    intro e he
    obtain ⟨e', he', rfl⟩ := List.mem_map.1 he
    have := hk e' he'
    split_ifs with h1
    · rw [← h1]; exact this
    · exact this
  exact h.imp (key _) (key _)

/-- `GPSR`; `AD` with values that are not split into `circuit` and `observables`; or `ADJOINT` with such values, for a state
vector and gates without noise. -/
def ExactMode (mode : DiffMode) (values : Values) (st : State) (circuit : Op) : Prop :=
  mode = .gpsr ∨ mode = .ad ∧ values.Flat ∨ mode = .adjoint ∧ values.Flat ∧ ¬ Mixed st circuit.gates

theorem expectation_valuesOf {mode : DiffMode} {circuit : Op} (hm : ExactMode mode values st circuit) (hp : circuit.Plain)
    (h : BaseSetting so n values circuit.gates nss st obs Os) (p : String) (x : ℝ) :
    expectation so eigh draw st circuit obs (values.upd p x) mode 0 = .ok (valuesOf n values circuit.gates nss st Os p x) := by
  have : expectation so eigh draw st circuit obs (values.upd p x) .gpsr 0 = .ok (valuesOf n values circuit.gates nss st Os p x) := by
    rw [expectation_gates so eigh draw hp, h.eval]; rfl
  rcases hm with rfl | ⟨rfl, hf⟩ | ⟨rfl, hf, hx⟩
  · exact this
  · rw [C20_ad_gpsr so eigh draw (hf.upd p x), this]
  · simp only [Mixed, not_or, not_not] at hx
    rcases st with a | ρ
    · rw [← C20_ad_adjoint_partial so eigh draw (hf.upd p x) a circuit (fun g hg => hx.2 g ?_) obs,
        C20_ad_gpsr so eigh draw (hf.upd p x), this]
      rw [hp.iter] at hg
      obtain ⟨g', hg', e⟩ := List.mem_map.1 hg
      cases e
      exact hg'
    · exact absurd ⟨ρ, rfl⟩ hx.1

/-- **C75**: for every circuit whose gates with a parameter name have no controls (except `PHASE` gates), every parameter
`p`, and every mode without shots (`ADJOINT`: for noiseless runs): as a function of the value of `p`, every returned expectation value is a
trigonometric polynomial whose degree is at most the number of gates that use `p`. -/
theorem C75_trig {mode : DiffMode} {circuit : Op} (hm : ExactMode mode values st circuit) (hp : circuit.Plain)
    (h : Setting so n values circuit.gates nss st obs Os) (p : String) :
    ∃ f : ℝ → List ℝ, (∀ x, expectation so eigh draw st circuit obs (values.upd p x) mode 0 = .ok (f x)) ∧
      (∀ x, (f x).length = obs.length) ∧ ∀ i, TrigPoly (numUses circuit.gates p) fun x => (f x).getD i 0 :=
  ⟨valuesOf n values circuit.gates nss st Os p, expectation_valuesOf so eigh draw hm hp h.toBaseSetting p,
    fun x => by simp [valuesOf, h.fixed.length_eq], h.trig p⟩

/-- **C75** (with controls): without the restriction on controls, the expectation values are trigonometric polynomials in
half the value of `p`, of degree at most twice the number of gates that use `p`. -/
theorem C75_half {mode : DiffMode} {circuit : Op} (hm : ExactMode mode values st circuit) (hp : circuit.Plain)
    (h : BaseSetting so n values circuit.gates nss st obs Os) (p : String) :
    ∃ f : ℝ → List ℝ, (∀ x, expectation so eigh draw st circuit obs (values.upd p x) mode 0 = .ok (f x)) ∧
      (∀ x, (f x).length = obs.length) ∧ ∀ i, TrigPoly (2 * numUses circuit.gates p) fun y => (f (2 * y)).getD i 0 :=
  ⟨valuesOf n values circuit.gates nss st Os p, expectation_valuesOf so eigh draw hm hp h p,
    fun x => by simp [valuesOf, h.fixed.length_eq], h.trig p⟩

/-- **C75** (period): adding `2π` to a parameter of gates without controls changes nothing. -/
theorem C75_periodic {mode : DiffMode} {circuit : Op} (hm : ExactMode mode values st circuit) (hp : circuit.Plain)
    (h : Setting so n values circuit.gates nss st obs Os) (p : String) (x : ℝ) :
    expectation so eigh draw st circuit obs (values.upd p (x + 2 * Real.pi)) mode 0
      = expectation so eigh draw st circuit obs (values.upd p x) mode 0 := by
  obtain ⟨f, h1, h2, h3⟩ := C75_trig so eigh draw hm hp h p
  rw [h1, h1]
  refine congrArg Except.ok (List.ext_getElem (by rw [h2, h2]) fun i hi hi' => ?_)
  have := (h3 i).periodic x
  simpa [List.getD_eq_getElem?_getD, hi, hi'] using this

/-- **C75** (period, with controls): adding `4π` to a parameter changes nothing. -/
theorem C75_periodic_four_pi {mode : DiffMode} {circuit : Op} (hm : ExactMode mode values st circuit)
    (hp : circuit.Plain) (h : BaseSetting so n values circuit.gates nss st obs Os) (p : String) (x : ℝ) :
    expectation so eigh draw st circuit obs (values.upd p (x + 4 * Real.pi)) mode 0
      = expectation so eigh draw st circuit obs (values.upd p x) mode 0 := by
  obtain ⟨f, h1, h2, h3⟩ := C75_half so eigh draw hm hp h p
  rw [h1, h1]
  refine congrArg Except.ok (List.ext_getElem (by rw [h2, h2]) fun i hi hi' => ?_)
  have := (h3 i).periodic (x / 2)
  rw [show 2 * (x / 2 + 2 * Real.pi) = x + 4 * Real.pi by ring, show 2 * (x / 2) = x by ring] at this
  simpa [List.getD_eq_getElem?_getD, hi, hi'] using this

/-- **C75** (`4π` is needed): the expectation value of `[RX("a", 1, control=0)]` on `(|00⟩ + |10⟩)/√2` with the observable
`X(0)` changes from `1` to `-1` when `2π` is added to `a = 0`. -/
theorem C75_controlled_not_periodic :
    BaseSetting so 2 [("a", .num 0)] ctlRX.gates [[]] (.vec plusZero) [obsX0] [gateMat 2 StdGate.X.mat [0] []] ∧
    expectation so eigh draw (.vec plusZero) ctlRX [obsX0] [("a", .num 0)] .gpsr 0 = .ok [1] ∧
    expectation so eigh draw (.vec plusZero) ctlRX [obsX0] [("a", .num (0 + 2 * Real.pi))] .gpsr 0 = .ok [-1] := by
  refine ⟨ctlSetting so ⟨by simp, by simp⟩ rfl, ?_, ?_⟩
  · rw [expectation_gates so eigh draw ctlRX_plain, ctlRX_value so rfl]; simp
  · rw [expectation_gates so eigh draw ctlRX_plain, ctlRX_value so rfl, zero_add, mul_div_cancel_left₀ _ two_ne_zero, Real.cos_pi]

/-- **C75** (finitely many evaluations suffice): if two expectation values (of two circuits, states and observables) agree at
`2m + 1` values of `p` in `[0, 2π)`, where `m` bounds the number of gates that use `p` in both circuits, they agree for
all values of `p`. -/
theorem C75_determined {n' : ℕ} {values' : Values} {nss' : List (List StdNoise)} {st' : State} {obs' : List Observable}
    {Os' : List (Matrix (Lab n') (Lab n') ℂ)} {mode mode' : DiffMode} {circuit circuit' : Op}
    (hm : ExactMode mode values st circuit) (hm' : ExactMode mode' values' st' circuit') (hp : circuit.Plain) (hp' : circuit'.Plain)
    (h : Setting so n values circuit.gates nss st obs Os) (h' : Setting so n' values' circuit'.gates nss' st' obs' Os')
    (p : String) {m : ℕ} (hu : numUses circuit.gates p ≤ m) (hu' : numUses circuit'.gates p ≤ m) {s : Finset ℝ}
    (hs : 2 * m < s.card) (hi : ∀ x ∈ s, 0 ≤ x ∧ x < 2 * Real.pi)
    (he : ∀ x ∈ s, expectation so eigh draw st circuit obs (values.upd p x) mode 0
      = expectation so eigh draw st' circuit' obs' (values'.upd p x) mode' 0) (x : ℝ) :
    expectation so eigh draw st circuit obs (values.upd p x) mode 0
      = expectation so eigh draw st' circuit' obs' (values'.upd p x) mode' 0 := by
  obtain ⟨f, h1, h2, h3⟩ := C75_trig so eigh draw hm hp h p
  obtain ⟨f', h1', h2', h3'⟩ := C75_trig so eigh draw hm' hp' h' p
  have he' : ∀ x ∈ s, f x = f' x := fun x hx => by
    have := he x hx
    rw [h1, h1'] at this
    exact Except.ok.inj this
  have hl : obs.length = obs'.length := by
    obtain ⟨y, hy⟩ := Finset.card_pos.1 (show 0 < s.card by omega)
    rw [← h2 y, ← h2' y, he' y hy]
  rw [h1, h1']
  refine congrArg Except.ok (List.ext_getElem (by rw [h2, h2', hl]) fun i hi1 hi2 => ?_)
  have := (((h3 i).mono hu).sub ((h3' i).mono hu')).eq_zero hs hi (fun y hy => by rw [he' y hy, sub_self]) x
  simpa [List.getD_eq_getElem?_getD, hi1, hi2, sub_eq_zero] using this

/-- **C75** (feature maps, docs/dqc.md:67): with the feature map `[RX(p, i) for i in range(k)]` in front of gates that do
not use `p`, the expectation values are trigonometric polynomials of degree at most `k` in `p`. -/
theorem C75_feature_map {mode : DiffMode} {circuit : Op} (hm : ExactMode mode values st circuit) (hp : circuit.Plain)
    (p : String) (k : ℕ) {ansatz : List Gate}
    (hg : circuit.gates = (List.range k).map (fun i => Gate.RX (.str p) (.int i)) ++ ansatz) (ha : ∀ g ∈ ansatz, ¬ g.Uses p)
    (h : Setting so n values circuit.gates nss st obs Os) :
    ∃ f : ℝ → List ℝ, (∀ x, expectation so eigh draw st circuit obs (values.upd p x) mode 0 = .ok (f x)) ∧
      (∀ x, (f x).length = obs.length) ∧ ∀ i, TrigPoly k fun x => (f x).getD i 0 := by
  have hu : numUses circuit.gates p ≤ k := by
    have e : numUses ansatz p = 0 := by
      rw [numUses, List.countP_eq_zero]
      simpa using ha
    rw [hg, numUses, List.countP_append, ← numUses, ← numUses, e, add_zero]
    exact List.countP_le_length.trans (by simp)
  obtain ⟨f, h1, h2, h3⟩ := C75_trig so eigh draw hm hp h p
  exact ⟨f, h1, h2, fun i => (h3 i).mono hu⟩

/-- Non-vacuity of `C75_trig`, `C75_periodic` and `C75_determined`: the circuits of the examples of C23 and C24; the second
uses its parameter twice. -/
example : gradCircuit.Plain ∧ Setting so 1 gradValues gradCircuit.gates [[], [.bitFlip (1 / 4)], []] (.vec zero1) [obsZ]
      [gateMat 1 StdGate.Z.mat [0] []] ∧ ExactMode .ad gradValues (.vec zero1) gradCircuit ∧
    ExactMode .adjoint [("a", .num 1)] (.vec zero1) twiceRX ∧
    twiceRX.Plain ∧ Setting so 1 [("a", .num 1)] twiceRX.gates [[], []] (.vec zero1) [obsZ] [gateMat 1 StdGate.Z.mat [0] []] ∧
    numUses twiceRX.gates "a" = 2 := by
  refine ⟨.seq (.cons (.prim _) (.cons (.prim _) (.cons (.prim _) .nil))), gradSetting so,
    .inr (.inl ⟨rfl, .inl rfl⟩), .inr (.inr ⟨rfl, .inl rfl, ?_⟩), twiceRX_plain,
    twiceSetting so ⟨by simp, by simp⟩ rfl, ?_⟩
  · simp [Mixed, twiceRX_gates, Gate.RX, mkGate]
  · simp [numUses, twiceRX_gates, Gate.Uses, Gate.RX, mkGate]

/-- The points of `C75_determined` exist: for instance `0, 1/2, 1, 3/2, 2` for `m = 2`. -/
example : ∃ s : Finset ℝ, 2 * 2 < s.card ∧ ∀ x ∈ s, 0 ≤ x ∧ x < 2 * Real.pi := by
  refine ⟨(Finset.range 5).map ⟨fun k : ℕ => (k : ℝ) / 2, fun a b h => by simpa using h⟩, by simp, fun x hx => ?_⟩
  obtain ⟨k, hk, rfl⟩ := Finset.mem_map.1 hx
  rw [Finset.mem_range] at hk
  have h1 : (k : ℝ) ≤ 4 := by exact_mod_cast Nat.lt_succ_iff.1 hk
  have h2 := Real.two_le_pi
  exact ⟨by change 0 ≤ (k : ℝ) / 2; positivity, by change (k : ℝ) / 2 < _; linarith⟩

/-- The degree bound is attained: `⟨Z⟩ = cos 2x` of `[RX("a", 0), RX("a", 0)]` is not a trigonometric polynomial of
degree `1`. -/
example : ∃ f : ℝ → List ℝ,
    (∀ x, expectation so eigh draw (.vec zero1) twiceRX [obsZ] [("a", .num x)] .gpsr 0 = .ok (f x)) ∧
    ¬ TrigPoly 1 fun x => (f x).getD 0 0 := by
  refine ⟨fun x => [Real.cos (2 * x)], fun x => (expectation_gates so eigh draw twiceRX_plain _).trans (twice_value so rfl), ?_⟩
  rintro ⟨a, b, h⟩
  simp only [List.getD_cons_zero, Finset.sum_range_succ, Finset.range_zero, Finset.sum_empty, Nat.cast_zero, zero_mul,
    Real.cos_zero, Real.sin_zero, Nat.cast_one, one_mul, mul_one, mul_zero, zero_add, add_zero] at h
  have h0 := h 0
  have h1 := h Real.pi
  have h2 := h (Real.pi / 2)
  have h3 := h (-(Real.pi / 2))
  rw [mul_zero, Real.cos_zero, Real.sin_zero] at h0
  rw [Real.cos_two_pi, Real.cos_pi, Real.sin_pi] at h1
  rw [mul_div_cancel₀ _ two_ne_zero, Real.cos_pi, Real.cos_pi_div_two, Real.sin_pi_div_two] at h2
  rw [mul_neg, mul_div_cancel₀ _ two_ne_zero, Real.cos_neg, Real.cos_neg, Real.sin_neg, Real.cos_pi, Real.cos_pi_div_two,
    Real.sin_pi_div_two] at h3
  linarith

/-- Non-vacuity of `C75_feature_map`: one rotation as feature map, and the rest of `gradCircuit` as ansatz. -/
example : ∃ ansatz, gradCircuit.gates = (List.range 1).map (fun i => Gate.RX (.str "a") (.int i)) ++ ansatz ∧
    ansatz ≠ [] ∧ ∀ g ∈ ansatz, ¬ g.Uses "a" := by
  rw [gradCircuit_gates]
  refine ⟨_, rfl, by simp, ?_⟩
  simp [Gate.Uses, Gate.RY, Gate.H, mkGate]

end Verif
