import Verif.Lemmas.GpsrHigher

/-!
# Property theorems about derivatives of higher order (`jax.hessian` and nested `jax.grad` of the GPSR mode)

C74.  `gpsrNested` applies the custom JVP rule to itself, once per direction; `IterDeriv` says what the derivatives of the
returned expectation values are.
-/

namespace Verif
set_option autoImplicit false
open NDArray
variable {n : ℕ} {values : Values} (so : SetOrder) (eigh : Eigh) (draw : Draw) {gs : List Gate}
  {nss : List (List StdNoise)} {st : State} {obs : List Observable} {Os : List (Matrix (Lab n) (Lab n) ℂ)}

/-- The circuits of C23 (every parameter is used by one gate) or of C24 (a parameter is repeated, every value is used, and
the gates with parameters are rotations). -/
def RuleApplies (keys : List String) (gs : List Gate) : Prop :=
  (SingleUse gs ∧ keys ≠ []) ∨
    (¬ SingleUse gs ∧ (∀ p ∈ keys, ∃ g ∈ gs, g.Uses p) ∧ ∀ g ∈ gs, (∃ p, g.Uses p) → g.Registered)

/-- **C74**: differentiating the GPSR expectation values any number of times, in any directions, gives their exact
derivatives. -/
theorem C74_nested {circuit : Op} (hp : circuit.Plain) (h : Setting so n values circuit.gates nss st obs Os)
    (hd : RuleApplies (values.map Prod.fst) circuit.gates) {fresh : ℕ → ℕ → String} (hf : ∀ m, Function.Injective (fresh m))
    (dirs : List (String → ℝ)) :
    ∃ f g : (String → ℝ) → List ℝ,
      (∀ x, expectation so eigh draw st circuit obs (valuesAt (values.map Prod.fst) x) .gpsr 0 = .ok (f x)) ∧
      (∀ x, gpsrNested eigh fresh (gatesExpectation so st obs) dirs (.list circuit.gates) (valuesAt (values.map Prod.fst) x)
        = .ok (g x)) ∧
      (∀ x, (f x).length = obs.length ∧ (g x).length = obs.length) ∧
      ∀ i, IterDeriv dirs (fun x => (f x).getD i 0) (fun x => (g x).getD i 0) := by
  obtain ⟨G, h1, h2⟩ := Setting.nested eigh hf dirs.length (values.map Prod.fst) circuit.gates dirs rfl h.numeric.nodup h.at hd
  have hl := h.fixed.length_eq
  refine ⟨fun x => Os.map fun O => expAt n (values.map Prod.fst) circuit.gates nss st O x, fun x => Os.map fun O => G O x,
    fun x => ?_, h1, fun x => ⟨by simp [hl], by simp [hl]⟩, fun i => ?_⟩
  · rw [expectation_gates so eigh draw hp]
    exact (h.at x).eval_self
  · by_cases hi : i < Os.length
    · simpa only [List.getD_eq_getElem?_getD, List.getElem?_map, List.getElem?_eq_getElem hi, Option.map_some,
        Option.getD_some] using h2 Os[i]
    · simpa only [List.getD_eq_getElem?_getD, List.getElem?_map, List.getElem?_eq_none (not_lt.1 hi), Option.map_none,
        Option.getD_none] using IterDeriv.const dirs

/-- The direction of one parameter. -/
def unitDir (p : String) : String → ℝ := fun q => if q = p then 1 else 0

theorem hasDerivAt_unit {f : (String → ℝ) → ℝ} {d : ℝ} {p : String} {x : String → ℝ}
    (h : HasDerivAt (fun ε : ℝ => f fun q => x q + ε * unitDir p q) d 0) :
    HasDerivAt (fun y => f (Function.update x p y)) d (x p) := by
  have h' : HasDerivAt (fun ε : ℝ => f fun q => x q + ε * unitDir p q) d (x p - x p) := by rwa [sub_self]
  have := h'.comp_sub_const (x p) (x p)
  refine this.congr_of_eventuallyEq (Filter.Eventually.of_forall fun y => ?_)
  refine congrArg f (funext fun q => ?_)
  by_cases hq : q = p
  · subst hq; simp [unitDir]
  · simp [unitDir, hq]

/-- **C74** (Hessian): the second derivatives are the partial derivatives of the partial derivatives, and the matrix that
they form is symmetric. -/
theorem C74_hessian {circuit : Op} (hp : circuit.Plain) (h : Setting so n values circuit.gates nss st obs Os)
    (hd : RuleApplies (values.map Prod.fst) circuit.gates) {fresh : ℕ → ℕ → String} (hf : ∀ m, Function.Injective (fresh m)) :
    ∃ (f : (String → ℝ) → List ℝ) (D : String → (String → ℝ) → ℕ → ℝ) (H : String → String → (String → ℝ) → List ℝ),
      (∀ x, expectation so eigh draw st circuit obs (valuesAt (values.map Prod.fst) x) .gpsr 0 = .ok (f x)) ∧
      (∀ p x i, HasDerivAt (fun y => (f (Function.update x p y)).getD i 0) (D p x i) (x p)) ∧
      (∀ p q x i, HasDerivAt (fun y => D p (Function.update x q y) i) ((H p q x).getD i 0) (x q)) ∧
      (∀ p q x, gpsrNested eigh fresh (gatesExpectation so st obs) [unitDir p, unitDir q] (.list circuit.gates)
        (valuesAt (values.map Prod.fst) x) = .ok (H p q x)) ∧
      ∀ p q x, H p q x = H q p x := by
  have key := fun p q => Setting.nested eigh hf 2 (values.map Prod.fst) circuit.gates [unitDir p, unitDir q] rfl
    h.numeric.nodup h.at hd
  choose H h1 h2 using key
  have h2' : ∀ p q O, ∃ f' : (String → ℝ) → ℝ,
      (∀ x, HasDerivAt (fun ε : ℝ => expAt n (values.map Prod.fst) circuit.gates nss st O fun i => x i + ε * unitDir p i) (f' x) 0) ∧
      ∀ x, HasDerivAt (fun ε : ℝ => f' fun i => x i + ε * unitDir q i) (H p q O x) 0 := by
    intro p q O
    obtain ⟨f', e1, f'', e2, e3⟩ := h2 p q O
    exact ⟨f', e1, fun x => by rw [e3 x]; exact e2 x⟩
  have hD : ∀ p O, ∃ f' : (String → ℝ) → ℝ, ∀ x, HasDerivAt
      (fun ε : ℝ => expAt n (values.map Prod.fst) circuit.gates nss st O fun i => x i + ε * unitDir p i) (f' x) 0 :=
    fun p O => ⟨_, (h2' p p O).choose_spec.1⟩
  choose D hD using hD
  refine ⟨fun x => Os.map fun O => expAt n (values.map Prod.fst) circuit.gates nss st O x,
    fun p x i => (Os.map fun O => D p O x).getD i 0, fun p q x => Os.map fun O => H p q O x, fun x => ?_, fun p x i => ?_,
    fun p q x i => ?_, h1, fun p q x => ?_⟩
  · rw [expectation_gates so eigh draw hp]
    exact (h.at x).eval_self
  · by_cases hi : i < Os.length
    · simp only [List.getD_eq_getElem?_getD, List.getElem?_map, List.getElem?_eq_getElem hi, Option.map_some, Option.getD_some]
      exact hasDerivAt_unit (hD p Os[i] x)
    · simp only [List.getD_eq_getElem?_getD, List.getElem?_map, List.getElem?_eq_none (not_lt.1 hi), Option.map_none, Option.getD_none]
      exact hasDerivAt_const _ _
  · by_cases hi : i < Os.length
    · simp only [List.getD_eq_getElem?_getD, List.getElem?_map, List.getElem?_eq_getElem hi, Option.map_some, Option.getD_some]
      obtain ⟨f', e1, e2⟩ := h2' p q Os[i]
      obtain rfl : f' = D p Os[i] := funext fun x => (e1 x).unique (hD p Os[i] x)
      exact hasDerivAt_unit (e2 x)
    · simp only [List.getD_eq_getElem?_getD, List.getElem?_map, List.getElem?_eq_none (not_lt.1 hi), Option.map_none, Option.getD_none]
      exact hasDerivAt_const _ _
  · refine List.map_congr_left fun O _ => ?_
    obtain ⟨g, g1, g2⟩ := Setting.iter_symm h.numeric.nodup h.at hd O (unitDir p) (unitDir q)
    rw [(h2 p q O).unique g1, (h2 q p O).unique g2]

/-- Non-vacuity of `C74_nested` and `C74_hessian`: the circuits of the examples of C23 and C24. -/
example : Setting so 1 gradValues gradCircuit.gates [[], [.bitFlip (1 / 4)], []] (.vec zero1) [obsZ] [gateMat 1 StdGate.Z.mat [0] []] ∧
    RuleApplies (gradValues.map Prod.fst) gradCircuit.gates ∧
    Setting so 1 [("a", .num 1)] twiceRX.gates [[], []] (.vec zero1) [obsZ] [gateMat 1 StdGate.Z.mat [0] []] ∧
    RuleApplies ["a"] twiceRX.gates := by
  refine ⟨gradSetting so, .inl ⟨?_, by simp [gradValues]⟩, twiceSetting so ⟨by simp, by simp⟩ rfl,
    .inr ⟨twice_not_single, ?_, fun g hg _ => twice_registered g hg⟩⟩
  · rw [gradCircuit_gates, SingleUse]
    simp [Gate.Uses, Gate.RX, Gate.RY, Gate.H, mkGate]
  · intro p hp
    obtain rfl : p = "a" := by simpa using hp
    exact ⟨Gate.RX (.str "a") (.int 0), by simp [twiceRX_gates], rfl⟩

/-- The second derivative of `⟨Z⟩ = cos 2x` of `[RX("a", 0), RX("a", 0)]` is reported as `-4 cos 2x`. -/
example {fresh : ℕ → ℕ → String} (hf : ∀ m, Function.Injective (fresh m)) (x : ℝ) :
    gpsrNested eigh fresh (gatesExpectation so (.vec zero1) [obsZ]) [unitDir "a", unitDir "a"] (.list twiceRX.gates) [("a", .num x)]
      = .ok [-4 * Real.cos (2 * x)] := by
  have hd : RuleApplies ["a"] twiceRX.gates := .inr ⟨twice_not_single, fun p hp => by
    obtain rfl : p = "a" := by simpa using hp
    exact ⟨Gate.RX (.str "a") (.int 0), by simp [twiceRX_gates], rfl⟩, fun g hg _ => twice_registered g hg⟩
  obtain ⟨f, g, h1, h2, h3, h4⟩ := C74_nested (values := [("a", .num x)]) so eigh draw twiceRX_plain
    (twiceSetting so ⟨by simp, by simp⟩ rfl) hd hf [unitDir "a", unitDir "a"]
  have hfx : ∀ y, f y = [Real.cos (2 * y "a")] := by
    intro y
    have := (h1 y).symm.trans ((expectation_gates so eigh draw twiceRX_plain _).trans (twice_value so (x := y "a") rfl))
    exact Except.ok.inj this
  have hcos : ∀ (c : ℝ) (z : String → ℝ), HasDerivAt (fun ε : ℝ => c * Real.cos (2 * (z "a" + ε * unitDir "a" "a")))
      (c * (-Real.sin (2 * z "a") * 2)) 0 := by
    intro c z
    have hl : HasDerivAt (fun ε : ℝ => 2 * (z "a" + ε * unitDir "a" "a")) 2 0 := by
      simpa [unitDir] using (((hasDerivAt_id (0 : ℝ)).mul_const (unitDir "a" "a")).const_add (z "a")).const_mul 2
    simpa using (hl.cos).const_mul c
  have hsin : ∀ (c : ℝ) (z : String → ℝ), HasDerivAt (fun ε : ℝ => c * Real.sin (2 * (z "a" + ε * unitDir "a" "a")))
      (c * (Real.cos (2 * z "a") * 2)) 0 := by
    intro c z
    have hl : HasDerivAt (fun ε : ℝ => 2 * (z "a" + ε * unitDir "a" "a")) 2 0 := by
      simpa [unitDir] using (((hasDerivAt_id (0 : ℝ)).mul_const (unitDir "a" "a")).const_add (z "a")).const_mul 2
    simpa using (hl.sin).const_mul c
  have hi : IterDeriv [unitDir "a", unitDir "a"] (fun y => (f y).getD 0 0) fun y => -4 * Real.cos (2 * y "a") := by
    refine ⟨fun y => -2 * Real.sin (2 * y "a"), fun y => ?_, fun y => -4 * Real.cos (2 * y "a"), fun y => ?_, fun y => rfl⟩
    · simp only [hfx, List.getD_cons_zero]
      have := hcos 1 y
      simp only [one_mul] at this
      exact this.congr_deriv (by ring)
    · exact (hsin (-2) y).congr_deriv (by ring)
  have hg := congrFun ((h4 0).unique hi) fun _ => x
  have hlen := (h3 fun _ => x).2
  have := h2 fun _ => x
  obtain ⟨a, ha⟩ := List.length_eq_one_iff.1 (hlen.trans rfl)
  rw [ha] at hg this
  simp only [List.getD_cons_zero] at hg
  rw [← hg]
  exact this

end Verif
