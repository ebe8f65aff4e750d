import Mathlib.Analysis.SpecialFunctions.Trigonometric.Bounds
import Verif.Lemmas.GpsrHamJvp
import Verif.Props.GpsrPhase
import Verif.Props.GpsrShots

/-!
# The parameter-shift gradients of circuits with Hamiltonian evolutions (C65)

The documentation says that such circuits are not supported (docs/differentiation.md:23).  The JVPs refuse them; the
backward pass returns numbers.
-/

namespace Verif
set_option autoImplicit false
open NDArray
variable {n : ℕ} {values : Values} (so : SetOrder) (eigh : Eigh) (draw : Draw) {st : State} {obs : List Observable}

/-! ## The JVPs -/

/-- **C65** (JVP): the JVP of `analytical_gpsr_fwd` never returns a gradient for a circuit with a Hamiltonian evolution,
whatever the other gates, the state, the observables and the values. -/
theorem C65_jvp_refused {gates : GateArg} (he : gates.Evolves) (fresh : ℕ → String) (values : Values) (ts : List ℝ) :
    ∃ e, gpsrJvp eigh fresh (gatesExpectation so st obs) gates values ts = .error e := by
  rcases h : gpsrJvp eigh fresh (gatesExpectation so st obs) gates values ts with e | r
  · exact ⟨e, rfl⟩
  · exact absurd h (gpsrJvp_evolution (gatesExpectation_needs so st obs) eigh fresh he values ts r)

/-- **C65** (JVP): if all other gates are standard gates and the forward pass succeeds, it is an error that Python
raises (not only one of the model). -/
theorem C65_jvp_raises {gates : GateArg} (he : gates.Evolves) (fresh : ℕ → String) (ts : List ℝ) {fwd : List ℝ}
    (hf : gatesExpectation so st obs gates values = .ok fwd)
    (hg : ∀ gs, gates = .list gs → ∀ g ∈ gs, (∃ s, g.Is values s) ∨ ∃ tg c, g = Gate.HamiltonianEvolution tg c) :
    ∃ e, e ≠ .unsupported ∧ gpsrJvp eigh fresh (gatesExpectation so st obs) gates values ts = .error e :=
  raises_of (gpsrJvp_evolution (gatesExpectation_needs so st obs) eigh fresh he values ts)
    (gpsrJvp_modelled (gatesExpectation_needs so st obs) eigh fresh he values ts hf hg)

/-- **C65** (JVP with shots): the same for `finite_shots_fwd`, whatever the numbers drawn. -/
theorem C65_shots_jvp_refused {κ : Type} (split : κ → ℕ → ℕ → κ) (us : κ → List ℝ) {gates : GateArg} (he : gates.Evolves)
    (fresh : ℕ → String) (values : Values) (ts : List ℝ) (key : κ) :
    ∃ e, shotsJvp eigh fresh split (fun k => finiteShotsGates so eigh st obs (us k)) gates values ts key = .error e := by
  rcases h : shotsJvp eigh fresh split (fun k => finiteShotsGates so eigh st obs (us k)) gates values ts key with e | r
  · exact ⟨e, rfl⟩
  · exact absurd h (shotsJvp_evolution (fun k => finiteShots_needs so eigh st obs (us k)) split eigh fresh he values ts key r)

/-- **C65** (JVP with shots): and it is an error that Python raises. -/
theorem C65_shots_jvp_raises {κ : Type} (split : κ → ℕ → ℕ → κ) (us : κ → List ℝ) {gates : GateArg} (he : gates.Evolves)
    (fresh : ℕ → String) (ts : List ℝ) (key : κ) {fwd : List ℝ}
    (hf : finiteShotsGates so eigh st obs (us key) gates values = .ok fwd)
    (hg : ∀ gs, gates = .list gs → ∀ g ∈ gs, (∃ s, g.Is values s) ∨ ∃ tg c, g = Gate.HamiltonianEvolution tg c) :
    ∃ e, e ≠ .unsupported ∧
      shotsJvp eigh fresh split (fun k => finiteShotsGates so eigh st obs (us k)) gates values ts key = .error e :=
  raises_of (shotsJvp_evolution (fun k => finiteShots_needs so eigh st obs (us k)) split eigh fresh he values ts key)
    (shotsJvp_modelled (F := fun k => finiteShotsGates so eigh st obs (us k))
      (fun k => finiteShots_needs so eigh st obs (us k)) split eigh fresh he values ts key hf hg)

/-! ## The backward pass -/

section
variable {H : NDArray ℂ} {t : ℝ} {l₁ : List Gate} {tg : TArg} {l₂ : List Gate} {ns₁ ns₂ : List (List StdNoise)}
  {Os : List (Matrix (Lab n) (Lab n) ℂ)}

/-- The value that the backward pass reports for a parameter. -/
def Reports (r : Py (List ℝ)) (values : Values) (p : String) (x : ℝ) : Prop :=
  ∃ f : String → ℝ, r = .ok ((values.map Prod.fst).map f) ∧ f p = x

theorem evo_bwd {circuit : Op} (hg : circuit.gates = evoGates l₁ tg l₂)
    (h : EvoSetting so n values H t l₁ tg l₂ ns₁ ns₂ st obs Os)
    (hle : (extractGateNames (l₁ ++ l₂)).length ≤ values.length) (hr : ∀ g ∈ l₁ ++ l₂, g.Registered)
    (hro : ∀ o ∈ obs, Op.AllRegistered o.ops) :
    ∃ r : String → List ℝ, gpsrBwd eigh (jittedExpectation so st obs) (.list circuit.gates) values
        = .ok ((values.map Prod.fst).map fun p => (r p).sum) ∧
      ∀ p ∈ values.map Prod.fst, jvpComponent (gatesExpectation so st obs) (.list (evoGates l₁ tg l₂)) values p = .ok (r p) := by
  have hrow : ∀ p ∈ values.keys, ∃ r, jvpComponent (gatesExpectation so st obs) (.list (evoGates l₁ tg l₂)) values p = .ok r := by
    intro p hp
    by_cases h1 : p = "hamiltonian"
    · subst h1; exact h.ham_row
    · by_cases h2 : p = "time_evolution"
      · subst h2; exact ⟨_, row_eq h.vals.time h.eval_time⟩
      · exact ⟨_, row_eq (h.real hp h1) (h.eval_other h1 h2)⟩
  have hR : ∀ g ∈ evoGates l₁ tg l₂, g.Registered := by
    intro g hg
    rcases List.mem_append.1 hg with hg | hg
    · exact hr g (by simp [hg])
    · rcases List.mem_cons.1 hg with rfl | hg
      · rfl
      · exact hr g (by simp [hg])
  classical
  choose r hr' using fun p : {p // p ∈ values.keys} => hrow p.1 p.2
  refine ⟨fun p => if hp : p ∈ values.keys then r ⟨p, hp⟩ else [], ?_, fun p hp => ?_⟩
  · rw [hg]
    refine bwd_rows eigh (by rw [evo_names]; simpa [Values.keys] using hle) ?_ fun p hp => ?_
    · rintro rfl
      have := h.vals.ham
      cases this
    · rw [dif_pos hp, ← hr' ⟨p, hp⟩]
      exact jvpComponent_congr (fun v => jittedExpectation_eq so v hR hro) p
  · beta_reduce
    rw [dif_pos (show p ∈ values.keys from hp)]
    exact hr' ⟨p, hp⟩

theorem sum_half_sub {α : Type} (l : List α) (f g : α → ℝ) :
    (l.map fun a => (f a - g a) / 2).sum = ((l.map f).sum - (l.map g).sum) / 2 := by
  induction l with
  | nil => simp
  | cons a l ih => simp only [List.map_cons, List.sum_cons, ih]; ring

/-- **C65** (backward pass, every Hamiltonian): what `analytical_gpsr_bwd` reports as the derivative with respect to the
evolution time `t` is half the difference of the expectation values at `t + π/2` and `t - π/2`. -/
theorem C65_bwd_difference {circuit : Op} (hp : circuit.Plain) (hg : circuit.gates = evoGates l₁ tg l₂)
    (h : EvoSetting so n values H t l₁ tg l₂ ns₁ ns₂ st obs Os)
    (hle : (extractGateNames (l₁ ++ l₂)).length ≤ values.length) (hr : ∀ g ∈ l₁ ++ l₂, g.Registered)
    (hro : ∀ o ∈ obs, Op.AllRegistered o.ops) :
    ∃ f : ℝ → List ℝ,
      (∀ x, expectation so eigh draw st circuit obs (values.upd "time_evolution" x) .gpsr 0 = .ok (f x)) ∧
      Reports (gpsrBwd eigh (jittedExpectation so st obs) (.list circuit.gates) values) values "time_evolution"
        (((f (t + Real.pi / 2)).sum - (f (t - Real.pi / 2)).sum) / 2) := by
  refine ⟨_, fun x => by simp only [expectation_gates so eigh draw hp, hg]; exact h.eval_time x, ?_⟩
  obtain ⟨r, h3, h4⟩ := evo_bwd so eigh hg h hle hr hro
  refine ⟨fun p => (r p).sum, h3, ?_⟩
  have h5 := h4 "time_evolution" (mem_keys_of_lookup h.vals.time)
  rw [row_eq h.vals.time h.eval_time] at h5
  injection h5 with h5
  beta_reduce
  rw [← h5, halfDiff, zipWith_map_self]
  exact sum_half_sub _ _ _

/-- **C65** (backward pass): what `analytical_gpsr_bwd` reports as the derivative with respect to the evolution time, for
a Hamiltonian with two eigenvalues at distance `d`, is `sin (π d / 2) / d` times the derivative. -/
theorem C65_bwd_factor {circuit : Op} (hp : circuit.Plain) (hg : circuit.gates = evoGates l₁ tg l₂)
    (h : EvoSetting so n values H t l₁ tg l₂ ns₁ ns₂ st obs Os)
    (hle : (extractGateNames (l₁ ++ l₂)).length ≤ values.length) (hr : ∀ g ∈ l₁ ++ l₂, g.Registered)
    (hro : ∀ o ∈ obs, Op.AllRegistered o.ops) {c d : ℝ} (hd : 0 < d) (h2 : TwoLevel (parseTarget tg).length H c d) :
    ∃ D : List ℝ,
      IsPartial (fun v => expectation so eigh draw st circuit obs v .gpsr 0) values "time_evolution" D ∧
      Reports (gpsrBwd eigh (jittedExpectation so st obs) (.list circuit.gates) values) values "time_evolution"
        (Real.sin (Real.pi * d / 2) / d * D.sum) := by
  classical
  have htrig := fun O : Matrix (Lab n) (Lab n) ℂ => h2.trig hd.ne' rfl
    (isLin_noisyRun (n := n) (values := values) (l₂.zip ns₂)) O (noisyRun n .unitary values (l₁.zip ns₁) (st.mat n))
  choose a b e hf using htrig
  have hE : ∀ x, gatesExpectation so st obs (.list (evoGates l₁ tg l₂)) (values.upd "time_evolution" x)
      = .ok (Os.map fun O => a O + Real.cos (d * x) * b O + Real.sin (d * x) * e O) := fun x => by
    rw [h.eval_time x]
    exact congrArg Except.ok (List.map_congr_left fun O _ => hf O x)
  refine ⟨Os.map fun O => d * (Real.cos (d * t) * e O - Real.sin (d * t) * b O), ?_, ?_⟩
  · refine ⟨t, fun x => Os.map fun O => a O + Real.cos (d * x) * b O + Real.sin (d * x) * e O, h.vals.time, fun x => ?_,
      fun x => by simp, fun i => ?_⟩
    · simp only [expectation_gates so eigh draw hp, hg, hE]
    · by_cases hi : i < Os.length
      · simp only [List.getD_eq_getElem?_getD, List.getElem?_map, List.getElem?_eq_getElem hi, Option.map_some,
          Option.getD_some]
        exact trig_deriv _ _ _ _ _
      · simp only [List.getD_eq_getElem?_getD, List.getElem?_map, List.getElem?_eq_none (not_lt.1 hi), Option.map_none,
          Option.getD_none]
        exact hasDerivAt_const _ _
  · obtain ⟨r, h3, h4⟩ := evo_bwd so eigh hg h hle hr hro
    refine ⟨fun p => (r p).sum, h3, ?_⟩
    have h5 := h4 "time_evolution" (mem_keys_of_lookup h.vals.time)
    rw [row_eq h.vals.time hE] at h5
    injection h5 with h5
    beta_reduce
    rw [← h5, halfDiff, zipWith_map_self, ← List.sum_map_mul_left]
    refine congrArg List.sum (List.map_congr_left fun O _ => ?_)
    rw [trig_shift]
    field_simp

/-- **C65** (backward pass, the good case): if the two eigenvalues of the Hamiltonian have distance 1 (as those of half a
Pauli matrix), the reported value is the derivative.  Missing from the full claim: other Hamiltonians, for which the
documentation announces no support but no error is raised. -/
theorem C65_bwd_partial {circuit : Op} (hp : circuit.Plain) (hg : circuit.gates = evoGates l₁ tg l₂)
    (h : EvoSetting so n values H t l₁ tg l₂ ns₁ ns₂ st obs Os)
    (hle : (extractGateNames (l₁ ++ l₂)).length ≤ values.length) (hr : ∀ g ∈ l₁ ++ l₂, g.Registered)
    (hro : ∀ o ∈ obs, Op.AllRegistered o.ops) {c : ℝ} (h2 : TwoLevel (parseTarget tg).length H c 1) :
    ∃ D : List ℝ,
      IsPartial (fun v => expectation so eigh draw st circuit obs v .gpsr 0) values "time_evolution" D ∧
      Reports (gpsrBwd eigh (jittedExpectation so st obs) (.list circuit.gates) values) values "time_evolution" D.sum := by
  obtain ⟨D, h3, h4⟩ := C65_bwd_factor so eigh draw hp hg h hle hr hro one_pos h2
  refine ⟨D, h3, ?_⟩
  rwa [mul_one, Real.sin_pi_div_two, div_one, one_mul] at h4

/-- **C65** (backward pass, Pauli matrices): if the two eigenvalues have distance 2 (as those of a product of Pauli
matrices), the reported value is 0, whatever the derivative. -/
theorem C65_bwd_zero {circuit : Op} (hp : circuit.Plain) (hg : circuit.gates = evoGates l₁ tg l₂)
    (h : EvoSetting so n values H t l₁ tg l₂ ns₁ ns₂ st obs Os)
    (hle : (extractGateNames (l₁ ++ l₂)).length ≤ values.length) (hr : ∀ g ∈ l₁ ++ l₂, g.Registered)
    (hro : ∀ o ∈ obs, Op.AllRegistered o.ops) {c : ℝ} (h2 : TwoLevel (parseTarget tg).length H c 2) :
    Reports (gpsrBwd eigh (jittedExpectation so st obs) (.list circuit.gates) values) values "time_evolution" 0 := by
  obtain ⟨D, -, h4⟩ := C65_bwd_factor so eigh (fun _ _ => 0) hp hg h hle hr hro two_pos h2
  rwa [mul_div_cancel_right₀ _ (two_ne_zero' ℝ), Real.sin_pi, zero_div, zero_mul] at h4

/-- The factor is 1 only for eigenvalues at distance 1. -/
theorem factor_eq_one {d : ℝ} (hd : 0 < d) : Real.sin (Real.pi * d / 2) / d = 1 ↔ d = 1 := by
  rw [div_eq_one_iff_eq hd.ne']
  constructor
  · intro h
    by_contra hne
    rcases lt_or_gt_of_ne hne with hlt | hgt
    · have hpi := Real.pi_pos
      have := Real.mul_lt_sin (x := Real.pi * d / 2) (by positivity) (by nlinarith)
      rw [h] at this
      have e : 2 / Real.pi * (Real.pi * d / 2) = d := by field_simp
      rw [e] at this
      exact lt_irrefl _ this
    · have := Real.sin_le_one (Real.pi * d / 2)
      rw [h] at this
      linarith
  · rintro rfl
    rw [mul_one, Real.sin_pi_div_two]

/-- **C65** (backward pass): a non-zero derivative with respect to the evolution time is reported correctly exactly if
the two eigenvalues of the Hamiltonian have distance 1. -/
theorem C65_bwd_iff {circuit : Op} (hp : circuit.Plain) (hg : circuit.gates = evoGates l₁ tg l₂)
    (h : EvoSetting so n values H t l₁ tg l₂ ns₁ ns₂ st obs Os)
    (hle : (extractGateNames (l₁ ++ l₂)).length ≤ values.length) (hr : ∀ g ∈ l₁ ++ l₂, g.Registered)
    (hro : ∀ o ∈ obs, Op.AllRegistered o.ops) {c d : ℝ} (hd : 0 < d) (h2 : TwoLevel (parseTarget tg).length H c d) :
    ∃ D : List ℝ,
      IsPartial (fun v => expectation so eigh draw st circuit obs v .gpsr 0) values "time_evolution" D ∧
      ∃ x, Reports (gpsrBwd eigh (jittedExpectation so st obs) (.list circuit.gates) values) values "time_evolution" x ∧
        (D.sum ≠ 0 → (x = D.sum ↔ d = 1)) := by
  obtain ⟨D, h3, h4⟩ := C65_bwd_factor so eigh draw hp hg h hle hr hro hd h2
  refine ⟨D, h3, _, h4, fun hD => ?_⟩
  rw [← factor_eq_one hd]
  constructor
  · intro h; exact mul_right_cancel₀ hD (h.trans (one_mul _).symm)
  · intro h; rw [h, one_mul]

/-- **C65** (backward pass, other parameters): the reported derivatives with respect to the parameters of the other
gates, if these have no controls and every name is used once, are exact. -/
theorem C65_bwd_others {circuit : Op} (hp : circuit.Plain) (hg : circuit.gates = evoGates l₁ tg l₂)
    (h : EvoSetting so n values H t l₁ tg l₂ ns₁ ns₂ st obs Os)
    (hu : ∀ g ∈ l₁ ++ l₂, ∀ p, g.Uses p → ctlInts g.control = [] ∨ ∃ q s, g.cls = .phase q s) (hs : SingleUse (l₁ ++ l₂))
    (hle : (extractGateNames (l₁ ++ l₂)).length ≤ values.length) (hr : ∀ g ∈ l₁ ++ l₂, g.Registered)
    (hro : ∀ o ∈ obs, Op.AllRegistered o.ops) {p : String} (hk : p ∈ values.map Prod.fst) (h1 : p ≠ "hamiltonian")
    (h2 : p ≠ "time_evolution") :
    ∃ D : List ℝ, IsPartial (fun v => expectation so eigh draw st circuit obs v .gpsr 0) values p D ∧
      Reports (gpsrBwd eigh (jittedExpectation so st obs) (.list circuit.gates) values) values p D.sum := by
  have hgood := h.good hu h1 h2
  have hl := h.noise.length_eq
  have hx := h.real hk h1
  refine ⟨gradOf n values (evoGates l₁ tg l₂) (evoNoise ns₁ ns₂) st Os p,
    ⟨values.real p, fun t => Os.map fun O => expVal O (matRun n (evalAt (stepsOf n values p (evoGates l₁ tg l₂)
      (evoNoise ns₁ ns₂)) t) (st.mat n)), hx, fun t => ?_, fun t => by simp [gradOf], fun i => ?_⟩, ?_⟩
  · simp only [expectation_gates so eigh draw hp, hg, h.eval_other h1 h2]
  · have hd := deriv_run hgood (MatDeriv.const (st.mat n) (values.real p))
    rw [(isLin_matRun _).zero, zero_add, steps_length hl p] at hd
    by_cases hi : i < Os.length
    · simp only [gradOf, List.getD_eq_getElem?_getD, List.getElem?_map, List.getElem?_eq_getElem hi, Option.map_some,
        Option.getD_some]
      exact expVal_deriv _ hd
    · simp only [gradOf, List.getD_eq_getElem?_getD, List.getElem?_map, List.getElem?_eq_none (not_lt.1 hi), Option.map_none,
        Option.getD_none]
      exact hasDerivAt_const _ _
  · obtain ⟨r, h3, h4⟩ := evo_bwd so eigh hg h hle hr hro
    refine ⟨fun p => (r p).sum, h3, ?_⟩
    have h5 := h4 p hk
    rw [row_eq hx (h.eval_other h1 h2)] at h5
    injection h5 with h5
    beta_reduce
    rw [← h5, halfDiff, zipWith_map_self, gradOf]
    refine congrArg List.sum (List.map_congr_left fun O _ => ?_)
    rw [dRun, steps_single hl (evo_singleUse hs) hgood, expVal_half, expVal_sub]

end

/-! ## Concrete cases -/

theorem twoLevel_X : TwoLevel 1 matX 0 2 := by
  rw [TwoLevel]
  ext i j
  fin_cases i <;> fin_cases j <;>
    simp [hamMat, matX, mat2, NDArray.get, ravel, Matrix.mul_apply, Fin.sum_univ_succ]

/-- Half of the Pauli matrix X. -/
noncomputable def halfX : NDArray ℂ := mat2 0 (1 / 2) (1 / 2) 0

theorem twoLevel_halfX : TwoLevel 1 halfX 0 1 := by
  rw [TwoLevel]
  ext i j
  fin_cases i <;> fin_cases j <;>
    simp [hamMat, halfX, mat2, NDArray.get, ravel, Matrix.mul_apply, Fin.sum_univ_succ] <;> norm_num

/-- A rotation, the evolution, and a Hadamard gate with a bit flip. -/
noncomputable def evoCircuit : Op := mkSeq [.prim (Gate.RX (.str "a") (.int 0)), .prim (Gate.HamiltonianEvolution (.int 0)),
  .prim (Gate.H (.int 0) (noise := some [⟨.bitFlip, .float (1 / 4)⟩]))]

/-- Values for `evoCircuit`. -/
noncomputable def evoValues (H : NDArray ℂ) : Values := [("a", .num 1), ("hamiltonian", .arr H), ("time_evolution", .num 2)]

theorem evoCircuit_gates : evoCircuit.gates = evoGates [Gate.RX (.str "a") (.int 0)] (.int 0)
    [Gate.H (.int 0) (noise := some [⟨.bitFlip, .float (1 / 4)⟩])] := rfl

theorem evoSetting {H : NDArray ℂ} (hH : IsOp 1 H) : EvoSetting so 1 (evoValues H) H 2 [Gate.RX (.str "a") (.int 0)] (.int 0)
    [Gate.H (.int 0) (noise := some [⟨.bitFlip, .float (1 / 4)⟩])] [[]] [[.bitFlip (1 / 4)]] (.vec zero1) [obsZ]
    [gateMat 1 StdGate.Z.mat [0] []] where
  std := by
    simp only [List.cons_append, List.nil_append, List.mem_cons, List.not_mem_nil, or_false, forall_eq_or_imp, forall_eq]
    exact ⟨⟨.RX 1, .RX _ _ _ (.str rfl) (by simp), rfl, ⟨.inr (.inl rfl), by decide⟩⟩,
      ⟨.H, .H _ _ _, rfl, ⟨.inr (.inl rfl), by decide⟩⟩⟩
  free := by simp [Gate.Uses, Gate.RX, Gate.H, mkGate]
  noise₁ := .cons (.none rfl) .nil
  noise₂ := .cons (.some rfl (.cons (.bitFlip (by norm_num)) .nil) (.inr ⟨0, rfl⟩)) .nil
  op := hH
  place := by change ValidDims 1 [0]; decide
  vals := ⟨rfl, rfl⟩
  nodup := by simp [evoValues]
  num := by simp [evoValues]
  on := zero1_isKet
  obs_ne := by simp
  fixed := .cons (obsZ_fixed so _) .nil

theorem evoCircuit_plain : evoCircuit.Plain := .seq (.cons (.prim _) (.cons (.prim _) (.cons (.prim _) .nil)))

/-- Non-vacuity of `C65_bwd_difference`, `C65_bwd_factor`, `C65_bwd_zero`, `C65_bwd_iff` and `C65_bwd_others` (with the Pauli matrix X) and of
`C65_bwd_partial` (with half of it): a noisy circuit with another parameter. -/
example : evoCircuit.Plain ∧ (∀ H, IsOp 1 H → ∃ l₁ l₂ ns₁ ns₂, evoCircuit.gates = evoGates l₁ (.int 0) l₂ ∧
      EvoSetting so 1 (evoValues H) H 2 l₁ (.int 0) l₂ ns₁ ns₂ (.vec zero1) [obsZ] [gateMat 1 StdGate.Z.mat [0] []] ∧
      (extractGateNames (l₁ ++ l₂)).length ≤ (evoValues H).length ∧ (∀ g ∈ l₁ ++ l₂, g.Registered) ∧ SingleUse (l₁ ++ l₂) ∧
      ∀ g ∈ l₁ ++ l₂, ∀ p, g.Uses p → ctlInts g.control = [] ∨ ∃ q s, g.cls = .phase q s) ∧
    (∀ o ∈ [obsZ], Op.AllRegistered o.ops) ∧ IsOp 1 matX ∧ TwoLevel (parseTarget (.int 0)).length matX 0 2 ∧ IsOp 1 halfX ∧
    TwoLevel (parseTarget (.int 0)).length halfX 0 1 ∧ ∀ H, "a" ∈ (evoValues H).map Prod.fst := by
  refine ⟨evoCircuit_plain, fun H hH => ⟨_, _, _, _, evoCircuit_gates, evoSetting so hH, ?_, ?_, ?_, ?_⟩, obsZ_registered,
    isOp_mat2 _ _ _ _, twoLevel_X, isOp_mat2 _ _ _ _, twoLevel_halfX, fun H => by simp [evoValues]⟩
  · exact (by decide : 1 ≤ 3)
  · simp [Gate.Registered, Gate.RX, Gate.H, mkGate]
  · simp [SingleUse, Gate.Uses, Gate.RX, Gate.H, mkGate]
  · simp only [List.cons_append, List.nil_append, List.mem_cons, List.not_mem_nil, or_false, forall_eq_or_imp, forall_eq]
    exact ⟨fun _ _ => .inl rfl, fun _ _ => .inl rfl⟩

/-- Non-vacuity of `C65_jvp_refused` and `C65_jvp_raises`. -/
example (H : NDArray ℂ) (hH : IsOp 1 H) : (GateArg.list evoCircuit.gates).Evolves ∧
    (∃ fwd, gatesExpectation so (.vec zero1) [obsZ] (.list evoCircuit.gates) (evoValues H) = .ok fwd) ∧
    ∀ gs, GateArg.list evoCircuit.gates = .list gs → ∀ g ∈ gs,
      (∃ s, g.Is (evoValues H) s) ∨ ∃ tg c, g = Gate.HamiltonianEvolution tg c := by
  have h := evoSetting so hH
  refine ⟨⟨.int 0, .tuple [.none], by simp [evoCircuit_gates, evoGates]⟩, ⟨_, h.eval h.vals hH h.std⟩, ?_⟩
  · rintro gs hgs g hg
    injection hgs with hgs
    subst hgs
    rw [evoCircuit_gates, evoGates] at hg
    rcases List.mem_append.1 hg with hg | hg
    · obtain ⟨s, hs⟩ := h.std g (List.mem_append_left _ hg); exact .inl ⟨s, hs.is⟩
    · rcases List.mem_cons.1 hg with rfl | hg
      · exact .inr ⟨_, _, rfl⟩
      · obtain ⟨s, hs⟩ := h.std g (List.mem_append_right _ hg); exact .inl ⟨s, hs.is⟩

/-- Non-vacuity of `C65_shots_jvp_refused` and `C65_shots_jvp_raises` (the gates are those of the previous example). -/
example (H : NDArray ℂ) (hH : IsOp 1 H) : ∃ fwd,
    finiteShotsGates so eigh (.vec zero1) [obsZ] [1 / 3, 1 / 2] (.list evoCircuit.gates) (evoValues H) = .ok fwd := by
  have h := evoSetting so hH
  obtain ⟨h1, h2⟩ := hamEvo_ok (n := 1) (c := .tuple [.none]) h.vals h.op (.inr (.inl rfl)) h.place
  obtain ⟨r, h3, h4⟩ := applyGates_evolved so (n := 1) (values := evoValues H) (gs := evoCircuit.gates)
    (by simp [evoCircuit_gates, evoGates]) (fun g hg => by
      rw [evoCircuit_gates, evoGates] at hg
      rcases List.mem_append.1 hg with hg | hg
      · exact (h.std g (List.mem_append_left _ hg)).choose_spec.ok
      · rcases List.mem_cons.1 hg with rfl | hg
        · exact h1
        · exact (h.std g (List.mem_append_right _ hg)).choose_spec.ok) h.noise h.on true
  have ho : List.Forall₂ (fun o O => Op.ListedSum (SortLeaf 1 (evoValues H)) (evoValues H) o.ops O) [obsZ]
      [gateMat 1 StdGate.Z.mat [0] []] :=
    .cons (Op.ListedSum.mono (fun _ _ h => StdLeaf.sort h) (obsZ_simple so).listed) .nil
  have h5 := finiteShots_eq so eigh (st := .vec zero1) (ops := evoCircuit.gates.map .prim) (by rw [applyOps, opsToGates_prim]; exact h3) h4.on ho
    (us := [1 / 3, 1 / 2]) (by simp)
  rw [← finiteShotsGates_eq_ops] at h5
  exact ⟨_, h5⟩

/-- The evolution alone. -/
noncomputable def onceEvo : Op := mkSeq [.prim (Gate.HamiltonianEvolution (.int 0))]

theorem onceEvo_gates : onceEvo.gates = evoGates [] (.int 0) [] := rfl

/-- Values for `onceEvo`. -/
noncomputable def onceValues (t : ℝ) : Values := [("hamiltonian", .arr matX), ("time_evolution", .num t)]

theorem onceSetting (t : ℝ) : EvoSetting so 1 (onceValues t) matX t [] (.int 0) [] [] [] (.vec zero1) [obsZ]
    [gateMat 1 StdGate.Z.mat [0] []] where
  std := by simp
  free := by simp
  noise₁ := .nil
  noise₂ := .nil
  op := isOp_mat2 _ _ _ _
  place := by change ValidDims 1 [0]; decide
  vals := ⟨rfl, rfl⟩
  nodup := by simp [onceValues]
  num := by simp [onceValues]
  on := zero1_isKet
  obs_ne := by simp
  fixed := .cons (obsZ_fixed so _) .nil

theorem onceEvo_value (t : ℝ) :
    gatesExpectation so (.vec zero1) [obsZ] (.list onceEvo.gates) (onceValues t) = .ok [Real.cos (2 * t)] := by
  have hok := hamEvo_ok (n := 1) (onceSetting so t).vals (tg := .int 0) (c := .tuple [.none]) (isOp_mat2 _ _ _ _)
    (.inr (.inl rfl)) (by change ValidDims 1 [0]; decide)
  rw [gatesExpectation_pure (n := 1) (O := gateMat 1 StdGate.Z.mat [0] []) (by simp [onceEvo_gates, evoGates]) (by
    simp only [onceEvo_gates, evoGates, List.nil_append, List.mem_cons, List.not_mem_nil, or_false, forall_eq]
    exact hok.1) (by simp [onceEvo_gates, evoGates, Gate.HamiltonianEvolution, mkGate]) zero1_isKet (obsZ_fixed so _)]
  have u0 : evolution 1 matX t 0 0 = (Real.cos t : ℂ) := by
    rw [evolution, exp_two_level (two_ne_zero' ℝ) twoLevel_X t]
    simp [hamMat, matX, mat2, NDArray.get, ravel]
  have u1 : evolution 1 matX t 1 0 = -(Complex.I * (Real.sin t : ℝ)) := by
    rw [evolution, exp_two_level (two_ne_zero' ℝ) twoLevel_X t]
    simp [hamMat, matX, mat2, NDArray.get, ravel]
  rw [onceEvo_gates, evoGates, List.nil_append, gatesMat, gatesMat, hok.2, one_mul, sum_lab1]
  change Except.ok [(star ((gateMat 1 (matE (evolution 1 matX t)) [0] []).mulVec _ _) * (gateMat 1 _ [0] []).mulVec
    ((gateMat 1 (matE (evolution 1 matX t)) [0] []).mulVec _) _ + star ((gateMat 1 (matE (evolution 1 matX t)) [0] []).mulVec _ _)
      * (gateMat 1 _ [0] []).mulVec ((gateMat 1 (matE (evolution 1 matX t)) [0] []).mulVec _) _).re] = _
  simp only [mulVec_lab1, ket, zero1_get, StdGate.mat, matE]
  refine congrArg (fun z => Except.ok [z]) ?_
  have hs := Real.sin_sq_add_cos_sq t
  rw [Real.cos_two_mul]
  generalize Real.cos t = c at hs u0 ⊢
  generalize Real.sin t = d at hs u1 ⊢
  norm_num [u0, u1, Complex.add_re, Complex.mul_re, Complex.mul_im, Complex.add_im]
  nlinarith

/-- **C65 is false of the code**: for the circuit `[HamiltonianEvolution(0)]` with the Pauli matrix X as Hamiltonian, the
state `|0⟩` and the observable `Z(0)`, the derivative with respect to the time at `π/4` is -2; the backward pass
reports 0. -/
theorem C65_bwd_false : ∃ (circuit : Op) (values : Values),
    IsPartial (fun v => expectation so eigh draw (.vec zero1) circuit [obsZ] v .gpsr 0) values "time_evolution" [-2] ∧
    Reports (gpsrBwd eigh (jittedExpectation so (.vec zero1) [obsZ]) (.list circuit.gates) values) values "time_evolution" 0 := by
  have hp : onceEvo.Plain := .seq (.cons (.prim _) .nil)
  refine ⟨onceEvo, onceValues (Real.pi / 4), ⟨Real.pi / 4, fun t => [Real.cos (2 * t)], rfl, fun x => ?_, fun x => rfl,
    fun i => ?_⟩, C65_bwd_zero so eigh hp onceEvo_gates (onceSetting so _) (Nat.zero_le _) (by simp) obsZ_registered twoLevel_X⟩
  · exact (expectation_gates so eigh draw hp _).trans (onceEvo_value so x)
  · rcases i with _ | i
    · have h := ((hasDerivAt_id (Real.pi / 4)).const_mul 2).cos
      refine h.congr_deriv ?_
      rw [id, show 2 * (Real.pi / 4) = Real.pi / 2 by ring, Real.sin_pi_div_two]
      simp
    · exact hasDerivAt_const _ _

end Verif
