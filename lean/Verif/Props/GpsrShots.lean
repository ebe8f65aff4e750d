import Verif.Lemmas.GpsrShots
import Verif.Props.Shots
import Verif.Props.Gpsr

/-!
# C57: parameter-shift gradients from finite shots

`shotsBwd` is `finite_shots_gpsr_backward` and `shotsJvp` is the JVP of `finite_shots_fwd`.  The random numbers behind every
key are arbitrary random variables, each uniform on `[0, 1)`.
-/

namespace Verif
set_option autoImplicit false
open NDArray MeasureTheory
open scoped ComplexOrder
variable {n : ℕ} {values : Values} (so : SetOrder) (eigh : Eigh) {gs : List Gate}
  {nss : List (List StdNoise)} {st : State} {obs : List Observable} {Os : List (Matrix (Lab n) (Lab n) ℂ)}
  {Ω κ : Type} [MeasurableSpace Ω] {μ : Measure Ω} {U : Ω → κ → Draw}

theorem exists_zip_std {gs : List Gate} {nss : List (List StdNoise)} {v : Values} (hs : ∀ g ∈ gs, ∃ s, g.Std n v s)
    (hn : List.Forall₂ Gate.NoiseIs gs nss) :
    ∃ xs : List (Gate × StdGate × List StdNoise), xs.map Prod.fst = gs ∧
      ∀ x ∈ xs, x.1.Std n v x.2.1 ∧ x.1.NoiseIs x.2.2 := by
  induction hn with
  | nil => exact ⟨[], rfl, by simp⟩
  | @cons g ns gs nss h1 _ ih =>
    obtain ⟨xs, hx, hxs⟩ := ih fun g hg => hs g (by simp [hg])
    obtain ⟨s, hs⟩ := hs g (by simp)
    exact ⟨(g, s, ns) :: xs, by simp [hx], List.forall_mem_cons.2 ⟨⟨hs, h1⟩, hxs⟩⟩

theorem finiteShotsGates_eq_ops (gs : List Gate) (us : List ℝ) (v : Values) :
    finiteShotsGates so eigh st obs us (.list gs) v = finiteShots so eigh st (gs.map .prim) obs v us := by
  rw [finiteShotsGates, finiteShots, applyOps, opsToGates_prim]
  rfl

/-- The finite-shot estimate is unbiased, for every variant of the circuit. -/
theorem shots_lift (h : Setting so n values gs nss st obs Os) (hS : ShotSetting eigh n st obs Os)
    (hU : UniformDraws μ U) {k : ℕ} (hk : 1 ≤ k) (key : κ) {gs' : List Gate} {v' : Values} (hv : Variant n gs gs' v') :
    Lifts (Unbiased μ) (fun ω => finiteShotsGates so eigh st obs (List.ofFn (U ω key k)) (.list gs') v')
      (gatesExpectation so st obs (.list gs') v') := by
  have hne : gs' ≠ [] := by
    intro e
    have hl := hv.1.length_eq
    rw [e, List.length_nil] at hl
    exact h.ne (List.length_eq_zero_iff.1 hl)
  have hnz := forall₂_noiseIs hv.1 h.noise
  have hok : ∀ g ∈ gs', g.Ok n .unitary v' := fun g hg => (hv.2 g hg).choose_spec.ok
  have hfix : List.Forall₂ (fun o O => o.Fixed so n (Mixed st gs') O) obs Os :=
    h.fixed.imp fun o O hO values => ⟨(hO values).1, fun hmx => (hO values).2 ((mixed_iff hv.1).1 hmx)⟩
  obtain ⟨r, h1, h2⟩ := applyGates_evolved so hne hok hnz h.on true
  obtain ⟨xs, hx, hxs⟩ := exists_zip_std hv.2 hnz
  obtain ⟨r', h3, -, h4, -, h5⟩ := C11_physical so (xs := xs) (by rintro rfl; exact hne hx.symm) hxs h.on true
  rw [hx, h1] at h3
  cases h3
  rw [gatesExpectation_eq so hne hok hnz h.on h.obs_ne hfix, ← h2.mat hnz]
  have hpos := h5 hS.pos
  rw [hS.trace] at h4
  have hkp : (0 : ℝ) < k := by exact_mod_cast hk
  intro w hw
  cases hw
  have hlist := hS.listed v'
  have hherm := hS.hermitian
  have hal := hS.aligned
  cases Os with
  | nil => cases hlist; exact absurd rfl h.obs_ne
  | cons O Os' =>
    have hne' : ∀ ω, List.ofFn (U ω key k) ≠ [] := by
      intro ω h; have := congrArg List.length h; simp at this; omega
    have hf := fun ω => finiteShots_eq so eigh (ops := gs'.map .prim) (st := st) (r := r) (values := v')
      (by rw [applyOps, opsToGates_prim]; exact h1) h2.on (hlist.imp fun _ _ h => Op.ListedSum.mono (fun _ _ h => StdLeaf.sort h) h) (hne' ω)
    refine ⟨_, fun ω => (finiteShotsGates_eq_ops so eigh gs' _ v').trans (hf ω), Unbiased.of_entries ?_⟩
    refine ⟨(O :: Os').map fun O' => fun ω => (∑ j, pick (shotProbs (eigh.vecs (numMat O)) (r.mat n))
        (alignedEigenvalues (eigh.vals (numMat O')) (eigh.vecs (numMat O')) (eigh.vecs (numMat O))) (U ω key k j)) / k,
      fun ω => ?_, List.forall₂_map_left_iff.2 (List.forall₂_map_right_iff.2 (List.forall₂_same.2 fun O' hO' => ?_))⟩
    · rw [List.map_map]
      refine List.map_congr_left fun O' _ => ?_
      simp only [Function.comp_apply]
      rw [List.map_map, List.length_ofFn, List.map_ofFn, List.sum_ofFn]
      rfl
    · obtain ⟨σ, hσ⟩ := hal O' hO'
      obtain ⟨i1, i2⟩ := pick_mean eigh hpos h4 (hherm O' hO') σ hσ
      simp only [List.headD_cons] at i1 i2
      have hint : ∀ j, Integrable (fun ω => pick (shotProbs (eigh.vecs (numMat O)) (r.mat n))
          (alignedEigenvalues (eigh.vals (numMat O')) (eigh.vecs (numMat O')) (eigh.vecs (numMat O))) (U ω key k j)) μ :=
        fun j => (hU key k j).integrable_comp_of_integrable i1
      have hval : ∀ j, ∫ ω, pick (shotProbs (eigh.vecs (numMat O)) (r.mat n))
          (alignedEigenvalues (eigh.vals (numMat O')) (eigh.vecs (numMat O')) (eigh.vecs (numMat O))) (U ω key k j) ∂μ
            = expVal O' (r.mat n) := by
        intro j
        rw [← i2, ← (hU key k j).map_eq, integral_map (hU key k j).measurable.aemeasurable]
        rw [(hU key k j).map_eq]; exact i1.aestronglyMeasurable
      refine ⟨(integrable_finset_sum _ fun j _ => hint j).div_const _, ?_⟩
      rw [integral_div, integral_finset_sum _ fun j _ => hint j]
      simp only [hval, Finset.sum_const, Finset.card_univ, Fintype.card_fin, nsmul_eq_mul]
      field_simp

theorem jittedFiniteShots_eq {gs : List Gate} (us : List ℝ) (v : Values)
    (hg : ∀ g ∈ gs, g.Registered) (ho : ∀ o ∈ obs, Op.AllRegistered o.ops) :
    jittedFiniteShots so eigh st obs us (.list gs) v = finiteShotsGates so eigh st obs us (.list gs) v := by
  have h1 : jitArg (.list gs) = .ok (.list gs) := by
    simp only [jitArg, mapM_ok_id fun g h => jitGate_eq (hg g h)]; rfl
  have h2 : (obs.mapM fun o => do pure ({ o with ops := ← jitOps o.ops } : Observable)) = Except.ok (ε := Err) obs :=
    mapM_ok_id fun o h => by simp only [jitOps_eq o.ops (ho o h)]; rfl
  simp only [jittedFiniteShots, h1, bind, Except.bind] at h2 ⊢
  rw [h2]

open scoped Classical in
/-- The exact expectation values, only for the variants of the circuit that satisfy `Q`. -/
noncomputable def guarded (so : SetOrder) (n : ℕ) (st : State) (obs : List Observable) (gs : List Gate) (Q : List Gate → Prop) :
    GateArg → Values → Py (List ℝ)
  | .single _, _ => .error .unsupported
  | .list gs', v' => if Variant n gs gs' v' ∧ Q gs' then gatesExpectation so st obs (.list gs') v' else .error .unsupported

theorem guarded_eq {Q : List Gate → Prop} {gs' : List Gate} {v' : Values} (h : Variant n gs gs' v') (hQ : Q gs') :
    guarded so n st obs gs Q (.list gs') v' = gatesExpectation so st obs (.list gs') v' := if_pos ⟨h, hQ⟩

theorem guarded_lift (h : Setting so n values gs nss st obs Os) (hS : ShotSetting eigh n st obs Os)
    (hU : UniformDraws μ U) {k : ℕ} (hk : 1 ≤ k) {Q : List Gate → Prop}
    {F : List ℝ → GateArg → Values → Py (List ℝ)}
    (hF : ∀ us gs' v', Q gs' → F us (.list gs') v' = finiteShotsGates so eigh st obs us (.list gs') v') (key : κ)
    (g : GateArg) (v : Values) :
    Lifts (Unbiased μ) (fun ω => F (List.ofFn (U ω key k)) g v) (guarded so n st obs gs Q g v) := by
  cases g with
  | single g => exact Lifts.error
  | list gs' =>
    rw [guarded]
    split_ifs with hv
    · simp only [hF _ gs' v hv.2]
      exact shots_lift so eigh h hS hU hk key hv.1
    · exact Lifts.error

/-! ## C57 -/

/-- **C57** (backward pass): `finite_shots_gpsr_backward` returns an unbiased estimate of the exact gradient of the exact
expectation values (summed over the observables), for every number of shots: for circuits in which every parameter name is
used by at most one uncontrolled gate, and (`C57_bwd_repeated_partial`) for shared names. -/
theorem C57_bwd_partial {circuit : Op} (hp : circuit.Plain) (h : Setting so n values circuit.gates nss st obs Os)
    (hs : SingleUse circuit.gates) (hk : values ≠ []) (hr : ∀ g ∈ circuit.gates, g.Registered)
    (hro : ∀ o ∈ obs, Op.AllRegistered o.ops) (hS : ShotSetting eigh n st obs Os) (draw : Draw) :
    ∃ D : String → List ℝ,
      (∀ p ∈ values.map Prod.fst,
        IsPartial (fun v => expectation so eigh draw st circuit obs v .gpsr 0) values p (D p)) ∧
      ∀ (Ω κ : Type) [MeasurableSpace Ω] (μ : Measure Ω) (U : Ω → κ → Draw) (split : κ → ℕ → ℕ → κ) (key : κ) (k : ℕ),
        UniformDraws μ U → 1 ≤ k → ∃ est : Ω → List ℝ,
          (∀ ω, shotsBwd eigh split (fun key => jittedFiniteShots so eigh st obs (List.ofFn (U ω key k)))
            (.list circuit.gates) values key = .ok (est ω)) ∧
          Unbiased μ est ((values.map Prod.fst).map fun p => (D p).sum) := by
  refine ⟨gradOf n values circuit.gates nss st Os,
    fun _ hp' => h.partial hp' fun _ => expectation_gates so eigh draw hp _, fun Ω κ _ μ U split key k hU hk1 => ?_⟩
  exact shotsBwd_lifts (F := fun ω key => jittedFiniteShots so eigh st obs (List.ofFn (U ω key k)))
    (guarded_lift so eigh h hS hU hk1 (Q := fun gs' => ∀ g ∈ gs', g.Registered)
      fun us gs' v' hr' => jittedFiniteShots_eq so eigh us v' hr' hro) (.list circuit.gates) values key _
    (h.bwd_single hs hk eigh fun p x => guarded_eq so (h.variant_upd p x) hr)

/-- **C57** (backward pass, shared parameter names), for values that are all used by some gate. -/
theorem C57_bwd_repeated_partial {circuit : Op} (hp : circuit.Plain) (h : Setting so n values circuit.gates nss st obs Os)
    (hs : ¬ SingleUse circuit.gates) (hall : ∀ p ∈ values.map Prod.fst, ∃ g ∈ circuit.gates, g.Uses p)
    (hr : ∀ g ∈ circuit.gates, g.Registered) (hro : ∀ o ∈ obs, Op.AllRegistered o.ops)
    (hS : ShotSetting eigh n st obs Os) (draw : Draw) :
    ∃ D : String → List ℝ,
      (∀ p ∈ values.map Prod.fst,
        IsPartial (fun v => expectation so eigh draw st circuit obs v .gpsr 0) values p (D p)) ∧
      ∀ (Ω κ : Type) [MeasurableSpace Ω] (μ : Measure Ω) (U : Ω → κ → Draw) (split : κ → ℕ → ℕ → κ) (key : κ) (k : ℕ),
        UniformDraws μ U → 1 ≤ k → ∃ est : Ω → List ℝ,
          (∀ ω, shotsBwd eigh split (fun key => jittedFiniteShots so eigh st obs (List.ofFn (U ω key k)))
            (.list circuit.gates) values key = .ok (est ω)) ∧
          Unbiased μ est ((values.map Prod.fst).map fun p => (D p).sum) := by
  refine ⟨gradOf n values circuit.gates nss st Os,
    fun _ hp' => h.partial hp' fun _ => expectation_gates so eigh draw hp _, fun Ω κ _ μ U split key k hU hk1 => ?_⟩
  exact shotsBwd_lifts (F := fun ω key => jittedFiniteShots so eigh st obs (List.ofFn (U ω key k)))
    (guarded_lift so eigh h hS hU hk1 (Q := fun gs' => ∀ g ∈ gs', g.Registered)
      fun us gs' v' hr' => jittedFiniteShots_eq so eigh us v' hr' hro) (.list circuit.gates) values key _
    (h.bwd_repeated hs hr eigh (h.not_controlled fun g hg _ => hr g hg) hall fun gs' hr' hv => guarded_eq so hv hr')

/-- **C57** (JVP): the JVP of `finite_shots_fwd` returns an unbiased estimate of the exact expectation values and of their
exact directional derivative, if every parameter name is used by at most one gate without controls (or `PHASE` gate). -/
theorem C57_jvp_partial {circuit : Op} (hp : circuit.Plain) (h : Setting so n values circuit.gates nss st obs Os)
    (hs : SingleUse circuit.gates) (hk : values ≠ []) (hS : ShotSetting eigh n st obs Os) (draw : Draw) (fresh : ℕ → String)
    (ts : List ℝ) :
    ∃ (D : String → List ℝ) (fwd : List ℝ),
      (∀ p ∈ values.map Prod.fst,
        IsPartial (fun v => expectation so eigh draw st circuit obs v .gpsr 0) values p (D p)) ∧
      expectation so eigh draw st circuit obs values .gpsr 0 = .ok fwd ∧
      ∀ (Ω κ : Type) [MeasurableSpace Ω] (μ : Measure Ω) (U : Ω → κ → Draw) (split : κ → ℕ → ℕ → κ) (key : κ) (k : ℕ),
        UniformDraws μ U → 1 ≤ k → ∃ est : Ω → List ℝ × List ℝ,
          (∀ ω, shotsJvp eigh fresh split (fun key => finiteShotsGates so eigh st obs (List.ofFn (U ω key k)))
            (.list circuit.gates) values ts key = .ok (est ω)) ∧
          Unbiased μ (fun ω => (est ω).1) fwd ∧
          Unbiased μ (fun ω => (est ω).2) (List.ofFn fun i : Fin fwd.length =>
            (List.zipWith (fun p t => (D p).getD i 0 * t) (values.map Prod.fst) ts).sum) := by
  obtain ⟨fwd, h1, h2⟩ := h.jvp_single hs hk eigh fresh ts (F := guarded so n st obs circuit.gates fun _ => True)
    fun gs' v' hv => guarded_eq so hv trivial
  refine ⟨gradOf n values circuit.gates nss st Os, fwd,
    fun _ hp' => h.partial hp' fun _ => expectation_gates so eigh draw hp _,
    by rw [expectation_gates so eigh draw hp, h1], fun Ω κ _ μ U split key k hU hk1 => ?_⟩
  exact shotsJvp_lifts (F := fun ω key => finiteShotsGates so eigh st obs (List.ofFn (U ω key k)))
    (guarded_lift so eigh h hS hU hk1 (Q := fun _ => True) fun us gs' v' _ => rfl) fresh (.list circuit.gates) values ts key _ h2

/-- **C57** (JVP, shared parameter names). -/
theorem C57_jvp_repeated_partial {circuit : Op} (hp : circuit.Plain) (h : Setting so n values circuit.gates nss st obs Os)
    (hs : ¬ SingleUse circuit.gates) (hall : ∀ p ∈ values.map Prod.fst, ∃ g ∈ circuit.gates, g.Uses p)
    (hr : ∀ g ∈ circuit.gates, (∃ p, g.Uses p) → g.Registered) (hS : ShotSetting eigh n st obs Os) (draw : Draw)
    {fresh : ℕ → String} (hf : Function.Injective fresh) (ts : List ℝ) :
    ∃ (D : String → List ℝ) (fwd : List ℝ),
      (∀ p ∈ values.map Prod.fst,
        IsPartial (fun v => expectation so eigh draw st circuit obs v .gpsr 0) values p (D p)) ∧
      expectation so eigh draw st circuit obs values .gpsr 0 = .ok fwd ∧
      ∀ (Ω κ : Type) [MeasurableSpace Ω] (μ : Measure Ω) (U : Ω → κ → Draw) (split : κ → ℕ → ℕ → κ) (key : κ) (k : ℕ),
        UniformDraws μ U → 1 ≤ k → ∃ est : Ω → List ℝ × List ℝ,
          (∀ ω, shotsJvp eigh fresh split (fun key => finiteShotsGates so eigh st obs (List.ofFn (U ω key k)))
            (.list circuit.gates) values ts key = .ok (est ω)) ∧
          Unbiased μ (fun ω => (est ω).1) fwd ∧
          Unbiased μ (fun ω => (est ω).2) (List.ofFn fun i : Fin fwd.length =>
            (List.zipWith (fun p t => (D p).getD i 0 * t) (values.map Prod.fst) ts).sum) := by
  obtain ⟨fwd, h1, h2⟩ := h.jvp_repeated hs hr eigh (h.not_controlled hr) hall hf ts
    (F := guarded so n st obs circuit.gates fun _ => True) fun gs' v' hv => guarded_eq so hv trivial
  refine ⟨gradOf n values circuit.gates nss st Os, fwd,
    fun _ hp' => h.partial hp' fun _ => expectation_gates so eigh draw hp _,
    by rw [expectation_gates so eigh draw hp, h1], fun Ω κ _ μ U split key k hU hk1 => ?_⟩
  exact shotsJvp_lifts (F := fun ω key => finiteShotsGates so eigh st obs (List.ofFn (U ω key k)))
    (guarded_lift so eigh h hS hU hk1 (Q := fun _ => True) fun us gs' v' _ => rfl) fresh (.list circuit.gates) values ts key _ h2

/-- The observable `Z(0)` and the state `|0⟩` satisfy the conditions on estimates. -/
theorem shotSettingZ : ShotSetting eigh 1 (.vec zero1) [obsZ] [gateMat 1 StdGate.Z.mat [0] []] where
  pos := vec_posSemidef _
  trace := by
    rw [vec_trace, normSq, sum_lab1, ket, ket, zero1_get, zero1_get]
    norm_num
  listed := fun _ => .cons (.one (.gate leafZ)) .nil
  hermitian := by simpa using gateZ_hermitian
  aligned := by
    simp only [List.mem_singleton, forall_eq, List.headD_cons]
    exact ⟨Equiv.refl _, fun _ _ => rfl⟩

/-- Uniform draws exist: the same uniform number for everything. -/
theorem uniform_exists (κ : Type) : UniformDraws (volume.restrict (Set.Ico (0 : ℝ) 1)) (fun (ω : ℝ) (_ : κ) _ _ => ω) :=
  fun _ _ _ => MeasurePreserving.id _

/-- Non-vacuity of C57: the settings of C23 and C24, and the conditions on estimates, are met together. -/
example : Setting so 1 gradValues gradCircuit.gates [[], [.bitFlip (1 / 4)], []] (.vec zero1) [obsZ]
      [gateMat 1 StdGate.Z.mat [0] []] ∧
    Setting so 1 [("a", .num 1)] twiceRX.gates [[], []] (.vec zero1) [obsZ] [gateMat 1 StdGate.Z.mat [0] []] ∧
    ShotSetting eigh 1 (.vec zero1) [obsZ] [gateMat 1 StdGate.Z.mat [0] []] ∧
    ∃ (Ω : Type) (_ : MeasurableSpace Ω) (μ : Measure Ω) (U : Ω → ℕ → Draw), UniformDraws μ U :=
  ⟨gradSetting so, twiceSetting so ⟨by simp, by simp⟩ rfl, shotSettingZ eigh, ⟨ℝ, _, _, _, uniform_exists ℕ⟩⟩

/-- **C57 is false of the code when `values` has a key that no gate uses**: for the circuit `[RX("a", 0), RX("a", 0)]` on
`|0⟩`, the observable `Z(0)` and `values = {"a": x, "b": y}`, the derivative of the expectation value with respect to `a` is
`-2 sin 2x`, but the estimates of the backward pass and of the JVP have mean `0`. -/
theorem C57_unused_wrong (draw : Draw) (fresh : ℕ → String) (x y : ℝ) (hU : UniformDraws μ U) (split : κ → ℕ → ℕ → κ)
    (key : κ) {k : ℕ} (hk : 1 ≤ k) :
    let values : Values := [("a", .num x), ("b", .num y)]
    IsPartial (fun v => expectation so eigh draw (.vec zero1) twiceRX [obsZ] v .gpsr 0) values "a" [-2 * Real.sin (2 * x)] ∧
    (∃ est : Ω → List ℝ,
      (∀ ω, shotsBwd eigh split (fun key => jittedFiniteShots so eigh (.vec zero1) [obsZ] (List.ofFn (U ω key k)))
        (.list twiceRX.gates) values key = .ok (est ω)) ∧ Unbiased μ est [0, 0]) ∧
    ∃ est : Ω → List ℝ × List ℝ,
      (∀ ω, shotsJvp eigh fresh split (fun key => finiteShotsGates so eigh (.vec zero1) [obsZ] (List.ofFn (U ω key k)))
        (.list twiceRX.gates) values [1, 0] key = .ok (est ω)) ∧
      Unbiased μ (fun ω => (est ω).2) [0] := by
  intro values
  have hnum : values.Numeric := ⟨by simp [values], by simp [values]⟩
  have h := twiceSetting so (v := values) (x := x) hnum rfl
  have hS := shotSettingZ eigh
  refine ⟨(C24_unused_wrong so eigh draw fresh x y).1, ?_, ?_⟩
  · exact shotsBwd_lifts (F := fun ω key => jittedFiniteShots so eigh (.vec zero1) [obsZ] (List.ofFn (U ω key k)))
      (guarded_lift so eigh h hS hU hk (Q := fun gs' => ∀ g ∈ gs', g.Registered)
        fun us gs' v' hr' => jittedFiniteShots_eq so eigh us v' hr' obsZ_registered) (.list twiceRX.gates) values key _
      (twice_unused so eigh (fun p t => guarded_eq so (h.variant_upd p t) twice_registered) fresh).1
  · obtain ⟨est, e1, e2⟩ := shotsJvp_lifts (split := split) (key := key)
      (F := fun ω key => finiteShotsGates so eigh (.vec zero1) [obsZ] (List.ofFn (U ω key k)))
      (guarded_lift so eigh h hS hU hk (Q := fun _ => True) fun us gs' v' _ => rfl) fresh (.list twiceRX.gates) values [1, 0] _
      (twice_unused so eigh (fun p t => guarded_eq so (h.variant_upd p t) trivial) fresh).2
    exact ⟨est, e1, e2.2⟩

end Verif
