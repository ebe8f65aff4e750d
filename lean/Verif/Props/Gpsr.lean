import Verif.Lemmas.GpsrCtlPaths
import Verif.Props.ExpectModes

/-!
# Property theorems about the parameter-shift gradients

C23, C24, C25.  `E` below is the function that is differentiated: `values ↦ expectation(…, diff_mode=GPSR)`
(equal to AD by `C20_ad_gpsr`), and `IsPartial E values p d` says that `d` lists the true partial derivatives of its
entries.  `analytical_gpsr_bwd` returns, for every key, the sum of these entries; the JVP returns `Σ_p t_p ∂_p E`.
-/

namespace Verif
set_option autoImplicit false
open NDArray
variable {n : ℕ} {values : Values} (so : SetOrder) (eigh : Eigh) (draw : Draw) {gs : List Gate}
  {nss : List (List StdNoise)} {st : State} {obs : List Observable} {Os : List (Matrix (Lab n) (Lab n) ℂ)}

theorem expectation_gates {circuit : Op} (hp : circuit.Plain) (values : Values) :
    expectation so eigh draw st circuit obs values .gpsr 0
      = gatesExpectation so st obs (.list circuit.gates) values := by
  have : ∀ v, applyOps so st circuit.iter v = applyGates so st (.list circuit.gates) v := by
    intro v
    rw [applyOps, hp.iter, opsToGates_prim]
    rfl
  simp only [expectation, lt_irrefl, if_false, if_true, analyticalExpectation, gatesExpectation, this]

theorem Setting.not_controlled {so : SetOrder} (h : Setting so n values gs nss st obs Os)
    (hr : ∀ g ∈ gs, (∃ p, g.Uses p) → g.Registered) :
    ∀ g ∈ gs, ∀ p, g.Uses p → isControlled g.control = false := by
  intro g hg p hu
  have h1 := (h.uncontrolled g hg p hu).resolve_right fun ⟨q, s, e⟩ => by
    have := hr g hg ⟨p, hu⟩
    rw [Gate.Registered, e] at this
    exact this
  obtain ⟨s, hs⟩ := h.std g hg
  rcases hs.valid.ctl with e | e | ⟨cs, e⟩ <;> rw [e] at h1 ⊢
  · rfl
  · rfl
  · cases cs with
    | nil => rfl
    | cons c cs => simp [ctlInts] at h1

/-! ## C23 -/

/-- **C23** (backward pass): `analytical_gpsr_bwd` returns the exact gradient (summed over the observables) of circuits
in which every parameter name is used by at most one uncontrolled gate, with any other standard gates, controls on the
gates with numeric angles, noise and mixed states.  Missing from the full claim: `PHASE` gates, which raise
(`C23_phase_refused`), and observables that contain a `QuantumCircuit` (`C23_circuit_wrong`). -/
theorem C23_bwd_partial {circuit : Op} (hp : circuit.Plain) (h : Setting so n values circuit.gates nss st obs Os)
    (hs : SingleUse circuit.gates) (hk : values ≠ []) (hr : ∀ g ∈ circuit.gates, g.Registered)
    (hro : ∀ o ∈ obs, Op.AllRegistered o.ops) :
    ∃ D : String → List ℝ,
      (∀ p ∈ values.map Prod.fst,
        IsPartial (fun v => expectation so eigh draw st circuit obs v .gpsr 0) values p (D p)) ∧
      gpsrBwd eigh (jittedExpectation so st obs) (.list circuit.gates) values
        = .ok ((values.map Prod.fst).map fun p => (D p).sum) :=
  ⟨gradOf n values circuit.gates nss st Os,
    fun _ hp' => h.partial hp' fun _ => expectation_gates so eigh draw hp _,
    h.bwd_single hs hk eigh fun _ _ => jittedExpectation_eq so _ hr hro⟩

/-- **C23** (JVP): the JVP of `analytical_gpsr_fwd` is the exact directional derivative of circuits in which every
parameter name is used by at most one uncontrolled `RX`, `RY`, `RZ` or `PHASE` gate or controlled `PHASE` gate, with any
other standard gates, noise and mixed states. -/
theorem C23_jvp {circuit : Op} (hp : circuit.Plain) (h : Setting so n values circuit.gates nss st obs Os)
    (hs : SingleUse circuit.gates) (hk : values ≠ []) (fresh : ℕ → String) (ts : List ℝ) :
    ∃ (D : String → List ℝ) (fwd : List ℝ),
      (∀ p ∈ values.map Prod.fst,
        IsPartial (fun v => expectation so eigh draw st circuit obs v .gpsr 0) values p (D p)) ∧
      expectation so eigh draw st circuit obs values .gpsr 0 = .ok fwd ∧
      gpsrJvp eigh fresh (gatesExpectation so st obs) (.list circuit.gates) values ts
        = .ok (fwd, List.ofFn fun i : Fin fwd.length =>
          (List.zipWith (fun p t => (D p).getD i 0 * t) (values.map Prod.fst) ts).sum) := by
  obtain ⟨fwd, h1, h2⟩ := h.jvp_single hs hk eigh fresh ts fun _ _ _ => rfl
  exact ⟨gradOf n values circuit.gates nss st Os, fwd, fun _ hp' => h.partial hp' fun _ => expectation_gates so eigh draw hp _,
    by rw [expectation_gates so eigh draw hp, h1], h2⟩

theorem jit_phase {g : Gate} (hg : g ∈ gs) {p : Param} {s : ℝ} (hc : g.cls = .phase p s) (values : Values) :
    jittedExpectation so st obs (.list gs) values = .error .typeError := by
  have : gs.mapM jitGate = .error .typeError := by
    clear values
    induction gs with
    | nil => cases hg
    | cons g' gs ih =>
      rw [List.mapM_cons]
      by_cases e : g' = g
      · subst e
        simp only [jitGate, hc]; rfl
      · have := ih ((List.mem_cons.1 hg).resolve_left (Ne.symm e))
        rw [this]
        rcases hcl : g'.cls with _ | _ | _ | _ <;> simp only [jitGate, hcl] <;> rfl
  simp only [jittedExpectation, jitArg, this]
  rfl

/-- **C23 is false of the code for `PHASE` in the backward pass**: `analytical_gpsr_bwd` raises TypeError for every
circuit that contains a `PHASE` gate (and uses no parameter twice), because the class `_PHASE` is not registered with JAX. -/
theorem C23_phase_refused (h : Setting so n values gs nss st obs Os) (hs : SingleUse gs) (hk : values ≠ [])
    {g : Gate} (hg : g ∈ gs) {p : Param} {s : ℝ} (hc : g.cls = .phase p s) :
    gpsrBwd eigh (jittedExpectation so st obs) (.list gs) values = .error .typeError := by
  have hle := extractGateNames_le h.toBaseSetting hs
  rw [gpsrBwd]
  simp only [if_neg (not_lt.2 hle)]
  have hkeys : values.keys ≠ [] := by simpa [Values.keys] using hk
  rcases hv : values.keys with _ | ⟨q, qs⟩
  · exact absurd hv hkeys
  · have hx := h.numeric.real (p := q) (by rw [hv]; simp)
    rw [List.mapM_cons]
    simp only [jvpComponent, Values.shiftKey_eq hx, bind, Except.bind, jit_phase so hg hc]

/-! ### Non-vacuity of C23 -/

theorem obsZ_fixed (mixed : Prop) : obsZ.Fixed so 1 mixed (gateMat 1 StdGate.Z.mat [0] []) := fun v =>
  ⟨(obsZ_simple so (values := v)).1, fun _ => ⟨(obsZ_simple so (values := v)).2, (obsZ_simple so (values := v)).3⟩⟩

theorem obsZ_registered : ∀ o ∈ [obsZ], Op.AllRegistered o.ops := by
  simp [obsZ, Observable.new, OpArg.toList, Op.Registered, Op.AllRegistered, Gate.Registered, Gate.Z, mkGate]

/-- The circuit `[RX("a", 0), H(0) with a bit flip, RY("b", 0)]`. -/
noncomputable def gradCircuit : Op := mkSeq [.prim (Gate.RX (.str "a") (.int 0)),
  .prim (Gate.H (.int 0) (noise := some [⟨.bitFlip, .float (1 / 4)⟩])), .prim (Gate.RY (.str "b") (.int 0))]

/-- Values for `gradCircuit`; `c` is not used. -/
noncomputable def gradValues : Values := [("a", .num 1), ("b", .num 2), ("c", .num 3)]

theorem gradCircuit_gates : gradCircuit.gates = [Gate.RX (.str "a") (.int 0),
    Gate.H (.int 0) (noise := some [⟨.bitFlip, .float (1 / 4)⟩]), Gate.RY (.str "b") (.int 0)] := rfl

theorem gradSetting : Setting so 1 gradValues gradCircuit.gates [[], [.bitFlip (1 / 4)], []] (.vec zero1) [obsZ]
    [gateMat 1 StdGate.Z.mat [0] []] where
  ne := by simp [gradCircuit_gates]
  std := by
    simp only [gradCircuit_gates, List.mem_cons, List.not_mem_nil, or_false, forall_eq_or_imp, forall_eq]
    exact ⟨⟨.RX 1, .RX _ _ _ (.str rfl) (by simp), rfl, ⟨.inr (.inl rfl), by decide⟩⟩,
      ⟨.H, .H _ _ _, rfl, ⟨.inr (.inl rfl), by decide⟩⟩,
      ⟨.RY 2, .RY _ _ _ (.str rfl) (by simp), rfl, ⟨.inr (.inl rfl), by decide⟩⟩⟩
  noise := .cons (.none rfl) (.cons (.some rfl (.cons (.bitFlip (by norm_num)) .nil) (.inr ⟨0, rfl⟩)) (.cons (.none rfl) .nil))
  on := zero1_isKet
  numeric := ⟨by simp [gradValues], by simp [gradValues]⟩
  obs_ne := by simp
  fixed := .cons (obsZ_fixed so _) .nil
  uncontrolled := by
    simp only [gradCircuit_gates, List.mem_cons, List.not_mem_nil, or_false, forall_eq_or_imp, forall_eq]
    exact ⟨fun _ _ => .inl rfl, fun _ _ => .inl rfl, fun _ _ => .inl rfl⟩

/-- Non-vacuity of `C23_bwd_partial` and `C23_jvp`: a noisy circuit with two parameters and an unused value. -/
example : gradCircuit.Plain ∧ Setting so 1 gradValues gradCircuit.gates [[], [.bitFlip (1 / 4)], []] (.vec zero1) [obsZ]
      [gateMat 1 StdGate.Z.mat [0] []] ∧ SingleUse gradCircuit.gates ∧ gradValues ≠ [] ∧
    (∀ g ∈ gradCircuit.gates, g.Registered) ∧ ∀ o ∈ [obsZ], Op.AllRegistered o.ops := by
  refine ⟨.seq (.cons (.prim _) (.cons (.prim _) (.cons (.prim _) .nil))), gradSetting so, ?_, by simp [gradValues], ?_,
    obsZ_registered⟩
  · rw [gradCircuit_gates, SingleUse]
    simp only [List.pairwise_cons, List.mem_cons, List.not_mem_nil, or_false, forall_eq_or_imp, forall_eq]
    simp [Gate.Uses, Gate.RX, Gate.RY, Gate.H, mkGate]
  · rw [gradCircuit_gates]
    simp [Gate.Registered, Gate.RX, Gate.RY, Gate.H, mkGate]

/-! ## C24 -/

/-- **C24** (backward pass): if a parameter name is shared by several uncontrolled `RX`, `RY`, `RZ` gates and every key
of `values` is used by some gate, `analytical_gpsr_bwd` returns the exact gradient.  Missing from the full claim: values
that no gate uses (`C24_unused_wrong`, `C24_unused_raises`). -/
theorem C24_bwd_partial {circuit : Op} (hp : circuit.Plain) (h : Setting so n values circuit.gates nss st obs Os)
    (hs : ¬ SingleUse circuit.gates) (hall : ∀ p ∈ values.map Prod.fst, ∃ g ∈ circuit.gates, g.Uses p)
    (hr : ∀ g ∈ circuit.gates, g.Registered) (hro : ∀ o ∈ obs, Op.AllRegistered o.ops) :
    ∃ D : String → List ℝ,
      (∀ p ∈ values.map Prod.fst,
        IsPartial (fun v => expectation so eigh draw st circuit obs v .gpsr 0) values p (D p)) ∧
      gpsrBwd eigh (jittedExpectation so st obs) (.list circuit.gates) values
        = .ok ((values.map Prod.fst).map fun p => (D p).sum) :=
  ⟨gradOf n values circuit.gates nss st Os,
    fun _ hp' => h.partial hp' fun _ => expectation_gates so eigh draw hp _,
    h.bwd_repeated hs hr eigh (h.not_controlled fun g hg _ => hr g hg) hall fun _ hr' _ => jittedExpectation_eq so _ hr' hro⟩

/-- **C24** (JVP), under the same restriction; `fresh` supplies the distinct temporary names. -/
theorem C24_jvp_partial {circuit : Op} (hp : circuit.Plain) (h : Setting so n values circuit.gates nss st obs Os)
    (hs : ¬ SingleUse circuit.gates) (hall : ∀ p ∈ values.map Prod.fst, ∃ g ∈ circuit.gates, g.Uses p)
    (hr : ∀ g ∈ circuit.gates, (∃ p, g.Uses p) → g.Registered) {fresh : ℕ → String} (hf : Function.Injective fresh)
    (ts : List ℝ) :
    ∃ (D : String → List ℝ) (fwd : List ℝ),
      (∀ p ∈ values.map Prod.fst,
        IsPartial (fun v => expectation so eigh draw st circuit obs v .gpsr 0) values p (D p)) ∧
      expectation so eigh draw st circuit obs values .gpsr 0 = .ok fwd ∧
      gpsrJvp eigh fresh (gatesExpectation so st obs) (.list circuit.gates) values ts
        = .ok (fwd, List.ofFn fun i : Fin fwd.length =>
          (List.zipWith (fun p t => (D p).getD i 0 * t) (values.map Prod.fst) ts).sum) := by
  obtain ⟨fwd, h1, h2⟩ := h.jvp_repeated hs hr eigh (h.not_controlled hr) hall hf ts fun _ _ _ => rfl
  exact ⟨gradOf n values circuit.gates nss st Os, fwd, fun _ hp' => h.partial hp' fun _ => expectation_gates so eigh draw hp _,
    by rw [expectation_gates so eigh draw hp, h1], h2⟩

/-- The circuit `[RX("a", 0), RX("a", 0)]`. -/
noncomputable def twiceRX : Op := mkSeq [.prim (Gate.RX (.str "a") (.int 0)), .prim (Gate.RX (.str "a") (.int 0))]

theorem twiceRX_plain : twiceRX.Plain := .seq (.cons (.prim _) (.cons (.prim _) .nil))

theorem twiceRX_gates : twiceRX.gates = [Gate.RX (.str "a") (.int 0), Gate.RX (.str "a") (.int 0)] := rfl

theorem rxStd {v : Values} {x : ℝ} (h : v.lookup "a" = some (.num x)) :
    (Gate.RX (.str "a") (.int 0)).Std 1 v (.RX x) :=
  ⟨.RX _ _ _ (.str h) (by simp), rfl, ⟨.inr (.inl rfl), by decide⟩⟩

theorem twiceSetting {v : Values} {x : ℝ} (hv : v.Numeric) (h : v.lookup "a" = some (.num x)) :
    Setting so 1 v twiceRX.gates [[], []] (.vec zero1) [obsZ] [gateMat 1 StdGate.Z.mat [0] []] where
  ne := by simp [twiceRX_gates]
  std := by
    simp only [twiceRX_gates, List.mem_cons, List.not_mem_nil, or_false, or_self, forall_eq]
    exact ⟨_, rxStd h⟩
  noise := .cons (.none rfl) (.cons (.none rfl) .nil)
  on := zero1_isKet
  numeric := hv
  obs_ne := by simp
  fixed := .cons (obsZ_fixed so _) .nil
  uncontrolled := by
    simp only [twiceRX_gates, List.mem_cons, List.not_mem_nil, or_false, or_self, forall_eq]
    exact fun _ _ => .inl rfl

theorem twice_not_single : ¬ SingleUse twiceRX.gates := by
  rw [twiceRX_gates, SingleUse, List.pairwise_cons]
  intro h
  exact h.1 (Gate.RX (.str "a") (.int 0)) (by simp) "a" rfl rfl

theorem twice_registered : ∀ g ∈ twiceRX.gates, g.Registered := by
  simp [twiceRX_gates, Gate.Registered, Gate.RX, mkGate]

/-- Non-vacuity of `C24_bwd_partial` and `C24_jvp_partial`. -/
example : twiceRX.Plain ∧ Setting so 1 [("a", .num 1)] twiceRX.gates [[], []] (.vec zero1) [obsZ]
      [gateMat 1 StdGate.Z.mat [0] []] ∧ ¬ SingleUse twiceRX.gates ∧
    (∀ p ∈ ([("a", .num 1)] : Values).map Prod.fst, ∃ g ∈ twiceRX.gates, g.Uses p) ∧
    (∀ g ∈ twiceRX.gates, g.Registered) ∧ (∀ o ∈ [obsZ], Op.AllRegistered o.ops) ∧
    ∃ fresh : ℕ → String, Function.Injective fresh := by
  refine ⟨twiceRX_plain, twiceSetting so ⟨by simp, by simp⟩ rfl, twice_not_single, ?_, twice_registered, obsZ_registered,
    ?_⟩
  · simp only [List.map_cons, List.map_nil, List.mem_singleton, forall_eq]
    exact ⟨Gate.RX (.str "a") (.int 0), by simp [twiceRX_gates], rfl⟩
  · exact ⟨fun i => String.ofList (List.replicate i 'x'), fun i j h => by
      simpa using congrArg List.length (String.ofList_injective h)⟩

theorem twice_value {v : Values} {x : ℝ} (h : v.lookup "a" = some (.num x)) :
    gatesExpectation so (.vec zero1) [obsZ] (.list twiceRX.gates) v = .ok [Real.cos (2 * x)] := by
  have hm : (Gate.RX (.str "a") (.int 0)).mat 1 .unitary v = gateMat 1 (StdGate.RX x).mat [0] [] := (rxStd h).mat
  rw [gatesExpectation_pure (n := 1) (O := gateMat 1 StdGate.Z.mat [0] []) (by simp [twiceRX_gates]) (by
    simp only [twiceRX_gates, List.mem_cons, List.not_mem_nil, or_false, or_self, forall_eq]
    exact (rxStd h).ok) (by simp [twiceRX_gates, Gate.RX, mkGate]) zero1_isKet (obsZ_fixed so _)]
  rw [twiceRX_gates, gatesMat, gatesMat, gatesMat, hm, one_mul, sum_lab1]
  simp only [← Matrix.mulVec_mulVec, mulVec_lab1, ket, zero1_get, StdGate.mat, matE]
  have hs := Real.sin_sq_add_cos_sq (x / 2)
  have h2 : Real.cos (2 * x) = 2 * (2 * Real.cos (x / 2) ^ 2 - 1) ^ 2 - 1 := by
    rw [Real.cos_two_mul, ← Real.cos_two_mul (x / 2)]; ring_nf
  refine congrArg (fun z => Except.ok [z]) ?_
  rw [h2]
  clear h2
  generalize Real.cos (x / 2) = c at hs ⊢
  generalize Real.sin (x / 2) = d at hs ⊢
  norm_num [Complex.add_re, Complex.mul_re, Complex.mul_im, Complex.add_im]
  have hd : d ^ 2 = 1 - c ^ 2 := by linarith
  have hd4 : d ^ 4 = (1 - c ^ 2) ^ 2 := by rw [← hd]; ring
  ring_nf
  rw [hd, hd4]
  ring

/-- One rotation. -/
noncomputable def onceRX : Op := mkSeq [.prim (Gate.RX (.str "a") (.int 0))]

theorem onceRX_gates : onceRX.gates = [Gate.RX (.str "a") (.int 0)] := rfl

/-- `Observable([QuantumCircuit(1, [Z(0)])])`. -/
def obsCircuitZ : Observable := Observable.new (.list [mkCircuit 1 (.list [.prim (Gate.Z (.int 0))])])

theorem obsCircuitZ_fixed : obsCircuitZ.Fixed so 1 False (gateMat 1 StdGate.Z.mat [0] []) := fun v => by
  refine ⟨?_, False.elim⟩
  have h : Op.MeansSeq (StdLeaf 1 v) v [.prim (Gate.Z (.int 0))] (1 * gateMat 1 StdGate.Z.mat [0] []) :=
    .cons (.gate (leafZ (values := v))) .nil
  rw [one_mul] at h
  exact .one (.circ 1 [] h)

theorem once_value {v : Values} {x : ℝ} (h : v.lookup "a" = some (.num x)) :
    gatesExpectation so (.vec zero1) [obsCircuitZ] (.list onceRX.gates) v = .ok [Real.cos x] := by
  have hm : (Gate.RX (.str "a") (.int 0)).mat 1 .unitary v = gateMat 1 (StdGate.RX x).mat [0] [] := (rxStd h).mat
  rw [gatesExpectation_pure (n := 1) (O := gateMat 1 StdGate.Z.mat [0] []) (by simp [onceRX_gates]) (by
    simp only [onceRX_gates, List.mem_cons, List.not_mem_nil, or_false, forall_eq]
    exact (rxStd h).ok) (by simp [onceRX_gates, Gate.RX, mkGate]) zero1_isKet (obsCircuitZ_fixed so)]
  rw [onceRX_gates, gatesMat, gatesMat, hm, one_mul, sum_lab1]
  simp only [mulVec_lab1, ket, zero1_get, StdGate.mat, matE]
  have hs := Real.sin_sq_add_cos_sq (x / 2)
  have h2 : Real.cos x = 2 * Real.cos (x / 2) ^ 2 - 1 := by
    rw [← Real.cos_two_mul (x / 2)]; ring_nf
  refine congrArg (fun z => Except.ok [z]) ?_
  rw [h2]
  clear h2
  generalize Real.cos (x / 2) = c at hs ⊢
  generalize Real.sin (x / 2) = d at hs ⊢
  norm_num [Complex.add_re, Complex.mul_re, Complex.mul_im, Complex.add_im]
  nlinarith

theorem once_jitted {v : Values} {x : ℝ} (h : v.lookup "a" = some (.num x)) :
    jittedExpectation so (.vec zero1) [obsCircuitZ] (.list onceRX.gates) v = .ok [1] := by
  have hm : (Gate.RX (.str "a") (.int 0)).mat 1 .unitary v = gateMat 1 (StdGate.RX x).mat [0] [] := (rxStd h).mat
  have hj : jittedExpectation so (.vec zero1) [obsCircuitZ] (.list onceRX.gates) v
      = gatesExpectation so (.vec zero1) [⟨[.comp (.circ 0 []) []]⟩] (.list onceRX.gates) v := rfl
  rw [hj, gatesExpectation_pure (n := 1) (O := 1) (by simp [onceRX_gates]) (by
    simp only [onceRX_gates, List.mem_cons, List.not_mem_nil, or_false, forall_eq]
    exact (rxStd h).ok) (by simp [onceRX_gates, Gate.RX, mkGate]) zero1_isKet
    (fun v => ⟨.one (.circ 0 [] .nil), False.elim⟩)]
  rw [onceRX_gates, gatesMat, gatesMat, hm, one_mul, sum_lab1]
  simp only [mulVec_lab1, ket, zero1_get, StdGate.mat, matE, Matrix.one_mulVec]
  have hs := Real.sin_sq_add_cos_sq (x / 2)
  refine congrArg (fun z => Except.ok [z]) ?_
  generalize Real.cos (x / 2) = c at hs ⊢
  generalize Real.sin (x / 2) = d at hs ⊢
  norm_num [Complex.add_re, Complex.mul_re, Complex.mul_im, Complex.add_im]
  nlinarith

/-- **C23 is false of the code for observables that contain a `QuantumCircuit`**: for the circuit `[RX("a", 0)]` on `|0⟩`
and `Observable([QuantumCircuit(1, [Z(0)])])`, the expectation value is `cos x` and its derivative `-sin x`, but the
backward pass returns `0`: it calls a function compiled by `jax.jit`, whose pytree round trip replaces the circuit by one
without operations. -/
theorem C23_circuit_wrong (x : ℝ) :
    let values : Values := [("a", .num x)]
    IsPartial (fun v => expectation so eigh draw (.vec zero1) onceRX [obsCircuitZ] v .gpsr 0) values "a" [-Real.sin x] ∧
    gpsrBwd eigh (jittedExpectation so (.vec zero1) [obsCircuitZ]) (.list onceRX.gates) values = .ok [0] := by
  intro values
  have hnum : values.Numeric := ⟨by simp [values], by simp [values]⟩
  have hle : (extractGateNames onceRX.gates).length ≤ values.keys.length := by
    simp [extractGateNames, onceRX_gates, Gate.RX, mkGate, Gate.paramName, Values.keys, values]
  refine ⟨⟨x, fun t => [Real.cos t], rfl, fun t => ?_, fun t => rfl, fun i => ?_⟩, ?_⟩
  · exact (expectation_gates so eigh draw (.seq (.cons (.prim _) .nil)) _).trans (once_value so rfl)
  · cases i with
    | zero => simpa using Real.hasDerivAt_cos x
    | succ i => simpa using hasDerivAt_const x (0 : ℝ)
  · rw [plain_bwd hnum (by simp [values]) hle eigh (f := fun _ _ => [1]) fun p hp t => by
      simp only [values, Values.keys, List.map_cons, List.map_nil, List.mem_singleton] at hp
      subst hp
      exact once_jitted so rfl]
    simp [values, Values.keys, halfDiff]

/-- The parameter-shift rule for `twiceRX` with an unused value, for any evaluation that returns the expectation value. -/
theorem twice_unused {F : GateArg → Values → Py (List ℝ)} {x y : ℝ}
    (hF : ∀ p t, F (.list twiceRX.gates) (Values.upd [("a", .num x), ("b", .num y)] p t)
      = gatesExpectation so (.vec zero1) [obsZ] (.list twiceRX.gates) (Values.upd [("a", .num x), ("b", .num y)] p t))
    (fresh : ℕ → String) :
    gpsrBwd eigh F (.list twiceRX.gates) [("a", .num x), ("b", .num y)] = .ok [0, 0] ∧
    gpsrJvp eigh fresh F (.list twiceRX.gates) [("a", .num x), ("b", .num y)] [1, 0] = .ok ([Real.cos (2 * x)], [0]) := by
  set values : Values := [("a", .num x), ("b", .num y)] with hvals
  have hnum : values.Numeric := ⟨by simp [values], by simp [values]⟩
  have hle : (extractGateNames twiceRX.gates).length ≤ values.keys.length := by
    simp [extractGateNames, twiceRX_gates, Gate.RX, mkGate, Gate.paramName, Values.keys, values]
  let f : String → ℝ → List ℝ := fun p t => if p = "a" then [Real.cos (2 * t)] else [Real.cos (2 * x)]
  have hF' : ∀ p ∈ values.keys, ∀ t, F (.list twiceRX.gates) (values.upd p t) = .ok (f p t) := by
    intro p hp t
    rw [hF p t]
    simp only [values, Values.keys, List.map_cons, List.map_nil, List.mem_cons, List.not_mem_nil, or_false] at hp
    rcases hp with rfl | rfl
    · exact twice_value so rfl
    · exact twice_value so rfl
  have hfwd : F (.list twiceRX.gates) values = .ok [Real.cos (2 * x)] := (hF' "a" (by simp [values, Values.keys]) x)
  have hda : ∀ z, halfDiff (f "a") z = [0] := by
    intro z
    have e : Real.cos (2 * (z + Real.pi / 2)) = Real.cos (2 * (z - Real.pi / 2)) := by
      rw [show 2 * (z + Real.pi / 2) = 2 * (z - Real.pi / 2) + 2 * Real.pi by ring, Real.cos_add_two_pi]
    simp [halfDiff, f, e]
  have hdb : ∀ z, halfDiff (f "b") z = [0] := by
    intro z
    simp [halfDiff, f]
  constructor
  · rw [plain_bwd hnum (by simp [values]) hle eigh (f := f) hF']
    simp [values, Values.keys, hdb, hda]
  · rw [plain_jvp hnum (by simp [values]) hle eigh fresh (f := f) hfwd hF']
    simp [values, Values.keys, hda]

/-- **C24 is false of the code when `values` has a key that no gate uses**: for the circuit `[RX("a", 0), RX("a", 0)]` on
`|0⟩`, the observable `Z(0)` and `values = {"a": x, "b": y}`, the expectation value is `cos 2x`, its derivative with respect
to `a` is `-2 sin 2x`, but both the backward pass and the JVP return `0`: there are as many values as gates, so the
repetition is not noticed. -/
theorem C24_unused_wrong (fresh : ℕ → String) (x y : ℝ) :
    let values : Values := [("a", .num x), ("b", .num y)]
    IsPartial (fun v => expectation so eigh draw (.vec zero1) twiceRX [obsZ] v .gpsr 0) values "a" [-2 * Real.sin (2 * x)] ∧
    gpsrBwd eigh (jittedExpectation so (.vec zero1) [obsZ]) (.list twiceRX.gates) values = .ok [0, 0] ∧
    gpsrJvp eigh fresh (gatesExpectation so (.vec zero1) [obsZ]) (.list twiceRX.gates) values [1, 0]
      = .ok ([Real.cos (2 * x)], [0]) := by
  intro values
  refine ⟨⟨x, fun t => [Real.cos (2 * t)], rfl, fun t => ?_, fun t => rfl, fun i => ?_⟩,
    (twice_unused so eigh (fun p t => jittedExpectation_eq so _ twice_registered obsZ_registered) fresh).1,
    (twice_unused so eigh (fun p t => rfl) fresh).2⟩
  · exact (expectation_gates so eigh draw twiceRX_plain _).trans (twice_value so rfl)
  · cases i with
    | zero =>
      have h1 : HasDerivAt (fun t : ℝ => 2 * t) (2 * 1) x := (hasDerivAt_id x).const_mul 2
      have h2 := h1.cos
      simpa [mul_comm] using h2
    | succ i => simpa using hasDerivAt_const x (0 : ℝ)

/-- **C24 is false of the code when `values` has a key that no gate uses** (other sizes): if all gates have parameter
names and there are more gates than values, both gradients raise ValueError. -/
theorem C24_unused_raises (h : Setting so n values gs nss st obs Os) (hnamed : ∀ g ∈ gs, ∃ p, g.Uses p)
    (hlen : values.length < gs.length) {q : String} (hq : q ∈ values.map Prod.fst) (hun : ∀ g ∈ gs, ¬ g.Uses q)
    (hr : ∀ g ∈ gs, g.Registered) (hro : ∀ o ∈ obs, Op.AllRegistered o.ops)
    {fresh : ℕ → String} (hf : Function.Injective fresh) (ts : List ℝ) :
    gpsrBwd eigh (jittedExpectation so st obs) (.list gs) values = .error .valueError ∧
    gpsrJvp eigh fresh (gatesExpectation so st obs) (.list gs) values ts = .error .valueError := by
  have hnames : (extractGateNames gs).length = gs.length := by
    have h' := hnamed
    clear h hlen hun hr hnamed
    induction gs with
    | nil => rfl
    | cons g gs ih =>
      obtain ⟨p, hp⟩ := h' g (by simp)
      rw [extractGateNames, List.filterMap_cons_some ((Gate.uses_iff _ _).1 hp), List.length_cons, List.length_cons]
      exact congrArg (· + 1) (ih fun g hg => h' g (by simp [hg]))
  have hgt : values.keys.length < (extractGateNames gs).length := by simpa [Values.keys, hnames] using hlen
  have hs : ¬ SingleUse gs := fun hs => absurd (extractGateNames_le h.toBaseSetting hs) (not_le.2 hgt)
  exact ⟨h.bwd_unused hs hr eigh (h.not_controlled fun g hg _ => hr g hg) hgt (fun _ hr' _ => jittedExpectation_eq so _ hr' hro) hq hun,
    h.jvp_unused hs (fun g hg _ => hr g hg) eigh (h.not_controlled fun g hg _ => hr g hg) hgt hf hq hun ts⟩

/-- Non-vacuity of `C24_unused_raises`: `[RX("a", 0)] * 3` with values for `a` and `b`. -/
example : ∃ gs : List Gate, Setting so 1 [("a", .num 1), ("b", .num 2)] gs [[], [], []] (.vec zero1) [obsZ]
      [gateMat 1 StdGate.Z.mat [0] []] ∧ (∀ g ∈ gs, ∃ p, g.Uses p) ∧ 2 < gs.length ∧ (∀ g ∈ gs, ¬ g.Uses "b") ∧
    ∀ g ∈ gs, g.Registered := by
  have hall : ∀ {P : Gate → Prop}, P (Gate.RX (.str "a") (.int 0)) → ∀ g ∈ List.replicate 3 (Gate.RX (.str "a") (.int 0)), P g :=
    fun hP g hg => by rw [List.eq_of_mem_replicate hg]; exact hP
  refine ⟨List.replicate 3 (Gate.RX (.str "a") (.int 0)), ⟨⟨by simp, hall ⟨_, rxStd rfl⟩,
    .cons (.none rfl) (.cons (.none rfl) (.cons (.none rfl) .nil)), zero1_isKet, ⟨by simp, by simp⟩, by simp,
    .cons (obsZ_fixed so _) .nil⟩, hall fun _ _ => .inl rfl⟩, hall ⟨"a", rfl⟩, by simp, hall ?_, hall trivial⟩
  simp [Gate.Uses, Gate.RX, mkGate]

/-! ## C25 -/

/-- The circuit `[RX("a", 1, control=0)]`. -/
noncomputable def ctlRX : Op := mkSeq [.prim (Gate.RX (.str "a") (.int 1) (.int 0))]

theorem ctlRX_plain : ctlRX.Plain := .seq (.cons (.prim _) .nil)

theorem ctlRX_gates : ctlRX.gates = [Gate.RX (.str "a") (.int 1) (.int 0)] := rfl

/-- The state `(|00⟩ + |10⟩) / √2`. -/
noncomputable def plusZero : NDArray ℂ := ⟨[2, 2], [((Real.sqrt 2 / 2 : ℝ) : ℂ), 0, ((Real.sqrt 2 / 2 : ℝ) : ℂ), 0]⟩

theorem plusZero_isKet : IsKet 2 plusZero := ⟨rfl, rfl⟩

theorem plusZero_get (i j : Fin 2) : plusZero.get (lab2 i j).bits = if j = 0 then ((Real.sqrt 2 / 2 : ℝ) : ℂ) else 0 := by
  rw [lab2_bits]; fin_cases i <;> fin_cases j <;> rfl

/-- The observable `X(0)`. -/
def obsX0 : Observable := Observable.new (.list [.prim (Gate.X (.int 0))])

theorem obsX0_leaf (v : Values) : StdLeaf 2 v (Gate.X (.int 0)) (gateMat 2 StdGate.X.mat [0] []) :=
  ⟨.X, ⟨.X _ _ _, rfl, ⟨.inr (.inl rfl), by decide⟩⟩, rfl, rfl⟩

theorem obsX0_fixed : obsX0.Fixed so 2 False (gateMat 2 StdGate.X.mat [0] []) := fun v =>
  ⟨.one (.gate (obsX0_leaf v)), False.elim⟩

theorem ctlRX_std {v : Values} {x : ℝ} (h : v.lookup "a" = some (.num x)) :
    (Gate.RX (.str "a") (.int 1) (.int 0)).Std 2 v (.RX x) :=
  ⟨.RX _ _ _ (.str h) (by simp), rfl, ⟨.inr (.inr ⟨[0], rfl⟩), by decide⟩⟩

theorem ctlRX_value {v : Values} {x : ℝ} (h : v.lookup "a" = some (.num x)) :
    gatesExpectation so (.vec plusZero) [obsX0] (.list ctlRX.gates) v = .ok [Real.cos (x / 2)] := by
  have hm : (Gate.RX (.str "a") (.int 1) (.int 0)).mat 2 .unitary v = gateMat 2 (StdGate.RX x).mat [1] [0] := (ctlRX_std h).mat
  rw [gatesExpectation_pure (n := 2) (O := gateMat 2 StdGate.X.mat [0] []) (by simp [ctlRX_gates]) (by
    simp only [ctlRX_gates, List.mem_singleton, forall_eq]
    exact (ctlRX_std h).ok) (by simp [ctlRX_gates, Gate.RX, mkGate]) plusZero_isKet (obsX0_fixed so)]
  rw [ctlRX_gates, gatesMat, gatesMat, hm, one_mul, sum_lab2]
  simp only [mulVec_lab2, gateMat_lab2_first, gateMat_lab2_ctl, ket, plusZero_get, StdGate.mat, matE]
  refine congrArg (fun z => Except.ok [z]) ?_
  have h2 : (Real.sqrt 2 / 2) * (Real.sqrt 2 / 2) = 1 / 2 := by
    rw [div_mul_div_comm, Real.mul_self_sqrt (by norm_num)]; norm_num
  generalize Real.sqrt 2 / 2 = r at h2 ⊢
  generalize Real.cos (x / 2) = c
  generalize Real.sin (x / 2) = d
  norm_num [Complex.add_re, Complex.mul_re, Complex.mul_im, Complex.add_im]
  linear_combination 2 * c * h2

theorem ctlRX_registered : ∀ g ∈ ctlRX.gates, g.Registered := by
  simp [ctlRX_gates, Gate.Registered, Gate.RX, mkGate]

theorem obsX0_registered : ∀ o ∈ [obsX0], Op.AllRegistered o.ops := by
  simp [obsX0, Observable.new, OpArg.toList, Op.Registered, Op.AllRegistered, Gate.Registered, Gate.X, mkGate]

/-- **C25 is false of the code**: for the circuit `[RX("a", 1, control=0)]` on `(|00⟩ + |10⟩)/√2` and the observable
`X(0)`, the expectation value is `cos (x/2)` and its derivative `-sin (x/2) / 2`, but both gradients are
`-√2/2 · sin (x/2)`, i.e. `√2` times the derivative. -/
theorem C25_controlled_wrong (fresh : ℕ → String) (x : ℝ) :
    let values : Values := [("a", .num x)]
    IsPartial (fun v => expectation so eigh draw (.vec plusZero) ctlRX [obsX0] v .gpsr 0) values "a"
      [-(1 / 2) * Real.sin (x / 2)] ∧
    gpsrBwd eigh (jittedExpectation so (.vec plusZero) [obsX0]) (.list ctlRX.gates) values
      = .ok [-(Real.sqrt 2 / 2) * Real.sin (x / 2)] ∧
    gpsrJvp eigh fresh (gatesExpectation so (.vec plusZero) [obsX0]) (.list ctlRX.gates) values [1]
      = .ok ([Real.cos (x / 2)], [-(Real.sqrt 2 / 2) * Real.sin (x / 2)]) := by
  intro values
  have hnum : values.Numeric := ⟨by simp [values], by simp [values]⟩
  have hle : (extractGateNames ctlRX.gates).length ≤ values.keys.length := by
    simp [extractGateNames, ctlRX_gates, Gate.RX, mkGate, Gate.paramName, Values.keys, values]
  have hF : ∀ p ∈ values.keys, ∀ t, gatesExpectation so (.vec plusZero) [obsX0] (.list ctlRX.gates) (values.upd p t)
      = .ok ((fun t => [Real.cos (t / 2)]) t) := by
    intro p hp t
    simp only [values, Values.keys, List.map_cons, List.map_nil, List.mem_singleton] at hp
    subst hp
    exact ctlRX_value so rfl
  have hd : halfDiff (fun t => [Real.cos (t / 2)]) (values.real "a") = [-(Real.sqrt 2 / 2) * Real.sin (x / 2)] := by
    have hr : values.real "a" = x := rfl
    rw [hr, halfDiff, show (x + Real.pi / 2) / 2 = x / 2 + Real.pi / 4 by ring,
      show (x - Real.pi / 2) / 2 = x / 2 - Real.pi / 4 by ring, Real.cos_add, Real.cos_sub, Real.sin_pi_div_four]
    simp only [List.zipWith_cons_cons, List.zipWith_nil_left]
    congr 1
    ring
  refine ⟨⟨x, fun t => [Real.cos (t / 2)], rfl, fun t => ?_, fun t => rfl, fun i => ?_⟩, ?_, ?_⟩
  · exact (expectation_gates so eigh draw ctlRX_plain _).trans (ctlRX_value so rfl)
  · cases i with
    | zero =>
      have h1 : HasDerivAt (fun t : ℝ => t / 2) (1 / 2) x := (hasDerivAt_id x).div_const 2
      have h2 := h1.cos
      simpa [mul_comm] using h2
    | succ i => simpa using hasDerivAt_const x (0 : ℝ)
  · rw [plain_bwd hnum (by simp [values]) hle eigh (f := fun _ t => [Real.cos (t / 2)]) fun p hp t => by
      rw [jittedExpectation_eq so _ ctlRX_registered obsX0_registered, hF p hp t]]
    simp only [Values.keys, values, List.map_cons, List.map_nil]
    rw [hd]; simp
  · rw [plain_jvp hnum (by simp [values]) hle eigh fresh (f := fun _ t => [Real.cos (t / 2)]) (ctlRX_value so rfl) hF]
    simp only [Values.keys, values, List.map_cons, List.map_nil, List.zipWith_cons_cons, List.zipWith_nil_left]
    rw [hd]; simp

/-- The two gradients of `C25_controlled_wrong` differ, e.g. at `x = π`. -/
example : -(Real.sqrt 2 / 2) * Real.sin (Real.pi / 2) ≠ -(1 / 2) * Real.sin (Real.pi / 2) := by
  rw [Real.sin_pi_div_two]
  have := Real.one_lt_sqrt_two
  intro h
  linarith

/-- The cause in the repeated-parameter path: `spectral_gap` of a controlled `RX`, `RY` or `RZ` is `1`, because zeros are
added to the eigenvalues `±1` and only the smallest difference is kept; the frequencies of the expectation value are the
halves of the differences `1` and `2`. -/
theorem C25_controlled_gap {p : Param} {sh : ℝ} {nm : String} {ts : List ℕ} {c : Ctl} {nz : Option (List NoiseInstance)}
    (hnm : nm = "X" ∨ nm = "Y" ∨ nm = "Z") (hc : isControlled c = true) :
    (⟨.parametric p sh, nm, ts, c, nz, false⟩ : Gate).spectralGap eigh = .ok 1 :=
  spectralGap_ctl eigh hnm hc

/-- Non-vacuity of `C25_controlled_gap`. -/
example : isControlled (Gate.RX (.str "a") (.int 1) (.int 0)).control = true := rfl

end Verif
