import Verif.Props.Gpsr

/-!
# C58: a parameter name shared by `PHASE` and another rotation

The exact JVP is proved for shared `RX`, `RY`, `RZ` gates (`C24_jvp_partial`) and for `PHASE` gates with a name of their own
(`C23_jvp`).
-/

namespace Verif
set_option autoImplicit false
open NDArray
variable (so : SetOrder) (eigh : Eigh) (draw : Draw)

/-- The circuit `[H(0), PHASE("a", 0), RX("a", 0)]`. -/
noncomputable def sharedPhase : Op := mkSeq [.prim (Gate.H (.int 0)), .prim (Gate.PHASE (.str "a") (.int 0)),
  .prim (Gate.RX (.str "a") (.int 0))]

theorem sharedPhase_plain : sharedPhase.Plain := .seq (.cons (.prim _) (.cons (.prim _) (.cons (.prim _) .nil)))

theorem sharedPhase_gates : sharedPhase.gates = [Gate.H (.int 0), Gate.PHASE (.str "a") (.int 0),
    Gate.RX (.str "a") (.int 0)] := rfl

theorem hStd (v : Values) : (Gate.H (.int 0)).Std 1 v .H := ⟨.H _ _ _, rfl, ⟨.inr (.inl rfl), by decide⟩⟩

theorem phaseStd {v : Values} {x : ℝ} (h : v.lookup "a" = some (.num x)) :
    (Gate.PHASE (.str "a") (.int 0)).Std 1 v (.PHASE x) :=
  ⟨.PHASE _ _ _ (.str h) (by simp), rfl, ⟨.inr (.inl rfl), by decide⟩⟩

theorem rxStd_named {v : Values} {p : String} {x : ℝ} (h : v.lookup p = some (.num x)) :
    (Gate.RX (.str p) (.int 0)).Std 1 v (.RX x) :=
  ⟨.RX _ _ _ (.str h) (by simp), rfl, ⟨.inr (.inl rfl), by show ValidDims 1 [0]; decide⟩⟩

theorem sharedPhase_value {v : Values} {x : ℝ} (h : v.lookup "a" = some (.num x)) :
    gatesExpectation so (.vec zero1) [obsZ] (.list sharedPhase.gates) v = .ok [Real.sin x ^ 2] := by
  have hm0 : (Gate.H (.int 0)).mat 1 .unitary v = gateMat 1 StdGate.H.mat [0] [] := (hStd v).mat
  have hm1 : (Gate.PHASE (.str "a") (.int 0)).mat 1 .unitary v = gateMat 1 (StdGate.PHASE x).mat [0] [] := (phaseStd h).mat
  have hm2 : (Gate.RX (.str "a") (.int 0)).mat 1 .unitary v = gateMat 1 (StdGate.RX x).mat [0] [] := (rxStd h).mat
  rw [gatesExpectation_pure (n := 1) (O := gateMat 1 StdGate.Z.mat [0] []) (by simp [sharedPhase_gates]) (by
    simp only [sharedPhase_gates, List.mem_cons, List.not_mem_nil, or_false, forall_eq_or_imp, forall_eq]
    exact ⟨(hStd v).ok, (phaseStd h).ok, (rxStd h).ok⟩)
    (by simp [sharedPhase_gates, Gate.RX, Gate.H, Gate.PHASE, mkGate]) zero1_isKet (obsZ_fixed so _)]
  rw [sharedPhase_gates, gatesMat, gatesMat, gatesMat, gatesMat, hm0, hm1, hm2, one_mul, sum_lab1]
  simp only [← Matrix.mulVec_mulVec, mulVec_lab1, ket, zero1_get, StdGate.mat, matE]
  refine congrArg (fun z => Except.ok [z]) ?_
  have he : Complex.exp (Complex.I * x) = Real.cos x + Complex.I * Real.sin x := by
    rw [mul_comm, Complex.exp_mul_I, ← Complex.ofReal_cos, ← Complex.ofReal_sin]; ring
  have hs := Real.sin_sq_add_cos_sq (x / 2)
  have h2 : Real.sin x = 2 * Real.sin (x / 2) * Real.cos (x / 2) := by
    rw [← Real.sin_two_mul]; ring_nf
  have h3 : Real.cos x = 2 * Real.cos (x / 2) ^ 2 - 1 := by
    rw [← Real.cos_two_mul]; ring_nf
  rw [he, h2, h3]
  clear he h2 h3 hm0 hm1 hm2 h
  generalize Real.cos (x / 2) = c at hs ⊢
  generalize Real.sin (x / 2) = d at hs ⊢
  have hr : √2 * √2 = 2 := Real.mul_self_sqrt (by norm_num)
  norm_num [Complex.add_re, Complex.mul_re, Complex.mul_im, Complex.add_im, ← Complex.ofReal_pow]
  generalize √2 = r at hr ⊢
  linear_combination ((c + 2 * d ^ 2 * c) ^ 2 - (c * (2 * c ^ 2 - 1)) ^ 2) / 4 * hr + 2 * c ^ 2 * (d ^ 2 - c ^ 2) * hs

/-- The `PHASE` gate after `new_named_parametric`: a `Parametric` gate with the generator name `"I"`. -/
noncomputable def renamedPhase (p : String) : Gate := newNamed (Gate.PHASE (.str "a") (.int 0)) p

theorem renamedPhase_op {p : String} {v : Values} {x : ℝ} (h : v.lookup p = some (.num x)) :
    (renamedPhase p).operator .unitary v = .ok (mat2 (Real.cos (x / 2) - Complex.I * Real.sin (x / 2)) 0 0
      (Real.cos (x / 2) - Complex.I * Real.sin (x / 2))) := by
  have hp : parseValues (.str p) 0 v = .ok x := by
    rw [parseValues_ok (s := 0) (.str h), add_zero]
  have hr : rotUnitary matId x = .ok (mat2 (Real.cos (x / 2) - Complex.I * Real.sin (x / 2)) 0 0
      (Real.cos (x / 2) - Complex.I * Real.sin (x / 2))) := by
    rw [matId, rotUnitary_mat2]; simp
  simp only [renamedPhase, newNamed, Gate.PHASE, mkGate, Gate.operator, Gate.unitary, hp, Gate.generator,
    operationsDict, bind, Except.bind]
  simpa using hr

theorem renamedPhase_ok {p : String} {v : Values} {x : ℝ} (h : v.lookup p = some (.num x)) :
    (renamedPhase p).Ok 1 .unitary v :=
  ⟨⟨_, renamedPhase_op h, isOp_mat2 _ _ _ _⟩, ⟨.inr (.inl rfl), by show ValidDims 1 [0]; decide⟩⟩

theorem renamedPhase_mat {p : String} {v : Values} {x : ℝ} (h : v.lookup p = some (.num x)) :
    (renamedPhase p).mat 1 .unitary v = gateMat 1 (matE !![Real.cos (x / 2) - Complex.I * Real.sin (x / 2), 0; 0,
      Real.cos (x / 2) - Complex.I * Real.sin (x / 2)]) [0] [] :=
  gate_mat_eq (renamedPhase_op h) fun _ _ hi hj => entries_mat2 _ _ _ _ hi hj

/-- The renamed circuit: the phase gate has become a global phase, so that the value is `0` for all parameters. -/
theorem renamed_value {p q : String} {v : Values} {x y : ℝ} (h : v.lookup p = some (.num x))
    (h' : v.lookup q = some (.num y)) :
    gatesExpectation so (.vec zero1) [obsZ]
      (.list [Gate.H (.int 0), renamedPhase p, Gate.RX (.str q) (.int 0)]) v = .ok [0] := by
  have hm0 : (Gate.H (.int 0)).mat 1 .unitary v = gateMat 1 StdGate.H.mat [0] [] := (hStd v).mat
  have hm2 : (Gate.RX (.str q) (.int 0)).mat 1 .unitary v = gateMat 1 (StdGate.RX y).mat [0] [] := (rxStd_named h').mat
  rw [gatesExpectation_pure (n := 1) (O := gateMat 1 StdGate.Z.mat [0] []) (by simp) (by
    simp only [List.mem_cons, List.not_mem_nil, or_false, forall_eq_or_imp, forall_eq]
    exact ⟨(hStd v).ok, renamedPhase_ok h, (rxStd_named h').ok⟩)
    (by simp [Gate.RX, Gate.H, Gate.PHASE, mkGate, renamedPhase, newNamed]) zero1_isKet (obsZ_fixed so _)]
  rw [gatesMat, gatesMat, gatesMat, gatesMat, hm0, renamedPhase_mat h, hm2, one_mul, sum_lab1]
  simp only [← Matrix.mulVec_mulVec, mulVec_lab1, ket, zero1_get, StdGate.mat, matE]
  refine congrArg (fun z => Except.ok [z]) ?_
  clear hm0 hm2 h h'
  generalize Real.cos (x / 2) = c
  generalize Real.sin (x / 2) = d
  generalize Real.cos (y / 2) = e
  generalize Real.sin (y / 2) = f
  norm_num [Complex.add_re, Complex.mul_re, Complex.mul_im, Complex.add_im, ← Complex.ofReal_pow]
  ring

theorem renamedPhase_gap (p : String) : ∃ w, (renamedPhase p).spectralGap eigh = .ok w := by
  have h : ∃ l, eigvalsh eigh matId = .ok l := ⟨_, by simp only [eigvalsh, matId, mat2]; rw [if_pos trivial]⟩
  obtain ⟨l, h⟩ := h
  have hg : (renamedPhase p).generator = .ok matId := by
    simp [renamedPhase, newNamed, Gate.PHASE, mkGate, Gate.generator, operationsDict]
  refine ⟨firstNonzero (unique2 (trilDiffs l)), ?_⟩
  · simp only [Gate.spectralGap, renamedPhase, newNamed, Gate.PHASE, mkGate, Gate.eigenvalsGenerator]
    simp only [renamedPhase, newNamed, Gate.PHASE, mkGate] at hg
    simp only [hg, h, bind, Except.bind, pure, Except.pure]
    rfl

/-- **The exact JVP is silently wrong when a `PHASE` gate shares its parameter name with another gate**: for the circuit
`[H(0), PHASE("a", 0), RX("a", 0)]` on `|0⟩`, the observable `Z(0)` and `values = {"a": x}`, the expectation value is
`sin² x` with the derivative `2 sin x cos x`, but the JVP is `0` for all `x` and all tangents: `new_named_parametric` turns
the phase gate into a `Parametric` gate with the generator `"I"`, which is only a global phase. -/
theorem C58_shared_phase_wrong {fresh : ℕ → String} (hf : Function.Injective fresh) (x t : ℝ) :
    let values : Values := [("a", .num x)]
    IsPartial (fun v => expectation so eigh draw (.vec zero1) sharedPhase [obsZ] v .gpsr 0) values "a"
      [2 * Real.sin x * Real.cos x] ∧
    gpsrJvp eigh fresh (gatesExpectation so (.vec zero1) [obsZ]) (.list sharedPhase.gates) values [t]
      = .ok ([Real.sin x ^ 2], [0]) := by
  intro values
  have hne : fresh 1 ≠ fresh 2 := fun h => absurd (hf h) (by decide)
  refine ⟨⟨x, fun t => [Real.sin t ^ 2], rfl, fun t => ?_, fun t => rfl, fun i => ?_⟩, ?_⟩
  · exact (expectation_gates so eigh draw sharedPhase_plain _).trans (sharedPhase_value so rfl)
  · cases i with
    | zero => 
      have h := (Real.hasDerivAt_sin x).mul (Real.hasDerivAt_sin x)
      simp only [List.getD_cons_zero, pow_two]
      exact h.congr_deriv (by ring)
    | succ i => simpa using hasDerivAt_const x (0 : ℝ)
  · have hren : createRenamed fresh sharedPhase.gates ["a"]
        = [Gate.H (.int 0), renamedPhase (fresh 1), Gate.RX (.str (fresh 2)) (.int 0)] := by
      simp [createRenamed, sharedPhase_gates, Gate.paramName, Gate.H, Gate.PHASE, Gate.RX, mkGate, newNamed, renamedPhase]
    have hidx : paramIndices sharedPhase.gates "a" = [1, 2] := by
      simp [paramIndices, sharedPhase_gates, List.range_succ, Gate.paramName, Gate.H, Gate.PHASE, Gate.RX, mkGate]
    have hnames : extractGateNames sharedPhase.gates = ["a", "a"] := by
      rw [sharedPhase_gates]; rfl
    obtain ⟨w, hw⟩ := renamedPhase_gap eigh (fresh 1)
    have hgap : (Gate.RX (.str (fresh 2)) (.int 0)).spectralGap eigh = .ok 2 :=
      spectralGap_pauli eigh (.inl rfl) rfl
    have hval : ∀ u v : ℝ, gatesExpectation so (.vec zero1) [obsZ]
        (.list [Gate.H (.int 0), renamedPhase (fresh 1), Gate.RX (.str (fresh 2)) (.int 0)])
          [(fresh 1, .num u), (fresh 2, .num v)] = .ok [0] := fun u v =>
      renamed_value so (x := u) (y := v) (by simp) (by
        rw [List.lookup_cons, beq_eq_false_iff_ne.2 hne.symm]; simp)
    have hfwd : gatesExpectation so (.vec zero1) [obsZ] (.list sharedPhase.gates) values = .ok [Real.sin x ^ 2] :=
      sharedPhase_value so rfl
    have hrow : ∀ i, jvpRow (gatesExpectation so (.vec zero1) [obsZ])
        (.list [Gate.H (.int 0), renamedPhase (fresh 1), Gate.RX (.str (fresh 2)) (.int 0)]) [fresh 1, fresh 2] [x, x] 2 i
        = .ok [0] := fun i => by
      simp only [jvpRow, shiftAt, List.mapIdx_cons, List.mapIdx_nil, List.zip_cons_cons, List.zip_nil_left, List.map_cons,
        List.map_nil, hval, bind, Except.bind, gpsrRule_two]
      simp
    have hkeys : values.keys = ["a"] := rfl
    have hrep : hasRepeated sharedPhase.gates ["a"] = .ok true := by simp [hasRepeated, hidx]
    simp only [gpsrJvp, hfwd, hkeys, hnames, hrep, hren, bind, Except.bind, pure, Except.pure]
    have hget : values.get "a" = .ok (.num x) := rfl
    have hvm : List.flatMap (fun p => List.map (fun i => (i, p)) (paramIndices sharedPhase.gates p)) ["a"]
        = [(1, "a"), (2, "a")] := by simp [hidx]
    simp only [hvm, List.mapM_cons, List.mapM_nil, hget, bind, Except.bind, pure, Except.pure, hidx, List.length_cons,
      List.length_nil, List.getElem?_cons_succ, List.getElem?_cons_zero, hw, hgap, List.map_cons, List.map_nil,
      List.zip_cons_cons, List.zip_nil_left, stackValues, jvpScan, List.range_succ, List.range_zero, List.nil_append,
      List.cons_append, List.getLastD_cons, List.getLastD_nil, List.getD_cons_zero, List.getD_cons_succ]
    rw [if_pos (by decide), if_pos trivial, if_neg (by simp)]
    simp only [hrow]
    simp [sumVecs, contract]

/-! ## GPSR without parameters, and with phase gates -/

/-- **C23** (no parameters): the backward rule has nothing to stack when the dictionary of values is empty, whatever the
gates. -/
theorem C23_no_values_refused (eigh : Eigh) (F : GateArg → Values → Py (List ℝ)) (gates : GateArg) :
    gpsrBwd eigh F gates [] = .error .valueError := by
  cases gates with
  | single g => rfl
  | list gs =>
    rw [gpsrBwd]; simp only
    by_cases h : (extractGateNames gs).length > (Values.keys []).length
    · rw [if_pos h]; rfl
    · rw [if_neg h]; rfl

/-- **C23** (no parameters): nor does the forward rule. -/
theorem C23_no_values_jvp_refused (eigh : Eigh) (fresh : ℕ → String) (F : GateArg → Values → Py (List ℝ)) (gates : GateArg)
    {out : List ℝ} (hF : F gates [] = .ok out) (ts : List ℝ) : gpsrJvp eigh fresh F gates [] ts = .error .valueError := by
  cases gates with
  | single g => rw [gpsrJvp, hF]; rfl
  | list gs =>
    rw [gpsrJvp, hF]
    simp only [except_bind]
    by_cases h : (extractGateNames gs).length > (Values.keys []).length
    · rw [if_pos h]; rfl
    · rw [if_neg h]; rfl

theorem mapM_refused {α β : Type*} {f : α → Py β} {l : List α} {x : α} (hx : x ∈ l) (hf : ∃ e, f x = .error e) :
    ∃ e, l.mapM f = .error e := by
  induction l with
  | nil => cases hx
  | cons y l ih =>
    rw [List.mapM_cons]
    rcases hy : f y with e | b
    · exact ⟨e, rfl⟩
    · have hne : x ≠ y := by
        rintro rfl
        obtain ⟨e, he⟩ := hf
        rw [hy] at he; cases he
      obtain ⟨e, he⟩ := ih ((List.mem_cons.1 hx).resolve_left hne)
      exact ⟨e, by rw [he]; rfl⟩

theorem shiftJvp_phase (st : State) (obs : List Observable) {gs : List Gate} {k j : ℕ} {g : Gate} (hg : gs[k]? = some g)
    (hjk : j ≠ k) {p : Param} {s : ℝ} (hc : g.cls = .phase p s) (values : Values) :
    ∃ e, shiftJvp eigh (jittedExpectation so st obs) gs values j = .error e := by
  rw [shiftJvp]
  rcases hj : gs[j]? with _ | g'
  · exact ⟨_, rfl⟩
  · simp only []
    rcases g'.spectralGap eigh with e | w
    · exact ⟨_, rfl⟩
    · simp only [except_bind]
      rcases ha : alterGateSequence gs j gpsrShift with e | gs'
      · exact ⟨e, rfl⟩
      · simp only [except_bind]
        have hmem : g ∈ gs' := by
          simp only [alterGateSequence, hj] at ha
          rcases hs : toShift g' gpsrShift with e | t
          · rw [hs] at ha; cases ha
          · rw [hs] at ha
            cases ha
            rcases lt_or_gt_of_ne hjk with h | h
            · refine List.mem_append_right _ (List.mem_iff_getElem?.2 ⟨k - min (j + 1) gs.length, ?_⟩)
              have hk : k < gs.length := (List.getElem?_eq_some_iff.1 hg).1
              rw [List.getElem?_drop, ← hg]
              congr 1
              omega
            · exact List.mem_append_left _ (List.mem_append_left _ (List.mem_iff_getElem?.2 ⟨k, by rw [List.getElem?_take, if_pos h, hg]⟩))
        exact ⟨_, by rw [jit_phase so hmem hc]⟩

/-- **C58** (the backward rule): no circuit with a `PHASE` gate has a parameter-shift gradient in reverse mode, whether or
not parameters are shared and whatever the dictionary of values. -/
theorem C58_bwd_refused (st : State) (obs : List Observable) {gs : List Gate} {g : Gate} (hg : g ∈ gs) {p : Param} {s : ℝ}
    (hc : g.cls = .phase p s) (values : Values) :
    ∃ e, gpsrBwd eigh (jittedExpectation so st obs) (.list gs) values = .error e := by
  have plain : ∃ e, (values.keys.mapM (fun key => (do
      pure (some (← jvpComponent (jittedExpectation so st obs) (.list gs) values key)) : Py (Option (List ℝ))))
        >>= stackSum) = .error e := by
    rcases hk : values.keys with _ | ⟨q, qs⟩
    · exact ⟨.valueError, rfl⟩
    · have : ∃ e, jvpComponent (jittedExpectation so st obs) (.list gs) values q = .error e := by
        rw [jvpComponent]
        rcases values.shiftKey q gpsrShift with e | v
        · exact ⟨e, rfl⟩
        · exact ⟨.typeError, by simp only [except_bind, jit_phase so hg hc]⟩
      obtain ⟨e, he⟩ := this
      exact ⟨e, by rw [List.mapM_cons, he]; rfl⟩
  rw [gpsrBwd]
  simp only
  by_cases h : (extractGateNames gs).length > values.keys.length
  · rw [if_pos h]
    rcases hr : hasRepeated gs values.keys with e | b
    · exact ⟨e, rfl⟩
    · simp only [except_bind]
      cases b with
      | true =>
        obtain ⟨k, hk⟩ := List.mem_iff_getElem?.1 hg
        obtain ⟨key, hkey, hl⟩ : ∃ key ∈ values.keys, 1 < (paramIndices gs key).length := by
          rw [hasRepeated] at hr
          split at hr
          · cases hr
          · simpa using hr
        obtain ⟨j, hj, hjk⟩ : ∃ j ∈ paramIndices gs key, j ≠ k := by
          by_contra hall
          push Not at hall
          have : paramIndices gs key = List.replicate (paramIndices gs key).length k :=
            List.eq_replicate_iff.2 ⟨rfl, hall⟩
          have hnd := paramIndices_nodup (gs := gs) key
          rw [this, List.nodup_replicate] at hnd
          omega
        have hrow : ∃ e, repeatedJvp eigh (jittedExpectation so st obs) gs values key = .error e := by
          obtain ⟨e, he⟩ := mapM_refused hj (shiftJvp_phase so eigh st obs hk hjk hc values)
          exact ⟨e, by rw [repeatedJvp, he]; rfl⟩
        obtain ⟨e, he⟩ := mapM_refused hkey hrow
        exact ⟨e, by rw [if_pos rfl, he]⟩
      | false =>
        rw [if_neg (by simp)]
        rcases spectralGapFromGates gs values.keys with e | _
        · exact ⟨e, rfl⟩
        · simp only [except_bind] at plain ⊢
          exact plain
  · rw [if_neg h]
    exact plain

/-- The witness circuit of C58 has such a gate. -/
example : Gate.PHASE (.str "a") (.int 0) ∈ sharedPhase.gates := by simp [sharedPhase_gates]

/-- **C61** (more named gates than values, none repeated): then some gate has a name without a value, and the backward rule
raises in `spectral_gap_from_gates` before it evaluates anything. -/
theorem C61_missing_refused (F : GateArg → Values → Py (List ℝ)) {gs : List Gate} {values : Values} {q : String} {v : PyVal}
    {rest : Values} (hv : values = (q, v) :: rest) (hlen : values.length < (extractGateNames gs).length)
    (hno : ∀ e ∈ values, (paramIndices gs e.1).length ≤ 1) :
    gpsrBwd eigh F (.list gs) values = .error (if paramIndices gs q = [] then .indexError else .attributeError) := by
  subst hv
  rw [gpsrBwd]
  simp only
  rw [if_pos (by simpa [Values.keys] using hlen)]
  have hr : hasRepeated gs (Values.keys ((q, v) :: rest)) = .ok false := by
    rw [hasRepeated, if_neg (by simp [Values.keys])]
    congr 1
    rw [List.any_eq_false]
    intro key hkey
    obtain ⟨e, he, rfl⟩ := List.mem_map.1 hkey
    simpa using hno e he
  rw [hr]
  simp only [except_bind, Values.keys, List.map_cons, spectralGapFromGates, Bool.false_eq_true, if_false]
  split_ifs with h1 <;> simp only []

/-- Two rotations and a value for one of them only. -/
example (F : GateArg → Values → Py (List ℝ)) :
    gpsrBwd eigh F (.list [Gate.RX (.str "a") (.int 0), Gate.RX (.str "b") (.int 0)]) [("a", .num 1)] = .error .attributeError := by
  have h : paramIndices [Gate.RX (.str "a") (.int 0), Gate.RX (.str "b") (.int 0)] "a" = [0] := by decide
  rw [C61_missing_refused eigh F rfl (by decide) (by simp [h]), h]
  rfl

end Verif
