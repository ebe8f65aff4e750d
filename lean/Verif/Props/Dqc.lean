import Verif.Props.Vqe
import Verif.Props.Group
import Verif.Props.States
import Verif.Props.Spectrum

/-!
# C76: the differentiable quantum circuits of `/repo/docs/dqc.md`
-/

namespace Verif
set_option autoImplicit false

variable {n : ℕ} {values : Values} (so : SetOrder) (eigh : Eigh) (draw : Draw)

/-- A feature map such as `[RX("phi", i) for i in range(n_qubits)]` (docs/dqc.md:67) or
`[RX("f_x", i) for …] + [RX("f_y", i) for …]` (docs/dqc.md:196-198). -/
noncomputable def featureGates (fm : List (String × ℕ)) : List Gate := fm.map fun e => Gate.RX (.str e.1) (.int e.2)

/-- `QuantumCircuit(n_qubits, operations, fparams)` for a list of gates. -/
def gateCircuitF (n : ℕ) (gs : List Gate) (fparams : List String) : Op := mkCircuit n (.list (gs.map .prim)) fparams

/-- `Observable([Z(q) for q in qs])` (docs/dqc.md:59 with `qs = [0]`, docs/dqc.md:159 with `qs = range(n_qubits)`). -/
noncomputable def magnetization (qs : List ℕ) : Observable := .new (.list (qs.map fun q => .prim (Gate.Z (.int q))))

/-- The dictionary `{**param_dict, **inputs}` (docs/dqc.md:65, 191). -/
def dqcValues (names : List String) (vals : List ℝ) (inputs : List (String × ℝ)) : Values :=
  zipValues names vals ++ inputs.map fun e => (e.1, .num e.2)

/-- The mean of `Σ_q Z_q` over the distribution `|ψ_b|²` of the bit strings: bit `0` counts `1` and bit `1` counts `-1`. -/
noncomputable def meanMagnetization (n : ℕ) (r : NDArray ℂ) (qs : List ℕ) : ℝ :=
  ∑ b : Lab n, ‖ket n r b‖ ^ 2 * (qs.map fun q => if b.bit q = 0 then (1 : ℝ) else -1).sum

/-! ## Helper lemmas -/

theorem gateZ_entry {q : ℕ} (hq : q < n) (b b' : Lab n) :
    gateMat n StdGate.Z.mat [q] [] b b' = if b = b' then (if b.bit q = 0 then 1 else -1) else 0 := by
  have hb : ∀ c : Lab n, c.idx [q] = (c ⟨q, hq⟩).val := fun c => by simp [Lab.idx, binVal, Lab.bit, hq]
  have hbit : b.bit q = (b ⟨q, hq⟩).val := by simp [Lab.bit, hq]
  simp only [gateMat, List.not_mem_nil, false_imp_iff, implies_true, if_true, hb, StdGate.mat]
  rw [matE_two _ _ _ _ _ _ (b ⟨q, hq⟩).isLt (b' ⟨q, hq⟩).isLt, hbit]
  by_cases he : b = b'
  · subst he
    rw [if_pos (show Lab.AgreeOff [q] b b from fun _ _ => rfl), if_pos rfl]
    split_ifs <;> rfl
  · rw [if_neg he]
    by_cases ha : Lab.AgreeOff [q] b b'
    · rw [if_pos ha]
      have hne : (b ⟨q, hq⟩).val ≠ (b' ⟨q, hq⟩).val := by
        intro h
        refine he (funext fun i => ?_)
        by_cases hi : i.val = q
        · have : i = ⟨q, hq⟩ := Fin.ext hi
          rw [this]
          exact Fin.ext h
        · exact ha i (by simpa using hi)
      have h1 := (b ⟨q, hq⟩).isLt
      have h2 := (b' ⟨q, hq⟩).isLt
      split_ifs <;> first | rfl | omega
    · rw [if_neg ha]

/-- The operator of `Σ_q Z_q`. -/
noncomputable def magMat (n : ℕ) (qs : List ℕ) : Matrix (Lab n) (Lab n) ℂ := (qs.map fun q => gateMat n StdGate.Z.mat [q] []).sum

theorem magMat_entry {qs : List ℕ} (hq : ∀ q ∈ qs, q < n) (b b' : Lab n) :
    magMat n qs b b' = if b = b' then ((qs.map fun q => if b.bit q = 0 then (1 : ℝ) else -1).sum : ℝ) else 0 := by
  induction qs with
  | nil => simp [magMat]
  | cons q qs ih =>
    have := ih fun q hq' => hq q (List.mem_cons_of_mem _ hq')
    rw [magMat] at this ⊢
    rw [List.map_cons, List.sum_cons, Matrix.add_apply, this, gateZ_entry (hq q (by simp)), List.map_cons, List.sum_cons]
    split_ifs <;> push_cast <;> ring

theorem magnetization_means {qs : List ℕ} (hne : qs ≠ []) (hq : ∀ q ∈ qs, q < n) (values : Values) :
    (magnetization qs).Means (StdLeaf n values) values (magMat n qs) := by
  show Op.MeansSum _ _ (qs.map fun q => .prim (Gate.Z (.int q))) _
  have leaf : ∀ q < n, StdLeaf n values (Gate.Z (.int q)) (gateMat n StdGate.Z.mat [q] []) := fun q hq =>
    ⟨.Z, ⟨.Z _ _ _, rfl, ⟨.inr (.inl rfl), ⟨by simp [Gate.Z, mkGate, parseTarget, parseControl, ctlInts], by
      simpa [Gate.Z, mkGate, parseTarget, parseControl, ctlInts] using hq⟩⟩⟩, rfl, rfl⟩
  induction qs with
  | nil => exact absurd rfl hne
  | cons q qs ih =>
    have h1 := Op.Means.gate (values := values) (leaf q (hq q (by simp)))
    rcases qs with _ | ⟨q', qs⟩
    · simpa [magMat] using Op.MeansSum.one h1
    · rw [magMat, List.map_cons (f := fun q => gateMat n StdGate.Z.mat [q] []), List.sum_cons]
      exact .cons h1 (ih (by simp) fun q hq' => hq q (List.mem_cons_of_mem _ hq'))

theorem expVal_magMat {qs : List ℕ} (hq : ∀ q ∈ qs, q < n) (r : NDArray ℂ) :
    expVal (magMat n qs) ((State.vec r).mat n) = meanMagnetization n r qs := by
  rw [expVal_vec, meanMagnetization, Complex.re_sum]
  refine Finset.sum_congr rfl fun b _ => ?_
  have : (magMat n qs).mulVec (ket n r) b = ((qs.map fun q => if b.bit q = 0 then (1 : ℝ) else -1).sum : ℝ) * ket n r b := by
    rw [Matrix.mulVec, dotProduct, Finset.sum_eq_single b]
    · rw [magMat_entry hq, if_pos rfl]
    · intro b' _ hb
      rw [magMat_entry hq, if_neg (Ne.symm hb), Complex.ofReal_zero, zero_mul]
    · intro h; exact absurd (Finset.mem_univ b) h
  rw [this, ← Complex.normSq_eq_norm_sq]
  generalize (qs.map fun q => if b.bit q = 0 then (1 : ℝ) else -1).sum = s
  rw [mul_left_comm, Complex.re_ofReal_mul]
  have : star (ket n r b) * ket n r b = (Complex.normSq (ket n r b) : ℂ) := by
    exact (Complex.normSq_eq_conj_mul_self).symm
  rw [this, Complex.ofReal_re, mul_comm]

theorem meanMagnetization_le {r : NDArray ℂ} (h : normSq n r = 1) (qs : List ℕ) :
    |meanMagnetization n r qs| ≤ qs.length := by
  have hs : ∀ b : Lab n, |(qs.map fun q => if b.bit q = 0 then (1 : ℝ) else -1).sum| ≤ qs.length := by
    intro b
    induction qs with
    | nil => simp
    | cons q qs ih =>
      rw [List.map_cons, List.sum_cons, List.length_cons]
      refine (abs_add_le _ _).trans ?_
      have : |if b.bit q = 0 then (1 : ℝ) else -1| = 1 := by split_ifs <;> simp
      rw [this]
      push_cast
      linarith
  refine (Finset.abs_sum_le_sum_abs _ _).trans ?_
  calc ∑ b : Lab n, |‖ket n r b‖ ^ 2 * (qs.map fun q => if b.bit q = 0 then (1 : ℝ) else -1).sum|
      ≤ ∑ b : Lab n, ‖ket n r b‖ ^ 2 * qs.length := by
        refine Finset.sum_le_sum fun b _ => ?_
        rw [abs_mul, abs_of_nonneg (by positivity)]
        exact mul_le_mul_of_nonneg_left (hs b) (by positivity)
    _ = qs.length := by rw [← Finset.sum_mul, ← normSq, h, one_mul]

theorem gateCircuitF_gates (n : ℕ) (gs : List Gate) (fs : List String) : (gateCircuitF n gs fs).gates = gs := by
  have := gateCircuit_gates n gs
  simpa only [gateCircuitF, gateCircuit, mkCircuit, Op.gates] using this

theorem gateCircuitF_plain (n : ℕ) (gs : List Gate) (fs : List String) : (gateCircuitF n gs fs).Plain := by
  refine .circ _ _ ?_
  simp only [OpArg.toList]
  induction gs with
  | nil => exact .nil
  | cons g gs ih => exact .cons (.prim g) ih

/-- The trainable parameters of a feature map followed by an ansatz with other names, in any order of the gates. -/
theorem dqc_vparams (strOf : ℝ → String) {fresh : ℕ → String} {L : ℕ} {rs : List Rot} {gs : List Gate}
    (h : hea fresh n L (Rot.fns rs) "v_" = .ok gs) {fm : List (String × ℕ)} (hfm : ∀ e ∈ fm, ∀ t, e.1 ≠ "v_" ++ t)
    (hpre : ∀ s ∈ gs.filterMap Gate.paramName, ∃ t, s = "v_" ++ t) {gs' : List Gate} (hp : gs'.Perm (featureGates fm ++ gs))
    (s : String) : s ∈ (gateCircuitF n gs' (fm.map Prod.fst)).vparams strOf (fm.map Prod.fst) ↔ s ∈ gs.filterMap Gate.paramName := by
  have h1 := C36_vparams_partial strOf (k := n) (fs := fm.map Prod.fst) (ops := gs'.map Op.prim)
  have hg := gateCircuitF_gates n gs' (fm.map Prod.fst)
  simp only [gateCircuitF, mkCircuit, OpArg.toList] at hg
  rw [hg] at h1
  have hcls : ∀ g ∈ gs', ∀ x, ¬ g.HasAngle (.num x) := by
    intro g hg x
    rcases List.mem_append.1 (hp.mem_iff.1 hg) with hg | hg
    · obtain ⟨e, -, rfl⟩ := List.mem_map.1 hg
      simp [Gate.HasAngle, Gate.RX, mkGate]
    · rw [Hea.hea_eq] at h
      cases h
      rcases Hea.mem_iff fresh L rs "v_" hg with ⟨r, i, hi, s, rfl⟩ | ⟨i, hi, rfl⟩
      · cases r <;> simp [Gate.HasAngle, Rot.gate, Gate.RX, Gate.RY, Gate.RZ, Gate.PHASE, mkGate]
      · simp [Gate.HasAngle, Gate.X, mkGate]
  obtain ⟨-, h2, -⟩ := h1 hcls
  have hang : ∀ g : Gate, g.HasAngle (.str s) ↔ g.paramName = some s := by
    intro g
    rw [← Gate.uses_iff]
    rcases hc : g.cls with _ | ⟨p, _⟩ | ⟨p, _⟩ | _ <;> simp [Gate.HasAngle, Gate.Uses, hc]
    all_goals cases p <;> simp
  rw [gateCircuitF, mkCircuit, OpArg.toList, h2]
  simp only [hang, List.mem_filterMap]
  constructor
  · rintro ⟨h3, g, hg, h4⟩
    rcases List.mem_append.1 (hp.mem_iff.1 hg) with hg | hg
    · obtain ⟨e, he, rfl⟩ := List.mem_map.1 hg
      have : e.1 = s := by simpa [Gate.paramName, Gate.RX, mkGate] using h4
      exact absurd (List.mem_map.2 ⟨e, he, this⟩) h3
    · exact ⟨g, hg, h4⟩
  · rintro ⟨g, hg, h4⟩
    refine ⟨fun hf => ?_, g, hp.mem_iff.2 (List.mem_append_right _ hg), h4⟩
    obtain ⟨e, he, rfl⟩ := List.mem_map.1 hf
    obtain ⟨t, ht⟩ := hpre _ (List.mem_filterMap.2 ⟨g, hg, h4⟩)
    exact hfm e he t ht

theorem countP_uses_nodup {gs : List Gate} (h : (gs.filterMap Gate.paramName).Nodup) {p : String}
    (hp : p ∈ gs.filterMap Gate.paramName) : numUses gs p = 1 := by
  classical
  have e : numUses gs p = (gs.filterMap Gate.paramName).count p := by
    rw [numUses, List.count_filterMap]
    refine List.countP_congr fun g _ => ?_
    simp [Gate.uses_iff]
  rw [e]
  exact List.count_eq_one_of_mem h hp

/-! ## C76 -/

/-- The models of docs/dqc.md: `gs` is `hea(n, L, rots)` with at least two qubits, one layer and no `PHASE` among the
rotation functions; `fm` is a feature map of `RX` gates whose names do not start with `v_` and are not `"circuit"`; `names`
lists the set `vparams` of `QuantumCircuit(n, fm + gs, names of fm)` in any order, `vals` are values for them, and `inputs`
is a value for every name of the feature map; `a` is a normalised state. -/
structure DqcModel (fresh : ℕ → String) (n L : ℕ) (rs : List Rot) (gs : List Gate) (fm : List (String × ℕ))
    (strOf : ℝ → String) (names : List String) (vals : List ℝ) (inputs : List (String × ℝ)) (a : NDArray ℂ) : Prop where
  inj : Function.Injective fresh
  qubits : 2 ≤ n
  layers : 1 ≤ L
  noPhase : Rot.PHASE ∉ rs
  ansatz : hea fresh n L (Rot.fns rs) "v_" = .ok gs
  features : ∀ e ∈ fm, e.2 < n ∧ e.1 ≠ "circuit" ∧ ∀ t, e.1 ≠ "v_" ++ t
  nodup : names.Nodup
  vparams : ∀ s, s ∈ names ↔ s ∈ (gateCircuitF n (featureGates fm ++ gs) (fm.map Prod.fst)).vparams strOf (fm.map Prod.fst)
  length : vals.length = names.length
  inputs_nodup : (inputs.map Prod.fst).Nodup
  inputs_keys : ∀ s, s ∈ inputs.map Prod.fst ↔ s ∈ fm.map Prod.fst
  ket : IsKet n a
  norm : normSq n a = 1

section
variable {fresh : ℕ → String} {L : ℕ} {rs : List Rot} {gs : List Gate} {fm : List (String × ℕ)} {strOf : ℝ → String}
  {names : List String} {vals : List ℝ} {inputs : List (String × ℝ)} {a : NDArray ℂ} {qs : List ℕ}

namespace DqcModel

theorem mem_names (h : DqcModel fresh n L rs gs fm strOf names vals inputs a) (s : String) :
    s ∈ names ↔ s ∈ gs.filterMap Gate.paramName :=
  (h.vparams s).trans (dqc_vparams strOf h.ansatz (fun e he => (h.features e he).2.2)
    (C35_names h.inj n L rs "v_" h.ansatz).2.2.1 (List.Perm.refl _) s)

theorem disjoint (h : DqcModel fresh n L rs gs fm strOf names vals inputs a) {s : String} (hs : s ∈ names) :
    s ∉ fm.map Prod.fst := by
  intro hf
  obtain ⟨e, he, rfl⟩ := List.mem_map.1 hf
  obtain ⟨t, ht⟩ := (C35_names h.inj n L rs "v_" h.ansatz).2.2.1 _ ((h.mem_names _).1 hs)
  exact (h.features e he).2.2 t ht

theorem keys (h : DqcModel fresh n L rs gs fm strOf names vals inputs a) :
    (dqcValues names vals inputs).map Prod.fst = names ++ inputs.map Prod.fst := by
  rw [dqcValues, List.map_append, zipValues_keys h.length, List.map_map]; rfl

theorem numeric (h : DqcModel fresh n L rs gs fm strOf names vals inputs a) : (dqcValues names vals inputs).Numeric := by
  refine ⟨?_, fun e he => ?_⟩
  · rw [h.keys, List.nodup_append]
    refine ⟨h.nodup, h.inputs_nodup, fun s hs t ht e => ?_⟩
    subst e
    exact h.disjoint hs ((h.inputs_keys s).1 ht)
  · rcases List.mem_append.1 he with he | he
    · exact (zipValues_numeric h.nodup h.length).num e he
    · obtain ⟨x, -, rfl⟩ := List.mem_map.1 he
      exact ⟨_, rfl⟩

theorem std (h : DqcModel fresh n L rs gs fm strOf names vals inputs a) :
    ∀ g ∈ featureGates fm ++ gs, g.noise = none ∧ ∃ s, g.Std n (dqcValues names vals inputs) s := by
  intro g hg
  rcases List.mem_append.1 hg with hg | hg
  · obtain ⟨e, he, rfl⟩ := List.mem_map.1 hg
    obtain ⟨x, hx⟩ := h.numeric.lookup (p := e.1) (by
      show e.1 ∈ (dqcValues names vals inputs).map Prod.fst
      rw [h.keys]
      exact List.mem_append_right _ ((h.inputs_keys _).2 (List.mem_map.2 ⟨e, he, rfl⟩)))
    refine ⟨rfl, .RX x, .RX _ _ _ (.str hx) (by simp), rfl, ⟨.inr (.inl rfl), ?_⟩⟩
    exact ⟨by simp [Gate.RX, mkGate, parseTarget, parseControl, ctlInts], by
      simpa [Gate.RX, mkGate, parseTarget, parseControl, ctlInts] using (h.features e he).1⟩
  · refine C35_valid_partial (by have := h.qubits; omega) L rs "v_" h.ansatz (fun s hs => h.numeric.lookup ?_) g hg
    show s ∈ (dqcValues names vals inputs).map Prod.fst
    rw [h.keys]
    exact List.mem_append_left _ ((h.mem_names s).2 hs)

theorem flat (h : DqcModel fresh n L rs gs fm strOf names vals inputs a) : (dqcValues names vals inputs).Flat := by
  refine .inl (lookup_none fun hc => ?_)
  have hc : "circuit" ∈ (dqcValues names vals inputs).map Prod.fst := hc
  rw [h.keys] at hc
  rcases List.mem_append.1 hc with hc | hc
  · obtain ⟨t, ht⟩ := (C35_names h.inj n L rs "v_" h.ansatz).2.2.1 _ ((h.mem_names _).1 hc)
    have := prefix_ne (c := 'v') (d := 'c') ht rfl rfl
    revert this
    decide
  · obtain ⟨e, he, he'⟩ := List.mem_map.1 ((h.inputs_keys _).1 hc)
    exact (h.features e he).2.1 he'

theorem ne (h : DqcModel fresh n L rs gs fm strOf names vals inputs a) : featureGates fm ++ gs ≠ [] := by
  intro h0
  obtain ⟨gs', e1, e2, -⟩ := C35_gates fresh n L rs "v_"
  obtain rfl : gs = gs' := by have := h.ansatz; rw [e1] at this; cases this; rfl
  have h1 := h.qubits
  have h2 : 0 < L * n * (rs.length + n) := Nat.mul_pos (Nat.mul_pos h.layers (by omega)) (by omega)
  rw [(List.append_eq_nil_iff.1 h0).2, List.length_nil] at e2
  omega

theorem not_mixed (h : DqcModel fresh n L rs gs fm strOf names vals inputs a) : ¬ Mixed (.vec a) (featureGates fm ++ gs) := by
  rintro (⟨ρ, e⟩ | hm)
  · cases e
  · exact hm fun g hg => (h.std g hg).1

theorem setting (h : DqcModel fresh n L rs gs fm strOf names vals inputs a) (hqs : qs ≠ []) (hq : ∀ q ∈ qs, q < n) :
    Setting so n (dqcValues names vals inputs) (featureGates fm ++ gs) ((featureGates fm ++ gs).map fun _ => []) (.vec a)
      [magnetization qs] [magMat n qs] := by
  refine ⟨⟨h.ne, fun g hg => (h.std g hg).2, noiseless_noiseIs fun g hg => (h.std g hg).1, h.ket, h.numeric, by simp,
    .cons (fun v => ⟨magnetization_means hqs hq v, fun hm => absurd hm h.not_mixed⟩) .nil⟩, ?_⟩
  intro g hg p hp
  rcases List.mem_append.1 hg with hg | hg
  · obtain ⟨e, he, rfl⟩ := List.mem_map.1 hg
    exact .inl rfl
  · exact .inl ((hea_uncontrolled h.ansatz h.noPhase g hg).2 p hp)

theorem circuit (h : DqcModel fresh n L rs gs fm strOf names vals inputs a) :
    (gateCircuitF n (featureGates fm ++ gs) (fm.map Prod.fst)).Circuit n (dqcValues names vals inputs)
      ((featureGates fm ++ gs).map fun _ => []) := by
  refine ⟨gateCircuitF_plain _ _ _, ?_, ?_, ?_⟩ <;> rw [gateCircuitF_gates]
  · exact h.ne
  · intro g hg
    obtain ⟨s, hs⟩ := (h.std g hg).2
    exact hs.ok
  · exact noiseless_noiseIs fun g hg => (h.std g hg).1

theorem uses_name (h : DqcModel fresh n L rs gs fm strOf names vals inputs a) {p : String} (hp : p ∈ names) :
    numUses (featureGates fm ++ gs) p = 1 := by
  have h1 : numUses (featureGates fm) p = 0 := by
    rw [numUses, List.countP_eq_zero]
    intro g hg
    obtain ⟨e, he, rfl⟩ := List.mem_map.1 hg
    have : e.1 ≠ p := fun h' => h.disjoint hp (List.mem_map.2 ⟨e, he, h'⟩)
    simp only [decide_eq_true_eq]
    exact this
  have h2 := countP_uses_nodup (C35_names h.inj n L rs "v_" h.ansatz).1 ((h.mem_names p).1 hp)
  rw [numUses, List.countP_append, ← numUses, ← numUses, h1, h2]

theorem uses_feature (h : DqcModel fresh n L rs gs fm strOf names vals inputs a) {p : String} (hp : p ∈ fm.map Prod.fst) :
    numUses (featureGates fm ++ gs) p = (fm.map Prod.fst).count p := by
  have h1 : numUses gs p = 0 := by
    rw [numUses, List.countP_eq_zero]
    intro g hg
    simp only [decide_eq_true_eq]
    intro hu
    exact h.disjoint ((h.mem_names p).2 (List.mem_filterMap.2 ⟨g, hg, (Gate.uses_iff g p).1 hu⟩)) hp
  have h2 : numUses (featureGates fm) p = (fm.map Prod.fst).count p := by
    rw [numUses, featureGates, List.countP_map, List.count, List.countP_map]
    refine List.countP_congr fun e _ => ?_
    simp only [Function.comp, decide_eq_true_eq, beq_iff_eq]
    exact Iff.rfl
  rw [numUses, List.countP_append, ← numUses, ← numUses, h1, h2, add_zero]

theorem exact (h : DqcModel fresh n L rs gs fm strOf names vals inputs a) {mode : DiffMode}
    (hm : mode = .ad ∨ mode = .gpsr ∨ mode = .adjoint) :
    ExactMode mode (dqcValues names vals inputs) (.vec a) (gateCircuitF n (featureGates fm ++ gs) (fm.map Prod.fst)) := by
  rcases hm with rfl | rfl | rfl
  · exact .inr (.inl ⟨rfl, h.flat⟩)
  · exact .inl rfl
  · exact .inr (.inr ⟨rfl, h.flat, by rw [gateCircuitF_gates]; exact h.not_mixed⟩)

end DqcModel

/-- **C76** (the values of the models of docs/dqc.md): there is a normalised vector `ψ` such that, with `M` the mean of
`Σ_{q ∈ qs} Z_q` over the distribution `|ψ_b|²`:

* `run` returns `ψ`, and `expectation` of `Observable([Z(q) for q in qs])` returns `[M]` in the modes AD, GPSR and ADJOINT
  (`FunctionFitter`);
* `apply_gates` on `group_by_index(fm + gs)` returns `ψ`, and `inner(ψ, observable.forward(ψ, {})).real` is `M`
  (`PDESolver`);
* `|M| ≤ len(qs)`;
* the circuit of the grouped gates has the same set `vparams`, so that the same `values` can be used. -/
theorem C76_value (h : DqcModel fresh n L rs gs fm strOf names vals inputs a) (hqs : qs ≠ []) (hq : ∀ q ∈ qs, q < n) :
    ∃ r, IsKet n r ∧ normSq n r = 1 ∧
      run so (gateCircuitF n (featureGates fm ++ gs) (fm.map Prod.fst)) (.vec a) (dqcValues names vals inputs)
        = .ok (some (.vec r)) ∧
      (∀ mode, mode = .ad ∨ mode = .gpsr ∨ mode = .adjoint →
        expectation so eigh draw (.vec a) (gateCircuitF n (featureGates fm ++ gs) (fm.map Prod.fst)) [magnetization qs]
          (dqcValues names vals inputs) mode 0 = .ok [meanMagnetization n r qs]) ∧
      applyGates so (.vec a) (.list (groupByIndex (featureGates fm ++ gs))) (dqcValues names vals inputs) = .ok (.vec r) ∧
      (do Op.innerReal r (← (magnetization qs).forward so [] (some (.vec r)))) = .ok (meanMagnetization n r qs) ∧
      |meanMagnetization n r qs| ≤ qs.length ∧
      ∀ s, s ∈ (gateCircuitF n (groupByIndex (featureGates fm ++ gs)) (fm.map Prod.fst)).vparams strOf (fm.map Prod.fst) ↔
        s ∈ names := by
  have hg := gateCircuitF_gates n (featureGates fm ++ gs) (fm.map Prod.fst)
  have hz : ∀ g ∈ (gateCircuitF n (featureGates fm ++ gs) (fm.map Prod.fst)).gates, g.noise = none := by
    rw [hg]
    exact fun g hg => (h.std g hg).1
  obtain ⟨q, q1, q2, -, q4, q5⟩ := run_physical so h.circuit (by rw [hg]; exact fun g hg => (h.std g hg).2) (st := .vec a) h.ket
    (vec_posSemidef a)
  obtain ⟨r, k1, k2, -, k4⟩ := C19_expectation so eigh draw h.circuit hz h.flat h.ket (obs := [magnetization qs]) (by simp)
    (.cons (Op.MeansSum.mono (fun _ _ h => StdLeaf.any h) (magnetization_means hqs hq _)) .nil)
  obtain rfl : q = .vec r := by rw [k1] at q1; cases q1; rfl
  have hr1 : normSq n r = 1 := by
    rw [vec_trace, vec_trace, h.norm] at q5
    exact_mod_cast q5
  have hval : expectSingle so [] (magnetization qs) (.vec r) = .ok (meanMagnetization n r qs) := by
    rw [expectSingle_vec so (Op.MeansSum.mono (fun _ _ h => StdLeaf.any h) (magnetization_means hqs hq _)) k2, expVal_magMat hq]
  have hrun : applyGates so (.vec a) (.list (featureGates fm ++ gs)) (dqcValues names vals inputs) = .ok (.vec r) := by
    rw [applyOps, h.circuit.plain.iter, opsToGates_prim, hg] at q2
    exact q2
  refine ⟨r, k2, hr1, k1, fun mode hm => ?_, ?_, hval, meanMagnetization_le hr1 qs, fun s => ?_⟩
  · have hE : expectation so eigh draw (.vec a) (gateCircuitF n (featureGates fm ++ gs) (fm.map Prod.fst)) [magnetization qs]
        (dqcValues names vals inputs) .ad 0 = .ok [meanMagnetization n r qs] := by
      rw [← expVal_magMat hq, expVal_vec]
      exact k4
    rcases hm with rfl | rfl | rfl
    · exact hE
    · rw [← C20_ad_gpsr so eigh draw h.flat]; exact hE
    · rw [← C20_ad_adjoint_partial so eigh draw h.flat]
      · exact hE
      · intro g hg'
        refine hz g ?_
        rw [h.circuit.plain.iter] at hg'
        obtain ⟨g', hg'', e⟩ := List.mem_map.1 hg'
        cases e
        exact hg''
  · rw [← hrun, ← applyGates_group]
    refine C04_group_partial so (fun g hg => ?_) (fun g hg => (h.std g hg).1) ?_ (state := .vec a) h.ket true true
    · obtain ⟨s, hs⟩ := (h.std g hg).2
      exact hs.ok
    · have hone : ∀ g ∈ featureGates fm ++ gs, ∃ t, g.target = [t] := by
        intro g hg
        rcases List.mem_append.1 hg with hg | hg
        · obtain ⟨e, he, rfl⟩ := List.mem_map.1 hg
          exact ⟨e.2, rfl⟩
        · have := h.ansatz
          rw [Hea.hea_eq] at this
          cases this
          rcases Hea.mem_iff fresh L rs "v_" hg with ⟨r, i, hi, s, rfl⟩ | ⟨i, hi, rfl⟩
          · exact ⟨i, by cases r <;> rfl⟩
          · exact ⟨_, rfl⟩
      intro g hg g' hg' _ _ hne q hq' hq''
      obtain ⟨t, ht⟩ := hone g hg
      obtain ⟨t', ht'⟩ := hone g' hg'
      rw [ht, List.mem_singleton] at hq'
      rw [ht', List.mem_singleton] at hq''
      exact hne (by rw [ht, ht', ← hq', ← hq''])
  · rw [dqc_vparams strOf h.ansatz (fun e he => (h.features e he).2.2) (C35_names h.inj n L rs "v_" h.ansatz).2.2.1
      (groupByIndex_perm _) s, h.mem_names]

/-- **C76** (what the models can express): as a function of one input, with everything else fixed, the output of the model is
a trigonometric polynomial whose degree is at most the number of times the input occurs in the feature map; as a function of
one trainable parameter, it is a trigonometric polynomial of degree at most one. -/
theorem C76_spectrum (h : DqcModel fresh n L rs gs fm strOf names vals inputs a) (hqs : qs ≠ []) (hq : ∀ q ∈ qs, q < n)
    {mode : DiffMode} (hm : mode = .ad ∨ mode = .gpsr ∨ mode = .adjoint) (p : String) :
    ∃ f : ℝ → ℝ, (∀ x, expectation so eigh draw (.vec a) (gateCircuitF n (featureGates fm ++ gs) (fm.map Prod.fst))
        [magnetization qs] ((dqcValues names vals inputs).upd p x) mode 0 = .ok [f x]) ∧
      (p ∈ fm.map Prod.fst → TrigPoly ((fm.map Prod.fst).count p) f) ∧ (p ∈ names → TrigPoly 1 f) := by
  have hs := h.setting so hqs hq
  rw [← gateCircuitF_gates n (featureGates fm ++ gs) (fm.map Prod.fst)] at hs
  obtain ⟨f, f1, f2, f3⟩ := C75_trig so eigh draw (h.exact hm) (gateCircuitF_plain _ _ _) hs p
  rw [gateCircuitF_gates] at f3
  refine ⟨fun x => (f x).getD 0 0, fun x => ?_, fun hp => ?_, fun hp => ?_⟩
  · rw [f1]
    obtain ⟨y, hy⟩ := List.length_eq_one_iff.1 ((f2 x).trans rfl)
    change _ = Except.ok [(f x).getD 0 0]
    rw [hy]; rfl
  · have := f3 0
    rwa [h.uses_feature hp] at this
  · have := f3 0
    rwa [h.uses_name hp] at this

end

/-- Non-vacuity of C76: `FunctionFitter` on `zero_state(5)` with `[RX("phi", i) for i in range(5)]`, for every `x`; the
output is a trigonometric polynomial of degree at most `5` in `x`. -/
example (strOf : ℝ → String) (x : ℝ) : ∃ gs names vals a, zeroState 5 = .ok a ∧
    DqcModel unaryName 5 3 [.RX, .RY, .RX] gs ((List.range 5).map fun i => ("phi", i)) strOf names vals [("phi", x)] a ∧
    (((List.range 5).map fun i => (("phi", i) : String × ℕ)).map Prod.fst).count "phi" = 5 := by
  obtain ⟨gs, h, -⟩ := C35_gates unaryName 5 3 [.RX, .RY, .RX] "v_"
  obtain ⟨h1, h2, h3, -⟩ := C35_names unaryName_injective 5 3 [.RX, .RY, .RX] "v_" h
  obtain ⟨a, a1, a2, a3, -⟩ := C30_zero_state 5
  have hpre : ∀ t, "phi" ≠ "v_" ++ t := fun t ht => by
    have := prefix_ne (c := 'v') (d := 'p') ht rfl rfl
    revert this
    decide
  have hfm : ∀ e ∈ (List.range 5).map fun i => (("phi", i) : String × ℕ), e.2 < 5 ∧ e.1 ≠ "circuit" ∧ ∀ t, e.1 ≠ "v_" ++ t := by
    intro e he
    obtain ⟨i, hi, rfl⟩ := List.mem_map.1 he
    exact ⟨List.mem_range.1 hi, (by decide : "phi" ≠ "circuit"), hpre⟩
  refine ⟨gs, gs.filterMap Gate.paramName, List.replicate 45 0, a, a1, ⟨unaryName_injective, by omega, by omega, by simp, h, hfm,
    h1, fun s => (dqc_vparams strOf h (fun e he => (hfm e he).2.2) h3 (List.Perm.refl _) s).symm, by simpa using h2.symm,
    by simp, fun s => ?_, a2, a3⟩, by decide⟩
  have : ((List.range 5).map fun i => (("phi", i) : String × ℕ)).map Prod.fst = List.replicate 5 "phi" := by decide
  rw [this]
  simp

/-- Non-vacuity of C76: the feature map of `PDESolver` on 4 qubits. -/
example (strOf : ℝ → String) (x y : ℝ) : ∃ gs names vals a, zeroState 4 = .ok a ∧
    DqcModel unaryName 4 3 [.RX, .RY, .RX] gs [("f_x", 0), ("f_x", 1), ("f_y", 2), ("f_y", 3)] strOf names vals
      [("f_x", x), ("f_y", y)] a := by
  obtain ⟨gs, h, -⟩ := C35_gates unaryName 4 3 [.RX, .RY, .RX] "v_"
  obtain ⟨h1, h2, h3, -⟩ := C35_names unaryName_injective 4 3 [.RX, .RY, .RX] "v_" h
  obtain ⟨a, a1, a2, a3, -⟩ := C30_zero_state 4
  have hpre : ∀ s : String, s.toList.head? = some 'f' → ∀ t, s ≠ "v_" ++ t := fun s hs t ht => by
    have := prefix_ne (c := 'v') (d := 'f') ht rfl hs
    revert this
    decide
  have hfm : ∀ e ∈ [(("f_x", 0) : String × ℕ), ("f_x", 1), ("f_y", 2), ("f_y", 3)], e.2 < 4 ∧ e.1 ≠ "circuit" ∧
      ∀ t, e.1 ≠ "v_" ++ t := by
    simp only [List.mem_cons, List.not_mem_nil, or_false, forall_eq_or_imp, forall_eq]
    exact ⟨⟨by omega, by decide, hpre _ rfl⟩, ⟨by omega, by decide, hpre _ rfl⟩, ⟨by omega, by decide, hpre _ rfl⟩,
      ⟨by omega, by decide, hpre _ rfl⟩⟩
  refine ⟨gs, gs.filterMap Gate.paramName, List.replicate 36 0, a, a1, ⟨unaryName_injective, by omega, by omega, by simp, h, hfm,
    h1, fun s => (dqc_vparams strOf h (fun e he => (hfm e he).2.2) h3 (List.Perm.refl _) s).symm, by simpa using h2.symm,
    by simp, fun s => by simp, a2, a3⟩⟩

end Verif
