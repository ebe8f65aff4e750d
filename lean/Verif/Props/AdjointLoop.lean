import Verif.Lemmas.AdjointLoop
import Verif.Props.Shots
import Verif.Props.Spectrum

/-!
# The backward rule of the adjoint method with its two visible mistakes repaired

C55.  The loop of the code has no iterations, and its gradients start at `None` (`C55_never_a_number`,
`C55_body_raises`).  Here the loop body of the code is run from the last gate to the first, with gradients starting at `0`.
-/

set_option autoImplicit false

namespace Verif
open NDArray
variable {n : ℕ} {values : Values} (so : SetOrder) (eigh : Eigh) (draw : Draw)

/-- Not the code: `adjoint_expectation_single_observable_bwd` (adjoint.py:54-90) with `0` instead of `None` in line 63, and
with the body run for `len(gates) - 1, …, 0` in line 89. -/
noncomputable def adjointBwdRepaired (res : AdjointRes) (tangent : ℝ) : Py GradDict := do
  let grads : GradDict := res.values.map fun e => (e.1, some 0)
  let (_, _, grads) ← ((List.range res.gates.length).reverse).foldlM
    (fun st (i : ℕ) => adjointBody so res.gates res.values tangent i st) (res.out, res.projected, grads)
  pure grads

/-- **C55** for the repaired loop (every noiseless circuit of standard gates, state vector, observable): it returns for the
parameter `p` the number `tangent · 2 Re ⟨D ψ₀|O ψ⟩`, where `D` is the Leibniz sum of the circuit with the `jacobian` operators
of the gates in place of their derivatives. -/
theorem C55_repaired_value {circuit : Op} (hp : circuit.Plain) (hne : circuit.gates ≠ [])
    (hs : ∀ g ∈ circuit.gates, ∃ s, g.Std n values s) (hz : ∀ g ∈ circuit.gates, g.noise = none) {a : NDArray ℂ}
    (ha : IsKet n a) {o : Observable} {O : Matrix (Lab n) (Lab n) ℂ} (ho : o.Means (AnyLeaf n values) values O)
    (tangent : ℝ) :
    ∃ x res grads, adjointFwd so (.vec a) circuit o values = .ok (x, res) ∧
      adjointBwdRepaired so res tangent = .ok grads ∧
      ∀ p v, values.lookup p = some v → grads.lookup p = some (some (tangent *
        (2 * (∑ i, star ((jacobianSum n values p circuit.gates).mulVec (ket n a) i) *
          O.mulVec ((gatesMat n .unitary values circuit.gates).mulVec (ket n a)) i).re))) := by
  have hc : circuit.Circuit n values (circuit.gates.map fun _ => []) :=
    ⟨hp, hne, fun g hg => (hs g hg).choose_spec.ok, by
      rw [List.forall₂_map_right_iff, List.forall₂_same]; exact fun g hg => .none (hz g hg)⟩
  obtain ⟨r, -, h2, h3⟩ := circuit_run so hc (st := .vec a) ha
  cases r with
  | dm r => exact absurd hz h3.1
  | vec ψ =>
    obtain ⟨b, b1, b2, b3⟩ := callSum_means so h3.2.1 ho
    have hzero : ∀ q v, values.lookup q = some v →
        ((values.map fun e => (e.1, some 0)) : GradDict).lookup q = some (some 0) := by
      intro q v h
      clear hs ho hc h2 h3 b1
      induction values with
      | nil => simp at h
      | cons e values ih =>
        obtain ⟨k, w⟩ := e
        simp only [List.map_cons, List.lookup] at h ⊢
        by_cases hq : (q == k) = true
        · simp only [hq]
        · simp only [Bool.eq_false_of_not_eq_true hq] at h ⊢
          exact ih h
    obtain ⟨st', grads, g1, g2⟩ := adjointBody_loop so tangent (ket n a) circuit.gates [] hs hz h3.2.1 b2 h3.2.2
      (grads := values.map fun e => (e.1, some 0)) (by
        intro g hg q hq
        obtain ⟨s, hgs⟩ := hs g hg
        obtain ⟨y, hy⟩ := hgs.lookup ((g.trainable_iff q).1 hq)
        exact ⟨0, hzero q _ hy⟩)
    refine ⟨(∑ i, star (ket n ψ i) * ket n b i).re, ⟨.vec ψ, some (.vec b), circuit.iter, values⟩, grads, ?_, ?_, ?_⟩
    · simp only [adjointFwd, h2, Observable.forward, b1, except_bind, Op.innerReal, inner_ket h3.2.1 b2, pure, Except.pure]
    · rw [adjointBwdRepaired]
      simp only [hp.iter, List.length_map]
      rw [List.append_nil] at g1
      rw [g1]
      rfl
    · intro q v h
      rw [g2, hzero q v h, b3, h3.2.2]
      simp only [Option.map_some, zero_add, mul_assoc]

/-- **C55** for the repaired loop (what holds): if the gates that have the parameter `p` are `PHASE` gates without controls
(any number of them, anywhere in the circuit), then the number returned for `p` is the derivative of the expectation value.
The other parameters can belong to any gates. -/
theorem C55_repaired_phase_partial (hv : values.Numeric) (hflat : values.Flat) {circuit : Op} (hp : circuit.Plain) (hne : circuit.gates ≠ [])
    (hs : ∀ g ∈ circuit.gates, ∃ s, g.Std n values s) (hz : ∀ g ∈ circuit.gates, g.noise = none) {a : NDArray ℂ}
    (ha : IsKet n a) {o : Observable} {O : Matrix (Lab n) (Lab n) ℂ} (ho : o.Fixed so n False O) (hO : O.IsHermitian)
    {p : String} (hk : p ∈ values.keys)
    (hph : ∀ g ∈ circuit.gates, g.trainable = some p → (∃ q s, g.cls = .phase q s) ∧ ctlInts g.control = [])
    (tangent : ℝ) :
    ∃ d x res grads,
      IsPartial (fun v => expectation so eigh draw (.vec a) circuit [o] v .adjoint 0) values p [d] ∧
      adjointFwd so (.vec a) circuit o values = .ok (x, res) ∧
      adjointBwdRepaired so res tangent = .ok grads ∧ grads.lookup p = some (some (tangent * d)) := by
  obtain ⟨x₀, hx⟩ := hv.lookup hk
  have hany : ∀ v, o.Means (AnyLeaf n v) v O := fun v => Op.MeansSum.mono (fun _ _ h => StdLeaf.any h) (ho v).1
  obtain ⟨y, res, grads, h1, h2, h3⟩ := C55_repaired_value so hp hne hs hz ha (hany values) tangent
  refine ⟨_, y, res, grads, ?_, h1, h2, h3 p _ hx⟩
  have hstd : ∀ t, ∀ g ∈ circuit.gates, ∃ s, g.Std n (values.upd p t) s := by
    intro t g hg
    obtain ⟨s, hs⟩ := hs g hg
    by_cases hu : g.Uses p
    · obtain ⟨sh, R, hR⟩ := hs.named hu
      exact ⟨_, hR.std hs.valid (Values.lookup_set_self hx t)⟩
    · exact ⟨s, hs.congr fun q hq => Values.lookup_set_of_ne (by rintro rfl; exact hu hq) t⟩
  refine ⟨x₀, fun t => [(∑ i, star ((gatesMat n .unitary (values.upd p t) circuit.gates).mulVec (ket n a) i) *
    O.mulVec ((gatesMat n .unitary (values.upd p t) circuit.gates).mulVec (ket n a)) i).re], hx, fun t => ?_, fun _ => rfl, ?_⟩
  · have hc : circuit.Circuit n (values.upd p t) (circuit.gates.map fun _ => []) :=
      ⟨hp, hne, fun g hg => (hstd t g hg).choose_spec.ok, by
        rw [List.forall₂_map_right_iff, List.forall₂_same]; exact fun g hg => .none (hz g hg)⟩
    obtain ⟨ψ, -, -, k3, k4⟩ := C19_expectation so eigh draw hc hz (hflat.upd p t) ha (obs := [o]) (by simp)
      (.cons (hany _) .nil)
    rw [k3] at k4
    beta_reduce
    rw [← C20_ad_adjoint_partial so eigh draw (hflat.upd p t) a circuit ?_ [o]]
    · exact k4
    · intro g hg
      rw [hp.iter] at hg
      obtain ⟨g', hg', e⟩ := List.mem_map.1 hg
      cases e
      exact hz _ hg'
  · have hd : EntryDeriv (fun t => gatesMat n .unitary (values.upd p t) circuit.gates) (jacobianSum n values p circuit.gates) x₀ := by
      refine gatesMat_entryDeriv (Values.upd_self hv hx) _ fun g hg => ?_
      obtain ⟨s, hgs⟩ := hs g hg
      by_cases ht : g.trainable = some p
      · rw [if_pos ht]
        obtain ⟨⟨q, s', hcl⟩, hct⟩ := hph g hg ht
        obtain ⟨sh, R, hR⟩ := hgs.named ((g.trainable_iff p).1 ht)
        cases hR with
        | PHASE _ sh t c nz => exact phase_entryDeriv rfl rfl rfl hct hx
        | _ => cases hcl
      · rw [if_neg ht]
        have hm : ∀ t, g.mat n .unitary (values.upd p t) = g.mat n .unitary values := by
          intro t
          have hu : ¬ g.Uses p := fun h => ht ((g.trainable_iff p).2 h)
          rw [(hgs.congr (values' := values.upd p t) fun q hq => Values.lookup_set_of_ne (by rintro rfl; exact hu hq) t).mat, hgs.mat]
        simp only [hm]
        exact EntryDeriv.const _ _
    have hq := quad_deriv hd hO (ket n a)
    simp only [Values.upd_self hv hx] at hq
    intro i
    cases i with
    | zero => exact hq
    | succ i => exact hasDerivAt_const x₀ (0 : ℝ)

/-- The circuit `H`, `PHASE("a")`, `RX("b")` on one qubit. -/
noncomputable def phaseCircuit : Op := mkSeq [.prim (Gate.H (.int 0)), .prim (Gate.PHASE (.str "a") (.int 0)),
  .prim (Gate.RX (.str "b") (.int 0))]

/-- Non-vacuity of `C55_repaired_phase_partial` and `C55_repaired_value`. -/
example : let values : Values := [("a", .num 1), ("b", .num 2)]
    values.Numeric ∧ values.Flat ∧ phaseCircuit.Plain ∧ phaseCircuit.gates ≠ [] ∧ (∀ g ∈ phaseCircuit.gates, ∃ s, g.Std 1 values s) ∧
    (∀ g ∈ phaseCircuit.gates, g.noise = none) ∧ IsKet 1 zero1 ∧ obsZ.Fixed so 1 False (gateMat 1 StdGate.Z.mat [0] []) ∧
    (gateMat 1 StdGate.Z.mat [0] []).IsHermitian ∧ "a" ∈ values.keys ∧
    ∀ g ∈ phaseCircuit.gates, g.trainable = some "a" → (∃ q s, g.cls = .phase q s) ∧ ctlInts g.control = [] := by
  have hg : phaseCircuit.gates = [Gate.H (.int 0), Gate.PHASE (.str "a") (.int 0), Gate.RX (.str "b") (.int 0)] := rfl
  refine ⟨⟨by simp, by simp⟩, by simp [Values.Flat], .seq (.cons (.prim _) (.cons (.prim _) (.cons (.prim _) .nil))), by simp [hg], ?_, ?_, zero1_isKet,
    obsZ_fixed so _, ?_, by simp [Values.keys], ?_⟩
  · simp only [hg, List.mem_cons, List.not_mem_nil, or_false, forall_eq_or_imp, forall_eq]
    exact ⟨⟨.H, .H _ _ _, rfl, ⟨.inr (.inl rfl), by decide⟩⟩,
      ⟨.PHASE 1, .PHASE _ _ _ (.str rfl) (by simp), rfl, ⟨.inr (.inl rfl), by decide⟩⟩,
      ⟨.RX 2, .RX _ _ _ (.str rfl) (by simp), rfl, ⟨.inr (.inl rfl), by decide⟩⟩⟩
  · simp [hg, Gate.H, Gate.PHASE, Gate.RX, mkGate]
  · exact mat1_ext fun i j => by
      rw [Matrix.conjTranspose_apply, gateMat_lab1, gateMat_lab1]
      fin_cases i <;> fin_cases j <;> simp [StdGate.mat, matE]
  · simp [hg, Gate.H, Gate.PHASE, Gate.RX, mkGate, Gate.trainable, ctlInts, parseControl]

/-- **C55 stays false with the repaired loop**, because the `jacobian` of `RX` is wrong: for one `RX("a")` on `|0⟩` and the
observable `Z` the derivative of the expectation value `cos a` is `-sin a`, and the repaired loop returns one half of it. -/
theorem C55_repaired_false (x tangent : ℝ) : let values : Values := [("a", .num x)]
    IsPartial (fun v => expectation so eigh draw (.vec zero1) onceRX [obsZ] v .adjoint 0) values "a" [-Real.sin x] ∧
    ∃ y res grads, adjointFwd so (.vec zero1) onceRX obsZ values = .ok (y, res) ∧
      adjointBwdRepaired so res tangent = .ok grads ∧ grads.lookup "a" = some (some (tangent * (-Real.sin x / 2))) := by
  intro values
  have hp : onceRX.Plain := .seq (.cons (.prim _) .nil)
  have hstd : ∀ t, ∀ g ∈ onceRX.gates, ∃ s, g.Std 1 [("a", .num t)] s := by
    intro t
    simp only [onceRX_gates, List.mem_cons, List.not_mem_nil, or_false, forall_eq]
    exact ⟨_, rxStd rfl⟩
  have hz : ∀ g ∈ onceRX.gates, g.noise = none := by simp [onceRX_gates, Gate.RX, mkGate]
  have hany : ∀ v, obsZ.Means (AnyLeaf 1 v) v (gateMat 1 StdGate.Z.mat [0] []) := fun v =>
    Op.MeansSum.mono (fun _ _ h => StdLeaf.any h) obsZ_means
  have hm : ∀ t, (Gate.RX (.str "a") (.int 0)).mat 1 .unitary [("a", .num t)] = gateMat 1 (StdGate.RX t).mat [0] [] := fun t =>
    (rxStd rfl).mat
  have hval : ∀ t, (∑ i, star ((gatesMat 1 .unitary [("a", .num t)] onceRX.gates).mulVec (ket 1 zero1) i) *
      (gateMat 1 StdGate.Z.mat [0] []).mulVec ((gatesMat 1 .unitary [("a", .num t)] onceRX.gates).mulVec (ket 1 zero1)) i).re
      = Real.cos t := by
    intro t
    rw [onceRX_gates, gatesMat, gatesMat, hm, one_mul, sum_lab1]
    simp only [mulVec_lab1, ket, zero1_get, StdGate.mat, matE]
    have h2 : Real.cos t = Real.cos (t / 2) ^ 2 - Real.sin (t / 2) ^ 2 := by
      rw [← Real.cos_two_mul']; ring_nf
    rw [h2]
    generalize Real.cos (t / 2) = c
    generalize Real.sin (t / 2) = d
    norm_num [Complex.add_re, Complex.mul_re, Complex.mul_im, Complex.add_im]
    ring
  refine ⟨⟨x, fun t => [Real.cos t], rfl, fun t => ?_, fun _ => rfl, fun i => ?_⟩, ?_⟩
  · have hu : values.upd "a" t = [("a", .num t)] := by simp [Values.upd, values]
    have hf : Values.Flat [("a", .num t)] := by simp [Values.Flat]
    have hc : onceRX.Circuit 1 [("a", .num t)] (onceRX.gates.map fun _ => []) :=
      ⟨hp, by simp [onceRX_gates], fun g hg => (hstd t g hg).choose_spec.ok, by
        rw [List.forall₂_map_right_iff, List.forall₂_same]; exact fun g hg => .none (hz g hg)⟩
    obtain ⟨ψ, -, -, k3, k4⟩ := C19_expectation so eigh draw hc hz hf zero1_isKet (obs := [obsZ]) (by simp)
      (.cons (hany _) .nil)
    rw [k3] at k4
    rw [hu]
    beta_reduce
    rw [← C20_ad_adjoint_partial so eigh draw hf zero1 onceRX ?_ [obsZ], k4, List.map_singleton, hval]
    intro g hg
    rw [hp.iter] at hg
    obtain ⟨g', hg', e⟩ := List.mem_map.1 hg
    cases e
    exact hz _ hg'
  · cases i with
    | zero => exact Real.hasDerivAt_cos x
    | succ i => exact hasDerivAt_const x (0 : ℝ)
  · obtain ⟨y, res, grads, h1, h2, h3⟩ := C55_repaired_value so hp (by simp [onceRX_gates]) (hstd x) hz zero1_isKet (hany _) tangent
    refine ⟨y, res, grads, h1, h2, ?_⟩
    rw [h3 "a" _ rfl]
    have ht : (Gate.RX (.str "a") (.int 0)).trainable = some "a" := rfl
    have hjac : rotJacobian (mat2 0 1 1 0) x = .ok (mat2 0 (-1 / 2 * (Complex.I * Real.cos (x / 2)))
        (-1 / 2 * (Complex.I * Real.cos (x / 2))) 0) := by
      have hr : List.range 2 = [0, 1] := rfl
      simp [rotJacobian, mulEntry, ofFn, mat2, allIdx, hr, eye, NDArray.get, ravel]
    have hJ : (Gate.RX (.str "a") (.int 0)).operator .jacobian [("a", .num x)]
        = .ok (mat2 0 (-1 / 2 * (Complex.I * Real.cos (x / 2))) (-1 / 2 * (Complex.I * Real.cos (x / 2))) 0) := by
      rw [← hjac]
      have hpv : parseValues (.str "a") 0 [("a", .num x)] = .ok x := by
        rw [parseValues_ok (s := 0) (values := [("a", .num x)]) (.str rfl), add_zero]
      simp only [Gate.operator, Gate.RX, mkGate, Gate.jacobian, Gate.generator, operationsDict]
      simp [hpv, bind, Except.bind, matX]
    have hJm : (Gate.RX (.str "a") (.int 0)).mat 1 .jacobian [("a", .num x)]
        = gateMat 1 (entries (mat2 0 (-1 / 2 * (Complex.I * Real.cos (x / 2))) (-1 / 2 * (Complex.I * Real.cos (x / 2))) 0)) [0] [] := by
      rw [Gate.mat, hJ]; rfl
    rw [onceRX_gates, jacobianSum, jacobianSum, gatesMat, gatesMat, if_pos ht, hJm, hm, gatesMat, one_mul, one_mul, Matrix.zero_mul, zero_add,
      sum_lab1]
    simp only [mulVec_lab1, ket, zero1_get, StdGate.mat, matE]
    have h2 : Real.sin x = 2 * Real.sin (x / 2) * Real.cos (x / 2) := by
      rw [← Real.sin_two_mul]; ring_nf
    rw [h2]
    generalize Real.cos (x / 2) = c
    generalize Real.sin (x / 2) = d
    norm_num [Complex.add_re, Complex.mul_re, Complex.mul_im, Complex.add_im, entries, mat2, NDArray.get, ravel]
    ring

end Verif
