import Verif.Props.Vqe
import Verif.Props.KrausExact
import Verif.SpecStates

/-!
# C83: what a rotation gate measures when it is used as an observable

docs/differentiation.md:116-134 differentiates the expectation of `Observable([RZ(p, 0)])` with respect to the angle.
-/

set_option autoImplicit false

namespace Verif
open NDArray
open scoped ComplexOrder
variable {n : ℕ} {values : Values} (so : SetOrder) (eigh : Eigh) (draw : Draw)

/-- The Hermitian part of an operator. -/
noncomputable def hermPart (O : Matrix (Lab n) (Lab n) ℂ) : Matrix (Lab n) (Lab n) ℂ := (1 / 2 : ℂ) • (O + O.conjTranspose)

theorem expVal_hermPart (O : Matrix (Lab n) (Lab n) ℂ) {ρ : Matrix (Lab n) (Lab n) ℂ} (h : ρ.IsHermitian) :
    ((expVal O ρ : ℝ) : ℂ) = (hermPart O * ρ).trace := by
  have e : (O.conjTranspose * ρ).trace = star (O * ρ).trace := by
    rw [← Matrix.trace_conjTranspose, Matrix.conjTranspose_mul, h.eq, Matrix.trace_mul_comm]
  rw [hermPart, Matrix.smul_mul, Matrix.add_mul, Matrix.trace_smul, Matrix.trace_add, e, expVal, Complex.star_def, Complex.add_conj,
    smul_eq_mul]
  push_cast; ring

/-- **C83** (Hermitian part): for every observable that has a meaning `O` -- Hermitian or not -- the exact expectation on a
state vector is the expectation of the Hermitian part `(O + O†)/2` at the output of `run`. -/
theorem C83_hermitian_part {vc vo : Values} (hs : values.Splits vc vo) {circuit : Op} {nss : List (List StdNoise)}
    (hc : circuit.Circuit n vc nss) (hz : ∀ g ∈ circuit.gates, g.noise = none) {a : NDArray ℂ} (ha : IsKet n a)
    {o : Observable} {O : Matrix (Lab n) (Lab n) ℂ} (ho : o.Means (AnyLeaf n vo) vo O) :
    ∃ ψ x, run so circuit (.vec a) vc = .ok (some (.vec ψ)) ∧
      expectation so eigh draw (.vec a) circuit [o] values .ad 0 = .ok [x] ∧
      (x : ℂ) = ∑ b, star (ket n ψ b) * ((1 / 2 : ℂ) • (O + O.conjTranspose)).mulVec (ket n ψ) b := by
  obtain ⟨ψ, h1, -, h2⟩ := C38_nested_value_partial so eigh draw hs hc hz ha (by simp) (.cons ho .nil)
  refine ⟨ψ, _, h1, h2, ?_⟩
  beta_reduce
  rw [← expVal_vec, expVal_hermPart _ (State.hermitian_vec ψ), Matrix.trace]
  refine Finset.sum_congr rfl fun x _ => ?_
  rw [Matrix.diag_apply, Matrix.mul_apply, Matrix.mulVec, dotProduct, Finset.mul_sum]
  refine Finset.sum_congr rfl fun y _ => ?_
  simp only [State.mat, Matrix.of_apply, ket, hermPart]
  ring

/-- The probability that all qubits of `qs` are measured as 1. -/
noncomputable def State.probOnes (n : ℕ) (s : State) (qs : List ℕ) : ℝ :=
  ∑ b : Lab n, if ∀ q ∈ qs, b.bit q = 1 then s.prob n b else 0

theorem hermPart_gateMat (U : ℕ → ℕ → ℂ) {ts cs : List ℕ} (hv : ValidDims n (cs ++ ts)) :
    hermPart (gateMat n U ts cs) = gateMat n (fun i j => (U i j + star (U j i)) / 2) ts cs := by
  rw [hermPart, gateMat_conjTranspose _ hv]
  ext x y
  simp only [Matrix.smul_apply, Matrix.add_apply, gateMat, conjT, smul_eq_mul]
  split_ifs <;> ring

theorem gateMat_diag_controlled (d : ℕ → ℂ) (ts cs : List ℕ) :
    gateMat n (fun i j => if i = j then d i else 0) ts cs
      = Matrix.diagonal fun x => if ∀ c ∈ cs, x.bit c = 1 then d (x.idx ts) else 1 := by
  funext x y
  have h := congrFun (congrFun (gateMat_diag (n := n) d ts) x) y
  rw [gateMat_nil_apply, Matrix.diagonal_apply] at h
  rw [gateMat, Matrix.diagonal_apply]
  by_cases hc : ∀ c ∈ cs, x.bit c = 1
  · simp only [if_pos hc]; exact h
  · simp only [if_neg hc]

/-- The gate is a rotation by `θ`. -/
def StdGate.IsRotation (s : StdGate) (θ : ℝ) : Prop := s = .RX θ ∨ s = .RY θ ∨ s = .RZ θ

theorem re_half (z : ℂ) : (z + star z) / 2 = (z.re : ℂ) := by
  rw [Complex.star_def, Complex.add_conj]; push_cast; ring

theorem rotation_herm {s : StdGate} {θ : ℝ} (h : s.IsRotation θ) (i j : ℕ) (hi : i < 2) (hj : j < 2) :
    (s.mat i j + star (s.mat j i)) / 2 = if i = j then ((Real.cos (θ / 2) : ℝ) : ℂ) else 0 := by
  have e1 : (Complex.exp (-Complex.I * θ / 2)).re = Real.cos (θ / 2) := by
    rw [Complex.exp_re]; simp [neg_div]
  have e2 : (Complex.exp (Complex.I * θ / 2)).re = Real.cos (θ / 2) := by
    rw [Complex.exp_re]; simp
  rcases h with rfl | rfl | rfl
  all_goals
    rw [StdGate.mat, matE_two _ _ _ _ i j hi hj, matE_two _ _ _ _ j i hj hi]
    rcases (by omega : i = 0 ∨ i = 1) with rfl | rfl <;> rcases (by omega : j = 0 ∨ j = 1) with rfl | rfl
  all_goals simp only [if_true, zero_ne_one, one_ne_zero, if_false]
  all_goals first | rw [re_half, e1] | rw [re_half, e2] | rw [re_half, Complex.ofReal_re] | skip
  all_goals simp only [Complex.star_def, map_neg, map_mul, map_zero, Complex.conj_I, Complex.conj_ofReal]
  all_goals ring

theorem phase_herm (θ : ℝ) (i j : ℕ) (hi : i < 2) (hj : j < 2) :
    ((StdGate.PHASE θ).mat i j + star ((StdGate.PHASE θ).mat j i)) / 2
      = if i = j then (if i = 1 then ((Real.cos θ : ℝ) : ℂ) else 1) else 0 := by
  have e : (Complex.exp (Complex.I * θ)).re = Real.cos θ := by
    rw [Complex.exp_re]; simp
  rw [StdGate.mat, matE_two _ _ _ _ i j hi hj, matE_two _ _ _ _ j i hj hi]
  rcases (by omega : i = 0 ∨ i = 1) with rfl | rfl <;> rcases (by omega : j = 0 ∨ j = 1) with rfl | rfl
  all_goals simp only [if_true, zero_ne_one, one_ne_zero, if_false, re_half, e]
  all_goals simp

/-- A gate used as an observable: `κ` is what its Hermitian part is on the labels with ones on the qubits `qs`, and it is 1
elsewhere.  Rotations: `cos(θ/2)` where the controls are 1.  `PHASE`: `cos θ` where the controls and the target are 1. -/
def ReadsAs (g : Gate) (s : StdGate) (κ : ℝ) (qs : List ℕ) : Prop :=
  (∃ θ, s.IsRotation θ ∧ κ = Real.cos (θ / 2) ∧ qs = ctlInts g.control) ∨
    ∃ θ, s = .PHASE θ ∧ κ = Real.cos θ ∧ qs = ctlInts g.control ++ g.target

theorem ReadsAs.diag {g : Gate} {s : StdGate} {κ : ℝ} {qs : List ℕ} (h : ReadsAs g s κ qs) (hg : g.Std n values s) :
    hermPart (stdMat n g s) = Matrix.diagonal fun b : Lab n => if ∀ q ∈ qs, b.bit q = 1 then (κ : ℂ) else 1 := by
  rw [stdMat, hermPart_gateMat _ hg.valid.dims]
  have hl := hg.arity
  rcases h with ⟨θ, h1, rfl, rfl⟩ | ⟨θ, rfl, rfl, rfl⟩
  · have hl : g.target.length = 1 := by rcases h1 with rfl | rfl | rfl <;> exact hl
    rw [gateMat_congr (V := fun i j => if i = j then ((Real.cos (θ / 2) : ℝ) : ℂ) else 0), gateMat_diag_controlled]
    rw [hl]
    exact rotation_herm h1
  · have hl : g.target.length = 1 := hl
    rw [gateMat_congr (V := fun i j => if i = j then (if i = 1 then ((Real.cos θ : ℝ) : ℂ) else 1) else 0),
      gateMat_diag_controlled]
    · obtain ⟨t, ht⟩ := List.length_eq_one_iff.1 hl
      refine congrArg _ (funext fun b => ?_)
      rw [ht]
      have e : b.idx [t] = b.bit t := by simp [Lab.idx, binVal]
      rw [e]
      by_cases h1 : ∀ c ∈ ctlInts g.control, b.bit c = 1
      · rw [if_pos h1]
        by_cases h2 : b.bit t = 1
        · rw [if_pos h2, if_pos]
          intro q hq
          rcases List.mem_append.1 hq with hq | hq
          · exact h1 q hq
          · rwa [List.mem_singleton.1 hq]
        · rw [if_neg h2, if_neg]; exact fun h => h2 (h t (by simp))
      · rw [if_neg h1, if_neg]; exact fun h => h1 fun c hc => h c (List.mem_append_left _ hc)
    · rw [hl]
      exact phase_herm θ

theorem expVal_diag {g : Gate} {s : StdGate} {κ : ℝ} {qs : List ℕ} (h : ReadsAs g s κ qs) (hg : g.Std n values s) {r : State}
    (hr : (r.mat n).IsHermitian) : expVal (stdMat n g s) (r.mat n) = (r.mat n).trace.re - (1 - κ) * r.probOnes n qs := by
  have e := congrArg Complex.re (expVal_hermPart (stdMat n g s) hr)
  rw [Complex.ofReal_re, h.diag hg] at e
  rw [e, State.probOnes, Finset.mul_sum, Matrix.trace, Matrix.trace, Complex.re_sum, Complex.re_sum, ← Finset.sum_sub_distrib]
  refine Finset.sum_congr rfl fun b _ => ?_
  rw [Matrix.diag_apply, Matrix.diagonal_mul, Matrix.diag_apply]
  split_ifs
  · rw [Complex.re_ofReal_mul, State.prob]; ring
  · rw [one_mul]; ring

/-- **C83** (any parametric gate, state vectors): the exact expectation of `Observable([g])` for a rotation `g` by `θ` with any
controls is `‖ψ‖² - (1 - cos(θ/2)) P`, where `P` is the probability that all controls of `g` are measured as 1; for `PHASE` it is
`‖ψ‖² - (1 - cos θ) P` with the probability that the controls and the target are 1.  Nested or flat values. -/
theorem C83_gate {vc vo : Values} (hs : values.Splits vc vo) {circuit : Op} {nss : List (List StdNoise)}
    (hc : circuit.Circuit n vc nss) (hz : ∀ g ∈ circuit.gates, g.noise = none) {a : NDArray ℂ} (ha : IsKet n a)
    {g : Gate} {s : StdGate} (hg : g.Std n vo s) (hgz : g.noise = none) {κ : ℝ} {qs : List ℕ} (hr : ReadsAs g s κ qs) :
    ∃ ψ, run so circuit (.vec a) vc = .ok (some (.vec ψ)) ∧
      expectation so eigh draw (.vec a) circuit [Observable.new (.list [.prim g])] values .ad 0
        = .ok [normSq n ψ - (1 - κ) * (State.vec ψ).probOnes n qs] := by
  obtain ⟨r, h1, h2, h3⟩ := circuit_run so hc (st := .vec a) ha
  cases r with
  | dm r => exact absurd hz h3.1
  | vec r =>
    refine ⟨r, h1, ad_of_single so eigh draw hs h2 (by simp) (.cons ?_ .nil)⟩
    have hm : (Observable.new (.list [.prim g])).Means (AnyLeaf n vo) vo (stdMat n g s) :=
      .one (.gate (show StdLeaf n vo g _ from ⟨s, hg, hgz, rfl⟩).any)
    rw [expectSingle_vec so hm h3.2.1, expVal_diag hr hg (State.hermitian_vec r), vec_trace, Complex.ofReal_re]

theorem single_simple {g : Gate} {s : StdGate} (hg : g.Std n values s) (hz : g.noise = none) (hl : g.qubits.length = 1) :
    (Observable.new (.list [.prim g])).Simple so n values (stdMat n g s) := by
  have leaf : StdLeaf n values g (stdMat n g s) := ⟨s, hg, hz, rfl⟩
  refine ⟨.one (.gate leaf), .one (.gate leaf), fun S hS => ?_⟩
  have hgs : (Observable.new (.list [.prim g])).toOp.gates = [g] := by
    simp [Observable.toOp, Observable.new, OpArg.toList, Op.gates, Op.gatesList]
  obtain ⟨T, h1, h2, h3⟩ := qubitSupport_tree (n := n) so (Observable.new (.list [.prim g])).toOp (by
    rw [hgs]; simpa using hg.valid)
  obtain rfl : T = S := by rw [h1] at hS; cases hS; rfl
  obtain ⟨t, ht⟩ := List.length_eq_one_iff.1 hl
  have hT : ∀ q ∈ T, q = t := by
    intro q hq
    obtain ⟨g', hg', hqg⟩ := (h3 q).1 hq
    rw [hgs, List.mem_singleton] at hg'
    subst hg'
    rw [ht] at hqg
    simpa using hqg
  match T, h2, hT with
  | [], _, _ => simp
  | [a], _, _ => simp
  | a :: b :: t, hn, hT =>
    have := hT a (by simp); have := hT b (by simp); subst_vars; simp at hn

/-- **C83** (rotations without controls measure nothing): for every physical state, every circuit of standard gates, noisy or not,
the exact expectation of `Observable([R(θ, t)])` is `cos(θ/2)` times the trace (the squared norm) of the initial state: it does
not depend on the circuit, on the qubit or on the axis. -/
theorem C83_rotation {vc vo : Values} (hs : values.Splits vc vo) {circuit : Op} {nss : List (List StdNoise)}
    (hc : circuit.Circuit n vc nss) (hstd : ∀ g ∈ circuit.gates, ∃ s, g.Std n vc s) {st : State} (hst : st.On n)
    (hp : (st.mat n).PosSemidef) {g : Gate} {s : StdGate} {θ : ℝ} (hθ : s.IsRotation θ) (hg : g.Std n vo s) (hgz : g.noise = none)
    (hctl : ctlInts g.control = []) :
    expectation so eigh draw st circuit [Observable.new (.list [.prim g])] values .ad 0
      = .ok [Real.cos (θ / 2) * (st.mat n).trace.re] := by
  obtain ⟨r, h1, h2, h3, h4, h5⟩ := run_physical so hc hstd hst hp
  have hl : g.qubits.length = 1 := by
    have := hg.arity
    rw [Gate.qubits, hctl, List.nil_append, this]
    rcases hθ with rfl | rfl | rfl <;> rfl
  refine ad_of_single so eigh draw hs h2 (by simp) (.cons ?_ .nil)
  rw [(single_simple so hg hgz hl).single so h3, expVal_diag (.inl ⟨θ, hθ, rfl, rfl⟩) hg h4.isHermitian, h5, hctl]
  have : r.probOnes n [] = (st.mat n).trace.re := by
    rw [State.probOnes, ← h5, Matrix.trace, Complex.re_sum]
    exact Finset.sum_congr rfl fun b _ => by simp [State.prob]
  rw [this]
  congr 2; ring

/-- **C83** (the example of docs/differentiation.md): with `values = {"circuit": vc, "observables": {p: y}}` the derivative of the
expectation of `Observable([RZ(p, t)])` with respect to `y` is `-sin(y/2)/2` for every normalised state and circuit, and
changing the circuit or its values changes nothing. -/
theorem C83_docs {vc : Values} {circuit : Op} {nss : List (List StdNoise)}
    (hc : circuit.Circuit n vc nss) (hstd : ∀ g ∈ circuit.gates, ∃ s, g.Std n vc s) {st : State} (hst : st.On n)
    (hp : (st.mat n).PosSemidef) (htr : (st.mat n).trace = 1) (p : String) {t : ℕ} (ht : t < n) :
    ∃ f : ℝ → ℝ, (∀ y, expectation so eigh draw st circuit [Observable.new (.list [.prim (Gate.RZ (.str p) (.int t))])]
        [("circuit", .dict vc), ("observables", .dict [(p, .num y)])] .ad 0 = .ok [f y]) ∧
      (∀ y, f y = Real.cos (y / 2)) ∧ ∀ y, HasDerivAt f (-Real.sin (y / 2) / 2) y := by
  refine ⟨fun y => Real.cos (y / 2), fun y => ?_, fun _ => rfl, fun y => ?_⟩
  · have h := C83_rotation (values := [("circuit", .dict vc), ("observables", .dict [(p, .num y)])]) so eigh draw (.inl ⟨rfl, rfl⟩)
      (vo := [(p, .num y)]) hc hstd hst hp (g := Gate.RZ (.str p) (.int t)) (s := .RZ y) (θ := y) (.inr (.inr rfl))
      ⟨.RZ _ _ _ (x := y) (.str (by simp [List.lookup])) (by simp), rfl, ⟨.inr (.inl rfl), ⟨by simp [ctlInts, Gate.RZ, mkGate, parseTarget, parseControl], by
        simpa [ctlInts, Gate.RZ, mkGate, parseTarget, parseControl] using ht⟩⟩⟩ rfl rfl
    rw [h, htr]; simp
  · have h : HasDerivAt (fun y => Real.cos (y / 2)) (-Real.sin (y / 2) * (1 / 2)) y := ((hasDerivAt_id y).div_const 2).cos
    exact h.congr_deriv (by ring)

/-- Non-vacuity: `RX("a", 0)` on `|0⟩`. -/
example : circuitRX.Circuit 1 [("a", .num 1)] [[]] ∧ (∀ g ∈ circuitRX.gates, ∃ s, g.Std 1 [("a", .num 1)] s) ∧
    ((State.vec ⟨[2], [3 / 5, 4 / 5]⟩).mat 1).PosSemidef := by
  have hg : (Gate.RX (.str "a") (.int 0)).Std 1 [("a", .num 1)] (.RX (1 + 0)) :=
    ⟨.RX _ _ _ (.str rfl) rfl, rfl, ⟨.inr (.inl rfl), by decide⟩⟩
  refine ⟨⟨.seq (.cons (.prim _) .nil), by simp [circuitRX, mkSeq, Op.gates, Op.gatesList], ?_, .cons (.none rfl) .nil⟩, ?_, ?_⟩
  · simp only [circuitRX, mkSeq, Op.gates, Op.gatesList, List.append_nil, List.mem_singleton, forall_eq]
    exact hg.ok
  · simp only [circuitRX, mkSeq, Op.gates, Op.gatesList, List.append_nil, List.mem_singleton, forall_eq]
    exact ⟨_, hg⟩
  · exact Matrix.posSemidef_vecMulVec_self_star _

/-- Non-vacuity of `ReadsAs`: a controlled rotation and a phase gate. -/
example : ReadsAs (Gate.RY (.num 1) (.int 1) (.int 0)) (.RY 1) (Real.cos (1 / 2)) [0] ∧
    ReadsAs (Gate.PHASE (.num 1) (.int 1) (.int 0)) (.PHASE 1) (Real.cos 1) [0, 1] :=
  ⟨.inl ⟨1, .inr (.inl rfl), rfl, rfl⟩, .inr ⟨1, rfl, rfl, rfl⟩⟩

end Verif
