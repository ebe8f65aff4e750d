import Verif.Props.Gates
import Verif.Lemmas.Small

/-!
# Applying a gate with `op_type = JACOBIAN`

C60.
-/

set_option autoImplicit false

namespace Verif
open NDArray
variable {n : ℕ}

/-- Applying the rotation `r` at angle `θ` to the state `st` with `op_type = JACOBIAN` gives the derivative, at `θ`, of the
state obtained by applying the rotation. -/
def Rot.JacobianApplies (so : SetOrder) (n : ℕ) (r : Rot) (q : ℕ) (c : CArg) (θ : ℝ) (st : NDArray ℂ) : Prop :=
  ∃ (f : ℝ → NDArray ℂ) (d : NDArray ℂ),
    (∀ x, applyGates so (.vec st) (.single (r.gate (.num x) (.int q) c none)) [] .unitary = .ok (.vec (f x))) ∧
    applyGates so (.vec st) (.single (r.gate (.num θ) (.int q) c none)) [] .jacobian = .ok (.vec d) ∧
    ∀ b : Lab n, HasDerivAt (fun x => (f x).get b.bits) (d.get b.bits) θ

theorem Rot.jacobian_ok (r : Rot) (t : TArg) (c : CArg) (θ : ℝ) :
    ∃ J, (r.gate (.num θ) t c none).operator .jacobian [] = .ok J ∧ IsOp 1 J := by
  have h2 : ∀ a b c d : ℂ, IsOp 1 (mat2 a b c d) := fun a b c d => ⟨rfl, rfl⟩
  have hr : List.range 2 = [0, 1] := rfl
  have hj : ∀ a b c d : ℂ, ∃ J, rotJacobian (mat2 a b c d) θ = .ok J ∧ IsOp 1 J := fun a b c d =>
    ⟨_, by rw [rotJacobian, mulEntry]; exact if_pos rfl, ⟨rfl, by simp [NDArray.WF, ofFn, mat2, allIdx, hr]⟩⟩
  cases r
  · obtain ⟨J, h1, h3⟩ := hj 0 1 1 0
    refine ⟨J, ?_, h3⟩
    rw [← h1]
    simp [Rot.gate, Gate.operator, Gate.RX, mkGate, Gate.jacobian, Gate.generator, operationsDict, parseValues, bind, Except.bind, matX]
  · obtain ⟨J, h1, h3⟩ := hj 0 (-Complex.I) Complex.I 0
    refine ⟨J, ?_, h3⟩
    rw [← h1]
    simp [Rot.gate, Gate.operator, Gate.RY, mkGate, Gate.jacobian, Gate.generator, operationsDict, parseValues, bind, Except.bind, matY]
  · obtain ⟨J, h1, h3⟩ := hj 1 0 0 (-1)
    refine ⟨J, ?_, h3⟩
    rw [← h1]
    simp [Rot.gate, Gate.operator, Gate.RZ, mkGate, Gate.jacobian, Gate.generator, operationsDict, parseValues, bind, Except.bind, matZ]
  · exact ⟨_, by simp [Rot.gate, Gate.operator, Gate.PHASE, mkGate, Gate.jacobian, parseValues, bind, Except.bind]; rfl, h2 _ _ _ _⟩

/-- The states in both computations, in terms of the matrices. -/
theorem Rot.applied (so : SetOrder) (r : Rot) {q : ℕ} {c : CArg} (hc : WfCtl (parseControl c))
    (hv : ValidDims n (ctlInts (parseControl c) ++ [q])) (θ : ℝ) :
    ∃ (U : ℝ → NDArray ℂ) (J : NDArray ℂ), (∀ x, (r.gate (.num x) (.int q) c none).unitary [] = .ok (U x)) ∧
      (r.gate (.num θ) (.int q) c none).jacobian [] = .ok J ∧ ∀ st, IsKet n st → ∃ (f : ℝ → NDArray ℂ) (d : NDArray ℂ),
      (∀ x, applyGates so (.vec st) (.single (r.gate (.num x) (.int q) c none)) [] .unitary = .ok (.vec (f x))) ∧
      applyGates so (.vec st) (.single (r.gate (.num θ) (.int q) c none)) [] .jacobian = .ok (.vec d) ∧
      (∀ x, ket n (f x) = (gateMat n (entries (U x)) [q] (ctlInts (parseControl c))).mulVec (ket n st)) ∧
      ket n d = (gateMat n (entries J) [q] (ctlInts (parseControl c))).mulVec (ket n st) := by
  have ht : ∀ x, (r.gate (.num x) (.int q) c none).target = [q] := fun x => (r.target _ _ _ _).1
  have hcc : ∀ x, (r.gate (.num x) (.int q) c none).control = parseControl c := fun x => (r.target _ _ _ _).2.1
  have hvv : ∀ x, (r.gate (.num x) (.int q) c none).ValidOn n := fun x => ⟨by rw [hcc]; exact hc, by rw [hcc, ht]; exact hv⟩
  have hU : ∀ x, ∃ U, (r.gate (.num x) (.int q) c none).unitary [] = .ok U ∧ IsOp 1 U := by
    intro x
    obtain ⟨U, h1, h2, -⟩ := (r.is (values := []) (p := .num x) (θ := x) (.int q) c none (.num x)).unitary
    refine ⟨U, h1, ?_⟩
    have : (r.std x).arity = 1 := by cases r <;> rfl
    rwa [this] at h2
  choose U hU1 hU2 using hU
  obtain ⟨J, hJ1, hJ2⟩ := r.jacobian_ok (.int q) c θ
  refine ⟨U, J, hU1, hJ1, fun st hst => ?_⟩
  have hf : ∀ x, _ := fun x => applyGates_single so (ot := .unitary) (values := []) (g := r.gate (.num x) (.int q) c none)
    ⟨⟨U x, hU1 x, by rw [ht]; exact hU2 x⟩, hvv x⟩ (r.target _ _ _ _).2.2 hst false true
  choose f hf1 hf2 hf3 using hf
  obtain ⟨d, hd1, hd2, hd3⟩ := applyGates_single so (ot := .jacobian) (values := []) (g := r.gate (.num θ) (.int q) c none)
    ⟨⟨J, hJ1, by rw [ht]; exact hJ2⟩, hvv θ⟩ (r.target _ _ _ _).2.2 hst false true
  refine ⟨f, d, hf1, hd1, fun x => ?_, ?_⟩
  · rw [hf3, Gate.mat, show (r.gate (.num x) (.int q) c none).operator .unitary [] = .ok (U x) from hU1 x, ht, hcc]
  · rw [hd3, Gate.mat, hJ1, ht, hcc]

/-- **C60**: applying a rotation with `op_type = JACOBIAN` differentiates the applied state, for all states, exactly when
the gate has no controls and is a `PHASE`, or `sin (θ/2) = 0`. -/
theorem C60_apply_jacobian_iff (so : SetOrder) (r : Rot) {q : ℕ} {c : CArg} (hc : WfCtl (parseControl c))
    (hv : ValidDims n (ctlInts (parseControl c) ++ [q])) (θ : ℝ) :
    (∀ st, IsKet n st → r.JacobianApplies so n q c θ st) ↔
      ctlInts (parseControl c) = [] ∧ (r = .PHASE ∨ Real.sin (θ / 2) = 0) := by
  obtain ⟨U, J, hU, hJ, happ⟩ := r.applied so hc hv θ
  have hder : (∀ i j, i < 2 → j < 2 → HasDerivAt (fun x => (U x).get [i, j]) (J.get [i, j]) θ) ↔
      (r = .PHASE ∨ Real.sin (θ / 2) = 0) := by
    have e : r.JacobianIsDerivative [] (.int q) c none θ ↔
        ∀ i j, i < 2 → j < 2 → HasDerivAt (fun x => (U x).get [i, j]) (J.get [i, j]) θ := by
      constructor
      · rintro ⟨U', J', hU', hJ', h⟩
        have h1 : U' = U := funext fun x => Except.ok.inj ((hU' x).symm.trans (hU x))
        have h2 : J' = J := Except.ok.inj (hJ'.symm.trans hJ)
        rwa [h1, h2] at h
      · exact fun h => ⟨U, J, hU, hJ, h⟩
    rw [← e]
    by_cases hr : r = .PHASE
    · subst hr
      simp only [true_or, iff_true]
      exact C39_jacobian_partial [] (.int q) c none θ
    · simp only [hr, false_or]
      exact C39_jacobian_iff r (by cases r <;> simp at hr ⊢) [] (.int q) c none θ
  rw [← hder]
  have hq : q < n := hv.lt q (by simp)
  have hbit : ∀ b : Lab n, b.idx [q] < 2 := fun b => by simpa using b.idx_lt [q]
  constructor
  · intro H
    have hnil : ctlInts (parseControl c) = [] := by
      by_contra hne
      obtain ⟨k, hk⟩ := List.exists_mem_of_ne_nil _ hne
      let b : Lab n := fun _ => 0
      have hb : ¬ ∀ k ∈ ctlInts (parseControl c), b.bit k = 1 := by
        intro h
        have := h k hk
        simp only [Lab.bit, b] at this
        split_ifs at this <;> simp at this
      have hoff : ∀ E : ℕ → ℕ → ℂ, (gateMat n E [q] (ctlInts (parseControl c))).mulVec (Pi.single b 1) b = 1 := by
        intro E
        rw [Matrix.mulVec_single_one, Matrix.col_apply, gateMat, if_neg hb, if_pos rfl]
      obtain ⟨f, d, h1, h2, h3⟩ := H _ (basisKet_isKet b)
      obtain ⟨f', d', h1', h2', h3', h4'⟩ := happ _ (basisKet_isKet b)
      have hf : ∀ x, (f x).get b.bits = 1 := fun x => by
        have e : f x = f' x := by have := (h1 x).symm.trans (h1' x); injection this with this; injection this
        have := congrFun (h3' x) b
        rw [ket_basisKet, hoff] at this
        rw [e]; exact this
      have hd : d.get b.bits = 1 := by
        have e : d = d' := by have := h2.symm.trans h2'; injection this with this; injection this
        have := congrFun h4' b
        rw [ket_basisKet, hoff] at this
        rw [e]; exact this
      have hc := h3 b
      simp only [hf, hd] at hc
      exact zero_ne_one ((hasDerivAt_const θ (1 : ℂ)).unique hc)
    refine ⟨hnil, fun i j hi hj => ?_⟩
    let bi : Lab n := fun k => if k.val = q then ⟨i, hi⟩ else 0
    let bj : Lab n := fun k => if k.val = q then ⟨j, hj⟩ else 0
    have hon : ∀ E : ℕ → ℕ → ℂ, (gateMat n E [q] (ctlInts (parseControl c))).mulVec (Pi.single bj 1) bi = E i j := by
      intro E
      rw [Matrix.mulVec_single_one, Matrix.col_apply, gateMat, hnil, if_pos (by simp), if_pos]
      · simp [Lab.idx, Lab.bit, binVal, hq, bi, bj]
      · intro k hk
        have : k.val ≠ q := by simpa using hk
        simp [bi, bj, this]
    obtain ⟨f, d, h1, h2, h3⟩ := H _ (basisKet_isKet bj)
    obtain ⟨f', d', h1', h2', h3', h4'⟩ := happ _ (basisKet_isKet bj)
    have hf : ∀ x, (f x).get bi.bits = (U x).get [i, j] := fun x => by
      have e : f x = f' x := by have := (h1 x).symm.trans (h1' x); injection this with this; injection this
      have := congrFun (h3' x) bi
      rw [ket_basisKet, hon] at this
      rw [e]; exact this
    have hd : d.get bi.bits = J.get [i, j] := by
      have e : d = d' := by have := h2.symm.trans h2'; injection this with this; injection this
      have := congrFun h4' bi
      rw [ket_basisKet, hon] at this
      rw [e]; exact this
    have hc := h3 bi
    simp only [hf, hd] at hc
    exact hc
  · rintro ⟨hnil, hd⟩ st hst
    obtain ⟨f, d, h1, h2, h3, h4⟩ := happ st hst
    refine ⟨f, d, h1, h2, fun b => ?_⟩
    have e1 : (fun x => (f x).get b.bits) = fun x => ∑ b' : Lab n, gateMat n (entries (U x)) [q] [] b b' * st.get b'.bits := by
      funext x
      have := congrFun (h3 x) b
      rw [hnil] at this
      exact this
    have e2 : d.get b.bits = ∑ b' : Lab n, gateMat n (entries J) [q] [] b b' * st.get b'.bits := by
      have := congrFun h4 b
      rw [hnil] at this
      exact this
    rw [e1, e2]
    refine HasDerivAt.fun_sum fun b' _ => HasDerivAt.mul_const ?_ _
    simp only [gateMat, List.not_mem_nil, false_imp_iff, implies_true, if_true]
    split_ifs
    · exact hd _ _ (hbit b) (hbit b')
    · exact hasDerivAt_const θ (0 : ℂ)

/-- **C60** (what holds): `PHASE` without controls, on every state of every register. -/
theorem C60_phase_partial (so : SetOrder) {q : ℕ} (hq : q < n) (θ : ℝ) {st : NDArray ℂ} (hst : IsKet n st) :
    Rot.PHASE.JacobianApplies so n q (.tuple [.none]) θ st :=
  (C60_apply_jacobian_iff so .PHASE (c := .tuple [.none]) (.inr (.inl rfl)) ⟨by simp [ctlInts, parseControl], by simpa [ctlInts, parseControl] using hq⟩ θ).2
    ⟨rfl, .inl rfl⟩ st hst

example : ∃ st : NDArray ℂ, IsKet 3 st := ⟨basisKet ℂ (fun _ : Fin 3 => 1), basisKet_isKet _⟩

/-- **C60 is false** of every controlled rotation, at every angle. -/
theorem C60_controlled_false (so : SetOrder) (r : Rot) {q k : ℕ} (hq : q < n) (hk : k < n) (hqk : k ≠ q) (θ : ℝ) :
    ∃ st, IsKet n st ∧ ¬ r.JacobianApplies so n q (.int k) θ st := by
  by_contra h
  push Not at h
  have := (C60_apply_jacobian_iff so r (c := .int k) (.inr (.inr ⟨[k], rfl⟩))
    ⟨by simpa [ctlInts, parseControl] using hqk, by simp [ctlInts, parseControl, hq, hk]⟩ θ).1 h
  simp [ctlInts, parseControl] at this

example : (0 : ℕ) < 2 ∧ 1 < 2 ∧ (1 : ℕ) ≠ 0 := by decide

/-- The gates without an angle: they have no method `jacobian`. -/
inductive Gate.NoAngle : Gate → Prop
  | I (t c nz sp) : NoAngle (Gate.I t c nz sp)
  | X (t c nz sp) : NoAngle (Gate.X t c nz sp)
  | Y (t c nz sp) : NoAngle (Gate.Y t c nz sp)
  | Z (t c nz sp) : NoAngle (Gate.Z t c nz sp)
  | H (t c nz sp) : NoAngle (Gate.H t c nz sp)
  | S (t c nz sp) : NoAngle (Gate.S t c nz sp)
  | T (t c nz sp) : NoAngle (Gate.T t c nz sp)
  | SWAP (t c nz sp) : NoAngle (Gate.SWAP t c nz sp)
  | evolution (t c) : NoAngle (Gate.HamiltonianEvolution t c)

/-- **C60** (gates without an angle): `JACOBIAN` raises AttributeError for fixed gates and for `HamiltonianEvolution`. -/
theorem C60_no_angle (so : SetOrder) (st : State) (values : Values) {g : Gate} (h : g.NoAngle) (group merge : Bool) :
    applyGates so st (.single g) values .jacobian group merge = .error .attributeError := by
  rw [applyGates_singleton so st g values .jacobian group merge false merge]
  have : g.operator .jacobian values = .error .attributeError := by cases h <;> rfl
  exact applyGates_error so st (by simp [this]) ⟨g, by simp, this⟩ false merge

example : (Gate.SWAP (.tuple [0, 1]) (.int 2)).NoAngle := .SWAP _ _ _ _

end Verif
