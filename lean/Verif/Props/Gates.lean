import Mathlib.Analysis.SpecialFunctions.ExpDeriv
import Mathlib.Analysis.SpecialFunctions.Trigonometric.Deriv
import Verif.Lemmas.Subst
import Verif.Lemmas.Tensor
import Verif.Props.Noise

/-!
# Property theorems about gate objects

C39 (jacobian), C41 (rotations and parameters), C48 (constructors), C49 (qubit support and names), C56 (numpy controls).
-/

namespace Verif
open NDArray
variable {n : ℕ} {values : Values}

/-- The rotation gates. -/
inductive Rot
  | RX | RY | RZ | PHASE

/-- The public constructor of a rotation gate. -/
noncomputable def Rot.gate : Rot → Param → TArg → CArg → Option (List NoiseInstance) → Gate
  | .RX, p, t, c, nz => Gate.RX p t c nz
  | .RY, p, t, c, nz => Gate.RY p t c nz
  | .RZ, p, t, c, nz => Gate.RZ p t c nz
  | .PHASE, p, t, c, nz => Gate.PHASE p t c nz

/-- The textbook rotation. -/
def Rot.std : Rot → ℝ → StdGate
  | .RX, θ => .RX θ
  | .RY, θ => .RY θ
  | .RZ, θ => .RZ θ
  | .PHASE, θ => .PHASE θ

theorem Rot.is (r : Rot) {p : Param} {θ : ℝ} (t : TArg) (c : CArg) (nz : Option (List NoiseInstance))
    (hp : p.Resolves values θ) : (r.gate p t c nz).Is values (r.std θ) := by
  cases r
  · exact (Gate.Built.RX t c nz hp).is
  · exact (Gate.Built.RY t c nz hp).is
  · exact (Gate.Built.RZ t c nz hp).is
  · exact (Gate.Built.PHASE t c nz hp).is

theorem Rot.target (r : Rot) (p : Param) (t : TArg) (c : CArg) (nz : Option (List NoiseInstance)) :
    (r.gate p t c nz).target = parseTarget t ∧ (r.gate p t c nz).control = parseControl c ∧
      (r.gate p t c nz).noise = nz := by
  cases r <;> exact ⟨rfl, rfl, rfl⟩

theorem Rot.mul (r : Rot) (a b : ℝ) {i j : ℕ} (hi : i < 2) (hj : j < 2) :
    mulE 2 (r.std b).mat (r.std a).mat i j = (r.std (a + b)).mat i j := by
  have h2 : (a + b) / 2 = a / 2 + b / 2 := by ring
  have hI := Complex.I_mul_I
  cases r
  · simp only [Rot.std, StdGate.mat]
    rw [mulE_matE _ _ _ _ (fun i j hi hj => matE_lt _ hi hj) (fun i j hi hj => matE_lt _ hi hj) hi hj, matE_lt _ hi hj]
    refine congrFun (congrFun ?_ _) _
    rw [h2, Real.cos_add, Real.sin_add]
    ext i j
    fin_cases i <;> fin_cases j <;> simp [Matrix.mul_apply, -Complex.ofReal_cos, -Complex.ofReal_sin]
    · linear_combination (Real.sin (b/2) * Real.sin (a/2) : ℂ) * hI
    · ring
    · ring
    · linear_combination (Real.sin (b/2) * Real.sin (a/2) : ℂ) * hI
  · simp only [Rot.std, StdGate.mat]
    rw [mulE_matE _ _ _ _ (fun i j hi hj => matE_lt _ hi hj) (fun i j hi hj => matE_lt _ hi hj) hi hj, matE_lt _ hi hj]
    refine congrFun (congrFun ?_ _) _
    rw [h2, Real.cos_add, Real.sin_add]
    ext i j
    fin_cases i <;> fin_cases j <;> simp [Matrix.mul_apply, -Complex.ofReal_cos, -Complex.ofReal_sin] <;> push_cast <;> ring
  · simp only [Rot.std, StdGate.mat]
    rw [mulE_matE _ _ _ _ (fun i j hi hj => matE_lt _ hi hj) (fun i j hi hj => matE_lt _ hi hj) hi hj, matE_lt _ hi hj]
    refine congrFun (congrFun ?_ _) _
    ext i j
    fin_cases i <;> fin_cases j <;> simp [← Complex.exp_add] <;> congr 1 <;> ring
  · simp only [Rot.std, StdGate.mat]
    rw [mulE_matE _ _ _ _ (fun i j hi hj => matE_lt _ hi hj) (fun i j hi hj => matE_lt _ hi hj) hi hj, matE_lt _ hi hj]
    refine congrFun (congrFun ?_ _) _
    ext i j
    fin_cases i <;> fin_cases j <;> simp [← Complex.exp_add] <;> ring_nf

/-- **C41** (composition): a rotation by `a` followed by the same rotation by `b` on the same qubit with the same
controls equals the rotation by `a + b`, on state vectors and density matrices. -/
theorem C41_compose (so : SetOrder) (r : Rot) {p q w : Param} {a b : ℝ} (hp : p.Resolves values a)
    (hq : q.Resolves values b) (hw : w.Resolves values (a + b)) {t : TArg} {c : CArg} {k : ℕ} (ht : parseTarget t = [k])
    (hc : WfCtl (parseControl c)) (hv : ValidDims n (ctlInts (parseControl c) ++ [k])) {state : State} (hst : state.On n)
    (merge merge' : Bool) :
    applyGates so state (.list [r.gate p t c none, r.gate q t c none]) values .unitary false merge
      = applyGates so state (.list [r.gate w t c none]) values .unitary false merge' := by
  have hstd : ∀ {p : Param} {a : ℝ}, p.Resolves values a → (r.gate p t c none).Std n values (r.std a) := by
    intro p a hp
    obtain ⟨h1, h2, h3⟩ := r.target p t c none
    refine ⟨r.is t c none hp, ?_, ⟨by rw [h2]; exact hc, by rw [h1, h2, ht]; exact hv⟩⟩
    rw [h1, ht]; cases r <;> rfl
  have e1 : gatesMat n .unitary values [r.gate p t c none, r.gate q t c none] = gatesMat n .unitary values [r.gate w t c none] := by
    simp only [gatesMat, one_mul, (hstd hp).mat, (hstd hq).mat, (hstd hw).mat, stdMat, r.target, ht]
    rw [gateMat_mul _ _ hv]
    exact gateMat_congr fun i j hi hj => by simpa using r.mul a b (by simpa using hi) (by simpa using hj)
  have ok2 : ∀ g ∈ [r.gate p t c none, r.gate q t c none], g.Ok n .unitary values := by
    simp only [List.mem_cons, List.not_mem_nil, or_false]
    rintro g (rfl | rfl)
    · exact (hstd hp).ok
    · exact (hstd hq).ok
  have ok1 : ∀ g ∈ [r.gate w t c none], g.Ok n .unitary values := by
    simp only [List.mem_singleton]; rintro g rfl; exact (hstd hw).ok
  have nz2 : ∀ g ∈ [r.gate p t c none, r.gate q t c none], g.noise = none := by
    simp only [List.mem_cons, List.not_mem_nil, or_false]
    rintro g (rfl | rfl) <;> exact (r.target _ _ _ _).2.2
  have nz1 : ∀ g ∈ [r.gate w t c none], g.noise = none := by
    simp only [List.mem_singleton]; rintro g rfl; exact (r.target _ _ _ _).2.2
  cases state with
  | vec st =>
    obtain ⟨x, h1, h2, h3⟩ := applyGates_vec so (by simp) ok2 nz2 hst merge
    obtain ⟨y, k1, k2, k3⟩ := applyGates_vec so (by simp) ok1 nz1 hst merge'
    rw [h1, k1, ket_ext h2 k2 (by rw [h3, k3, e1])]
  | dm ρ =>
    obtain ⟨x, h1, h2, h3⟩ := applyGates_dm so (by simp) ok2 nz2 hst merge
    obtain ⟨y, k1, k2, k3⟩ := applyGates_dm so (by simp) ok1 nz1 hst merge'
    rw [h1, k1, dm_ext h2 k2 (by rw [h3, k3, e1])]

/-- Non-vacuity: a controlled rotation with a named and a numeric angle. -/
example : (Param.str "a").Resolves [("a", .num 2)] 2 ∧ (Param.num 3).Resolves [("a", .num 2)] 3 ∧
    WfCtl (parseControl (.tuple [.int 0, .int 3])) ∧ ValidDims 4 (ctlInts (parseControl (.tuple [.int 0, .int 3])) ++ [1]) :=
  ⟨.str rfl, .num _, .inr (.inr ⟨[0, 3], rfl⟩), by decide⟩

/-- Replace a parameter name by its value. -/
noncomputable def Param.subst (values : Values) : Param → Param
  | .num x => .num x
  | .str s => match values.lookup s with
    | some (.num x) => .num x
    | _ => .str s

/-- Replace the parameter name of a gate by its value. -/
noncomputable def Gate.subst (values : Values) (g : Gate) : Gate :=
  match g.cls with
  | .parametric p s => { g with cls := .parametric (p.subst values) s }
  | .phase p s => { g with cls := .phase (p.subst values) s }
  | _ => g

/-- **C41** (substitution): replacing every named parameter by its value changes nothing: any state, any gates (also
invalid or noisy ones), any operation type and options. -/
theorem C41_substitution (so : SetOrder) (state : State) (gs : List Gate) (values : Values) (ot : OpType)
    (group merge : Bool) :
    applyGates so state (.list (gs.map (Gate.subst values))) values ot group merge
      = applyGates so state (.list gs) values ot group merge := by
  have hpv : ∀ p s, parseValues (p.subst values) s values = parseValues p s values := by
    intro p s
    cases p with
    | num x => rfl
    | str k =>
      rcases h : values.lookup k with _ | v
      · simp [Param.subst, h]
      · cases v <;> simp [Param.subst, h, parseValues, Values.get, PyVal.addShift, bind, Except.bind]
  refine applyGates_map so state ?_ ?_ values ot gs ?_ group merge
  · rintro ⟨cls, _, _, _, _, _⟩; cases cls <;> exact ⟨rfl, rfl⟩
  · rintro ⟨cls, _, _, _, _, _⟩; cases cls <;> rfl
  · rintro ⟨cls, _, _, _, _, _⟩ -
    cases cls
    case primitive => rfl
    case hamEvo => rfl
    all_goals cases ot <;> simp [Gate.subst, Gate.operator, Gate.unitary, Gate.daggerOp, Gate.jacobian, Gate.generator, hpv]

example : Gate.subst [("a", .num 2)] (Gate.RX (.str "a") (.int 0)) = Gate.RX (.num 2) (.int 0) := by
  simp [Gate.subst, Gate.RX, mkGate, Param.subst]

/-- The gate has a parameter name without a value. -/
inductive Gate.Missing (values : Values) : Gate → Prop
  | mk (r : Rot) {s : String} (t c nz) (h : values.lookup s = none) : Missing values (r.gate (.str s) t c nz)

/-- **C41** (missing names): if some gate's parameter name has no value, KeyError is raised, whatever the state. -/
theorem C41_missing_name (so : SetOrder) (state : State) {gs : List Gate}
    (h : ∀ g ∈ gs, (∃ s, g.Is values s) ∨ g.Missing values) (hm : ∃ g ∈ gs, g.Missing values) (group merge : Bool) :
    applyGates so state (.list gs) values .unitary group merge = .error .keyError := by
  have key : ∀ g : Gate, g.Missing values → g.operator .unitary values = .error .keyError := by
    rintro _ ⟨r, t, c, nz, h⟩
    cases r <;> simp [Rot.gate, Gate.RX, Gate.RY, Gate.RZ, Gate.PHASE, mkGate, Gate.operator, Gate.unitary, Gate.generator,
      operationsDict, parseValues, Values.get, h, bind, Except.bind]
  obtain ⟨g, hg, hgm⟩ := hm
  refine applyGates_error so state (fun g hg => ?_) ⟨g, hg, key g hgm⟩ group merge
  rcases h g hg with ⟨s, hs⟩ | hgm
  · obtain ⟨U, hU, -⟩ := hs.unitary
    exact .inl ⟨U, hU⟩
  · exact .inr (key g hgm)

example : (Gate.RZ (.str "b") (.int 0)).Missing [("a", .num 2)] := .mk .RZ _ _ _ rfl

/-- The parameter name of `g` has a dictionary as its value. -/
inductive Gate.Nested (values : Values) : Gate → Prop
  | mk (r : Rot) {s : String} {d : Values} (t c nz) (h : values.lookup s = some (.dict d)) : Nested values (r.gate (.str s) t c nz)

/-- **C41** (nested dictionaries): if the value of some gate's parameter name is a dictionary, as with the keys `"circuit"` and
`"observables"` of nested values, TypeError is raised, whatever the state. -/
theorem C41_nested_value (so : SetOrder) (state : State) {gs : List Gate}
    (h : ∀ g ∈ gs, (∃ s, g.Is values s) ∨ g.Nested values) (hm : ∃ g ∈ gs, g.Nested values) (group merge : Bool) :
    applyGates so state (.list gs) values .unitary group merge = .error .typeError := by
  have key : ∀ g : Gate, g.Nested values → g.operator .unitary values = .error .typeError := by
    rintro _ ⟨r, t, c, nz, h⟩
    cases r <;> simp [Rot.gate, Gate.RX, Gate.RY, Gate.RZ, Gate.PHASE, mkGate, Gate.operator, Gate.unitary, Gate.generator,
      operationsDict, parseValues, Values.get, h, bind, Except.bind, PyVal.addShift]
  obtain ⟨g, hg, hgm⟩ := hm
  refine applyGates_error so state (fun g hg => ?_) ⟨g, hg, key g hgm⟩ group merge
  rcases h g hg with ⟨s, hs⟩ | hgm
  · obtain ⟨U, hU, -⟩ := hs.unitary
    exact .inl ⟨U, hU⟩
  · exact .inr (key g hgm)

example : (Gate.RZ (.str "circuit") (.int 0)).Nested [("circuit", .dict [("a", .num 2)])] := .mk .RZ _ _ _ rfl

/-- **C39** (what holds): the jacobian of `PHASE` is the entrywise derivative of its unitary. -/
theorem C39_jacobian_partial (values : Values) (t : TArg) (c : CArg) (nz : Option (List NoiseInstance)) (θ : ℝ) :
    ∃ (U : ℝ → NDArray ℂ) (J : NDArray ℂ), (∀ x, (Gate.PHASE (.num x) t c nz).unitary values = .ok (U x)) ∧
      (Gate.PHASE (.num θ) t c nz).jacobian values = .ok J ∧
      ∀ i j, i < 2 → j < 2 → HasDerivAt (fun x => (U x).get [i, j]) (J.get [i, j]) θ := by
  refine ⟨fun x => mat2 1 0 0 (Complex.exp (Complex.I * (x : ℂ))), mat2 0 0 0 (Complex.I * Complex.exp (Complex.I * (θ : ℂ))),
    fun x => ?_, ?_, ?_⟩
  · simp [Gate.PHASE, mkGate, Gate.unitary, parseValues, bind, Except.bind]
  · simp [Gate.PHASE, mkGate, Gate.jacobian, parseValues, bind, Except.bind]
  · have hd : HasDerivAt (fun x : ℝ => Complex.exp (Complex.I * (x : ℂ))) (Complex.I * Complex.exp (Complex.I * (θ : ℂ))) θ := by
      have h1 : HasDerivAt (fun x : ℝ => Complex.I * (x : ℂ)) (Complex.I * 1) θ :=
        (Complex.ofRealCLM.hasDerivAt (x := θ)).const_mul Complex.I
      have := h1.cexp
      simpa [mul_comm] using this
    intro i j hi hj
    obtain rfl | rfl : i = 0 ∨ i = 1 := by omega
    all_goals obtain rfl | rfl : j = 0 ∨ j = 1 := by omega
    · simpa [mat2, NDArray.get, ravel] using hasDerivAt_const θ (1 : ℂ)
    · simpa [mat2, NDArray.get, ravel] using hasDerivAt_const θ (0 : ℂ)
    · simpa [mat2, NDArray.get, ravel] using hasDerivAt_const θ (0 : ℂ)
    · simpa [mat2, NDArray.get, ravel] using hd

/-- The jacobian of the rotation `r` at angle `θ` is the derivative of its unitary. -/
def Rot.JacobianIsDerivative (r : Rot) (values : Values) (t : TArg) (c : CArg) (nz : Option (List NoiseInstance)) (θ : ℝ) :
    Prop :=
  ∃ (U : ℝ → NDArray ℂ) (J : NDArray ℂ), (∀ x, (r.gate (.num x) t c nz).unitary values = .ok (U x)) ∧
      (r.gate (.num θ) t c nz).jacobian values = .ok J ∧
      ∀ i j, i < 2 → j < 2 → HasDerivAt (fun x => (U x).get [i, j]) (J.get [i, j]) θ

/-- **C39** for `RX`, `RY` and `RZ`: the jacobian is the derivative exactly at the angles with `sin (θ/2) = 0`, and wrong
everywhere else. -/
theorem C39_jacobian_iff (r : Rot) (hr : r = .RX ∨ r = .RY ∨ r = .RZ) (values : Values) (t : TArg) (c : CArg)
    (nz : Option (List NoiseInstance)) (θ : ℝ) :
    r.JacobianIsDerivative values t c nz θ ↔ Real.sin (θ / 2) = 0 := by
  have hI := Complex.I_mul_I
  have hhalf : HasDerivAt (fun x : ℝ => x / 2) (1 / 2) θ := (hasDerivAt_id θ).div_const 2
  have hc : HasDerivAt (fun x : ℝ => ((Real.cos (x / 2) : ℝ) : ℂ)) (-(1 / 2) * (Real.sin (θ / 2) : ℝ) : ℂ) θ := by
    have := (hhalf.cos).ofReal_comp
    convert this using 1; push_cast; ring
  have hs : HasDerivAt (fun x : ℝ => ((Real.sin (x / 2) : ℝ) : ℂ)) (1 / 2 * (Real.cos (θ / 2) : ℝ) : ℂ) θ := by
    have := (hhalf.sin).ofReal_comp
    convert this using 1; push_cast; ring
  have hjac : ∀ a b c d : ℂ, rotJacobian (mat2 a b c d) θ
      = .ok (mat2 (-1 / 2 * (Real.sin (θ / 2) + Complex.I * Real.cos (θ / 2)) * a) (-1 / 2 * (Complex.I * Real.cos (θ / 2)) * b)
        (-1 / 2 * (Complex.I * Real.cos (θ / 2)) * c) (-1 / 2 * (Real.sin (θ / 2) + Complex.I * Real.cos (θ / 2)) * d)) := by
    intro a b c d
    have hr : List.range 2 = [0, 1] := rfl
    simp [rotJacobian, mat2, mulEntry, ofFn, NDArray.get, ravel, eye, allIdx, hr, -Complex.ofReal_cos, -Complex.ofReal_sin]
  have main : ∀ a b c d : ℂ, (∀ i j, i < 2 → j < 2 → HasDerivAt
      (fun x : ℝ => (mat2 (Real.cos (x / 2) - Complex.I * Real.sin (x / 2) * a) (-(Complex.I * Real.sin (x / 2) * b))
        (-(Complex.I * Real.sin (x / 2) * c)) (Real.cos (x / 2) - Complex.I * Real.sin (x / 2) * d)).get [i, j])
      ((mat2 (-1 / 2 * (Real.sin (θ / 2) + Complex.I * Real.cos (θ / 2)) * a) (-1 / 2 * (Complex.I * Real.cos (θ / 2)) * b)
        (-1 / 2 * (Complex.I * Real.cos (θ / 2)) * c)
        (-1 / 2 * (Real.sin (θ / 2) + Complex.I * Real.cos (θ / 2)) * d)).get [i, j]) θ)
      ↔ (Real.sin (θ / 2) : ℂ) * (1 - a) = 0 ∧ (Real.sin (θ / 2) : ℂ) * (1 - d) = 0 := by
    intro a b c d
    have hdiag : ∀ a : ℂ, HasDerivAt (fun x : ℝ => ((Real.cos (x / 2) : ℝ) : ℂ) - Complex.I * (Real.sin (x / 2) : ℝ) * a)
        (-(1 / 2) * (Real.sin (θ / 2) : ℝ) - Complex.I * (1 / 2 * (Real.cos (θ / 2) : ℝ)) * a) θ :=
      fun a => hc.sub ((hs.const_mul Complex.I).mul_const a)
    have hoff : ∀ a : ℂ, HasDerivAt (fun x : ℝ => -(Complex.I * ((Real.sin (x / 2) : ℝ) : ℂ) * a))
        (-(Complex.I * (1 / 2 * (Real.cos (θ / 2) : ℝ)) * a)) θ := fun a => ((hs.const_mul Complex.I).mul_const a).neg
    have g00 : ∀ p q r s : ℂ, (mat2 p q r s).get [0, 0] = p := fun p q r s => by simp [mat2, NDArray.get, ravel]
    have g01 : ∀ p q r s : ℂ, (mat2 p q r s).get [0, 1] = q := fun p q r s => by simp [mat2, NDArray.get, ravel]
    have g10 : ∀ p q r s : ℂ, (mat2 p q r s).get [1, 0] = r := fun p q r s => by simp [mat2, NDArray.get, ravel]
    have g11 : ∀ p q r s : ℂ, (mat2 p q r s).get [1, 1] = s := fun p q r s => by simp [mat2, NDArray.get, ravel]
    constructor
    · intro h
      have h0 := h 0 0 (by omega) (by omega)
      have h1 := h 1 1 (by omega) (by omega)
      simp only [g00, g11] at h0 h1
      constructor
      · linear_combination -2 * (hdiag a).unique h0
      · linear_combination -2 * (hdiag d).unique h1
    · rintro ⟨h0, h1⟩ i j hi hj
      obtain rfl | rfl : i = 0 ∨ i = 1 := by omega
      all_goals obtain rfl | rfl : j = 0 ∨ j = 1 := by omega
      · simp only [g00]; convert hdiag a using 1; linear_combination (1 / 2) * h0
      · simp only [g01]; convert hoff b using 1; ring
      · simp only [g10]; convert hoff c using 1; ring
      · simp only [g11]; convert hdiag d using 1; linear_combination (1 / 2) * h1
  have huni : ∀ (a b c d : ℂ) (x : ℝ), rotUnitary (mat2 a b c d) x = .ok (mat2 (Real.cos (x / 2) - Complex.I * Real.sin (x / 2) * a)
      (-(Complex.I * Real.sin (x / 2) * b)) (-(Complex.I * Real.sin (x / 2) * c))
      (Real.cos (x / 2) - Complex.I * Real.sin (x / 2) * d)) := by
    intro a b c d x
    rw [rotUnitary_mat2]; congr 2 <;> ring
  obtain ⟨a, b, c', d, hu, hj, hiff⟩ : ∃ a b c' d : ℂ, (∀ x, (r.gate (.num x) t c nz).unitary values = rotUnitary (mat2 a b c' d) x) ∧
      (r.gate (.num θ) t c nz).jacobian values = rotJacobian (mat2 a b c' d) θ ∧
      ((Real.sin (θ / 2) : ℂ) * (1 - a) = 0 ∧ (Real.sin (θ / 2) : ℂ) * (1 - d) = 0 ↔ Real.sin (θ / 2) = 0) := by
    rcases hr with rfl | rfl | rfl
    · refine ⟨0, 1, 1, 0, fun x => ?_, ?_, by simp [-Complex.ofReal_sin]⟩
      · simp [Rot.gate, Gate.RX, mkGate, Gate.unitary, Gate.generator, operationsDict, parseValues, bind, Except.bind, matX]
      · simp [Rot.gate, Gate.RX, mkGate, Gate.jacobian, Gate.generator, operationsDict, parseValues, bind, Except.bind, matX]
    · refine ⟨0, -Complex.I, Complex.I, 0, fun x => ?_, ?_, by simp [-Complex.ofReal_sin]⟩
      · simp [Rot.gate, Gate.RY, mkGate, Gate.unitary, Gate.generator, operationsDict, parseValues, bind, Except.bind, matY]
      · simp [Rot.gate, Gate.RY, mkGate, Gate.jacobian, Gate.generator, operationsDict, parseValues, bind, Except.bind, matY]
    · refine ⟨1, 0, 0, -1, fun x => ?_, ?_, ?_⟩
      · simp [Rot.gate, Gate.RZ, mkGate, Gate.unitary, Gate.generator, operationsDict, parseValues, bind, Except.bind, matZ]
      · simp [Rot.gate, Gate.RZ, mkGate, Gate.jacobian, Gate.generator, operationsDict, parseValues, bind, Except.bind, matZ]
      · have : (1 : ℂ) - -1 ≠ 0 := by norm_num
        simp [-Complex.ofReal_sin, this]
  rw [← hiff, ← main a b c' d]
  constructor
  · rintro ⟨U, J, hU, hJ, h⟩
    rw [hj, hjac] at hJ
    obtain rfl := Except.ok.inj hJ
    have hUx : ∀ x, U x = _ := fun x => (Except.ok.inj (((huni a b c' d x).symm.trans (hu x).symm).trans (hU x))).symm
    simpa only [hUx] using h
  · intro h
    exact ⟨_, _, fun x => by rw [hu, huni], by rw [hj, hjac], h⟩

/-- **C39** is false for `RX`, `RY` and `RZ`. -/
theorem C39_jacobian_false (r : Rot) (hr : r = .RX ∨ r = .RY ∨ r = .RZ) :
    ¬ ∀ (values : Values) (t : TArg) (c : CArg) (nz : Option (List NoiseInstance)) (θ : ℝ),
      r.JacobianIsDerivative values t c nz θ := by
  intro h
  have := (C39_jacobian_iff r hr _ _ _ _ _).1 (h [] (.int 0) .none none Real.pi)
  simp at this

/-- **C48** is false: the gates of `SQRTSWAP`, `ISWAP` and `ISQRTSWAP` cannot be applied to any state: KeyError. -/
theorem C48_swap_gates_unusable (so : SetOrder) (state : State) (t : TArg) (c : CArg) (nz : Option (List NoiseInstance))
    (values : Values) {g : Gate} (hg : g = Gate.SQRTSWAP t c nz ∨ g = Gate.ISWAP t c nz ∨ g = Gate.ISQRTSWAP t c nz)
    (group merge : Bool) :
    applyGates so state (.single g) values .unitary group merge = .error .keyError := by
  rw [applyGates_singleton so state g values .unitary group merge group merge]
  have : g.operator .unitary values = .error .keyError := by
    rcases hg with rfl | rfl | rfl <;>
      simp [Gate.SQRTSWAP, Gate.ISWAP, Gate.ISQRTSWAP, mkGate, Gate.operator, Gate.unitary, Gate.generator, operationsDict]
  exact applyGates_error so state (by simp [this]) ⟨g, by simp, this⟩ group merge

/-- **C48** (what holds): the gates of all other exported constructors can be applied to every state on a register that
has their qubits, if they have the right number of targets. -/
theorem C48_usable_partial (so : SetOrder) {state : State} (hst : state.On n) {g : Gate} {s : StdGate}
    (hg : g.Built values s) (hz : g.noise = none) (ht : g.target.length = s.arity) (hv : g.ValidOn n) (group merge : Bool) :
    ∃ r, applyGates so state (.single g) values .unitary group merge = .ok r ∧ r.On n := by
  have hok : g.Ok n .unitary values := (Gate.Std.mk hg.is ht hv).ok
  rw [applyGates_singleton so state g values .unitary group merge false merge]
  cases state with
  | vec a =>
    obtain ⟨r, h1, h2, -⟩ := applyGates_vec so (gs := [g]) (by simp) (by simpa using hok) (by simpa using hz) hst merge
    exact ⟨_, h1, h2⟩
  | dm ρ =>
    obtain ⟨r, h1, h2, -⟩ := applyGates_dm so (gs := [g]) (by simp) (by simpa using hok) (by simpa using hz) hst merge
    exact ⟨_, h1, h2⟩

example : (Gate.SWAP (.tuple [2, 0])).Built [] .SWAP ∧ (Gate.SWAP (.tuple [2, 0])).ValidOn 3 :=
  ⟨.SWAP _ _ _, .inr (.inl rfl), by decide⟩

/-- **C49** (qubit support): it is strictly increasing and lists exactly the target and control qubits. -/
theorem C49_qubit_support {g : Gate} (hc : WfCtl g.control) :
    ∃ qs, g.qubitSupport = .ok qs ∧ qs.Pairwise (· < ·) ∧ ∀ q, q ∈ qs ↔ q ∈ g.target ∨ q ∈ ctlInts g.control := by
  obtain ⟨qs, h, hm⟩ : ∃ qs : List ℕ, g.qubitSupport = .ok (pySorted qs.dedup) ∧
      ∀ q, q ∈ qs ↔ q ∈ g.target ∨ q ∈ ctlInts g.control := by
    rcases isControlled_wf hc with ⟨h, hi⟩ | ⟨cs, -, h1, h2, h3⟩
    · refine ⟨g.target, ?_, by simp [hi]⟩
      simp [Gate.qubitSupport, h]; rfl
    · refine ⟨g.target ++ cs, ?_, by simp [h3]⟩
      rw [Gate.qubitSupport, h2, h1, ctlQubits_ints]; rfl
  exact ⟨_, h, pySorted_lt (List.nodup_dedup _), fun q => by rw [(perm_pySorted _).mem_iff, List.mem_dedup, hm]⟩

example : WfCtl (Gate.X (.int 1) (.tuple [.int 5, .int 0])).control ∧
    (Gate.X (.int 1) (.tuple [.int 5, .int 0])).qubitSupport = .ok [0, 1, 5] := ⟨.inr (.inr ⟨[5, 0], rfl⟩), by decide⟩

/-- The textbook name of a gate. -/
def StdGate.name : StdGate → String
  | .I => "I" | .X => "X" | .Y => "Y" | .Z => "Z" | .H => "H" | .S => "S" | .T => "T" | .SWAP => "SWAP"
  | .RX _ => "RX" | .RY _ => "RY" | .RZ _ => "RZ" | .PHASE _ => "PHASE"

/-- **C49** (name): the name of a standard gate, with prefix `C` exactly if it has controls. -/
theorem C49_name {g : Gate} {s : StdGate} (h : g.Is values s) (hc : WfCtl g.control) :
    g.name = if ctlInts g.control = [] then s.name else "C" ++ s.name := by
  have hn : g.name = if isControlled g.control then "C" ++ s.name else s.name := by
    cases h <;> simp only [Gate.name, StdGate.name] <;> split_ifs <;> rfl
  rw [hn]
  rcases isControlled_wf hc with ⟨h, hi⟩ | ⟨cs, hne, h1, h2, h3⟩
  · simp [h, hi]
  · simp [h2, h3, hne]

example : (Gate.PHASE (.num 1) (.int 1) (.int 0)).name = "CPHASE" ∧ WfCtl (Gate.PHASE (.num 1) (.int 1) (.int 0)).control :=
  ⟨by rfl, .inr (.inr ⟨[0], rfl⟩)⟩

/-- **C49** (what holds for `n_qubits`): it is the number of qubits for one target and no (explicit `None`) or one
control. -/
theorem C49_n_qubits_partial {g : Gate} {t : ℕ} (ht : g.target = [t])
    (hc : g.control = none ∨ ∃ c, c ≠ t ∧ g.control = some [.int c]) :
    ∃ qs, g.qubitSupport = .ok qs ∧ g.nQubits = qs.length := by
  rcases hc with hc | ⟨c, hne, hc⟩
  · exact ⟨[t], by rw [Gate.qubitSupport, hc, ht]; rfl, by rw [Gate.nQubits, hc]; rfl⟩
  · refine ⟨pySorted [t, c], ?_, ?_⟩
    · have : [t, c].dedup = [t, c] := List.Nodup.dedup (by simp [hne.symm])
      rw [Gate.qubitSupport, hc, ht]
      simp [isControlled, CIdx.isControlled, ctlQubits, this, bind, Except.bind, pure, Except.pure]
    · rw [Gate.nQubits, hc, (perm_pySorted _).length_eq]; rfl

example : (Gate.X (.int 1) (.int 0)).target = [1] ∧ (Gate.X (.int 1) (.int 0)).control = some [.int 0] := ⟨rfl, rfl⟩

/-- **C49** is false for `n_qubits`: it is `2` for the one-qubit gate `X(0)` and for the three-qubit Toffoli gate. -/
theorem C49_n_qubits_false :
    (Gate.X (.int 0)).qubitSupport = .ok [0] ∧ (Gate.X (.int 0)).nQubits = 2 ∧
    (Gate.X (.int 2) (.tuple [.int 0, .int 1])).qubitSupport = .ok [0, 1, 2] ∧
    (Gate.X (.int 2) (.tuple [.int 0, .int 1])).nQubits = 2 := by decide

/-- **C49** (`n_qubits` exactly): the qubits of the gate are never counted.  The value is 2, or 1 if `control=None` was
given explicitly, so it is right just for gates on two qubits and, in the latter case, for gates on one qubit. -/
theorem C49_n_qubits_iff {g : Gate} {qs : List ℕ} (_h : g.qubitSupport = .ok qs) :
    g.nQubits = qs.length ↔ qs.length = if g.control = none then 1 else 2 := by
  rcases hc : g.control with _ | c <;> simp [Gate.nQubits, Gate.targetTuple, Gate.controlTuple, hc] <;> omega

example : (Gate.SWAP (.tuple [0, 1])).qubitSupport = .ok [0, 1] ∧ (Gate.SWAP (.tuple [0, 1])).nQubits = 2 := by decide

/-- A control tuple consisting of numpy integers. -/
def npCtl (cs : List ℕ) : Ctl := some (cs.map .npInt)

/-- **C56** is false: controls given as `numpy.int64` are silently ignored: the gate acts as the uncontrolled gate. -/
theorem C56_numpy_control_ignored (so : SetOrder) (state : State) (g : Gate) (cs : List ℕ) (values : Values) (ot : OpType)
    (group merge : Bool) :
    applyGates so state (.single { g with control := npCtl cs }) values ot group merge
      = applyGates so state (.single { g with control := none }) values ot group merge := by
  have hi : isControlled (npCtl cs) = false := by simp [isControlled, npCtl, CIdx.isControlled]
  have hp : ∀ (op : NDArray ℂ) (t : List ℕ), prepareOperator op t (npCtl cs) = prepareOperator op t none := by
    intro op t; rw [prepareOperator, prepareOperator, hi]; rfl
  have h1 : ∀ (st op : NDArray ℂ) (t : List ℕ), applyOperator st op t (npCtl cs) = applyOperator st op t none := by
    intro st op t; rw [applyOperator, applyOperator, hp]
  have h2 : ∀ (st : DensityMatrix ℂ) (op : NDArray ℂ) (t : List ℕ),
      applyOperatorDM so st op t (npCtl cs) = applyOperatorDM so st op t none := by
    intro st op t; rw [applyOperatorDM, applyOperatorDM, hp]
  have ho : ∀ c, ({ g with control := c } : Gate).operator ot values = g.operator ot values := by
    intro c; rfl
  simp only [applyGates, prepareSequenceReduce, ho]
  rcases g.operator ot values with e | U
  · rfl
  · simp only [bind, Except.bind, reduceApply, reduceApplyNoise, List.zip_cons_cons, List.zip_nil_right, List.foldlM_cons,
      List.foldlM_nil, h1, applyOperatorWithNoise, h2]

/-- **C56**: an `X` controlled by a numpy integer differs from the one controlled by the equal Python integer. -/
theorem C56_numpy_control_false :
    ¬ ∀ (so : SetOrder) (n : ℕ) (st : NDArray ℂ) (t c : ℕ), IsKet n st → t < n → c < n → t ≠ c →
      applyGates so (.vec st) (.single (Gate.X (.int t) (.npInt c))) [] = applyGates so (.vec st) (.single (Gate.X (.int t) (.int c))) [] := by
  intro H
  let so : SetOrder := ⟨List.dedup, List.nodup_dedup, fun _ _ => List.mem_dedup⟩
  let st : NDArray ℂ := ⟨[2, 2], [1, 0, 0, 0]⟩
  have hst : IsKet 2 st := ⟨rfl, rfl⟩
  have h := H so 2 st 1 0 hst (by omega) (by omega) (by omega)
  have e : Gate.X (.int 1) (.npInt 0) = { Gate.X (.int 1) with control := npCtl [0] } := rfl
  rw [e, C56_numpy_control_ignored] at h
  have hX : ({ Gate.X (.int 1) with control := none } : Gate).Std 2 [] .X := ⟨.X _ _ _, rfl, ⟨.inl rfl, by decide⟩⟩
  have hC : (Gate.X (.int 1) (.int 0)).Std 2 [] .X := ⟨.X _ _ _, rfl, ⟨.inr (.inr ⟨[0], rfl⟩), by decide⟩⟩
  obtain ⟨r, h1, h2, h3⟩ := C01_apply_gate so hX rfl hst false true
  obtain ⟨r', k1, k2, k3⟩ := C01_apply_gate so hC rfl hst false true
  rw [h1, k1] at h
  simp only [Except.ok.injEq, State.vec.injEq] at h
  rw [h, k3] at h3
  have h00 := congrFun h3 (fun _ => 0)
  have hk : ∀ b : Lab 2, ket 2 st b = if b = (fun _ => 0) then 1 else 0 := by
    intro b
    have : ∀ x y : Fin 2, ket 2 st ![x, y] = if ![x, y] = ((fun _ => 0) : Lab 2) then 1 else 0 := by
      intro x y
      fin_cases x <;> fin_cases y <;> simp [ket, st, NDArray.get, ravel, Lab.bits, funext_iff, Fin.forall_fin_two]
    have hb : b = ![b 0, b 1] := by ext i; fin_cases i <;> rfl
    rw [hb]; exact this _ _
  simp only [Matrix.mulVec, dotProduct, hk, mul_ite, mul_one, mul_zero, Finset.sum_ite_eq', Finset.mem_univ, if_true] at h00
  have l : stdMat 2 (Gate.X (.int 1) (.int 0)) .X (fun _ => 0) (fun _ => 0) = 1 := by
    simp [stdMat, gateMat, Gate.X, mkGate, parseControl, ctlInts, Lab.bit]
  have r : stdMat 2 { Gate.X (.int 1) with control := none } .X (fun _ => 0) (fun _ => 0) = 0 := by
    simp [stdMat, gateMat, Gate.X, mkGate, parseTarget, ctlInts, Lab.bit, Lab.idx, binVal, StdGate.mat, matE, Lab.AgreeOff]
  rw [l, r] at h00
  exact one_ne_zero h00

/-- **C56** (what holds): numpy integers as targets mean the same as Python integers. -/
theorem C56_numpy_target_partial (cls : GateClass) (name : String) (q : ℕ) (c : CArg) (nz : Option (List NoiseInstance))
    (sp : Bool) : mkGate cls name (.npInt q) c nz sp = mkGate cls name (.int q) c nz sp := rfl

end Verif
