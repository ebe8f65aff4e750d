import Verif.Lemmas.Applied
import Verif.Props.Noise

/-!
# Hamiltonian evolution (C40)
-/

namespace Verif
open NDArray
variable {n k : ℕ} {values : Values}

/-- The matrix of a `2^k × 2^k` array. -/
def hamMat (k : ℕ) (H : NDArray ℂ) : Matrix (Fin (2 ^ k)) (Fin (2 ^ k)) ℂ := Matrix.of fun i j => H.get [i.val, j.val]

/-- The time evolution operator `exp (-i t H)`. -/
noncomputable def evolution (k : ℕ) (H : NDArray ℂ) (t : ℝ) : Matrix (Fin (2 ^ k)) (Fin (2 ^ k)) ℂ :=
  NormedSpace.exp ((-Complex.I * (t : ℂ)) • hamMat k H)

/-- The parameter dictionary of `HamiltonianEvolution`. -/
structure EvolutionValues (values : Values) (H : NDArray ℂ) (t : ℝ) : Prop where
  ham : values.lookup "hamiltonian" = some (.arr H)
  time : values.lookup "time_evolution" = some (.num t)

theorem hamEvo_unitary {H : NDArray ℂ} (hH : IsOp k H) {t : ℝ} (hv : EvolutionValues values H t) (tg : TArg) (c : CArg) :
    ∃ U, (Gate.HamiltonianEvolution tg c).unitary values = .ok U ∧ IsOp k U ∧
      ∀ i j, i < 2 ^ k → j < 2 ^ k → entries U i j = matE (evolution k H t) i j := by
  have hget : ∀ i j : ℕ, (⟨H.shape, H.data.map (· * (-Complex.I * (t : ℂ)))⟩ : NDArray ℂ).get [i, j]
      = (-Complex.I * (t : ℂ)) * H.get [i, j] := by
    intro i j
    simp only [NDArray.get, List.getD_eq_getElem?_getD, List.getElem?_map]
    rcases H.data[ravel H.shape [i, j]]? with _ | x
    · simp
    · simp only [Option.map_some, Option.getD_some]; ring
  refine ⟨ofFn [2 ^ k, 2 ^ k] fun idx => if h : idx.getD 0 0 < 2 ^ k ∧ idx.getD 1 0 < 2 ^ k then
      NormedSpace.exp (Matrix.of fun i j : Fin (2 ^ k) =>
        (⟨H.shape, H.data.map (· * (-Complex.I * (t : ℂ)))⟩ : NDArray ℂ).get [i.val, j.val]) ⟨_, h.1⟩ ⟨_, h.2⟩ else 0,
    ?_, ⟨rfl, wf_ofFn _ _⟩, ?_⟩
  · simp [Gate.HamiltonianEvolution, mkGate, Gate.unitary, Values.get, hv.ham, hv.time, PyVal.addShift, bind, Except.bind,
      expm, hH.shape]
  · intro i j hi hj
    have hM : (Matrix.of fun i j : Fin (2 ^ k) =>
        (⟨H.shape, H.data.map (· * (-Complex.I * (t : ℂ)))⟩ : NDArray ℂ).get [i.val, j.val])
        = (-Complex.I * (t : ℂ)) • hamMat k H := by
      ext x y
      simp only [Matrix.of_apply, Matrix.smul_apply, hamMat, hget, smul_eq_mul]
    rw [entries, get_ofFn]
    · simp only [List.getD_cons_zero, List.getD_cons_succ]
      rw [dif_pos ⟨hi, hj⟩, hM, matE_lt _ hi hj, evolution]
    · exact .cons hi (.cons hj .nil)

theorem hamEvo_ok {H : NDArray ℂ} {t : ℝ} (hv : EvolutionValues values H t) {tg : TArg} {c : CArg}
    (hH : IsOp (parseTarget tg).length H) (hc : WfCtl (parseControl c))
    (hd : ValidDims n (ctlInts (parseControl c) ++ parseTarget tg)) :
    (Gate.HamiltonianEvolution tg c).Ok n .unitary values ∧ (Gate.HamiltonianEvolution tg c).mat n .unitary values
      = gateMat n (matE (evolution (parseTarget tg).length H t)) (parseTarget tg) (ctlInts (parseControl c)) := by
  obtain ⟨U, h1, h2, h3⟩ := hamEvo_unitary hH hv tg c
  refine ⟨⟨⟨U, h1, h2⟩, ⟨hc, hd⟩⟩, ?_⟩
  exact gate_mat_eq (g := Gate.HamiltonianEvolution tg c) (ot := .unitary) h1 h3

/-- **C40** (evolution): `HamiltonianEvolution` acts on the state as `exp (-i t H)` on its targets (controlled on its
controls), for every matrix `H` of the right size. -/
theorem C40_evolution (so : SetOrder) {H : NDArray ℂ} {t : ℝ} (hv : EvolutionValues values H t) {tg : TArg} {c : CArg}
    (hH : IsOp (parseTarget tg).length H) (hc : WfCtl (parseControl c))
    (hd : ValidDims n (ctlInts (parseControl c) ++ parseTarget tg)) {state : State} (hst : state.On n) (group merge : Bool) :
    ∃ r, applyGates so state (.single (Gate.HamiltonianEvolution tg c)) values .unitary group merge = .ok r ∧
      State.Applied n (gateMat n (matE (evolution (parseTarget tg).length H t)) (parseTarget tg) (ctlInts (parseControl c)))
        state r := by
  obtain ⟨h1, h2⟩ := hamEvo_ok (n := n) hv hH hc hd
  obtain ⟨r, k1, k2⟩ := applyGates_applied so h1 rfl hst group merge
  exact ⟨r, k1, by rwa [h2] at k2⟩

/-- **C40** (the field `shift`): a `_HamiltonianEvolution` with `shift = s` acts at the time `t` as `exp (-i (t + s) H)`. -/
theorem C40_shift (so : SetOrder) {H : NDArray ℂ} {s t : ℝ} (hv : EvolutionValues values H t) {tg : TArg} {c : CArg}
    (hH : IsOp (parseTarget tg).length H) (hc : WfCtl (parseControl c))
    (hd : ValidDims n (ctlInts (parseControl c) ++ parseTarget tg)) {state : State} (hst : state.On n) (group merge : Bool) :
    ∃ r, applyGates so state (.single { Gate.HamiltonianEvolution tg c with cls := .hamEvo s }) values .unitary group merge
        = .ok r ∧
      State.Applied n (gateMat n (matE (evolution (parseTarget tg).length H (t + s))) (parseTarget tg)
        (ctlInts (parseControl c))) state r := by
  have hv' : EvolutionValues [("hamiltonian", .arr H), ("time_evolution", .num (t + s))] H (t + s) := ⟨rfl, rfl⟩
  obtain ⟨U, h1, h2, h3⟩ := hamEvo_unitary hH hv' tg c
  have he : Gate.unitary { Gate.HamiltonianEvolution tg c with cls := .hamEvo s } values = .ok U := by
    rw [← h1]
    simp [Gate.HamiltonianEvolution, mkGate, Gate.unitary, Values.get, hv.ham, hv.time, hv'.ham, hv'.time, PyVal.addShift,
      bind, Except.bind]
  have hok : Gate.Ok n .unitary values { Gate.HamiltonianEvolution tg c with cls := .hamEvo s } := ⟨⟨U, he, h2⟩, ⟨hc, hd⟩⟩
  have hm : Gate.mat n .unitary values { Gate.HamiltonianEvolution tg c with cls := .hamEvo s }
      = gateMat n (matE (evolution (parseTarget tg).length H (t + s))) (parseTarget tg) (ctlInts (parseControl c)) :=
    gate_mat_eq (g := { Gate.HamiltonianEvolution tg c with cls := .hamEvo s }) (ot := .unitary) he h3
  obtain ⟨r, k1, k2⟩ := applyGates_applied so hok rfl hst group merge
  exact ⟨r, k1, by rwa [hm] at k2⟩

/-- Non-vacuity: the Hamiltonian `X` on qubit 2 controlled by qubit 0. -/
example : EvolutionValues [("hamiltonian", .arr matX), ("time_evolution", .num 3)] matX 3 ∧
    IsOp (parseTarget (.int 2)).length matX ∧ ValidDims 3 (ctlInts (parseControl (.int 0)) ++ parseTarget (.int 2)) :=
  ⟨⟨rfl, rfl⟩, ⟨rfl, rfl⟩, by decide⟩

/-- **C40** (unitarity): for Hermitian `H` the matrix `exp (-i t H)` is unitary, and so is its action on the register. -/
theorem C40_unitary {H : NDArray ℂ} (hH : (hamMat k H).IsHermitian) (t : ℝ) {ts cs : List ℕ} (hts : ts.length = k)
    (hd : ValidDims n (cs ++ ts)) :
    (evolution k H t).conjTranspose * evolution k H t = 1 ∧
    (gateMat n (matE (evolution k H t)) ts cs).conjTranspose * gateMat n (matE (evolution k H t)) ts cs = 1 := by
  have h1 : (evolution k H t).conjTranspose * evolution k H t = 1 := by
    rw [evolution, ← Matrix.exp_conjTranspose, Matrix.conjTranspose_smul, hH.eq]
    have : star (-Complex.I * (t : ℂ)) • hamMat k H = -((-Complex.I * (t : ℂ)) • hamMat k H) := by
      rw [← neg_smul]; congr 1; simp
    rw [this, ← Matrix.exp_add_of_commute _ _ ((Commute.refl ((-Complex.I * (t : ℂ)) • hamMat k H)).neg_left), neg_add_cancel, NormedSpace.exp_zero]
  refine ⟨h1, (gateMat_unitary hd ?_).1⟩
  rw [hts]
  exact isUnitaryE_matE h1

example : (hamMat 1 matX).IsHermitian := by
  ext i j
  fin_cases i <;> fin_cases j <;> simp [hamMat, matX, mat2, NDArray.get, ravel]

/-- **C40** (composition): evolving for time `s` and then for time `t` equals evolving for time `s + t`. -/
theorem C40_compose (so : SetOrder) {H : NDArray ℂ} {s t : ℝ} {v₁ v₂ v₃ : Values} (h₁ : EvolutionValues v₁ H s)
    (h₂ : EvolutionValues v₂ H t) (h₃ : EvolutionValues v₃ H (s + t)) {tg : TArg} {c : CArg}
    (hH : IsOp (parseTarget tg).length H) (hc : WfCtl (parseControl c))
    (hd : ValidDims n (ctlInts (parseControl c) ++ parseTarget tg)) {state : State} (hst : state.On n) :
    (do let r ← applyGates so state (.single (Gate.HamiltonianEvolution tg c)) v₁
        applyGates so r (.single (Gate.HamiltonianEvolution tg c)) v₂)
      = applyGates so state (.single (Gate.HamiltonianEvolution tg c)) v₃ := by
  obtain ⟨r, e1, e2⟩ := C40_evolution so h₁ hH hc hd hst false true
  obtain ⟨q, f1, f2⟩ := C40_evolution so h₂ hH hc hd e2.on false true
  obtain ⟨w, g1, g2⟩ := C40_evolution so h₃ hH hc hd hst false true
  rw [e1, g1]
  change applyGates so r _ v₂ = _
  rw [f1]
  congr 1
  refine State.Applied.unique (e2.trans f2) ?_
  rw [gateMat_mul _ _ hd]
  convert g2 using 1
  refine gateMat_congr fun i j hi hj => ?_
  rw [mulE_matE _ _ _ _ (fun i j hi hj => matE_lt _ hi hj) (fun i j hi hj => matE_lt _ hi hj) hi hj, matE_lt _ hi hj]
  refine congrFun (congrFun ?_ _) _
  rw [evolution, evolution, evolution, ← Matrix.exp_add_of_commute]
  · rw [← add_smul]; congr 2; push_cast; ring
  · exact ((Commute.refl _).smul_left _).smul_right _

/-- **C40** (time zero): evolving for time `0` changes nothing. -/
theorem C40_zero (so : SetOrder) {H : NDArray ℂ} (hv : EvolutionValues values H 0) {tg : TArg} {c : CArg}
    (hH : IsOp (parseTarget tg).length H) (hc : WfCtl (parseControl c))
    (hd : ValidDims n (ctlInts (parseControl c) ++ parseTarget tg)) {state : State} (hst : state.On n) :
    applyGates so state (.single (Gate.HamiltonianEvolution tg c)) values = .ok state := by
  obtain ⟨r, e1, e2⟩ := C40_evolution so hv hH hc hd hst false true
  rw [e1]
  congr 1
  refine e2.unique ?_
  convert State.Applied.refl hst using 1
  rw [← gateMat_one (ts := parseTarget tg) (cs := ctlInts (parseControl c))]
  refine gateMat_congr fun i j hi hj => ?_
  rw [matE_lt _ hi hj, evolution]
  simp [NormedSpace.exp_zero, Matrix.one_apply, oneE]

/-- Values with which `HamiltonianEvolution` cannot be evaluated, and the error that is raised. -/
inductive BadEvolution (values : Values) : Err → Prop
  | noTime (h : values.lookup "time_evolution" = none) : BadEvolution values .keyError
  | noHamiltonian {t : ℝ} (ht : values.lookup "time_evolution" = some (.num t)) (h : values.lookup "hamiltonian" = none) :
      BadEvolution values .keyError
  | number {t x : ℝ} (ht : values.lookup "time_evolution" = some (.num t)) (h : values.lookup "hamiltonian" = some (.num x)) :
      BadEvolution values .valueError
  | notSquare {t : ℝ} {H : NDArray ℂ} (ht : values.lookup "time_evolution" = some (.num t))
      (h : values.lookup "hamiltonian" = some (.arr H)) (hs : ¬ ∃ d, H.shape = [d, d]) : BadEvolution values .valueError

/-- **C40** (refused values): without a time or a Hamiltonian KeyError is raised; a Hamiltonian that is not a square matrix is refused. -/
theorem C40_refused (so : SetOrder) {e : Err} (h : BadEvolution values e) (tg : TArg) (c : CArg) (state : State) (group merge : Bool) :
    applyGates so state (.single (Gate.HamiltonianEvolution tg c)) values .unitary group merge = .error e := by
  have : (Gate.HamiltonianEvolution tg c).operator .unitary values = .error e := by
    rcases h with h | ⟨ht, h⟩ | ⟨ht, h⟩ | ⟨ht, h, hs⟩
    · simp [Gate.operator, Gate.HamiltonianEvolution, mkGate, Gate.unitary, Values.get, h, bind, Except.bind]
    · simp [Gate.operator, Gate.HamiltonianEvolution, mkGate, Gate.unitary, Values.get, ht, h, bind, Except.bind, PyVal.addShift]
    · simp [Gate.operator, Gate.HamiltonianEvolution, mkGate, Gate.unitary, Values.get, ht, h, bind, Except.bind, PyVal.addShift]
    · rename_i H
      have he : ∀ D : List ℂ, expm ⟨H.shape, D⟩ = .error .valueError := fun D => by
        rcases hsh : H.shape with _ | ⟨d, _ | ⟨d', _ | ⟨_, _⟩⟩⟩
        all_goals simp only [expm]
        rw [if_neg fun hd => hs ⟨d, by rw [hsh, hd]⟩]
      simp [Gate.operator, Gate.HamiltonianEvolution, mkGate, Gate.unitary, Values.get, ht, h, bind, Except.bind, PyVal.addShift, he]
  rw [applyGates_singleton so state _ values .unitary group merge false merge]
  exact applyGates_error so state (by simp [this]) ⟨_, by simp, this⟩ false merge

/-- Non-vacuity of `C40_refused`. -/
example : BadEvolution [] .keyError ∧ BadEvolution [("hamiltonian", .num 2), ("time_evolution", .num 1)] .valueError ∧
    BadEvolution [("hamiltonian", .arr ⟨[2, 4], List.replicate 8 0⟩), ("time_evolution", .num 1)] .valueError :=
  ⟨.noTime rfl, .number rfl rfl, .notSquare rfl rfl (by rintro ⟨d, h⟩; simp at h; omega)⟩

end Verif
