import Verif.Lemmas.GpsrRename
import Verif.Lemmas.Small

/-! # The parameter-shift rule without repetitions, for any expectation values; concrete cases -/

namespace Verif
set_option autoImplicit false
open NDArray
variable {n : ℕ} {so : SetOrder} {values : Values} {gs : List Gate} {nss : List (List StdNoise)} {st : State}
  {obs : List Observable} {Os : List (Matrix (Lab n) (Lab n) ℂ)}

/-- The quotient `(f (x + π/2) - f (x - π/2)) / 2`. -/
noncomputable def halfDiff (f : ℝ → List ℝ) (x : ℝ) : List ℝ :=
  List.zipWith (fun u d => (u - d) / 2) (f (x + Real.pi / 2)) (f (x - Real.pi / 2))

theorem plain_bwd (h : values.Numeric) (hk : values ≠ []) (hle : (extractGateNames gs).length ≤ values.keys.length)
    (eigh : Eigh) {F : GateArg → Values → Py (List ℝ)} {f : String → ℝ → List ℝ}
    (hF : ∀ p ∈ values.keys, ∀ t, F (.list gs) (values.upd p t) = .ok (f p t)) :
    gpsrBwd eigh F (.list gs) values = .ok (values.keys.map fun p => (halfDiff (f p) (values.real p)).sum) := by
  have hm : (values.keys.mapM fun key => do pure (some (← jvpComponent F (.list gs) values key)))
      = Except.ok (ε := Err) (values.keys.map fun p => some (halfDiff (f p) (values.real p))) :=
    mapM_ok_map fun p hp => by
      have hx := h.real hp
      simp only [jvpComponent, Values.shiftKey_eq hx, bind, Except.bind, hF p hp]
      rw [initialGap, gpsrRule_two, halfDiff, gpsrShift, sub_eq_add_neg (values.real p)]
      rfl
  rw [gpsrBwd]
  simp only [if_neg (not_lt.2 hle)]
  rw [hm]
  exact stackSum_some _ (by simpa [Values.keys] using hk) _

theorem plain_jvp (h : values.Numeric) (hk : values ≠ []) (hle : (extractGateNames gs).length ≤ values.keys.length)
    (eigh : Eigh) (fresh : ℕ → String) {F : GateArg → Values → Py (List ℝ)} {f : String → ℝ → List ℝ} {fwd : List ℝ}
    (hfwd : F (.list gs) values = .ok fwd)
    (hF : ∀ p ∈ values.keys, ∀ t, F (.list gs) (values.upd p t) = .ok (f p t)) (ts : List ℝ) :
    gpsrJvp eigh fresh F (.list gs) values ts = .ok (fwd, List.ofFn fun i : Fin fwd.length =>
      (List.zipWith (fun p t => (halfDiff (f p) (values.real p)).getD i 0 * t) values.keys ts).sum) := by
  have hscan : jvpScan F (.list gs) values.keys (values.keys.map values.real)
      (values.keys.map fun _ => initialGap) = .ok (values.keys.map fun p => halfDiff (f p) (values.real p)) := by
    refine mapM_range _ fun i hi => ?_
    have hgap : (values.keys.map fun _ => initialGap).getD i 0 = 2 := by
      simp [List.getD_eq_getElem?_getD, hi, initialGap]
    rw [jvpRow, hgap]
    simp only [shiftAt_eq h hi, hF _ (List.getElem_mem hi), bind, Except.bind]
    rw [gpsrRule_two, halfDiff, gpsrShift, sub_eq_add_neg (values.real _)]
  rw [gpsrJvp, hfwd]
  simp only [bind, Except.bind, if_neg (not_lt.2 hle), stackValues_eq h hk, hscan, contract_map]
  rfl

/-- The expectation value of a circuit without noise on a state vector. -/
theorem gatesExpectation_pure {a : NDArray ℂ} (hne : gs ≠ []) (hok : ∀ g ∈ gs, g.Ok n .unitary values)
    (hz : ∀ g ∈ gs, g.noise = none) (ha : IsKet n a) {o : Observable} {O : Matrix (Lab n) (Lab n) ℂ}
    (ho : o.Fixed so n False O) :
    gatesExpectation so (.vec a) [o] (.list gs) values
      = .ok [(∑ x, star ((gatesMat n .unitary values gs).mulVec (ket n a) x)
        * O.mulVec ((gatesMat n .unitary values gs).mulVec (ket n a)) x).re] := by
  have hn : List.Forall₂ Gate.NoiseIs gs (gs.map fun _ => []) := by
    clear hne hok
    induction gs with
    | nil => exact .nil
    | cons g gs ih => exact .cons (.none (hz g (by simp))) (ih fun g hg => hz g (by simp [hg]))
  rw [gatesExpectation_eq (st := .vec a) (Os := [O]) so hne hok hn ha (by simp) (.cons (fun v => ⟨(ho v).1, fun hm => ?_⟩) .nil)]
  · rw [noisyRun_noiseless hn hz]
    rw [List.map_singleton]
    refine congrArg (fun z => Except.ok [z]) ?_
    rw [expVal, Matrix.trace]
    have e : (State.vec a).mat n = Matrix.vecMulVec (ket n a) (star (ket n a)) := rfl
    rw [e, Matrix.mul_vecMulVec, Matrix.vecMulVec_mul, ← Matrix.star_mulVec, Matrix.mul_vecMulVec]
    refine congrArg Complex.re (Finset.sum_congr rfl fun x _ => ?_)
    rw [Matrix.diag_apply, Matrix.vecMulVec_apply, mul_comm, Pi.star_apply]
  · rcases hm with ⟨ρ, hρ⟩ | hm
    · cases hρ
    · exact absurd hz hm

/-! ## Two-qubit registers -/

/-- The label of a basis state of a two-qubit register. -/
def lab2 (i j : Fin 2) : Lab 2 := ![i, j]

theorem lab2_bits (i j : Fin 2) : (lab2 i j).bits = [i.val, j.val] := by simp [Lab.bits, lab2, List.ofFn_succ]

theorem sum_lab2 {M : Type} [AddCommMonoid M] (f : Lab 2 → M) :
    ∑ b, f b = f (lab2 0 0) + f (lab2 0 1) + (f (lab2 1 0) + f (lab2 1 1)) := by
  have : ∑ b, f b = ∑ q : Fin 2 × Fin 2, f (lab2 q.1 q.2) :=
    (Fintype.sum_equiv (finTwoArrowEquiv (Fin 2)).symm (fun q => f (lab2 q.1 q.2)) f fun q => rfl).symm
  rw [this, Fintype.sum_prod_type, Fin.sum_univ_two, Fin.sum_univ_two, Fin.sum_univ_two]

theorem lab2_inj (i j k l : Fin 2) : lab2 i j = lab2 k l ↔ i = k ∧ j = l := by
  constructor
  · intro h; exact ⟨congrFun h 0, congrFun h 1⟩
  · rintro ⟨rfl, rfl⟩; rfl

theorem mulVec_lab2 (M : Matrix (Lab 2) (Lab 2) ℂ) (v : Lab 2 → ℂ) (x : Lab 2) :
    M.mulVec v x = M x (lab2 0 0) * v (lab2 0 0) + M x (lab2 0 1) * v (lab2 0 1)
      + (M x (lab2 1 0) * v (lab2 1 0) + M x (lab2 1 1) * v (lab2 1 1)) := by
  rw [Matrix.mulVec, dotProduct, sum_lab2]

theorem gateMat_lab2_first (U : ℕ → ℕ → ℂ) (i j k l : Fin 2) :
    gateMat 2 U [0] [] (lab2 i j) (lab2 k l) = if j = l then U i k else 0 := by
  have h : Lab.AgreeOff [0] (lab2 i j) (lab2 k l) ↔ j = l := by
    rw [Lab.agreeOff_iff]
    constructor
    · intro h
      simpa [lab2, Lab.bit, Fin.val_inj] using h 1 (by decide) (by decide)
    · rintro rfl q hq hn
      obtain rfl : q = 1 := by simp at hn; omega
      rfl
  rw [gateMat_nil_apply]
  simp only [h]
  split_ifs
  · simp [Lab.idx, Lab.bit, lab2, binVal]
  · rfl

theorem gateMat_lab2_ctl (U : ℕ → ℕ → ℂ) (i j k l : Fin 2) :
    gateMat 2 U [1] [0] (lab2 i j) (lab2 k l)
      = if i = 1 then (if i = k then U j l else 0) else if i = k ∧ j = l then 1 else 0 := by
  have h : Lab.AgreeOff [1] (lab2 i j) (lab2 k l) ↔ i = k := by
    rw [Lab.agreeOff_iff]
    constructor
    · intro h
      simpa [lab2, Lab.bit, Fin.val_inj] using h 0 (by decide) (by decide)
    · rintro rfl q hq hn
      obtain rfl : q = 0 := by simp at hn; omega
      rfl
  have hc : (∀ c ∈ [0], (lab2 i j).bit c = 1) ↔ i = 1 := by
    simp [Lab.bit, lab2, Fin.ext_iff]
  rw [gateMat]
  simp only [h, hc, lab2_inj]
  split_ifs
  · simp [Lab.idx, Lab.bit, lab2, binVal]
  all_goals rfl

end Verif
