import Verif.AbsGate
import Verif.Lemmas.Circuit

/-! # The gate objects have the textbook matrices, and textbook gates are unitary -/

namespace Verif
open NDArray

theorem isOp_mat2 (a b c d : ℂ) : IsOp 1 (mat2 a b c d) := ⟨rfl, rfl⟩

theorem entries_mat2 (a b c d : ℂ) {i j : ℕ} (hi : i < 2) (hj : j < 2) :
    entries (mat2 a b c d) i j = matE !![a, b; c, d] i j := by
  obtain rfl | rfl : i = 0 ∨ i = 1 := by omega
  all_goals obtain rfl | rfl : j = 0 ∨ j = 1 := by omega
  all_goals simp [entries, mat2, NDArray.get, ravel, matE]

theorem parseValues_ok {p : Param} {x s : ℝ} {values : Values} (h : p.Resolves values x) :
    parseValues p s values = .ok (x + s) := by
  cases h with
  | num => rfl
  | str h => simp only [parseValues, Values.get, h]; rfl

theorem rotUnitary_mat2 (a b c d : ℂ) (θ : ℝ) :
    rotUnitary (mat2 a b c d) θ = .ok (mat2
      (Real.cos (θ / 2) - Complex.I * Real.sin (θ / 2) * a) (-(Complex.I * Real.sin (θ / 2)) * b)
      (-(Complex.I * Real.sin (θ / 2)) * c) (Real.cos (θ / 2) - Complex.I * Real.sin (θ / 2) * d)) := by
  have : (eye 2 : NDArray ℂ) = mat2 1 0 0 1 := by
    simp [eye, ofFn, allIdx, mat2, List.range_succ]
  rw [rotUnitary, this]
  simp [NDArray.add, smul, mat2]
  constructor <;> ring

theorem exp_half (θ : ℝ) : Complex.exp (Complex.I * θ / 2) = Real.cos (θ / 2) + Complex.I * Real.sin (θ / 2) := by
  rw [show Complex.I * (θ : ℂ) / 2 = ((θ / 2 : ℝ) : ℂ) * Complex.I by push_cast; ring, Complex.exp_mul_I]
  rw [← Complex.ofReal_cos, ← Complex.ofReal_sin]; ring

theorem exp_neg_half (θ : ℝ) :
    Complex.exp (-Complex.I * θ / 2) = Real.cos (θ / 2) - Complex.I * Real.sin (θ / 2) := by
  rw [show -Complex.I * (θ : ℂ) / 2 = ((-(θ / 2) : ℝ) : ℂ) * Complex.I by push_cast; ring, Complex.exp_mul_I]
  rw [← Complex.ofReal_cos, ← Complex.ofReal_sin, Real.cos_neg, Real.sin_neg]; push_cast; ring

/-- Every standard gate object evaluates to its textbook matrix. -/
theorem Gate.Is.unitary {values : Values} {g : Gate} {s : StdGate} (h : g.Is values s) :
    ∃ U, g.unitary values = .ok U ∧ IsOp s.arity U ∧
      ∀ i j, i < 2 ^ s.arity → j < 2 ^ s.arity → entries U i j = s.mat i j := by
  cases h with
  | I => exact ⟨matId, rfl, isOp_mat2 _ _ _ _, fun i j hi hj => entries_mat2 _ _ _ _ hi hj⟩
  | X => exact ⟨matX, rfl, isOp_mat2 _ _ _ _, fun i j hi hj => entries_mat2 _ _ _ _ hi hj⟩
  | Y => exact ⟨matY, rfl, isOp_mat2 _ _ _ _, fun i j hi hj => entries_mat2 _ _ _ _ hi hj⟩
  | Z => exact ⟨matZ, rfl, isOp_mat2 _ _ _ _, fun i j hi hj => entries_mat2 _ _ _ _ hi hj⟩
  | H =>
    refine ⟨matH, rfl, ⟨rfl, rfl⟩, fun i j hi hj => ?_⟩
    have : matH = mat2 (1 / (√2 : ℝ)) (1 / (√2 : ℝ)) (1 / (√2 : ℝ)) (-(1 / (√2 : ℝ))) := by
      simp [matH, mat2, neg_div]
    rw [this]; exact entries_mat2 _ _ _ _ hi hj
  | S => exact ⟨matS, rfl, isOp_mat2 _ _ _ _, fun i j hi hj => entries_mat2 _ _ _ _ hi hj⟩
  | T => exact ⟨matT, rfl, isOp_mat2 _ _ _ _, fun i j hi hj => entries_mat2 _ _ _ _ hi hj⟩
  | SWAP =>
    refine ⟨matSWAP, rfl, ⟨rfl, rfl⟩, fun i j hi hj => ?_⟩
    simp only [StdGate.arity] at hi hj
    obtain rfl | rfl | rfl | rfl : i = 0 ∨ i = 1 ∨ i = 2 ∨ i = 3 := by omega
    all_goals obtain rfl | rfl | rfl | rfl : j = 0 ∨ j = 1 ∨ j = 2 ∨ j = 3 := by omega
    all_goals simp [entries, matSWAP, NDArray.get, ravel, matE, StdGate.mat]
  | @RX p x s θ ts c nz hp h =>
    subst h
    refine ⟨_, ?_, isOp_mat2 _ _ _ _, fun i j hi hj => entries_mat2 (Real.cos ((x + s) / 2)) (-Complex.I * Real.sin ((x + s) / 2)) (-Complex.I * Real.sin ((x + s) / 2)) (Real.cos ((x + s) / 2)) hi hj⟩
    show (do let θ ← parseValues p s values; rotUnitary matX θ) = _
    rw [parseValues_ok hp]
    show rotUnitary matX (x + s) = _
    rw [matX, rotUnitary_mat2]; congr 2 <;> ring
  | @RY p x s θ ts c nz hp h =>
    subst h
    refine ⟨_, ?_, isOp_mat2 _ _ _ _, fun i j hi hj => entries_mat2 (Real.cos ((x + s) / 2)) (-Real.sin ((x + s) / 2)) (Real.sin ((x + s) / 2)) (Real.cos ((x + s) / 2)) hi hj⟩
    show (do let θ ← parseValues p s values; rotUnitary matY θ) = _
    rw [parseValues_ok hp]
    show rotUnitary matY (x + s) = _
    rw [matY, rotUnitary_mat2]
    congr 2 <;> ring_nf <;> simp
  | @RZ p x s θ ts c nz hp h =>
    subst h
    refine ⟨_, ?_, isOp_mat2 _ _ _ _, fun i j hi hj => entries_mat2 (Complex.exp (-Complex.I * ((x + s : ℝ) : ℂ) / 2)) 0 0 (Complex.exp (Complex.I * ((x + s : ℝ) : ℂ) / 2)) hi hj⟩
    show (do let θ ← parseValues p s values; rotUnitary matZ θ) = _
    rw [parseValues_ok hp]
    show rotUnitary matZ (x + s) = _
    rw [matZ, rotUnitary_mat2, exp_half, exp_neg_half]
    congr 2 <;> ring
  | @PHASE p x s θ ts c nz hp h =>
    subst h
    refine ⟨_, ?_, isOp_mat2 _ _ _ _, fun i j hi hj => entries_mat2 1 0 0 (Complex.exp (Complex.I * ((x + s : ℝ) : ℂ))) hi hj⟩
    show (do let θ ← parseValues p s values; .ok (mat2 1 0 0 (Complex.exp (Complex.I * (θ : ℂ)))) : Py _) = _
    rw [parseValues_ok hp]; rfl

end Verif
