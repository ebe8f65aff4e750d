import Mathlib.Analysis.SpecialFunctions.Trigonometric.Bounds
import Verif.Props.NoiseBound
import Verif.Lemmas.Identities

/-!
# How far a small change of an angle moves a state
-/

set_option autoImplicit false

namespace Verif
open NDArray
open scoped ComplexOrder
variable {n : ℕ}

theorem conj_ic (u v : ℝ) (W ρ : LMat n) (hW : W.conjTranspose = W) :
    conjBy ((u : ℂ) • 1 + (Complex.I * v) • W) ρ
      = ((u ^ 2 : ℝ) : ℂ) • ρ + ((v ^ 2 : ℝ) : ℂ) • (W * ρ * W) + (Complex.I * u * v) • (W * ρ - ρ * W) := by
  have h1 : ((u : ℂ) • (1 : LMat n) + (Complex.I * v) • W).conjTranspose = (u : ℂ) • 1 - (Complex.I * v) • W := by
    rw [Matrix.conjTranspose_add, Matrix.conjTranspose_smul, Matrix.conjTranspose_smul, Matrix.conjTranspose_one, hW]
    simp [sub_eq_add_neg]
  rw [conjBy, h1]
  simp only [mul_sub, add_mul, Matrix.smul_mul, Matrix.mul_smul, Matrix.one_mul, Matrix.mul_one, smul_smul, smul_add, smul_sub]
  have hI := Complex.I_sq
  push_cast
  match_scalars
  · ring
  · ring
  · ring
  · linear_combination (-(v : ℂ) ^ 2) * hI

theorem trace_ic (u v : ℝ) {W : LMat n} (ρ : LMat n) (hW : W.conjTranspose = W) (hWW : W * W = 1) :
    (conjBy ((u : ℂ) • 1 + (Complex.I * v) • W) ρ).trace = ((u ^ 2 + v ^ 2 : ℝ) : ℂ) * ρ.trace := by
  rw [conj_ic u v W ρ hW]
  have h1 : (W * ρ * W).trace = ρ.trace := by rw [Matrix.trace_mul_comm, ← mul_assoc, hWW, one_mul]
  rw [Matrix.trace_add, Matrix.trace_add, Matrix.trace_smul, Matrix.trace_smul, Matrix.trace_smul, Matrix.trace_sub, h1,
    Matrix.trace_mul_comm W ρ]
  simp only [smul_eq_mul]
  push_cast
  ring

theorem split_coeffs {c s : ℝ} (h : c ^ 2 + s ^ 2 = 1) (hs : 0 ≤ s) :
    ∃ u v : ℝ, u ^ 2 + v ^ 2 = s ∧ u ^ 2 - v ^ 2 = s ^ 2 ∧ 2 * (u * v) = -(c * s) := by
  rcases hs.eq_or_lt with rfl | hs
  · exact ⟨0, 0, by simp, by simp, by simp⟩
  · have hp : 0 < (s + s ^ 2) / 2 := by positivity
    have hu : √((s + s ^ 2) / 2) ^ 2 = (s + s ^ 2) / 2 := Real.sq_sqrt hp.le
    have hu0 : √((s + s ^ 2) / 2) ≠ 0 := (Real.sqrt_pos.2 hp).ne'
    generalize √((s + s ^ 2) / 2) = u at hu hu0
    have hv : (-(c * s) / (2 * u)) ^ 2 = (s - s ^ 2) / 2 := by
      rw [div_pow, neg_sq, mul_pow, mul_pow, hu, div_eq_iff (by positivity)]
      have : c ^ 2 = 1 - s ^ 2 := by linarith
      rw [this]
      ring
    refine ⟨u, -(c * s) / (2 * u), ?_, ?_, ?_⟩
    · rw [hv, hu]; ring
    · rw [hv, hu]; ring
    · field_simp

/-- A rotation by the angle with sine `s` about an involution moves a state by at most `|s|`. -/
theorem rot_near {W : LMat n} (hW : W.conjTranspose = W) (hWW : W * W = 1) {c s : ℝ} (h : c ^ 2 + s ^ 2 = 1) {ρ : LMat n}
    (hρ : ρ.PosSemidef) :
    ∃ A B : LMat n, A.PosSemidef ∧ B.PosSemidef ∧ B.trace.re = |s| * ρ.trace.re ∧
      conjBy ((c : ℂ) • 1 + (Complex.I * s) • W) ρ = ρ + A - B := by
  have key : ∀ {W : LMat n}, W.conjTranspose = W → W * W = 1 → ∀ {s : ℝ}, c ^ 2 + s ^ 2 = 1 → 0 ≤ s →
      ∃ A B : LMat n, A.PosSemidef ∧ B.PosSemidef ∧ B.trace.re = s * ρ.trace.re ∧
      conjBy ((c : ℂ) • 1 + (Complex.I * s) • W) ρ = ρ + A - B := by
    intro W hW hWW s h hs
    obtain ⟨u, v, h1, h2, h3⟩ := split_coeffs h hs
    refine ⟨conjBy ((v : ℂ) • 1 + (Complex.I * (-u : ℝ)) • W) ρ, conjBy ((u : ℂ) • 1 + (Complex.I * v) • W) ρ, conjBy_psd hρ _, conjBy_psd hρ _, ?_, ?_⟩
    · rw [trace_ic u v ρ hW hWW, Complex.re_ofReal_mul, h1]
    · rw [conj_ic _ _ W ρ hW, conj_ic _ _ W ρ hW, conj_ic _ _ W ρ hW]
      have hc : (c : ℂ) ^ 2 = 1 - ((u : ℂ) ^ 2 - v ^ 2) := by
        have : c ^ 2 = 1 - (u ^ 2 - v ^ 2) := by linarith
        exact_mod_cast this
      have hs2 : (s : ℂ) ^ 2 = (u : ℂ) ^ 2 - v ^ 2 := by exact_mod_cast h2.symm
      have h3' : 2 * ((u : ℂ) * v) = -(c * s) := by exact_mod_cast h3
      push_cast
      rw [hc, hs2]
      match_scalars
      · ring
      · ring
      · linear_combination (Complex.I) * h3'
      · linear_combination (-Complex.I) * h3'
  rcases le_total 0 s with hs | hs
  · rw [abs_of_nonneg hs]; exact key hW hWW h hs
  · obtain ⟨A, B, hA, hB, h1, h2⟩ := key (W := -W) (by rw [Matrix.conjTranspose_neg, hW]) (by rw [neg_mul_neg, hWW]) (s := -s) (by rw [neg_sq]; exact h)
      (by linarith)
    refine ⟨A, B, hA, hB, by rw [abs_of_nonpos hs]; exact h1, ?_⟩
    rw [← h2]
    congr 2
    push_cast
    module

/-! ## Controlled rotations -/

theorem gateMat_comb4 {a b c d : ℂ} (h : a + b + c + d = 1) (A B C D : ℕ → ℕ → ℂ) (ts cs : List ℕ) :
    gateMat n (fun i j => a * A i j + b * B i j + c * C i j + d * D i j) ts cs
      = a • gateMat n A ts cs + b • gateMat n B ts cs + c • gateMat n C ts cs + d • gateMat n D ts cs := by
  ext x y
  simp only [Matrix.add_apply, Matrix.smul_apply, gateMat, smul_eq_mul]
  split_ifs
  · ring
  · ring
  · linear_combination -h
  · ring

theorem matE_one_lt : ∀ i j, i < 2 → j < 2 → matE (1 : Matrix (Fin 2) (Fin 2) ℂ) i j = oneE i j := by
  intro i j hi hj
  simp [matE, oneE, hi, hj, Matrix.one_apply]

/-- A controlled rotation as a product of two rotations by half the angle about involutions. -/
theorem ctrl_rot {S : Matrix (Fin 2) (Fin 2) ℂ} (hS : S * S = 1) {c s : ℝ} (h : c ^ 2 + s ^ 2 = 1) {t : ℕ} {cs : List ℕ}
    (hv : ValidDims n (cs ++ [t])) :
    gateMat n (matE (((c ^ 2 - s ^ 2 : ℝ) : ℂ) • 1 + (Complex.I * (2 * s * c : ℝ)) • S)) [t] cs
      = ((c : ℂ) • 1 + (Complex.I * s) • gateMat n (matE S) [t] cs) * ((c : ℂ) • 1 + (Complex.I * s) • -gateMat n (matE (-S)) [t] cs) := by
  have h1 : gateMat n (matE S) [t] cs * gateMat n (matE (-S)) [t] cs = gateMat n (matE (-1 : Matrix (Fin 2) (Fin 2) ℂ)) [t] cs := by
    rw [gateMat_mul2 _ _ hv, mul_neg, hS]
  have hI := Complex.I_sq
  have hC : (c : ℂ) ^ 2 + (s : ℂ) ^ 2 = 1 := by exact_mod_cast h
  have e : ∀ i j, i < 2 ^ [t].length → j < 2 ^ [t].length →
      matE (((c ^ 2 - s ^ 2 : ℝ) : ℂ) • 1 + (Complex.I * (2 * s * c : ℝ)) • S) i j
        = (c : ℂ) ^ 2 * oneE i j + (Complex.I * s * c) * matE S i j + (-(Complex.I * s * c)) * matE (-S) i j
          + (s : ℂ) ^ 2 * matE (-1 : Matrix (Fin 2) (Fin 2) ℂ) i j := by
    intro i j hi hj
    have hi : i < 2 := hi
    have hj : j < 2 := hj
    rw [← matE_one_lt i j hi hj]
    simp only [matE, hi, hj, and_self, dif_pos, Matrix.add_apply, Matrix.smul_apply, Matrix.neg_apply, smul_eq_mul]
    push_cast
    ring
  rw [gateMat_congr e, gateMat_comb4 (by linear_combination hC), gateMat_one, ← h1]
  simp only [mul_add, add_mul, Matrix.smul_mul, Matrix.mul_smul, Matrix.one_mul, Matrix.mul_one, smul_smul, mul_neg, smul_neg]
  match_scalars
  · ring
  · ring
  · ring
  · linear_combination ((s : ℂ) ^ 2) * hI

theorem gateMat_herm {S : Matrix (Fin 2) (Fin 2) ℂ} (hS : S.conjTranspose = S) {t : ℕ} {cs : List ℕ} (hv : ValidDims n (cs ++ [t])) :
    (gateMat n (matE S) [t] cs).conjTranspose = gateMat n (matE S) [t] cs := by
  rw [gateMat_conjTranspose _ hv]
  refine gateMat_congr fun i j hi hj => ?_
  have hi : i < 2 := hi
  have hj : j < 2 := hj
  have := congrFun (congrFun hS ⟨i, hi⟩) ⟨j, hj⟩
  simpa [conjT, matE, hi, hj, Matrix.conjTranspose_apply] using this

theorem gateMat_invol {S : Matrix (Fin 2) (Fin 2) ℂ} (hS : S * S = 1) {t : ℕ} {cs : List ℕ} (hv : ValidDims n (cs ++ [t])) :
    gateMat n (matE S) [t] cs * gateMat n (matE S) [t] cs = 1 := by
  rw [gateMat_mul2 _ _ hv, hS, gateMat_congr (ts := [t]) (fun i j hi hj => matE_one_lt i j hi hj), gateMat_one]

/-- `V` moves every state by at most `δ`. -/
def Moves (V : LMat n) (δ : ℝ) : Prop :=
  ∀ ρ : LMat n, ρ.PosSemidef → ∃ A B : LMat n, A.PosSemidef ∧ B.PosSemidef ∧ B.trace.re ≤ δ * ρ.trace.re ∧ conjBy V ρ = ρ + A - B

theorem Moves.mono {V : LMat n} {δ δ' : ℝ} (h : Moves V δ) (hd : δ ≤ δ') : Moves V δ' := fun ρ hρ => by
  obtain ⟨A, B, hA, hB, h1, h2⟩ := h ρ hρ
  exact ⟨A, B, hA, hB, h1.trans (mul_le_mul_of_nonneg_right hd (Complex.le_def.1 hρ.trace_nonneg).1), h2⟩

theorem Moves.mul {V V' : LMat n} {δ δ' : ℝ} (hV' : V'.conjTranspose * V' = 1) (h : Moves V δ) (h' : Moves V' δ') : Moves (V * V') (δ + δ') := fun ρ hρ => by
  obtain ⟨A', B', hA', hB', h1', h2'⟩ := h' ρ hρ
  obtain ⟨A, B, hA, hB, h1, h2⟩ := h _ (conjBy_psd hρ V')
  refine ⟨A + A', B + B', hA.add hA', hB.add hB', ?_, ?_⟩
  · rw [conjBy_trace hV'] at h1
    rw [Matrix.trace_add, Complex.add_re, add_mul]
    exact add_le_add h1 h1'
  · have : conjBy (V * V') ρ = conjBy V (conjBy V' ρ) := by
      simp only [conjBy, Matrix.conjTranspose_mul, mul_assoc]
    rw [this, h2, h2']
    abel

theorem ic_unitary {W : LMat n} (hW : W.conjTranspose = W) (hWW : W * W = 1) {c s : ℝ} (h : c ^ 2 + s ^ 2 = 1) :
    ((c : ℂ) • (1 : LMat n) + (Complex.I * s) • W).conjTranspose * ((c : ℂ) • (1 : LMat n) + (Complex.I * s) • W) = 1 := by
  have h1 : ((c : ℂ) • (1 : LMat n) + (Complex.I * s) • W).conjTranspose = (c : ℂ) • 1 - (Complex.I * s) • W := by
    rw [Matrix.conjTranspose_add, Matrix.conjTranspose_smul, Matrix.conjTranspose_smul, Matrix.conjTranspose_one, hW]
    simp [sub_eq_add_neg]
  have hI := Complex.I_sq
  have hC : (c : ℂ) ^ 2 + (s : ℂ) ^ 2 = 1 := by exact_mod_cast h
  rw [h1]
  simp only [mul_add, sub_mul, Matrix.smul_mul, Matrix.mul_smul, Matrix.one_mul, Matrix.mul_one, smul_smul, hWW]
  match_scalars
  · linear_combination hC - (s : ℂ) ^ 2 * hI
  · ring

theorem rot_moves {W : LMat n} (hW : W.conjTranspose = W) (hWW : W * W = 1) {c s : ℝ} (h : c ^ 2 + s ^ 2 = 1) :
    Moves ((c : ℂ) • 1 + (Complex.I * s) • W) |s| := fun _ hρ => by
  obtain ⟨A, B, hA, hB, h1, h2⟩ := rot_near hW hWW h hρ
  exact ⟨A, B, hA, hB, h1.le, h2⟩

theorem ctrl_moves {S : Matrix (Fin 2) (Fin 2) ℂ} (hH : S.conjTranspose = S) (hS : S * S = 1) {t : ℕ} {cs : List ℕ}
    (hv : ValidDims n (cs ++ [t])) (Δ : ℝ) :
    Moves (gateMat n (matE (((Real.cos (Δ / 2) : ℝ) : ℂ) • 1 + (Complex.I * (-Real.sin (Δ / 2) : ℝ)) • S)) [t] cs) (|Δ| / 2) := by
  have h : Real.cos (Δ / 4) ^ 2 + (-Real.sin (Δ / 4)) ^ 2 = 1 := by rw [neg_sq]; exact Real.cos_sq_add_sin_sq _
  have e1 : Real.cos (Δ / 2) = Real.cos (Δ / 4) ^ 2 - (-Real.sin (Δ / 4)) ^ 2 := by
    rw [show Δ / 2 = 2 * (Δ / 4) by ring, Real.cos_two_mul']; ring
  have e2 : -Real.sin (Δ / 2) = 2 * (-Real.sin (Δ / 4)) * Real.cos (Δ / 4) := by
    rw [show Δ / 2 = 2 * (Δ / 4) by ring, Real.sin_two_mul]; ring
  have hb : |-Real.sin (Δ / 4)| ≤ |Δ| / 4 := by
    rw [abs_neg]
    refine Real.abs_sin_le_abs.trans ?_
    rw [abs_div]; norm_num
  rw [e1, e2, ctrl_rot hS h hv]
  have hneg : (-gateMat n (matE (-S)) [t] cs).conjTranspose = -gateMat n (matE (-S)) [t] cs := by
    rw [Matrix.conjTranspose_neg, gateMat_herm (by rw [Matrix.conjTranspose_neg, hH]) hv]
  have hneg2 : -gateMat n (matE (-S)) [t] cs * -gateMat n (matE (-S)) [t] cs = 1 := by
    rw [neg_mul_neg, gateMat_invol (by rw [neg_mul_neg, hS]) hv]
  refine ((rot_moves (gateMat_herm hH hv) (gateMat_invol hS hv) h).mul (ic_unitary hneg hneg2 h) (rot_moves hneg hneg2 h)).mono ?_
  linarith

theorem Moves.phase {V : LMat n} {δ : ℝ} (h : Moves V δ) {z : ℂ} (hz : z * star z = 1) : Moves (z • V) δ := fun ρ hρ => by
  obtain ⟨A, B, hA, hB, h1, h2⟩ := h ρ hρ
  refine ⟨A, B, hA, hB, h1, ?_⟩
  rw [← h2]
  simp only [conjBy, Matrix.conjTranspose_smul, Matrix.smul_mul, Matrix.mul_smul, smul_smul]
  rw [mul_comm, hz, one_smul]

theorem cexp_half (Δ : ℝ) : Complex.exp (Complex.I * Δ / 2) = (Real.cos (Δ / 2) : ℝ) + Complex.I * (Real.sin (Δ / 2) : ℝ) := by
  rw [← cexp_I]; congr 1; push_cast; ring

theorem cexp_neg_half (Δ : ℝ) : Complex.exp (-Complex.I * Δ / 2) = (Real.cos (Δ / 2) : ℝ) - Complex.I * (Real.sin (Δ / 2) : ℝ) := by
  have := cexp_I (-(Δ / 2))
  rw [Real.cos_neg, Real.sin_neg] at this
  rw [show -Complex.I * Δ / 2 = Complex.I * ((-(Δ / 2) : ℝ) : ℂ) by push_cast; ring, this]
  push_cast; ring

theorem phase_moves {t : ℕ} {cs : List ℕ} (hv : ValidDims n (cs ++ [t])) (Δ : ℝ) :
    Moves (gateMat n (StdGate.PHASE Δ).mat [t] cs) (|Δ| / 2) := by
  have hH : (!![1, 0; 0, -1] : Matrix (Fin 2) (Fin 2) ℂ).conjTranspose = !![1, 0; 0, -1] := by
    ext i j; fin_cases i <;> fin_cases j <;> simp
  have hS : (!![1, 0; 0, -1] : Matrix (Fin 2) (Fin 2) ℂ) * !![1, 0; 0, -1] = 1 := by
    ext i j; fin_cases i <;> fin_cases j <;> simp
  have h : Real.cos (Δ / 2) ^ 2 + (-Real.sin (Δ / 2)) ^ 2 = 1 := by rw [neg_sq]; exact Real.cos_sq_add_sin_sq _
  have hb : |-Real.sin (Δ / 2)| ≤ |Δ| / 2 := by
    rw [abs_neg]
    refine Real.abs_sin_le_abs.trans ?_
    rw [abs_div]; norm_num
  have hI := Complex.I_sq
  have hC : (Real.cos (Δ / 2) : ℂ) ^ 2 + (Real.sin (Δ / 2) : ℂ) ^ 2 = 1 := by exact_mod_cast Real.cos_sq_add_sin_sq (Δ / 2)
  have he : Complex.exp (Complex.I * Δ) = Complex.exp (Complex.I * Δ / 2) ^ 2 := by
    rw [← Complex.exp_nat_mul]; congr 1; push_cast; ring
  have e : gateMat n (StdGate.PHASE Δ).mat [t] cs = Complex.exp (Complex.I * Δ / 2) •
      (((Real.cos (Δ / 2) : ℝ) : ℂ) • 1 + (Complex.I * (-Real.sin (Δ / 2) : ℝ)) • gateMat n (matE !![1, 0; 0, -1]) [t] cs) := by
    have e' : ∀ i j, i < 2 ^ [t].length → j < 2 ^ [t].length → (StdGate.PHASE Δ).mat i j
        = (Complex.exp (Complex.I * Δ / 2) * Real.cos (Δ / 2)) * oneE i j
          + (Complex.exp (Complex.I * Δ / 2) * (Complex.I * (-Real.sin (Δ / 2) : ℝ))) * matE !![1, 0; 0, -1] i j + 0 * oneE i j + 0 * oneE i j := by
      intro i j hi hj
      have hi : i < 2 := hi
      have hj : j < 2 := hj
      rw [StdGate.mat, matE_two _ _ _ _ i j hi hj, matE_two _ _ _ _ i j hi hj, he, cexp_half, oneE]
      simp only [Complex.ofReal_neg]
      generalize (Real.cos (Δ / 2) : ℂ) = c at hC ⊢
      generalize (Real.sin (Δ / 2) : ℂ) = d at hC ⊢
      have hi' : i = 0 ∨ i = 1 := by omega
      have hj' : j = 0 ∨ j = 1 := by omega
      rcases hi' with rfl | rfl <;> rcases hj' with rfl | rfl <;> simp
      · linear_combination -hC + d ^ 2 * hI
      · linear_combination 0
    rw [gateMat_congr e', gateMat_comb4, gateMat_one]
    · simp only [zero_smul, add_zero, smul_add, smul_smul]
    · rw [cexp_half]
      simp only [Complex.ofReal_neg]
      linear_combination hC - (Real.sin (Δ / 2) : ℂ) ^ 2 * hI
  rw [e]
  refine ((rot_moves (gateMat_herm hH hv) (gateMat_invol hS hv) h).mono hb).phase ?_
  rw [cexp_half]
  simp only [star_add, star_mul', Complex.star_def, Complex.conj_I, Complex.conj_ofReal]
  linear_combination hC - (Real.sin (Δ / 2) : ℂ) ^ 2 * hI

/-- Changing the angle of a rotation by `Δ` moves every state by at most `|Δ| / 2`. -/
theorem RotFam.moves {R : ℝ → StdGate} (hR : RotFam R) {t : ℕ} {cs : List ℕ} (hv : ValidDims n (cs ++ [t])) (Δ : ℝ) :
    Moves (gateMat n (R Δ).mat [t] cs) (|Δ| / 2) := by
  cases hR with
  | RX =>
    have := ctrl_moves (S := !![0, 1; 1, 0]) (by ext i j; fin_cases i <;> fin_cases j <;> simp)
      (by ext i j; fin_cases i <;> fin_cases j <;> simp) hv Δ
    convert this using 2
    rw [StdGate.mat]
    congr 1
    generalize Real.cos (Δ / 2) = c
    generalize Real.sin (Δ / 2) = d
    ext i j; fin_cases i <;> fin_cases j <;> simp
  | RY =>
    have := ctrl_moves (S := !![0, -Complex.I; Complex.I, 0]) (by ext i j; fin_cases i <;> fin_cases j <;> simp)
      (by ext i j; fin_cases i <;> fin_cases j <;> simp) hv Δ
    convert this using 2
    rw [StdGate.mat]
    congr 1
    generalize Real.cos (Δ / 2) = c
    generalize Real.sin (Δ / 2) = d
    have hI := Complex.I_sq
    ext i j; fin_cases i <;> fin_cases j <;> simp
    · linear_combination (-(d : ℂ)) * hI
    · linear_combination ((d : ℂ)) * hI
  | RZ =>
    have := ctrl_moves (S := !![1, 0; 0, -1]) (by ext i j; fin_cases i <;> fin_cases j <;> simp)
      (by ext i j; fin_cases i <;> fin_cases j <;> simp) hv Δ
    convert this using 2
    rw [StdGate.mat, cexp_half, cexp_neg_half]
    congr 1
    generalize Real.cos (Δ / 2) = c
    generalize Real.sin (Δ / 2) = d
    ext i j; fin_cases i <;> fin_cases j <;> simp
    ring
  | PHASE => exact phase_moves hv Δ

theorem RotFam.add {R : ℝ → StdGate} (hR : RotFam R) {t : ℕ} {cs : List ℕ} (hv : ValidDims n (cs ++ [t])) (a b : ℝ) :
    gateMat n (R (a + b)).mat [t] cs = gateMat n (R a).mat [t] cs * gateMat n (R b).mat [t] cs := by
  have hI := Complex.I_sq
  cases hR with
  | RX =>
    rw [StdGate.mat, StdGate.mat, StdGate.mat, gateMat_mul2 _ _ hv, add_div, Real.cos_add, Real.sin_add]
    congr 2
    generalize Real.cos (a / 2) = c
    generalize Real.sin (a / 2) = d
    generalize Real.cos (b / 2) = c'
    generalize Real.sin (b / 2) = d'
    ext i j; fin_cases i <;> fin_cases j <;> simp [Matrix.mul_apply, Fin.sum_univ_two]
    · linear_combination (-(d : ℂ) * d') * hI
    · ring
    · ring
    · linear_combination (-(d : ℂ) * d') * hI
  | RY =>
    rw [StdGate.mat, StdGate.mat, StdGate.mat, gateMat_mul2 _ _ hv, add_div, Real.cos_add, Real.sin_add]
    congr 2
    generalize Real.cos (a / 2) = c
    generalize Real.sin (a / 2) = d
    generalize Real.cos (b / 2) = c'
    generalize Real.sin (b / 2) = d'
    ext i j; fin_cases i <;> fin_cases j <;> simp [Matrix.mul_apply, Fin.sum_univ_two] <;> ring
  | RZ =>
    rw [StdGate.mat, StdGate.mat, StdGate.mat, gateMat_mul2 _ _ hv]
    congr 2
    ext i j; fin_cases i <;> fin_cases j <;> simp [Matrix.mul_apply, Fin.sum_univ_two] <;> (rw [← Complex.exp_add]; congr 1; ring)
  | PHASE =>
    rw [StdGate.mat, StdGate.mat, StdGate.mat, gateMat_mul2 _ _ hv]
    congr 2
    ext i j; fin_cases i <;> fin_cases j <;> simp [Matrix.mul_apply, Fin.sum_univ_two]
    rw [← Complex.exp_add]; congr 1; ring

end Verif
