import Verif.Lemmas.Noise
import Verif.SpecNoiseLaws

/-! # Noise channels block by block: the action of a channel on the 2×2 blocks of a density matrix -/

set_option autoImplicit false

namespace Verif
open NDArray
variable {n t : ℕ}

/-- Replace the bit of one qubit. -/
def Lab.set (x : Lab n) (t : Fin n) (i : Fin 2) : Lab n := Function.update x t i

theorem Lab.set_self (x : Lab n) (t : Fin n) : x.set t (x t) = x := Function.update_eq_self t x

theorem Lab.set_set (x : Lab n) (t : Fin n) (i j : Fin 2) : (x.set t i).set t j = x.set t j := by simp [Lab.set]

theorem Lab.set_at (x : Lab n) (t : Fin n) (i : Fin 2) : x.set t i t = i := by simp [Lab.set]

/-- The 2×2 block of a matrix obtained by varying the bit of qubit `t`. -/
def qblock (t : Fin n) (ρ : Matrix (Lab n) (Lab n) ℂ) (x y : Lab n) : Matrix (Fin 2) (Fin 2) ℂ :=
  Matrix.of fun i j => ρ (x.set t i) (y.set t j)

theorem qblock_ext {t : Fin n} {ρ σ : Matrix (Lab n) (Lab n) ℂ} (h : ∀ x y, qblock t ρ x y = qblock t σ x y) : ρ = σ := by
  ext x y
  have := congrFun (congrFun (h x y) (x t)) (y t)
  simpa [qblock, Lab.set_self] using this

theorem sum_agreeOff_set {A : Type} [AddCommMonoid A] (t : Fin n) (x : Lab n) (f : Lab n → A) :
    ∑ b, (if Lab.AgreeOff [t.val] x b then f b else 0) = ∑ i : Fin 2, f (x.set t i) := by
  rw [← Finset.sum_filter]
  refine Finset.sum_nbij' (fun b => b t) (fun i => x.set t i) (by simp) ?_ ?_ ?_ ?_
  · intro i _
    simp only [Finset.mem_filter, Finset.mem_univ, true_and, Lab.AgreeOff, List.mem_singleton]
    intro q hq
    rw [Lab.set, Function.update_of_ne]
    rintro rfl; exact hq rfl
  · intro b hb
    simp only [Finset.mem_filter, Finset.mem_univ, true_and, Lab.AgreeOff, List.mem_singleton] at hb
    funext q
    by_cases hq : q = t
    · subst hq; simp [Lab.set]
    · rw [Lab.set, Function.update_of_ne hq, hb q (fun h => hq (Fin.ext h))]
  · intro i _; simp [Lab.set]
  · intro b hb
    simp only [Finset.mem_filter, Finset.mem_univ, true_and, Lab.AgreeOff, List.mem_singleton] at hb
    congr 1
    funext q
    by_cases hq : q = t
    · subst hq; simp [Lab.set]
    · rw [Lab.set, Function.update_of_ne hq, hb q (fun h => hq (Fin.ext h))]

theorem onQubit_apply (M : Matrix (Fin 2) (Fin 2) ℂ) (t : Fin n) (x b : Lab n) :
    onQubit n M t x b = if Lab.AgreeOff [t.val] x b then M (x t) (b t) else 0 := by
  rw [onQubit, gateMat_nil_apply]
  simp only [Lab.idx, binVal, List.map_cons, List.map_nil, List.foldl_cons, List.foldl_nil, Lab.bit, t.isLt, dif_pos, matE]
  have h1 := (x t).isLt; have h2 := (b t).isLt
  simp [Nat.le_of_lt_succ h1, Nat.le_of_lt_succ h2]

/-- A one-qubit operator acts on the blocks. -/
theorem qblock_conjBy (M : Matrix (Fin 2) (Fin 2) ℂ) (t : Fin n) (ρ : Matrix (Lab n) (Lab n) ℂ) (x y : Lab n) :
    qblock t (conjBy (onQubit n M t) ρ) x y = M * qblock t ρ x y * M.conjTranspose := by
  have hL : ∀ (σ : Matrix (Lab n) (Lab n) ℂ) (u v : Lab n),
      (onQubit n M t * σ) u v = ∑ i : Fin 2, M (u t) i * σ (u.set t i) v := by
    intro σ u v
    simp only [Matrix.mul_apply, onQubit_apply, ite_mul, zero_mul]
    rw [sum_agreeOff_set t u fun b => M (u t) (b t) * σ b v]
    simp only [Lab.set_at]
  have hR : ∀ (σ : Matrix (Lab n) (Lab n) ℂ) (u v : Lab n),
      (σ * (onQubit n M t).conjTranspose) u v = ∑ i : Fin 2, σ u (v.set t i) * star (M (v t) i) := by
    intro σ u v
    have : ∀ b, σ u b * (onQubit n M t).conjTranspose b v
        = if Lab.AgreeOff [t.val] v b then σ u b * star (M (v t) (b t)) else 0 := by
      intro b
      rw [Matrix.conjTranspose_apply, onQubit_apply]
      split_ifs <;> simp
    simp only [Matrix.mul_apply, this]
    rw [sum_agreeOff_set t v fun b => σ u b * star (M (v t) (b t))]
    simp only [Lab.set_at]
  ext i j
  simp only [qblock, conjBy, Matrix.of_apply, hR, hL, Lab.set_at, Lab.set_set]
  simp only [Matrix.mul_apply, Matrix.of_apply, Matrix.conjTranspose_apply]

theorem qblock_add (t : Fin n) (ρ σ : Matrix (Lab n) (Lab n) ℂ) (x y : Lab n) :
    qblock t (ρ + σ) x y = qblock t ρ x y + qblock t σ x y := rfl

theorem qblock_smul (t : Fin n) (c : ℂ) (ρ : Matrix (Lab n) (Lab n) ℂ) (x y : Lab n) :
    qblock t (c • ρ) x y = c • qblock t ρ x y := rfl

/-- The channels on one 2×2 block. -/
noncomputable def StdNoise.chan1 (B : Matrix (Fin 2) (Fin 2) ℂ) : StdNoise → Matrix (Fin 2) (Fin 2) ℂ
  | .bitFlip p => !![(1 - p) * B 0 0 + p * B 1 1, (1 - p) * B 0 1 + p * B 1 0;
      (1 - p) * B 1 0 + p * B 0 1, (1 - p) * B 1 1 + p * B 0 0]
  | .phaseFlip p => !![B 0 0, (1 - 2 * p) * B 0 1; (1 - 2 * p) * B 1 0, B 1 1]
  | .depolarizing p => !![(1 - 2 * (p / 3)) * B 0 0 + 2 * (p / 3) * B 1 1, (1 - 4 * (p / 3)) * B 0 1;
      (1 - 4 * (p / 3)) * B 1 0, (1 - 2 * (p / 3)) * B 1 1 + 2 * (p / 3) * B 0 0]
  | .pauli px py pz => !![(1 - px - py) * B 0 0 + (px + py) * B 1 1, (1 - px - py - 2 * pz) * B 0 1 + (px - py) * B 1 0;
      (1 - px - py - 2 * pz) * B 1 0 + (px - py) * B 0 1, (1 - px - py) * B 1 1 + (px + py) * B 0 0]
  | .amplitudeDamping γ => !![B 0 0 + γ * B 1 1, (√(1 - γ) : ℝ) * B 0 1; (√(1 - γ) : ℝ) * B 1 0, (1 - γ) * B 1 1]
  | .phaseDamping γ => !![B 0 0, (√(1 - γ) : ℝ) * B 0 1; (√(1 - γ) : ℝ) * B 1 0, B 1 1]
  | .generalizedAmplitudeDamping p γ =>
      !![(1 - (1 - p) * γ) * B 0 0 + p * γ * B 1 1, (√(1 - γ) : ℝ) * B 0 1;
        (√(1 - γ) : ℝ) * B 1 0, (1 - p * γ) * B 1 1 + (1 - p) * γ * B 0 0]

theorem qblock_chan {s : StdNoise} (hs : s.Valid) (t : Fin n) (ρ : Matrix (Lab n) (Lab n) ℂ) (x y : Lab n) :
    qblock t (s.chan n t ρ) x y = s.chan1 (qblock t ρ x y) := by
  have sq : ∀ {r : ℝ}, 0 ≤ r → ((√r : ℝ) : ℂ) * ((√r : ℝ) : ℂ) = (r : ℂ) := fun h => by
    rw [← Complex.ofReal_mul, Real.mul_self_sqrt h]
  have key : ∀ a b c d : ℂ, ∀ B : Matrix (Fin 2) (Fin 2) ℂ, !![a, b; c, d] * B * (!![a, b; c, d]).conjTranspose =
      !![(a * B 0 0 + b * B 1 0) * star a + (a * B 0 1 + b * B 1 1) * star b,
        (a * B 0 0 + b * B 1 0) * star c + (a * B 0 1 + b * B 1 1) * star d;
        (c * B 0 0 + d * B 1 0) * star a + (c * B 0 1 + d * B 1 1) * star b,
        (c * B 0 0 + d * B 1 0) * star c + (c * B 0 1 + d * B 1 1) * star d] := by
    intro a b c d B
    ext i j
    fin_cases i <;> fin_cases j <;> simp [Matrix.mul_apply, Fin.sum_univ_two, Matrix.vecMul, dotProduct]
  have hI : Complex.I * Complex.I = -1 := Complex.I_mul_I
  generalize hB : qblock t ρ x y = B
  cases s with
  | bitFlip p =>
    simp only [StdNoise.chan, qblock_add, qblock_smul, qblock_conjBy, hB, key, StdNoise.chan1]
    ext i j
    fin_cases i <;> fin_cases j <;>
      simp only [Matrix.add_apply, Matrix.smul_apply, smul_eq_mul, Matrix.of_apply, Matrix.cons_val', Matrix.cons_val_zero,
        Matrix.cons_val_one, Fin.zero_eta, Fin.mk_one, Fin.isValue, Matrix.cons_val_fin_one, star_zero, star_one,
        RCLike.star_def, Complex.conj_ofReal, map_neg, Complex.conj_I, map_zero, map_one] <;>
      push_cast <;>
      first
        | ring1
        | (ring_nf; simp only [Complex.I_sq]; ring1)
  | phaseFlip p =>
    simp only [StdNoise.chan, qblock_add, qblock_smul, qblock_conjBy, hB, key, StdNoise.chan1]
    ext i j
    fin_cases i <;> fin_cases j <;>
      simp only [Matrix.add_apply, Matrix.smul_apply, smul_eq_mul, Matrix.of_apply, Matrix.cons_val', Matrix.cons_val_zero,
        Matrix.cons_val_one, Fin.zero_eta, Fin.mk_one, Fin.isValue, Matrix.cons_val_fin_one, star_zero, star_one,
        RCLike.star_def, Complex.conj_ofReal, map_neg, Complex.conj_I, map_zero, map_one] <;>
      push_cast <;>
      first
        | ring1
        | (ring_nf; simp only [Complex.I_sq]; ring1)
  | depolarizing p =>
    simp only [StdNoise.chan, qblock_add, qblock_smul, qblock_conjBy, hB, key, StdNoise.chan1]
    ext i j
    fin_cases i <;> fin_cases j <;>
      simp only [Matrix.add_apply, Matrix.smul_apply, smul_eq_mul, Matrix.of_apply, Matrix.cons_val', Matrix.cons_val_zero,
        Matrix.cons_val_one, Fin.zero_eta, Fin.mk_one, Fin.isValue, Matrix.cons_val_fin_one, star_zero, star_one,
        RCLike.star_def, Complex.conj_ofReal, map_neg, Complex.conj_I, map_zero, map_one] <;>
      push_cast <;>
      first
        | ring1
        | (ring_nf; simp only [Complex.I_sq]; ring1)
  | pauli px py pz =>
    simp only [StdNoise.chan, qblock_add, qblock_smul, qblock_conjBy, hB, key, StdNoise.chan1]
    ext i j
    fin_cases i <;> fin_cases j <;>
      simp only [Matrix.add_apply, Matrix.smul_apply, smul_eq_mul, Matrix.of_apply, Matrix.cons_val', Matrix.cons_val_zero,
        Matrix.cons_val_one, Fin.zero_eta, Fin.mk_one, Fin.isValue, Matrix.cons_val_fin_one, star_zero, star_one,
        RCLike.star_def, Complex.conj_ofReal, map_neg, Complex.conj_I, map_zero, map_one] <;>
      push_cast <;>
      first
        | ring1
        | (ring_nf; simp only [Complex.I_sq]; ring1)
  | amplitudeDamping γ =>
    have h0 := sq hs.1; have h1 := sq (sub_nonneg.2 hs.2)
    simp only [StdNoise.chan, qblock_add, qblock_smul, qblock_conjBy, hB, key, StdNoise.chan1]
    ext i j
    fin_cases i <;> fin_cases j <;>
      simp only [Matrix.add_apply, Matrix.smul_apply, smul_eq_mul, Matrix.of_apply, Matrix.cons_val', Matrix.cons_val_zero,
        Matrix.cons_val_one, Fin.zero_eta, Fin.mk_one, Fin.isValue, Matrix.cons_val_fin_one, star_zero, star_one,
        RCLike.star_def, Complex.conj_ofReal, map_neg, Complex.conj_I, map_zero, map_one] <;>
      push_cast
    all_goals
      push_cast at h1
      generalize ((√γ : ℝ) : ℂ) = a at h0 ⊢
      generalize ((√(1 - γ) : ℝ) : ℂ) = b at h1 ⊢
    · linear_combination B 1 1 * h0
    · ring
    · ring
    · linear_combination B 1 1 * h1
  | phaseDamping γ =>
    have h0 := sq hs.1; have h1 := sq (sub_nonneg.2 hs.2)
    simp only [StdNoise.chan, qblock_add, qblock_smul, qblock_conjBy, hB, key, StdNoise.chan1]
    ext i j
    fin_cases i <;> fin_cases j <;>
      simp only [Matrix.add_apply, Matrix.smul_apply, smul_eq_mul, Matrix.of_apply, Matrix.cons_val', Matrix.cons_val_zero,
        Matrix.cons_val_one, Fin.zero_eta, Fin.mk_one, Fin.isValue, Matrix.cons_val_fin_one, star_zero, star_one,
        RCLike.star_def, Complex.conj_ofReal, map_neg, Complex.conj_I, map_zero, map_one] <;>
      push_cast
    all_goals
      push_cast at h1
      generalize ((√γ : ℝ) : ℂ) = a at h0 ⊢
      generalize ((√(1 - γ) : ℝ) : ℂ) = b at h1 ⊢
    · ring
    · ring
    · ring
    · linear_combination B 1 1 * (h0 + h1)
  | generalizedAmplitudeDamping p γ =>
    have h0 := sq hs.2.1; have h1 := sq (sub_nonneg.2 hs.2.2)
    simp only [StdNoise.chan, qblock_add, qblock_smul, qblock_conjBy, hB, key, StdNoise.chan1]
    ext i j
    fin_cases i <;> fin_cases j <;>
      simp only [Matrix.add_apply, Matrix.smul_apply, smul_eq_mul, Matrix.of_apply, Matrix.cons_val', Matrix.cons_val_zero,
        Matrix.cons_val_one, Fin.zero_eta, Fin.mk_one, Fin.isValue, Matrix.cons_val_fin_one, star_zero, star_one,
        RCLike.star_def, Complex.conj_ofReal, map_neg, Complex.conj_I, map_zero, map_one] <;>
      push_cast
    all_goals
      push_cast at h1
      generalize ((√γ : ℝ) : ℂ) = a at h0 ⊢
      generalize ((√(1 - γ) : ℝ) : ℂ) = b at h1 ⊢
    · linear_combination (p : ℂ) * B 1 1 * h0 + (1 - (p : ℂ)) * B 0 0 * h1
    · ring
    · ring
    · linear_combination (p : ℂ) * B 1 1 * h1 + (1 - (p : ℂ)) * B 0 0 * h0

/-! ## Normal form of the channels -/

/-- Coefficients of the off-diagonal entries. -/
noncomputable def StdNoise.keep : StdNoise → ℝ
  | .bitFlip p => 1 - p
  | .phaseFlip p => 1 - 2 * p
  | .depolarizing p => 1 - 4 / 3 * p
  | .pauli px py pz => 1 - px - py - 2 * pz
  | .amplitudeDamping γ | .phaseDamping γ | .generalizedAmplitudeDamping _ γ => √(1 - γ)

/-- Coefficients of the transposed off-diagonal entries. -/
noncomputable def StdNoise.swap : StdNoise → ℝ
  | .bitFlip p => p
  | .pauli px py _ => px - py
  | _ => 0

theorem StdNoise.chan1_eq (s : StdNoise) (B : Matrix (Fin 2) (Fin 2) ℂ) : s.chan1 B =
    !![(1 + s.shrink + s.drift) / 2 * B 0 0 + (1 - s.shrink + s.drift) / 2 * B 1 1, s.keep * B 0 1 + s.swap * B 1 0;
      s.keep * B 1 0 + s.swap * B 0 1, (1 + s.shrink - s.drift) / 2 * B 1 1 + (1 - s.shrink - s.drift) / 2 * B 0 0] := by
  cases s
  all_goals
    simp only [StdNoise.chan1, StdNoise.shrink, StdNoise.drift, StdNoise.keep, StdNoise.swap]
    ext i j
    fin_cases i <;> fin_cases j <;>
      simp only [Matrix.of_apply, Matrix.cons_val', Matrix.cons_val_zero, Matrix.cons_val_one, Fin.zero_eta, Fin.mk_one,
        Fin.isValue, Matrix.cons_val_fin_one] <;>
      push_cast <;> ring

theorem StdNoise.Valid.bounds {s : StdNoise} (h : s.Valid) : -1 ≤ s.shrink ∧ s.shrink ≤ 1 ∧ |s.keep| + |s.swap| ≤ 1 := by
  have sq : ∀ {γ : ℝ}, 0 ≤ γ ∧ γ ≤ 1 → |√(1 - γ)| + |(0 : ℝ)| ≤ 1 := by
    intro γ h
    rw [abs_of_nonneg (Real.sqrt_nonneg _), abs_zero, add_zero]
    exact Real.sqrt_le_one.2 (by linarith [h.1])
  cases s with
  | bitFlip p =>
    obtain ⟨h1, h2⟩ := h
    refine ⟨by simp only [shrink]; linarith, by simp only [shrink]; linarith, ?_⟩
    simp only [keep, swap]
    rw [abs_of_nonneg h1, abs_of_nonneg (by linarith)]; linarith
  | phaseFlip p =>
    obtain ⟨h1, h2⟩ := h
    refine ⟨by simp only [shrink]; linarith, by simp only [shrink]; linarith, ?_⟩
    simp only [keep, swap, abs_zero, add_zero]
    rw [abs_le]; constructor <;> linarith
  | depolarizing p =>
    obtain ⟨h1, h2⟩ := h
    refine ⟨by simp only [shrink]; linarith, by simp only [shrink]; linarith, ?_⟩
    simp only [keep, swap, abs_zero, add_zero]
    rw [abs_le]; constructor <;> linarith
  | pauli px py pz =>
    obtain ⟨h1, h2, h3, h4⟩ := h
    refine ⟨by simp only [shrink]; linarith, by simp only [shrink]; linarith, ?_⟩
    simp only [keep, swap]
    rcases abs_cases (1 - px - py - 2 * pz) with ⟨e, -⟩ | ⟨e, -⟩ <;> rcases abs_cases (px - py) with ⟨e', -⟩ | ⟨e', -⟩ <;>
      rw [e, e'] <;> linarith
  | amplitudeDamping γ => exact ⟨by simp only [shrink]; linarith [h.2], by simp only [shrink]; linarith [h.1], sq h⟩
  | phaseDamping γ => exact ⟨by norm_num [shrink], by norm_num [shrink], sq h⟩
  | generalizedAmplitudeDamping p γ =>
    exact ⟨by simp only [shrink]; linarith [h.2.2], by simp only [shrink]; linarith [h.2.1], sq h.2⟩

/-! ## Sums over blocks -/

theorem sum_set {A : Type} [AddCommMonoid A] (t : Fin n) (f : Lab n → A) :
    ∑ x : Lab n, ∑ i : Fin 2, f (x.set t i) = 2 • ∑ x : Lab n, f x := by
  have hsym : ∀ x b : Lab n, Lab.AgreeOff [t.val] x b ↔ Lab.AgreeOff [t.val] b x := fun x b =>
    ⟨fun h q hq => (h q hq).symm, fun h q hq => (h q hq).symm⟩
  have h1 : ∀ x : Lab n, ∑ i : Fin 2, f (x.set t i) = ∑ b, if Lab.AgreeOff [t.val] x b then f b else 0 := fun x =>
    (sum_agreeOff_set t x f).symm
  simp only [h1]
  rw [Finset.sum_comm, Finset.smul_sum]
  refine Finset.sum_congr rfl fun b _ => ?_
  simp only [hsym _ b]
  rw [sum_agreeOff_set t b fun _ => f b]
  simp

theorem purity_eq (ρ : Matrix (Lab n) (Lab n) ℂ) : purity ρ = ∑ x, ∑ y, Complex.normSq (ρ x y) := by
  simp only [purity, Matrix.trace, Matrix.diag_apply, Matrix.mul_apply, Matrix.conjTranspose_apply, RCLike.star_def,
    Complex.mul_conj, Complex.re_sum, Complex.ofReal_re]

theorem purity_blocks (t : Fin n) (ρ : Matrix (Lab n) (Lab n) ℂ) :
    4 * purity ρ = ∑ x, ∑ y, ∑ i, ∑ j, Complex.normSq (qblock t ρ x y i j) := by
  have h1 : ∀ x : Lab n, ∑ y : Lab n, ∑ i : Fin 2, ∑ j : Fin 2, Complex.normSq (qblock t ρ x y i j)
      = ∑ i : Fin 2, 2 • ∑ y, Complex.normSq (ρ (x.set t i) y) := by
    intro x
    rw [Finset.sum_comm]
    exact Finset.sum_congr rfl fun i _ => sum_set t fun y => Complex.normSq (ρ (x.set t i) y)
  simp only [h1]
  rw [sum_set t fun x => 2 • ∑ y, Complex.normSq (ρ x y), ← Finset.smul_sum, purity_eq, smul_smul]
  simp

theorem purity_unitary {U : Matrix (Lab n) (Lab n) ℂ} (hU : U.conjTranspose * U = 1) (ρ : Matrix (Lab n) (Lab n) ℂ) :
    purity (conjBy U ρ) = purity ρ := by
  have : conjBy U ρ * (conjBy U ρ).conjTranspose = U * (ρ * ρ.conjTranspose) * U.conjTranspose := by
    simp only [conjBy, Matrix.conjTranspose_mul, Matrix.conjTranspose_conjTranspose]
    rw [show U * ρ * U.conjTranspose * (U * (ρ.conjTranspose * U.conjTranspose))
      = U * ρ * (U.conjTranspose * U) * (ρ.conjTranspose * U.conjTranspose) by simp only [mul_assoc], hU, mul_one]
    simp only [mul_assoc]
  rw [purity, this, Matrix.trace_mul_comm, ← mul_assoc, hU, one_mul, purity]

theorem normSq_mix {α β : ℝ} (h : |α| + |β| ≤ 1) (u v : ℂ) :
    Complex.normSq (α * u + β * v) + Complex.normSq (α * v + β * u) ≤ Complex.normSq u + Complex.normSq v := by
  simp only [Complex.normSq_apply, Complex.add_re, Complex.add_im, Complex.mul_re, Complex.mul_im, Complex.ofReal_re,
    Complex.ofReal_im, zero_mul, sub_zero, add_zero]
  generalize u.re = a; generalize u.im = b; generalize v.re = c; generalize v.im = d
  have h1 : |α * β| = |α| * |β| := abs_mul α β
  have h2 : (|α| + |β|) ^ 2 ≤ 1 := by
    have := add_nonneg (abs_nonneg α) (abs_nonneg β)
    nlinarith
  have h3 : α ^ 2 + β ^ 2 + 2 * |α * β| ≤ 1 := by
    rw [h1, ← sq_abs α, ← sq_abs β]; nlinarith
  have h4 : α * β * (2 * (a * c + b * d)) ≤ |α * β| * (a ^ 2 + b ^ 2 + c ^ 2 + d ^ 2) := by
    rcases abs_cases (α * β) with ⟨e, h5⟩ | ⟨e, h5⟩ <;> rw [e]
    · nlinarith [mul_nonneg h5 (add_nonneg (sq_nonneg (a - c)) (sq_nonneg (b - d)))]
    · nlinarith [mul_nonneg (neg_nonneg.2 h5.le) (add_nonneg (sq_nonneg (a + c)) (sq_nonneg (b + d)))]
  nlinarith [mul_le_mul_of_nonneg_right h3 (add_nonneg (add_nonneg (sq_nonneg a) (sq_nonneg b)) (add_nonneg (sq_nonneg c) (sq_nonneg d)))]

theorem purity_chan {s : StdNoise} (hs : s.Valid) (h0 : s.drift = 0) {t : ℕ} (ht : t < n) (ρ : Matrix (Lab n) (Lab n) ℂ) :
    purity (s.chan n t ρ) ≤ purity ρ := by
  obtain ⟨b1, b2, b3⟩ := hs.bounds
  refine le_of_mul_le_mul_left ?_ (show (0 : ℝ) < 4 by norm_num)
  rw [purity_blocks ⟨t, ht⟩, purity_blocks ⟨t, ht⟩]
  refine Finset.sum_le_sum fun x _ => Finset.sum_le_sum fun y _ => ?_
  have hq := qblock_chan hs ⟨t, ht⟩ ρ x y
  simp only at hq
  rw [hq, StdNoise.chan1_eq, h0]
  generalize qblock (⟨t, ht⟩ : Fin n) ρ x y = B
  simp only [Fin.sum_univ_two, Matrix.of_apply, Matrix.cons_val', Matrix.cons_val_zero, Matrix.cons_val_one, Fin.isValue,
    Matrix.cons_val_fin_one, Complex.ofReal_zero, add_zero, sub_zero]
  have e1 := normSq_mix (α := (1 + s.shrink) / 2) (β := (1 - s.shrink) / 2) (by
    rw [abs_of_nonneg (by linarith), abs_of_nonneg (by linarith)]; linarith) (B 0 0) (B 1 1)
  have e2 := normSq_mix b3 (B 0 1) (B 1 0)
  push_cast at e1
  linarith

end Verif
