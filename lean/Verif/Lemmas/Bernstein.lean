import Verif.Lemmas.Spectrum
import Mathlib.Analysis.SpecialFunctions.Trigonometric.Deriv
import Mathlib.Algebra.BigOperators.Intervals

/-!
# Bernstein's inequality for trigonometric polynomials, from M. Riesz' interpolation formula
-/

set_option autoImplicit false

namespace Verif
open Finset

/-- The nodes `(2k + 1)π / 2N` of Riesz' formula. -/
noncomputable def rieszNode (N k : ℕ) : ℝ := (2 * k + 1) * Real.pi / (2 * N)

/-- `1 / sin²(t_k / 2)`. -/
noncomputable def rieszWeight (N k : ℕ) : ℝ := 1 / Real.sin (rieszNode N k / 2) ^ 2

variable {N : ℕ}

theorem node_mul (hN : N ≠ 0) (k : ℕ) : N * rieszNode N k = k * Real.pi + Real.pi / 2 := by
  have : (N : ℝ) ≠ 0 := by exact_mod_cast hN
  rw [rieszNode]; field_simp

theorem sin_node (hN : N ≠ 0) (k : ℕ) : Real.sin (N * rieszNode N k) = (-1) ^ k := by
  rw [node_mul hN, Real.sin_add_pi_div_two, Real.cos_nat_mul_pi]

theorem cos_node (hN : N ≠ 0) (k : ℕ) : Real.cos (N * rieszNode N k) = 0 := by
  rw [node_mul hN, Real.cos_add_pi_div_two, Real.sin_nat_mul_pi, neg_zero]

theorem sin_half_node (hN : N ≠ 0) {k : ℕ} (hk : k < 2 * N) : Real.sin (rieszNode N k / 2) ≠ 0 := by
  have h0 : (0 : ℝ) < N := by exact_mod_cast Nat.pos_of_ne_zero hN
  have hk' : (k : ℝ) + 1 ≤ 2 * N := by exact_mod_cast hk
  refine (Real.sin_pos_of_pos_of_lt_pi ?_ ?_).ne'
  · have := Real.pi_pos
    rw [rieszNode]; positivity
  · rw [rieszNode, div_div, div_lt_iff₀ (by positivity)]
    nlinarith [Real.pi_pos]

theorem alternating_telescope (a : ℕ → ℝ) (M : ℕ) :
    ∑ k ∈ range M, (-1) ^ k * (a (k + 1) + a k) = a 0 - (-1) ^ M * a M := by
  induction M with
  | zero => simp
  | succ M ih => rw [sum_range_succ, ih, pow_succ]; ring

theorem sum_alternating (hN : N ≠ 0) {j : ℕ} (hj : j < N) :
    ∑ k ∈ range (2 * N), (-1) ^ k * Real.sin (j * rieszNode N k) = 0 := by
  have h0 : (0 : ℝ) < N := by exact_mod_cast Nat.pos_of_ne_zero hN
  have hj' : (j : ℝ) < N := by exact_mod_cast hj
  have hc : 2 * Real.cos (j * Real.pi / (2 * N)) ≠ 0 := by
    refine mul_ne_zero two_ne_zero (Real.cos_pos_of_mem_Ioo ⟨?_, ?_⟩).ne'
    · have := Real.pi_pos
      have : 0 ≤ j * Real.pi / (2 * (N : ℝ)) := by positivity
      linarith [Real.pi_pos]
    · rw [div_lt_div_iff₀ (by positivity) two_pos]
      nlinarith [Real.pi_pos]
  refine (mul_right_injective₀ hc) ?_
  beta_reduce
  rw [mul_zero, mul_sum]
  have key := alternating_telescope (fun k => Real.sin (j * (k * Real.pi / N))) (2 * N)
  have hend : Real.sin (j * (((2 * N : ℕ) : ℝ) * Real.pi / N)) = 0 := by
    have : (j : ℝ) * (((2 * N : ℕ) : ℝ) * Real.pi / N) = ((2 * j : ℕ) : ℝ) * Real.pi := by
      push_cast; field_simp
    rw [this, Real.sin_nat_mul_pi]
  beta_reduce at key
  rw [hend] at key
  simp only [Nat.cast_zero, zero_mul, zero_div, mul_zero, Real.sin_zero, sub_zero] at key
  rw [← key]
  refine sum_congr rfl fun k _ => ?_
  have e1 : (j : ℝ) * (((k + 1 : ℕ) : ℝ) * Real.pi / N) = j * rieszNode N k + j * Real.pi / (2 * N) := by
    rw [rieszNode]; push_cast; field_simp; ring
  have e2 : (j : ℝ) * ((k : ℝ) * Real.pi / N) = j * rieszNode N k - j * Real.pi / (2 * N) := by
    rw [rieszNode]; field_simp; ring
  rw [e1, e2, Real.sin_add, Real.sin_sub]
  ring

/-- The weighted sums of Riesz' formula. -/
noncomputable def rieszSum (N j : ℕ) : ℝ := ∑ k ∈ range (2 * N), (-1) ^ k * Real.sin (j * rieszNode N k) * rieszWeight N k

theorem rieszSum_step (hN : N ≠ 0) (j : ℕ) : rieszSum N (j + 2) - 2 * rieszSum N (j + 1) + rieszSum N j
    = -4 * ∑ k ∈ range (2 * N), (-1) ^ k * Real.sin (((j + 1 : ℕ) : ℝ) * rieszNode N k) := by
  rw [rieszSum, rieszSum, rieszSum, mul_sum, ← sum_sub_distrib, ← sum_add_distrib, mul_sum]
  refine sum_congr rfl fun k hk => ?_
  have hs := sin_half_node hN (mem_range.1 hk)
  have hw : rieszWeight N k * Real.sin (rieszNode N k / 2) ^ 2 = 1 := by
    rw [rieszWeight]; field_simp
  have hc : Real.cos (rieszNode N k) = 1 - 2 * Real.sin (rieszNode N k / 2) ^ 2 := by
    have := Real.cos_two_mul' (rieszNode N k / 2)
    rw [mul_div_cancel₀ _ two_ne_zero] at this
    rw [this]
    linarith [Real.sin_sq_add_cos_sq (rieszNode N k / 2)]
  generalize rieszNode N k = t at *
  have e1 : (((j + 2 : ℕ) : ℝ)) * t = ((j + 1 : ℕ) : ℝ) * t + t := by push_cast; ring
  have e2 : (j : ℝ) * t = ((j + 1 : ℕ) : ℝ) * t - t := by push_cast; ring
  rw [e1, e2, Real.sin_add, Real.sin_sub, hc]
  linear_combination (-4 * (-1) ^ k * Real.sin (((j + 1 : ℕ) : ℝ) * t)) * hw

theorem rieszSum_linear (hN : N ≠ 0) : ∀ j, j ≤ N → rieszSum N j = j * rieszSum N 1 := by
  have h0 : rieszSum N 0 = 0 := by simp [rieszSum]
  have key : ∀ j, j + 1 ≤ N → rieszSum N j = j * rieszSum N 1 ∧ rieszSum N (j + 1) = (j + 1 : ℕ) * rieszSum N 1 := by
    intro j
    induction j with
    | zero => intro _; simp [h0]
    | succ j ih =>
      intro hj
      obtain ⟨i1, i2⟩ := ih (by omega)
      refine ⟨i2, ?_⟩
      have := rieszSum_step hN j
      rw [sum_alternating hN (by omega), mul_zero, i1, i2] at this
      rw [show j + 1 + 1 = j + 2 from rfl]
      push_cast at this ⊢
      linarith
  intro j hj
  rcases j with _ | j
  · simp [h0]
  · exact (key j hj).2

theorem rieszSum_one (hN : N ≠ 0) : rieszSum N 1 = 4 * N := by
  obtain ⟨M, rfl⟩ := Nat.exists_eq_succ_of_ne_zero hN
  have h1 := rieszSum_step hN M
  have h2 : rieszSum (M + 1) (M + 2) = rieszSum (M + 1) M := by
    refine sum_congr rfl fun k _ => ?_
    have e1 : (((M + 2 : ℕ) : ℝ)) * rieszNode (M + 1) k = ((M + 1 : ℕ) : ℝ) * rieszNode (M + 1) k + rieszNode (M + 1) k := by push_cast; ring
    have e2 : (M : ℝ) * rieszNode (M + 1) k = ((M + 1 : ℕ) : ℝ) * rieszNode (M + 1) k - rieszNode (M + 1) k := by push_cast; ring
    have hc := cos_node (N := M + 1) (by omega) k
    rw [e1, e2, Real.sin_add, Real.sin_sub, hc]
    ring
  have h3 : ∑ k ∈ range (2 * (M + 1)), (-1 : ℝ) ^ k * Real.sin (((M + 1 : ℕ) : ℝ) * rieszNode (M + 1) k) = 2 * (M + 1) := by
    rw [sum_congr rfl (g := fun _ => (1 : ℝ)) fun k _ => by
      rw [sin_node (by omega), ← mul_pow]; simp]
    simp
  rw [h3, h2, rieszSum_linear hN (M + 1) le_rfl, rieszSum_linear hN M (by omega)] at h1
  push_cast at h1 ⊢
  linarith

theorem rieszSum_cos (hN : N ≠ 0) (j : ℕ) :
    ∑ k ∈ range (2 * N), (-1) ^ k * Real.cos (j * rieszNode N k) * rieszWeight N k = 0 := by
  have h := sum_range_reflect (fun k => (-1 : ℝ) ^ k * Real.cos (j * rieszNode N k) * rieszWeight N k) (2 * N)
  have h' : ∑ k ∈ range (2 * N), (fun k => (-1 : ℝ) ^ k * Real.cos (j * rieszNode N k) * rieszWeight N k) (2 * N - 1 - k)
      = - ∑ k ∈ range (2 * N), (-1 : ℝ) ^ k * Real.cos (j * rieszNode N k) * rieszWeight N k := by
    rw [← sum_neg_distrib]
    refine sum_congr rfl fun k hk => ?_
    have hk := mem_range.1 hk
    have h0 : (N : ℝ) ≠ 0 := by exact_mod_cast hN
    have hn : rieszNode N (2 * N - 1 - k) = 2 * Real.pi - rieszNode N k := by
      have : ((2 * N - 1 - k : ℕ) : ℝ) = 2 * N - 1 - k := by
        rw [Nat.cast_sub (by omega), Nat.cast_sub (by omega)]; push_cast; ring
      rw [rieszNode, rieszNode, this]; field_simp; ring
    have hw : rieszWeight N (2 * N - 1 - k) = rieszWeight N k := by
      rw [rieszWeight, rieszWeight, hn, sub_div, mul_div_cancel_left₀ _ two_ne_zero, Real.sin_pi_sub]
    have hs : (-1 : ℝ) ^ (2 * N - 1 - k) = -(-1) ^ k := by
      have : (-1 : ℝ) ^ (2 * N - 1 - k) * ((-1) ^ k * (-1)) = 1 := by
        rw [← pow_succ, ← pow_add, show 2 * N - 1 - k + (k + 1) = 2 * N by omega, pow_mul]; simp
      have h2 : ((-1 : ℝ) ^ k) * (-1) ^ k = 1 := by rw [← mul_pow]; simp
      linear_combination (-(-1 : ℝ) ^ k) * this - (-1 : ℝ) ^ (2 * N - 1 - k) * h2
    beta_reduce
    rw [hw, hs, hn, mul_sub, show (j : ℝ) * (2 * Real.pi) = j * (2 * Real.pi) from rfl, Real.cos_nat_mul_two_pi_sub]
    ring
  linarith [h.symm.trans h']

/-- Riesz' interpolation formula: the derivative of a trigonometric polynomial of degree at most `N` from `2N` of its values. -/
theorem TrigPoly.riesz {f : ℝ → ℝ} (hN : N ≠ 0) (hf : TrigPoly N f) (x : ℝ) :
    HasDerivAt f (∑ k ∈ range (2 * N), (-1) ^ k * rieszWeight N k / (4 * N) * f (x + rieszNode N k)) x := by
  obtain ⟨a, b, hf⟩ := hf
  have h0 : (N : ℝ) ≠ 0 := by exact_mod_cast hN
  have hd : HasDerivAt f (∑ j ∈ range (N + 1), (a j * (-Real.sin (j * x) * j) + b j * (Real.cos (j * x) * j))) x := by
    have : f = fun x => ∑ j ∈ range (N + 1), (a j * Real.cos (j * x) + b j * Real.sin (j * x)) := funext hf
    rw [this]
    refine HasDerivAt.fun_sum fun j _ => ?_
    have hj : HasDerivAt (fun x : ℝ => (j : ℝ) * x) j x := by simpa using (hasDerivAt_id x).const_mul (j : ℝ)
    exact (hj.cos.const_mul (a j)).add (hj.sin.const_mul (b j))
  refine hd.congr_deriv ?_
  simp only [hf, mul_sum]
  rw [sum_comm]
  refine sum_congr rfl fun j hj => ?_
  have hs : rieszSum N j = j * (4 * N) := by
    rw [rieszSum_linear hN j (by have := mem_range.1 hj; omega), rieszSum_one hN]
  have hc := rieszSum_cos hN j
  have : ∀ k, (-1) ^ k * rieszWeight N k / (4 * N) * (a j * Real.cos (j * (x + rieszNode N k)) + b j * Real.sin (j * (x + rieszNode N k)))
      = (a j * Real.cos (j * x) + b j * Real.sin (j * x)) / (4 * N) * ((-1) ^ k * Real.cos (j * rieszNode N k) * rieszWeight N k)
        + (-a j * Real.sin (j * x) + b j * Real.cos (j * x)) / (4 * N) * ((-1) ^ k * Real.sin (j * rieszNode N k) * rieszWeight N k) := by
    intro k
    rw [mul_add (j : ℝ), Real.cos_add, Real.sin_add]
    ring
  rw [sum_congr rfl fun k _ => this k, sum_add_distrib, ← mul_sum, ← mul_sum, hc, ← rieszSum, hs]
  field_simp
  ring

/-- Bernstein's inequality. -/
theorem TrigPoly.bernstein {f : ℝ → ℝ} (hf : TrigPoly N f) {M d : ℝ} (hM : ∀ x, |f x| ≤ M) {x : ℝ} (hd : HasDerivAt f d x) :
    |d| ≤ N * M := by
  by_cases hN : N = 0
  · subst hN
    obtain ⟨a, b, hf⟩ := hf
    have : f = fun _ => a 0 := by
      funext y; rw [hf]; simp
    subst this
    rw [hd.unique (hasDerivAt_const x (a 0))]
    simp
  · rw [hd.unique (hf.riesz hN x)]
    have h0 : (0 : ℝ) < N := by exact_mod_cast Nat.pos_of_ne_zero hN
    have hw : ∀ k, 0 ≤ rieszWeight N k := fun k => by rw [rieszWeight]; positivity
    refine (abs_sum_le_sum_abs _ _).trans ?_
    have : ∑ k ∈ range (2 * N), rieszWeight N k = N * (4 * N) := by
      rw [← rieszSum_one hN, ← rieszSum_linear hN N le_rfl, rieszSum]
      refine sum_congr rfl fun k _ => ?_
      rw [sin_node hN, ← mul_pow]; simp
    calc ∑ k ∈ range (2 * N), |(-1) ^ k * rieszWeight N k / (4 * N) * f (x + rieszNode N k)|
        ≤ ∑ k ∈ range (2 * N), rieszWeight N k * (M / (4 * N)) := by
          refine sum_le_sum fun k _ => ?_
          rw [abs_mul, abs_div, abs_mul, abs_pow, abs_neg, abs_one, one_pow, one_mul, abs_of_nonneg (hw k),
            abs_of_pos (by positivity : (0 : ℝ) < 4 * N)]
          have := mul_le_mul_of_nonneg_left (hM (x + rieszNode N k)) (div_nonneg (hw k) (by positivity : (0 : ℝ) ≤ 4 * N))
          refine this.trans (le_of_eq ?_)
          ring
      _ = N * M := by rw [← sum_mul, this]; field_simp

theorem TrigPoly.translate {f : ℝ → ℝ} (hf : TrigPoly N f) (c : ℝ) : TrigPoly N fun x => f (x + c) := by
  obtain ⟨a, b, hf⟩ := hf
  refine ⟨fun k => a k * Real.cos (k * c) + b k * Real.sin (k * c), fun k => b k * Real.cos (k * c) - a k * Real.sin (k * c), fun x => ?_⟩
  beta_reduce
  rw [hf]
  refine sum_congr rfl fun k _ => ?_
  rw [mul_add, Real.cos_add, Real.sin_add]
  ring

end Verif
