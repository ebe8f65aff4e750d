import Mathlib.Analysis.Calculus.Deriv.Pi
import Mathlib.Analysis.Calculus.Deriv.Prod
import Mathlib.Analysis.Calculus.Deriv.MeanValue
import Mathlib.Algebra.Order.Chebyshev
import Mathlib.Algebra.Order.BigOperators.Ring.Finset
import Verif.Lemmas.Bernstein

/-!
# Gradient descent on functions that are trigonometric polynomials in every coordinate
-/

set_option autoImplicit false

namespace Verif
open Finset

variable {m : ℕ} {F : (Fin m → ℝ) → ℝ} {c : Fin m → ℕ} {C : ℝ}

/-- Lipschitz continuity and Bernstein's inequality give Lipschitz continuity of the partial derivatives. -/
theorem partial_lip (hlip : ∀ x y, |F y - F x| ≤ C * ∑ l, c l * |y l - x l|)
    (htrig : ∀ x k, TrigPoly (2 * c k) fun t => F (Function.update x k (2 * t))) {x y : Fin m → ℝ} {k : Fin m} {d d' : ℝ}
    (hd : HasDerivAt (fun t => F (Function.update x k t)) d (x k)) (hd' : HasDerivAt (fun t => F (Function.update y k t)) d' (y k)) :
    |d' - d| ≤ c k * (C * ∑ l, c l * |y l - x l|) := by
  have line : ∀ {z : Fin m → ℝ} {e : ℝ}, HasDerivAt (fun t => F (Function.update z k t)) e (z k) →
      HasDerivAt (fun s => F (Function.update z k (2 * (s + z k / 2)))) (e * 2) 0 := by
    intro z e he
    have h1 : HasDerivAt (fun s : ℝ => 2 * (s + z k / 2)) 2 0 := by
      simpa using ((hasDerivAt_id (0 : ℝ)).add_const (z k / 2)).const_mul 2
    have h2 : HasDerivAt (fun t => F (Function.update z k t)) e (2 * (0 + z k / 2)) := by
      rwa [show 2 * (0 + z k / 2) = z k by ring]
    exact HasDerivAt.comp (0 : ℝ) h2 h1
  have hb := ((htrig y k).translate (y k / 2)).sub ((htrig x k).translate (x k / 2)) |>.bernstein
    (M := C * ∑ l, c l * |y l - x l|) (fun s => ?_) ((line hd').sub (line hd))
  · rw [← sub_mul, abs_mul, abs_two] at hb
    push_cast at hb
    linarith
  · refine (hlip _ _).trans (le_of_eq ?_)
    congr 1
    refine sum_congr rfl fun l _ => ?_
    by_cases h : l = k
    · subst h
      rw [Function.update_self, Function.update_self]
      congr 2; ring
    · rw [Function.update_of_ne h, Function.update_of_ne h]

theorem hasDerivAt_partial (hF : Differentiable ℝ F) (x : Fin m → ℝ) (k : Fin m) :
    HasDerivAt (fun t => F (Function.update x k t)) (fderiv ℝ F x (Pi.single k 1)) (x k) := by
  have h := (hF (Function.update x k (x k))).hasFDerivAt.comp_hasDerivAt (x k) (hasDerivAt_update x k (x k))
  rwa [Function.update_eq_self] at h

theorem hasDerivAt_line (hF : Differentiable ℝ F) (x D : Fin m → ℝ) (s : ℝ) :
    HasDerivAt (fun s => F fun k => x k - s * D k) (-∑ k, D k * fderiv ℝ F (fun k => x k - s * D k) (Pi.single k 1)) s := by
  have h1 : HasDerivAt (fun s : ℝ => fun k => x k - s * D k) (fun k => -D k) s := by
    rw [hasDerivAt_pi]
    intro k
    simpa using ((hasDerivAt_id s).mul_const (D k)).const_sub (x k)
  have h2 := (hF (fun k => x k - s * D k)).hasFDerivAt.comp_hasDerivAt s h1
  refine h2.congr_deriv ?_
  have : (fun k => -D k) = ∑ k, (-D k) • (Pi.single k (1 : ℝ) : Fin m → ℝ) := by
    funext j
    simp [Pi.single_apply]
  rw [this, map_sum, ← sum_neg_distrib]
  exact sum_congr rfl fun k _ => by rw [map_smul, smul_eq_mul]; ring

/-- The descent lemma with an explicit constant, for a step in any direction `d`. -/
theorem descent_along (hF : Differentiable ℝ F) (hC : 0 ≤ C) (hlip : ∀ x y, |F y - F x| ≤ C * ∑ l, c l * |y l - x l|)
    (htrig : ∀ x k, TrigPoly (2 * c k) fun t => F (Function.update x k (2 * t))) {x D : Fin m → ℝ}
    (hD : ∀ k, HasDerivAt (fun t => F (Function.update x k t)) (D k) (x k)) (d : Fin m → ℝ) {η : ℝ} (hη : 0 ≤ η) :
    F (fun k => x k - η * d k) ≤ F x - η * (∑ k, D k * d k) + C * (∑ k, (c k : ℝ) ^ 2) * η ^ 2 / 2 * ∑ k, d k ^ 2 := by
  set S := ∑ k, d k ^ 2 with hS
  set P := ∑ k, D k * d k with hP
  set L := C * ∑ k, (c k : ℝ) ^ 2 with hL
  have hder : ∀ s, HasDerivAt (fun s => F (fun k => x k - s * d k) + s * P - L * S / 2 * s ^ 2)
      (-∑ k, d k * fderiv ℝ F (fun k => x k - s * d k) (Pi.single k 1) + P - L * S / 2 * (2 * s)) s := fun s => by
    have h1 := (hasDerivAt_line hF x d s).add ((hasDerivAt_id s).mul_const P)
    have h2 := h1.sub ((hasDerivAt_pow 2 s).const_mul (L * S / 2))
    refine h2.congr_deriv ?_
    simp
  have hneg : ∀ s, 0 ≤ s → -∑ k, d k * fderiv ℝ F (fun k => x k - s * d k) (Pi.single k 1) + P - L * S / 2 * (2 * s) ≤ 0 := by
    intro s hs
    have h1 : ∀ k, -(d k * fderiv ℝ F (fun k => x k - s * d k) (Pi.single k 1)) + D k * d k
        ≤ |d k| * (c k * (C * ∑ l, c l * (s * |d l|))) := by
      intro k
      have h2 := partial_lip hlip htrig (hD k) (hasDerivAt_partial hF (fun k => x k - s * d k) k)
      have h3 : ∀ l, |x l - s * d l - x l| = s * |d l| := fun l => by
        rw [show x l - s * d l - x l = -(s * d l) by ring, abs_neg, abs_mul, abs_of_nonneg hs]
      simp only [h3] at h2
      have h4 := mul_le_mul_of_nonneg_left h2 (abs_nonneg (d k))
      rw [← abs_mul] at h4
      have h5 := neg_abs_le (d k * ((fderiv ℝ F fun k => x k - s * d k) (Pi.single k 1) - D k))
      nlinarith
    have h6 : -∑ k, d k * fderiv ℝ F (fun k => x k - s * d k) (Pi.single k 1) + P
        ≤ ∑ k, |d k| * (c k * (C * ∑ l, c l * (s * |d l|))) := by
      rw [hP, ← sum_neg_distrib, ← sum_add_distrib]
      exact sum_le_sum fun k _ => h1 k
    have h7 : ∑ k, |d k| * (c k * (C * ∑ l, c l * (s * |d l|))) = s * C * (∑ k, (c k : ℝ) * |d k|) ^ 2 := by
      have : ∑ l, (c l : ℝ) * (s * |d l|) = s * ∑ l, (c l : ℝ) * |d l| := by
        rw [mul_sum]; exact sum_congr rfl fun l _ => by ring
      rw [this]
      generalize hA : ∑ l, (c l : ℝ) * |d l| = A
      have : ∀ k, |d k| * (c k * (C * (s * A))) = s * C * A * (c k * |d k|) := fun k => by ring
      rw [sum_congr rfl fun k _ => this k, ← mul_sum, hA]
      ring
    have h8 : (∑ k, (c k : ℝ) * |d k|) ^ 2 ≤ (∑ k, (c k : ℝ) ^ 2) * S := by
      have := sum_mul_sq_le_sq_mul_sq univ (fun k => (c k : ℝ)) fun k => |d k|
      simpa [sq_abs] using this
    have h9 := mul_le_mul_of_nonneg_left h8 (mul_nonneg hs hC)
    have h10 : s * C * ((∑ k, (c k : ℝ) ^ 2) * S) = L * S / 2 * (2 * s) := by rw [hL]; ring
    linarith
  have hanti : AntitoneOn (fun s => F (fun k => x k - s * d k) + s * P - L * S / 2 * s ^ 2) (Set.Ici 0) := by
    refine antitoneOn_of_deriv_nonpos (convex_Ici 0) (fun s _ => (hder s).continuousAt.continuousWithinAt)
      (fun s _ => (hder s).differentiableAt.differentiableWithinAt) fun s hs => ?_
    rw [interior_Ici] at hs
    rw [(hder s).deriv]
    exact hneg s (le_of_lt hs)
  have := hanti (Set.mem_Ici.2 le_rfl) (Set.mem_Ici.2 hη) hη
  simp only [zero_mul, sub_zero, add_zero, ne_eq, OfNat.ofNat_ne_zero, not_false_eq_true, zero_pow, mul_zero] at this
  have e : F x - η * P + L * η ^ 2 / 2 * S = F x - η * P + L * S / 2 * η ^ 2 := by ring
  linarith

/-- The descent lemma with an explicit constant. -/
theorem descent (hF : Differentiable ℝ F) (hC : 0 ≤ C) (hlip : ∀ x y, |F y - F x| ≤ C * ∑ l, c l * |y l - x l|)
    (htrig : ∀ x k, TrigPoly (2 * c k) fun t => F (Function.update x k (2 * t))) {x D : Fin m → ℝ}
    (hD : ∀ k, HasDerivAt (fun t => F (Function.update x k t)) (D k) (x k)) {η : ℝ} (hη : 0 ≤ η) :
    F (fun k => x k - η * D k) ≤ F x - η * (1 - C * (∑ k, (c k : ℝ) ^ 2) * η / 2) * ∑ k, D k ^ 2 := by
  have h := descent_along hF hC hlip htrig hD D hη
  simp only [← pow_two] at h
  linarith

/-- A bounded sequence that decreases by at least `a s_t` in step `t` has small `s_t` among its first `T` steps. -/
theorem small_step {e s : ℕ → ℝ} {a lo : ℝ} (ha : 0 < a) (hs : ∀ t, e (t + 1) ≤ e t - a * s t) (hlo : ∀ t, lo ≤ e t) {T : ℕ}
    (hT : T ≠ 0) : ∃ t < T, s t ≤ (e 0 - lo) / (a * T) := by
  by_contra hno
  push Not at hno
  have hT' : (0 : ℝ) < T := by exact_mod_cast Nat.pos_of_ne_zero hT
  have key : ∀ U, U ≤ T → e U ≤ e 0 - U * ((e 0 - lo) / T) ∧ (U ≠ 0 → e U < e 0 - U * ((e 0 - lo) / T)) := by
    intro U
    induction U with
    | zero => intro _; simp
    | succ U ih =>
      intro hU
      have h1 := hs U
      have h2 := mul_lt_mul_of_pos_left (hno U (by omega)) ha
      have h3 : a * ((e 0 - lo) / (a * T)) = (e 0 - lo) / T := by field_simp
      have h4 := (ih (by omega)).1
      have : e (U + 1) < e 0 - ((U + 1 : ℕ) : ℝ) * ((e 0 - lo) / T) := by
        push_cast; linarith
      exact ⟨this.le, fun _ => this⟩
  have h := (key T le_rfl).2 hT
  rw [mul_div_cancel₀ _ hT'.ne'] at h
  linarith [hlo T]

end Verif
