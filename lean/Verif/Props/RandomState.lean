import Verif.SpecShots
import Verif.Props.States
import Verif.Lemmas.Shots
import Mathlib.MeasureTheory.Constructions.Pi
import Mathlib.Probability.Independence.Basic
import Mathlib.Analysis.SpecialFunctions.Log.Basic

/-!
# C95: which states `random_state` can return

`random_state` draws its moduli and its phases with the same key, so the phases are functions of the moduli.  All moduli occur, and on
average all basis states are equally likely; but whole regions of states are never returned.
-/

set_option autoImplicit false

namespace Verif
open NDArray MeasureTheory ProbabilityTheory

variable {n : ℕ}

/-- The numbers drawn by `random_state` on `n` qubits: `2^n` numbers of the open unit interval. -/
def Draws (n : ℕ) (u : List ℝ) : Prop := u.length = 2 ^ n ∧ ∀ x ∈ u, 0 < x ∧ x < 1

/-- The number drawn for the amplitude of a basis label. -/
noncomputable def drawAt (u : List ℝ) (b : Lab n) : ℝ := u.getD (binVal b.bits) 0

theorem getD_lt {α : Type} (l : List α) (d : α) {i : ℕ} (h : i < l.length) : l.getD i d = l[i] := by
  rw [List.getD, List.getElem?_eq_getElem h, Option.getD_some]

theorem Draws.at_mem {u : List ℝ} (h : Draws n u) (b : Lab n) : 0 < drawAt u b ∧ drawAt u b < 1 := by
  have hb : binVal b.bits < u.length := by rw [h.1]; exact b.isBits_bits.lt
  rw [drawAt, getD_lt _ _ hb]
  exact h.2 _ (List.getElem_mem hb)

theorem sum_draws {u : List ℝ} (hl : u.length = 2 ^ n) (f : ℝ → ℝ) : ∑ b : Lab n, f (drawAt u b) = (u.map f).sum := by
  rw [← (numEquiv n).symm.sum_comp]
  have : ∀ i : Fin (2 ^ n), f (drawAt u ((numEquiv n).symm i)) = f (u.getD i 0) := fun i => by
    rw [drawAt, ← numEquiv_val, Equiv.apply_symm_apply]
  rw [Finset.sum_congr rfl fun i _ => this i, Finset.sum_fin_eq_sum_range, ← hl]
  clear this hl
  induction u with
  | nil => rfl
  | cons x xs ih =>
    rw [List.map_cons, List.sum_cons, ← ih, List.length_cons, Finset.sum_range_succ', add_comm]
    simp

/-- The amplitudes of `random_state`. -/
theorem random_ket {u : List ℝ} (h : Draws n u) : ∃ a, randomState n u = .ok a ∧ IsKet n a ∧ ∀ b : Lab n,
    ket n a b = ((Real.sqrt (-Real.log (drawAt u b) / ∑ x : Lab n, -Real.log (drawAt u x)) : ℝ) : ℂ)
      * Complex.exp (((2 * Real.pi * drawAt u b : ℝ) : ℂ) * Complex.I) := by
  obtain ⟨hl, hu⟩ := h
  have hlog : ∀ x ∈ u, 0 < -Real.log x := fun x hx => by have := Real.log_neg (hu x hx).1 (hu x hx).2; linarith
  have hne : u ≠ [] := by
    rintro rfl; exact absurd hl.symm (by simp)
  rw [sum_draws hl fun v => -Real.log v]
  obtain ⟨S, hS⟩ : ∃ S, S = (u.map fun v => -Real.log v).sum := ⟨_, rfl⟩
  have hSp : 0 < S := by
    rw [hS]; refine sum_pos_of_pos ?_ (by simpa using hne)
    simp only [List.mem_map]; rintro x ⟨v, hv, rfl⟩; exact hlog v hv
  obtain ⟨D, hD⟩ : ∃ D, D = List.zipWith (fun (a p : ℝ) => (Real.sqrt (a / S) : ℂ) * Complex.exp (Complex.I * (p : ℂ)))
    (u.map fun v => -Real.log v) (u.map fun v => v * 2 * Real.pi) := ⟨_, rfl⟩
  have hDl : D.length = 2 ^ n := by simp [hD, hl]
  have hDn : (D.map fun z => ‖z‖ ^ 2).sum = 1 := by
    rw [hD, List.zipWith_map, List.zipWith_self, List.map_map]
    have : (u.map ((fun z : ℂ => ‖z‖ ^ 2) ∘ fun v => (Real.sqrt (-Real.log v / S) : ℂ) * Complex.exp (Complex.I * ((v * 2 * Real.pi : ℝ) : ℂ))))
        = u.map fun v => -Real.log v * (1 / S) := by
      refine List.map_congr_left fun v hv => ?_
      simp only [Function.comp_apply]
      rw [norm_mul, mul_comm Complex.I, Complex.norm_exp_ofReal_mul_I, mul_one, Complex.norm_real,
        Real.norm_of_nonneg (Real.sqrt_nonneg _), Real.sq_sqrt (div_nonneg (hlog v hv).le hSp.le), div_eq_mul_one_div]
    rw [this, List.sum_map_mul_right, ← hS, mul_one_div_cancel hSp.ne']
  have hr : randomState n u = .ok ⟨List.replicate n 2, D.map (· / ((Real.sqrt 1 : ℝ) : ℂ))⟩ := by
    simp only [randomState, ← hS, ← hD, reshape, prod_replicate_two, List.prod_cons, List.prod_nil, mul_one, if_true, bind,
      Except.bind, pure, Except.pure, hDn]
  have hk : IsKet n (⟨List.replicate n 2, D.map (· / ((Real.sqrt 1 : ℝ) : ℂ))⟩ : NDArray ℂ) := ⟨rfl, by simp [NDArray.WF, hDl]⟩
  refine ⟨_, hr, hk, fun b => ?_⟩
  have hb : binVal b.bits < 2 ^ n := b.isBits_bits.lt
  have hrav : ravel (List.replicate n 2) b.bits = binVal b.bits := by
    have := ravel_replicate_two (idx := b.bits)
    rwa [b.isBits_bits.1] at this
  rw [← hS, ket, NDArray.get]
  simp only [hrav, Real.sqrt_one, Complex.ofReal_one, div_one, List.map_id']
  rw [getD_lt _ _ (by rw [hDl]; exact hb)]
  have hu' : drawAt u b = u[binVal b.bits]'(by rw [hl]; exact hb) := by rw [drawAt, getD_lt _ _ (by rw [hl]; exact hb)]
  simp only [hD, List.getElem_zipWith, List.getElem_map, ← hu']
  rw [mul_comm Complex.I, mul_comm (drawAt u b) 2, mul_right_comm]

/-- The logarithm of a number at least `1/4` below another one is at least twice as large in modulus. -/
theorem log_gap {p q : ℝ} (hp : 0 < p) (hq : q < 1) (h : p + 1 / 4 ≤ q) : 2 * (-Real.log q) ≤ -Real.log p := by
  have hq0 : 0 < q := by linarith
  have h1 : p ≤ q ^ 2 := by nlinarith [sq_nonneg (q - 1 / 2)]
  have h2 := Real.log_le_log hp h1
  rw [Real.log_pow] at h2
  push_cast at h2
  linarith

theorem sqrt_gap {s t : ℝ} (hs : 0 ≤ s) (h : 2 * s ≤ t) : 2 * (Real.sqrt s * Real.sqrt t) ≤ 2 * Real.sqrt 2 / 3 * (s + t) := by
  have ht : 0 ≤ t := by linarith
  have hr := Real.sqrt_nonneg 2
  rw [← Real.sqrt_mul hs]
  have h2 : Real.sqrt 2 ^ 2 = 2 := Real.sq_sqrt (by norm_num)
  have key : Real.sqrt (s * t) ≤ Real.sqrt 2 / 3 * (s + t) := by
    refine (Real.sqrt_le_left (by positivity)).2 ?_
    rw [mul_pow, div_pow, h2]
    nlinarith [mul_nonneg hs (by linarith : 0 ≤ t - 2 * s), mul_nonneg ht (by linarith : 0 ≤ t - 2 * s)]
  linarith

/-- **C95** (states that are never returned): whatever numbers are drawn, the state returned by `random_state` has a probability of at most
`(1 + 2√2/3)/2 < 0.972` to be found in `(|x⟩ - |y⟩)/√2`, for any two basis labels. -/
theorem C95_gap {u : List ℝ} (h : Draws n u) {x y : Lab n} (hxy : x ≠ y) :
    ∃ a, randomState n u = .ok a ∧ ‖(ket n a x - ket n a y) / Real.sqrt 2‖ ^ 2 ≤ (1 + 2 * Real.sqrt 2 / 3) / 2 ∧
      (1 + 2 * Real.sqrt 2 / 3) / 2 < 0.972 := by
  obtain ⟨a, h1, h2, h3⟩ := random_ket h
  refine ⟨a, h1, ?_, ?_⟩
  · have hpos : ∀ b : Lab n, 0 < -Real.log (drawAt u b) := fun b => by
      have := Real.log_neg (h.at_mem b).1 (h.at_mem b).2; linarith
    obtain ⟨S, hS⟩ : ∃ S, S = ∑ b : Lab n, -Real.log (drawAt u b) := ⟨_, rfl⟩
    have hS2 : -Real.log (drawAt u x) + -Real.log (drawAt u y) ≤ S := by
      rw [hS, ← Finset.sum_pair (f := fun b => -Real.log (drawAt u b)) hxy]
      exact Finset.sum_le_sum_of_subset_of_nonneg (Finset.subset_univ _) fun b _ _ => (hpos b).le
    have hSp : 0 < S := by linarith [hpos x, hpos y]
    have hx := h3 x
    have hy := h3 y
    rw [← hS] at hx hy
    have hs0 : 0 ≤ -Real.log (drawAt u x) / S := div_nonneg (hpos x).le hSp.le
    have ht0 : 0 ≤ -Real.log (drawAt u y) / S := div_nonneg (hpos y).le hSp.le
    have hsum : -Real.log (drawAt u x) / S + -Real.log (drawAt u y) / S ≤ 1 := by rw [← add_div]; exact (div_le_one hSp).2 hS2
    have hgap : drawAt u x + 1 / 4 ≤ drawAt u y ∨ drawAt u y + 1 / 4 ≤ drawAt u x →
        2 * (Real.sqrt (-Real.log (drawAt u x) / S) * Real.sqrt (-Real.log (drawAt u y) / S)) ≤ 2 * Real.sqrt 2 / 3 := by
      have hone : 2 * Real.sqrt 2 / 3 * (-Real.log (drawAt u x) / S + -Real.log (drawAt u y) / S) ≤ 2 * Real.sqrt 2 / 3 :=
        mul_le_of_le_one_right (by positivity) hsum
      rintro (hg | hg)
      · have := log_gap (h.at_mem x).1 (h.at_mem y).2 hg
        have := sqrt_gap ht0 (t := -Real.log (drawAt u x) / S) (by rw [← mul_div_assoc]; exact div_le_div_of_nonneg_right this hSp.le)
        rw [mul_comm (Real.sqrt _), add_comm] at this
        exact this.trans hone
      · have := log_gap (h.at_mem y).1 (h.at_mem x).2 hg
        have := sqrt_gap hs0 (t := -Real.log (drawAt u y) / S) (by rw [← mul_div_assoc]; exact div_le_div_of_nonneg_right this hSp.le)
        exact this.trans hone
    generalize -Real.log (drawAt u x) / S = s at *
    generalize -Real.log (drawAt u y) / S = t at *
    generalize drawAt u x = p at *
    generalize drawAt u y = q at *
    have hn : ‖(ket n a x - ket n a y) / Real.sqrt 2‖ ^ 2
        = (s + t - 2 * (Real.sqrt s * Real.sqrt t) * Real.cos (2 * Real.pi * p - 2 * Real.pi * q)) / 2 := by
      rw [norm_div, div_pow, Complex.norm_real, Real.norm_of_nonneg (Real.sqrt_nonneg _), Real.sq_sqrt (by norm_num), hx, hy,
        ← Complex.normSq_eq_norm_sq, Complex.normSq_apply]
      simp only [Complex.sub_re, Complex.sub_im, Complex.re_ofReal_mul, Complex.im_ofReal_mul, Complex.exp_ofReal_mul_I_re,
        Complex.exp_ofReal_mul_I_im]
      rw [Real.cos_sub]
      have e1 := Real.sq_sqrt hs0
      have e2 := Real.sq_sqrt ht0
      have e3 := Real.sin_sq_add_cos_sq (2 * Real.pi * p)
      have e4 := Real.sin_sq_add_cos_sq (2 * Real.pi * q)
      congr 1
      linear_combination (Real.sin (2 * Real.pi * p) ^ 2 + Real.cos (2 * Real.pi * p) ^ 2) * e1
        + (Real.sin (2 * Real.pi * q) ^ 2 + Real.cos (2 * Real.pi * q) ^ 2) * e2 + s * e3 + t * e4
    rw [hn]
    have hst : 0 ≤ Real.sqrt s * Real.sqrt t := by positivity
    have hpi := Real.pi_pos
    by_cases hg : p + 1 / 4 ≤ q ∨ q + 1 / 4 ≤ p
    · have := hgap hg
      have hc := Real.neg_one_le_cos (2 * Real.pi * p - 2 * Real.pi * q)
      nlinarith
    · push Not at hg
      have hc : 0 ≤ Real.cos (2 * Real.pi * p - 2 * Real.pi * q) := by
        refine Real.cos_nonneg_of_mem_Icc ⟨?_, ?_⟩
        · nlinarith [hg.1]
        · nlinarith [hg.2]
      have : 0 ≤ Real.sqrt 2 := Real.sqrt_nonneg 2
      nlinarith [mul_nonneg hst hc]
  · have : Real.sqrt 2 < 1.4159 := by
      rw [Real.sqrt_lt' (by norm_num)]; norm_num
    linarith

/-- **C95 is false of the code**: there is a normalised state such that `random_state` never returns a state near it, not even up to
a global phase. -/
theorem C95_random_false : ¬ ∀ (n : ℕ) (ψ : Lab n → ℂ), ∑ b, ‖ψ b‖ ^ 2 = 1 → ∀ ε > 0, ∃ u a, Draws n u ∧
    randomState n u = .ok a ∧ ∃ φ : ℝ, ∀ b, ‖ket n a b - Complex.exp (φ * Complex.I) * ψ b‖ < ε := by
  intro H
  have h2 : (0 : ℝ) < Real.sqrt 2 := by positivity
  have hs : Real.sqrt 2 ^ 2 = 2 := Real.sq_sqrt (by norm_num)
  obtain ⟨u, a, hu, ha, φ, h⟩ := H 1 (fun b => if b 0 = 0 then ((1 / Real.sqrt 2 : ℝ) : ℂ) else -((1 / Real.sqrt 2 : ℝ) : ℂ))
    (by
      rw [sum_lab1]
      simp only [lab1, if_true, if_neg (show ¬ (1 : Fin 2) = 0 by decide), norm_neg, Complex.norm_real, Real.norm_of_nonneg (show 0 ≤ 1 / Real.sqrt 2 by positivity), div_pow, hs]
      norm_num) 0.001 (by norm_num)
  obtain ⟨a', h1, h3, h4⟩ := C95_gap hu (x := lab1 0) (y := lab1 1) (by intro h; simpa [lab1] using congrFun h 0)
  obtain rfl : a = a' := by rw [ha] at h1; cases h1; rfl
  have e0 := h (lab1 0)
  have e1 := h (lab1 1)
  simp only [lab1, if_true, if_neg (show ¬ (1 : Fin 2) = 0 by decide)] at e0 e1
  rw [norm_div, div_pow, Complex.norm_real, Real.norm_of_nonneg h2.le, hs] at h3
  have hv : ket 1 a (lab1 0) - ket 1 a (lab1 1) = Complex.exp (φ * Complex.I) * ((Real.sqrt 2 : ℝ) : ℂ)
      + ((ket 1 a (lab1 0) - Complex.exp (φ * Complex.I) * ((1 / Real.sqrt 2 : ℝ) : ℂ))
        - (ket 1 a (lab1 1) - Complex.exp (φ * Complex.I) * -((1 / Real.sqrt 2 : ℝ) : ℂ))) := by
    have : ((Real.sqrt 2 : ℝ) : ℂ) = 2 * ((1 / Real.sqrt 2 : ℝ) : ℂ) := by
      have : Real.sqrt 2 = 2 * (1 / Real.sqrt 2) := by field_simp; linarith
      exact_mod_cast this
    rw [this]
    ring
  have hlow : Real.sqrt 2 - 0.002 ≤ ‖ket 1 a (lab1 0) - ket 1 a (lab1 1)‖ := by
    have t1 := norm_sub_le (ket 1 a (lab1 0) - Complex.exp (φ * Complex.I) * ((1 / Real.sqrt 2 : ℝ) : ℂ))
      (ket 1 a (lab1 1) - Complex.exp (φ * Complex.I) * -((1 / Real.sqrt 2 : ℝ) : ℂ))
    have t2 := norm_sub_norm_le (Complex.exp (φ * Complex.I) * ((Real.sqrt 2 : ℝ) : ℂ))
      (-((ket 1 a (lab1 0) - Complex.exp (φ * Complex.I) * ((1 / Real.sqrt 2 : ℝ) : ℂ))
        - (ket 1 a (lab1 1) - Complex.exp (φ * Complex.I) * -((1 / Real.sqrt 2 : ℝ) : ℂ))))
    rw [sub_neg_eq_add, ← hv, norm_neg, norm_mul, Complex.norm_exp_ofReal_mul_I, one_mul, Complex.norm_real,
      Real.norm_of_nonneg h2.le] at t2
    have e0' : ‖ket 1 a (lab1 0) - Complex.exp (φ * Complex.I) * ((1 / Real.sqrt 2 : ℝ) : ℂ)‖ < 0.001 := e0
    have e1' : ‖ket 1 a (lab1 1) - Complex.exp (φ * Complex.I) * -((1 / Real.sqrt 2 : ℝ) : ℂ)‖ < 0.001 := e1
    linarith
  have hlo : 1.4142 ≤ Real.sqrt 2 := Real.le_sqrt_of_sq_le (by norm_num)
  nlinarith

/-- **C95** (moduli): every list of positive probabilities of the basis states occurs. -/
theorem C95_moduli_partial {m : Lab n → ℝ} (hm : ∀ b, 0 < m b) (h1 : ∑ b, m b = 1) :
    ∃ u a, Draws n u ∧ randomState n u = .ok a ∧ ∀ b, ‖ket n a b‖ ^ 2 = m b := by
  have hD : ∀ b : Lab n, drawAt (List.ofFn fun i => Real.exp (-m ((numEquiv n).symm i))) b = Real.exp (-m b) := fun b => by
    rw [drawAt, getD_lt _ _ (by rw [List.length_ofFn]; exact b.isBits_bits.lt), List.getElem_ofFn]
    congr 3
    exact (Equiv.symm_apply_eq _).2 (Fin.ext rfl)
  have hu : Draws n (List.ofFn fun i => Real.exp (-m ((numEquiv n).symm i))) := by
    refine ⟨by simp, fun x hx => ?_⟩
    obtain ⟨i, rfl⟩ := List.mem_ofFn.1 hx
    exact ⟨Real.exp_pos _, by rw [Real.exp_lt_one_iff]; linarith [hm ((numEquiv n).symm i)]⟩
  obtain ⟨a, h2, -, h3⟩ := random_ket hu
  refine ⟨_, a, hu, h2, fun b => ?_⟩
  simp only [hD, Real.log_exp, neg_neg, h1, div_one] at h3
  rw [h3, norm_mul, Complex.norm_exp_ofReal_mul_I, mul_one, Complex.norm_real, Real.norm_of_nonneg (Real.sqrt_nonneg _),
    Real.sq_sqrt (hm b).le]

/-- **C95** (equal moduli): if all amplitudes of the returned state have the same modulus, it is `uniform_state` up to a global phase. -/
theorem C95_equal_moduli {u : List ℝ} (h : Draws n u) : ∃ a, randomState n u = .ok a ∧
    ((∀ x y, ‖ket n a x‖ = ‖ket n a y‖) → ∃ φ : ℝ, ∀ b, ket n a b = Complex.exp (φ * Complex.I) / Real.sqrt (2 ^ n)) := by
  obtain ⟨a, h1, h2, h3⟩ := random_ket h
  refine ⟨a, h1, fun he => ?_⟩
  have hpos : ∀ b : Lab n, 0 < -Real.log (drawAt u b) := fun b => by
    have := Real.log_neg (h.at_mem b).1 (h.at_mem b).2; linarith
  have hS : 0 < ∑ b : Lab n, -Real.log (drawAt u b) := Finset.sum_pos (fun b _ => hpos b) ⟨fun _ => 0, Finset.mem_univ _⟩
  have hn : ∀ b, ‖ket n a b‖ ^ 2 = -Real.log (drawAt u b) / ∑ x : Lab n, -Real.log (drawAt u x) := fun b => by
    rw [h3, norm_mul, Complex.norm_exp_ofReal_mul_I, mul_one, Complex.norm_real, Real.norm_of_nonneg (Real.sqrt_nonneg _),
      Real.sq_sqrt (div_nonneg (hpos b).le hS.le)]
  have hd : ∀ b : Lab n, drawAt u b = drawAt u (fun _ : Fin n => (0 : Fin 2)) := fun b => by
    have e := hn b
    rw [he b fun _ => 0, hn, div_left_inj' hS.ne', neg_inj] at e
    exact (Real.log_injOn_pos (h.at_mem _).1 (h.at_mem _).1 e).symm
  refine ⟨2 * Real.pi * drawAt u (fun _ : Fin n => (0 : Fin 2)), fun b => ?_⟩
  have hl := hpos fun _ => 0
  rw [h3]
  simp only [hd]
  rw [Finset.sum_const, Finset.card_univ, nsmul_eq_mul, div_mul_eq_div_div_swap, div_self hl.ne']
  simp only [Lab, Fintype.card_fun, Fintype.card_fin, Nat.cast_pow, Nat.cast_ofNat]
  rw [one_div, Real.sqrt_inv]
  push_cast
  rw [div_eq_mul_inv, mul_comm]

theorem unit_ae : ∀ᵐ x : ℝ ∂(volume.restrict (Set.Ico 0 1)), 0 < x ∧ x < 1 := by
  have h0 : ∀ᵐ x : ℝ ∂(volume.restrict (Set.Ico 0 1)), x ≠ 0 := by
    rw [ae_iff]
    simp
  filter_upwards [h0, ae_restrict_mem measurableSet_Ico] with x h1 h2
  exact ⟨lt_of_le_of_ne h2.1 (Ne.symm h1), h2.2⟩

/-- The probability of the `i`-th basis state as a function of the numbers drawn. -/
noncomputable def share {N : ℕ} (i : Fin N) (v : Fin N → ℝ) : ℝ := -Real.log (v i) / ∑ j, -Real.log (v j)

theorem share_measurable {N : ℕ} (i : Fin N) : Measurable (share i) :=
  ((Real.measurable_log.comp (measurable_pi_apply i)).neg).div
    (Finset.measurable_sum _ fun j _ => (Real.measurable_log.comp (measurable_pi_apply j)).neg)

/-- **C95** (averages): for independent uniform draws every basis state has on average the probability `1 / 2^n`, as for a uniformly
distributed state vector. -/
theorem C95_mean {Ω : Type} [MeasurableSpace Ω] {μ : Measure Ω} {U : Ω → Fin (2 ^ n) → ℝ} (hU : IndepUniform μ U) :
    (∀ᵐ ω ∂μ, Draws n (List.ofFn (U ω))) ∧ ∀ out : Ω → NDArray ℂ,
      (∀ᵐ ω ∂μ, randomState n (List.ofFn (U ω)) = .ok (out ω)) → ∀ b : Lab n, ∫ ω, ‖ket n (out ω) b‖ ^ 2 ∂μ = 1 / 2 ^ n := by
  have hN : 0 < 2 ^ n := by positivity
  have hin : ∀ᵐ ω ∂μ, ∀ j, 0 < U ω j ∧ U ω j < 1 := ae_all_iff.2 fun j => (hU.uniform j).quasiMeasurePreserving.ae unit_ae
  have hDr : ∀ᵐ ω ∂μ, Draws n (List.ofFn (U ω)) := by
    filter_upwards [hin] with ω h
    refine ⟨by simp, fun x hx => ?_⟩
    obtain ⟨j, rfl⟩ := List.mem_ofFn.1 hx
    exact h j
  refine ⟨hDr, fun out hout b => ?_⟩
  have hP : IsProbabilityMeasure μ := by
    have := (hU.uniform ⟨0, hN⟩).map_eq
    constructor
    rw [← Set.preimage_univ (f := fun ω => U ω ⟨0, hN⟩), ← Measure.map_apply (hU.uniform _).measurable MeasurableSet.univ, this]
    simp
  have hpi : μ.map U = Measure.pi fun _ : Fin (2 ^ n) => volume.restrict (Set.Ico (0 : ℝ) 1) := by
    have := (iIndepFun_iff_map_fun_eq_pi_map fun j => (hU.uniform j).measurable.aemeasurable).1 hU.indep
    rw [show (fun ω i => U ω i) = U from rfl] at this
    rw [this]
    exact congrArg _ (funext fun j => (hU.uniform j).map_eq)
  have hUm : Measurable U := measurable_pi_iff.2 fun j => (hU.uniform j).measurable
  have hsw : ∀ i k : Fin (2 ^ n), ∫ ω, share i (U ω) ∂μ = ∫ ω, share k (U ω) ∂μ := by
    intro i k
    have hi : ∀ i, ∫ ω, share i (U ω) ∂μ = ∫ v, share i v ∂(μ.map U) := fun i =>
      (integral_map hUm.aemeasurable (share_measurable i).aestronglyMeasurable).symm
    rw [hi, hi, hpi]
    have hmp := measurePreserving_piCongrLeft (α := fun _ : Fin (2 ^ n) => ℝ)
      (fun _ : Fin (2 ^ n) => volume.restrict (Set.Ico (0 : ℝ) 1)) (Equiv.swap i k)
    rw [← hmp.integral_comp' (share i)]
    refine integral_congr_ae (.of_forall fun v => ?_)
    have hv : ∀ j, (MeasurableEquiv.piCongrLeft (fun _ : Fin (2 ^ n) => ℝ) (Equiv.swap i k)) v j = v (Equiv.swap i k j) := fun j => by
      conv_lhs => rw [← Equiv.swap_apply_self i k j]
      rw [MeasurableEquiv.coe_piCongrLeft]
      have := Equiv.piCongrLeft_apply_apply (fun _ : Fin (2 ^ n) => ℝ) (Equiv.swap i k) v (Equiv.swap i k j)
      simpa using this
    simp only [share, hv, Equiv.swap_apply_left]
    rw [Equiv.sum_comp (Equiv.swap i k) fun j => -Real.log (v j)]
  have hpos : ∀ᵐ ω ∂μ, ∀ j, 0 < -Real.log (U ω j) := by
    filter_upwards [hin] with ω h j
    have := Real.log_neg (h j).1 (h j).2
    linarith
  have hS : ∀ᵐ ω ∂μ, 0 < ∑ j, -Real.log (U ω j) := by
    filter_upwards [hpos] with ω h
    exact Finset.sum_pos (fun j _ => h j) ⟨⟨0, hN⟩, Finset.mem_univ _⟩
  have hint : ∀ i, Integrable (fun ω => share i (U ω)) μ := fun i => by
    refine Integrable.of_bound ((share_measurable i).comp hUm).aestronglyMeasurable 1 ?_
    filter_upwards [hpos, hS] with ω h1 h2
    rw [share, Real.norm_of_nonneg (div_nonneg (h1 i).le h2.le)]
    exact (div_le_one h2).2 (Finset.single_le_sum (f := fun j => -Real.log (U ω j)) (fun j _ => (h1 j).le) (Finset.mem_univ i))
  have hsum : ∑ i, ∫ ω, share i (U ω) ∂μ = 1 := by
    rw [← integral_finsetSum _ fun i _ => hint i]
    have : ∫ ω, ∑ i, share i (U ω) ∂μ = ∫ _, (1 : ℝ) ∂μ := by
      refine integral_congr_ae ?_
      filter_upwards [hS] with ω h
      simp only [share]
      rw [← Finset.sum_div, div_self h.ne']
    rw [this]
    simp
  have hval : ∀ i, ∫ ω, share i (U ω) ∂μ = 1 / 2 ^ n := fun i => by
    rw [Finset.sum_congr rfl fun j _ => hsw j i, Finset.sum_const, Finset.card_univ, Fintype.card_fin, nsmul_eq_mul] at hsum
    push_cast at hsum
    rw [eq_div_iff (by positivity), mul_comm]
    exact hsum
  rw [← hval (numEquiv n b)]
  refine integral_congr_ae ?_
  filter_upwards [hDr, hout, hpos, hS] with ω h1 h2 h3 h4
  obtain ⟨a, e1, -, e3⟩ := random_ket h1
  obtain rfl : out ω = a := by rw [e1] at h2; cases h2; rfl
  have hd : ∀ x : Lab n, drawAt (List.ofFn (U ω)) x = U ω (numEquiv n x) := fun x => by
    rw [drawAt, getD_lt _ _ (by rw [List.length_ofFn]; exact x.isBits_bits.lt), List.getElem_ofFn]
    rfl
  rw [e3]
  simp only [hd]
  rw [(numEquiv n).sum_comp fun j => -Real.log (U ω j), norm_mul, Complex.norm_exp_ofReal_mul_I, mul_one, Complex.norm_real,
    Real.norm_of_nonneg (Real.sqrt_nonneg _), Real.sq_sqrt (div_nonneg (h3 _).le h4.le)]
  rfl

/-- Non-vacuity: two draws for one qubit, and the two basis labels. -/
example : Draws 1 [1 / 2, 1 / 3] ∧ lab1 0 ≠ lab1 1 := by
  refine ⟨⟨rfl, fun x hx => ?_⟩, by intro h; simpa [lab1] using congrFun h 0⟩
  simp only [List.mem_cons, List.not_mem_nil, or_false] at hx
  rcases hx with rfl | rfl <;> norm_num

/-- Non-vacuity of `C95_moduli_partial` and `C95_equal_moduli`: equal draws give equal moduli. -/
example : ∃ u a, Draws 2 u ∧ randomState 2 u = .ok a ∧ ∀ b, ‖ket 2 a b‖ ^ 2 = 1 / 4 :=
  C95_moduli_partial (n := 2) (m := fun _ => 1 / 4) (fun _ => by norm_num) (by simp [Lab])

end Verif
