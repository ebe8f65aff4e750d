import Verif.SpecShift
import Verif.Lemmas.Spectrum

/-! # Sums of waves and the generalised parameter-shift rule -/

set_option autoImplicit false

namespace Verif

/-- A wave of frequency `g / 2`. -/
theorem wave_diff (z : ℂ) (g x δ : ℝ) :
    (z * Complex.exp (((x + δ) * g / 2 : ℝ) * Complex.I)).re - (z * Complex.exp (((x - δ) * g / 2 : ℝ) * Complex.I)).re
      = -2 * Real.sin (δ * g / 2) * (z * Complex.exp ((x * g / 2 : ℝ) * Complex.I)).im := by
  rw [show (x + δ) * g / 2 = x * g / 2 + δ * g / 2 by ring, show (x - δ) * g / 2 = x * g / 2 - δ * g / 2 by ring]
  simp only [Complex.mul_re, Complex.mul_im, Complex.exp_ofReal_mul_I_re, Complex.exp_ofReal_mul_I_im, Real.cos_add, Real.sin_add,
    Real.cos_sub, Real.sin_sub]
  ring

theorem wave_deriv (z : ℂ) (g x : ℝ) : HasDerivAt (fun x : ℝ => (z * Complex.exp ((x * g / 2 : ℝ) * Complex.I)).re)
    (-(g / 2) * (z * Complex.exp ((x * g / 2 : ℝ) * Complex.I)).im) x := by
  have h0 : HasDerivAt (fun x : ℝ => x * g / 2) (g / 2) x := by
    simpa using ((hasDerivAt_id x).mul_const g).div_const 2
  have h1 := ((h0.cos.const_mul z.re).sub (h0.sin.const_mul z.im))
  have e : (fun x : ℝ => (z * Complex.exp ((x * g / 2 : ℝ) * Complex.I)).re)
      = fun x => z.re * Real.cos (x * g / 2) - z.im * Real.sin (x * g / 2) := by
    funext y; simp only [Complex.mul_re, Complex.exp_ofReal_mul_I_re, Complex.exp_ofReal_mul_I_im]
  rw [e]
  refine h1.congr_deriv ?_
  simp only [Complex.mul_im, Complex.exp_ofReal_mul_I_re, Complex.exp_ofReal_mul_I_im]
  ring

/-- A sum of waves whose gaps are, up to sign, among the `Δ s` has numbers `R` that solve the system for all shifts and give
the derivative. -/
theorem gap_rule {ι : Type} [Fintype ι] {S : ℕ} {f : ℝ → ℝ} (z : ι → ℂ) (g : ι → ℝ)
    (hf : ∀ x, f x = ∑ p, (z p * Complex.exp ((x * g p / 2 : ℝ) * Complex.I)).re) (Δ : Fin S → ℝ)
    (hg : ∀ p, g p = 0 ∨ ∃ s, g p = Δ s ∨ g p = -Δ s) (x : ℝ) :
    ∃ R : Fin S → ℝ, (∀ {M : ℕ} (δ : Fin M → ℝ), GapSystem f x Δ δ R) ∧ HasDerivAt f (∑ s, Δ s * R s) x := by
  classical
  have hc : ∀ p, ∃ c : Fin S → ℝ, (∀ t : ℝ, Real.sin (t * g p / 2) = ∑ s, Real.sin (t * Δ s / 2) * c s) ∧ g p = ∑ s, Δ s * c s := by
    intro p
    rcases hg p with h | ⟨s, h | h⟩
    · exact ⟨fun _ => 0, by simp [h], by simp [h]⟩
    · exact ⟨Pi.single s 1, by simp [h, Pi.single_apply], by simp [h, Pi.single_apply]⟩
    · refine ⟨Pi.single s (-1), fun t => ?_, by simp [h, Pi.single_apply]⟩
      have : t * g p / 2 = -(t * Δ s / 2) := by rw [h]; ring
      rw [this, Real.sin_neg]
      simp [Pi.single_apply]
  choose c hs hd using hc
  set w : ι → ℝ := fun p => (z p * Complex.exp ((x * g p / 2 : ℝ) * Complex.I)).im with hw
  refine ⟨fun s => ∑ p, -(1 / 2) * c p s * w p, fun δ j => ?_, ?_⟩
  · rw [hf, hf, ← Finset.sum_sub_distrib]
    simp only [wave_diff]
    simp only [hs, Finset.mul_sum, Finset.sum_mul]
    rw [Finset.sum_comm]
    refine Finset.sum_congr rfl fun s _ => Finset.sum_congr rfl fun p _ => ?_
    rw [hw]; ring
  · have h1 : HasDerivAt (fun x => ∑ p, (z p * Complex.exp ((x * g p / 2 : ℝ) * Complex.I)).re)
        (∑ p, -(g p / 2) * w p) x := HasDerivAt.fun_sum fun p _ => wave_deriv (z p) (g p) x
    have e : f = fun x => ∑ p, (z p * Complex.exp ((x * g p / 2 : ℝ) * Complex.I)).re := funext hf
    rw [e]
    refine h1.congr_deriv ?_
    simp only [Finset.mul_sum]
    rw [Finset.sum_comm]
    refine Finset.sum_congr rfl fun p _ => ?_
    conv_lhs => rw [hd p]
    rw [Finset.sum_div, ← Finset.sum_neg_distrib, Finset.sum_mul]
    exact Finset.sum_congr rfl fun s _ => by ring

/-- The rule for trigonometric polynomials in `c x`. -/
theorem TrigPoly.gap_rule {m : ℕ} {h : ℝ → ℝ} (hh : TrigPoly m h) {f : ℝ → ℝ} {c : ℝ} (hf : ∀ x, f x = h (c * x)) (x : ℝ) :
    ∃ R : Fin m → ℝ, (∀ {M : ℕ} (δ : Fin M → ℝ), GapSystem f x (fun s : Fin m => 2 * c * (s + 1)) δ R) ∧
      HasDerivAt f (∑ s : Fin m, 2 * c * (s + 1) * R s) x := by
  obtain ⟨a, b, hab⟩ := hh
  refine Verif.gap_rule (ι := Fin (m + 1)) (fun k => (a k : ℂ) - b k * Complex.I) (fun k => 2 * c * k) (fun x => ?_) _ (fun k => ?_) x
  · rw [hf, hab, Finset.sum_range]
    refine Finset.sum_congr rfl fun k _ => ?_
    rw [show x * (2 * c * (k : ℕ)) / 2 = (k : ℕ) * (c * x) by ring]
    simp only [Complex.mul_re, Complex.exp_ofReal_mul_I_re, Complex.exp_ofReal_mul_I_im, Complex.sub_re, Complex.sub_im,
      Complex.ofReal_re, Complex.ofReal_im, Complex.mul_im, Complex.I_re, Complex.I_im]
    ring
  · rcases Fin.eq_zero_or_eq_succ k with rfl | ⟨s, rfl⟩
    · left; simp
    · right; exact ⟨s, .inl (by simp)⟩

/-- With distinct shifts in half a period, every solution of the system gives the derivative. -/
theorem TrigPoly.gap_solution {m : ℕ} {h : ℝ → ℝ} (hh : TrigPoly m h) {f : ℝ → ℝ} {c : ℝ} (hc : 0 < c) (hf : ∀ x, f x = h (c * x))
    {x : ℝ} {δ R : Fin m → ℝ} (hδ : Function.Injective δ) (hr : ∀ j, 0 < δ j ∧ c * δ j < Real.pi)
    (hR : GapSystem f x (fun s : Fin m => 2 * c * (s + 1)) δ R) : HasDerivAt f (∑ s : Fin m, 2 * c * (s + 1) * R s) x := by
  obtain ⟨R', h1, h2⟩ := hh.gap_rule hf x
  refine h2.congr_deriv ?_
  set T : ℝ → ℝ := fun y => ∑ s : Fin m, (R' s - R s) * Real.sin (((s : ℕ) + 1 : ℕ) * y) with hT
  have hTp : TrigPoly m T := by
    have : ∀ t : Finset (Fin m), TrigPoly m fun y => ∑ s ∈ t, (R' s - R s) * Real.sin (((s : ℕ) + 1 : ℕ) * y) := by
      intro t
      classical
      induction t using Finset.induction_on with
      | empty => simpa using TrigPoly.zero m
      | insert s t hs ih =>
        simp only [Finset.sum_insert hs]
        exact ((TrigPoly.sin (m := m) (k := s + 1) (by omega)).smul _).add ih
    exact this Finset.univ
  have hodd : ∀ y, T (-y) = -T y := by
    intro y; simp only [hT, mul_neg, Real.sin_neg, Finset.sum_neg_distrib]
  have hzero : ∀ j, T (c * δ j) = 0 := by
    intro j
    have e1 := h1 δ j
    have e2 := hR j
    have : ∑ s : Fin m, Real.sin (δ j * (2 * c * (s + 1)) / 2) * (R' s - R s) = 0 := by
      simp only [mul_sub, Finset.sum_sub_distrib]
      linarith
    rw [← this]
    refine Finset.sum_congr rfl fun s _ => ?_
    rw [mul_comm, show (((s : ℕ) + 1 : ℕ) : ℝ) * (c * δ j) = δ j * (2 * c * (s + 1)) / 2 by push_cast; ring]
  have hper : ∀ y, T (2 * Real.pi - y) = -T y := by
    intro y
    rw [← hodd, ← hTp.periodic (-y)]
    congr 1; ring
  classical
  have hall : ∀ y, T y = 0 := by
    let s1 : Finset ℝ := Finset.univ.image fun j => c * δ j
    let s2 : Finset ℝ := Finset.univ.image fun j => 2 * Real.pi - c * δ j
    have inj : Function.Injective fun j => c * δ j := fun i j hij => hδ (mul_left_cancel₀ hc.ne' hij)
    have c1 : s1.card = m := by rw [Finset.card_image_of_injective _ inj]; simp
    have c2 : s2.card = m := by
      rw [Finset.card_image_of_injective _ (fun i j hij => inj (by simpa using hij))]; simp
    have d12 : Disjoint s1 s2 := by
      rw [Finset.disjoint_left]
      intro y hy1 hy2
      obtain ⟨i, -, rfl⟩ := Finset.mem_image.1 hy1
      obtain ⟨j, -, hj⟩ := Finset.mem_image.1 hy2
      have := (hr i).2; have := (hr j).2
      linarith
    have h0 : (0 : ℝ) ∉ s1 ∪ s2 := by
      rw [Finset.mem_union]
      rintro (hy | hy)
      · obtain ⟨i, -, hi⟩ := Finset.mem_image.1 hy
        have := mul_pos hc (hr i).1
        linarith
      · obtain ⟨i, -, hi⟩ := Finset.mem_image.1 hy
        have := (hr i).2; have := Real.pi_pos
        linarith
    intro y
    refine hTp.eq_zero (s := insert 0 (s1 ∪ s2)) ?_ ?_ ?_ y
    · rw [Finset.card_insert_of_notMem h0, Finset.card_union_of_disjoint d12, c1, c2]; omega
    · intro y hy
      have hpi := Real.pi_pos
      rcases Finset.mem_insert.1 hy with rfl | hy
      · exact ⟨le_rfl, by linarith⟩
      rcases Finset.mem_union.1 hy with hy | hy
      · obtain ⟨i, -, rfl⟩ := Finset.mem_image.1 hy
        have := mul_pos hc (hr i).1; have := (hr i).2
        exact ⟨by linarith, by linarith⟩
      · obtain ⟨i, -, rfl⟩ := Finset.mem_image.1 hy
        have := mul_pos hc (hr i).1; have := (hr i).2
        exact ⟨by linarith, by linarith⟩
    · intro y hy
      rcases Finset.mem_insert.1 hy with rfl | hy
      · simp [hT]
      rcases Finset.mem_union.1 hy with hy | hy
      · obtain ⟨i, -, rfl⟩ := Finset.mem_image.1 hy
        exact hzero i
      · obtain ⟨i, -, rfl⟩ := Finset.mem_image.1 hy
        rw [hper, hzero, neg_zero]
  have hder : HasDerivAt T (∑ s : Fin m, (R' s - R s) * (((s : ℕ) + 1 : ℕ) : ℝ)) 0 := by
    refine HasDerivAt.fun_sum fun s _ => ?_
    have := ((hasDerivAt_id (0 : ℝ)).const_mul ((((s : ℕ) + 1 : ℕ) : ℝ))).sin.const_mul (R' s - R s)
    simpa using this
  have hz : ∑ s : Fin m, (R' s - R s) * (((s : ℕ) + 1 : ℕ) : ℝ) = 0 := by
    have e : T = fun _ => 0 := funext hall
    rw [e] at hder
    exact hder.unique (hasDerivAt_const _ _)
  have : ∑ s : Fin m, 2 * c * ((s : ℝ) + 1) * (R' s - R s) = 0 := by
    have := congrArg (2 * c * ·) hz
    simp only [mul_zero, Finset.mul_sum] at this
    rw [← this]
    exact Finset.sum_congr rfl fun s _ => by push_cast; ring
  simp only [mul_sub, Finset.sum_sub_distrib] at this
  linarith

end Verif
