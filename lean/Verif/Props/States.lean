import Verif.Props.Sampling

/-! # C30, C31: state constructors and overlaps -/

namespace Verif
open NDArray

variable {n : ℕ}

theorem normSq_data {a : NDArray ℂ} (h : IsKet n a) : normSq n a = (a.data.map fun z => ‖z‖ ^ 2).sum := by
  rw [data_eq_map h, List.map_map, sum_allIdx_two]; rfl

/-- **C30** (`product_state`, `zero_state`): for every bit string and every register size the result has `n` axes of
length two and squared norm one. -/
theorem C30_product_state (b : Lab n) : ∃ a, productState b.str = .ok a ∧ IsKet n a ∧ normSq n a = 1 := by
  obtain ⟨a, h1, h2, h3⟩ := C28_product_state b
  refine ⟨a, h1, h2, ?_⟩
  simp only [normSq, h3]
  rw [Finset.sum_eq_single b] <;> simp +contextual

theorem C30_zero_state (n : ℕ) : ∃ a, zeroState n = .ok a ∧ IsKet n a ∧ normSq n a = 1 ∧
    ∀ x, ket n a x = if x = 0 then 1 else 0 := by
  have hs : String.ofList (List.replicate n '0') = Lab.str (0 : Lab n) := by
    rw [Lab.str]
    refine congrArg _ ?_
    symm
    rw [List.eq_replicate_iff]
    refine ⟨by simp [Lab.bits], fun c hc => ?_⟩
    simp only [Lab.bits, List.mem_map, List.mem_ofFn] at hc
    obtain ⟨d, ⟨i, rfl⟩, rfl⟩ := hc
    rfl
  obtain ⟨a, h1, h2, h3⟩ := C28_product_state (0 : Lab n)
  obtain ⟨a', k1, k2, k3⟩ := C30_product_state (0 : Lab n)
  obtain rfl : a' = a := by rw [h1] at k1; cases k1; rfl
  exact ⟨a', by rw [zeroState, hs]; exact h1, h2, k3, h3⟩

/-- **C30** (`uniform_state`): all `2^n` amplitudes equal `1/√(2^n)`. -/
theorem C30_uniform_state (n : ℕ) : ∃ a, uniformState n = .ok a ∧ IsKet n a ∧ normSq n a = 1 ∧
    ∀ x, ket n a x = ((1 / Real.sqrt (2 ^ n) : ℝ) : ℂ) := by
  have hk : IsKet n (⟨List.replicate n 2, (List.replicate (2 ^ n) (1 : ℂ)).map (· / (Real.sqrt (2 ^ n : ℝ) : ℂ))⟩ : NDArray ℂ) :=
    ⟨rfl, by simp [NDArray.WF]⟩
  have hs : (0 : ℝ) < 2 ^ n := by positivity
  refine ⟨_, ?_, hk, ?_, fun x => ?_⟩
  · rw [uniformState, reshape, if_pos (by simp)]
  · rw [normSq_data hk, List.map_map, List.map_replicate, List.sum_replicate, Function.comp, nsmul_eq_mul]
    rw [norm_div, norm_one, Complex.norm_real, Real.norm_of_nonneg (Real.sqrt_nonneg _), div_pow, Real.sq_sqrt hs.le]
    push_cast
    field_simp
  · have hl : ravel (List.replicate n 2) x.bits < 2 ^ n := by
      have := ravel_lt (forall₂_replicate.2 x.isBits_bits)
      rwa [prod_replicate_two] at this
    simp only [ket, NDArray.get, List.map_replicate]
    rw [List.getD_eq_getElem?_getD, List.getElem?_replicate, if_pos hl]
    simp

theorem sum_pos_of_pos {l : List ℝ} (h : ∀ x ∈ l, 0 < x) (hne : l ≠ []) : 0 < l.sum := by
  induction l with
  | nil => exact absurd rfl hne
  | cons x xs ih =>
    rw [List.sum_cons]
    have h1 := h x (by simp)
    by_cases hx : xs = []
    · simpa [hx] using h1
    · have := ih (fun y hy => h y (by simp [hy])) hx
      linarith

/-- **C30** (`random_state`): whatever the numbers drawn from the open unit interval. -/
theorem C30_random_state {u : List ℝ} (hl : u.length = 2 ^ n) (hu : ∀ x ∈ u, 0 < x ∧ x < 1) :
    ∃ a, randomState n u = .ok a ∧ IsKet n a ∧ normSq n a = 1 := by
  have hlog : ∀ x ∈ u, 0 < -Real.log x := fun x hx => by have := Real.log_neg (hu x hx).1 (hu x hx).2; linarith
  have hne : u ≠ [] := by
    rintro rfl; exact absurd hl.symm (by simp)
  obtain ⟨S, hS⟩ : ∃ S, S = (u.map fun v => -Real.log v).sum := ⟨_, rfl⟩
  have hSp : 0 < S := by
    rw [hS]; refine sum_pos_of_pos ?_ (by simpa using hne)
    simp only [List.mem_map]; rintro x ⟨v, hv, rfl⟩; exact hlog v hv
  obtain ⟨D, hD⟩ : ∃ D, D = List.zipWith (fun (a p : ℝ) => (Real.sqrt (a / S) : ℂ) * Complex.exp (Complex.I * (p : ℂ)))
    (u.map fun v => -Real.log v) (u.map fun v => v * 2 * Real.pi) := ⟨_, rfl⟩
  have hDl : D.length = 2 ^ n := by simp [hD, hl]
  have hDn : (D.map fun z => ‖z‖ ^ 2).sum = 1 := by
    rw [hD, List.zipWith_map, List.zipWith_self, List.map_map]
    have : (u.map ((fun z : ℂ => ‖z‖ ^ 2) ∘ fun v => (Real.sqrt (-Real.log v / S) : ℂ) * Complex.exp (Complex.I * ((v * 2 * Real.pi : ℝ) : ℂ))))
        = u.map fun v => -Real.log v * (1 / S) := by
      refine List.map_congr_left fun v hv => ?_
      simp only [Function.comp_apply]
      rw [norm_mul, mul_comm Complex.I, Complex.norm_exp_ofReal_mul_I, mul_one, Complex.norm_real,
        Real.norm_of_nonneg (Real.sqrt_nonneg _), Real.sq_sqrt (div_nonneg (hlog v hv).le hSp.le), div_eq_mul_one_div]
    rw [this, List.sum_map_mul_right, ← hS, mul_one_div_cancel hSp.ne']
  have hr : randomState n u = .ok ⟨List.replicate n 2, D.map (· / ((Real.sqrt 1 : ℝ) : ℂ))⟩ := by
    simp only [randomState, ← hS, ← hD, reshape, prod_replicate_two, List.prod_cons, List.prod_nil, mul_one, if_true, bind,
      Except.bind, pure, Except.pure, hDn]
  have hk : IsKet n (⟨List.replicate n 2, D.map (· / ((Real.sqrt 1 : ℝ) : ℂ))⟩ : NDArray ℂ) := ⟨rfl, by simp [NDArray.WF, hDl]⟩
  refine ⟨_, hr, hk, ?_⟩
  rw [normSq_data hk]
  simp only [Real.sqrt_one, Complex.ofReal_one, div_one, List.map_id']
  exact hDn

/-- Non-vacuity of C30 for `random_state`. -/
example : [(1 / 2 : ℝ), 1 / 3].length = 2 ^ 1 ∧ ∀ x ∈ [(1 / 2 : ℝ), 1 / 3], 0 < x ∧ x < 1 := by
  refine ⟨rfl, fun x hx => ?_⟩
  simp only [List.mem_cons, List.not_mem_nil, or_false] at hx
  rcases hx with rfl | rfl <;> norm_num

/-- `product_state` with a digit above one silently returns the zero array (the out-of-bounds update is dropped), so the
restriction to bit strings is necessary. -/
theorem C30_digit_above_one : ∃ a, productState "2" = .ok a ∧ IsKet 1 a ∧ normSq 1 a = 0 := by
  refine ⟨⟨[2], [0, 0]⟩, by simp [productState, pyIntOfChar, bind, Except.bind, pure, Except.pure, ofFn, allIdx, List.range_succ], ⟨rfl, rfl⟩, ?_⟩
  rw [normSq_data (n := 1) (a := ⟨[2], [0, 0]⟩) ⟨rfl, rfl⟩]; simp

/-! ## C31 -/

/-- **C31 is false of the code**: `overlap(a, i·a) = -1` for a normalised `a`, although `|⟨a|ia⟩|² = 1`;
`equivalent_state` reports that the two differ. -/
theorem C31_overlap_false : ∃ a b : NDArray ℂ, IsKet 1 a ∧ IsKet 1 b ∧ normSq 1 a = 1 ∧ (∀ x, ket 1 b x = Complex.I * ket 1 a x) ∧
    ‖∑ x : Lab 1, star (ket 1 a x) * ket 1 b x‖ ^ 2 = 1 ∧ overlap a b = .ok (-1) ∧
    ∃ p, equivalentState a b = .ok p ∧ ¬ p := by
  have ha : IsKet 1 (⟨[2], [1, 0]⟩ : NDArray ℂ) := ⟨rfl, rfl⟩
  have hb : IsKet 1 (⟨[2], [Complex.I, 0]⟩ : NDArray ℂ) := ⟨rfl, rfl⟩
  have hi : ∑ x : Lab 1, star (ket 1 (⟨[2], [1, 0]⟩ : NDArray ℂ) x) * ket 1 (⟨[2], [Complex.I, 0]⟩ : NDArray ℂ) x = Complex.I := by
    rw [sum_lab1]; simp [ket, lab1_bits, NDArray.get, ravel]
  have ho : overlap (⟨[2], [1, 0]⟩ : NDArray ℂ) ⟨[2], [Complex.I, 0]⟩ = .ok (-1) := by
    rw [overlap, inner_ket ha hb, hi]; simp [bind, Except.bind, pure, Except.pure]
  refine ⟨_, _, ha, hb, by rw [normSq_data ha]; simp, fun x => ?_, by rw [hi]; simp, ho, _,
    by rw [equivalentState, ho]; rfl, ?_⟩
  · have : x = lab1 (x 0) := by funext i; rw [Subsingleton.elim i 0]; rfl
    rw [this, ket, ket, lab1_bits]
    rcases Fin.exists_fin_two.1 ⟨x 0, rfl⟩ with h | h <;> rw [h] <;> simp [NDArray.get, ravel]
  · norm_num [allclose, ATOL, abs_le]

/-- **C31** (what the code computes): `overlap(a, b) = |⟨a|b⟩|² - 2 (Im ⟨a|b⟩)²`, so it is the fidelity exactly when
`⟨a|b⟩` is real. -/
theorem C31_overlap_value {a b : NDArray ℂ} (ha : IsKet n a) (hb : IsKet n b) :
    ∃ o, overlap a b = .ok o ∧
      o = ‖∑ x : Lab n, star (ket n a x) * ket n b x‖ ^ 2 - 2 * (∑ x : Lab n, star (ket n a x) * ket n b x).im ^ 2 ∧
      (o = ‖∑ x : Lab n, star (ket n a x) * ket n b x‖ ^ 2 ↔ (∑ x : Lab n, star (ket n a x) * ket n b x).im = 0) := by
  obtain ⟨z, hz⟩ : ∃ z, z = ∑ x : Lab n, star (ket n a x) * ket n b x := ⟨_, rfl⟩
  have h2 : (z ^ 2).re = ‖z‖ ^ 2 - 2 * z.im ^ 2 := by
    rw [Complex.sq_norm, Complex.normSq_apply, sq, Complex.mul_re]; ring
  refine ⟨_, by rw [overlap, inner_ket ha hb]; rfl, ?_, ?_⟩ <;> rw [← hz, h2]
  constructor
  · intro h
    have : z.im ^ 2 = 0 := by linarith
    exact pow_eq_zero_iff (two_ne_zero) |>.1 this
  · intro h; rw [h]; ring

/-- **C31, restricted to pairs with a real inner product**: `overlap` is the fidelity.  In particular a state is
equivalent to itself and to its negative. -/
theorem C31_overlap_partial {a b : NDArray ℂ} (ha : IsKet n a) (hb : IsKet n b)
    (h : (∑ x : Lab n, star (ket n a x) * ket n b x).im = 0) :
    overlap a b = .ok (‖∑ x : Lab n, star (ket n a x) * ket n b x‖ ^ 2) := by
  obtain ⟨o, h1, -, h3⟩ := C31_overlap_value ha hb
  rw [h1, h3.2 h]

/-- **C31** (`is_normalized`): a state of squared norm one is reported as normalised, and `is_normalized` is true exactly
when the square of the squared norm is within the tolerance of one. -/
theorem C31_is_normalized {a : NDArray ℂ} (ha : IsKet n a) :
    ∃ p, isNormalized a = .ok p ∧ (p ↔ |normSq n a ^ 2 - 1| ≤ 1e-14 + 1e-5) ∧ (normSq n a = 1 → p) := by
  have hi : (∑ x : Lab n, star (ket n a x) * ket n a x) = ((normSq n a : ℝ) : ℂ) := by
    rw [normSq, Complex.ofReal_sum]
    refine Finset.sum_congr rfl fun x _ => ?_
    rw [mul_comm, Complex.star_def, Complex.mul_conj, Complex.normSq_eq_norm_sq]
  have ho : overlap a a = .ok (normSq n a ^ 2) := by
    rw [C31_overlap_partial ha ha (by rw [hi]; simp), hi]
    rw [Complex.norm_real, Real.norm_eq_abs, sq_abs]
  have hp : isNormalized a = .ok (allclose (normSq n a ^ 2) 1 ATOL) := by
    rw [isNormalized, equivalentState, ho]; rfl
  have hiff : allclose (normSq n a ^ 2) 1 ATOL ↔ |normSq n a ^ 2 - 1| ≤ 1e-14 + 1e-5 := by
    rw [allclose, ATOL, abs_one, mul_one]
  refine ⟨_, hp, hiff, fun h => ?_⟩
  rw [hiff, h]; norm_num

/-- **C31** (global phases): two states that differ by a phase `e^{iφ}` have overlap `cos 2φ`, so they are identified only
when `φ` is close to a multiple of `π`. -/
theorem C31_phase {a b : NDArray ℂ} (ha : IsKet n a) (hb : IsKet n b) (hn : normSq n a = 1) (φ : ℝ)
    (h : ∀ x, ket n b x = Complex.exp (φ * Complex.I) * ket n a x) : overlap a b = .ok (Real.cos (2 * φ)) := by
  have hi : (∑ x : Lab n, star (ket n a x) * ket n b x) = Complex.exp (φ * Complex.I) := by
    have : (∑ x : Lab n, star (ket n a x) * ket n a x) = 1 := by
      rw [← Complex.ofReal_one, ← hn, normSq, Complex.ofReal_sum]
      refine Finset.sum_congr rfl fun x _ => ?_
      rw [mul_comm, Complex.star_def, Complex.mul_conj, Complex.normSq_eq_norm_sq]
    rw [← mul_one (Complex.exp _), ← this, Finset.mul_sum]
    refine Finset.sum_congr rfl fun x _ => ?_
    rw [h]; ring
  rw [overlap, inner_ket ha hb, hi]
  simp only [bind, Except.bind, pure, Except.pure]
  rw [← Complex.exp_nat_mul, show ((2 : ℕ) : ℂ) * (φ * Complex.I) = ((2 * φ : ℝ) : ℂ) * Complex.I by push_cast; ring,
    Complex.exp_ofReal_mul_I_re]

/-- **C31** (no false positives): states that `equivalent_state` identifies have a fidelity within the tolerance of one;
normalisation is not needed. -/
theorem C31_equivalent_sound {a b : NDArray ℂ} (ha : IsKet n a) (hb : IsKet n b) :
    ∃ p, equivalentState a b = .ok p ∧ (p → 1 - (1e-14 + 1e-5) ≤ ‖∑ x : Lab n, star (ket n a x) * ket n b x‖ ^ 2) := by
  obtain ⟨o, h1, h2, -⟩ := C31_overlap_value ha hb
  refine ⟨allclose o 1 ATOL, by rw [equivalentState, h1]; rfl, fun hp => ?_⟩
  rw [allclose, ATOL, abs_one, mul_one] at hp
  have := (abs_le.1 hp).1
  nlinarith [sq_nonneg (∑ x : Lab n, star (ket n a x) * ket n b x).im]

/-- Non-vacuity of C31: a state and a global phase of it. -/
example : ∃ a b : NDArray ℂ, IsKet 2 a ∧ IsKet 2 b ∧ normSq 2 a = 1 ∧ ∀ x, ket 2 b x = Complex.exp ((1 : ℝ) * Complex.I) * ket 2 a x := by
  obtain ⟨a, -, h2, h3⟩ := C30_product_state (n := 2) ![0, 1]
  refine ⟨a, smul (Complex.exp ((1 : ℝ) * Complex.I)) a, h2, ⟨h2.shape, by simpa [NDArray.WF, smul] using h2.wf⟩, h3, fun x => ?_⟩
  rw [(smul_ket h2 _).2]; rfl

end Verif
