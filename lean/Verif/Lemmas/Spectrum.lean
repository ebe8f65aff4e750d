import Mathlib.Algebra.Polynomial.Roots
import Mathlib.Analysis.SpecialFunctions.Complex.Circle
import Verif.AbsSpectrum
import Verif.Lemmas.GpsrCtl

/-! # The expectation values are trigonometric polynomials of the parameters -/

namespace Verif
set_option autoImplicit false
open NDArray
variable {n : ℕ}

/-! ## Trigonometric polynomials -/

theorem TrigPoly.zero (m : ℕ) : TrigPoly m fun _ => 0 := ⟨fun _ => 0, fun _ => 0, fun x => by simp⟩

theorem TrigPoly.add {m : ℕ} {f g : ℝ → ℝ} (hf : TrigPoly m f) (hg : TrigPoly m g) : TrigPoly m fun x => f x + g x := by
  obtain ⟨a, b, hf⟩ := hf
  obtain ⟨c, d, hg⟩ := hg
  refine ⟨fun k => a k + c k, fun k => b k + d k, fun x => ?_⟩
  beta_reduce
  rw [hf, hg, ← Finset.sum_add_distrib]
  exact Finset.sum_congr rfl fun k _ => by ring

theorem TrigPoly.smul {m : ℕ} {f : ℝ → ℝ} (hf : TrigPoly m f) (r : ℝ) : TrigPoly m fun x => r * f x := by
  obtain ⟨a, b, hf⟩ := hf
  refine ⟨fun k => r * a k, fun k => r * b k, fun x => ?_⟩
  beta_reduce
  rw [hf, Finset.mul_sum]
  exact Finset.sum_congr rfl fun k _ => by ring

theorem TrigPoly.sub {m : ℕ} {f g : ℝ → ℝ} (hf : TrigPoly m f) (hg : TrigPoly m g) : TrigPoly m fun x => f x - g x := by
  have := hf.add (hg.smul (-1))
  simpa [sub_eq_add_neg] using this

theorem TrigPoly.mono {m m' : ℕ} {f : ℝ → ℝ} (hf : TrigPoly m f) (h : m ≤ m') : TrigPoly m' f := by
  obtain ⟨a, b, hf⟩ := hf
  refine ⟨fun k => if k < m + 1 then a k else 0, fun k => if k < m + 1 then b k else 0, fun x => ?_⟩
  rw [hf]
  refine Finset.sum_subset_zero_on_sdiff (Finset.range_mono (by omega)) (fun k hk => ?_) fun k hk => ?_
  · rw [Finset.mem_sdiff, Finset.mem_range, Finset.mem_range] at hk
    simp [hk.2]
  · rw [Finset.mem_range] at hk
    simp [hk]

theorem TrigPoly.cos {m k : ℕ} (h : k ≤ m) : TrigPoly m fun x => Real.cos (k * x) := by
  refine ⟨fun j => if j = k then 1 else 0, fun _ => 0, fun x => ?_⟩
  rw [Finset.sum_eq_single k]
  · simp
  · intro j _ hj; simp [hj]
  · intro hk; exact absurd (Finset.mem_range.2 (by omega)) hk

theorem TrigPoly.sin {m k : ℕ} (h : k ≤ m) : TrigPoly m fun x => Real.sin (k * x) := by
  refine ⟨fun _ => 0, fun j => if j = k then 1 else 0, fun x => ?_⟩
  rw [Finset.sum_eq_single k]
  · simp
  · intro j _ hj; simp [hj]
  · intro hk; exact absurd (Finset.mem_range.2 (by omega)) hk

theorem TrigPoly.periodic {m : ℕ} {f : ℝ → ℝ} (hf : TrigPoly m f) (x : ℝ) : f (x + 2 * Real.pi) = f x := by
  obtain ⟨a, b, hf⟩ := hf
  rw [hf, hf]
  refine Finset.sum_congr rfl fun k _ => ?_
  rw [show (k : ℝ) * (x + 2 * Real.pi) = k * x + k * (2 * Real.pi) by ring, Real.cos_add_nat_mul_two_pi,
    Real.sin_add_nat_mul_two_pi]

/-! ## Complex exponentials -/

/-- `exp (i k x)`. -/
noncomputable def wave (k : ℤ) : ℝ → ℂ := fun x => Complex.exp ((k : ℂ) * x * Complex.I)

theorem wave_mul (j k : ℤ) : wave j * wave k = wave (j + k) := by
  funext x
  simp only [wave, Pi.mul_apply, ← Complex.exp_add]
  congr 1
  push_cast
  ring

/-- The span of the exponentials of degree at most `m`. -/
noncomputable def waves (m : ℕ) : Submodule ℂ (ℝ → ℂ) := Submodule.span ℂ {f | ∃ k : ℤ, k.natAbs ≤ m ∧ f = wave k}

theorem wave_mem {m : ℕ} {k : ℤ} (h : k.natAbs ≤ m) : wave k ∈ waves m := Submodule.subset_span ⟨k, h, rfl⟩

theorem waves_mono {m m' : ℕ} (h : m ≤ m') : waves m ≤ waves m' := by
  refine Submodule.span_mono ?_
  rintro f ⟨k, hk, rfl⟩
  exact ⟨k, hk.trans h, rfl⟩

theorem waves_mul {m m' : ℕ} {f g : ℝ → ℂ} (hf : f ∈ waves m) (hg : g ∈ waves m') : f * g ∈ waves (m + m') := by
  induction hf using Submodule.span_induction with
  | mem f h =>
    obtain ⟨j, hj, rfl⟩ := h
    induction hg using Submodule.span_induction with
    | mem g h =>
      obtain ⟨k, hk, rfl⟩ := h
      rw [wave_mul]
      exact wave_mem (by omega)
    | zero => simp
    | add f g _ _ h1 h2 => rw [mul_add]; exact add_mem h1 h2
    | smul c f _ h => rw [mul_smul_comm]; exact Submodule.smul_mem _ c h
  | zero => simp
  | add f g _ _ h1 h2 => rw [add_mul]; exact add_mem h1 h2
  | smul c f _ h => rw [smul_mul_assoc]; exact Submodule.smul_mem _ c h

theorem cos_mem (k : ℕ) (s : ℝ) : (fun x : ℝ => ((Real.cos (k * x + s) : ℝ) : ℂ)) ∈ waves k := by
  have : (fun x : ℝ => ((Real.cos (k * x + s) : ℝ) : ℂ))
      = (Complex.exp (s * Complex.I) / 2) • wave k + (Complex.exp (-s * Complex.I) / 2) • wave (-k) := by
    funext x
    simp only [wave, Pi.add_apply, Pi.smul_apply, smul_eq_mul, Complex.ofReal_cos, Complex.cos]
    rw [div_mul_eq_mul_div, div_mul_eq_mul_div, ← Complex.exp_add, ← Complex.exp_add, ← add_div]
    congr 3 <;> (push_cast; ring)
  rw [this]
  exact add_mem (Submodule.smul_mem _ _ (wave_mem (by simp))) (Submodule.smul_mem _ _ (wave_mem (by simp)))

theorem sin_mem (k : ℕ) (s : ℝ) : (fun x : ℝ => ((Real.sin (k * x + s) : ℝ) : ℂ)) ∈ waves k := by
  have := cos_mem k (s - Real.pi / 2)
  simpa [← add_sub_assoc, Real.cos_sub_pi_div_two] using this

theorem const_mem (m : ℕ) (c : ℂ) : (fun _ : ℝ => c) ∈ waves m := by
  have : (fun _ : ℝ => c) = c • wave 0 := by
    funext x
    simp [wave]
  rw [this]
  exact Submodule.smul_mem _ _ (wave_mem (by simp))

/-- The real and imaginary parts of the span. -/
theorem waves_trig {m : ℕ} {f : ℝ → ℂ} (hf : f ∈ waves m) : TrigPoly m (fun x => (f x).re) ∧ TrigPoly m fun x => (f x).im := by
  induction hf using Submodule.span_induction with
  | mem f h =>
    obtain ⟨k, hk, rfl⟩ := h
    have e : ∀ x : ℝ, wave k x = Complex.exp ((k * x : ℝ) * Complex.I) := fun x => by simp [wave]
    simp only [e, Complex.exp_ofReal_mul_I_re, Complex.exp_ofReal_mul_I_im]
    obtain ⟨j, rfl | rfl⟩ := k.eq_nat_or_neg
    · rw [Int.natAbs_natCast] at hk
      simp only [Int.cast_natCast]
      exact ⟨TrigPoly.cos hk, TrigPoly.sin hk⟩
    · rw [Int.natAbs_neg, Int.natAbs_natCast] at hk
      simp only [Int.cast_neg, Int.cast_natCast, neg_mul, Real.cos_neg, Real.sin_neg]
      refine ⟨TrigPoly.cos hk, ?_⟩
      have := (TrigPoly.sin hk).smul (-1)
      simpa only [neg_mul, one_mul] using this
  | zero => exact ⟨by simpa using TrigPoly.zero m, by simpa using TrigPoly.zero m⟩
  | add f g _ _ h1 h2 => exact ⟨by simpa using h1.1.add h2.1, by simpa using h1.2.add h2.2⟩
  | smul c f _ h =>
    refine ⟨?_, ?_⟩
    · simpa using (h.1.smul c.re).sub (h.2.smul c.im)
    · simpa using (h.2.smul c.re).add (h.1.smul c.im)

/-! ## Runs -/

/-- The entries of the matrices are sums of exponentials of degree at most `m`. -/
def MatWave (m : ℕ) (σ : ℝ → Matrix (Lab n) (Lab n) ℂ) : Prop := ∀ i j, (fun x => σ x i j) ∈ waves m

theorem MatWave.lin {m : ℕ} {f : ℝ → Matrix (Lab n) (Lab n) ℂ} (h : MatWave m f)
    {L : Matrix (Lab n) (Lab n) ℂ → Matrix (Lab n) (Lab n) ℂ} (hL : IsLin L) : MatWave m fun x => L (f x) := by
  have key : ∀ (A : Matrix (Lab n) (Lab n) ℂ) i j,
      L A i j = ∑ k, ∑ l, L (Matrix.single k l (1 : ℂ)) i j * A k l := by
    intro A i j
    conv_lhs => rw [Matrix.matrix_eq_sum_single A, hL.sum]
    rw [Matrix.sum_apply]
    refine Finset.sum_congr rfl fun k _ => ?_
    rw [hL.sum, Matrix.sum_apply]
    refine Finset.sum_congr rfl fun l _ => ?_
    have : Matrix.single k l (A k l) = A k l • Matrix.single k l (1 : ℂ) := by simp
    rw [this, hL.smul, Matrix.smul_apply, smul_eq_mul, mul_comm]
  intro i j
  have e : (fun x => L (f x) i j) = ∑ k, ∑ l, L (Matrix.single k l (1 : ℂ)) i j • fun x => f x k l := by
    funext x
    simp only [key (f x) i j, Finset.sum_apply, Pi.smul_apply, smul_eq_mul]
  rw [e]
  exact Submodule.sum_mem _ fun k _ => Submodule.sum_mem _ fun l _ => Submodule.smul_mem _ _ (h k l)

theorem MatWave.add {m : ℕ} {f g : ℝ → Matrix (Lab n) (Lab n) ℂ} (h : MatWave m f) (hg : MatWave m g) :
    MatWave m fun x => f x + g x := fun i j => add_mem (h i j) (hg i j)

theorem MatWave.mono {m m' : ℕ} {f : ℝ → Matrix (Lab n) (Lab n) ℂ} (h : MatWave m f) (hm : m ≤ m') : MatWave m' f :=
  fun i j => waves_mono hm (h i j)

theorem MatWave.mul {m k : ℕ} {f : ℝ → Matrix (Lab n) (Lab n) ℂ} (h : MatWave m f) {c : ℝ → ℂ} (hc : c ∈ waves k) :
    MatWave (m + k) fun x => c x • f x := fun i j => by
  have := waves_mul hc (h i j)
  rwa [add_comm] at this

theorem MatWave.const (m : ℕ) (A : Matrix (Lab n) (Lab n) ℂ) : MatWave m fun _ => A := fun _ _ => const_mem m _

theorem IsRot.wave {s : ℝ} {M : ℝ → Matrix (Lab n) (Lab n) ℂ} (h : IsRot s M) {m : ℕ} {σ : ℝ → Matrix (Lab n) (Lab n) ℂ}
    (hσ : MatWave m σ) : MatWave (m + 1) fun x => conjBy (M x) (σ x) := by
  obtain ⟨A, B, C, hA, hB, hC, h⟩ := h
  simp only [h]
  have hc := cos_mem 1 s
  have hs := sin_mem 1 s
  simp only [Nat.cast_one, one_mul] at hc hs
  exact ((hσ.lin hA).mono (by omega)).add (((hσ.lin hB).mul hc).add ((hσ.lin hC).mul hs))

theorem IsCtlRot.wave {s : ℝ} {M : ℝ → Matrix (Lab n) (Lab n) ℂ} (h : IsCtlRot s M) {m : ℕ}
    {σ : ℝ → Matrix (Lab n) (Lab n) ℂ} (hσ : MatWave m σ) : MatWave (m + 2) fun x => conjBy (M (2 * x)) (σ x) := by
  obtain ⟨A, B, C, D, F, hA, hB, hC, hD, hF, h⟩ := h
  simp only [h]
  have hc := cos_mem 1 (s / 2)
  have hs := sin_mem 1 (s / 2)
  have hc2 := cos_mem 2 s
  have hs2 := sin_mem 2 s
  simp only [Nat.cast_one, one_mul, Nat.cast_ofNat] at hc hs hc2 hs2
  have e : ∀ x : ℝ, (2 * x + s) / 2 = x + s / 2 := fun x => by ring
  simp only [e]
  exact (((hσ.lin hA).mono (by omega)).add ((((hσ.lin hB).mul hc).add ((hσ.lin hC).mul hs)).mono (by omega))).add
    (((hσ.lin hD).mul hc2).add ((hσ.lin hF).mul hs2))

theorem wave_run {l : List (PStep n)} (h : ∀ e ∈ l, e.Good) {m : ℕ} {σ : ℝ → Matrix (Lab n) (Lab n) ℂ} (hσ : MatWave m σ) :
    MatWave (m + l.countP PStep.rot) fun x => matRun n (evalAt l x) (σ x) := by
  induction l generalizing σ m with
  | nil => simpa [evalAt, matRun] using hσ
  | cons e l ih =>
    have he := h e (by simp)
    have ih' := fun {m σ} => ih (fun e he => h e (by simp [he])) (m := m) (σ := σ)
    change MatWave _ fun x => matRun n (evalAt l x) (noisyStep n (e.M x) e.t e.ns (σ x))
    by_cases hr : e.rot
    · simp only [PStep.Good, hr, if_true] at he
      obtain ⟨s, he⟩ := he
      have := ih' ((he.wave hσ).lin (isLin_chans e.t e.ns))
      rw [List.countP_cons_of_pos hr, add_comm (l.countP _), ← add_assoc]
      exact this
    · simp only [PStep.Good, hr, Bool.false_eq_true, if_false] at he
      have := ih' (hσ.lin (isLin_noisyStep (e.M 0) e.t e.ns))
      rw [List.countP_cons_of_neg hr]
      have hM : ∀ t, e.M t = e.M 0 := fun t => he t 0
      simpa only [hM] using this

theorem wave_run_ctl {l : List (PStep n)} (h : ∀ e ∈ l, e.CGood) {m : ℕ} {σ : ℝ → Matrix (Lab n) (Lab n) ℂ}
    (hσ : MatWave m σ) : MatWave (m + 2 * l.countP PStep.rot) fun x => matRun n (evalAt l (2 * x)) (σ x) := by
  induction l generalizing σ m with
  | nil => simpa [evalAt, matRun] using hσ
  | cons e l ih =>
    have he := h e (by simp)
    have ih' := fun {m σ} => ih (fun e he => h e (by simp [he])) (m := m) (σ := σ)
    change MatWave _ fun x => matRun n (evalAt l (2 * x)) (noisyStep n (e.M (2 * x)) e.t e.ns (σ x))
    by_cases hr : e.rot
    · simp only [PStep.CGood, hr, if_true] at he
      obtain ⟨s, he⟩ := he
      have := ih' ((he.wave hσ).lin (isLin_chans e.t e.ns))
      rw [List.countP_cons_of_pos hr, mul_add, mul_one, add_comm (2 * l.countP _), ← add_assoc]
      exact this
    · simp only [PStep.CGood, hr, Bool.false_eq_true, if_false] at he
      have := ih' (hσ.lin (isLin_noisyStep (e.M 0) e.t e.ns))
      rw [List.countP_cons_of_neg hr]
      have hM : ∀ t, e.M t = e.M 0 := fun t => he t 0
      simpa only [hM] using this

theorem MatWave.expVal {m : ℕ} {σ : ℝ → Matrix (Lab n) (Lab n) ℂ} (h : MatWave m σ) (O : Matrix (Lab n) (Lab n) ℂ) :
    TrigPoly m fun x => Verif.expVal O (σ x) := by
  have : (fun x => (O * σ x).trace) ∈ waves m := by
    have e : (fun x => (O * σ x).trace) = ∑ i, ∑ j, O i j • fun x => σ x j i := by
      funext x
      simp only [Matrix.trace, Matrix.diag_apply, Matrix.mul_apply, Finset.sum_apply, Pi.smul_apply, smul_eq_mul]
    rw [e]
    exact Submodule.sum_mem _ fun k _ => Submodule.sum_mem _ fun l _ => Submodule.smul_mem _ _ (h l k)
  exact (waves_trig this).1

section
variable {so : SetOrder} {values : Values} {gs : List Gate} {nss : List (List StdNoise)} {st : State}
  {obs : List Observable} {Os : List (Matrix (Lab n) (Lab n) ℂ)}

theorem BaseSetting.countP (h : BaseSetting so n values gs nss st obs Os) (p : String) :
    (stepsOf n values p gs nss).countP PStep.rot = numUses gs p := by
  have hl := h.noise.length_eq
  have e : numUses gs p = ((gs.zip nss).map Prod.fst).countP fun g => decide (g.paramName = some p) := by
    rw [List.map_fst_zip hl.le, numUses]
    refine List.countP_congr fun g _ => ?_
    simp [Gate.uses_iff]
  rw [e, stepsOf, List.countP_map, List.countP_map]
  refine List.countP_congr fun x _ => ?_
  simp [stepOf]

theorem Setting.trig (h : Setting so n values gs nss st obs Os) (p : String) (i : ℕ) :
    TrigPoly (numUses gs p) fun x => (valuesOf n values gs nss st Os p x).getD i 0 := by
  have hw := wave_run (h.good p) (MatWave.const 0 (st.mat n))
  rw [zero_add, h.toBaseSetting.countP] at hw
  by_cases hi : i < Os.length
  · simp only [valuesOf, List.getD_eq_getElem?_getD, List.getElem?_map, List.getElem?_eq_getElem hi, Option.map_some,
      Option.getD_some]
    exact hw.expVal _
  · simp only [valuesOf, List.getD_eq_getElem?_getD, List.getElem?_map, List.getElem?_eq_none (not_lt.1 hi), Option.map_none,
      Option.getD_none]
    exact TrigPoly.zero _

theorem BaseSetting.trig (h : BaseSetting so n values gs nss st obs Os) (p : String) (i : ℕ) :
    TrigPoly (2 * numUses gs p) fun x => (valuesOf n values gs nss st Os p (2 * x)).getD i 0 := by
  have hw := wave_run_ctl (h.cgood p) (MatWave.const 0 (st.mat n))
  rw [zero_add, h.countP] at hw
  by_cases hi : i < Os.length
  · simp only [valuesOf, List.getD_eq_getElem?_getD, List.getElem?_map, List.getElem?_eq_getElem hi, Option.map_some,
      Option.getD_some]
    exact hw.expVal _
  · simp only [valuesOf, List.getD_eq_getElem?_getD, List.getElem?_map, List.getElem?_eq_none (not_lt.1 hi), Option.map_none,
      Option.getD_none]
    exact TrigPoly.zero _

end

/-! ## Determined by finitely many values -/

theorem TrigPoly.polynomial {m : ℕ} {f : ℝ → ℝ} (hf : TrigPoly m f) : ∃ P : Polynomial ℂ, P.natDegree ≤ 2 * m ∧
    ∀ x : ℝ, P.eval (Complex.exp (x * Complex.I)) = Complex.exp (m * x * Complex.I) * f x := by
  obtain ⟨a, b, hf⟩ := hf
  refine ⟨∑ k ∈ Finset.range (m + 1), (Polynomial.C ((a k - b k * Complex.I) / 2) * Polynomial.X ^ (m + k)
    + Polynomial.C ((a k + b k * Complex.I) / 2) * Polynomial.X ^ (m - k)), ?_, fun x => ?_⟩
  · refine Polynomial.natDegree_sum_le_of_forall_le _ _ fun k hk => ?_
    rw [Finset.mem_range] at hk
    refine (Polynomial.natDegree_add_le _ _).trans (max_le ?_ ?_)
    · exact (Polynomial.natDegree_C_mul_X_pow_le _ _).trans (by omega)
    · exact (Polynomial.natDegree_C_mul_X_pow_le _ _).trans (by omega)
  · rw [hf, Polynomial.eval_finset_sum, Complex.ofReal_sum, Finset.mul_sum]
    refine Finset.sum_congr rfl fun k hk => ?_
    rw [Finset.mem_range] at hk
    simp only [Polynomial.eval_add, Polynomial.eval_mul, Polynomial.eval_C, Polynomial.eval_pow, Polynomial.eval_X]
    rw [← Complex.exp_nat_mul, ← Complex.exp_nat_mul, Nat.cast_sub (by omega : k ≤ m)]
    have e1 : ((m + k : ℕ) : ℂ) * (x * Complex.I) = m * x * Complex.I + k * x * Complex.I := by push_cast; ring
    have e2 : ((m : ℂ) - k) * (x * Complex.I) = m * x * Complex.I + -(k * x) * Complex.I := by ring
    rw [e1, e2, Complex.exp_add, Complex.exp_add]
    simp only [Complex.ofReal_add, Complex.ofReal_mul, Complex.ofReal_cos, Complex.ofReal_sin, Complex.ofReal_natCast]
    rw [Complex.exp_mul_I (k * x), Complex.exp_mul_I (-(k * x)), Complex.cos_neg, Complex.sin_neg]
    linear_combination (-(Complex.exp (m * x * Complex.I)) * b k * Complex.sin (k * x)) * Complex.I_sq

/-- A trigonometric polynomial of degree at most `m` with `2m + 1` zeros in an interval of length `2π` is zero. -/
theorem TrigPoly.eq_zero {m : ℕ} {f : ℝ → ℝ} (hf : TrigPoly m f) {s : Finset ℝ} (hs : 2 * m < s.card)
    (hi : ∀ x ∈ s, 0 ≤ x ∧ x < 2 * Real.pi) (h0 : ∀ x ∈ s, f x = 0) (x : ℝ) : f x = 0 := by
  obtain ⟨P, hP, he⟩ := hf.polynomial
  have hinj : Set.InjOn (fun x : ℝ => Complex.exp (x * Complex.I)) s := by
    intro x hx y hy hxy
    obtain ⟨k, hk⟩ := Complex.exp_eq_exp_iff_exists_int.1 hxy
    have hk' : x = y + k * (2 * Real.pi) := by
      have := congrArg Complex.im hk
      simpa using this
    have hx' := hi x hx
    have hy' := hi y hy
    have hpi := Real.pi_pos
    have h1 : (k : ℝ) < 1 := by
      by_contra h
      nlinarith
    have h2 : (-1 : ℝ) < k := by
      by_contra h
      nlinarith
    have : k = 0 := by
      have a1 : k < 1 := by exact_mod_cast h1
      have a2 : -1 < k := by exact_mod_cast h2
      omega
    simpa [this] using hk'
  have hP0 : P = 0 := by
    refine Polynomial.eq_zero_of_natDegree_lt_card_of_eval_eq_zero' P (s.image fun x : ℝ => Complex.exp (x * Complex.I)) ?_ ?_
    · intro z hz
      obtain ⟨x, hx, rfl⟩ := Finset.mem_image.1 hz
      rw [he, h0 x hx]; simp
    · rw [Finset.card_image_of_injOn hinj]
      exact hP.trans_lt hs
  have := he x
  rw [hP0, Polynomial.eval_zero] at this
  simpa [Complex.exp_ne_zero] using this.symm

end Verif
