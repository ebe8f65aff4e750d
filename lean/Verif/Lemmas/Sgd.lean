import Mathlib.Probability.Independence.Integration
import Mathlib.Probability.Moments.Variance
import Verif.Lemmas.Descent

/-!
# Recursions driven by independent random variables with finitely many values
-/

set_option autoImplicit false

namespace Verif
open MeasureTheory ProbabilityTheory

section
variable {Ω α β : Type}

/-- A random variable with finitely many values. -/
structure Discrete (m : MeasurableSpace Ω) (f : Ω → α) : Prop where
  finite : (Set.range f).Finite
  meas : ∀ A : Set α, MeasurableSet[m] (f ⁻¹' A)

namespace Discrete
variable {m m' : MeasurableSpace Ω} {f : Ω → α}

theorem const (m : MeasurableSpace Ω) (a : α) : Discrete m fun _ => a :=
  ⟨(Set.finite_singleton a).subset (by rintro _ ⟨_, rfl⟩; rfl), fun A => MeasurableSet.const (m := m) (a ∈ A)⟩

theorem comp (h : Discrete m f) (φ : α → β) : Discrete m fun ω => φ (f ω) :=
  ⟨(h.finite.image φ).subset (by rintro _ ⟨ω, rfl⟩; exact ⟨f ω, ⟨ω, rfl⟩, rfl⟩), fun A => h.meas (φ ⁻¹' A)⟩

theorem mono (h : Discrete m f) (hm : m ≤ m') : Discrete m' f := ⟨h.finite, fun A => hm _ (h.meas A)⟩

theorem of_measurable {f : Ω → ℝ} (hf : Measurable[m] f) (hr : (Set.range f).Finite) : Discrete m f := by
  refine ⟨hr, fun A => ?_⟩
  have : f ⁻¹' A = f ⁻¹' (A ∩ Set.range f) := by ext ω; simp
  rw [this]
  exact hf (hr.subset Set.inter_subset_right).measurableSet

/-- Finitely many such variables together. -/
theorem pi {ι : Type} [Finite ι] {f : ι → Ω → α} (h : ∀ i, Discrete m (f i)) : Discrete m fun ω i => f i ω := by
  have hfin : (Set.range fun ω i => f i ω).Finite :=
    (Set.Finite.pi' fun i => (h i).finite).subset (by rintro _ ⟨ω, rfl⟩ i; exact ⟨ω, rfl⟩)
  refine ⟨hfin, fun A => ?_⟩
  have : (fun ω i => f i ω) ⁻¹' A = ⋃ v ∈ A ∩ Set.range (fun ω i => f i ω), ⋂ i, f i ⁻¹' {v i} := by
    ext ω
    simp only [Set.mem_preimage, Set.mem_iUnion, Set.mem_iInter, Set.mem_singleton_iff, exists_prop, Set.mem_inter_iff,
      Set.mem_range]
    constructor
    · exact fun hA => ⟨_, ⟨hA, ω, rfl⟩, fun i => rfl⟩
    · rintro ⟨v, ⟨hv, -⟩, hi⟩
      have : v = fun i => f i ω := funext fun i => (hi i).symm
      rwa [this] at hv
  rw [this]
  exact MeasurableSet.biUnion (m := m) (hfin.subset Set.inter_subset_right).countable fun v _ =>
    MeasurableSet.iInter (m := m) fun i => (h i).meas _

/-- A choice between such variables, made by another one. -/
theorem bind (h : Discrete m f) {g : α → Ω → β} (hg : ∀ a, Discrete m (g a)) : Discrete m fun ω => g (f ω) ω := by
  refine ⟨(h.finite.biUnion fun a _ => (hg a).finite).subset ?_, fun A => ?_⟩
  · rintro _ ⟨ω, rfl⟩
    exact Set.mem_biUnion ⟨ω, rfl⟩ ⟨ω, rfl⟩
  · have : (fun ω => g (f ω) ω) ⁻¹' A = ⋃ a ∈ Set.range f, f ⁻¹' {a} ∩ g a ⁻¹' A := by
      ext ω
      simp only [Set.mem_preimage, Set.mem_iUnion, Set.mem_inter_iff, Set.mem_singleton_iff, exists_prop, Set.mem_range]
      constructor
      · exact fun hA => ⟨f ω, ⟨ω, rfl⟩, rfl, hA⟩
      · rintro ⟨a, -, h1, h2⟩
        rwa [h1]
    rw [this]
    exact MeasurableSet.biUnion (m := m) h.finite.countable fun a _ => MeasurableSet.inter (m := m) (h.meas _) ((hg a).meas _)

theorem measurable {f : Ω → ℝ} (h : Discrete m f) : Measurable[m] f := fun A _ => h.meas A

theorem bounded {f : Ω → ℝ} (h : Discrete m f) : ∃ C, ∀ ω, |f ω| ≤ C := by
  obtain ⟨C, hC⟩ := (h.finite.image fun x => |x|).bddAbove
  exact ⟨C, fun ω => hC ⟨f ω, ⟨ω, rfl⟩, rfl⟩⟩

theorem integrable {m₀ : MeasurableSpace Ω} {μ : Measure Ω} [IsFiniteMeasure μ] {f : Ω → ℝ} (h : Discrete m₀ f) :
    Integrable f μ := by
  obtain ⟨C, hC⟩ := h.bounded
  exact Integrable.of_bound h.measurable.aestronglyMeasurable C (.of_forall fun ω => by rw [Real.norm_eq_abs]; exact hC ω)

end Discrete

/-- If `f` is known in `H` and `g a` is independent of `H`, the mean of `φ (f, g (f))` is the mean over `f` of the mean of
`φ (a, g a)`. -/
theorem integral_bind {m₀ : MeasurableSpace Ω} {μ : Measure Ω} [IsProbabilityMeasure μ] {H G : MeasurableSpace Ω} (hH : H ≤ m₀)
    (hG : G ≤ m₀) (hi : Indep H G μ) {f : Ω → α} (hf : Discrete H f) {g : α → Ω → ℝ} (hg : ∀ a, Discrete G (g a)) :
    ∫ ω, g (f ω) ω ∂μ = ∫ ω, (∫ ω', g (f ω) ω' ∂μ) ∂μ := by
  classical
  have key : ∀ k : α → Ω → ℝ, ∀ ω, k (f ω) ω = ∑ a ∈ hf.finite.toFinset, (f ⁻¹' {a}).indicator (fun _ => (1 : ℝ)) ω * k a ω := by
    intro k ω
    rw [Finset.sum_eq_single (f ω)]
    · rw [Set.indicator_of_mem (by simp), one_mul]
    · intro a _ ha
      rw [Set.indicator_of_notMem (by simpa using Ne.symm ha), zero_mul]
    · intro h
      exact absurd (hf.finite.mem_toFinset.2 ⟨ω, rfl⟩) h
  have hI : ∀ a, Discrete H ((f ⁻¹' {a}).indicator fun _ => (1 : ℝ)) := fun a => by
    refine (hf.comp fun b => if b = a then (1 : ℝ) else 0 : Discrete H _).1 |> fun h => ⟨?_, fun A => ?_⟩
    · refine h.subset ?_
      rintro _ ⟨ω, rfl⟩
      exact ⟨ω, by simp [Set.indicator_apply]⟩
    · have := (hf.comp fun b => if b = a then (1 : ℝ) else 0 : Discrete H _).2 A
      convert this using 1
      ext ω
      simp [Set.indicator_apply]
  have hcI : ∀ a (c : ℝ), Integrable (fun ω => (f ⁻¹' {a}).indicator (fun _ => (1 : ℝ)) ω * c) μ := fun a c =>
    ((hI a).mono hH).integrable.mul_const c
  have hgI : ∀ a, Integrable (fun ω => (f ⁻¹' {a}).indicator (fun _ => (1 : ℝ)) ω * g a ω) μ := fun a => by
    obtain ⟨C, hC⟩ := (hg a).bounded
    refine (((hg a).mono hG).integrable (μ := μ)).bdd_mul (c := 1) ((hI a).mono hH).measurable.aestronglyMeasurable (.of_forall fun ω => ?_)
    rw [Set.indicator_apply]
    split_ifs <;> simp
  rw [integral_congr_ae (.of_forall (key g)), integral_congr_ae (.of_forall (key fun a _ => ∫ ω', g a ω' ∂μ)),
    integral_finset_sum _ fun a _ => hgI a, integral_finset_sum _ fun a _ => hcI a _]
  refine Finset.sum_congr rfl fun a _ => ?_
  rw [integral_mul_const]
  have hind : IndepFun ((f ⁻¹' {a}).indicator fun _ => (1 : ℝ)) (g a) μ := by
    rw [IndepFun_iff_Indep]
    refine indep_of_indep_of_le hi ?_ ?_
    · rintro _ ⟨A, -, rfl⟩; exact (hI a).meas A
    · rintro _ ⟨A, -, rfl⟩; exact (hg a).meas A
  exact hind.integral_fun_mul_eq_mul_integral ((hI a).mono hH).measurable.aestronglyMeasurable
    ((hg a).mono hG).measurable.aestronglyMeasurable
end

section
variable {Ω : Type} {m₀ : MeasurableSpace Ω} {μ : Measure Ω} [IsProbabilityMeasure μ] {m : ℕ}

/-- The variance around the mean, for random vectors with finitely many values. -/
theorem mean_step {F : (Fin m → ℝ) → ℝ} {c : Fin m → ℕ} {C : ℝ} (hF : Differentiable ℝ F) (hC : 0 ≤ C)
    (hlip : ∀ x y, |F y - F x| ≤ C * ∑ l, c l * |y l - x l|)
    (htrig : ∀ x k, TrigPoly (2 * c k) fun t => F (Function.update x k (2 * t))) {x D : Fin m → ℝ}
    (hD : ∀ k, HasDerivAt (fun t => F (Function.update x k t)) (D k) (x k)) {est : Ω → Fin m → ℝ}
    (hest : ∀ k, MemLp (fun ω => est ω k) 2 μ) (hmean : ∀ k, ∫ ω, est ω k ∂μ = D k) {η : ℝ} (hη : 0 ≤ η)
    (hint : Integrable (fun ω => F fun k => x k - η * est ω k) μ) :
    ∫ ω, F (fun k => x k - η * est ω k) ∂μ ≤ F x - η * (1 - C * (∑ k, (c k : ℝ) ^ 2) * η / 2) * ∑ k, D k ^ 2
      + C * (∑ k, (c k : ℝ) ^ 2) * η ^ 2 / 2 * ∑ k, Var[fun ω => est ω k; μ] := by
  set L := C * ∑ k, (c k : ℝ) ^ 2 with hL
  have h1 : ∀ k, Integrable (fun ω => est ω k) μ := fun k => (hest k).integrable (by norm_num)
  have h2 : ∀ k, Integrable (fun ω => est ω k ^ 2) μ := fun k => (hest k).integrable_sq
  have h3 : ∀ k, ∫ ω, est ω k ^ 2 ∂μ = Var[fun ω => est ω k; μ] + D k ^ 2 := fun k => by
    rw [variance_eq_sub (hest k), hmean k]
    simp
  have i1 : Integrable (fun ω => ∑ k, D k * est ω k) μ := integrable_finset_sum _ fun k _ => (h1 k).const_mul _
  have i2 : Integrable (fun ω => ∑ k, est ω k ^ 2) μ := integrable_finset_sum _ fun k _ => h2 k
  have h4 := integral_mono hint (((integrable_const (F x)).sub (i1.const_mul η)).add (i2.const_mul (L * η ^ 2 / 2)))
    fun ω => descent_along hF hC hlip htrig hD (est ω) hη
  refine h4.trans (le_of_eq ?_)
  change ∫ ω, F x - η * (∑ k, D k * est ω k) + L * η ^ 2 / 2 * (∑ k, est ω k ^ 2) ∂μ = _
  have ie : Integrable (fun ω => F x - η * ∑ k, D k * est ω k) μ := (integrable_const (F x)).sub (i1.const_mul η)
  rw [integral_add ie (i2.const_mul (L * η ^ 2 / 2)),
    integral_sub (integrable_const (F x)) (i1.const_mul η), integral_const_mul, integral_const_mul,
    integral_finset_sum _ (fun k _ => (h1 k).const_mul _), integral_finset_sum _ (fun k _ => h2 k)]
  simp only [integral_const_mul, hmean, h3, Finset.sum_add_distrib, integral_const, probReal_univ, one_smul, ← pow_two]
  ring

/-- Gradient descent with unbiased gradients of total variance at most `V`, each made with fresh random numbers. -/
theorem sgd {F : (Fin m → ℝ) → ℝ} {D : (Fin m → ℝ) → Fin m → ℝ} {lo η L V : ℝ} (hlo : ∀ x, lo ≤ F x)
    {H G : ℕ → MeasurableSpace Ω} (hH : ∀ t, H t ≤ m₀) (hG : ∀ t, G t ≤ m₀) (hHH : ∀ t, H t ≤ H (t + 1))
    (hGH : ∀ t, G t ≤ H (t + 1)) (hi : ∀ t, Indep (H t) (G t) μ) {est : ℕ → (Fin m → ℝ) → Ω → Fin m → ℝ}
    (hest : ∀ t v, Discrete (G t) (est t v)) (hη : 0 < η) (hL : L * η ≤ 1)
    (hstep : ∀ t v, ∫ ω, F (fun k => v k - η * est t v ω k) ∂μ
      ≤ F v - η * (1 - L * η / 2) * (∑ k, D v k ^ 2) + L * η ^ 2 / 2 * V)
    {x : ℕ → Ω → Fin m → ℝ} {x₀ : Fin m → ℝ} (h0 : ∀ ω, x 0 ω = x₀)
    (hx : ∀ t ω, x (t + 1) ω = fun k => x t ω k - η * est t (x t ω) ω k) :
    (∀ t, Discrete (H t) (x t)) ∧
    (∀ t, ∫ ω, F (x (t + 1) ω) ∂μ ≤ (∫ ω, F (x t ω) ∂μ) - η / 2 * (∫ ω, ∑ k, D (x t ω) k ^ 2 ∂μ) + L * η ^ 2 / 2 * V) ∧
    ∀ T : ℕ, T ≠ 0 → (∑ t ∈ Finset.range T, ∫ ω, ∑ k, D (x t ω) k ^ 2 ∂μ) / T ≤ 2 * (F x₀ - lo) / (η * T) + L * η * V := by
  have hd : ∀ t, Discrete (H t) (x t) := by
    intro t
    induction t with
    | zero =>
      have : x 0 = fun _ => x₀ := funext h0
      rw [this]; exact .const _ _
    | succ t ih =>
      have : x (t + 1) = fun ω => (fun v ω => fun k => v k - η * est t v ω k) (x t ω) ω := funext (hx t)
      rw [this]
      exact (ih.mono (hHH t)).bind (g := fun v ω => fun k => v k - η * est t v ω k) fun v =>
        ((hest t v).mono (hGH t)).comp fun d k => v k - η * d k
  have hF : ∀ t, Integrable (fun ω => F (x t ω)) μ := fun t => (((hd t).mono (hH t)).comp F).integrable
  have hD : ∀ t, Integrable (fun ω => ∑ k, D (x t ω) k ^ 2) μ := fun t =>
    (((hd t).mono (hH t)).comp fun v => ∑ k, D v k ^ 2).integrable
  have hdec : ∀ t, ∫ ω, F (x (t + 1) ω) ∂μ
      ≤ (∫ ω, F (x t ω) ∂μ) - η / 2 * (∫ ω, ∑ k, D (x t ω) k ^ 2 ∂μ) + L * η ^ 2 / 2 * V := by
    intro t
    have h1 : ∫ ω, F (x (t + 1) ω) ∂μ = ∫ ω, (∫ ω', F (fun k => x t ω k - η * est t (x t ω) ω' k) ∂μ) ∂μ := by
      simp only [hx]
      exact integral_bind (hH t) (hG t) (hi t) (hd t) (g := fun v ω => F fun k => v k - η * est t v ω k) fun v =>
        (hest t v).comp fun d => F fun k => v k - η * d k
    rw [h1]
    have h2 : ∀ v, ∫ ω, F (fun k => v k - η * est t v ω k) ∂μ ≤ F v - η / 2 * (∑ k, D v k ^ 2) + L * η ^ 2 / 2 * V := fun v => by
      have hS : 0 ≤ ∑ k, D v k ^ 2 := Finset.sum_nonneg fun k _ => sq_nonneg _
      have : η / 2 ≤ η * (1 - L * η / 2) := by nlinarith
      have := mul_le_mul_of_nonneg_right this hS
      linarith [hstep t v]
    refine (integral_mono (((hd t).mono (hH t)).comp fun v => ∫ ω', F (fun k => v k - η * est t v ω' k) ∂μ).integrable
      (((hF t).sub ((hD t).const_mul (η / 2))).add (integrable_const (L * η ^ 2 / 2 * V))) fun ω => h2 (x t ω)).trans (le_of_eq ?_)
    change ∫ ω, F (x t ω) - η / 2 * (∑ k, D (x t ω) k ^ 2) + L * η ^ 2 / 2 * V ∂μ = _
    have ie : Integrable (fun ω => F (x t ω) - η / 2 * ∑ k, D (x t ω) k ^ 2) μ := (hF t).sub ((hD t).const_mul (η / 2))
    rw [integral_add ie (integrable_const _), integral_sub (hF t) ((hD t).const_mul (η / 2)),
      integral_const_mul]
    simp
  refine ⟨hd, hdec, fun T hT => ?_⟩
  have hsum : ∀ T : ℕ, ∫ ω, F (x T ω) ∂μ ≤ F x₀ - η / 2 * (∑ t ∈ Finset.range T, ∫ ω, ∑ k, D (x t ω) k ^ 2 ∂μ) + T * (L * η ^ 2 / 2 * V) := by
    intro T
    induction T with
    | zero => simp [h0]
    | succ T ih =>
      rw [Finset.sum_range_succ]
      push_cast
      linarith [hdec T]
  have hb : lo ≤ ∫ ω, F (x T ω) ∂μ := by
    have := integral_mono (integrable_const lo) (hF T) fun ω => hlo (x T ω)
    simpa using this
  have hT' : (0 : ℝ) < T := by exact_mod_cast Nat.pos_of_ne_zero hT
  have h := hb.trans (hsum T)
  rw [div_le_iff₀ hT', add_mul, div_mul_eq_mul_div, mul_div_mul_right _ _ hT'.ne']
  have : ∑ t ∈ Finset.range T, ∫ ω, ∑ k, D (x t ω) k ^ 2 ∂μ
      = 2 / η * (η / 2 * ∑ t ∈ Finset.range T, ∫ ω, ∑ k, D (x t ω) k ^ 2 ∂μ) := by field_simp
  rw [this]
  have h' : η / 2 * (∑ t ∈ Finset.range T, ∫ ω, ∑ k, D (x t ω) k ^ 2 ∂μ) ≤ F x₀ - lo + T * (L * η ^ 2 / 2 * V) := by linarith
  refine (mul_le_mul_of_nonneg_left h' (by positivity)).trans (le_of_eq ?_)
  field_simp
end

end Verif
