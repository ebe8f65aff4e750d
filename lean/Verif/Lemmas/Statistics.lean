import Mathlib.Probability.Moments.Variance
import Mathlib.Algebra.MvPolynomial.Coeff
import Verif.SpecShots
import Verif.Lemmas.Shots

/-! # Means, variances and laws of averages over uniform numbers -/

namespace Verif
set_option autoImplicit false
open MeasureTheory ProbabilityTheory

variable {Ω : Type} [MeasurableSpace Ω] {μ : Measure Ω} {k : ℕ} {U : Ω → Fin k → ℝ}

theorem IndepUniform.pairwise (h : IndepUniform μ U) : PairwiseUniform μ U :=
  ⟨h.uniform, fun _ _ hij => h.indep.indepFun hij⟩

theorem PairwiseUniform.prob (h : PairwiseUniform μ U) (hk : 0 < k) : IsProbabilityMeasure μ := by
  have h1 := (h.uniform ⟨0, hk⟩).measure_preimage (s := Set.univ) MeasurableSet.univ.nullMeasurableSet
  rw [Set.preimage_univ, Measure.restrict_apply_univ, Real.volume_Ico] at h1
  exact ⟨by rw [h1]; norm_num⟩

/-- The mean, the variance and a bound on the deviation of an average. -/
theorem average_stats (h : PairwiseUniform μ U) (hk : 0 < k) {f : ℝ → ℝ} (hf : IntegrableOn f (Set.Ico 0 1))
    (hf2 : IntegrableOn (fun u => f u ^ 2) (Set.Ico 0 1)) :
    MemLp (fun ω => (∑ j, f (U ω j)) / k) 2 μ ∧
    ∫ ω, (∑ j, f (U ω j)) / k ∂μ = ∫ u in Set.Ico (0 : ℝ) 1, f u ∧
    Var[fun ω => (∑ j, f (U ω j)) / k; μ]
      = ((∫ u in Set.Ico (0 : ℝ) 1, f u ^ 2) - (∫ u in Set.Ico (0 : ℝ) 1, f u) ^ 2) / k := by
  have := h.prob hk
  have hkp : (k : ℝ) ≠ 0 := by exact_mod_cast hk.ne'
  have hL : ∀ j, MemLp (fun ω => f (U ω j)) 2 μ := fun j => by
    have h1 : MemLp f 2 (volume.restrict (Set.Ico 0 1)) := (memLp_two_iff_integrable_sq hf.aestronglyMeasurable).2 hf2
    exact h1.comp_measurePreserving (h.uniform j)
  have hm : ∀ j, ∫ ω, f (U ω j) ∂μ = ∫ u in Set.Ico (0 : ℝ) 1, f u := fun j => by
    rw [← (h.uniform j).map_eq, integral_map (h.uniform j).measurable.aemeasurable]
    rw [(h.uniform j).map_eq]; exact hf.aestronglyMeasurable
  have hm2 : ∀ j, ∫ ω, f (U ω j) ^ 2 ∂μ = ∫ u in Set.Ico (0 : ℝ) 1, f u ^ 2 := fun j => by
    rw [← (h.uniform j).map_eq, integral_map (h.uniform j).measurable.aemeasurable]
    rw [(h.uniform j).map_eq]; exact hf2.aestronglyMeasurable
  have hv : ∀ j, Var[fun ω => f (U ω j); μ]
      = (∫ u in Set.Ico (0 : ℝ) 1, f u ^ 2) - (∫ u in Set.Ico (0 : ℝ) 1, f u) ^ 2 := fun j => by
    rw [variance_eq_sub (hL j), hm]
    exact congrArg (· - _) (hm2 j)
  have hsum : (fun ω => ∑ j, f (U ω j)) = ∑ j, fun ω => f (U ω j) := by
    funext ω; rw [Finset.sum_apply]
  have hdiv : (fun ω => (∑ j, f (U ω j)) / k) = fun ω => (k : ℝ)⁻¹ * ∑ j, f (U ω j) := by
    funext ω; rw [div_eq_inv_mul]
  refine ⟨?_, ?_, ?_⟩
  · rw [hdiv]
    exact (memLp_finset_sum _ fun j _ => hL j).const_mul _
  · rw [integral_div, integral_finset_sum _ fun j _ => (hL j).integrable one_le_two]
    simp only [hm, Finset.sum_const, Finset.card_univ, Fintype.card_fin, nsmul_eq_mul]
    field_simp
  · rw [hdiv, variance_const_mul, hsum, IndepFun.variance_sum (fun j _ => hL j)]
    · simp only [hv, Finset.sum_const, Finset.card_univ, Fintype.card_fin, nsmul_eq_mul]
      field_simp
    · intro i _ j _ hij
      refine (h.indep hij).comp₀ (h.uniform i).measurable.aemeasurable (h.uniform j).measurable.aemeasurable ?_ ?_
      · rw [(h.uniform i).map_eq]; exact hf.aemeasurable
      · rw [(h.uniform j).map_eq]; exact hf.aemeasurable

/-- The number of sequences with given numbers of occurrences. -/
theorem card_sequences {α : Type} [Fintype α] [DecidableEq α] (k : ℕ) (c : α → ℕ) :
    (Finset.univ.filter fun s : Fin k → α => ∀ a, (Finset.univ.filter fun j => s j = a).card = c a).card
      = if ∑ a, c a = k then Nat.multinomial Finset.univ c else 0 := by
  have h1 := MvPolynomial.coeff_sum_X_pow_of_fintype (R := ℤ) (Finsupp.equivFunOnFinite.symm c) k
  have h2 : (∑ i, MvPolynomial.X i : MvPolynomial α ℤ) ^ k
      = ∑ s : Fin k → α, MvPolynomial.monomial (∑ j, Finsupp.single (s j) 1) 1 := by
    rw [← Fin.prod_const, Finset.prod_univ_sum]
    refine Finset.sum_congr (by simp) fun s _ => ?_
    simp only [MvPolynomial.X]
    exact (MvPolynomial.monomial_sum_one _ _).symm
  rw [h2, MvPolynomial.coeff_sum] at h1
  simp only [MvPolynomial.coeff_monomial] at h1
  rw [Finset.sum_boole] at h1
  have h3 : ∀ s : Fin k → α, (∑ j, Finsupp.single (s j) 1 = Finsupp.equivFunOnFinite.symm c) ↔
      ∀ a, (Finset.univ.filter fun j => s j = a).card = c a := by
    intro s
    rw [DFunLike.ext_iff]
    refine forall_congr' fun a => ?_
    rw [Finsupp.finsetSum_apply, Finset.card_filter]
    simp only [Finsupp.single_apply]
    exact Iff.rfl
  simp only [h3] at h1
  have h4 : (Finsupp.equivFunOnFinite.symm c).sum (fun _ m => m) = ∑ a, c a := by
    rw [Finsupp.sum_fintype _ _ fun _ => rfl]; rfl
  have h5 : (Finsupp.equivFunOnFinite.symm c).multinomial = Nat.multinomial Finset.univ c := by
    rw [Finsupp.multinomial_eq_of_support_subset (Finset.subset_univ _)]; rfl
  rw [h4, h5] at h1
  split_ifs at h1 ⊢ with h6
  · exact_mod_cast h1
  · exact_mod_cast h1

/-- The law of a sequence of outcomes of independent draws. -/
theorem sequence_law (h : IndepUniform μ U) {α : Type} {B : α → Set ℝ} (hB : ∀ a, MeasurableSet (B a))
    (hsub : ∀ a, B a ⊆ Set.Ico 0 1) (s : Fin k → α) :
    μ {ω | ∀ j, U ω j ∈ B (s j)} = ∏ j, volume (B (s j)) := by
  have h1 := h.indep.measure_inter_preimage_eq_mul Finset.univ (sets := fun j => B (s j)) fun j _ => hB _
  have h2 : {ω | ∀ j, U ω j ∈ B (s j)} = ⋂ j ∈ Finset.univ, (fun ω => U ω j) ⁻¹' B (s j) := by
    ext ω; simp
  rw [h2, h1]
  refine Finset.prod_congr rfl fun j _ => ?_
  rw [(h.uniform j).measure_preimage (hB _).nullMeasurableSet, Measure.restrict_apply (hB _),
    Set.inter_eq_left.2 (hsub _)]

/-- The multinomial law of the numbers of occurrences. -/
theorem counts_law (h : IndepUniform μ U) {α : Type} [Fintype α] [DecidableEq α] {B : α → Set ℝ} (hB : ∀ a, MeasurableSet (B a))
    (hcov : ∀ u, u ∈ Set.Ico (0 : ℝ) 1 ↔ ∃ a, u ∈ B a) (hdisj : ∀ a b u, u ∈ B a → u ∈ B b → a = b) (c : α → ℕ)
    (hc : ∑ a, c a = k) :
    μ {ω | (∀ j, U ω j ∈ Set.Ico (0 : ℝ) 1) ∧ ∀ a, Nat.card {j // U ω j ∈ B a} = c a}
      = Nat.multinomial Finset.univ c * ∏ a, volume (B a) ^ c a := by
  classical
  have hsub : ∀ a, B a ⊆ Set.Ico 0 1 := fun a u hu => (hcov u).2 ⟨a, hu⟩
  have h1 : {ω | (∀ j, U ω j ∈ Set.Ico (0 : ℝ) 1) ∧ ∀ a, Nat.card {j // U ω j ∈ B a} = c a}
      = ⋃ s ∈ Finset.univ.filter (fun s : Fin k → α => ∀ a, (Finset.univ.filter fun j => s j = a).card = c a),
        {ω | ∀ j, U ω j ∈ B (s j)} := by
    ext ω
    simp only [Set.mem_setOf_eq, Set.mem_iUnion, Finset.mem_filter, Finset.mem_univ, true_and, exists_prop]
    constructor
    · rintro ⟨g1, g2⟩
      choose s hs using fun j => (hcov _).1 (g1 j)
      refine ⟨s, fun a => ?_, hs⟩
      rw [← g2 a, Nat.card_eq_fintype_card, Fintype.card_subtype]
      refine congrArg Finset.card (Finset.filter_congr fun j _ => ?_)
      exact ⟨fun e => e ▸ hs j, fun e => hdisj _ _ _ (hs j) e⟩
    · rintro ⟨s, g1, g2⟩
      refine ⟨fun j => hsub _ (g2 j), fun a => ?_⟩
      rw [← g1 a, Nat.card_eq_fintype_card, Fintype.card_subtype]
      refine congrArg Finset.card (Finset.filter_congr fun j _ => ?_)
      exact ⟨fun e => hdisj _ _ _ (g2 j) e, fun e => e ▸ g2 j⟩
  have hprod : ∀ s : Fin k → α, (∀ a, (Finset.univ.filter fun j => s j = a).card = c a) →
      ∏ j, volume (B (s j)) = ∏ a, volume (B a) ^ c a := by
    intro s hs
    rw [← Finset.prod_fiberwise_of_maps_to (t := Finset.univ) (g := s) fun _ _ => Finset.mem_univ _]
    refine Finset.prod_congr rfl fun a _ => ?_
    rw [← hs a, ← Finset.prod_const]
    refine Finset.prod_congr rfl fun j hj => ?_
    rw [(Finset.mem_filter.1 hj).2]
  rw [h1, measure_biUnion_finset]
  · rw [Finset.sum_congr rfl fun s hs => (sequence_law h hB hsub s).trans (hprod s (Finset.mem_filter.1 hs).2),
      Finset.sum_const, card_sequences, if_pos hc, nsmul_eq_mul]
  · intro s _ s' _ hne
    refine Set.disjoint_left.2 fun ω hω hω' => hne ?_
    funext j
    exact hdisj _ _ _ (hω j) (hω' j)
  · intro s _
    have : {ω | ∀ j, U ω j ∈ B (s j)} = ⋂ j, (fun ω => U ω j) ⁻¹' B (s j) := by ext ω; simp
    rw [this]
    exact MeasurableSet.iInter fun j => (h.uniform j).measurable (hB _)

end Verif
