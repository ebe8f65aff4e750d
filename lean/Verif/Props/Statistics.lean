import Verif.Lemmas.Statistics
import Verif.Props.Sampling
import Verif.Props.Shots

/-!
# C66, C67: the statistics of shots

The random numbers behind the PRNG key are uniform on `[0, 1)` and pairwise independent (C66) or independent (C67).
-/

namespace Verif
set_option autoImplicit false
open NDArray MeasureTheory ProbabilityTheory
open scoped ComplexOrder
variable {n : ℕ} {values : Values} (so : SetOrder) (eigh : Eigh)

/-! ## C66 -/

theorem Eigh.sum_vals_sq (eigh : Eigh) {d : ℕ} {A : Matrix (Fin d) (Fin d) ℂ} (h : A.IsHermitian) (R : Matrix (Fin d) (Fin d) ℂ) :
    ∑ i, (((eigh.vecs A).conjTranspose * R * eigh.vecs A) i i).re * eigh.vals A i ^ 2 = (A * A * R).trace.re := by
  have h3 : ∀ j, (((eigh.vecs A).conjTranspose * R * eigh.vecs A) j j).re * eigh.vals A j ^ 2
      = (((eigh.vecs A).conjTranspose * R * eigh.vecs A * (Matrix.diagonal (fun i => (eigh.vals A i : ℂ))
        * Matrix.diagonal (fun i => (eigh.vals A i : ℂ)))) j j).re := by
    intro j
    rw [Matrix.diagonal_mul_diagonal, Matrix.mul_diagonal, ← Complex.ofReal_mul, Complex.re_mul_ofReal, pow_two]
  simp only [h3]
  rw [← Complex.re_sum]
  change Complex.re (Matrix.trace _) = _
  have h4 : eigh.vecs A * (Matrix.diagonal (fun i => (eigh.vals A i : ℂ)) * Matrix.diagonal (fun i => (eigh.vals A i : ℂ)))
      = A * A * eigh.vecs A := by
    rw [← Matrix.mul_assoc, ← eigh.eigen_hermitian h, Matrix.mul_assoc, ← eigh.eigen_hermitian h, ← Matrix.mul_assoc]
  rw [Matrix.mul_assoc, h4, Matrix.mul_assoc, Matrix.trace_mul_comm, Matrix.mul_assoc, Matrix.mul_assoc, Matrix.mul_assoc,
    eigh.mul_conj, Matrix.mul_one, Matrix.trace_mul_comm, Matrix.mul_assoc]

/-- The second moment, over the uniform number, of the value drawn. -/
theorem pick_second {A ρ : Matrix (Lab n) (Lab n) ℂ} (hρ : ρ.PosSemidef) (ht : ρ.trace = 1) (hA : A.IsHermitian) :
    IntegrableOn (fun u => pick (shotProbs (eigh.vecs (numMat A)) ρ)
        (alignedEigenvalues (eigh.vals (numMat A)) (eigh.vecs (numMat A)) (eigh.vecs (numMat A))) u ^ 2) (Set.Ico 0 1) ∧
      ∫ u in Set.Ico (0 : ℝ) 1, pick (shotProbs (eigh.vecs (numMat A)) ρ)
        (alignedEigenvalues (eigh.vals (numMat A)) (eigh.vecs (numMat A)) (eigh.vecs (numMat A))) u ^ 2 = expVal (A * A) ρ := by
  obtain ⟨h1, h2⟩ := shotProbs_facts eigh (A := A) hρ
  rw [ht, Complex.one_re] at h2
  have hsq : (fun u => pick (shotProbs (eigh.vecs (numMat A)) ρ)
      (alignedEigenvalues (eigh.vals (numMat A)) (eigh.vecs (numMat A)) (eigh.vecs (numMat A))) u ^ 2)
      = pick (shotProbs (eigh.vecs (numMat A)) ρ) fun i => eigh.vals (numMat A) i ^ 2 := by
    funext u
    simp only [pick]
    split_ifs
    · exact congrArg (· ^ 2) (alignedEigenvalues_perm (V := eigh.vecs (numMat A)) _ (eigh.unitary _) (Equiv.refl _) (fun _ _ => rfl) _)
    · exact zero_pow two_ne_zero
  obtain ⟨i1, i2⟩ := pick_integral h1 (by rw [h2]; exact one_pos) (d := 2 ^ n) (by simp [shotProbs])
    fun i => eigh.vals (numMat A) i ^ 2
  rw [hsq]
  refine ⟨i1, ?_⟩
  rw [i2, h2, div_one]
  have hAn : (numMat A).IsHermitian := by rw [Matrix.IsHermitian, numMat_conjTranspose, hA.eq]
  rw [expVal, ← numMat_trace, numMat_mul, numMat_mul, ← eigh.sum_vals_sq hAn (numMat ρ)]
  refine Finset.sum_congr rfl fun i _ => ?_
  rw [shotProbs, List.getD_eq_getElem?_getD, List.getElem?_ofFn, dif_pos i.2]
  rfl

/-- **C66** (`expectation` with shots): for an observable of standard gates that is the Hermitian operator `O` when its
sequences are multiplied in listing order, at the output `ρ` of `run`, the estimate from `k` pairwise independent shots
has variance `(tr(O²ρ) - tr(Oρ)²) / k`; so it differs from `tr(Oρ)` by at least `c` with probability at most
`(tr(O²ρ) - tr(Oρ)²) / (k c²)`. -/
theorem C66_estimate {circuit : Op} {nss : List (List StdNoise)} (hc : circuit.Circuit n values nss) {st : State} (hst : st.On n)
    {o : Observable} {O : Matrix (Lab n) (Lab n) ℂ} (ho : Op.ListedSum (StdLeaf n values) values o.ops O) (hO : O.IsHermitian) :
    ∃ r, run so circuit st values = .ok (some r) ∧ r.On n ∧ ((r.mat n).PosSemidef → (r.mat n).trace = 1 →
      ∀ (k : ℤ) (mode : DiffMode), 1 ≤ k → mode = .ad ∨ mode = .gpsr → ∃ est : (Fin k.toNat → ℝ) → ℝ,
        (∀ draw : Draw, expectation so eigh draw st circuit [o] values mode k = .ok [est (draw k.toNat)]) ∧
        ∀ (Ω : Type) [MeasurableSpace Ω] (μ : Measure Ω) (U : Ω → Fin k.toNat → ℝ), PairwiseUniform μ U →
          ∫ ω, est (U ω) ∂μ = expVal O (r.mat n) ∧
          Var[fun ω => est (U ω); μ] = (expVal (O * O) (r.mat n) - expVal O (r.mat n) ^ 2) / k ∧
          ∀ c : ℝ, 0 < c → μ {ω | c ≤ |est (U ω) - expVal O (r.mat n)|}
            ≤ ENNReal.ofReal ((expVal (O * O) (r.mat n) - expVal O (r.mat n) ^ 2) / (k * c ^ 2))) := by
  obtain ⟨r, h1, h2, h3⟩ := circuit_run so hc hst
  refine ⟨r, h1, h3.on, fun hp ht k mode hk hm => ?_⟩
  obtain ⟨i1, i2⟩ := pick_mean eigh (A := O) (B := O) hp ht hO (Equiv.refl _) fun _ _ => rfl
  obtain ⟨j1, j2⟩ := pick_second eigh (A := O) hp ht hO
  refine ⟨fun u => (∑ j, pick (shotProbs (eigh.vecs (numMat O)) (r.mat n))
      (alignedEigenvalues (eigh.vals (numMat O)) (eigh.vecs (numMat O)) (eigh.vecs (numMat O))) (u j)) / k.toNat,
    fun draw => expectation_shots so eigh h2 h3.on (.cons ho .nil) draw hk hm, ?_⟩
  intro Ω _ μ U hU
  have hkp : 0 < k.toNat := by omega
  have hkc : ((k.toNat : ℕ) : ℝ) = (k : ℝ) := by
    have : ((k.toNat : ℕ) : ℤ) = k := Int.toNat_of_nonneg (by omega)
    exact_mod_cast this
  obtain ⟨m1, m2, m3⟩ := average_stats hU hkp i1 j1
  rw [i2] at m2
  rw [i2, j2] at m3
  rw [← hkc]
  refine ⟨m2, m3, fun c hc => ?_⟩
  have := hU.prob hkp
  have h4 := meas_ge_le_variance_div_sq m1 hc
  rw [m2, m3, div_div] at h4
  exact h4

/-- **C66** (`sample`): from `k` pairwise independent shots, the count of the bit string `b` has mean `k p` and variance
`k p (1 - p)`, where `p` is the probability of `b`; so the relative frequency differs from `p` by at least `c` with
probability at most `p (1 - p) / (k c²)`. -/
theorem C66_counts (hn : 1 ≤ n) {circuit : Op} {st out : State} (hr : run so circuit st values = .ok (some out)) (ho : out.On n)
    (hnorm : out.Normalised n) {k : ℤ} (hk : 1 ≤ k) : ∃ cnt : (Fin k.toNat → ℝ) → Lab n → ℕ,
      (∀ draw : Draw, (∀ j, draw k.toNat j ∈ Set.Ico (0 : ℝ) 1) → ∃ r, sample so draw st circuit values k = .ok r ∧
        ∀ b c, (b.str, c) ∈ r.counts ↔ c = cnt (draw k.toNat) b ∧ 0 < c) ∧
      ∀ (Ω : Type) [MeasurableSpace Ω] (μ : Measure Ω) (U : Ω → Fin k.toNat → ℝ), PairwiseUniform μ U → ∀ b,
        ∫ ω, (cnt (U ω) b : ℝ) ∂μ = k * out.prob n b ∧
        Var[fun ω => (cnt (U ω) b : ℝ); μ] = k * (out.prob n b * (1 - out.prob n b)) ∧
        ∀ c : ℝ, 0 < c → μ {ω | c ≤ |(cnt (U ω) b : ℝ) / k - out.prob n b|}
          ≤ ENNReal.ofReal (out.prob n b * (1 - out.prob n b) / (k * c ^ 2)) := by
  classical
  obtain ⟨B, b1, b2, -, -, b5⟩ := C27_born so hn hr ho hnorm
  refine ⟨fun u b => Nat.card {j // u j ∈ B b}, fun draw hd => b5 draw k hk hd, ?_⟩
  intro Ω _ μ U hU b
  have hkp : 0 < k.toNat := by omega
  have hkc : ((k.toNat : ℕ) : ℝ) = (k : ℝ) := by
    have : ((k.toNat : ℕ) : ℤ) = k := Int.toNat_of_nonneg (by omega)
    exact_mod_cast this
  have hk0 : (k : ℝ) ≠ 0 := by rw [← hkc]; exact_mod_cast hkp.ne'
  have hsub : B b ⊆ Set.Ico 0 1 := fun u hu => (b2 u).2 ⟨b, hu⟩
  have hsum : ∀ ω, (Nat.card {j // U ω j ∈ B b} : ℝ) = ∑ j, (B b).indicator (fun _ => (1 : ℝ)) (U ω j) := by
    intro ω
    rw [Nat.card_eq_fintype_card, Fintype.card_subtype, Finset.card_filter]
    push_cast
    refine Finset.sum_congr rfl fun j _ => ?_
    by_cases hj : U ω j ∈ B b
    · rw [if_pos hj, Set.indicator_of_mem hj]
    · rw [if_neg hj, Set.indicator_of_notMem hj]
  have hint : IntegrableOn ((B b).indicator fun _ => (1 : ℝ)) (Set.Ico 0 1) :=
    (integrable_const (1 : ℝ)).indicator (b1 b).1
  have hval : ∫ u in Set.Ico (0 : ℝ) 1, (B b).indicator (fun _ => (1 : ℝ)) u = out.prob n b := by
    rw [integral_indicator_const _ (b1 b).1, Measure.real, Measure.restrict_apply (b1 b).1, Set.inter_eq_left.2 hsub, (b1 b).2,
      ENNReal.toReal_ofReal (hnorm.1 b), smul_eq_mul, mul_one]
  have hsq : (fun u => (B b).indicator (fun _ => (1 : ℝ)) u ^ 2) = (B b).indicator fun _ => (1 : ℝ) := by
    funext u
    by_cases hu : u ∈ B b
    · rw [Set.indicator_of_mem hu, one_pow]
    · rw [Set.indicator_of_notMem hu, zero_pow two_ne_zero]
  obtain ⟨m1, m2, m3⟩ := average_stats hU hkp hint (by rw [hsq]; exact hint)
  simp only [← hsum, hkc] at m1 m2 m3
  rw [hval] at m2
  rw [hsq, hval] at m3
  have := hU.prob hkp
  refine ⟨?_, ?_, fun c hc => ?_⟩
  · rw [← m2, integral_div]
    field_simp
  · have h4 := variance_const_mul (k : ℝ) (fun ω => (Nat.card {j // U ω j ∈ B b} : ℝ) / k) μ
    have h5 : (fun ω => (k : ℝ) * ((Nat.card {j // U ω j ∈ B b} : ℝ) / k)) = fun ω => (Nat.card {j // U ω j ∈ B b} : ℝ) := by
      funext ω; field_simp
    rw [h5, m3] at h4
    rw [h4]
    field_simp
  · have h4 := meas_ge_le_variance_div_sq m1 hc
    rw [m2, m3, div_div] at h4
    refine h4.trans (le_of_eq (congrArg ENNReal.ofReal ?_))
    ring

/-! ## C67 -/

/-- **C67**: from `k` independent shots of a normalised output state, the histogram of `sample` follows the multinomial
distribution: any given counts `c`, with sum `k`, occur with probability `k! / ∏ (c b)! * ∏ (prob b) ^ (c b)`. -/
theorem C67_multinomial (hn : 1 ≤ n) {circuit : Op} {st out : State} (hr : run so circuit st values = .ok (some out)) (ho : out.On n)
    (hnorm : out.Normalised n) {k : ℤ} (hk : 1 ≤ k) : ∃ cnt : (Fin k.toNat → ℝ) → Lab n → ℕ,
      (∀ draw : Draw, (∀ j, draw k.toNat j ∈ Set.Ico (0 : ℝ) 1) → ∃ r, sample so draw st circuit values k = .ok r ∧
        ∀ b c, (b.str, c) ∈ r.counts ↔ c = cnt (draw k.toNat) b ∧ 0 < c) ∧
      ∀ (Ω : Type) [MeasurableSpace Ω] (μ : Measure Ω) (U : Ω → Fin k.toNat → ℝ), IndepUniform μ U →
        ∀ c : Lab n → ℕ, ∑ b, c b = k.toNat →
          μ {ω | ∀ b, cnt (U ω) b = c b}
            = ENNReal.ofReal ((k.toNat).factorial / (∏ b, (c b).factorial : ℕ) * ∏ b, out.prob n b ^ c b) := by
  classical
  obtain ⟨B, b1, b2, b3, -, b5⟩ := C27_born so hn hr ho hnorm
  refine ⟨fun u b => Nat.card {j // u j ∈ B b}, fun draw hd => b5 draw k hk hd, ?_⟩
  intro Ω _ μ U hU c hc
  have h1 := counts_law hU (fun b => (b1 b).1) b2 b3 c hc
  have hae : {ω | ∀ b, Nat.card {j // U ω j ∈ B b} = c b}
      =ᵐ[μ] {ω | (∀ j, U ω j ∈ Set.Ico (0 : ℝ) 1) ∧ ∀ b, Nat.card {j // U ω j ∈ B b} = c b} := by
    have h2 : ∀ᵐ ω ∂μ, ∀ j, U ω j ∈ Set.Ico (0 : ℝ) 1 := by
      refine ae_all_iff.2 fun j => ?_
      have h3 : ∀ᵐ u ∂(volume.restrict (Set.Ico (0 : ℝ) 1)), u ∈ Set.Ico (0 : ℝ) 1 := ae_restrict_mem measurableSet_Ico
      exact (hU.uniform j).quasiMeasurePreserving.ae h3
    filter_upwards [h2] with ω hω
    exact propext ⟨fun h => ⟨hω, h⟩, fun h => h.2⟩
  rw [measure_congr hae, h1]
  simp only [(b1 _).2]
  have hm : ((Nat.multinomial Finset.univ c : ℕ) : ℝ) = (k.toNat).factorial / (∏ b, (c b).factorial : ℕ) := by
    have h4 := Nat.multinomial_spec Finset.univ c
    rw [hc] at h4
    rw [← h4]
    have h5 : ((∏ b, (c b).factorial : ℕ) : ℝ) ≠ 0 := by
      exact_mod_cast (Finset.prod_pos fun b _ => Nat.factorial_pos (c b)).ne'
    rw [Nat.cast_mul]
    field_simp
  rw [← hm, ENNReal.ofReal_mul (Nat.cast_nonneg _), ENNReal.ofReal_natCast,
    ENNReal.ofReal_prod_of_nonneg fun b _ => pow_nonneg (hnorm.1 b) _]
  refine congrArg _ (Finset.prod_congr rfl fun b _ => ?_)
  rw [ENNReal.ofReal_pow (hnorm.1 b)]

/-- Non-vacuity of C66 and C67: independent uniform numbers exist, for every number of shots (the remaining hypotheses
are those of C27 and C29, see the examples there). -/
theorem indepUniform_exists (k : ℕ) :
    IndepUniform (Measure.pi fun _ : Fin k => volume.restrict (Set.Ico (0 : ℝ) 1)) fun ω : Fin k → ℝ => ω := by
  have : IsProbabilityMeasure (volume.restrict (Set.Ico (0 : ℝ) 1)) :=
    ⟨by rw [Measure.restrict_apply_univ, Real.volume_Ico]; norm_num⟩
  exact ⟨fun j => measurePreserving_eval _ j, iIndepFun_pi (X := fun _ => id) fun _ => aemeasurable_id⟩

end Verif
