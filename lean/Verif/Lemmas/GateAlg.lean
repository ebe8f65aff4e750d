import Verif.Lemmas.ApplyDense
import Mathlib.Algebra.BigOperators.Intervals

/-! # Algebra of gate operators: products, adjoints, identity, commutation -/

namespace Verif
open NDArray
variable {K : Type} [CommRing K] {n : ℕ}

theorem sum_binVal {M : Type} [AddCommMonoid M] (k : ℕ) (f : ℕ → M) :
    ((allIdx (List.replicate k 2)).map fun s => f (binVal s)).sum = ∑ l ∈ Finset.range (2 ^ k), f l := by
  have h : (allIdx (List.replicate k 2)).map (fun s => f (binVal s))
      = ((allIdx (List.replicate k 2)).map (ravel (List.replicate k 2))).map f := by
    rw [List.map_map]
    apply List.map_congr_left
    intro s hs
    simp [ravel_two (mem_allIdx_two.1 hs)]
  rw [h, NDArray.map_ravel_allIdx, prod_replicate_two]
  rw [← List.sum_toFinset _ List.nodup_range, List.toFinset_range]

theorem agree_controls {ts cs : List ℕ} (hv : ValidDims n (cs ++ ts)) {b b' : Lab n}
    (h : Lab.AgreeOff ts b b') : (∀ c ∈ cs, b.bit c = 1) ↔ ∀ c ∈ cs, b'.bit c = 1 := by
  have hdisj : ∀ q ∈ cs, q ∉ ts := fun q hq hq' =>
    (List.nodup_append.1 hv.nodup).2.2 q hq q hq' rfl
  have : ∀ c ∈ cs, b.bit c = b'.bit c := fun c hc =>
    Lab.agreeOff_iff.1 h c (hv.lt c (List.mem_append_left _ hc)) (hdisj c hc)
  constructor
  · intro h1 c hc; rw [← this c hc]; exact h1 c hc
  · intro h1 c hc; rw [this c hc]; exact h1 c hc

theorem ValidDims.right {cs ts : List ℕ} (h : ValidDims n (cs ++ ts)) : ValidDims n ts :=
  ⟨(List.nodup_append.1 h.nodup).2.1, fun q hq => h.lt q (List.mem_append_right _ hq)⟩

theorem ValidDims.left {cs ts : List ℕ} (h : ValidDims n (cs ++ ts)) : ValidDims n cs :=
  ⟨(List.nodup_append.1 h.nodup).1, fun q hq => h.lt q (List.mem_append_left _ hq)⟩

theorem gateMat_mul (U V : ℕ → ℕ → K) {ts cs : List ℕ} (hv : ValidDims n (cs ++ ts)) :
    gateMat n U ts cs * gateMat n V ts cs = gateMat n (mulE (2 ^ ts.length) U V) ts cs := by
  funext b b''
  rw [Matrix.mul_apply]
  by_cases hb : ∀ c ∈ cs, b.bit c = 1
  · have h1 : ∀ b', gateMat n U ts cs b b' * gateMat n V ts cs b' b''
        = if Lab.AgreeOff ts b b' then U (b.idx ts) (b'.idx ts) *
            (if Lab.AgreeOff ts b b'' then V (b'.idx ts) (b''.idx ts) else 0) else 0 := by
      intro b'
      simp only [gateMat, if_pos hb]
      by_cases hag : Lab.AgreeOff ts b b'
      · have hb' := (agree_controls hv hag).1 hb
        have hiff : Lab.AgreeOff ts b' b'' ↔ Lab.AgreeOff ts b b'' :=
          ⟨fun h => hag.trans h, fun h => hag.symm.trans h⟩
        simp only [if_pos hag, if_pos hb', hiff]
      · simp [if_neg hag]
    simp only [h1]
    rw [sum_agreeOff hv.right.nodup hv.right.lt b (fun b' => U (b.idx ts) (b'.idx ts) *
            (if Lab.AgreeOff ts b b'' then V (b'.idx ts) (b''.idx ts) else 0))]
    simp only [gateMat, if_pos hb]
    by_cases hag : Lab.AgreeOff ts b b''
    · simp only [if_pos hag, mulE]
      rw [← sum_binVal]
      congr 1
      apply List.map_congr_left
      intro s hs
      rw [Lab.idx_override b (mem_allIdx_two.1 hs) hv.right.nodup hv.right.lt]
    · simp [if_neg hag]
  · simp only [gateMat, if_neg hb]
    simp only [ite_mul, one_mul, zero_mul]
    rw [Finset.sum_ite_eq Finset.univ b]
    simp [if_neg hb]

theorem gateMat_one {ts cs : List ℕ} : gateMat n (oneE (K := K)) ts cs = 1 := by
  funext b b'
  rw [Matrix.one_apply]
  simp only [gateMat]
  by_cases he : b = b'
  · subst he; simp [Lab.AgreeOff.refl, oneE]
  · rw [if_neg he]
    split
    · split
      · rename_i hag
        rw [oneE, if_neg]
        intro h; exact he (Lab.eq_of_agreeOff_of_idx hag h)
      · rfl
    · rfl

theorem gateMat_conjTranspose [StarRing K] (U : ℕ → ℕ → K) {ts cs : List ℕ} (hv : ValidDims n (cs ++ ts)) :
    (gateMat n U ts cs).conjTranspose = gateMat n (conjT U) ts cs := by
  funext b b'
  rw [Matrix.conjTranspose_apply]
  simp only [gateMat]
  by_cases hag : Lab.AgreeOff ts b b'
  · have hiff := agree_controls hv hag
    by_cases hb : ∀ c ∈ cs, b.bit c = 1
    · rw [if_pos hb, if_pos (hiff.1 hb), if_pos hag, if_pos hag.symm]; rfl
    · rw [if_neg hb, if_neg (fun h => hb (hiff.2 h))]
      by_cases he : b = b'
      · simp [he]
      · rw [if_neg he, if_neg (fun h => he h.symm)]; simp
  · have hag' : ¬ Lab.AgreeOff ts b' b := fun h => hag h.symm
    have he : b ≠ b' := by rintro rfl; exact hag (Lab.AgreeOff.refl _ _)
    rw [if_neg hag, if_neg hag', if_neg he, if_neg he.symm]
    simp

/-- Unitary matrices give unitary gate operators. -/
theorem gateMat_unitary [StarRing K] {U : ℕ → ℕ → K} {ts cs : List ℕ} (hv : ValidDims n (cs ++ ts))
    (hU : IsUnitaryE (2 ^ ts.length) U) :
    (gateMat n U ts cs).conjTranspose * gateMat n U ts cs = 1 ∧
    gateMat n U ts cs * (gateMat n U ts cs).conjTranspose = 1 := by
  rw [gateMat_conjTranspose U hv, gateMat_mul _ _ hv, gateMat_mul _ _ hv]
  constructor
  · rw [gateMat_congr (V := oneE) fun i j hi hj => (hU i j hi hj).1, gateMat_one]
  · rw [gateMat_congr (V := oneE) fun i j hi hj => (hU i j hi hj).2, gateMat_one]

/-- Product of uncontrolled operators on disjoint qubits. -/
theorem gateMat_mul_disjoint (U V : ℕ → ℕ → K) {A B : List ℕ} (hv : ValidDims n (A ++ B)) (b b'' : Lab n) :
    (gateMat n U A [] * gateMat n V B []) b b''
      = if Lab.AgreeOff (A ++ B) b b'' then U (b.idx A) (b''.idx A) * V (b.idx B) (b''.idx B) else 0 := by
  have hdisj : ∀ q ∈ A, q ∉ B := fun q hq hq' => (List.nodup_append.1 hv.nodup).2.2 q hq q hq' rfl
  rw [Matrix.mul_apply]
  -- only the label carrying `b''` on `A` and `b` elsewhere contributes
  rw [Finset.sum_eq_single (b.override A (A.map b''.bit))]
  · rw [gateMat_nil_apply, if_pos (Lab.agreeOff_override _ _ _), gateMat_nil_apply,
      Lab.idx_override b (b''.isBits_map_bit A) hv.left.nodup hv.left.lt]
    have hB : (b.override A (A.map b''.bit)).idx B = b.idx B := by
      rw [Lab.idx, Lab.idx]
      congr 1
      apply List.map_congr_left
      intro q hq
      rw [Lab.bit_override _ _ _ (b''.isBits_map_bit A).2 (hv.right.lt q hq), if_neg]
      intro h; exact hdisj q h hq
    rw [hB]
    have hiff : Lab.AgreeOff B (b.override A (A.map b''.bit)) b'' ↔ Lab.AgreeOff (A ++ B) b b'' := by
      rw [Lab.agreeOff_iff, Lab.agreeOff_iff]
      constructor
      · intro h q hq hm
        have hA : q ∉ A := fun h' => hm (List.mem_append_left _ h')
        have := h q hq (fun h' => hm (List.mem_append_right _ h'))
        rwa [Lab.bit_override _ _ _ (b''.isBits_map_bit A).2 hq, if_neg hA] at this
      · intro h q hq hm
        rw [Lab.bit_override _ _ _ (b''.isBits_map_bit A).2 hq]
        by_cases hA : q ∈ A
        · rw [if_pos hA]
          have := List.idxOf_lt_length_of_mem hA
          simp [List.getD_eq_getElem?_getD, this]
        · rw [if_neg hA]; exact h q hq (by simp [hA, hm])
    simp only [hiff, mul_ite, mul_zero]
    rfl
  · intro b' _ hne
    rw [gateMat_nil_apply, gateMat_nil_apply]
    by_cases h1 : Lab.AgreeOff A b b'
    · by_cases h2 : Lab.AgreeOff B b' b''
      · exfalso; apply hne
        apply Lab.ext_bit
        intro q hq
        rw [Lab.bit_override _ _ _ (b''.isBits_map_bit A).2 hq]
        by_cases hA : q ∈ A
        · rw [if_pos hA]
          have := List.idxOf_lt_length_of_mem hA
          simp [List.getD_eq_getElem?_getD, this]
          exact Lab.agreeOff_iff.1 h2 q hq (hdisj q hA)
        · rw [if_neg hA]; exact (Lab.agreeOff_iff.1 h1 q hq hA).symm
      · simp [if_neg h2]
    · simp [if_neg h1]
  · intro h; exact absurd (Finset.mem_univ _) h

/-- Gates on disjoint qubits commute. -/
theorem gateMat_comm_disjoint (U V : ℕ → ℕ → K) {ts cs ts' cs' : List ℕ}
    (hv : ValidDims n ((cs ++ ts) ++ (cs' ++ ts'))) :
    gateMat n U ts cs * gateMat n V ts' cs' = gateMat n V ts' cs' * gateMat n U ts cs := by
  have hv1 : ValidDims n (cs ++ ts) := hv.left
  have hv2 : ValidDims n (cs' ++ ts') := hv.right
  have hv' : ValidDims n ((cs' ++ ts') ++ (cs ++ ts)) :=
    ⟨(List.perm_append_comm.nodup_iff).1 hv.nodup, fun q hq => hv.lt q (List.perm_append_comm.mem_iff.1 hq)⟩
  rw [gateMat_controls U hv1.nodup hv1.left.lt, gateMat_controls V hv2.nodup hv2.left.lt]
  funext b b''
  rw [gateMat_mul_disjoint _ _ hv, gateMat_mul_disjoint _ _ hv']
  have hiff : Lab.AgreeOff ((cs ++ ts) ++ (cs' ++ ts')) b b'' ↔ Lab.AgreeOff ((cs' ++ ts') ++ (cs ++ ts)) b b'' := by
    rw [Lab.agreeOff_iff, Lab.agreeOff_iff]
    simp only [List.mem_append]
    constructor <;> (intro h q hq hm; exact h q hq (by tauto))
  simp only [hiff]
  rw [mul_comm]

end Verif
