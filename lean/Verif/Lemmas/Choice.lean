import Mathlib.MeasureTheory.Measure.Lebesgue.Basic
import Verif.Model.States
import Verif.SpecStates
import Verif.Lemmas.Expect

/-! # `jax.random.choice` and the histogram of samples -/

namespace Verif
open NDArray

theorem length_cumsum (p : List ℝ) : (cumsum p).length = p.length := by simp [cumsum]

theorem take_sum_mono {p : List ℝ} (h : ∀ x ∈ p, 0 ≤ x) {i j : ℕ} (hij : i ≤ j) : (p.take i).sum ≤ (p.take j).sum := by
  have : p.take i = (p.take j).take i := by rw [List.take_take, min_eq_left hij]
  rw [this]
  have hs := List.sum_take_add_sum_drop (p.take j) i
  have : 0 ≤ ((p.take j).drop i).sum := List.sum_nonneg fun x hx => h x (List.mem_of_mem_take (List.mem_of_mem_drop hx))
  linarith

/-- The number of elements of `range N` below which a monotone predicate holds. -/
theorem filter_range_length {N i : ℕ} {P : ℕ → Prop} [DecidablePred P] (hi : i ≤ N) (h1 : ∀ k < i, P k) (h2 : ∀ k, i ≤ k → k < N → ¬ P k) :
    ((List.range N).filter fun k => decide (P k)).length = i := by
  obtain ⟨m, rfl⟩ := Nat.exists_eq_add_of_le hi
  rw [List.range_add, List.filter_append, List.filter_eq_self.2, List.filter_eq_nil_iff.2]
  · simp
  · intro k hk
    obtain ⟨j, hj, rfl⟩ := List.mem_map.1 hk
    simpa using h2 _ (by omega) (by have := List.mem_range.1 hj; omega)
  · intro k hk; simpa using h1 k (List.mem_range.1 hk)

theorem choiceIndex_eq_range (p : List ℝ) (u : ℝ) :
    choiceIndex p u = ((List.range p.length).filter fun k => decide ((p.take (k + 1)).sum < p.sum * (1 - u))).length := by
  rw [choiceIndex, cumsum, List.filter_map, List.length_map]; rfl

/-- An upper bound that needs no assumption on the single probabilities. -/
theorem choiceIndex_lt {p : List ℝ} (hne : p ≠ []) (hs : 0 ≤ p.sum) {u : ℝ} (hu : 0 ≤ u) : choiceIndex p u < p.length := by
  rw [choiceIndex_eq_range]
  have hpos : 0 < p.length := List.length_pos_iff.2 hne
  have hlast : ¬ (p.take (p.length - 1 + 1)).sum < p.sum * (1 - u) := by
    rw [Nat.sub_add_cancel hpos, List.take_length, not_lt]
    nlinarith
  have := List.length_filter_lt_length_iff_exists (p := fun k => decide ((p.take (k + 1)).sum < p.sum * (1 - u)))
    (l := List.range p.length)
  rw [List.length_range] at this
  exact this.2 ⟨p.length - 1, List.mem_range.2 (by omega), by simpa using hlast⟩

/-- Which index is drawn: the one whose interval of partial sums contains the threshold. -/
theorem choiceIndex_eq_iff {p : List ℝ} (hp : ∀ x ∈ p, 0 ≤ x) (hs : 0 < p.sum) {u : ℝ} (hu : 0 ≤ u) (hu1 : u < 1) (i : ℕ) :
    choiceIndex p u = i ↔ i < p.length ∧ (p.take i).sum < p.sum * (1 - u) ∧ p.sum * (1 - u) ≤ (p.take (i + 1)).sum := by
  have hne : p ≠ [] := by rintro rfl; simp at hs
  have key : ∀ i, i < p.length → (p.take i).sum < p.sum * (1 - u) → p.sum * (1 - u) ≤ (p.take (i + 1)).sum →
      choiceIndex p u = i := by
    intro i hi h1 h2
    rw [choiceIndex_eq_range]
    refine filter_range_length hi.le (fun k hk => ?_) fun k hk _ => ?_
    · exact lt_of_le_of_lt (take_sum_mono hp (by omega)) h1
    · exact not_lt.2 (h2.trans (take_sum_mono hp (by omega)))
  constructor
  · intro h
    -- the least index whose partial sum reaches the threshold
    have hex : ∃ k, k < p.length ∧ p.sum * (1 - u) ≤ (p.take (k + 1)).sum := by
      refine ⟨p.length - 1, ?_, ?_⟩
      · have := List.length_pos_iff.2 hne; omega
      · rw [Nat.sub_add_cancel (List.length_pos_iff.2 hne), List.take_length]; nlinarith
    classical
    have h1 := Nat.find_spec hex
    have h0 : (p.take (Nat.find hex)).sum < p.sum * (1 - u) := by
      rcases Nat.eq_zero_or_pos (Nat.find hex) with hz | hpos
      · rw [hz]; simp only [List.take_zero, List.sum_nil]; exact mul_pos hs (by linarith)
      · have := Nat.find_min hex (m := Nat.find hex - 1) (by omega)
        rw [Nat.sub_add_cancel hpos] at this
        push Not at this
        exact this (by omega)
    have := key _ h1.1 h0 h1.2
    rw [h] at this
    rw [this]
    exact ⟨h1.1, h0, h1.2⟩
  · rintro ⟨h1, h2, h3⟩
    exact key i h1 h2 h3

theorem take_succ_sum (p : List ℝ) {i : ℕ} (hi : i < p.length) : (p.take (i + 1)).sum = (p.take i).sum + p[i] := by
  rw [List.sum_take_succ _ _ hi]

/-- An index is only drawn if its probability is positive. -/
theorem choiceIndex_pos {p : List ℝ} (hp : ∀ x ∈ p, 0 ≤ x) (hs : 0 < p.sum) {u : ℝ} (hu : 0 ≤ u) (hu1 : u < 1) :
    0 < p.getD (choiceIndex p u) 0 := by
  obtain ⟨h1, h2, h3⟩ := (choiceIndex_eq_iff hp hs hu hu1 _).1 rfl
  rw [take_succ_sum p h1] at h3
  rw [List.getD_eq_getElem?_getD, List.getElem?_eq_getElem h1]
  simp only [Option.getD_some]
  linarith

/-- The uniform numbers that draw an index form an interval. -/
theorem choiceIndex_set {p : List ℝ} (hp : ∀ x ∈ p, 0 ≤ x) (hs : 0 < p.sum) {i : ℕ} (hi : i < p.length) :
    {u : ℝ | u ∈ Set.Ico 0 1 ∧ choiceIndex p u = i}
      = Set.Ico (1 - (p.take (i + 1)).sum / p.sum) (1 - (p.take i).sum / p.sum) := by
  ext u
  have h0 : 0 ≤ (p.take i).sum := by simpa using take_sum_mono hp (Nat.zero_le i)
  have h1 : (p.take (i + 1)).sum ≤ p.sum := by
    simpa using take_sum_mono hp (show i + 1 ≤ p.length from hi)
  constructor
  · rintro ⟨hu, hc⟩
    obtain ⟨-, h2, h3⟩ := (choiceIndex_eq_iff hp hs hu.1 hu.2 i).1 hc
    constructor
    · rw [sub_le_comm, le_div_iff₀ hs]; linarith
    · rw [lt_sub_comm, div_lt_iff₀ hs]; linarith
  · rintro ⟨h2, h3⟩
    rw [sub_le_comm, le_div_iff₀ hs] at h2
    rw [lt_sub_comm, div_lt_iff₀ hs] at h3
    have hu : u ∈ Set.Ico (0 : ℝ) 1 := by
      constructor
      · by_contra hneg
        push Not at hneg
        nlinarith
      · by_contra hneg
        push Not at hneg
        nlinarith
    exact ⟨hu, (choiceIndex_eq_iff hp hs hu.1 hu.2 i).2 ⟨hi, by linarith, by linarith⟩⟩

theorem choiceIndex_measurable {p : List ℝ} (hp : ∀ x ∈ p, 0 ≤ x) (hs : 0 < p.sum) (i : ℕ) :
    MeasurableSet {u : ℝ | u ∈ Set.Ico (0 : ℝ) 1 ∧ choiceIndex p u = i} := by
  by_cases hi : i < p.length
  · rw [choiceIndex_set hp hs hi]; exact measurableSet_Ico
  · convert MeasurableSet.empty
    rw [Set.eq_empty_iff_forall_notMem]
    rintro u ⟨hu, rfl⟩
    exact hi (choiceIndex_lt (by rintro rfl; simp at hs) hs.le hu.1)

/-- The set of uniform numbers that draw an index has its probability as measure. -/
theorem choiceIndex_volume {p : List ℝ} (hp : ∀ x ∈ p, 0 ≤ x) (hs : 0 < p.sum) {i : ℕ} (hi : i < p.length) :
    MeasureTheory.volume {u : ℝ | u ∈ Set.Ico 0 1 ∧ choiceIndex p u = i} = ENNReal.ofReal (p.getD i 0 / p.sum) := by
  rw [choiceIndex_set hp hs hi, Real.volume_Ico, List.getD_eq_getElem?_getD, List.getElem?_eq_getElem hi, take_succ_sum p hi]
  congr 1
  simp only [Option.getD_some]
  field_simp
  ring

/-! ## Bit strings -/

theorem formatBin_succ {n k : ℕ} (hn : 1 ≤ n) {r : ℕ} (hr : r < 2) :
    (formatBin (n + 1) (2 * k + r)).toList = (formatBin n k).toList ++ [if r = 0 then '0' else '1'] := by
  simp only [formatBin, String.toList_ofList]
  by_cases hk : k = 0
  · subst hk
    obtain ⟨m, rfl⟩ : ∃ m, n = m + 1 := ⟨n - 1, by omega⟩
    obtain rfl | rfl : r = 0 ∨ r = 1 := by omega
    · simp [← List.replicate_succ']
    · simp [← List.replicate_succ']
  · have h0 : 2 * k + r ≠ 0 := by omega
    have hd : Nat.digits 2 (2 * k + r) = r :: Nat.digits 2 k := by
      rw [add_comm]; exact Nat.digits_add 2 (by norm_num) r k hr (.inr hk)
    rw [if_neg h0, if_neg hk, hd]
    simp

/-- `format(k, "0{n}b")` is the bit string of the label with index `k`. -/
theorem formatBin_bits {n : ℕ} (hn : 1 ≤ n) {l : List ℕ} (hl : l.length = n) (h2 : ∀ x ∈ l, x < 2) :
    (formatBin n (binVal l)).toList = l.map fun d => if d = 0 then '0' else '1' := by
  induction n generalizing l with
  | zero => omega
  | succ n ih =>
    obtain ⟨l', r, rfl⟩ : ∃ l' r, l = l' ++ [r] := by
      rcases List.eq_nil_or_concat l with rfl | ⟨l', r, h⟩
      · simp at hl
      · exact ⟨l', r, by simpa using h⟩
    have hr : r < 2 := h2 r (by simp)
    have hb : binVal (l' ++ [r]) = 2 * binVal l' + r := by simp [binVal, List.foldl_append]
    rw [hb]
    by_cases hn0 : n = 0
    · subst hn0
      have : l' = [] := by simpa using hl
      subst this
      obtain rfl | rfl : r = 0 ∨ r = 1 := by omega
      · decide
      · simp [formatBin, binVal]
    · rw [formatBin_succ (by omega) hr, ih (by omega) (by simpa using hl) fun x hx => h2 x (by simp [hx])]
      simp

theorem formatBin_lab {n : ℕ} (hn : 1 ≤ n) (b : Lab n) : formatBin n (binVal b.bits) = b.str := by
  rw [Lab.str, ← formatBin_bits hn b.isBits_bits.1 b.isBits_bits.2, String.ofList_toList]

theorem Lab.str_injective {n : ℕ} : Function.Injective (Lab.str (n := n)) := by
  intro a b h
  have h := congrArg String.toList h
  simp only [Lab.str, String.toList_ofList] at h
  apply Lab.bits_injective
  have hinj : ∀ {l l' : List ℕ}, (∀ x ∈ l, x < 2) → (∀ x ∈ l', x < 2) →
      (l.map fun d => if d = 0 then '0' else '1') = (l'.map fun d => if d = 0 then '0' else '1') → l = l' := by
    intro l
    induction l with
    | nil => intro l' _ _ h; simpa using h.symm
    | cons x xs ih =>
      intro l' h1 h2 h
      cases l' with
      | nil => simp at h
      | cons y ys =>
        simp only [List.map_cons, List.cons.injEq] at h
        have hx := h1 x (by simp)
        have hy := h2 y (by simp)
        obtain rfl : x = y := by
          obtain rfl | rfl : x = 0 ∨ x = 1 := by omega
          all_goals obtain rfl | rfl : y = 0 ∨ y = 1 := by omega
          all_goals first | rfl | (exfalso; revert h; simp)
        rw [ih (fun z hz => h1 z (by simp [hz])) (fun z hz => h2 z (by simp [hz])) h.2]
  exact hinj a.isBits_bits.2 b.isBits_bits.2 h

/-! ## Histograms -/

theorem mem_zipIdx_bincount {samples : List ℕ} {c k : ℕ} :
    (c, k) ∈ (bincount samples).zipIdx ∧ 0 < c ↔ c = samples.count k ∧ k ∈ samples := by
  rw [List.mk_mem_zipIdx_iff_getElem?, bincount]
  have hle : ∀ {l : List ℕ} {k}, k ∈ l → k ≤ l.foldr max 0 := by
    intro l
    induction l with
    | nil => simp
    | cons x xs ih =>
      intro k hk
      rcases List.mem_cons.1 hk with rfl | hk
      · simp
      · exact le_trans (ih hk) (by simp)
  constructor
  · rintro ⟨h, hc⟩
    rw [List.getElem?_map] at h
    rcases hk : (List.range (samples.foldr max 0 + 1))[k]? with _ | j
    · simp [hk] at h
    · obtain ⟨h1, h2⟩ := List.getElem?_eq_some_iff.1 hk
      simp only [List.getElem_range] at h2
      subst h2
      simp only [hk, Option.map_some, Option.some.injEq] at h
      exact ⟨h.symm, List.count_pos_iff.1 (h ▸ hc)⟩
  · rintro ⟨rfl, hk⟩
    refine ⟨?_, List.count_pos_iff.2 hk⟩
    rw [List.getElem?_map, List.getElem?_range (by have := hle hk; omega)]
    rfl

theorem bincount_sum (samples : List ℕ) : (bincount samples).sum = samples.length := by
  rw [bincount, ← List.sum_toFinset _ List.nodup_range, List.toFinset_range]
  have : ∀ k ∈ samples, k < samples.foldr max 0 + 1 := by
    intro k hk
    have hle : ∀ {l : List ℕ} {k}, k ∈ l → k ≤ l.foldr max 0 := by
      intro l
      induction l with
      | nil => simp
      | cons x xs ih =>
        intro k hk
        rcases List.mem_cons.1 hk with rfl | hk
        · simp
        · exact le_trans (ih hk) (by simp)
    have := hle hk; omega
  rw [← Multiset.coe_card, ← Multiset.sum_count_eq_card (s := Finset.range (samples.foldr max 0 + 1)) (m := (samples : Multiset ℕ))]
  · simp
  · intro a ha; exact Finset.mem_range.2 (this a (by simpa using ha))

/-- The histogram computed from the sampled indices `ks`. -/
theorem histogram {n : ℕ} (hn : 1 ≤ n) {ks : List ℕ} (hk : ∀ k ∈ ks, k < 2 ^ n) {counts : List (String × ℕ)}
    (hc : counts = (((bincount ks).zipIdx.filter fun c => 0 < c.1).map fun c => (formatBin n c.2, c.1))) :
    (counts.map Prod.fst).Nodup ∧ (counts.map Prod.snd).sum = ks.length ∧
      ∀ s c, (s, c) ∈ counts ↔ ∃ b : Lab n, s = b.str ∧ c = ks.count (binVal b.bits) ∧ 0 < c := by
  subst hc
  have hlab : ∀ k, k < 2 ^ n → ∃ b : Lab n, binVal b.bits = k := by
    intro k hk
    obtain ⟨l, hl, e⟩ := exists_bits hk
    obtain ⟨b, hb⟩ := bits_exists hl
    exact ⟨b, by rw [hb, e]⟩
  refine ⟨?_, ?_, fun s c => ?_⟩
  · rw [List.map_map]
    refine List.Nodup.map_on ?_ ?_
    · rintro ⟨c, k⟩ hx ⟨d, j⟩ hy hxy
      rw [List.mem_filter] at hx hy
      obtain ⟨rfl, hk1⟩ := mem_zipIdx_bincount.1 ⟨hx.1, by simpa using hx.2⟩
      obtain ⟨rfl, hj1⟩ := mem_zipIdx_bincount.1 ⟨hy.1, by simpa using hy.2⟩
      obtain ⟨b, rfl⟩ := hlab k (hk _ hk1)
      obtain ⟨b', rfl⟩ := hlab j (hk _ hj1)
      simp only [Function.comp_apply, formatBin_lab hn] at hxy
      rw [Lab.str_injective hxy]
    · exact (List.Nodup.of_map Prod.snd (by rw [List.zipIdx_map_snd]; exact List.nodup_range')).filter _
  · rw [List.map_map, ← bincount_sum ks]
    have hgen : ∀ (l : List ℕ) (m : ℕ),
        (((l.zipIdx m).filter fun c => decide (0 < c.1)).map (Prod.snd ∘ fun c : ℕ × ℕ => (formatBin n c.2, c.1))).sum = l.sum := by
      intro l
      induction l with
      | nil => intro m; rfl
      | cons x xs ih =>
        intro m
        rw [List.zipIdx_cons, List.filter_cons]
        by_cases hx : 0 < x
        · simp only [hx, decide_true, if_true, List.map_cons, List.sum_cons, ih, Function.comp_apply]
        · simp only [hx, decide_false, Bool.false_eq_true, if_false, ih, List.sum_cons]; omega
    exact hgen _ 0
  · rw [List.mem_map]
    constructor
    · rintro ⟨⟨d, k⟩, hm, he⟩
      rw [List.mem_filter] at hm
      simp only [Prod.mk.injEq] at he
      obtain ⟨rfl, rfl⟩ := he
      obtain ⟨rfl, hk1⟩ := mem_zipIdx_bincount.1 ⟨hm.1, by simpa using hm.2⟩
      obtain ⟨b, rfl⟩ := hlab k (hk _ hk1)
      exact ⟨b, formatBin_lab hn b, rfl, by simpa using hm.2⟩
    · rintro ⟨b, rfl, rfl, hc⟩
      refine ⟨(ks.count (binVal b.bits), binVal b.bits), ?_, by rw [formatBin_lab hn]⟩
      rw [List.mem_filter]
      exact ⟨(mem_zipIdx_bincount.2 ⟨rfl, List.count_pos_iff.1 hc⟩).1, by simpa using hc⟩

/-! ## The probabilities of a state -/

theorem prob_vec {n : ℕ} (a : NDArray ℂ) (b : Lab n) : (State.vec a).prob n b = ‖ket n a b‖ ^ 2 := by
  rw [State.prob]
  simp only [State.mat, Matrix.of_apply, ket]
  rw [← Complex.normSq_eq_norm_sq, Complex.star_def, Complex.mul_conj]; simp

theorem probs_getD {n : ℕ} {f : List ℕ → ℝ} (b : Lab n) :
    ((allIdx (List.replicate n 2)).map f).getD (binVal b.bits) 0 = f b.bits := by
  have h := getElem?_allIdx_ravel (forall₂_replicate.2 b.isBits_bits)
  have hr : ravel (List.replicate n 2) b.bits = binVal b.bits := by
    have := ravel_replicate_two (idx := b.bits)
    rwa [b.isBits_bits.1] at this
  rw [hr] at h
  rw [List.getD_eq_getElem?_getD, List.getElem?_map, h]; rfl

theorem probabilities_vec {n : ℕ} {a : NDArray ℂ} (ha : IsKet n a) :
    probabilities (.vec a) = .ok ⟨[2 ^ n], (allIdx (List.replicate n 2)).map fun i => ‖a.get i‖ ^ 2⟩ := by
  simp only [probabilities, ha.shape, List.prod_replicate]
  conv_lhs => rw [data_eq_map ha]
  simp [norm_pow]

theorem probabilities_dm {n : ℕ} {a : NDArray ℂ} (ha : a.shape = List.replicate (n + n) 2) :
    probabilities (.dm ⟨⟨[2 ^ n, 2 ^ n], a.data⟩⟩) = .ok ⟨[2 ^ n],
      (allIdx (List.replicate n 2)).map fun i => (a.get (i ++ i)).re⟩ := by
  simp only [probabilities, NDArray.diagonal, bind, Except.bind, pure, Except.pure, List.nil_append, min_self, ofFn, List.map_map]
  refine congrArg _ (congrArg (NDArray.mk _) ?_)
  have h1 : allIdx [2 ^ n] = (List.range (2 ^ n)).map fun i => [i] := by simp [allIdx, List.flatMap_singleton', List.map_eq_flatMap]
  rw [h1, ← map_binVal_allIdx, List.map_map, List.map_map]
  refine List.map_congr_left fun l hl => ?_
  obtain ⟨b, rfl⟩ := bits_exists (mem_allIdx_two.1 hl)
  simp only [Function.comp_apply, List.getLastD_cons, List.getLastD_nil, List.dropLast_singleton]
  have := entries_reshape ha b b
  simp only [entries, dmMat] at this
  rw [← this]

end Verif
