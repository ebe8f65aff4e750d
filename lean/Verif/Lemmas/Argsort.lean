import Verif.Model.Argsort
import Verif.Lemmas.NegIndex

/-! # `apply_operator` on density matrices with an arbitrary `np.argsort`: helper lemmas -/

set_option autoImplicit false

namespace Verif
open NDArray

variable {K : Type} [CommRing K] {n k : ℕ}

theorem perm_argsortZ (l : List ℤ) : (argsortZ l).Perm (List.range l.length) := List.perm_insertionSort _ _

theorem sorted_argsortZ (l : List ℤ) : (argsortZ l).Pairwise fun i j => l.getD i 0 ≤ l.getD j 0 := by
  let R : ℕ → ℕ → Prop := fun i j => l.getD i 0 ≤ l.getD j 0
  have : Std.Total R := ⟨fun a b => Int.le_total _ _⟩
  have : IsTrans _ R := ⟨fun a b c => Int.le_trans⟩
  exact List.pairwise_insertionSort R _

/-- The stable sort. -/
def stableArgsort : Argsort := ⟨argsortZ, perm_argsortZ, sorted_argsortZ⟩

theorem Argsort.eq_of_nodup (as : Argsort) {l : List ℤ} (hl : l.Nodup) : as.fn l = argsortZ l := by
  refine ((as.perm l).trans (perm_argsortZ l).symm).eq_of_pairwise (fun a b ha hb h1 h2 => ?_) (as.sorted l) (sorted_argsortZ l)
  have ha' : a < l.length := by simpa using (as.perm l).mem_iff.1 ha
  have hb' : b < l.length := by simpa using (perm_argsortZ l).mem_iff.1 hb
  have h := le_antisymm h1 h2
  have e1 : l.getD a 0 = l[a] := by simp [ha']
  have e2 : l.getD b 0 = l[b] := by simp [hb']
  rw [e1, e2] at h
  exact (hl.getElem_inj_iff).1 h

theorem Argsort.nodup (as : Argsort) (l : List ℤ) : (as.fn l).Nodup := (as.perm l).nodup_iff.2 List.nodup_range

theorem Argsort.nat (as : Argsort) {l : List ℕ} (hl : l.Nodup) : as.fn (l.map Int.ofNat) = argsort l := by
  rw [as.eq_of_nodup (hl.map Int.ofNat_injective), argsort_map_ofNat]

theorem Argsort.ranked (as : Argsort) (l : List ℤ) : as.fn ((as.fn l).map Int.ofNat) = argsort (as.fn l) := as.nat (as.nodup l)

/-- `ranked_support` is trivial exactly if `ordered_support` is. -/
theorem argsort_eq_range_iff {l : List ℕ} {m : ℕ} (h : l.Perm (List.range m)) : argsort l = List.range m ↔ l = List.range m := by
  have hl : l.length = m := by simpa using h.length_eq
  have hn : l.Nodup := h.nodup_iff.2 List.nodup_range
  rw [argsort_perm_range h]
  constructor
  · intro e
    refine List.ext_getElem (by simp [hl]) fun i h1 h2 => ?_
    have hi : i < m := by simpa using h2
    have e' := congrArg (fun x => x[i]?) e
    simp [hi] at e'
    have hm : i ∈ l := h.mem_iff.2 (List.mem_range.2 hi)
    have h3 := List.getElem_idxOf (List.idxOf_lt_length_iff.2 hm)
    simp only [e'] at h3
    rw [List.getElem_range]; exact h3
  · rintro rfl
    refine List.ext_getElem (by simp) fun i h1 h2 => ?_
    have hi : i < m := by simpa using h2
    rw [List.getElem_map, List.getElem_range]
    have := List.nodup_range.idxOf_getElem i (by simpa using hi : i < (List.range m).length)
    rwa [List.getElem_range] at this

theorem permuteBasisA_trivial (as : Argsort) {l : List ℤ} (h : as.fn l = List.range l.length) (a : NDArray K) (inv : Bool) :
    permuteBasisA as a l inv = .ok a := by
  simp only [permuteBasisA]
  rw [if_pos]
  rw [as.ranked, (argsort_eq_range_iff (as.perm l))]
  exact h

theorem permuteBasisA_long (as : Argsort) {l : List ℤ} (h : as.fn l ≠ List.range l.length) {a : NDArray K}
    (ha : a.ndim ≠ 2 * l.length) : permuteBasisA as a l false = .error .typeError := by
  simp only [permuteBasisA]
  rw [if_neg, if_neg (by simp), transpose, if_neg]
  · intro hp
    have := hp.length_eq
    rw [List.length_append, List.length_map, as.ranked, (perm_argsort _).length_eq, List.length_range, (as.perm l).length_eq,
      List.length_range, List.length_range] at this
    omega
  · rw [as.ranked, (argsort_eq_range_iff (as.perm l))]
    exact h

/-- With distinct keys the choice of `np.argsort` does not matter. -/
theorem permuteBasisA_nodup (as : Argsort) {l : List ℤ} (h : l.Nodup) (a : NDArray K) (inv : Bool) :
    permuteBasisA as a l inv = permuteBasisZ a l inv := by
  have e1 := as.eq_of_nodup h
  have hp : (argsort (argsortZ l)).Perm (List.range l.length) := by
    have := perm_argsort (argsortZ l)
    rwa [(perm_argsortZ l).length_eq, List.length_range] at this
  have hr := hp.nodup_iff.2 List.nodup_range
  have hn : (argsort (argsortZ l) ++ (argsort (argsortZ l)).map (· + l.length)).Nodup := by
    refine List.nodup_append.2 ⟨hr, hr.map (add_left_injective _), fun x hx y hy => ?_⟩
    have h1 := List.mem_range.1 (hp.mem_iff.1 hx)
    obtain ⟨z, -, rfl⟩ := List.mem_map.1 hy
    omega
  have e2 := as.ranked l
  rw [e1] at e2
  simp only [permuteBasisA, permuteBasisZ, e1, e2, as.nat hn]

/-- A sorting order that is the identity means that the keys are sorted. -/
theorem Argsort.pairwise_of_range (as : Argsort) {l : List ℤ} (h : as.fn l = List.range l.length) : l.Pairwise (· ≤ ·) := by
  have hs := as.sorted l
  rw [h] at hs
  rw [List.pairwise_iff_getElem] at hs ⊢
  intro i j hi hj hij
  have := hs i j (by simpa using hi) (by simpa using hj) hij
  simpa [hi, hj] using this

theorem stableArgsort_range_iff {l : List ℤ} : stableArgsort.fn l = List.range l.length ↔ l.Pairwise (· ≤ ·) := by
  refine ⟨stableArgsort.pairwise_of_range, fun h => ?_⟩
  change argsortZ l = _
  rw [argsortZ, List.Pairwise.insertionSort_eq]
  rw [List.pairwise_iff_getElem] at h ⊢
  intro i j hi hj hij
  simp only [List.length_range] at hi hj
  simpa [hi, hj] using h i j hi hj hij

theorem range_subperm_supportPerm (so : SetOrder) (dims : List ℤ) :
    ((List.range n).map Int.ofNat).Subperm (supportPerm so n dims) := by
  apply List.Nodup.subperm (List.nodup_range.map Int.ofNat_injective)
  intro x hx
  rw [supportPerm, List.mem_append]
  by_cases hx' : x ∈ dims
  · exact .inl hx'
  · obtain ⟨y, hy, rfl⟩ := List.mem_map.1 hx
    refine .inr (List.mem_map.2 ⟨y, ?_, rfl⟩)
    rw [so.mem, List.mem_filter]
    exact ⟨hy, by simpa using hx'⟩

/-- Numbers that are repeated or not in the register make the support too long. -/
theorem long_supportPerm (so : SetOrder) {dims : List ℤ} (h : ¬ (dims.Nodup ∧ ∀ q ∈ dims, 0 ≤ q ∧ q < n)) :
    n < (supportPerm so n dims).length := by
  by_contra hl
  have hp := (range_subperm_supportPerm (n := n) so dims).perm_of_length_le (by simpa using hl)
  refine h ⟨?_, fun q hq => ?_⟩
  · have := hp.nodup_iff.1 (List.nodup_range.map Int.ofNat_injective)
    exact (List.nodup_append.1 this).1
  · obtain ⟨x, hx, rfl⟩ := List.mem_map.1 (hp.mem_iff.2 (List.mem_append_left _ hq))
    have := List.mem_range.1 hx
    simp; omega

variable [StarRing K]

theorem applyOperatorDMA_nodup (as : Argsort) (so : SetOrder) {op : NDArray K} (hop : IsOp k op) (ρ : DensityMatrix K)
    {ts cs : List ℤ} (h : (cs ++ ts).Nodup) : applyOperatorDMA as so ρ op ts cs = applyOperatorDMZ so ρ op ts cs := by
  obtain ⟨op', h1, -⟩ := prepareOperatorZ_eq hop ts cs
  have hp := nodup_supportPerm (n := ρ.array.ndim / 2) so h
  rw [supportPerm] at hp
  simp only [applyOperatorDMA, applyOperatorDMZ, h1, bind, Except.bind, permuteBasisA_nodup as hp]

theorem applyOperatorDMA_refused (as : Argsort) (so : SetOrder) {op : NDArray K} {ρ : DensityMatrix K} (hop : IsOp k op)
    (hρ : IsDM n ρ) {ts cs : List ℤ} (h : ¬ ((cs ++ ts).Nodup ∧ ∀ q ∈ cs ++ ts, 0 ≤ q ∧ q < n))
    (hs : as.fn (supportPerm so n (cs ++ ts)) ≠ List.range (supportPerm so n (cs ++ ts)).length) :
    applyOperatorDMA as so ρ op ts cs = .error .typeError := by
  obtain ⟨op', h1, -⟩ := prepareOperatorZ_eq hop ts cs
  have hdn : ρ.array.ndim / 2 = n := by simp [ndim, hρ.shape]; omega
  have hl := long_supportPerm so h
  have he := permuteBasisA_long as hs (a := ρ.array) (by simp [ndim, hρ.shape]; omega)
  rw [supportPerm] at he
  simp only [applyOperatorDMA, h1, bind, Except.bind, hdn, he]

/-- If the permutation is trivial, the operator acts on the first qubits. -/
theorem applyOperatorDMA_first (as : Argsort) (so : SetOrder) {op : NDArray K} {ρ : DensityMatrix K} (hop : IsOp k op)
    (hρ : IsDM n ρ) {ts cs : List ℤ}
    (hs : as.fn (supportPerm so n (cs ++ ts)) = List.range (supportPerm so n (cs ++ ts)).length) (hts : ts.length = k) :
    applyOperatorDMA as so ρ op ts cs
      = applyOperatorDM ascOrder ρ op (List.range' cs.length k) (ctlOf (List.range cs.length)) := by
  obtain ⟨op', h1, h2⟩ := prepareOperatorZ_eq hop ts cs
  have hdn : ρ.array.ndim / 2 = n := by simp [ndim, hρ.shape]; omega
  rw [applyOperatorDMA, applyOperatorDM, h1, h2 _ (List.range cs.length) (by simp)]
  have e1 : ∀ (a : NDArray K) inv, permuteBasisA as a (supportPerm so n (cs ++ ts)) inv = .ok a :=
    fun a inv => permuteBasisA_trivial as hs a inv
  have hr : List.range cs.length ++ List.range' cs.length k = List.range (cs.length + k) := by
    rw [List.range_eq_range', List.range_eq_range']
    simpa using List.range'_append_1 (s := 0) (m := cs.length) (n := k)
  have hpw : (List.range (cs.length + k) ++ ascOrder.order ((List.range n).filter (· ∉ List.range (cs.length + k)))).Pairwise
      (· < ·) := by
    refine List.pairwise_append.2 ⟨List.pairwise_lt_range, ascOrder_pairwise _, fun a ha b hb => ?_⟩
    rw [ascOrder.mem, List.mem_filter] at hb
    rw [List.mem_range] at ha
    have := hb.2
    simp at this
    omega
  have e2 : ∀ (a : NDArray K) inv, permuteBasis a
      (List.range (cs.length + k) ++ ascOrder.order ((List.range n).filter (· ∉ List.range (cs.length + k)))) inv = .ok a := by
    intro a inv
    simp only [permuteBasis]
    rw [if_pos ((ranked_range_iff (hpw.imp fun h => ne_of_lt h)).2 hpw)]
  have hlen : (cs ++ ts).length = cs.length + k := by simp [hts]
  rw [supportPerm] at e1
  simp only [bind, Except.bind, hdn, e1, hr, e2, hlen, List.length_range]

/-- Acceptance of numbers that do not fit the register. -/
theorem applyOperatorDMA_accepts (as : Argsort) (so : SetOrder) {op : NDArray K} {ρ : DensityMatrix K} (hop : IsOp k op)
    (hρ : IsDM n ρ) {ts cs : List ℤ} (h : ¬ ((cs ++ ts).Nodup ∧ ∀ q ∈ cs ++ ts, 0 ≤ q ∧ q < n)) :
    (∃ r, applyOperatorDMA as so ρ op ts cs = .ok r) ↔
      ts.length = k ∧ as.fn (supportPerm so n (cs ++ ts)) = List.range (supportPerm so n (cs ++ ts)).length ∧
        cs.length + k ≤ 2 * n := by
  by_cases hs : as.fn (supportPerm so n (cs ++ ts)) = List.range (supportPerm so n (cs ++ ts)).length
  swap
  · rw [applyOperatorDMA_refused as so hop hρ h hs]
    exact iff_of_false (by rintro ⟨r, h⟩; cases h) fun h => hs h.2.1
  obtain ⟨op', h1, -⟩ := prepareOperatorZ_eq hop ts cs
  have hdn : ρ.array.ndim / 2 = n := by simp [ndim, hρ.shape]; omega
  have e1 : ∀ (a : NDArray K) inv, permuteBasisA as a (supportPerm so n (cs ++ ts)) inv = .ok a :=
    fun a inv => permuteBasisA_trivial as hs a inv
  rw [supportPerm] at e1
  simp only [applyOperatorDMA, h1, bind, Except.bind, hdn, e1]
  by_cases hk : ts.length = k ∧ cs.length + k ≤ 2 * n
  · obtain ⟨hts, hle⟩ := hk
    refine iff_of_true ?_ ⟨hts, hs, hle⟩
    have hdl : (cs ++ ts).length = cs.length + k := by simp [hts]
    have td : ∀ a : NDArray K, a.shape = List.replicate (n + n) 2 → ∃ r,
        tensordot ⟨List.replicate (2 * (cs.length + k)) 2, op'.data⟩ a
          ((List.range (2 * (cs.length + k))).drop (cs.length + k)) (List.range (cs.length + k)) = .ok r ∧
        r.shape = List.replicate (n + n) 2 := fun a ha =>
      ⟨_, tensordot_bits (k := cs.length + k) rfl ha (by simp) List.nodup_range
        (fun q hq => by have := List.mem_range.1 hq; omega), rfl⟩
    obtain ⟨a1, f1, s1⟩ := td _ hρ.shape
    obtain ⟨a2, f2, s2, -⟩ := dagger_dm s1
    obtain ⟨a3, f3, s3⟩ := td _ s2
    obtain ⟨a4, f4, -⟩ := dagger_dm s3
    exact ⟨⟨a4⟩, by simp only [hdl, f1, f2, f3, f4, pure, Except.pure]⟩
  · refine iff_of_false ?_ fun h => hk ⟨h.1, h.2.2⟩
    rintro ⟨r, hr⟩
    simp only [tensordot] at hr
    rw [if_neg] at hr
    · cases hr
    · rintro ⟨h3, -, -, -, h5, -⟩
      have hl : ts.length = k := by
        simp [two_mul] at h3
        omega
      refine hk ⟨hl, ?_⟩
      by_contra hgt
      have := h5 (2 * n) (List.mem_range.2 (by simp [hl]; omega))
      simp [ndim, hρ.shape] at this
      omega

end Verif
