import Verif.Model.NegIndex
import Verif.Lemmas.RefuseDM
import Verif.Lemmas.Misc

/-! # Negative qubit numbers: helper lemmas -/

set_option autoImplicit false

namespace Verif
open NDArray

variable {K : Type} [CommRing K] {n k : ℕ}

theorem insertionSort_congr' {α : Type} {r r' : α → α → Prop} [DecidableRel r] [DecidableRel r'] (l : List α)
    (h : ∀ a ∈ l, ∀ b ∈ l, r a b ↔ r' a b) : l.insertionSort r = l.insertionSort r' := by
  induction l with
  | nil => rfl
  | cons a l ih =>
    rw [List.insertionSort_cons, List.insertionSort_cons, ih fun a ha b hb => h a (by simp [ha]) b (by simp [hb])]
    have : ∀ m : List α, (∀ b ∈ m, r a b ↔ r' a b) → m.orderedInsert r a = m.orderedInsert r' a := by
      intro m
      induction m with
      | nil => intro _; rfl
      | cons b m ihm =>
        intro hm
        simp only [List.orderedInsert_cons]
        by_cases hb : r a b
        · rw [if_pos hb, if_pos ((hm b (by simp)).1 hb)]
        · rw [if_neg hb, if_neg fun h' => hb ((hm b (by simp)).2 h'), ihm fun c hc => hm c (by simp [hc])]
    refine this _ fun b hb => h a (by simp) b ?_
    rw [List.mem_insertionSort] at hb
    simp [hb]

/-- Sorting integers is sorting the natural numbers obtained by adding a constant. -/
theorem argsortZ_eq {l : List ℤ} (B : ℕ) (hB : ∀ q ∈ l, -(B : ℤ) ≤ q) :
    argsortZ l = argsort (l.map fun q : ℤ => (q + (B : ℤ)).toNat) := by
  rw [argsortZ, argsort, List.length_map]
  apply insertionSort_congr'
  intro i hi j hj
  rw [List.mem_range] at hi hj
  have e1 : l.getD i 0 = l[i] := by simp [hi]
  have e2 : l.getD j 0 = l[j] := by simp [hj]
  have e3 : (l.map fun q : ℤ => (q + (B : ℤ)).toNat).getD i 0 = (l[i] + (B : ℤ)).toNat := by simp [hi]
  have e4 : (l.map fun q : ℤ => (q + (B : ℤ)).toNat).getD j 0 = (l[j] + (B : ℤ)).toNat := by simp [hj]
  rw [e1, e2, e3, e4]
  have h1 := hB _ (List.getElem_mem hi)
  have h2 := hB _ (List.getElem_mem hj)
  omega

theorem exists_bound (l : List ℤ) : ∃ B : ℕ, ∀ q ∈ l, -(B : ℤ) ≤ q := by
  induction l with
  | nil => exact ⟨0, by simp⟩
  | cons a l ih =>
    obtain ⟨B, hB⟩ := ih
    refine ⟨B + a.natAbs, fun q hq => ?_⟩
    rcases List.mem_cons.1 hq with rfl | hq
    · omega
    · have := hB q hq; omega

theorem argsort_map_ofNat (l : List ℕ) : argsortZ (l.map Int.ofNat) = argsort l := by
  rw [argsortZ_eq 0 (by simp), List.map_map]
  congr 1
  rw [List.map_congr_left (g := id), List.map_id]
  intro a _; simp

theorem permuteBasisZ_ofNat (a : NDArray K) (l : List ℕ) (inv : Bool) :
    permuteBasisZ a (l.map Int.ofNat) inv = permuteBasis a l inv := by
  simp only [permuteBasisZ, permuteBasis, argsort_map_ofNat, List.length_map]

/-- `permute_basis` leaves the array alone exactly when the support is increasing. -/
theorem rankedZ_range_iff {l : List ℤ} (hn : l.Nodup) :
    argsort (argsortZ l) = List.range l.length ↔ l.Pairwise (· < ·) := by
  obtain ⟨B, hB⟩ := exists_bound l
  have hinj : ∀ x ∈ l, ∀ y ∈ l, (x + (B : ℤ)).toNat = (y + B).toNat → x = y := by
    intro x hx y hy h
    have := hB x hx; have := hB y hy; omega
  have h := ranked_range_iff (l := l.map fun q : ℤ => (q + (B : ℤ)).toNat) (List.Nodup.map_on hinj hn)
  rw [List.length_map, ← argsortZ_eq B hB, List.pairwise_map] at h
  rw [h]
  constructor
  · intro h
    refine List.Pairwise.imp_of_mem (fun {a b} ha hb h => ?_) h
    have := hB a ha; have := hB b hb; omega
  · intro h
    refine List.Pairwise.imp_of_mem (fun {a b} ha hb h => ?_) h
    have := hB a ha; have := hB b hb; omega

/-- `prepareOperatorZ` is `prepareOperator` but for the list of axes. -/
theorem prepareOperatorZ_eq {op : NDArray K} (hop : IsOp k op) (ts cs : List ℤ) :
    ∃ op' : NDArray K, prepareOperatorZ op ts cs
        = .ok (⟨List.replicate (2 * (cs.length + k)) 2, op'.data⟩, cs.length + k, cs ++ ts) ∧
      ∀ ts' cs' : List ℕ, cs'.length = cs.length → prepareOperator op ts' (ctlOf cs')
        = .ok (⟨List.replicate (2 * (cs.length + k)) 2, op'.data⟩, cs.length + k, cs' ++ ts') := by
  cases cs with
  | nil =>
    refine ⟨op, ?_, fun ts' cs' h => ?_⟩
    · simp only [prepareOperatorZ, if_true, pure, Except.pure, bind, Except.bind, hop.shape, reshape,
        List.getD_cons_succ, List.getD_cons_zero, intLog2_pow, List.length_nil, zero_add, List.nil_append]
      rw [if_pos (by simp; ring)]
    · obtain rfl : cs' = [] := List.length_eq_zero_iff.1 h
      simp only [prepareOperator, isControlled_ctlOf, List.isEmpty_nil, Bool.not_true, Bool.false_eq_true, if_false, pure,
        Except.pure, bind, Except.bind, hop.shape, reshape, List.getD_cons_succ, List.getD_cons_zero, intLog2_pow,
        List.length_nil, zero_add, List.nil_append]
      rw [if_pos (by simp; ring)]
  | cons c cs =>
    refine ⟨ofFn [2 ^ ((c :: cs).length + k), 2 ^ ((c :: cs).length + k)] fun idx =>
      ctl (2 ^ ((c :: cs).length + k) - 2 ^ k) (entries op) (idx.getD 0 0) (idx.getD 1 0), ?_, fun ts' cs' h => ?_⟩
    · simp only [prepareOperatorZ, reduceCtorEq, if_false, controlledBlock_eq hop.shape]
      simp only [pure, Except.pure, bind, Except.bind, reshape, shape_ofFn, List.getD_cons_succ, List.getD_cons_zero,
        intLog2_pow]
      rw [if_pos (by simp; ring)]
    · cases cs' with
      | nil => simp at h
      | cons c' cs' =>
        have hl : ((ctlOf (c' :: cs')).getD []).length = (c' :: cs').length := by simp [ctlOf]
        have hq : ctlQubits (ctlOf (c' :: cs')) = .ok (c' :: cs') := ctlQubits_int (c' :: cs')
        simp only [prepareOperator, isControlled_ctlOf, hl, h, controlledBlock_eq hop.shape]
        rw [hq]
        simp only [List.isEmpty_cons, Bool.not_false, if_true, pure, Except.pure, bind,
          Except.bind, reshape, shape_ofFn, List.getD_cons_succ, List.getD_cons_zero, intLog2_pow]
        rw [if_pos (by simp; ring)]

/-- The qubit that numpy finds at an axis number of an array with `n` axes. -/
def wrapAxis (n : ℕ) (q : ℤ) : ℕ := if q < 0 then (q + n).toNat else q.toNat

theorem canonAxis_eq {q : ℤ} (h : -(n : ℤ) ≤ q ∧ q < n) : canonAxis n q = .ok (wrapAxis n q) := by
  rw [canonAxis, wrapAxis]
  by_cases hq : q < 0
  · rw [if_neg (by omega), if_pos ⟨h.1, hq⟩, if_pos hq]
  · rw [if_pos ⟨by omega, h.2⟩, if_neg hq]

theorem canonAxes_eq {l : List ℤ} (h : ∀ q ∈ l, -(n : ℤ) ≤ q ∧ q < n) :
    l.mapM (canonAxis n) = .ok (l.map (wrapAxis n)) := by
  induction l with
  | nil => rfl
  | cons a l ih =>
    rw [List.mapM_cons, canonAxis_eq (h a (by simp)), ih fun q hq => h q (by simp [hq])]; rfl

theorem canonAxes_error {l : List ℤ} (h : ¬ ∀ q ∈ l, -(n : ℤ) ≤ q ∧ q < n) :
    l.mapM (canonAxis n) = .error .valueError := by
  induction l with
  | nil => exact absurd (by simp) h
  | cons a l ih =>
    rw [List.mapM_cons]
    by_cases ha : -(n : ℤ) ≤ a ∧ a < n
    · rw [canonAxis_eq ha, ih fun h' => h fun q hq => by
        rcases List.mem_cons.1 hq with rfl | hq
        · exact ha
        · exact h' q hq]
      rfl
    · rw [canonAxis, if_neg (by omega), if_neg (by omega)]; rfl

/-- On state vectors a negative number is the qubit counted from the end. -/
theorem applyOperatorZ_eq {op st : NDArray K} (hop : IsOp k op) (hst : IsKet n st) {ts cs : List ℤ}
    (hr : ∀ q ∈ cs ++ ts, -(n : ℤ) ≤ q ∧ q < n) (hts : ts.length = k)
    (hv : ((cs ++ ts).map (wrapAxis n)).Nodup) :
    applyOperatorZ st op ts cs = applyOperator st op (ts.map (wrapAxis n)) (ctlOf (cs.map (wrapAxis n))) := by
  obtain ⟨op', h1, h2⟩ := prepareOperatorZ_eq hop ts cs
  rw [applyOperatorZ, applyOperator, h1, h2 _ _ (by simp), ← List.map_append]
  have hn : st.ndim = n := by simp [ndim, hst.shape]
  have hlt : ∀ q ∈ (cs ++ ts).map (wrapAxis n), q < n := by
    intro q hq
    obtain ⟨z, hz, rfl⟩ := List.mem_map.1 hq
    have := hr z hz
    simp only [wrapAxis]; split_ifs <;> omega
  have htd := tensordot_bits (k := cs.length + k) (a := ⟨List.replicate (2 * (cs.length + k)) 2, op'.data⟩) rfl hst.shape
    (dims := (cs ++ ts).map (wrapAxis n)) (by simp [hts]) hv hlt
  simp only [bind, Except.bind, tensordotZ, hn, canonAxes_eq hr, htd, moveaxisZ]
  have hn' : ∀ f : List ℕ → K, (ofFn (List.replicate n 2) f).ndim = n := by
    intro f; simp [ndim]
  rw [hn', canonAxes_eq hr, List.length_map]

theorem applyOperatorZ_error {op st : NDArray K} (hop : IsOp k op) (hst : IsKet n st) {ts cs : List ℤ}
    (h : ¬ ((∀ q ∈ cs ++ ts, -(n : ℤ) ≤ q ∧ q < n) ∧ ts.length = k ∧ ((cs ++ ts).map (wrapAxis n)).Nodup)) :
    ∃ e, applyOperatorZ st op ts cs = .error e := by
  obtain ⟨op', h1, h2⟩ := prepareOperatorZ_eq hop ts cs
  have hn : st.ndim = n := by simp [ndim, hst.shape]
  rw [applyOperatorZ, h1]
  simp only [bind, Except.bind, tensordotZ, hn]
  by_cases hr : ∀ q ∈ cs ++ ts, -(n : ℤ) ≤ q ∧ q < n
  · refine ⟨.typeError, ?_⟩
    simp only [canonAxes_eq hr, tensordot]
    rw [if_neg]
    rintro ⟨h3, -, h4, -⟩
    refine h ⟨hr, ?_, h4⟩
    simp [two_mul] at h3
    omega
  · exact ⟨.valueError, by simp only [canonAxes_error hr]⟩

variable [StarRing K]

/-- Sets traversed in increasing order, as CPython does for the sets `{0, …, n-1}`. -/
def ascOrder : SetOrder where
  order l := pySorted l.dedup
  nodup l := (List.perm_insertionSort _ _).nodup_iff.2 (List.nodup_dedup l)
  mem l x := by rw [pySorted, List.mem_insertionSort, List.mem_dedup]

theorem ascOrder_pairwise (l : List ℕ) : (ascOrder.order l).Pairwise (· < ·) :=
  ((List.pairwise_insertionSort (· ≤ ·) l.dedup).and (ascOrder.nodup l)).imp fun {_ _} h => lt_of_le_of_ne h.1 h.2

/-- Natural numbers as qubit numbers: the model of the other modules. -/
theorem applyOperatorDMZ_ofNat (so : SetOrder) {op : NDArray K} (hop : IsOp k op) (ρ : DensityMatrix K) (ts cs : List ℕ) :
    applyOperatorDMZ so ρ op (ts.map Int.ofNat) (cs.map Int.ofNat) = applyOperatorDM so ρ op ts (ctlOf cs) := by
  obtain ⟨op', h1, h2⟩ := prepareOperatorZ_eq hop (ts.map Int.ofNat) (cs.map Int.ofNat)
  rw [applyOperatorDMZ, applyOperatorDM, h1, h2 ts cs (by simp)]
  have hf : ∀ m : ℕ, ((List.range m).filter fun q : ℕ => (q : ℤ) ∉ (cs ++ ts).map Int.ofNat)
      = (List.range m).filter fun q => q ∉ cs ++ ts := by
    intro m
    apply List.filter_congr
    intro q _
    simp
  simp only [bind, Except.bind, ← List.map_append, hf, permuteBasisZ_ofNat, List.length_map]

/-- The numbers `dims` followed by the qubits not among them. -/
def supportPerm (so : SetOrder) (n : ℕ) (dims : List ℤ) : List ℤ :=
  dims ++ (so.order ((List.range n).filter fun q => (q : ℤ) ∉ dims)).map Int.ofNat

theorem nodup_supportPerm (so : SetOrder) {dims : List ℤ} (h : dims.Nodup) : (supportPerm so n dims).Nodup := by
  refine List.nodup_append.2 ⟨h, (so.nodup _).map Int.ofNat_injective, fun a ha b hb => ?_⟩
  rintro rfl
  obtain ⟨x, hx, rfl⟩ := List.mem_map.1 hb
  rw [so.mem, List.mem_filter] at hx
  exact absurd ha (by simpa using hx.2)

theorem length_supportPerm (so : SetOrder) {dims : List ℤ} (h : dims.Nodup) (hneg : ∃ q ∈ dims, q < 0) :
    n < (supportPerm so n dims).length := by
  obtain ⟨d, hd, hd'⟩ := hneg
  have hsub : (d :: (List.range n).map Int.ofNat).Subperm (supportPerm so n dims) := by
    apply List.Nodup.subperm
    · refine List.nodup_cons.2 ⟨?_, List.nodup_range.map Int.ofNat_injective⟩
      rintro hm
      obtain ⟨x, -, rfl⟩ := List.mem_map.1 hm
      exact absurd hd' (by simp)
    · intro x hx
      rw [supportPerm, List.mem_append]
      rcases List.mem_cons.1 hx with rfl | hx
      · exact .inl hd
      · by_cases hx' : x ∈ dims
        · exact .inl hx'
        · obtain ⟨y, hy, rfl⟩ := List.mem_map.1 hx
          refine .inr (List.mem_map.2 ⟨y, ?_, rfl⟩)
          rw [so.mem, List.mem_filter]
          exact ⟨hy, by simpa using hx'⟩
  have := hsub.length_le
  simp at this
  omega

/-- With a negative number, nothing happens unless the permutation is trivial. -/
theorem applyOperatorDMZ_unsorted (so : SetOrder) {op : NDArray K} {ρ : DensityMatrix K} (hop : IsOp k op) (hρ : IsDM n ρ)
    {ts cs : List ℤ} (hnd : (cs ++ ts).Nodup) (hneg : ∃ q ∈ cs ++ ts, q < 0)
    (hs : ¬ (supportPerm so n (cs ++ ts)).Pairwise (· < ·)) : applyOperatorDMZ so ρ op ts cs = .error .typeError := by
  obtain ⟨op', h1, -⟩ := prepareOperatorZ_eq hop ts cs
  have hdn : ρ.array.ndim / 2 = n := by simp [ndim, hρ.shape]; omega
  have hp := nodup_supportPerm (n := n) so hnd
  have hl := length_supportPerm (n := n) so hnd hneg
  rw [applyOperatorDMZ, h1]
  simp only [bind, Except.bind, hdn]
  have he : permuteBasisZ ρ.array (supportPerm so n (cs ++ ts)) false = .error .typeError := by
    simp only [permuteBasisZ]
    rw [if_neg fun h => hs ((rankedZ_range_iff hp).1 h), if_neg (by simp), transpose, if_neg]
    intro hpm
    obtain ⟨B, hB⟩ := exists_bound (supportPerm so n (cs ++ ts))
    have := hpm.length_eq
    rw [List.length_append, List.length_map, argsortZ_eq B hB, perm_ranked.length_eq, List.length_range, List.length_range, ndim,
      hρ.shape, List.length_replicate, List.length_map] at this
    omega
  rw [supportPerm] at he
  rw [he]

/-- If the permutation is trivial, the operator acts on the first qubits. -/
theorem applyOperatorDMZ_sorted (so : SetOrder) {op : NDArray K} {ρ : DensityMatrix K} (hop : IsOp k op) (hρ : IsDM n ρ)
    {ts cs : List ℤ} (hnd : (cs ++ ts).Nodup) (hs : (supportPerm so n (cs ++ ts)).Pairwise (· < ·))
    (hts : ts.length = k) :
    applyOperatorDMZ so ρ op ts cs
      = applyOperatorDM ascOrder ρ op (List.range' cs.length k) (ctlOf (List.range cs.length)) := by
  obtain ⟨op', h1, h2⟩ := prepareOperatorZ_eq hop ts cs
  have hdn : ρ.array.ndim / 2 = n := by simp [ndim, hρ.shape]; omega
  have hp := nodup_supportPerm (n := n) so hnd
  rw [applyOperatorDMZ, applyOperatorDM, h1, h2 _ (List.range cs.length) (by simp)]
  have e1 : ∀ (a : NDArray K) inv, permuteBasisZ a (supportPerm so n (cs ++ ts)) inv = .ok a := by
    intro a inv
    simp only [permuteBasisZ]
    rw [if_pos ((rankedZ_range_iff hp).2 hs)]
  have hr : List.range cs.length ++ List.range' cs.length k = List.range (cs.length + k) := by
    rw [List.range_eq_range', List.range_eq_range']
    simpa using List.range'_append_1 (s := 0) (m := cs.length) (n := k)
  have hpw : (List.range (cs.length + k) ++ ascOrder.order ((List.range n).filter (· ∉ List.range (cs.length + k)))).Pairwise
      (· < ·) := by
    refine List.pairwise_append.2 ⟨List.pairwise_lt_range, ascOrder_pairwise _, fun a ha b hb => ?_⟩
    rw [ascOrder.mem, List.mem_filter] at hb
    rw [List.mem_range] at ha
    have := hb.2
    simp at this
    omega
  have e2 : ∀ (a : NDArray K) inv, permuteBasis a
      (List.range (cs.length + k) ++ ascOrder.order ((List.range n).filter (· ∉ List.range (cs.length + k)))) inv = .ok a := by
    intro a inv
    simp only [permuteBasis]
    rw [if_pos ((ranked_range_iff (hpw.imp fun h => ne_of_lt h)).2 hpw)]
  have hlen : (cs ++ ts).length = cs.length + k := by simp [hts]
  rw [supportPerm] at e1
  simp only [bind, Except.bind, hdn, e1, hr, e2, hlen, List.length_range]

end Verif
