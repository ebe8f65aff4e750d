import Verif.Lemmas.Index
import Verif.Model.Apply

/-! # Lemmas on `transpose`, `moveaxis`, `tensordot` -/

namespace Verif
open List NDArray

theorem nodup_freeAxes (n : ℕ) (l : List ℕ) : (freeAxes n l).Nodup := (List.nodup_range).filter _

theorem mem_freeAxes {n : ℕ} {l : List ℕ} {p : ℕ} : p ∈ freeAxes n l ↔ p < n ∧ p ∉ l := by
  simp [freeAxes]

theorem perm_append_freeAxes {n : ℕ} {l : List ℕ} (hn : l.Nodup) (hl : ∀ q ∈ l, q < n) :
    (l ++ freeAxes n l).Perm (List.range n) := by
  rw [List.perm_ext_iff_of_nodup]
  · intro a
    simp only [List.mem_append, mem_freeAxes, List.mem_range]
    by_cases ha : a ∈ l
    · simp [ha, hl a ha]
    · simp [ha]
  · rw [List.nodup_append]
    refine ⟨hn, nodup_freeAxes _ _, ?_⟩
    intro a ha b hb hab
    subst hab
    exact (mem_freeAxes.1 hb).2 ha
  · exact List.nodup_range

theorem length_freeAxes {n : ℕ} {l : List ℕ} (hn : l.Nodup) (hl : ∀ q ∈ l, q < n) :
    l.length + (freeAxes n l).length = n := by
  have := (perm_append_freeAxes hn hl).length_eq
  simpa using this

theorem getD_idxOf {l : List ℕ} {x : ℕ} (h : x ∈ l) : l.getD (l.idxOf x) 0 = x := by
  have := List.idxOf_lt_length_of_mem h
  simp [List.getD_eq_getElem?_getD, this]

theorem idxOf_getD {l : List ℕ} (hn : l.Nodup) {i : ℕ} (h : i < l.length) : l.idxOf (l.getD i 0) = i := by
  simp [List.getD_eq_getElem?_getD, h, hn.idxOf_getElem]

theorem getD_map_lt {α : Type} {l : List α} {f : α → ℕ} {i : ℕ} (d : α) (h : i < l.length) :
    (l.map f).getD i 0 = f (l.getD i d) := by
  simp [List.getD_eq_getElem?_getD, h]

theorem getD_map_range {f : ℕ → ℕ} {n i : ℕ} (h : i < n) : ((List.range n).map f).getD i 0 = f i := by
  simp [List.getD_eq_getElem?_getD, h]

theorem map_getD_self (l : List ℕ) (h : List ℕ) (hh : h = List.range l.length) :
    h.map (fun p => l.getD p 0) = l := by
  subst hh
  apply List.ext_getElem
  · simp
  · intro i h1 h2; simp [h2]

/-! ## The axis order of `moveaxis` -/

private theorem pyInsert_append {α : Type} (pre L : List α) (d : ℕ) (x : α) (h : pre.length ≤ d) :
    pyInsert (pre ++ L) d x = pre ++ (L.take (d - pre.length) ++ x :: L.drop (d - pre.length)) := by
  simp [pyInsert, List.take_append, List.drop_append, List.take_of_length_le h,
    List.drop_eq_nil_of_le h]

/-- Inserting at increasing positions fills the positions `off, off+1, …`. -/
private theorem foldl_insert_sorted (h f : ℕ → ℕ) (ps : List (ℕ × ℕ)) (pre : List ℕ) (m : ℕ)
    (hs : (ps.map Prod.fst).Pairwise (· < ·))
    (hlo : ∀ p ∈ ps, pre.length ≤ p.1) (hhi : ∀ p ∈ ps, p.1 < pre.length + m)
    (hf : ∀ p ∈ ps, f p.1 = p.2) :
    ps.foldl (fun order p => pyInsert order p.1 p.2)
      (pre ++ ((List.range' pre.length m).filter fun q => q ∉ ps.map Prod.fst).map h)
    = pre ++ (List.range' pre.length m).map fun q => if q ∈ ps.map Prod.fst then f q else h q := by
  induction ps generalizing pre m with
  | nil => simp
  | cons p ps ih =>
    obtain ⟨d, s⟩ := p
    have hd : pre.length ≤ d := hlo (d, s) (by simp)
    have hd2 : d < pre.length + m := hhi (d, s) (by simp)
    have hgt : ∀ q ∈ ps, d < q.1 := by
      intro q hq
      simp only [List.map_cons, List.pairwise_cons] at hs
      exact hs.1 _ (List.mem_map_of_mem hq)
    have hsplit : List.range' pre.length m
        = List.range' pre.length (d - pre.length) ++ d :: List.range' (d + 1) (pre.length + m - d - 1) := by
      have e1 : m = (d - pre.length) + (1 + (pre.length + m - d - 1)) := by omega
      conv_lhs => rw [e1]
      rw [← List.range'_append_1, ← List.range'_append_1]
      have e2 : pre.length + (d - pre.length) = d := by omega
      rw [e2]; simp
    have hfilt1 : (List.range' pre.length (d - pre.length)).filter (fun q => q ∉ ((d, s) :: ps).map Prod.fst)
        = List.range' pre.length (d - pre.length) := by
      rw [List.filter_eq_self]
      intro q hq
      have hq' : q < d := by
        have := List.mem_range'_1.1 hq
        omega
      have : ∀ x ∈ ps, x.1 ≠ q := fun x hx => by have := hgt x hx; omega
      simp only [List.map_cons, List.mem_cons, List.mem_map, not_or, not_exists, not_and,
        decide_eq_true_eq]
      exact ⟨by omega, fun x hx => this x hx⟩
    have hfilt2 : (List.range' (d + 1) (pre.length + m - d - 1)).filter
          (fun q => q ∉ ((d, s) :: ps).map Prod.fst)
        = (List.range' (d + 1) (pre.length + m - d - 1)).filter (fun q => q ∉ ps.map Prod.fst) := by
      apply List.filter_congr
      intro q hq
      have hq' : q ≠ d := by
        have := List.mem_range'_1.1 hq
        omega
      simp [hq']
    rw [List.foldl_cons, pyInsert_append _ _ _ _ hd]
    rw [hsplit, List.filter_append, hfilt1, List.filter_cons]
    simp only [List.map_cons, List.mem_cons, true_or, not_true, decide_false]
    have hfilt2' := hfilt2
    simp only [List.map_cons, List.mem_cons] at hfilt2'
    simp only [Bool.false_eq_true, if_false]
    rw [hfilt2']
    rw [List.map_append, List.take_append_of_le_length (by simp), List.drop_append_of_le_length (by simp)]
    simp only [List.length_map, List.length_range', List.take_of_length_le, List.drop_of_length_le,
      le_refl, List.nil_append]
    have hpre' : (pre ++ (List.range' pre.length (d - pre.length)).map h ++ [s]).length = d + 1 := by
      simp; omega
    have := ih (pre ++ (List.range' pre.length (d - pre.length)).map h ++ [s]) (pre.length + m - d - 1)
      (by simp only [List.map_cons, List.pairwise_cons] at hs; exact hs.2)
      (by intro p hp; rw [hpre']; exact hgt p hp)
      (by intro p hp; rw [hpre']; have := hhi p (by simp [hp]); omega)
      (by intro p hp; exact hf p (by simp [hp]))
    rw [hpre'] at this
    simp only [List.append_assoc, List.cons_append, List.nil_append] at this
    rw [this]
    simp only [List.map_append, List.map_cons, true_or, if_true]
    rw [hf (d, s) (by simp)]
    congr 2
    · apply List.map_congr_left
      intro q hq
      have hq' : q < d := by
        have := List.mem_range'_1.1 hq
        omega
      have h1 : ¬ (q = d ∨ q ∈ ps.map Prod.fst) := by
        rintro (h | h)
        · omega
        · obtain ⟨x, hx, hxq⟩ := List.mem_map.1 h
          have := hgt x hx; omega
      rw [if_neg h1]
    · congr 1
      apply List.map_congr_left
      intro q hq
      have hq' : q ≠ d := by
        have := List.mem_range'_1.1 hq
        omega
      by_cases hA : q ∈ ps.map Prod.fst
      · rw [if_pos hA, if_pos (Or.inr hA)]
      · rw [if_neg hA, if_neg (not_or.2 ⟨hq', hA⟩)]

theorem moveaxisOrder_eq {n : ℕ} {src dst : List ℕ} (hlen : src.length = dst.length)
    (hs : src.Nodup) (hd : dst.Nodup) (hsn : ∀ q ∈ src, q < n) (hdn : ∀ q ∈ dst, q < n) :
    moveaxisOrder n src dst = (List.range n).map fun p =>
      if p ∈ dst then src.getD (dst.idxOf p) 0 else (freeAxes n src).getD ((freeAxes n dst).idxOf p) 0 := by
  have hperm : ((dst.zip src).insertionSort pairLe).Perm (dst.zip src) := List.perm_insertionSort _ _
  have hfst : (dst.zip src).map Prod.fst = dst := by
    rw [List.map_fst_zip]; omega
  have hmem : ∀ p ∈ (dst.zip src).insertionSort pairLe, p ∈ dst.zip src := fun p hp => hperm.mem_iff.1 hp
  have hset : ∀ q, q ∈ ((dst.zip src).insertionSort pairLe).map Prod.fst ↔ q ∈ dst := by
    intro q
    rw [(hperm.map Prod.fst).mem_iff, hfst]
  have hfs : ∀ p ∈ (dst.zip src).insertionSort pairLe, src.getD (dst.idxOf p.1) 0 = p.2 := by
    intro p hp
    obtain ⟨i, hi, rfl⟩ := List.getElem_of_mem (hmem p hp)
    have hi1 : i < dst.length := by simp at hi; omega
    have hi2 : i < src.length := by omega
    simp [hd.idxOf_getElem, hi2]
  have hsorted : (((dst.zip src).insertionSort pairLe).map Prod.fst).Pairwise (· < ·) := by
    have h1 : ((dst.zip src).insertionSort pairLe).Pairwise pairLe := by
      have : Std.Total pairLe := ⟨fun a b => by unfold pairLe; omega⟩
      have : IsTrans _ pairLe := ⟨fun a b c => by unfold pairLe; omega⟩
      exact List.pairwise_insertionSort pairLe _
    have h2 : (((dst.zip src).insertionSort pairLe).map Prod.fst).Nodup := by
      rw [(hperm.map Prod.fst).nodup_iff, hfst]; exact hd
    rw [List.pairwise_map]
    rw [List.nodup_iff_pairwise_ne, List.pairwise_map] at h2
    refine (h1.and h2).imp ?_
    rintro a b ⟨h | h, hne⟩
    · exact h
    · exact absurd h.1 hne
  have hlenfree : (freeAxes n src).length = (freeAxes n dst).length := by
    have := length_freeAxes hs hsn
    have := length_freeAxes hd hdn
    omega
  have hinit : freeAxes n src = (freeAxes n dst).map
      fun p => (freeAxes n src).getD ((freeAxes n dst).idxOf p) 0 := by
    apply List.ext_getElem
    · simpa using hlenfree
    · intro i h1 h2
      have h3 : i < (freeAxes n dst).length := by omega
      simp [(nodup_freeAxes n dst).idxOf_getElem, h1]
  have key := foldl_insert_sorted
    (fun p => (freeAxes n src).getD ((freeAxes n dst).idxOf p) 0) (fun p => src.getD (dst.idxOf p) 0)
    ((dst.zip src).insertionSort pairLe) [] n hsorted (by simp)
    (by intro p hp
        have := (hset p.1).1 (List.mem_map_of_mem hp)
        simpa using hdn _ this) hfs
  simp only [List.length_nil, List.nil_append, hset, ← List.range_eq_range'] at key
  rw [← key, moveaxisOrder]
  congr 1

theorem perm_moveaxisOrder {n : ℕ} {src dst : List ℕ} (hlen : src.length = dst.length)
    (hs : src.Nodup) (hsn : ∀ q ∈ src, q < n) :
    (moveaxisOrder n src dst).Perm (List.range n) := by
  have hperm : ((dst.zip src).insertionSort pairLe).Perm (dst.zip src) := List.perm_insertionSort _ _
  have gen : ∀ (ps : List (ℕ × ℕ)) (L : List ℕ),
      (ps.foldl (fun order p => pyInsert order p.1 p.2) L).Perm (ps.map Prod.snd ++ L) := by
    intro ps
    induction ps with
    | nil => intro L; simp
    | cons p ps ih =>
      intro L
      rw [List.foldl_cons]
      refine (ih _).trans ?_
      have h1 : (pyInsert L p.1 p.2).Perm (p.2 :: L) := by
        rw [pyInsert]
        refine List.perm_middle.trans ?_
        rw [List.take_append_drop]
      refine (h1.append_left _).trans ?_
      simp only [List.map_cons, List.cons_append]
      exact List.perm_middle
  refine (gen _ _).trans ?_
  have h2 : (((dst.zip src).insertionSort pairLe).map Prod.snd).Perm src := by
    refine (hperm.map Prod.snd).trans ?_
    rw [List.map_snd_zip]; omega
  exact (h2.append_right _).trans (perm_append_freeAxes hs hsn)

/-- For `moveaxis(range k → dims)`, result index `idx` reads the source at the `dims`-coordinates of `idx` followed
by the other coordinates. -/
theorem permIdx_moveaxis {n : ℕ} {dims idx : List ℕ} (hd : dims.Nodup) (hdn : ∀ q ∈ dims, q < n) :
    permIdx (moveaxisOrder n (List.range dims.length) dims) idx
      = dims.map (fun p => idx.getD p 0) ++ (freeAxes n dims).map (fun p => idx.getD p 0) := by
  have hk : dims.length ≤ n := by have := length_freeAxes hd hdn; omega
  have hsn : ∀ q ∈ List.range dims.length, q < n := fun q hq => by
    have := List.mem_range.1 hq; omega
  have hperm := perm_moveaxisOrder (n := n) (src := List.range dims.length) (dst := dims)
    (by simp) List.nodup_range hsn
  have hnd : (moveaxisOrder n (List.range dims.length) dims).Nodup := hperm.nodup_iff.2 List.nodup_range
  have hlen : (moveaxisOrder n (List.range dims.length) dims).length = n := by
    have := hperm.length_eq; simpa using this
  have hfl := length_freeAxes hd hdn
  have hfr : freeAxes n (List.range dims.length) = List.range' dims.length (n - dims.length) := by
    rw [freeAxes]
    have : List.range n = List.range dims.length ++ List.range' dims.length (n - dims.length) := by
      rw [List.range_eq_range', List.range_eq_range',
        show List.range' dims.length (n - dims.length) = List.range' (0 + 1 * dims.length) (n - dims.length) by simp,
        List.range'_append]
      congr 1; omega
    rw [this, List.filter_append]
    have h1 : (List.range dims.length).filter (fun p => p ∉ List.range dims.length) = [] := by
      rw [List.filter_eq_nil_iff]; simp
    have h2 : (List.range' dims.length (n - dims.length)).filter (fun p => p ∉ List.range dims.length)
        = List.range' dims.length (n - dims.length) := by
      rw [List.filter_eq_self]; simp [List.mem_range'_1]; intros; omega
    rw [h1, h2]; rfl
  -- position of `v` in the order
  have hpos : ∀ p v, p < n → (moveaxisOrder n (List.range dims.length) dims).getD p 0 = v →
      (moveaxisOrder n (List.range dims.length) dims).idxOf v = p := by
    intro p v hp hv
    rw [← hv]; exact idxOf_getD hnd (by omega)
  have horder := moveaxisOrder_eq (n := n) (src := List.range dims.length) (dst := dims)
    (by simp) List.nodup_range hd hsn hdn
  rw [permIdx, hlen]
  apply List.ext_getElem
  · simp; omega
  · intro i h1 h2
    have hi : i < n := by simpa using h1
    simp only [List.getElem_map, List.getElem_range]
    by_cases hik : i < dims.length
    · rw [List.getElem_append_left (by simpa using hik)]
      simp only [List.getElem_map]
      congr 1
      apply hpos _ _ (hdn _ (List.getElem_mem hik))
      rw [horder, getD_map_range (hdn _ (List.getElem_mem hik)), if_pos (List.getElem_mem hik),
        hd.idxOf_getElem]
      simp [hik]
    · have hik' : dims.length ≤ i := by omega
      rw [List.getElem_append_right (by simpa using hik')]
      simp only [List.getElem_map, List.length_map]
      congr 1
      have hj : i - dims.length < (freeAxes n dims).length := by omega
      have hm := mem_freeAxes.1 (List.getElem_mem hj)
      apply hpos _ _ hm.1
      rw [horder, getD_map_range hm.1, if_neg hm.2, (nodup_freeAxes n dims).idxOf_getElem, hfr]
      have : i - dims.length < n - dims.length := by omega
      simp [List.getD_eq_getElem?_getD, this]; omega

end Verif
