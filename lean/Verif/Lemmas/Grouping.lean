import Verif.Lemmas.Channel
import Verif.Lemmas.Tensor

/-! # `group_by_index` only exchanges neighbouring gates -/

namespace Verif
open NDArray
variable {S : Type}

theorem tupleLe_refl (l : List ℕ) : tupleLe l l := by
  induction l with
  | nil => trivial
  | cons a l ih => exact .inr ⟨rfl, ih⟩

section
variable {α : Type} (act : α → S → S)

theorem foldl_orderedInsert (r : α → α → Prop) [DecidableRel r] (a : α) (l : List α)
    (h : ∀ b ∈ l, ¬ r a b → ∀ s, act b (act a s) = act a (act b s)) (s : S) :
    (l.orderedInsert r a).foldl (fun s g => act g s) s = (a :: l).foldl (fun s g => act g s) s := by
  induction l generalizing s with
  | nil => rfl
  | cons b l ih =>
    rw [List.orderedInsert_cons]
    by_cases hr : r a b
    · rw [if_pos hr]
    · rw [if_neg hr, List.foldl_cons, ih fun c hc => h c (by simp [hc])]
      simp only [List.foldl_cons]
      rw [h b (by simp) hr]

theorem foldl_insertionSort (r : α → α → Prop) [DecidableRel r] (l : List α)
    (h : ∀ a ∈ l, ∀ b ∈ l, ¬ r a b → ∀ s, act b (act a s) = act a (act b s)) (s : S) :
    (l.insertionSort r).foldl (fun s g => act g s) s = l.foldl (fun s g => act g s) s := by
  induction l generalizing s with
  | nil => rfl
  | cons a l ih =>
    rw [List.insertionSort_cons, foldl_orderedInsert, List.foldl_cons, List.foldl_cons,
      ih fun x hx y hy => h x (by simp [hx]) y (by simp [hy])]
    intro b hb
    exact h a (by simp) b (by simp [(List.mem_insertionSort r).1 hb])
end

theorem groupLoop_foldl (act : Gate → S → S) (gs sorted batch : List Gate)
    (h : ∀ a ∈ batch ++ gs, ∀ b ∈ batch ++ gs, a.target ≠ b.target → (isControlled a.control = false ∨ a ∈ batch) →
      (isControlled b.control = false ∨ b ∈ batch) → ∀ s, act b (act a s) = act a (act b s)) (s : S) :
    (groupLoop gs sorted batch).foldl (fun s g => act g s) s = (sorted ++ batch ++ gs).foldl (fun s g => act g s) s := by
  have hsort : ∀ s, (sortBatch batch).foldl (fun s g => act g s) s = batch.foldl (fun s g => act g s) s := by
    intro s
    apply foldl_insertionSort
    intro a ha b hb hr
    refine h a (by simp [ha]) b (by simp [hb]) (fun he => hr ?_) (.inr ha) (.inr hb)
    rw [he]; exact tupleLe_refl _
  have hflush : ∀ s, (if batch.length > 0 then sorted ++ sortBatch batch else sorted).foldl (fun s g => act g s) s
      = (sorted ++ batch).foldl (fun s g => act g s) s := by
    intro s
    split_ifs with hb
    · rw [List.foldl_append, hsort, List.foldl_append]
    · have : batch = [] := by simpa using hb
      rw [this, List.append_nil]
  induction gs generalizing sorted batch s with
  | nil => rw [groupLoop, hflush, List.append_nil]
  | cons g gs ih =>
    rw [groupLoop]
    by_cases hg : isControlled g.control = true
    · rw [hg]
      simp only [Bool.not_true, Bool.false_eq_true, if_false]
      rw [ih _ []]
      · rw [List.append_nil, List.append_assoc, List.foldl_append, hflush, ← List.foldl_append]
        simp
      · intro a ha b hb hne hca hcb
        simp only [List.nil_append, List.not_mem_nil, or_false] at ha hb hca hcb
        exact h a (by simp [ha]) b (by simp [hb]) hne (.inl hca) (.inl hcb)
      · simp [sortBatch]
      · simp
    · rw [Bool.not_eq_true] at hg
      rw [hg]
      simp only [Bool.not_false, if_true]
      have hh : ∀ a ∈ (batch ++ [g]) ++ gs, ∀ b ∈ (batch ++ [g]) ++ gs, a.target ≠ b.target →
          (isControlled a.control = false ∨ a ∈ batch ++ [g]) →
          (isControlled b.control = false ∨ b ∈ batch ++ [g]) → ∀ s, act b (act a s) = act a (act b s) := by
        intro a ha b hb hne hca hcb
        refine h a (by simpa using ha) b (by simpa using hb) hne ?_ ?_
        · rcases hca with h | h
          · exact .inl h
          · rcases List.mem_append.1 h with h | h
            · exact .inr h
            · rw [List.mem_singleton.1 h]; exact .inl hg
        · rcases hcb with h | h
          · exact .inl h
          · rcases List.mem_append.1 h with h | h
            · exact .inr h
            · rw [List.mem_singleton.1 h]; exact .inl hg
      have hsort' : ∀ s, (sortBatch (batch ++ [g])).foldl (fun s g => act g s) s = (batch ++ [g]).foldl (fun s g => act g s) s := by
        intro s
        apply foldl_insertionSort
        intro a ha b hb hr
        refine hh a (List.mem_append_left _ ha) b (List.mem_append_left _ hb) (fun he => hr ?_) (.inr ha) (.inr hb)
        rw [he]; exact tupleLe_refl _
      rw [ih _ _ hh _ hsort']
      · simp
      · intro s
        rw [if_pos (by simp), List.foldl_append, hsort', ← List.foldl_append]

theorem groupByIndex_foldl (act : Gate → S → S) (gs : List Gate)
    (h : ∀ a ∈ gs, ∀ b ∈ gs, a.target ≠ b.target → isControlled a.control = false → isControlled b.control = false →
      ∀ s, act b (act a s) = act a (act b s)) (s : S) :
    (groupByIndex gs).foldl (fun s g => act g s) s = gs.foldl (fun s g => act g s) s := by
  rw [groupByIndex, groupLoop_foldl]
  · rfl
  · intro a ha b hb hne hca hcb
    simp only [List.nil_append, List.not_mem_nil, or_false] at ha hb hca hcb
    exact h a ha b hb hne hca hcb

theorem groupLoop_perm (gs sorted batch : List Gate) : (groupLoop gs sorted batch).Perm (sorted ++ batch ++ gs) := by
  have hflush : ∀ sorted batch : List Gate, (if batch.length > 0 then sorted ++ sortBatch batch else sorted).Perm (sorted ++ batch) := by
    intro sorted batch
    split_ifs with hb
    · exact (List.perm_insertionSort _ _).append_left _
    · have : batch = [] := by simpa using hb
      rw [this, List.append_nil]
  induction gs generalizing sorted batch with
  | nil => rw [groupLoop, List.append_nil]; exact hflush _ _
  | cons g gs ih =>
    rw [groupLoop]
    cases isControlled g.control
    · simp only [Bool.not_false, if_true]
      refine (ih _ _).trans ?_
      simp
    · simp only [Bool.not_true, Bool.false_eq_true, if_false]
      refine (ih _ _).trans ?_
      rw [List.append_nil]
      refine (((hflush sorted batch).append_right [g]).append_right gs).trans ?_
      simp

theorem groupByIndex_perm (gs : List Gate) : (groupByIndex gs).Perm gs := groupLoop_perm gs [] []

theorem applyGates_group (so : SetOrder) (state : State) (gs : List Gate) (values : Values) (ot : OpType) (merge : Bool) :
    applyGates so state (.list gs) values ot true merge = applyGates so state (.list (groupByIndex gs)) values ot false merge := by
  simp [applyGates, prepareSequenceReduce]

theorem gatesMat_foldl {n : ℕ} {ot : OpType} {values : Values} (gs : List Gate) (M : Matrix (Lab n) (Lab n) ℂ) :
    gs.foldl (fun s g => g.mat n ot values * s) M = gatesMat n ot values gs * M := by
  induction gs generalizing M with
  | nil => simp [gatesMat]
  | cons g gs ih => rw [List.foldl_cons, ih, gatesMat, mul_assoc]

end Verif
