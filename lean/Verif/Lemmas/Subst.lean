import Verif.Lemmas.Grouping

/-! # Lemmas: replacing gates by gates with the same operators; single gates and one-element lists -/

namespace Verif
open NDArray

theorem sortBatch_map {f : Gate → Gate} (hf : ∀ g, (f g).target = g.target) (l : List Gate) :
    sortBatch (l.map f) = (sortBatch l).map f := by
  refine (List.map_insertionSort (fun g h : Gate => tupleLe g.target h.target)
    (fun g h : Gate => tupleLe g.target h.target) f l fun a _ b _ => ?_).symm
  simp only [hf]

theorem groupLoop_map {f : Gate → Gate} (hf : ∀ g, (f g).target = g.target ∧ (f g).control = g.control)
    (gs sorted batch : List Gate) :
    groupLoop (gs.map f) (sorted.map f) (batch.map f) = (groupLoop gs sorted batch).map f := by
  induction gs generalizing sorted batch with
  | nil =>
    simp only [groupLoop, List.map_nil, List.length_map]
    split_ifs <;> simp [sortBatch_map fun g => (hf g).1]
  | cons g gs ih =>
    simp only [groupLoop, List.map_cons, List.length_map, (hf g).2]
    split_ifs
    · rw [← ih]; simp
    · rw [← ih]; simp [sortBatch_map fun g => (hf g).1]
    · rw [← ih]; simp

theorem groupByIndex_map {f : Gate → Gate} (hf : ∀ g, (f g).target = g.target ∧ (f g).control = g.control)
    (gs : List Gate) : groupByIndex (gs.map f) = (groupByIndex gs).map f := groupLoop_map hf gs [] []

theorem mapM_map_congr {α β : Type} (f : α → α) (op : α → Py β) (gs : List α) (h : ∀ g ∈ gs, op (f g) = op g) :
    (gs.map f).mapM op = gs.mapM op := by
  induction gs with
  | nil => rfl
  | cons g gs ih =>
    rw [List.map_cons, List.mapM_cons, List.mapM_cons, h g (by simp), ih fun x hx => h x (by simp [hx])]

theorem zipWith_map_congr {α β γ : Type} (f : α → α) (k : β → α → γ) (hk : ∀ b a, k b (f a) = k b a) (l : List β) (gs : List α) :
    List.zipWith k l (gs.map f) = List.zipWith k l gs := by
  induction gs generalizing l with
  | nil => simp
  | cons g gs ih => cases l <;> simp [hk, ih]

/-- Replacing every gate by one with the same operator, target, control and noise changes nothing. -/
theorem prepareSequenceReduce_map {M : Type} {f : Gate → Gate}
    (hf : ∀ g, (f g).target = g.target ∧ (f g).control = g.control) (hn : ∀ g, (f g).noise = g.noise)
    {opOf : Gate → Py M} (mul : M → M → Py M) (gs : List Gate) (hop : ∀ g ∈ gs, opOf (f g) = opOf g) (group merge : Bool) :
    prepareSequenceReduce opOf mul (.list (gs.map f)) group merge = prepareSequenceReduce opOf mul (.list gs) group merge := by
  have main : ∀ gs : List Gate, (∀ g ∈ gs, opOf (f g) = opOf g) →
      prepareSequenceReduce opOf mul (.list (gs.map f)) false merge = prepareSequenceReduce opOf mul (.list gs) false merge := by
    intro gs hop
    have hz : ∀ ops : List M, List.zipWith (fun o (g : Gate) => (o, g.target, g.control)) ops (gs.map f)
        = List.zipWith (fun o (g : Gate) => (o, g.target, g.control)) ops gs :=
      fun ops => zipWith_map_congr f _ (by intro b a; simp [hf]) ops gs
    have hno : (gs.map f).map Gate.noise = gs.map Gate.noise := by
      rw [List.map_map]; exact List.map_congr_left fun g _ => hn g
    simp only [prepareSequenceReduce, mapM_map_congr f opOf gs hop, hz, hno, List.isEmpty_map, Bool.false_eq_true, if_false]
  cases group with
  | false => exact main gs hop
  | true =>
    have h1 : ∀ gs : List Gate, prepareSequenceReduce opOf mul (.list gs) true merge
        = prepareSequenceReduce opOf mul (.list (groupByIndex gs)) false merge := by
      intro gs; simp [prepareSequenceReduce]
    rw [h1, h1, groupByIndex_map hf]
    exact main _ fun g hg => hop g ((groupByIndex_perm gs).mem_iff.1 hg)

theorem applyGates_map (so : SetOrder) (state : State) {f : Gate → Gate}
    (hf : ∀ g, (f g).target = g.target ∧ (f g).control = g.control) (hn : ∀ g, (f g).noise = g.noise)
    (values : Values) (ot : OpType) (gs : List Gate) (hop : ∀ g ∈ gs, (f g).operator ot values = g.operator ot values)
    (group merge : Bool) :
    applyGates so state (.list (gs.map f)) values ot group merge = applyGates so state (.list gs) values ot group merge := by
  rw [applyGates, applyGates, prepareSequenceReduce_map hf hn _ gs hop]

/-- A single gate behaves like a one-element list. -/
theorem applyGates_singleton (so : SetOrder) (state : State) (g : Gate) (values : Values) (ot : OpType)
    (group merge group' merge' : Bool) :
    applyGates so state (.single g) values ot group merge = applyGates so state (.list [g]) values ot group' merge' := by
  have hg : groupByIndex [g] = [g] := by
    simp only [groupByIndex, groupLoop]
    split_ifs <;> simp_all [sortBatch]
  have : prepareSequenceReduce (fun g => g.operator ot values) NDArray.matmul (.single g) group merge
      = prepareSequenceReduce (fun g => g.operator ot values) NDArray.matmul (.list [g]) group' merge' := by
    have : (if group' then groupByIndex [g] else [g]) = [g] := by rw [hg]; simp
    simp only [prepareSequenceReduce, this]
    rcases h : g.operator ot values with e | U
    · simp [List.mapM_cons, h, bind, Except.bind]
    · simp [List.mapM_cons, h, bind, Except.bind, pure, Except.pure, mergeOperators]
  rw [applyGates, applyGates, this]

/-- Gates without operators make `apply_gates` raise the error of the first one. -/
theorem mapM_error {α β : Type} {op : α → Py β} {e : Err} {gs : List α} (h : ∀ g ∈ gs, (∃ u, op g = .ok u) ∨ op g = .error e)
    (he : ∃ g ∈ gs, op g = .error e) : gs.mapM op = .error e := by
  induction gs with
  | nil => simp at he
  | cons g gs ih =>
    rw [List.mapM_cons]
    rcases h g (by simp) with ⟨u, hu⟩ | hu
    · rw [hu]
      have : gs.mapM op = .error e := by
        apply ih (fun x hx => h x (by simp [hx]))
        obtain ⟨x, hx, hxe⟩ := he
        rcases List.mem_cons.1 hx with rfl | hx
        · rw [hu] at hxe; cases hxe
        · exact ⟨x, hx, hxe⟩
      change (gs.mapM op >>= fun _ => _) = _
      rw [this]; rfl
    · rw [hu]; rfl

theorem applyGates_error (so : SetOrder) (state : State) {gs : List Gate} {values : Values} {ot : OpType} {e : Err}
    (h : ∀ g ∈ gs, (∃ u, g.operator ot values = .ok u) ∨ g.operator ot values = .error e)
    (he : ∃ g ∈ gs, g.operator ot values = .error e) (group merge : Bool) :
    applyGates so state (.list gs) values ot group merge = .error e := by
  have main : ∀ gs : List Gate, (∀ g ∈ gs, (∃ u, g.operator ot values = .ok u) ∨ g.operator ot values = .error e) →
      (∃ g ∈ gs, g.operator ot values = .error e) → applyGates so state (.list gs) values ot false merge = .error e := by
    intro gs h he
    have := mapM_error (op := fun g : Gate => g.operator ot values) h he
    simp only [applyGates, prepareSequenceReduce, Bool.false_eq_true, if_false, this]
    rfl
  cases group with
  | false => exact main gs h he
  | true =>
    rw [applyGates_group]
    have hp := groupByIndex_perm gs
    obtain ⟨g, hg, hge⟩ := he
    exact main _ (fun g hg => h g (hp.mem_iff.1 hg)) ⟨g, hp.mem_iff.2 hg, hge⟩

end Verif
