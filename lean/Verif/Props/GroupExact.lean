import Verif.Lemmas.Tensor
import Verif.Props.Group
import Verif.Props.DmExact

/-! # C04: when exactly grouping is harmless -/

set_option autoImplicit false

namespace Verif
open NDArray
variable {n : ℕ} {values : Values}

/-- **C04** (commuting gates): if any two uncontrolled gates of the list with different targets have commuting matrices,
`group_gates=True` does not change the result. -/
theorem C04_commuting_partial (so : SetOrder) {ot : OpType} {gs : List Gate} (hok : ∀ g ∈ gs, g.Ok n ot values)
    (hnz : ∀ g ∈ gs, g.noise = none)
    (hcomm : ∀ g ∈ gs, ∀ h ∈ gs, ctlInts g.control = [] → ctlInts h.control = [] → g.target ≠ h.target →
      g.mat n ot values * h.mat n ot values = h.mat n ot values * g.mat n ot values)
    {state : State} (hst : state.On n) (merge merge' : Bool) :
    applyGates so state (.list gs) values ot true merge = applyGates so state (.list gs) values ot false merge' := by
  rw [applyGates_group]
  have hp := groupByIndex_perm gs
  by_cases hne : gs = []
  · subst hne; cases merge <;> cases merge' <;> rfl
  have hne' : groupByIndex gs ≠ [] := fun h => hne (by simpa [h] using hp)
  have hok' : ∀ g ∈ groupByIndex gs, g.Ok n ot values := fun g hg => hok g (hp.mem_iff.1 hg)
  have hnz' : ∀ g ∈ groupByIndex gs, g.noise = none := fun g hg => hnz g (hp.mem_iff.1 hg)
  have hunc : ∀ a ∈ gs, isControlled a.control = false → ctlInts a.control = [] := by
    intro a ha hca
    rcases isControlled_wf (hok a ha).valid.ctl with h | ⟨_, _, _, h, _⟩
    · exact h.2
    · rw [h] at hca; cases hca
  have hmat : gatesMat n ot values (groupByIndex gs) = gatesMat n ot values gs := by
    rw [← mul_one (gatesMat n ot values (groupByIndex gs)), ← mul_one (gatesMat n ot values gs), ← gatesMat_foldl,
      ← gatesMat_foldl]
    apply groupByIndex_foldl (fun g M => g.mat n ot values * M)
    intro a ha b hb hab hca hcb M
    rw [← mul_assoc, ← mul_assoc, hcomm a ha b hb (hunc a ha hca) (hunc b hb hcb) hab]
  cases state with
  | vec a =>
    obtain ⟨r, h1, h2, h3⟩ := applyGates_vec so hne' hok' hnz' hst merge
    obtain ⟨r', h1', h2', h3'⟩ := applyGates_vec so hne hok hnz hst merge'
    rw [h1, h1', ket_ext h2 h2' (by rw [h3, h3', hmat])]
  | dm ρ =>
    obtain ⟨r, h1, h2, h3⟩ := applyGates_dm so hne' hok' hnz' hst merge
    obtain ⟨r', h1', h2', h3'⟩ := applyGates_dm so hne hok hnz hst merge'
    rw [h1, h1', dm_ext h2 h2' (by rw [h3, h3', hmat])]

/-- Non-vacuity: `SWAP((1, 0))` and `SWAP((0, 1))` overlap and commute, and grouping exchanges them. -/
example : (∀ g ∈ [Gate.SWAP (.tuple [1, 0]), Gate.SWAP (.tuple [0, 1])], ∀ h ∈ [Gate.SWAP (.tuple [1, 0]), Gate.SWAP (.tuple [0, 1])],
      ctlInts g.control = [] → ctlInts h.control = [] → g.target ≠ h.target →
      g.mat 2 .unitary [] * h.mat 2 .unitary [] = h.mat 2 .unitary [] * g.mat 2 .unitary []) ∧
    groupByIndex [Gate.SWAP (.tuple [1, 0]), Gate.SWAP (.tuple [0, 1])] = [Gate.SWAP (.tuple [0, 1]), Gate.SWAP (.tuple [1, 0])] := by
  have e1 : (Gate.SWAP (.tuple [1, 0])).mat 2 .unitary [] = gateMat 2 StdGate.SWAP.mat [1, 0] [] :=
    (show (Gate.SWAP (.tuple [1, 0])).Std 2 [] .SWAP from ⟨.SWAP _ _ _, rfl, ⟨.inr (.inl rfl), by decide⟩⟩).mat
  have e2 : (Gate.SWAP (.tuple [0, 1])).mat 2 .unitary [] = gateMat 2 StdGate.SWAP.mat [0, 1] [] :=
    (show (Gate.SWAP (.tuple [0, 1])).Std 2 [] .SWAP from ⟨.SWAP _ _ _, rfl, ⟨.inr (.inl rfl), by decide⟩⟩).mat
  refine ⟨?_, rfl⟩
  simp only [List.mem_cons, List.not_mem_nil, or_false]
  rintro g (rfl | rfl) h (rfl | rfl) _ _ _ <;> simp only [e1, e2, gateMat_swap_comm (a := 1) (b := 0)]

theorem not_tupleLe {a b : List ℕ} : ¬ tupleLe a b ↔ b < a := by
  induction a generalizing b with
  | nil => simp [tupleLe]
  | cons x a ih =>
    cases b with
    | nil => simp [tupleLe]
    | cons y b =>
      rw [tupleLe, List.cons_lt_cons_iff, ← ih, not_or, not_and, not_lt]
      constructor
      · rintro ⟨h1, h2⟩
        rcases h1.lt_or_eq with h | h
        · exact .inl h
        · exact .inr ⟨h, h2 h.symm⟩
      · rintro (h | ⟨rfl, h⟩)
        · exact ⟨h.le, fun e => absurd e (by omega)⟩
        · exact ⟨le_rfl, fun _ => h⟩

theorem mulVec_ext {A B : Matrix (Lab n) (Lab n) ℂ} (h : ∀ a, IsKet n a → A.mulVec (ket n a) = B.mulVec (ket n a)) : A = B := by
  refine Matrix.mulVec_injective (funext fun v => ?_)
  obtain ⟨a, ha, rfl⟩ := exists_ket v
  exact h a ha

/-- **C04** (two gates, exactly): for two uncontrolled noiseless gates `a`, `b` of any class, grouping gives the right
result for all state vectors exactly when the target tuple of `b` is not smaller than that of `a` (then they are not exchanged)
or the matrices of the two gates commute. -/
theorem C04_pair_iff (so : SetOrder) {ot : OpType} {a b : Gate} (ha : a.Ok n ot values) (hb : b.Ok n ot values)
    (hna : a.noise = none) (hnb : b.noise = none) (hca : ctlInts a.control = []) (hcb : ctlInts b.control = [])
    (merge merge' : Bool) :
    (∀ st, IsKet n st → applyGates so (.vec st) (.list [a, b]) values ot true merge
        = applyGates so (.vec st) (.list [a, b]) values ot false merge') ↔
      (¬ b.target < a.target ∨ a.mat n ot values * b.mat n ot values = b.mat n ot values * a.mat n ot values) := by
  have hunc : ∀ {g : Gate}, g.Ok n ot values → ctlInts g.control = [] → isControlled g.control = false := by
    intro g hg hc
    rcases isControlled_wf hg.valid.ctl with h | ⟨cs, hne, _, _, h3⟩
    · exact h.1
    · exact absurd (h3.symm.trans hc) hne
  have hua := hunc ha hca
  have hub := hunc hb hcb
  have hok : ∀ g ∈ [a, b], g.Ok n ot values := by simp [ha, hb]
  have hok' : ∀ g ∈ [b, a], g.Ok n ot values := by simp [ha, hb]
  have hnz : ∀ g ∈ [a, b], g.noise = none := by simp [hna, hnb]
  have hnz' : ∀ g ∈ [b, a], g.noise = none := by simp [hna, hnb]
  have hmat : gatesMat n ot values [a, b] = b.mat n ot values * a.mat n ot values := by simp [gatesMat]
  have hmat' : gatesMat n ot values [b, a] = a.mat n ot values * b.mat n ot values := by simp [gatesMat]
  have hg : groupByIndex [a, b] = if b.target < a.target then [b, a] else [a, b] := by
    rw [groupByIndex, groupLoop, hua]
    simp only [Bool.not_false, if_true, List.nil_append]
    rw [groupLoop, hub]
    simp only [Bool.not_false, if_true, groupLoop, List.cons_append, List.nil_append]
    rw [if_pos (by simp), sortBatch]
    by_cases h : b.target < a.target
    · rw [if_pos h]
      simp [List.insertionSort, List.orderedInsert, not_tupleLe.2 h]
    · rw [if_neg h]
      have : tupleLe a.target b.target := by by_contra h'; exact h (not_tupleLe.1 h')
      simp [List.insertionSort, List.orderedInsert, this]
  simp only [applyGates_group, hg]
  by_cases h : b.target < a.target
  · rw [if_pos h]
    simp only [h, not_true, false_or]
    constructor
    · intro hall
      refine mulVec_ext fun st hst => ?_
      obtain ⟨r, h1, h2, h3⟩ := applyGates_vec so (by simp) hok' hnz' hst merge
      obtain ⟨r', h1', h2', h3'⟩ := applyGates_vec so (by simp) hok hnz hst merge'
      have := hall st hst
      rw [h1, h1'] at this
      cases this
      rw [← hmat, ← hmat', ← h3, ← h3']
    · intro hc st hst
      obtain ⟨r, h1, h2, h3⟩ := applyGates_vec so (by simp) hok' hnz' hst merge
      obtain ⟨r', h1', h2', h3'⟩ := applyGates_vec so (by simp) hok hnz hst merge'
      rw [h1, h1', ket_ext h2 h2' (by rw [h3, h3', hmat, hmat', hc])]
  · rw [if_neg h]
    simp only [h, not_false_eq_true, true_or, iff_true]
    intro st hst
    obtain ⟨r, h1, h2, h3⟩ := applyGates_vec so (by simp) hok hnz hst merge
    obtain ⟨r', h1', h2', h3'⟩ := applyGates_vec so (by simp) hok hnz hst merge'
    rw [h1, h1', ket_ext h2 h2' (by rw [h3, h3'])]

/-- Non-vacuity: `X(1)` and `SWAP((0, 1))` meet the hypotheses, and are exchanged. -/
example : (Gate.X (.int 1)).Ok 2 .unitary [] ∧ (Gate.SWAP (.tuple [0, 1])).Ok 2 .unitary [] ∧
    (Gate.SWAP (.tuple [0, 1])).target < (Gate.X (.int 1)).target :=
  ⟨(show (Gate.X (.int 1)).Std 2 [] .X from ⟨.X _ _ _, rfl, ⟨.inr (.inl rfl), by decide⟩⟩).ok,
    (show (Gate.SWAP (.tuple [0, 1])).Std 2 [] .SWAP from ⟨.SWAP _ _ _, rfl, ⟨.inr (.inl rfl), by decide⟩⟩).ok, by decide⟩

end Verif
