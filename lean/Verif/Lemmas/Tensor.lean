import Verif.Lemmas.Controlled
import Verif.AbsGate

/-! # `Primitive.tensor` -/

namespace Verif
open NDArray
variable {K : Type}

theorem idxOf_sorted {L : List ℕ} (h : L.Pairwise (· < ·)) {q : ℕ} (hq : q ∈ L) : L.idxOf q = L.countP (· < q) := by
  induction L with
  | nil => simp at hq
  | cons a L ih =>
    rw [List.pairwise_cons] at h
    by_cases ha : a = q
    · subst ha
      rw [List.idxOf_cons_self, List.countP_cons, eq_comm]
      simp only [lt_self_iff_false, decide_false, Bool.false_eq_true, if_false, add_zero, List.countP_eq_zero, decide_eq_true_eq]
      intro b hb; have := h.1 b hb; omega
    · have hq' : q ∈ L := by simpa [Ne.symm ha] using hq
      rw [List.idxOf_cons_ne _ ha, ih h.2 hq', List.countP_cons, if_pos (by simpa using h.1 q hq')]

theorem pySorted_lt {l : List ℕ} (h : l.Nodup) : (pySorted l).Pairwise (· < ·) := by
  have h1 := pySorted_pairwise l
  have h2 : (pySorted l).Nodup := (perm_pySorted l).nodup_iff.2 h
  exact (h1.and h2).imp fun h => lt_of_le_of_ne h.1 h.2

theorem idxOf_pySorted {F : List ℕ} (hF : F.Nodup) {q : ℕ} (hq : q ∈ F) : (pySorted F).idxOf q = posIn F q := by
  rw [idxOf_sorted (pySorted_lt hF) ((perm_pySorted F).mem_iff.2 hq), posIn]
  exact (perm_pySorted F).countP_eq _

theorem map_idxOf_pySorted {F S : List ℕ} (hF : F.Nodup) (hsub : ∀ q ∈ S, q ∈ F) :
    S.map (pySorted F).idxOf = S.map (posIn F) :=
  List.map_congr_left fun q hq => idxOf_pySorted hF (hsub q hq)

theorem posIn_lt {F : List ℕ} (hF : F.Nodup) {q : ℕ} (hq : q ∈ F) : posIn F q < F.length := by
  rw [← idxOf_pySorted hF hq, ← (perm_pySorted F).length_eq]
  exact List.idxOf_lt_length_of_mem ((perm_pySorted F).mem_iff.2 hq)

theorem posIn_inj {F : List ℕ} (hF : F.Nodup) {p q : ℕ} (hp : p ∈ F) (hq : q ∈ F) (h : posIn F p = posIn F q) : p = q := by
  rw [← idxOf_pySorted hF hp, ← idxOf_pySorted hF hq] at h
  exact (List.idxOf_inj ((perm_pySorted F).mem_iff.2 hp)).1 h

theorem validDims_posIn {F S : List ℕ} (hF : F.Nodup) (hS : S.Nodup) (hsub : ∀ q ∈ S, q ∈ F) :
    ValidDims F.length (S.map (posIn F)) := by
  refine ⟨?_, ?_⟩
  · refine (List.nodup_map_iff_inj_on hS).2 fun p hp q hq h => posIn_inj hF (hsub p hp) (hsub q hq) h
  · intro q hq
    obtain ⟨p, hp, rfl⟩ := List.mem_map.1 hq
    exact posIn_lt hF (hsub p hp)

theorem posIn_perm {F F' : List ℕ} (h : F.Perm F') : posIn F = posIn F' := funext fun _ => h.countP_eq _

theorem posIn_range {n q : ℕ} (h : q < n) : posIn (List.range n) q = q := by
  rw [← idxOf_pySorted List.nodup_range (List.mem_range.2 h), pySorted_range]
  exact idxOf_range h

theorem map_posIn_self {F : List ℕ} (hF : F.Nodup) : (pySorted F).map (posIn F) = List.range F.length := by
  rw [← map_idxOf_pySorted hF fun q hq => (perm_pySorted F).mem_iff.1 hq]
  apply List.ext_getElem
  · simp [(perm_pySorted F).length_eq]
  · intro i h1 h2
    simp only [List.getElem_map, List.getElem_range]
    exact (((perm_pySorted F).nodup_iff.2 hF)).idxOf_getElem _ _

theorem isControlled_wf {c : Ctl} (h : WfCtl c) :
    (isControlled c = false ∧ ctlInts c = []) ∨
    (∃ cs, cs ≠ [] ∧ c = some (cs.map .int) ∧ isControlled c = true ∧ ctlInts c = cs) := by
  rcases h with rfl | rfl | ⟨cs, rfl⟩
  · exact .inl ⟨rfl, rfl⟩
  · exact .inl ⟨rfl, rfl⟩
  · cases cs with
    | nil => exact .inl ⟨rfl, rfl⟩
    | cons a cs =>
      refine .inr ⟨a :: cs, by simp, rfl, rfl, ?_⟩
      simp [ctlInts, List.filterMap_map, Function.comp_def]

theorem ctlQubits_ints (cs : List ℕ) : ctlQubits (some (cs.map CIdx.int)) = .ok cs := by
  simp only [ctlQubits]
  induction cs with
  | nil => rfl
  | cons c cs ih => rw [List.map_cons, List.mapM_cons, ih]; rfl

theorem expandOperator_not_subset [CommRing K] {op : NDArray K} {S F : List ℕ} (h : ¬ ∀ q ∈ S, q ∈ F) :
    expandOperator op S F = .error .valueError := by
  rw [expandOperator]
  have : (pySorted S).all (· ∈ pySorted F) = false := by
    rw [List.all_eq_false]
    push Not at h
    obtain ⟨q, hq, hqF⟩ := h
    exact ⟨q, (perm_pySorted S).mem_iff.2 hq, by simpa [(perm_pySorted F).mem_iff] using hqF⟩
  simp only [this]
  rfl

theorem qubitSupport_eq {g : Gate} (hc : WfCtl g.control) (hn : (ctlInts g.control ++ g.target).Nodup) :
    g.qubitSupport = .ok (pySorted (ctlInts g.control ++ g.target)) := by
  rw [Gate.qubitSupport]
  rcases isControlled_wf hc with ⟨h1, h2⟩ | ⟨cs, hne, h0, h1, h2⟩
  · rw [h1, h2]
    rw [h2, List.nil_append] at hn
    simp only [Bool.false_eq_true, if_false, List.nil_append, List.Nodup.dedup hn]
    rfl
  · rw [h1, h2, h0, ctlQubits_ints]
    rw [h2] at hn
    have hp : (g.target ++ cs).Perm (cs ++ g.target) := List.perm_append_comm
    simp only [if_true, bind, Except.bind, List.Nodup.dedup (hp.nodup_iff.2 hn), pySorted_perm_eq hp]
    rfl

/-- The dense operator that `tensor` builds before expanding: a matrix on the gate's own sorted support. -/
theorem tensor_local {g : Gate} {values : Values} {U : NDArray ℂ} (hU : g.unitary values = .ok U)
    (hop : IsOp g.target.length U) (hc : WfCtl g.control) (hn : (ctlInts g.control ++ g.target).Nodup) :
    ∃ r, (do let u ← g.unitary values
             if isControlled g.control then controlled u g.target g.control else .ok u) = .ok r ∧
      IsOp (ctlInts g.control ++ g.target).length r ∧
      ∀ (n : ℕ) (f : ℕ → ℕ), ValidDims n ((ctlInts g.control ++ g.target).map f) →
        gateMat n (entries r) ((pySorted (ctlInts g.control ++ g.target)).map f) []
          = gateMat n (entries U) ((pySorted g.target).map f) ((ctlInts g.control).map f) := by
  rcases isControlled_wf hc with ⟨h1, h2⟩ | ⟨cs, hne, h0, h1, h2⟩
  · refine ⟨U, ?_, ?_, ?_⟩
    · rw [hU, h1]; rfl
    · rw [h2]; exact hop
    · intro n f _; rw [h2]; rfl
  · rw [h2] at hn ⊢
    obtain ⟨r, hr, hr2, hr3⟩ := controlled_entries hop rfl hn hne
    refine ⟨r, ?_, hr2, ?_⟩
    · rw [hU, h1, h0]; exact hr
    · intro n f hv; exact gateMat_controlled f hv hr3

theorem tensor_mat {g : Gate} {values : Values} {U : NDArray ℂ} (hU : g.unitary values = .ok U)
    (hop : IsOp g.target.length U) (hc : WfCtl g.control) (hn : (ctlInts g.control ++ g.target).Nodup) {F : List ℕ}
    (hF : F.Nodup) (hsub : ∀ q ∈ ctlInts g.control ++ g.target, q ∈ F) :
    ∃ r, g.tensor values (some F) = .ok r ∧ IsOp F.length r ∧
      ∀ x y : Lab F.length, entries r (binVal x.bits) (binVal y.bits)
        = gateMatOn F (entries U) (pySorted g.target) (ctlInts g.control) x y := by
  obtain ⟨u, hu, hu1, hu2⟩ := tensor_local hU hop hc hn
  have hps := perm_pySorted (ctlInts g.control ++ g.target)
  have hpn := hps.nodup_iff.2 hn
  obtain ⟨r, hr, hr1, hr2⟩ := expandOperator_mat (F := F) hu1 hpn hF (fun q hq => hsub q (hps.mem_iff.1 hq)) hps.length_eq
  refine ⟨r, ?_, hr1, ?_⟩
  · rw [Gate.tensor, qubitSupport_eq hc hn]
    rw [hU] at hu ⊢
    simp only [bind, Except.bind] at hu ⊢
    cases hic : isControlled g.control
    all_goals
      simp only [hic, if_true, if_false, Bool.false_eq_true] at hu ⊢
    · cases hu
      exact hr
    · rw [hu]
      exact hr
  · intro x y
    have hpp : pySorted (pySorted (ctlInts g.control ++ g.target)) = pySorted (ctlInts g.control ++ g.target) :=
      pySorted_perm_eq hps
    rw [hr2, hpp, map_idxOf_pySorted hF fun q hq => hsub q (hps.mem_iff.1 hq),
      hu2 _ _ (validDims_posIn hF hn hsub)]
    rfl

theorem tensor_mat_none {g : Gate} {values : Values} {U : NDArray ℂ} (hU : g.unitary values = .ok U)
    (hop : IsOp g.target.length U) (hc : WfCtl g.control) (hn : (ctlInts g.control ++ g.target).Nodup) :
    ∃ r, g.tensor values none = .ok r ∧ IsOp (ctlInts g.control ++ g.target).length r ∧
      ∀ x y, entries r (binVal x.bits) (binVal y.bits)
        = gateMatOn (ctlInts g.control ++ g.target) (entries U) (pySorted g.target) (ctlInts g.control) x y := by
  obtain ⟨u, hu, hu1, hu2⟩ := tensor_local hU hop hc hn
  refine ⟨u, ?_, hu1, ?_⟩
  · rw [Gate.tensor]
    rw [hU] at hu ⊢
    simp only [bind, Except.bind] at hu ⊢
    cases hic : isControlled g.control
    all_goals
      simp only [hic, if_true, if_false, Bool.false_eq_true] at hu ⊢
    · cases hu
      rfl
    · rw [hu]
      rfl
  · intro x y
    rw [gateMatOn, ← hu2 _ _ (validDims_posIn hn hn fun _ h => h), map_posIn_self hn, gateMat_range_apply]

theorem gateMat_swap_comm {n a b : ℕ} {cs : List ℕ} :
    gateMat n StdGate.SWAP.mat [a, b] cs = gateMat n StdGate.SWAP.mat [b, a] cs := by
  funext x y
  rw [gateMat, gateMat]
  have h1 : Lab.AgreeOff [a, b] x y ↔ Lab.AgreeOff [b, a] x y := by
    constructor <;> intro h q hq <;> exact h q (by simp at hq ⊢; tauto)
  simp only [h1]
  have h2 : StdGate.SWAP.mat (x.idx [a, b]) (y.idx [a, b]) = StdGate.SWAP.mat (x.idx [b, a]) (y.idx [b, a]) := by
    simp only [Lab.idx, List.map_cons, List.map_nil, binVal, List.foldl_cons, List.foldl_nil]
    have := x.bit_lt_two a; have := x.bit_lt_two b; have := y.bit_lt_two a; have := y.bit_lt_two b
    generalize x.bit a = p at *
    generalize x.bit b = q at *
    generalize y.bit a = r at *
    generalize y.bit b = s at *
    obtain rfl | rfl : p = 0 ∨ p = 1 := by omega
    all_goals obtain rfl | rfl : q = 0 ∨ q = 1 := by omega
    all_goals obtain rfl | rfl : r = 0 ∨ r = 1 := by omega
    all_goals obtain rfl | rfl : s = 0 ∨ s = 1 := by omega
    all_goals simp [StdGate.mat, matE]
  rw [h2]

theorem pySorted_of_le {l : List ℕ} (h : l.Pairwise (· ≤ ·)) : pySorted l = l := by
  exact (perm_pySorted l).eq_of_pairwise (fun a b _ _ h1 h2 => le_antisymm h1 h2) (pySorted_pairwise l) h

theorem gateMat_std_sorted {n : ℕ} {s : StdGate} {ts cs : List ℕ} (h : ts.length = s.arity) (f : ℕ → ℕ) :
    gateMat n s.mat ((pySorted ts).map f) cs = gateMat n s.mat (ts.map f) cs := by
  match ts, h with
  | [], h => cases s <;> simp [StdGate.arity] at h
  | [t], h => rfl
  | [a, b], h =>
    cases s <;> simp [StdGate.arity] at h
    by_cases hab : a ≤ b
    · rw [pySorted_of_le (by simpa using hab)]
    · rw [pySorted_perm_eq (List.Perm.swap b a []), pySorted_of_le (by simp; omega)]
      exact gateMat_swap_comm
  | _ :: _ :: _ :: _, h => cases s <;> simp [StdGate.arity] at h

end Verif
