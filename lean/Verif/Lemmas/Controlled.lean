import Verif.Lemmas.Expand
import Verif.Lemmas.StdGates
import Mathlib.Data.Nat.BitIndices

/-! # `controlled` builds the textbook controlled matrix -/

namespace Verif
open NDArray
variable {K : Type}

/-- The entries at the unflagged positions. -/
def sel : List Bool → List ℕ → List ℕ
  | true :: fl, _ :: l => sel fl l
  | false :: fl, x :: l => x :: sel fl l
  | _, _ => []

/-- The list with `1` at the flagged positions and `v` at the others. -/
def spread : List Bool → List ℕ → List ℕ
  | [], _ => []
  | true :: fl, v => 1 :: spread fl v
  | false :: fl, [] => 0 :: spread fl []
  | false :: fl, x :: v => x :: spread fl v

/-- All flagged entries are `1`. -/
def AllOne (fl : List Bool) (l : List ℕ) : Prop := ∀ i, fl.getD i false = true → l.getD i 0 = 1

theorem allOne_cons {f : Bool} {fl : List Bool} {x : ℕ} {l : List ℕ} :
    AllOne (f :: fl) (x :: l) ↔ (f = true → x = 1) ∧ AllOne fl l := by
  constructor
  · intro h
    exact ⟨fun hf => by simpa using h 0 (by simpa using hf), fun i hi => by simpa using h (i + 1) (by simpa using hi)⟩
  · rintro ⟨h1, h2⟩ i hi
    cases i with
    | zero => simpa using h1 (by simpa using hi)
    | succ i => simpa using h2 i (by simpa using hi)

theorem length_spread (fl : List Bool) (v : List ℕ) : (spread fl v).length = fl.length := by
  induction fl generalizing v with
  | nil => rfl
  | cons f fl ih => cases f <;> cases v <;> simp [spread, ih]

theorem isBits_spread {fl : List Bool} {v : List ℕ} (hv : ∀ x ∈ v, x < 2) : IsBits fl.length (spread fl v) := by
  refine ⟨length_spread fl v, ?_⟩
  induction fl generalizing v with
  | nil => simp [spread]
  | cons f fl ih =>
    cases f with
    | true => simp only [spread, List.forall_mem_cons]; exact ⟨by omega, ih hv⟩
    | false =>
      cases v with
      | nil => simp only [spread, List.forall_mem_cons]; exact ⟨by omega, ih (by simp)⟩
      | cons x v =>
        simp only [spread, List.forall_mem_cons] at hv ⊢
        exact ⟨hv.1, ih hv.2⟩

theorem allOne_spread (fl : List Bool) (v : List ℕ) : AllOne fl (spread fl v) := by
  induction fl generalizing v with
  | nil => intro i hi; simp at hi
  | cons f fl ih =>
    cases f <;> cases v <;> simp only [spread, allOne_cons] <;> exact ⟨by simp, ih _⟩

theorem spread_sel {fl : List Bool} {l : List ℕ} (hl : l.length = fl.length) (h : AllOne fl l) :
    spread fl (sel fl l) = l := by
  induction fl generalizing l with
  | nil => rw [List.length_nil, List.length_eq_zero_iff] at hl; subst hl; rfl
  | cons f fl ih =>
    cases l with
    | nil => simp at hl
    | cons x l =>
      rw [allOne_cons] at h
      have hl' : l.length = fl.length := by simpa using hl
      cases f with
      | true => rw [sel, spread, ih hl' h.2, h.1 rfl]
      | false => rw [sel, spread, ih hl' h.2]

theorem isBits_sel {fl : List Bool} {l : List ℕ} (hl : IsBits fl.length l) : IsBits (fl.count false) (sel fl l) := by
  induction fl generalizing l with
  | nil => exact ⟨by simp [sel], by simp [sel]⟩
  | cons f fl ih =>
    obtain ⟨h1, h2⟩ := hl
    cases l with
    | nil => simp at h1
    | cons x l =>
      have := ih (l := l) ⟨by simpa using h1, fun y hy => h2 y (by simp [hy])⟩
      cases f with
      | true => simpa [sel] using this
      | false =>
        refine ⟨by simp [sel, this.1], ?_⟩
        simp only [sel, List.forall_mem_cons]
        exact ⟨h2 x (by simp), this.2⟩

theorem spread_lt {fl : List Bool} {u v : List ℕ} (hu : IsBits (fl.count false) u) (hv : IsBits (fl.count false) v)
    (h : binVal u < binVal v) : binVal (spread fl u) < binVal (spread fl v) := by
  induction fl generalizing u v with
  | nil =>
    have h1 : u = [] := by simpa using hu.1
    have h2 : v = [] := by simpa using hv.1
    subst h1; subst h2; exact absurd h (lt_irrefl _)
  | cons f fl ih =>
    cases f with
    | true =>
      simp only [List.count_cons, Bool.true_eq_false, beq_iff_eq, if_false, add_zero] at hu hv
      simp only [spread, binVal_cons, length_spread]
      have := ih hu hv h
      omega
    | false =>
      simp only [List.count_cons, beq_self_eq_true, if_true] at hu hv
      obtain ⟨hu1, hu2⟩ := hu
      obtain ⟨hv1, hv2⟩ := hv
      cases u with
      | nil => simp at hu1
      | cons x u =>
        cases v with
        | nil => simp at hv1
        | cons y v =>
          have hu' : IsBits (fl.count false) u := ⟨by simpa using hu1, fun z hz => hu2 z (by simp [hz])⟩
          have hv' : IsBits (fl.count false) v := ⟨by simpa using hv1, fun z hz => hv2 z (by simp [hz])⟩
          simp only [spread, binVal_cons, length_spread] at h ⊢
          rw [hu'.1, hv'.1] at h
          have hlu := hu'.lt
          have hlv := hv'.lt
          have hsu := (isBits_spread (fl := fl) hu'.2).lt
          have hsv := (isBits_spread (fl := fl) hv'.2).lt
          have hx : x < 2 := hu2 x (by simp)
          have hy : y < 2 := hv2 y (by simp)
          obtain rfl | rfl : x = 0 ∨ x = 1 := by omega
          · obtain rfl | rfl : y = 0 ∨ y = 1 := by omega
            · have := ih hu' hv' (by omega); omega
            · omega
          · obtain rfl | rfl : y = 0 ∨ y = 1 := by omega
            · omega
            · have := ih hu' hv' (by omega); omega

theorem testBit_binVal {l : List ℕ} (hl : ∀ x ∈ l, x < 2) {i : ℕ} (hi : i < l.length) :
    (binVal l).testBit (l.length - i - 1) = decide (l.getD i 0 = 1) := by
  induction l generalizing i with
  | nil => simp at hi
  | cons x l ih =>
    have hx : x < 2 := hl x (by simp)
    have hlt : binVal l < 2 ^ l.length := binVal_lt fun y hy => hl y (by simp [hy])
    rw [binVal_cons]
    cases i with
    | zero =>
      simp only [List.length_cons, Nat.sub_zero, Nat.add_sub_cancel, List.getD_cons_zero]
      obtain rfl | rfl : x = 0 ∨ x = 1 := by omega
      · simp [Nat.testBit_lt_two_pow hlt]
      · rw [one_mul, Nat.testBit_two_pow_add_eq, Nat.testBit_lt_two_pow hlt]; simp
    | succ i =>
      have hi' : i < l.length := by simpa using hi
      have := ih (fun y hy => hl y (by simp [hy])) hi'
      simp only [List.length_cons, List.getD_cons_succ]
      rw [show l.length + 1 - (i + 1) - 1 = l.length - i - 1 by omega, ← this]
      obtain rfl | rfl : x = 0 ∨ x = 1 := by omega
      · simp
      · rw [one_mul, Nat.testBit_two_pow_add_gt (by omega)]

theorem and_mask_iff {fl : List Bool} {l : List ℕ} (hl : IsBits fl.length l) :
    (binVal l &&& (((List.range fl.length).filter fun i => fl.getD i false).map fun c => 1 <<< (fl.length - c - 1)).sum
      = (((List.range fl.length).filter fun i => fl.getD i false).map fun c => 1 <<< (fl.length - c - 1)).sum)
    ↔ AllOne fl l := by
  obtain ⟨P, hP⟩ : ∃ P, P = (((List.range fl.length).filter fun i => fl.getD i false).map fun c =>
      fl.length - c - 1).reverse := ⟨_, rfl⟩
  have hsorted : P.SortedLT := by
    rw [hP, List.sortedLT_iff_pairwise, List.pairwise_reverse, List.pairwise_map]
    refine List.Pairwise.filter _ ?_
    refine (List.pairwise_lt_range (n := fl.length)).imp_of_mem ?_
    intro a b ha hb h
    have := List.mem_range.1 ha; have := List.mem_range.1 hb; omega
  have hsum : (((List.range fl.length).filter fun i => fl.getD i false).map fun c => 1 <<< (fl.length - c - 1)).sum
      = (P.map fun i => 2 ^ i).sum := by
    rw [hP, List.map_reverse, List.sum_reverse, List.map_map]
    simp [Function.comp_def, Nat.one_shiftLeft]
  rw [hsum]
  have hbit : ∀ j, (P.map fun i => 2 ^ i).sum.testBit j = true ↔ j ∈ P := by
    intro j
    rw [← Nat.mem_bitIndices, Nat.bitIndices_sum_map_two_pow hsorted]
  have hmem : ∀ j, j ∈ P ↔ ∃ c, c < fl.length ∧ fl.getD c false = true ∧ fl.length - c - 1 = j := by
    intro j
    rw [hP]
    simp only [List.mem_reverse, List.mem_map, List.mem_filter, List.mem_range, and_assoc]
  constructor
  · intro h c hc
    have hcl : c < fl.length := by
      by_contra hcl
      rw [List.getD_eq_getElem?_getD, List.getElem?_eq_none (by omega)] at hc
      cases hc
    have hm : (P.map fun i => 2 ^ i).sum.testBit (fl.length - c - 1) = true := (hbit _).2 ((hmem _).2 ⟨c, hcl, hc, rfl⟩)
    rw [← h, Nat.testBit_and, Bool.and_eq_true, ← hl.1, testBit_binVal hl.2 (by rw [hl.1]; exact hcl)] at hm
    simpa using hm.1
  · intro h
    apply Nat.eq_of_testBit_eq
    intro j
    rw [Nat.testBit_and]
    by_cases hj : (P.map fun i => 2 ^ i).sum.testBit j = true
    · rw [hj, Bool.and_true]
      obtain ⟨c, hcl, hc, rfl⟩ := (hmem j).1 ((hbit j).1 hj)
      rw [← hl.1, testBit_binVal hl.2 (by rw [hl.1]; exact hcl)]
      simpa using h c hc
    · rw [Bool.not_eq_true] at hj
      rw [hj, Bool.and_false]

/-- The basis indices selected by `prepare_controlled`, for given control flags. -/
def ctlInd (fl : List Bool) : List ℕ :=
  (List.range (2 ^ fl.length)).filter fun i =>
    i &&& (((List.range fl.length).filter fun i => fl.getD i false).map fun c => 1 <<< (fl.length - c - 1)).sum
      = (((List.range fl.length).filter fun i => fl.getD i false).map fun c => 1 <<< (fl.length - c - 1)).sum

theorem map_binVal_allIdx (k : ℕ) : (allIdx (List.replicate k 2)).map binVal = List.range (2 ^ k) := by
  have := map_ravel_allIdx (List.replicate k 2)
  rw [List.prod_replicate] at this
  rw [← this]
  apply List.map_congr_left
  intro idx hidx
  exact (ravel_two (mem_allIdx_two.1 hidx)).symm

theorem exists_bits {m i : ℕ} (hi : i < 2 ^ m) : ∃ l, IsBits m l ∧ binVal l = i := by
  have : i ∈ (allIdx (List.replicate m 2)).map binVal := by rw [map_binVal_allIdx]; exact List.mem_range.2 hi
  obtain ⟨l, hl, rfl⟩ := List.mem_map.1 this
  exact ⟨l, mem_allIdx_two.1 hl, rfl⟩

theorem ctlInd_eq (fl : List Bool) :
    ctlInd fl = (allIdx (List.replicate (fl.count false) 2)).map fun v => binVal (spread fl v) := by
  have hs1 : (ctlInd fl).Pairwise (· < ·) := (List.pairwise_lt_range (n := 2 ^ fl.length)).filter _
  have hs2 : ((allIdx (List.replicate (fl.count false) 2)).map fun v => binVal (spread fl v)).Pairwise (· < ·) := by
    rw [List.pairwise_map]
    have h := List.pairwise_lt_range (n := 2 ^ fl.count false)
    rw [← map_binVal_allIdx, List.pairwise_map] at h
    exact h.imp_of_mem fun ha hb hab => spread_lt (mem_allIdx_two.1 ha) (mem_allIdx_two.1 hb) hab
  have hmem : ∀ i, i ∈ ctlInd fl ↔ i ∈ (allIdx (List.replicate (fl.count false) 2)).map fun v => binVal (spread fl v) := by
    intro i
    simp only [ctlInd, List.mem_filter, List.mem_range, decide_eq_true_eq, List.mem_map]
    constructor
    · rintro ⟨hi, hm⟩
      obtain ⟨l, hl, rfl⟩ := exists_bits hi
      have := (and_mask_iff hl).1 hm
      exact ⟨sel fl l, mem_allIdx_two.2 (isBits_sel hl), by rw [spread_sel hl.1 this]⟩
    · rintro ⟨v, hv, rfl⟩
      have hb := isBits_spread (fl := fl) (mem_allIdx_two.1 hv).2
      exact ⟨hb.lt, (and_mask_iff hb).2 (allOne_spread _ _)⟩
  have hperm : (ctlInd fl).Perm ((allIdx (List.replicate (fl.count false) 2)).map fun v => binVal (spread fl v)) :=
    (List.perm_ext_iff_of_nodup (hs1.imp fun h => h.ne) (hs2.imp fun h => h.ne)).2 hmem
  exact hperm.eq_of_pairwise (fun a b _ _ h1 h2 => absurd (h1.trans h2) (lt_irrefl _)) hs1 hs2

theorem mem_ctlInd {fl : List Bool} {l : List ℕ} (hl : IsBits fl.length l) : binVal l ∈ ctlInd fl ↔ AllOne fl l := by
  simp only [ctlInd, List.mem_filter, List.mem_range, decide_eq_true_eq, and_mask_iff hl]
  exact ⟨fun h => h.2, fun h => ⟨hl.lt, h⟩⟩

theorem length_ctlInd (fl : List Bool) : (ctlInd fl).length = 2 ^ fl.count false := by
  rw [ctlInd_eq, List.length_map, length_allIdx, List.prod_replicate]

theorem idxOf_ctlInd {fl : List Bool} {l : List ℕ} (hl : IsBits fl.length l) (h : AllOne fl l) :
    (ctlInd fl).idxOf (binVal l) = binVal (sel fl l) := by
  have hb := isBits_sel hl
  have hnd : (ctlInd fl).Nodup := ((List.pairwise_lt_range (n := 2 ^ fl.length)).filter _).imp fun h => h.ne
  have hlt : binVal (sel fl l) < (ctlInd fl).length := by rw [length_ctlInd]; exact hb.lt
  have hget : (ctlInd fl)[binVal (sel fl l)] = binVal l := by
    have h1 : (allIdx (List.replicate (fl.count false) 2))[binVal (sel fl l)]? = some (sel fl l) := by
      have := getElem?_allIdx_ravel (forall₂_replicate.2 hb)
      rwa [ravel_two hb] at this
    have h2 : (ctlInd fl)[binVal (sel fl l)]? = some (binVal l) := by
      rw [ctlInd_eq, List.getElem?_map, h1]
      simp [spread_sel hl.1 h]
    rw [List.getElem?_eq_getElem hlt] at h2
    exact Option.some.inj h2
  rw [← hget]
  exact hnd.idxOf_getElem _ hlt

theorem sel_map {α : Type} (p : α → Bool) (f : α → ℕ) (S : List α) :
    sel (S.map p) (S.map f) = (S.filter fun q => !p q).map f := by
  induction S with
  | nil => rfl
  | cons a S ih => cases h : p a <;> simp [sel, h, ih]

theorem allOne_map {α : Type} (p : α → Bool) (f : α → ℕ) (S : List α) :
    AllOne (S.map p) (S.map f) ↔ ∀ q ∈ S, p q = true → f q = 1 := by
  induction S with
  | nil => simp [AllOne]
  | cons a S ih => rw [List.map_cons, List.map_cons, allOne_cons, ih, List.forall_mem_cons]

theorem pySorted_pairwise (l : List ℕ) : (pySorted l).Pairwise (· ≤ ·) := List.pairwise_insertionSort _ _

theorem filter_pySorted {ts cs : List ℕ} (hn : (cs ++ ts).Nodup) :
    (pySorted (cs ++ ts)).filter (fun q => !decide (q ∈ cs)) = pySorted ts := by
  have hd := (List.nodup_append.1 hn).2.2
  have hp : ((pySorted (cs ++ ts)).filter fun q => !decide (q ∈ cs)).Perm (pySorted ts) := by
    refine ((perm_pySorted _).filter _).trans (List.Perm.trans ?_ (perm_pySorted ts).symm)
    rw [List.filter_append, List.filter_eq_nil_iff.2 (by simp), List.nil_append, List.filter_eq_self.2]
    intro q hq
    simp only [Bool.not_eq_true', decide_eq_false_iff_not]
    exact fun hc => hd q hc q hq rfl
  exact hp.eq_of_pairwise (fun a b _ _ h1 h2 => le_antisymm h1 h2) ((pySorted_pairwise _).filter _) (pySorted_pairwise _)

/-- `controlled` on a well-formed control tuple: entries of the result. -/
theorem controlled_entries [CommRing K] {op : NDArray K} {k : ℕ} (hop : IsOp k op) {ts cs : List ℕ} (hk : ts.length = k)
    (hn : (cs ++ ts).Nodup) (hcs : cs ≠ []) :
    ∃ r, controlled op ts (some (cs.map .int)) = .ok r ∧ IsOp (cs ++ ts).length r ∧
      ∀ u v : ℕ → ℕ, (∀ q, u q < 2) → (∀ q, v q < 2) →
        entries r (binVal ((pySorted (cs ++ ts)).map u)) (binVal ((pySorted (cs ++ ts)).map v))
          = if (∀ c ∈ cs, u c = 1) ∧ ∀ c ∈ cs, v c = 1 then
              entries op (binVal ((pySorted ts).map u)) (binVal ((pySorted ts).map v))
            else if (pySorted (cs ++ ts)).map u = (pySorted (cs ++ ts)).map v then 1 else 0 := by
  obtain ⟨S, hS⟩ : ∃ S, S = pySorted (cs ++ ts) := ⟨_, rfl⟩
  obtain ⟨fl, hfl⟩ : ∃ fl : List Bool, fl = S.map fun q => decide (q ∈ cs) := ⟨_, rfl⟩
  have hSl : S.length = cs.length + k := by rw [hS, (perm_pySorted _).length_eq, List.length_append, hk]
  have hfll : fl.length = cs.length + k := by rw [hfl, List.length_map, hSl]
  have hct : ctlQubits (some (cs.map CIdx.int)) = .ok cs := by
    simp only [ctlQubits]
    clear hcs hn hS hSl hfll hfl
    induction cs with
    | nil => rfl
    | cons c cs ih => rw [List.map_cons, List.mapM_cons, ih]; rfl
  have hcount : fl.count false = k := by
    have h := congrArg List.length (filter_pySorted hn)
    rw [← hS, (perm_pySorted ts).length_eq, hk] at h
    rw [← h, hfl]
    clear h hfll hfl hSl hS hct
    induction S with
    | nil => rfl
    | cons a S ih => by_cases ha : a ∈ cs <;> simp [ha] at ih ⊢ <;> omega
  have hprep : prepareControlled op ts (some (cs.map CIdx.int)) = .ok (2 ^ (cs.length + k), ctlInd fl) := by
    rw [prepareControlled, controlTuple, hct]
    simp only [bind, Except.bind, hop.shape, List.getD_cons_zero, hk]
    rw [show intLog2 (2 ^ k) = k by rw [intLog2, Nat.log_pow (by norm_num)]]
    simp only [ne_eq, not_true, if_false]
    have hfilt : ((List.range (pySorted (cs ++ ts)).length).filter fun i => decide ((pySorted (cs ++ ts)).getD i 0 ∈ cs))
        = (List.range fl.length).filter fun i => fl.getD i false := by
      rw [← hS, hfll, hSl]
      apply List.filter_congr
      intro i hi
      have hi' : i < S.length := by rw [hSl]; exact List.mem_range.1 hi
      simp [hfl, hi']
    rw [hfilt, ctlInd, hfll]
    simp
  have hshape : op.shape = [(ctlInd fl).length, (ctlInd fl).length] := by rw [length_ctlInd, hcount, hop.shape]
  refine ⟨ofFn [2 ^ (cs.length + k), 2 ^ (cs.length + k)] fun idx =>
      if idx.getD 0 0 ∈ ctlInd fl ∧ idx.getD 1 0 ∈ ctlInd fl then
        op.get [(ctlInd fl).idxOf (idx.getD 0 0), (ctlInd fl).idxOf (idx.getD 1 0)]
      else if idx.getD 0 0 = idx.getD 1 0 then 1 else 0, ?_, ⟨?_, wf_ofFn _ _⟩, ?_⟩
  · rw [controlled, hprep]
    simp only [bind, Except.bind, if_pos hshape]
  · rw [List.length_append, hk]; rfl
  · intro u v hu hv
    have hub : IsBits fl.length (S.map u) := ⟨by simp [hfl], by simpa using fun q _ => Nat.le_of_lt_succ (hu q)⟩
    have hvb : IsBits fl.length (S.map v) := ⟨by simp [hfl], by simpa using fun q _ => Nat.le_of_lt_succ (hv q)⟩
    have hlt : ∀ {l : List ℕ}, IsBits fl.length l → binVal l < 2 ^ (cs.length + k) := by
      intro l hl; rw [← hfll]; exact hl.lt
    rw [← hS, entries, get_ofFn (by
      refine .cons (hlt hub) (.cons (hlt hvb) .nil))]
    have hone : ∀ w : ℕ → ℕ, AllOne fl (S.map w) ↔ ∀ c ∈ cs, w c = 1 := by
      intro w
      rw [hfl, allOne_map]
      constructor
      · intro h c hc
        exact h c (by rw [hS, (perm_pySorted _).mem_iff]; simp [hc]) (by simpa using hc)
      · intro h q _ hq
        exact h q (by simpa using hq)
    by_cases hc : (∀ c ∈ cs, u c = 1) ∧ ∀ c ∈ cs, v c = 1
    · rw [if_pos hc, if_pos ⟨(mem_ctlInd hub).2 ((hone u).2 hc.1), (mem_ctlInd hvb).2 ((hone v).2 hc.2)⟩]
      simp only [List.getD_cons_zero, List.getD_cons_succ]
      rw [idxOf_ctlInd hub ((hone u).2 hc.1), idxOf_ctlInd hvb ((hone v).2 hc.2), hfl, sel_map, sel_map,
        hS, filter_pySorted hn]
      rfl
    · rw [if_neg hc, if_neg fun h => hc ⟨(hone u).1 ((mem_ctlInd hub).1 h.1), (hone v).1 ((mem_ctlInd hvb).1 h.2)⟩]
      simp only [List.getD_cons_zero, List.getD_cons_succ]
      by_cases huv : S.map u = S.map v
      · rw [if_pos huv, if_pos (by rw [huv])]
      · rw [if_neg huv, if_neg]
        exact fun h => huv (binVal_inj hub.2 hvb.2 (by simp) h)

/-- The controlled matrix placed on the sorted support (relabelled by `f`) is the controlled gate. -/
theorem gateMat_controlled [CommRing K] {n : ℕ} {op r : NDArray K} {ts cs : List ℕ} (f : ℕ → ℕ)
    (hv : ValidDims n ((cs ++ ts).map f))
    (hent : ∀ u v : ℕ → ℕ, (∀ q, u q < 2) → (∀ q, v q < 2) →
        entries r (binVal ((pySorted (cs ++ ts)).map u)) (binVal ((pySorted (cs ++ ts)).map v))
          = if (∀ c ∈ cs, u c = 1) ∧ ∀ c ∈ cs, v c = 1 then
              entries op (binVal ((pySorted ts).map u)) (binVal ((pySorted ts).map v))
            else if (pySorted (cs ++ ts)).map u = (pySorted (cs ++ ts)).map v then 1 else 0) :
    gateMat n (entries r) ((pySorted (cs ++ ts)).map f) []
      = gateMat n (entries op) ((pySorted ts).map f) (cs.map f) := by
  funext x y
  have hmem : ∀ q, q ∈ (pySorted (cs ++ ts)).map f ↔ q ∈ cs.map f ∨ q ∈ ts.map f := fun q => by
    rw [((perm_pySorted _).map f).mem_iff, List.map_append, List.mem_append]
  have hmt : ∀ q, q ∈ (pySorted ts).map f ↔ q ∈ ts.map f := fun q => ((perm_pySorted _).map f).mem_iff
  rw [List.map_append] at hv
  have hall : ∀ z : Lab n, (∀ c ∈ cs.map f, z.bit c = 1) ↔ ∀ c ∈ cs, (fun q => z.bit (f q)) c = 1 := fun z => by
    simp only [List.forall_mem_map]
  rw [gateMat, gateMat, if_pos (by simp), Lab.idx, Lab.idx, List.map_map, List.map_map]
  have hent' := hent (fun q => x.bit (f q)) (fun q => y.bit (f q)) (fun q => Lab.bit_lt_two x _) fun q => Lab.bit_lt_two y _
  simp only [← hall] at hent'
  rw [show x.bit ∘ f = fun q => x.bit (f q) from rfl, show y.bit ∘ f = fun q => y.bit (f q) from rfl, hent']
  by_cases hx : ∀ c ∈ cs.map f, x.bit c = 1
  · rw [if_pos hx]
    by_cases hA : Lab.AgreeOff ((pySorted ts).map f) x y
    · rw [if_pos hA]
      have hy : ∀ c ∈ cs.map f, y.bit c = 1 := by
        intro c hc
        rw [← hx c hc]
        refine (Lab.agreeOff_iff.1 hA c (hv.lt c (List.mem_append_left _ hc)) ?_).symm
        rw [hmt]
        exact fun ht => (List.nodup_append.1 hv.nodup).2.2 c hc c ht rfl
      have hA' : Lab.AgreeOff ((pySorted (cs ++ ts)).map f) x y := by
        intro q hq; exact hA q fun h => hq ((hmem _).2 (.inr ((hmt _).1 h)))
      rw [if_pos hA', if_pos ⟨hx, hy⟩, Lab.idx, Lab.idx, List.map_map, List.map_map]; rfl
    · rw [if_neg hA]
      by_cases hA' : Lab.AgreeOff ((pySorted (cs ++ ts)).map f) x y
      · rw [if_pos hA']
        by_cases hy : ∀ c ∈ cs.map f, y.bit c = 1
        · exfalso; apply hA
          rw [Lab.agreeOff_iff] at hA' ⊢
          intro q hq hqt
          by_cases hqc : q ∈ cs.map f
          · rw [hx q hqc, hy q hqc]
          · exact hA' q hq (by rw [hmem]; rw [hmt] at hqt; tauto)
        · rw [if_neg (by tauto), if_neg]
          intro h
          apply hy
          intro c hc
          rw [← hx c hc]
          obtain ⟨q, hq, rfl⟩ := List.mem_map.1 hc
          exact (List.map_inj_left.1 h q ((perm_pySorted _).mem_iff.2 (List.mem_append_left _ hq))).symm
      · rw [if_neg hA']
  · rw [if_neg hx]
    by_cases hA' : Lab.AgreeOff ((pySorted (cs ++ ts)).map f) x y
    · rw [if_pos hA', if_neg (by tauto)]
      by_cases hxy : x = y
      · subst hxy; simp
      · rw [if_neg hxy, if_neg]
        intro h
        apply hxy
        apply Lab.ext_bit
        intro q hq
        by_cases hq' : q ∈ (pySorted (cs ++ ts)).map f
        · obtain ⟨p, hp, rfl⟩ := List.mem_map.1 hq'
          exact List.map_inj_left.1 h p hp
        · exact Lab.agreeOff_iff.1 hA' q hq hq'
    · rw [if_neg hA', if_neg]
      rintro rfl
      exact hA' (Lab.AgreeOff.refl _ _)

end Verif
