import Verif.Lemmas.Algorithms

/-! # C101: circuits of (controlled) nots and swaps are reversible logic circuits -/

set_option autoImplicit false

namespace Verif
open NDArray
variable {n : ℕ} {values : Values} (so : SetOrder)

theorem Logic.act_bit_not (x : Lab n) (t : ℕ) (cs : List ℕ) {q : ℕ} (hq : q < n) :
    ((Logic.not t cs).act x).bit q = if (∀ c ∈ cs, x.bit c = 1) ∧ q = t then 1 - x.bit q else x.bit q := by
  by_cases h : ∀ c ∈ cs, x.bit c = 1
  · have hv : ∀ i : Fin 2, (1 - i : Fin 2).val = 1 - i.val := by decide
    have e : ((Logic.not t cs).act x).bit q = (if q = t then 1 - x ⟨q, hq⟩ else x ⟨q, hq⟩ : Fin 2).val := by
      rw [Logic.act, if_pos h, Lab.bit, dif_pos hq]
    have e' : x.bit q = (x ⟨q, hq⟩).val := by rw [Lab.bit, dif_pos hq]
    rw [e, e']
    by_cases ht : q = t
    · rw [if_pos ht, if_pos ⟨h, ht⟩, hv]
    · rw [if_neg ht, if_neg (by simp [ht])]
  · simp only [Logic.act, if_neg h, h, false_and, if_false]

theorem Logic.act_bit_swap (x : Lab n) (a b : ℕ) (cs : List ℕ) {q : ℕ} (hq : q < n) :
    ((Logic.swap a b cs).act x).bit q = if ∀ c ∈ cs, x.bit c = 1 then (if q = a then x.bit b else if q = b then x.bit a else x.bit q)
      else x.bit q := by
  have hv : ∀ r, ((if x.bit r = 1 then 1 else 0 : Fin 2)).val = x.bit r := by
    intro r
    have := Lab.bit_lt_two x r
    split
    · next h => rw [h]; rfl
    · simp; omega
  by_cases h : ∀ c ∈ cs, x.bit c = 1
  · rw [if_pos h, Logic.act, if_pos h]
    conv_lhs => rw [Lab.bit, dif_pos hq]
    simp only
    by_cases ha : q = a
    · rw [if_pos ha, if_pos ha, hv]
    · rw [if_neg ha, if_neg ha]
      by_cases hb : q = b
      · rw [if_pos hb, if_pos hb, hv]
      · rw [if_neg hb, if_neg hb, Lab.bit, dif_pos hq]
  · rw [if_neg h, Logic.act, if_neg h]

/-- The gate fits the register: different qubits below `n`. -/
def Logic.Fits (n : ℕ) (l : Logic) : Prop := ValidDims n (l.placed.controls ++ l.placed.targets)

theorem Logic.act_controls {l : Logic} (h : l.Fits n) (x : Lab n) {c : ℕ} (hc : c ∈ l.placed.controls) : (l.act x).bit c = x.bit c := by
  have hcn : c < n := h.lt c (List.mem_append_left _ hc)
  have hd := List.disjoint_of_nodup_append h.nodup
  cases l with
  | not t cs =>
    have : c ≠ t := fun e => hd hc (by simp [Logic.placed, e])
    rw [Logic.act_bit_not x t cs hcn, if_neg (by simp [this])]
  | swap a b cs =>
    have ha : c ≠ a := fun e => hd hc (by simp [Logic.placed, e])
    have hb : c ≠ b := fun e => hd hc (by simp [Logic.placed, e])
    rw [Logic.act_bit_swap x a b cs hcn]
    simp [ha, hb]

/-- **C101**: the gates of reversible logic are their own inverses. -/
theorem Logic.act_act {l : Logic} (h : l.Fits n) (x : Lab n) : l.act (l.act x) = x := by
  have hc := fun c hc => Logic.act_controls h x (c := c) hc
  refine Lab.ext_bit fun q hq => ?_
  cases l with
  | not t cs =>
    have e : (∀ c ∈ cs, ((Logic.not t cs).act x).bit c = 1) ↔ ∀ c ∈ cs, x.bit c = 1 :=
      forall₂_congr fun c h => by rw [hc c h]
    have := Lab.bit_lt_two x q
    rw [Logic.act_bit_not _ t cs hq, Logic.act_bit_not x t cs hq]
    simp only [e]
    split <;> omega
  | swap a b cs =>
    have e : (∀ c ∈ cs, ((Logic.swap a b cs).act x).bit c = 1) ↔ ∀ c ∈ cs, x.bit c = 1 :=
      forall₂_congr fun c h => by rw [hc c h]
    have han : a < n := h.lt a (by simp [Logic.placed])
    have hbn : b < n := h.lt b (by simp [Logic.placed])
    rw [Logic.act_bit_swap _ a b cs hq, Logic.act_bit_swap x a b cs hq, Logic.act_bit_swap x a b cs han,
      Logic.act_bit_swap x a b cs hbn]
    simp only [e]
    by_cases h1 : ∀ c ∈ cs, x.bit c = 1
    · simp only [if_pos h1]
      by_cases ha : q = a
      · subst ha; simp; rintro rfl; rfl
      · by_cases hb : q = b
        · subst hb; simp [ha]
        · simp [ha, hb]
    · simp only [if_neg h1]

theorem swap_entry (i j k l : ℕ) (hi : i < 2) (hj : j < 2) (hk : k < 2) (hl : l < 2) :
    StdGate.SWAP.mat (2 * i + j) (2 * k + l) = if k = j ∧ l = i then 1 else 0 := by
  obtain rfl | rfl : i = 0 ∨ i = 1 := by omega
  all_goals obtain rfl | rfl : j = 0 ∨ j = 1 := by omega
  all_goals obtain rfl | rfl : k = 0 ∨ k = 1 := by omega
  all_goals obtain rfl | rfl : l = 0 ∨ l = 1 := by omega
  all_goals simp [StdGate.mat, matE]

/-- One gate moves the amplitudes. -/
theorem Logic.mulVec {l : Logic} (h : l.Fits n) (v : Lab n → ℂ) (x : Lab n) : (l.placed.mat n).mulVec v x = v (l.act x) := by
  cases l with
  | not t cs =>
    have htn : t < n := h.lt t (by simp [Logic.placed])
    have := mulVec_single StdGate.X.mat ⟨t, htn⟩ cs v x
    rw [Placed.mat]
    simp only [Logic.placed]
    rw [this]
    by_cases hc : ∀ c ∈ cs, x.bit c = 1
    · have e : (Logic.not t cs).act x = Function.update x ⟨t, htn⟩ (1 - x ⟨t, htn⟩) := by
        rw [Logic.act, if_pos hc]
        funext q
        by_cases hq : q = ⟨t, htn⟩
        · subst hq; simp
        · rw [Function.update_of_ne hq, if_neg fun e => hq (Fin.ext e)]
      rw [if_pos hc, e]
      rcases Fin.exists_fin_two.1 ⟨x ⟨t, htn⟩, rfl⟩ with e | e <;> rw [e] <;> simp [StdGate.mat, matE]
    · rw [if_neg hc, Logic.act, if_neg hc]
  | swap a b cs =>
    have han : a < n := h.lt a (by simp [Logic.placed])
    have hbn : b < n := h.lt b (by simp [Logic.placed])
    rw [Placed.mat]
    simp only [Logic.placed]
    rw [mulVec_gateMat]
    by_cases hc : ∀ c ∈ cs, x.bit c = 1
    · rw [if_pos hc, Finset.sum_eq_single ((Logic.swap a b cs).act x)]
      · rw [idx_pair, idx_pair, swap_entry _ _ _ _ (Lab.bit_lt_two _ _) (Lab.bit_lt_two _ _) (Lab.bit_lt_two _ _) (Lab.bit_lt_two _ _),
          if_pos, one_mul]
        rw [Logic.act_bit_swap x a b cs han, Logic.act_bit_swap x a b cs hbn]
        simp only [if_pos hc, if_true, true_and]
        split
        · next e => rw [e]
        · rfl
      · intro y hy hne
        rw [idx_pair, idx_pair, swap_entry _ _ _ _ (Lab.bit_lt_two _ _) (Lab.bit_lt_two _ _) (Lab.bit_lt_two _ _) (Lab.bit_lt_two _ _),
          if_neg, zero_mul]
        rintro ⟨h1, h2⟩
        refine hne (Lab.ext_bit fun q hq => ?_)
        rw [Logic.act_bit_swap x a b cs hq, if_pos hc]
        by_cases ha : q = a
        · rw [if_pos ha, ha, h1]
        · by_cases hb : q = b
          · rw [if_neg ha, if_pos hb, hb, h2]
          · rw [if_neg ha, if_neg hb]
            exact ((Lab.agreeOff_iff.1 (Finset.mem_filter.1 hy).2) q hq (by simp [ha, hb])).symm
      · intro hn
        refine absurd (Finset.mem_filter.2 ⟨Finset.mem_univ _, Lab.agreeOff_iff.2 fun q hq hm => ?_⟩) hn
        simp only [List.mem_cons, List.not_mem_nil, or_false, not_or] at hm
        rw [Logic.act_bit_swap x a b cs hq, if_pos hc, if_neg hm.1, if_neg hm.2]
    · rw [if_neg hc, Logic.act, if_neg hc]

theorem logic_mulVec {ls : List Logic} (h : ∀ l ∈ ls, l.Fits n) (v : Lab n → ℂ) (x : Lab n) :
    (placedMat n (ls.map Logic.placed)).mulVec v (logicRun ls x) = v x := by
  induction ls generalizing v x with
  | nil => simp [placedMat, logicRun]
  | cons l ls ih =>
    rw [List.map_cons, placedMat_mulVec_cons, logicRun, List.foldl_cons]
    have := ih (fun l hl => h l (List.mem_cons_of_mem _ hl)) ((l.placed.mat n).mulVec v) (l.act x)
    rw [logicRun] at this
    rw [this, Logic.mulVec (h l (by simp)), Logic.act_act (h l (by simp))]

/-- **C101**: a (possibly nested) circuit of nots and swaps with any number of controls carries the amplitude of every bit string to the
amplitude of the bit string that the logic circuit computes from it. -/
theorem C101_amplitudes {c : Op} (hc : c.Plain) {ls : List Logic} (h : Realizes n values c.gates (ls.map Logic.placed)) {a : NDArray ℂ}
    (ha : IsKet n a) :
    ∃ r, run so c (.vec a) values = .ok (some (.vec r)) ∧ IsKet n r ∧ ∀ x, ket n r (logicRun ls x) = ket n a x := by
  obtain ⟨r, h1, h2, h3⟩ := run_realizes so hc h ha
  refine ⟨r, h1, h2, fun x => ?_⟩
  rw [h3, logic_mulVec fun l hl => h.valid _ (List.mem_map_of_mem hl)]

/-- **C101**: the function that a logic circuit computes is a bijection of the bit strings. -/
theorem C101_reversible {c : Op} {ls : List Logic} (h : Realizes n values c.gates (ls.map Logic.placed)) :
    Function.Bijective (logicRun (n := n) ls) := by
  have hf : ∀ l ∈ ls, l.Fits n := fun l hl => h.valid _ (List.mem_map_of_mem hl)
  clear h
  refine Finite.injective_iff_bijective.1 fun x y hxy => ?_
  have h1 := logic_mulVec hf (fun z => if z = x then 1 else 0) x
  have h2 := logic_mulVec hf (fun z => if z = x then 1 else 0) y
  rw [hxy, h2, if_pos rfl] at h1
  by_contra hne
  rw [if_neg (Ne.symm hne)] at h1
  exact zero_ne_one h1

/-- **C101**: on `product_state(bits)` such a circuit returns `product_state` of the computed bits, exactly. -/
theorem C101_product_state {c : Op} (hc : c.Plain) {ls : List Logic} (h : Realizes n values c.gates (ls.map Logic.placed)) (b : Lab n)
    {a : NDArray ℂ} (ha : productState b.str = .ok a) :
    ∃ r, run so c (.vec a) values = .ok (some (.vec r)) ∧ productState (logicRun ls b).str = .ok r := by
  obtain ⟨a', h1, h2, h3⟩ := C28_product_state b
  obtain rfl : a' = a := by rw [h1] at ha; cases ha; rfl
  obtain ⟨d, k1, k2, k3⟩ := C28_product_state (logicRun ls b)
  obtain ⟨r, r1, r2, r3⟩ := C101_amplitudes so hc h h2
  refine ⟨r, r1, ?_⟩
  rw [k1, ket_ext k2 r2]
  funext y
  obtain ⟨x, rfl⟩ := (C101_reversible h).2 y
  rw [r3, k3, h3]
  refine if_congr (C101_reversible h).1.eq_iff rfl rfl

/-- **C101**: every sample of the circuit, started in `product_state(bits)`, is the computed bit string. -/
theorem C101_sample (hn : 1 ≤ n) {c : Op} (hc : c.Plain) {ls : List Logic} (h : Realizes n values c.gates (ls.map Logic.placed))
    (b : Lab n) {a : NDArray ℂ} (ha : productState b.str = .ok a) {draw : Draw} {k : ℤ} (hk : 1 ≤ k)
    (hd : ∀ j, draw k.toNat j ∈ Set.Ico (0 : ℝ) 1) :
    ∃ r, sample so draw (.vec a) c values k = .ok r ∧ r.counts = [((logicRun ls b).str, k.toNat)] := by
  obtain ⟨r, h1, h2⟩ := C101_product_state so hc h b ha
  exact C28_sample so draw hn _ h2 h1 hk hd

/-- Non-vacuity: a half adder.  Of the bits `1, 1, 0` it computes the carry `1` (qubit 2) and the sum `0` (qubit 1). -/
example {draw : Draw} {k : ℤ} (hk : 1 ≤ k) (hd : ∀ j, draw k.toNat j ∈ Set.Ico (0 : ℝ) 1) :
    ∃ a r, productState "110" = .ok a ∧
      sample so draw (.vec a) (mkCircuit 3 (.list [.prim (Gate.X (.int 2) (.tuple [.int 0, .int 1])), .prim (Gate.X (.int 1) (.int 0))]) [])
        [] k = .ok r ∧ r.counts = [("101", k.toNat)] := by
  let b : Lab 3 := ![1, 1, 0]
  obtain ⟨a, h1, -, -⟩ := C28_product_state b
  have hb : b.str = "110" := by simp [b, Lab.str, Lab.bits, List.ofFn_succ]
  obtain ⟨r, h2, h3⟩ := C101_sample (values := []) so (by norm_num) (c := mkCircuit 3 (.list [.prim (Gate.X (.int 2) (.tuple [.int 0, .int 1])), .prim (Gate.X (.int 1) (.int 0))]) [])
    (.circ _ _ (.cons (.prim _) (.cons (.prim _) .nil))) (ls := [.not 2 [0, 1], .not 1 [0]])
    (.cons ⟨⟨.X _ _ _, rfl, ⟨.inr (.inr ⟨[0, 1], rfl⟩), by decide⟩⟩, rfl, rfl, rfl⟩
      (.cons ⟨⟨.X _ _ _, rfl, ⟨.inr (.inr ⟨[0], rfl⟩), by decide⟩⟩, rfl, rfl, rfl⟩ .nil)) b h1 hk hd
  refine ⟨a, r, by rw [← hb]; exact h1, h2, ?_⟩
  rw [h3]
  have : (logicRun [.not 2 [0, 1], .not 1 [0]] b).str = "101" := by
    simp [b, Lab.str, Lab.bits, List.ofFn_succ, logicRun, Logic.act, Lab.bit]
  rw [this]

end Verif
