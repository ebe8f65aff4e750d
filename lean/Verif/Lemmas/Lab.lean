import Verif.Lemmas.Index
import Mathlib.Algebra.BigOperators.Ring.Finset
import Mathlib.Data.Fin.VecNotation

/-! # Basis labels versus lists of bits -/

namespace Verif
open List

namespace Lab
variable {n : ℕ}

/-- The label with the given bits. -/
def ofBits (n : ℕ) (l : List ℕ) : Lab n := fun i => if l.getD i 0 = 1 then 1 else 0

theorem isBits_bits (b : Lab n) : IsBits n b.bits := by
  refine ⟨by simp [bits], ?_⟩
  intro x hx
  simp only [bits, List.mem_ofFn] at hx
  obtain ⟨i, rfl⟩ := hx
  exact (b i).isLt

theorem getD_bits (b : Lab n) (q : ℕ) : b.bits.getD q 0 = b.bit q := by
  by_cases h : q < n
  · simp [bits, bit, h, List.getD_eq_getElem?_getD]
  · simp [bits, bit, h, List.getD_eq_getElem?_getD]

theorem bit_lt_two (b : Lab n) (q : ℕ) : b.bit q < 2 := by
  rw [← getD_bits]; exact b.isBits_bits.getD_lt q

theorem bit_fin (b : Lab n) (q : Fin n) : b.bit q = (b q).val := by simp [bit]

theorem bit_ofBits {l : List ℕ} (h : IsBits n l) (q : ℕ) : (ofBits n l).bit q = l.getD q 0 := by
  have := h.getD_lt q
  by_cases hq : q < n
  · simp only [bit, hq, dite_true, ofBits]
    split
    · rename_i h1; rw [h1]; rfl
    · rename_i h1; rw [Fin.val_zero]; omega
  · simp only [bit, hq, dite_false]
    rw [List.getD_eq_getElem?_getD, List.getElem?_eq_none (by rw [h.1]; omega)]; rfl

theorem bits_ofBits {l : List ℕ} (h : IsBits n l) : (ofBits n l).bits = l := by
  apply List.ext_getElem
  · simp [bits, h.1]
  · intro i h1 h2
    have e1 : (ofBits n l).bits[i] = (ofBits n l).bits.getD i 0 := by simp [List.getD_eq_getElem?_getD, h1]
    have e2 : l[i] = l.getD i 0 := by simp [List.getD_eq_getElem?_getD, h2]
    rw [e1, e2, getD_bits, bit_ofBits h]

theorem ext_bit {b b' : Lab n} (h : ∀ q, q < n → b.bit q = b'.bit q) : b = b' := by
  funext i
  have := h i i.2
  rw [bit_fin, bit_fin] at this
  exact Fin.ext this

theorem ofBits_bits (b : Lab n) : ofBits n b.bits = b := by
  apply ext_bit
  intro q _
  rw [bit_ofBits b.isBits_bits, getD_bits]

theorem bits_injective : Function.Injective (bits (n := n)) := fun a b h => by
  rw [← ofBits_bits a, h, ofBits_bits]

theorem agreeOff_iff {qs : List ℕ} {b b' : Lab n} :
    AgreeOff qs b b' ↔ ∀ q, q < n → q ∉ qs → b.bit q = b'.bit q := by
  constructor
  · intro h q hq hqs
    have := h ⟨q, hq⟩ hqs
    simp [bit, hq, this]
  · intro h q hq
    have := h q q.2 hq
    rw [bit_fin, bit_fin] at this
    exact Fin.ext this

theorem AgreeOff.symm {qs : List ℕ} {b b' : Lab n} (h : AgreeOff qs b b') : AgreeOff qs b' b :=
  fun q hq => (h q hq).symm

theorem AgreeOff.trans {qs : List ℕ} {b b' b'' : Lab n} (h : AgreeOff qs b b') (h' : AgreeOff qs b' b'') :
    AgreeOff qs b b'' := fun q hq => (h q hq).trans (h' q hq)

theorem AgreeOff.refl (qs : List ℕ) (b : Lab n) : AgreeOff qs b b := fun _ _ => rfl

theorem isBits_map_bit (b : Lab n) (qs : List ℕ) : IsBits qs.length (qs.map b.bit) := by
  refine ⟨by simp, ?_⟩
  intro x hx
  simp only [List.mem_map] at hx
  obtain ⟨p, _, rfl⟩ := hx
  exact b.bit_lt_two p

theorem idx_lt (b : Lab n) (qs : List ℕ) : b.idx qs < 2 ^ qs.length := (b.isBits_map_bit qs).lt

theorem idx_append (b : Lab n) (u v : List ℕ) : b.idx (u ++ v) = b.idx u * 2 ^ v.length + b.idx v := by
  rw [idx, List.map_append, binVal_append]; simp [idx]

theorem idx_inj {b b' : Lab n} {qs : List ℕ} (h : b.idx qs = b'.idx qs) : ∀ q ∈ qs, b.bit q = b'.bit q := by
  have := binVal_inj (b.isBits_map_bit qs).2 (b'.isBits_map_bit qs).2 (by simp) h
  exact fun q hq => List.map_inj_left.1 this q hq

theorem eq_of_agreeOff_of_idx {b b' : Lab n} {qs : List ℕ} (h : AgreeOff qs b b') (h' : b.idx qs = b'.idx qs) :
    b = b' := by
  apply ext_bit
  intro q hq
  by_cases hm : q ∈ qs
  · exact idx_inj h' q hm
  · exact agreeOff_iff.1 h q hq hm

/-- All listed bits are one iff the big-endian value is maximal. -/
theorem binVal_eq_max {l : List ℕ} (h : ∀ x ∈ l, x < 2) :
    2 ^ l.length - 1 ≤ binVal l ↔ ∀ x ∈ l, x = 1 := by
  induction l with
  | nil => simp
  | cons x t ih =>
    have ht := binVal_lt fun y hy => h y (List.mem_cons_of_mem _ hy)
    have ih' := ih fun y hy => h y (List.mem_cons_of_mem _ hy)
    have hx := h x (by simp)
    have hpos : 0 < 2 ^ t.length := by positivity
    rw [binVal_cons, List.length_cons, pow_succ]
    simp only [List.mem_cons, forall_eq_or_imp]
    rw [← ih']
    obtain rfl | rfl : x = 0 ∨ x = 1 := by omega
    · simp; omega
    · simp; omega

theorem all_one_iff (b : Lab n) (qs : List ℕ) :
    (∀ c ∈ qs, b.bit c = 1) ↔ 2 ^ qs.length - 1 ≤ b.idx qs := by
  have := binVal_eq_max (b.isBits_map_bit qs).2
  rw [idx]
  simp only [List.length_map] at this
  rw [this]; simp

/-- The label that carries bits `s` on the qubits `qs` and the bits of `b` elsewhere. -/
def override (b : Lab n) (qs s : List ℕ) : Lab n := fun i =>
  if i.val ∈ qs then (if s.getD (qs.idxOf i.val) 0 = 1 then 1 else 0) else b i

theorem agreeOff_override (b : Lab n) (qs s : List ℕ) : AgreeOff qs b (b.override qs s) := by
  intro q hq; simp [override, hq]

theorem bit_override (b : Lab n) (qs s : List ℕ) (hs : ∀ x ∈ s, x < 2) {q : ℕ} (hq : q < n) :
    (b.override qs s).bit q = if q ∈ qs then s.getD (qs.idxOf q) 0 else b.bit q := by
  simp only [bit, hq, dite_true, override]
  by_cases hm : q ∈ qs
  · simp only [hm, if_true]
    have := IsBits.getD_lt (n := s.length) ⟨rfl, hs⟩ (qs.idxOf q)
    split
    · rename_i h1; rw [h1]; rfl
    · rename_i h1; rw [Fin.val_zero]; omega
  · simp [hm]

theorem map_bit_override (b : Lab n) {qs s : List ℕ} (hs : IsBits qs.length s) (hn : qs.Nodup)
    (hq : ∀ q ∈ qs, q < n) : qs.map (b.override qs s).bit = s := by
  apply List.ext_getElem
  · simp [hs.1]
  · intro i h1 h2
    have hi : i < qs.length := by simpa using h1
    rw [List.getElem_map, bit_override _ _ _ hs.2 (hq _ (List.getElem_mem hi)), if_pos (List.getElem_mem hi),
      hn.idxOf_getElem]
    simp [List.getD_eq_getElem?_getD, h2]

theorem idx_override (b : Lab n) {qs s : List ℕ} (hs : IsBits qs.length s) (hn : qs.Nodup)
    (hq : ∀ q ∈ qs, q < n) : (b.override qs s).idx qs = binVal s := by
  rw [idx, map_bit_override b hs hn hq]

theorem override_self {b b' : Lab n} {qs : List ℕ} (h : AgreeOff qs b b') :
    b.override qs (qs.map b'.bit) = b' := by
  apply ext_bit
  intro q hq
  rw [bit_override _ _ _ (b'.isBits_map_bit qs).2 hq]
  by_cases hm : q ∈ qs
  · rw [if_pos hm]
    have := List.idxOf_lt_length_of_mem hm
    simp [List.getD_eq_getElem?_getD, this]
  · rw [if_neg hm]; exact agreeOff_iff.1 h q hq hm

theorem bits_override (b : Lab n) (qs : List ℕ) {s : List ℕ} (hs : ∀ x ∈ s, x < 2) :
    (b.override qs s).bits = (List.range n).map fun p =>
      if p ∈ qs then s.getD (qs.idxOf p) 0 else b.bits.getD p 0 := by
  apply List.ext_getElem
  · simp [bits]
  · intro i h1 h2
    have hi : i < n := by simpa using h2
    have e1 : (b.override qs s).bits[i] = (b.override qs s).bits.getD i 0 := by
      simp [List.getD_eq_getElem?_getD, h1]
    rw [e1, getD_bits, bit_override _ _ _ hs hi]
    simp only [List.getElem_map, List.getElem_range, getD_bits]

end Lab

/-- Sums over all bit lists are sums over labels. -/
theorem sum_allIdx_two {M : Type} [AddCommMonoid M] (n : ℕ) (f : List ℕ → M) :
    ((allIdx (List.replicate n 2)).map f).sum = ∑ b : Lab n, f b.bits := by
  rw [← List.sum_toFinset f (nodup_allIdx _)]
  symm
  refine Finset.sum_nbij' Lab.bits (Lab.ofBits n) ?_ ?_ ?_ ?_ ?_
  · intro b _; simp only [List.mem_toFinset, mem_allIdx_two]; exact b.isBits_bits
  · intro l _; exact Finset.mem_univ _
  · intro b _; exact b.ofBits_bits
  · intro l hl; simp only [List.mem_toFinset, mem_allIdx_two] at hl; exact Lab.bits_ofBits hl
  · intro b _; rfl

/-- Sum over the labels agreeing with `b` off `qs` = sum over the bit lists carried by `qs`. -/
theorem sum_agreeOff {M : Type} [AddCommMonoid M] {n : ℕ} {qs : List ℕ} (hn : qs.Nodup) (hq : ∀ q ∈ qs, q < n)
    (b : Lab n) (f : Lab n → M) :
    (∑ b' : Lab n, if Lab.AgreeOff qs b b' then f b' else 0)
      = ((allIdx (List.replicate qs.length 2)).map fun s => f (b.override qs s)).sum := by
  rw [← List.sum_toFinset _ (nodup_allIdx _), ← Finset.sum_filter]
  refine Finset.sum_nbij' (fun b' => qs.map b'.bit) (fun s => b.override qs s) ?_ ?_ ?_ ?_ ?_
  · intro b' _; simp only [List.mem_toFinset, mem_allIdx_two]; exact b'.isBits_map_bit qs
  · intro s _; simp [Lab.agreeOff_override]
  · intro b' hb'; simp only [Finset.mem_filter, Finset.mem_univ, true_and] at hb'
    exact Lab.override_self hb'
  · intro s hs; simp only [List.mem_toFinset, mem_allIdx_two] at hs
    exact Lab.map_bit_override b hs hn hq
  · intro b' hb'; simp only [Finset.mem_filter, Finset.mem_univ, true_and] at hb'
    rw [Lab.override_self hb']

end Verif
