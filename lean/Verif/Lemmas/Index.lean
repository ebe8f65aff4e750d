import Verif.Np
import Verif.Spec
import Mathlib.Tactic.Ring
import Mathlib.Tactic.Linarith
import Mathlib.Data.List.NodupEquivFin

/-! # Index lemmas: row-major enumeration, `get`/`ofFn`, binary values -/

namespace Verif
open List

theorem length_allIdx (s : List ℕ) : (allIdx s).length = s.prod := by
  induction s with
  | nil => rfl
  | cons d ds ih => simp [allIdx, List.length_flatMap, ih]

theorem mem_allIdx {s idx : List ℕ} : idx ∈ allIdx s ↔ List.Forall₂ (· < ·) idx s := by
  induction s generalizing idx with
  | nil => simp [allIdx]
  | cons d ds ih =>
    cases idx with
    | nil => simp [allIdx]
    | cons i is => simp [allIdx, ih]

theorem nodup_allIdx (s : List ℕ) : (allIdx s).Nodup := by
  induction s with
  | nil => simp [allIdx]
  | cons d ds ih =>
    rw [allIdx, List.nodup_flatMap]
    refine ⟨fun i _ => ih.map (fun a b h => by simpa using h), ?_⟩
    refine List.Pairwise.imp ?_ (List.nodup_range (n := d))
    intro a b hab
    rw [Function.onFun, List.disjoint_left]
    intro x hx hy
    simp only [List.mem_map] at hx hy
    obtain ⟨u, _, rfl⟩ := hx
    obtain ⟨v, _, h⟩ := hy
    simp only [List.cons.injEq] at h
    exact hab h.1.symm

theorem ravel_lt {s idx : List ℕ} (h : List.Forall₂ (· < ·) idx s) : ravel s idx < s.prod := by
  induction h with
  | nil => simp [ravel]
  | @cons i d is ds hid _ ih =>
    simp only [ravel, List.prod_cons]
    calc i * ds.prod + ravel ds is < i * ds.prod + ds.prod := by omega
      _ = (i + 1) * ds.prod := by ring
      _ ≤ d * ds.prod := Nat.mul_le_mul_right _ hid

theorem getElem?_flatMap_const {α β : Type} (l : List α) (f : α → List β) (m : ℕ)
    (hf : ∀ a ∈ l, (f a).length = m) (i j : ℕ) (hi : i < l.length) (hj : j < m) :
    (l.flatMap f)[i * m + j]? = (f l[i])[j]? := by
  induction l generalizing i with
  | nil => simp at hi
  | cons a t ih =>
    cases i with
    | zero =>
      have : j < (f a).length := by rw [hf a (by simp)]; exact hj
      simp [List.flatMap_cons, List.getElem?_append_left this]
    | succ i =>
      have hfa : (f a).length = m := hf a (by simp)
      have hlen : (f a).length ≤ (i + 1) * m + j := by rw [hfa, Nat.add_mul]; omega
      rw [List.flatMap_cons, List.getElem?_append_right hlen, hfa]
      have : (i + 1) * m + j - m = i * m + j := by rw [Nat.add_mul]; omega
      rw [this, ih (fun x hx => hf x (by simp [hx])) i (by simpa using hi)]
      simp

theorem getElem?_allIdx_ravel {s idx : List ℕ} (h : List.Forall₂ (· < ·) idx s) :
    (allIdx s)[ravel s idx]? = some idx := by
  induction h with
  | nil => simp [allIdx, ravel]
  | @cons i d is ds hid hrest ih =>
    have hr := ravel_lt hrest
    simp only [ravel, allIdx]
    rw [getElem?_flatMap_const _ _ ds.prod (fun a _ => by simp [length_allIdx]) i _ (by simpa using hid) hr]
    simp [ih]

namespace NDArray
variable {K : Type}

@[simp] theorem shape_ofFn (s : List ℕ) (f : List ℕ → K) : (ofFn s f).shape = s := rfl

theorem wf_ofFn (s : List ℕ) (f : List ℕ → K) : (ofFn s f).WF := by simp [WF, ofFn, length_allIdx]

theorem get_ofFn [Zero K] {s : List ℕ} {f : List ℕ → K} {idx : List ℕ}
    (h : List.Forall₂ (· < ·) idx s) : (ofFn s f).get idx = f idx := by
  simp [get, ofFn, List.getD_eq_getElem?_getD, getElem?_allIdx_ravel h]

theorem ofFn_congr {s : List ℕ} {f g : List ℕ → K}
    (h : ∀ idx, List.Forall₂ (· < ·) idx s → f idx = g idx) : ofFn s f = ofFn s g := by
  simp only [ofFn, NDArray.mk.injEq, true_and]
  exact List.map_congr_left fun a ha => h a (mem_allIdx.1 ha)

theorem map_ravel_allIdx (s : List ℕ) : (allIdx s).map (ravel s) = List.range s.prod := by
  induction s with
  | nil => rfl
  | cons d ds ih =>
    simp only [allIdx, List.map_flatMap, List.map_map, List.prod_cons]
    have : ∀ i, List.map (ravel (d :: ds) ∘ fun x => i :: x) (allIdx ds)
        = (List.range ds.prod).map (i * ds.prod + ·) := by
      intro i
      rw [← ih, List.map_map]
      rfl
    simp only [this]
    clear this ih
    induction d with
    | zero => simp
    | succ d ih =>
      rw [List.range_succ, List.flatMap_append, ih, Nat.succ_mul, List.range_add]
      simp

theorem eq_ofFn_get [Zero K] {a : NDArray K} (h : a.WF) : a = ofFn a.shape a.get := by
  have : (allIdx a.shape).map a.get = a.data := by
    have h2 : (allIdx a.shape).map a.get
        = ((allIdx a.shape).map (ravel a.shape)).map fun i => a.data.getD i 0 := by
      rw [List.map_map]; rfl
    rw [h2, map_ravel_allIdx]
    apply List.ext_getElem
    · simpa [WF] using h.symm
    · intro i h1 h2; simp [h2]
  cases a
  simpa [ofFn] using this.symm

/-- Two well-formed arrays with equal shapes and equal elements are equal. -/
theorem ext_get [Zero K] {a b : NDArray K} (ha : a.WF) (hb : b.WF) (hs : a.shape = b.shape)
    (h : ∀ idx, List.Forall₂ (· < ·) idx a.shape → a.get idx = b.get idx) : a = b := by
  rw [eq_ofFn_get ha, eq_ofFn_get hb, ← hs]
  exact ofFn_congr h

end NDArray



theorem binVal_foldl (l : List ℕ) (a : ℕ) :
    l.foldl (fun a x => 2 * a + x) a = a * 2 ^ l.length + binVal l := by
  induction l generalizing a with
  | nil => simp [binVal]
  | cons x t ih =>
    simp only [List.foldl_cons, List.length_cons, binVal]
    rw [ih, ih (2 * 0 + x)]; ring

@[simp] theorem binVal_nil : binVal [] = 0 := rfl

theorem binVal_cons (x : ℕ) (t : List ℕ) : binVal (x :: t) = x * 2 ^ t.length + binVal t := by
  rw [binVal, List.foldl_cons, binVal_foldl]; simp

theorem binVal_append (u v : List ℕ) : binVal (u ++ v) = binVal u * 2 ^ v.length + binVal v := by
  rw [binVal, List.foldl_append, binVal_foldl]; rfl

theorem binVal_lt {l : List ℕ} (h : ∀ x ∈ l, x < 2) : binVal l < 2 ^ l.length := by
  induction l with
  | nil => simp
  | cons x t ih =>
    have hx := h x (by simp)
    have := ih fun y hy => h y (by simp [hy])
    rw [binVal_cons, List.length_cons, pow_succ]
    have : x * 2 ^ t.length ≤ 1 * 2 ^ t.length := Nat.mul_le_mul_right _ (by omega)
    omega

theorem binVal_inj {u v : List ℕ} (hu : ∀ x ∈ u, x < 2) (hv : ∀ x ∈ v, x < 2)
    (hl : u.length = v.length) (h : binVal u = binVal v) : u = v := by
  induction u generalizing v with
  | nil => cases v with
    | nil => rfl
    | cons => simp at hl
  | cons x t ih =>
    cases v with
    | nil => simp at hl
    | cons y s =>
      have hl' : t.length = s.length := by simpa using hl
      have ht := binVal_lt fun z hz => hu z (List.mem_cons_of_mem _ hz)
      have hs := binVal_lt fun z hz => hv z (List.mem_cons_of_mem _ hz)
      rw [binVal_cons, binVal_cons, ← hl'] at h
      rw [← hl'] at hs
      have hx := hu x (by simp)
      have hy := hv y (by simp)
      have hxy : x = y := by
        rcases Nat.lt_trichotomy x y with h1 | h1 | h1
        · exfalso
          have : x = 0 := by omega
          have : y = 1 := by omega
          subst_vars; omega
        · exact h1
        · exfalso
          have : y = 0 := by omega
          have : x = 1 := by omega
          subst_vars; omega
      subst hxy
      have : binVal t = binVal s := by omega
      rw [ih (fun z hz => hu z (List.mem_cons_of_mem _ hz))
        (fun z hz => hv z (List.mem_cons_of_mem _ hz)) hl' this]

@[simp] theorem prod_replicate_two (n : ℕ) : (List.replicate n 2).prod = 2 ^ n := by simp

theorem ravel_replicate_two {idx : List ℕ} : ravel (List.replicate idx.length 2) idx = binVal idx := by
  induction idx with
  | nil => rfl
  | cons i is ih => simp [List.replicate_succ, ravel, ih, binVal_cons]

/-- A list of `n` bits. -/
def IsBits (n : ℕ) (idx : List ℕ) : Prop := idx.length = n ∧ ∀ x ∈ idx, x < 2

theorem forall₂_replicate {n : ℕ} {idx : List ℕ} :
    List.Forall₂ (· < ·) idx (List.replicate n 2) ↔ IsBits n idx := by
  induction n generalizing idx with
  | zero => cases idx <;> simp [IsBits]
  | succ n ih =>
    cases idx with
    | nil => simp [IsBits]
    | cons i is => simp [List.replicate_succ, ih, IsBits]; tauto

theorem mem_allIdx_two {n : ℕ} {idx : List ℕ} :
    idx ∈ allIdx (List.replicate n 2) ↔ IsBits n idx := by
  rw [mem_allIdx, forall₂_replicate]

theorem ravel_two {n : ℕ} {idx : List ℕ} (h : IsBits n idx) :
    ravel (List.replicate n 2) idx = binVal idx := by
  rw [← h.1, ravel_replicate_two]

theorem IsBits.append {m n : ℕ} {u v : List ℕ} (hu : IsBits m u) (hv : IsBits n v) :
    IsBits (m + n) (u ++ v) := by
  refine ⟨by simp [hu.1, hv.1], fun x hx => ?_⟩
  rcases List.mem_append.1 hx with h | h
  · exact hu.2 x h
  · exact hv.2 x h

theorem IsBits.lt {n : ℕ} {u : List ℕ} (h : IsBits n u) : binVal u < 2 ^ n := h.1 ▸ binVal_lt h.2

theorem IsBits.getD_lt {n : ℕ} {u : List ℕ} (h : IsBits n u) (i : ℕ) : u.getD i 0 < 2 := by
  rw [List.getD_eq_getElem?_getD]
  by_cases hi : i < u.length
  · have := h.2 _ (List.getElem_mem hi)
    simp [hi]; omega
  · simp [hi]

theorem IsBits.map_getD {n : ℕ} {u : List ℕ} (h : IsBits n u) (l : List ℕ) :
    IsBits l.length (l.map fun p => u.getD p 0) := by
  refine ⟨by simp, ?_⟩
  intro x hx
  simp only [List.mem_map] at hx
  obtain ⟨p, _, rfl⟩ := hx
  exact h.getD_lt p

theorem isBits_take_drop {m n : ℕ} {u : List ℕ} (h : IsBits (m + n) u) :
    IsBits m (u.take m) ∧ IsBits n (u.drop m) :=
  ⟨⟨by simp [h.1], fun x hx => h.2 x (List.mem_of_mem_take hx)⟩,
   ⟨by simp [h.1], fun x hx => h.2 x (List.mem_of_mem_drop hx)⟩⟩

end Verif
