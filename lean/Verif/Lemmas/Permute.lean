import Verif.Lemmas.GateAlg

/-! # `argsort`, `permute_basis`, `_dagger` and the density-matrix `apply_operator` -/

namespace Verif
open NDArray
variable {K : Type}

/-! ## argsort -/

theorem perm_argsort (l : List ℕ) : (argsort l).Perm (List.range l.length) := List.perm_insertionSort _ _

theorem map_argsort (l : List ℕ) : (argsort l).map (fun i => l.getD i 0) = pySorted l := by
  have h1 : ((argsort l).map fun i => l.getD i 0).Perm l := by
    have := (perm_argsort l).map fun i => l.getD i 0
    rwa [map_getD_self l _ rfl] at this
  have h2 : ((argsort l).map fun i => l.getD i 0).Pairwise (· ≤ ·) := by
    rw [List.pairwise_map]
    let R : ℕ → ℕ → Prop := fun i j => l.getD i 0 ≤ l.getD j 0
    have : Std.Total R := ⟨fun a b => Nat.le_total _ _⟩
    have : IsTrans _ R := ⟨fun a b c => Nat.le_trans⟩
    exact List.pairwise_insertionSort R _
  have h3 : (pySorted l).Pairwise (· ≤ ·) := List.pairwise_insertionSort _ _
  have h4 : (pySorted l).Perm l := List.perm_insertionSort _ _
  exact (h1.trans h4.symm).eq_of_pairwise (fun a b _ _ h h' => Nat.le_antisymm h h') h2 h3

theorem argsort_eq {l : List ℕ} (hn : l.Nodup) : argsort l = (pySorted l).map l.idxOf := by
  rw [← map_argsort, List.map_map]
  symm
  rw [List.map_congr_left (g := id), List.map_id]
  intro i hi
  have : i < l.length := by simpa using (perm_argsort l).mem_iff.1 hi
  exact idxOf_getD hn this

theorem pySorted_of_perm_range {l : List ℕ} {m : ℕ} (h : l.Perm (List.range m)) : pySorted l = List.range m := by
  have h3 : (pySorted l).Pairwise (· ≤ ·) := List.pairwise_insertionSort _ _
  have h4 : (pySorted l).Perm l := List.perm_insertionSort _ _
  exact (h4.trans h).eq_of_pairwise (fun a b _ _ h h' => Nat.le_antisymm h h') h3
    (List.pairwise_lt_range.imp fun h => Nat.le_of_lt h)

theorem argsort_perm_range {l : List ℕ} {m : ℕ} (h : l.Perm (List.range m)) :
    argsort l = (List.range m).map l.idxOf := by
  rw [argsort_eq (h.nodup_iff.2 List.nodup_range), pySorted_of_perm_range h]

/-- `ranked_support`: the rank of each qubit of the support. -/
theorem ranked_eq {l : List ℕ} (hn : l.Nodup) : argsort (argsort l) = l.map (pySorted l).idxOf := by
  rw [argsort_perm_range (perm_argsort l), argsort_eq hn]
  have hs : (pySorted l).Perm l := List.perm_insertionSort _ _
  have hsn : (pySorted l).Nodup := hs.nodup_iff.2 hn
  apply List.ext_getElem
  · simp
  · intro i h1 h2
    have hi : i < l.length := by simpa using h1
    simp only [List.getElem_map, List.getElem_range]
    have hmem : l[i] ∈ pySorted l := hs.mem_iff.2 (List.getElem_mem hi)
    have hlt := List.idxOf_lt_length_of_mem hmem
    have hnd : ((pySorted l).map l.idxOf).Nodup := by
      rw [← argsort_eq hn]; exact (perm_argsort l).nodup_iff.2 List.nodup_range
    have hval : ((pySorted l).map l.idxOf)[(pySorted l).idxOf l[i]]'(by simpa using hlt) = i := by
      simp [hn.idxOf_getElem]
    conv_lhs => rw [← hval]
    exact hnd.idxOf_getElem _ _

theorem ranked_perm_range {l : List ℕ} {m : ℕ} (h : l.Perm (List.range m)) : argsort (argsort l) = l := by
  rw [ranked_eq (h.nodup_iff.2 List.nodup_range), pySorted_of_perm_range h]
  conv_rhs => rw [← List.map_id l]
  apply List.map_congr_left
  intro q hq
  exact idxOf_range (by simpa using h.mem_iff.1 hq)

theorem perm_ranked {l : List ℕ} : (argsort (argsort l)).Perm (List.range l.length) := by
  have := perm_argsort (argsort l)
  rwa [(perm_argsort l).length_eq, List.length_range] at this

/-! ## transposition of arrays of bits -/

theorem transpose_bits [Zero K] {m : ℕ} {a : NDArray K} (ha : a.shape = List.replicate m 2) {perm : List ℕ}
    (hp : perm.Perm (List.range m)) :
    transpose a perm = .ok (ofFn (List.replicate m 2) fun idx => a.get (permIdx perm idx)) := by
  rw [transpose]
  simp only [ndim, ha, List.length_replicate]
  rw [if_pos hp, map_shape_two (fun q hq => by simpa using hp.mem_iff.1 hq), hp.length_eq, List.length_range]

theorem isBits_permIdx {m : ℕ} {perm idx : List ℕ} (hp : perm.length = m) (h : IsBits m idx) :
    IsBits m (permIdx perm idx) := by
  refine ⟨by simp [permIdx, hp], ?_⟩
  intro x hx
  simp only [permIdx, List.mem_map] at hx
  obtain ⟨p, _, rfl⟩ := hx
  exact h.getD_lt _

/-- Transposing by the inverse permutation. -/
theorem permIdx_argsort {m : ℕ} {σ idx : List ℕ} (hp : σ.Perm (List.range m)) :
    permIdx (argsort σ) idx = σ.map fun p => idx.getD p 0 := by
  have hn : σ.Nodup := hp.nodup_iff.2 List.nodup_range
  have hlen : σ.length = m := by simpa using hp.length_eq
  rw [permIdx, (perm_argsort σ).length_eq, List.length_range]
  apply List.ext_getElem
  · simp
  · intro i h1 h2
    have hi : i < σ.length := by simpa using h1
    simp only [List.getElem_map, List.getElem_range]
    congr 1
    rw [argsort_perm_range hp]
    have hlt : σ[i] < m := by simpa using hp.mem_iff.1 (List.getElem_mem hi)
    have hnd : ((List.range m).map σ.idxOf).Nodup := by
      rw [← argsort_perm_range hp]; exact (perm_argsort σ).nodup_iff.2 List.nodup_range
    have hval : ((List.range m).map σ.idxOf)[σ[i]]'(by simpa using hlt) = i := by
      simp [hn.idxOf_getElem]
    conv_lhs => rw [← hval]
    exact hnd.idxOf_getElem _ _

theorem permIdx_map {m : ℕ} {σ idx : List ℕ} (hp : σ.Perm (List.range m)) (hidx : idx.length = m) :
    permIdx σ (σ.map fun p => idx.getD p 0) = idx := by
  have hn : σ.Nodup := hp.nodup_iff.2 List.nodup_range
  have hlen : σ.length = m := by simpa using hp.length_eq
  rw [permIdx, hlen]
  apply List.ext_getElem
  · simp [hidx]
  · intro i h1 h2
    have hi : i < m := by simpa using h1
    have hm : i ∈ σ := hp.mem_iff.2 (by simpa using hi)
    simp only [List.getElem_map, List.getElem_range]
    rw [getD_map_lt 0 (List.idxOf_lt_length_of_mem hm), getD_idxOf hm]
    simp [List.getD_eq_getElem?_getD, h2]

/-! ## relabelling of basis labels -/

namespace Lab
variable {n : ℕ}

/-- The label whose bit `i` is the bit `q[i]` of `b`. -/
def relab (q : List ℕ) (b : Lab n) : Lab n := ofBits n (q.map b.bit)

theorem isBits_relab {q : List ℕ} (hq : q.length = n) (b : Lab n) : IsBits n (q.map b.bit) :=
  hq ▸ b.isBits_map_bit q

theorem bits_relab {q : List ℕ} (hq : q.length = n) (b : Lab n) : (b.relab q).bits = q.map b.bit :=
  bits_ofBits (isBits_relab hq b)

theorem bit_relab {q : List ℕ} (hq : q.length = n) (b : Lab n) {i : ℕ} (hi : i < n) :
    (b.relab q).bit i = b.bit (q.getD i 0) := by
  rw [← getD_bits, bits_relab hq, getD_map_lt 0 (by omega)]

theorem relab_injective {q : List ℕ} (hp : q.Perm (List.range n)) : Function.Injective (relab (n := n) q) := by
  have hlen : q.length = n := by simpa using hp.length_eq
  intro b b' h
  apply ext_bit
  intro p hpn
  have hm : p ∈ q := hp.mem_iff.2 (by simpa using hpn)
  have h1 := List.idxOf_lt_length_of_mem hm
  have := congrArg (fun c => c.bit (q.idxOf p)) h
  simp only [bit_relab hlen _ (show q.idxOf p < n by omega), getD_idxOf hm] at this
  exact this

/-- Relabelling by a permutation is a bijection of labels. -/
noncomputable def relabEquiv (q : List ℕ) (hp : q.Perm (List.range n)) : Lab n ≃ Lab n :=
  Equiv.ofBijective (relab q) (Finite.injective_iff_bijective.1 (relab_injective hp))

theorem idx_relab_range {q : List ℕ} (hq : q.length = n) (b : Lab n) {dims rest : List ℕ} (h : q = dims ++ rest) :
    (b.relab q).idx (List.range dims.length) = b.idx dims := by
  rw [idx, idx]
  congr 1
  apply List.ext_getElem
  · simp
  · intro i h1 h2
    have hi : i < dims.length := by simpa using h1
    have hlen : q.length = dims.length + rest.length := by rw [h]; simp
    simp only [List.getElem_map, List.getElem_range]
    rw [bit_relab hq b (by omega), h, getD_append_lt hi]
    simp [List.getD_eq_getElem?_getD, hi]

theorem agreeOff_relab {q : List ℕ} (hp : q.Perm (List.range n)) {dims rest : List ℕ} (h : q = dims ++ rest)
    (b b' : Lab n) : AgreeOff (List.range dims.length) (b.relab q) (b'.relab q) ↔ AgreeOff dims b b' := by
  have hlen : q.length = n := by simpa using hp.length_eq
  have hnd : q.Nodup := hp.nodup_iff.2 List.nodup_range
  rw [agreeOff_iff, agreeOff_iff]
  constructor
  · intro H p hpn hm
    have hmem : p ∈ q := hp.mem_iff.2 (by simpa using hpn)
    have h1 := List.idxOf_lt_length_of_mem hmem
    have := H (q.idxOf p) (by omega) (by
      intro hr
      apply hm
      have hr' := List.mem_range.1 hr
      have e : q.getD (q.idxOf p) 0 = p := getD_idxOf hmem
      rw [h, getD_append_lt (by rw [← h]; exact hr')] at e
      rw [← e, List.getD_eq_getElem?_getD]
      rw [h] at hr'
      simp [hr'])
    rwa [bit_relab hlen _ (by omega), bit_relab hlen _ (by omega), getD_idxOf hmem] at this
  · intro H i hi hm
    have hge : dims.length ≤ i := by simpa using hm
    rw [bit_relab hlen _ hi, bit_relab hlen _ hi]
    apply H
    · have : q.getD i 0 ∈ q := by
        rw [List.getD_eq_getElem?_getD]; simp [hlen, hi]
      simpa using hp.mem_iff.1 this
    · intro hd
      have hi' : i < q.length := by omega
      have h1 : q.idxOf (q.getD i 0) = i := idxOf_getD hnd hi'
      have h2 : q.idxOf (q.getD i 0) = dims.idxOf (q.getD i 0) := by
        generalize hx : q.getD i 0 = x at hd
        rw [h, List.idxOf_append_of_mem hd]
      have h3 := List.idxOf_lt_length_of_mem hd
      omega

end Lab

theorem gateMat_relab [CommRing K] {n : ℕ} (U : ℕ → ℕ → K) {q dims rest : List ℕ} (hp : q.Perm (List.range n))
    (h : q = dims ++ rest) (b b' : Lab n) :
    gateMat n U (List.range dims.length) [] (b.relab q) (b'.relab q) = gateMat n U dims [] b b' := by
  have hlen : q.length = n := by simpa using hp.length_eq
  rw [gateMat_nil_apply, gateMat_nil_apply]
  simp only [Lab.agreeOff_relab hp h, Lab.idx_relab_range hlen _ h]

/-! ## permute_basis -/

theorem perm_double {q : List ℕ} {n : ℕ} (hp : q.Perm (List.range n)) :
    (q ++ q.map (· + n)).Perm (List.range (n + n)) := by
  rw [List.range_add]
  refine hp.append ?_
  have := hp.map (· + n)
  refine this.trans ?_
  rw [List.map_congr_left (g := fun x => n + x)]
  intro x _; omega

theorem map_double {n : ℕ} {q : List ℕ} (hp : q.Perm (List.range n)) (r c : Lab n) :
    (q ++ q.map (· + n)).map (fun p => (r.bits ++ c.bits).getD p 0) = q.map r.bit ++ q.map c.bit := by
  rw [List.map_append, List.map_map]
  congr 1
  · apply List.map_congr_left
    intro p hpm
    have : p < n := by simpa using hp.mem_iff.1 hpm
    rw [getD_append_lt (by rw [r.isBits_bits.1]; exact this), Lab.getD_bits]
  · apply List.map_congr_left
    intro p _
    simp only [Function.comp]
    rw [getD_append_ge (by rw [r.isBits_bits.1]; omega), r.isBits_bits.1, Lab.getD_bits]
    congr 1; omega

theorem Lab.relab_range {n : ℕ} (b : Lab n) : b.relab (List.range n) = b := by
  apply Lab.ext_bit
  intro q hq
  rw [Lab.bit_relab (by simp) _ hq]
  simp [List.getD_eq_getElem?_getD, hq]

theorem forall₂_append {n : ℕ} (r c : Lab n) :
    List.Forall₂ (· < ·) (r.bits ++ c.bits) (List.replicate (n + n) 2) :=
  forall₂_replicate.2 (r.isBits_bits.append c.isBits_bits)

/-- `permute_basis(…, inv=True)`. -/
theorem permuteBasis_inv [CommRing K] {n : ℕ} {a : NDArray K} (ha : a.shape = List.replicate (n + n) 2) (hw : a.WF)
    {supp q : List ℕ} (hs : supp.length = n) (hq : argsort (argsort supp) = q) :
    ∃ r, permuteBasis a supp true = .ok r ∧ r.shape = List.replicate (n + n) 2 ∧ r.WF ∧
      ∀ x y, dmMat n r x y = dmMat n a (x.relab q) (y.relab q) := by
  have hp : q.Perm (List.range n) := by
    rw [← hq, ← hs]; exact perm_ranked
  have hlen : q.length = n := by simpa using hp.length_eq
  simp only [permuteBasis, hq, hs]
  by_cases hid : q = List.range n
  · rw [if_pos hid]
    refine ⟨a, rfl, ha, hw, ?_⟩
    intro x y
    rw [hid, Lab.relab_range, Lab.relab_range]
  · rw [if_neg hid]
    simp only [if_true]
    have hperm := perm_double hp
    have h2 : (argsort (q ++ q.map (· + n))).Perm (List.range (n + n)) := by
      have := perm_argsort (q ++ q.map (· + n))
      rwa [hperm.length_eq, List.length_range] at this
    refine ⟨_, transpose_bits ha h2, rfl, wf_ofFn _ _, ?_⟩
    intro x y
    rw [dmMat, get_ofFn (forall₂_append x y), permIdx_argsort hperm, map_double hp, dmMat,
      Lab.bits_relab hlen, Lab.bits_relab hlen]

/-- `permute_basis(…, inv=False)`. -/
theorem permuteBasis_fwd [CommRing K] {n : ℕ} {a : NDArray K} (ha : a.shape = List.replicate (n + n) 2) (hw : a.WF)
    {supp q : List ℕ} (hs : supp.length = n) (hq : argsort (argsort supp) = q) :
    ∃ r, permuteBasis a supp false = .ok r ∧ r.shape = List.replicate (n + n) 2 ∧ r.WF ∧
      ∀ x y, dmMat n r (x.relab q) (y.relab q) = dmMat n a x y := by
  have hp : q.Perm (List.range n) := by
    rw [← hq, ← hs]; exact perm_ranked
  have hlen : q.length = n := by simpa using hp.length_eq
  simp only [permuteBasis, hq, hs]
  by_cases hid : q = List.range n
  · rw [if_pos hid]
    refine ⟨a, rfl, ha, hw, ?_⟩
    intro x y
    rw [hid, Lab.relab_range, Lab.relab_range]
  · rw [if_neg hid]
    have hperm := perm_double hp
    refine ⟨_, transpose_bits ha (by simpa using hperm), rfl, wf_ofFn _ _, ?_⟩
    intro x y
    rw [dmMat, get_ofFn (forall₂_append _ _), Lab.bits_relab hlen, Lab.bits_relab hlen,
      ← map_double hp x y, dmMat]
    simp only [Bool.false_eq_true, if_false]
    rw [permIdx_map hperm (by simp [x.isBits_bits.1, y.isBits_bits.1])]

/-! ## dagger -/

theorem get_conj [CommRing K] [StarRing K] (a : NDArray K) (idx : List ℕ) : a.conj.get idx = star (a.get idx) := by
  simp only [conj, NDArray.get]
  rw [List.getD_eq_getElem?_getD, List.getD_eq_getElem?_getD, List.getElem?_map]
  cases a.data[ravel a.shape idx]? <;> simp

theorem permIdx_swap {n : ℕ} {u v : List ℕ} (hu : u.length = n) (hv : v.length = n) :
    permIdx ((List.range (n + n)).drop n ++ List.range n) (u ++ v) = v ++ u := by
  have hd : (List.range (n + n)).drop n = List.range' n n := by
    rw [← two_mul]; exact drop_range_two n
  rw [permIdx, hd]
  apply List.ext_getElem
  · simp [hu, hv]
  · intro i h1 h2
    have hi : i < n + n := by simpa using h1
    simp only [List.getElem_map, List.getElem_range]
    by_cases hin : n ≤ i
    · rw [List.getElem_append_right (by omega),
        List.idxOf_append_of_mem (by rw [List.mem_range'_1]; omega), idxOf_range' hin (by omega),
        getD_append_lt (by omega)]
      simp [List.getD_eq_getElem?_getD, hv, show i - n < u.length by omega]
    · rw [List.getElem_append_left (by omega),
        List.idxOf_append_of_notMem (by rw [List.mem_range'_1]; omega), idxOf_range (by omega),
        getD_append_ge (by simp; omega)]
      simp [List.getD_eq_getElem?_getD, hu, show i < v.length by omega]

theorem dagger_dm [CommRing K] [StarRing K] {n : ℕ} {a : NDArray K} (ha : a.shape = List.replicate (n + n) 2) :
    ∃ r, dagger a = .ok r ∧ r.shape = List.replicate (n + n) 2 ∧ r.WF ∧
      dmMat n r = (dmMat n a).conjTranspose := by
  have hperm : ((List.range (n + n)).drop n ++ List.range n).Perm (List.range (n + n)) := by
    have : List.range (n + n) = List.range n ++ (List.range (n + n)).drop n := by
      conv_lhs => rw [← List.take_append_drop n (List.range (n + n))]
      rw [List.take_range]; congr 2; omega
    conv_rhs => rw [this]
    exact List.perm_append_comm
  rw [dagger]
  simp only [ndim, ha, List.length_replicate]
  by_cases h2 : 2 < n + n
  · rw [if_pos h2, show (n + n) / 2 = n by omega]
    refine ⟨_, transpose_bits (a := a.conj) ha hperm, rfl, wf_ofFn _ _, ?_⟩
    funext x y
    rw [dmMat, get_ofFn (forall₂_append _ _), permIdx_swap x.isBits_bits.1 y.isBits_bits.1, get_conj]
    rfl
  · rw [if_neg h2]
    have hrev : (List.range (n + n)).reverse = (List.range (n + n)).drop n ++ List.range n := by
      have : n = 0 ∨ n = 1 := by omega
      rcases this with rfl | rfl <;> rfl
    rw [hrev, transpose_bits ha hperm]
    refine ⟨_, rfl, rfl, ?_, ?_⟩
    · simp [WF, conj, NDArray.ofFn, length_allIdx]
    · funext x y
      rw [dmMat, get_conj, get_ofFn (forall₂_append _ _), permIdx_swap x.isBits_bits.1 y.isBits_bits.1]
      rfl

/-! ## left multiplication by a tensor contraction -/

theorem assemble_range {m k : ℕ} {s f : List ℕ} (hk : k ≤ m) (hs : s.length = k) (hf : f.length = m - k) :
    assemble m (List.range k) s f = s ++ f := by
  have hfr : freeAxes m (List.range k) = List.range' k (m - k) := by
    rw [freeAxes]
    have : List.range m = List.range k ++ List.range' k (m - k) := by
      rw [List.range_eq_range', List.range_eq_range',
        show List.range' k (m - k) = List.range' (0 + 1 * k) (m - k) by simp, List.range'_append]
      congr 1; omega
    rw [this, List.filter_append]
    have h1 : (List.range k).filter (fun p => p ∉ List.range k) = [] := by
      rw [List.filter_eq_nil_iff]; simp
    have h2 : (List.range' k (m - k)).filter (fun p => p ∉ List.range k) = List.range' k (m - k) := by
      rw [List.filter_eq_self]; simp [List.mem_range'_1]; intros; omega
    rw [h1, h2]; rfl
  rw [assemble, hfr]
  apply List.ext_getElem
  · simp; omega
  · intro i h1 h2
    have hi : i < m := by simpa using h1
    simp only [List.getElem_map, List.getElem_range, List.mem_range]
    by_cases hik : i < k
    · rw [if_pos hik, idxOf_range hik, List.getElem_append_left (by omega)]
      simp [List.getD_eq_getElem?_getD, hs, hik]
    · rw [if_neg hik, idxOf_range' (by omega) (by omega), List.getElem_append_right (by omega)]
      have : i - k < f.length := by omega
      simp [List.getD_eq_getElem?_getD, this, hs]

/-- `tensordot(op, ρ, axes=(out dims, first k axes))` is the product with the operator on qubits `0..k-1`. -/
theorem tensordot_dm [CommRing K] {n k : ℕ} {op a : NDArray K} (hop : op.shape = [2 ^ k, 2 ^ k])
    (ha : a.shape = List.replicate (n + n) 2) (hk : k ≤ n) :
    ∃ r, tensordot (NDArray.mk (List.replicate (2 * k) 2) op.data) a ((List.range (2 * k)).drop k) (List.range k)
        = .ok r ∧ r.shape = List.replicate (n + n) 2 ∧ r.WF ∧
      dmMat n r = gateMat n (entries op) (List.range k) [] * dmMat n a := by
  refine ⟨_, tensordot_bits (k := k) rfl ha (by simp) List.nodup_range
    (fun q hq => by have := List.mem_range.1 hq; omega), rfl, wf_ofFn _ _, ?_⟩
  funext x y
  rw [dmMat, get_ofFn (forall₂_append _ _), Matrix.mul_apply]
  have hv : ValidDims n (List.range k) :=
    ⟨List.nodup_range, fun q hq => by have := List.mem_range.1 hq; omega⟩
  have := mulVec_gateMat_nil (n := n) (entries op) hv (fun z => dmMat n a z y) x
  rw [Matrix.mulVec, dotProduct] at this
  rw [this, List.length_range]
  congr 1
  apply List.map_congr_left
  intro s hs
  have hs' := mem_allIdx_two.1 hs
  have hxl := x.isBits_bits.1
  have hyl := y.isBits_bits.1
  have e1 : (x.bits ++ y.bits).take k = x.bits.take k := by
    rw [List.take_append_of_le_length (by omega)]
  have e2 : (x.bits ++ y.bits).drop k = x.bits.drop k ++ y.bits := by
    rw [List.drop_append_of_le_length (by omega)]
  have hxt : IsBits k (x.bits.take k) :=
    ⟨by simp [hxl]; omega, fun z hz => x.isBits_bits.2 z (List.mem_of_mem_take hz)⟩
  rw [e1, e2, assemble_range (by omega) hs'.1 (by simp [hxl, hyl]; omega), reshape_get hop hxt hs']
  have hidx : x.idx (List.range k) = binVal (x.bits.take k) := by
    rw [Lab.idx]
    congr 1
    apply List.ext_getElem
    · simp [hxl]; omega
    · intro i h1 h2
      simp only [List.getElem_map, List.getElem_range, List.getElem_take]
      rw [← Lab.getD_bits]
      have : i < x.bits.length := by simp at h2; omega
      simp [List.getD_eq_getElem?_getD, this]
  rw [hidx, entries, dmMat, Lab.bits_override _ _ hs'.2]
  congr 2
  rw [← List.append_assoc]
  congr 1
  apply List.ext_getElem
  · simp [hs'.1, hxl]; omega
  · intro i h1 h2
    have hi : i < n := by simpa using h2
    simp only [List.getElem_map, List.getElem_range, List.mem_range]
    by_cases hik : i < k
    · rw [List.getElem_append_left (by rw [hs'.1]; omega), if_pos hik, idxOf_range hik]
      simp [List.getD_eq_getElem?_getD, hs'.1, hik]
    · rw [List.getElem_append_right (by rw [hs'.1]; omega), if_neg hik]
      simp [List.getD_eq_getElem?_getD, hs'.1, hxl, hi, show k + (i - k) = i by omega]

/-- The two contractions and two daggers of the density-matrix code compute `G A G†`. -/
theorem sandwich_dm [CommRing K] [StarRing K] {n k : ℕ} {op a : NDArray K} (hop : op.shape = [2 ^ k, 2 ^ k])
    (ha : a.shape = List.replicate (n + n) 2) (hk : k ≤ n) :
    ∃ x1 x2 x3 r, tensordot (NDArray.mk (List.replicate (2 * k) 2) op.data) a
                        ((List.range (2 * k)).drop k) (List.range k) = .ok x1 ∧
      dagger x1 = .ok x2 ∧
      tensordot (NDArray.mk (List.replicate (2 * k) 2) op.data) x2
                        ((List.range (2 * k)).drop k) (List.range k) = .ok x3 ∧
      dagger x3 = .ok r ∧ r.shape = List.replicate (n + n) 2 ∧ r.WF ∧
      dmMat n r = gateMat n (entries op) (List.range k) [] * dmMat n a *
        (gateMat n (entries op) (List.range k) []).conjTranspose := by
  obtain ⟨r1, h1, s1, w1, m1⟩ := tensordot_dm (n := n) hop ha hk
  obtain ⟨r2, h2, s2, w2, m2⟩ := dagger_dm s1
  obtain ⟨r3, h3, s3, w3, m3⟩ := tensordot_dm (n := n) hop s2 hk
  obtain ⟨r4, h4, s4, w4, m4⟩ := dagger_dm s3
  refine ⟨r1, r2, r3, r4, h1, h2, h3, h4, s4, w4, ?_⟩
  rw [m4, m3, m2, m1, Matrix.conjTranspose_mul, Matrix.conjTranspose_conjTranspose]

/-- `apply_operator` on a density matrix conjugates by the matrix of the (controlled) gate. -/
theorem applyOperatorDM_mat [CommRing K] [StarRing K] (so : SetOrder) {n k : ℕ} {op : NDArray K}
    {ρ : DensityMatrix K} (hop : IsOp k op) (hρ : IsDM n ρ) {ts cs : List ℕ} (hts : ts.length = k)
    (hv : ValidDims n (cs ++ ts)) :
    ∃ r, applyOperatorDM so ρ op ts (ctlOf cs) = .ok r ∧ IsDM n r ∧
      dmMat n r.array = gateMat n (entries op) ts cs * dmMat n ρ.array *
        (gateMat n (entries op) ts cs).conjTranspose := by
  obtain ⟨op', hs', hw', hprep, hent⟩ := prepareOperator_eq hop.shape hop.wf ts cs
  have hdl : (cs ++ ts).length = cs.length + k := by simp [hts]
  have hdn : ρ.array.ndim / 2 = n := by simp [ndim, hρ.shape]; omega
  set dims := cs ++ ts with hdims
  set rest := so.order ((List.range n).filter (· ∉ dims)) with hrest
  set q := dims ++ rest with hq
  have hp : q.Perm (List.range n) := by
    have h1 : rest.Perm (freeAxes n dims) := by
      rw [List.perm_ext_iff_of_nodup (so.nodup _) (nodup_freeAxes _ _)]
      intro a
      rw [so.mem]
      simp [mem_freeAxes]
    exact (h1.append_left dims).trans (perm_append_freeAxes hv.nodup hv.lt)
  have hlen : q.length = n := by simpa using hp.length_eq
  have hk : cs.length + k ≤ n := by rw [← hdl, ← hlen, hq]; simp
  have hrk := ranked_perm_range hp
  obtain ⟨a1, h1, s1, w1, m1⟩ := permuteBasis_fwd hρ.shape hρ.wf hlen hrk
  obtain ⟨x1, x2, x3, a2, e1, e2, e3, e4, s2, w2, m2⟩ := sandwich_dm (n := n) (k := cs.length + k) hs' s1 hk
  obtain ⟨a3, h3, s3, w3, m3⟩ := permuteBasis_inv s2 w2 hlen hrk
  refine ⟨⟨a3⟩, ?_, ⟨s3, w3⟩, ?_⟩
  · rw [applyOperatorDM, hprep]
    simp only [bind, Except.bind, hdn]
    rw [← hrest, ← hq, h1]
    simp only [hdl, e1, e2, e3, e4, h3]
    rfl
  · have hG : gateMat n (entries op) ts cs = (gateMat n (entries op') (List.range dims.length) []).submatrix
        (Lab.relabEquiv q hp) (Lab.relabEquiv q hp) := by
      funext x y
      rw [Matrix.submatrix_apply]
      change _ = gateMat n (entries op') (List.range dims.length) [] (x.relab q) (y.relab q)
      rw [gateMat_relab _ hp hq, gateMat_controls (entries op) hv.nodup hv.left.lt, hts, ← hdims]
      refine congrFun (congrFun (gateMat_congr ?_) x) y
      intro i j hi hj
      rw [hdl] at hi hj
      exact (hent i j hi hj).symm
    have hA : dmMat n ρ.array = (dmMat n a1).submatrix (Lab.relabEquiv q hp) (Lab.relabEquiv q hp) := by
      funext x y
      rw [Matrix.submatrix_apply]
      exact (m1 x y).symm
    rw [hG, hA, Matrix.conjTranspose_submatrix, Matrix.submatrix_mul_equiv, Matrix.submatrix_mul_equiv]
    funext x y
    rw [Matrix.submatrix_apply]
    change dmMat n a3 x y = _
    rw [m3, m2, hdl]
    rfl

end Verif
