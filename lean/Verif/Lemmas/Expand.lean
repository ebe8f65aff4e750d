import Verif.Lemmas.Permute

/-! # `expand_operator` and Kraus sums -/

namespace Verif
open NDArray
variable {K : Type}

theorem binVal_concat (u : List ℕ) (x : ℕ) : binVal (u ++ [x]) = 2 * binVal u + x := by
  rw [binVal_append]; simp [binVal]; ring

theorem get_matI [CommRing K] {x y : ℕ} (hx : x < 2) (hy : y < 2) :
    (matI (K := K)).get [x, y] = if x = y then 1 else 0 := by
  rw [matI, eye, get_ofFn (by simp [hx, hy])]; rfl

theorem kron_fold [CommRing K] {op : NDArray K} {k : ℕ} (hop : IsOp k op) (j : ℕ) :
    ∃ r, (List.replicate j (matI (K := K))).foldlM (fun acc m => kron acc m) op = .ok r ∧ IsOp (k + j) r ∧
      ∀ u v u' v', IsBits k u → IsBits j v → IsBits k u' → IsBits j v' →
        r.get [binVal (u ++ v), binVal (u' ++ v')]
          = op.get [binVal u, binVal u'] * if v = v' then 1 else 0 := by
  induction j with
  | zero =>
    refine ⟨op, rfl, hop, ?_⟩
    intro u v u' v' _ hv _ hv'
    have h1 : v = [] := List.length_eq_zero_iff.1 hv.1
    have h2 : v' = [] := List.length_eq_zero_iff.1 hv'.1
    subst h1; subst h2; simp
  | succ j ih =>
    obtain ⟨r, hr, hs, hent⟩ := ih
    have hsh := hs.shape
    rw [List.replicate_succ', List.foldlM_append, hr]
    have hk : kron r (matI (K := K)) = .ok (ofFn [2 ^ (k + j) * 2, 2 ^ (k + j) * 2] fun idx =>
      r.get [idx.getD 0 0 / 2, idx.getD 1 0 / 2] * (matI (K := K)).get [idx.getD 0 0 % 2, idx.getD 1 0 % 2]) := by
      rw [kron, hsh]; rfl
    refine ⟨_, by simp only [bind, Except.bind, List.foldlM_cons, List.foldlM_nil, hk]; rfl,
      ⟨by simp [pow_succ, ← add_assoc], wf_ofFn _ _⟩, ?_⟩
    intro u v u' v' hu hv hu' hv'
    obtain ⟨w, x, rfl⟩ : ∃ w x, v = w ++ [x] := by
      have : v ≠ [] := by rintro rfl; simp [IsBits] at hv
      exact ⟨v.dropLast, v.getLast this, (List.dropLast_append_getLast this).symm⟩
    obtain ⟨w', x', rfl⟩ : ∃ w x, v' = w ++ [x] := by
      have : v' ≠ [] := by rintro rfl; simp [IsBits] at hv'
      exact ⟨v'.dropLast, v'.getLast this, (List.dropLast_append_getLast this).symm⟩
    have hx : x < 2 := hv.2 x (by simp)
    have hx' : x' < 2 := hv'.2 x' (by simp)
    have hw : IsBits j w := ⟨by have := hv.1; simpa using this, fun z hz => hv.2 z (by simp [hz])⟩
    have hw' : IsBits j w' := ⟨by have := hv'.1; simpa using this, fun z hz => hv'.2 z (by simp [hz])⟩
    rw [← List.append_assoc, ← List.append_assoc, binVal_concat, binVal_concat]
    have hl := (hu.append hw).lt
    have hl' := (hu'.append hw').lt
    rw [get_ofFn (by simp; omega)]
    simp only [List.getD_cons_zero, List.getD_cons_succ]
    rw [show (2 * binVal (u ++ w) + x) / 2 = binVal (u ++ w) by omega,
      show (2 * binVal (u' ++ w') + x') / 2 = binVal (u' ++ w') by omega,
      show (2 * binVal (u ++ w) + x) % 2 = x by omega,
      show (2 * binVal (u' ++ w') + x') % 2 = x' by omega, hent _ _ _ _ hu hw hu' hw', get_matI hx hx']
    by_cases h1 : w = w'
    · by_cases h2 : x = x'
      · simp [h1, h2]
      · simp [h2]
    · simp [h1]

theorem Lab.agreeOff_range {m k : ℕ} (x y : Lab m) :
    Lab.AgreeOff (List.range k) x y ↔ x.bits.drop k = y.bits.drop k := by
  rw [Lab.agreeOff_iff]
  constructor
  · intro h
    apply List.ext_getElem
    · simp [x.isBits_bits.1, y.isBits_bits.1]
    · intro i h1 h2
      have hi : k + i < m := by simp [x.isBits_bits.1] at h1; omega
      have := h (k + i) hi (by simp)
      rw [← Lab.getD_bits, ← Lab.getD_bits] at this
      simp only [List.getElem_drop]
      simpa [List.getD_eq_getElem?_getD, x.isBits_bits.1, y.isBits_bits.1, hi] using this
  · intro h q hq hm
    have hk : k ≤ q := by simpa using hm
    have := congrArg (fun l => l.getD (q - k) 0) h
    simp only [List.getD_eq_getElem?_getD, List.getElem?_drop, show k + (q - k) = q by omega] at this
    rw [← Lab.getD_bits, ← Lab.getD_bits, List.getD_eq_getElem?_getD, List.getD_eq_getElem?_getD, this]

theorem Lab.idx_range {m k : ℕ} (hk : k ≤ m) (x : Lab m) : x.idx (List.range k) = binVal (x.bits.take k) := by
  have hxl := x.isBits_bits.1
  rw [Lab.idx]
  congr 1
  apply List.ext_getElem
  · simp [hxl]; omega
  · intro i h1 h2
    simp only [List.getElem_map, List.getElem_range, List.getElem_take]
    rw [← Lab.getD_bits]
    have : i < x.bits.length := by simp at h2; omega
    simp [List.getD_eq_getElem?_getD, this]

theorem kron_fold_mat [CommRing K] {op r : NDArray K} {k j : ℕ}
    (hent : ∀ u v u' v', IsBits k u → IsBits j v → IsBits k u' → IsBits j v' →
        r.get [binVal (u ++ v), binVal (u' ++ v')]
          = op.get [binVal u, binVal u'] * if v = v' then 1 else 0) (x y : Lab (k + j)) :
    r.get [binVal x.bits, binVal y.bits] = gateMat (k + j) (entries op) (List.range k) [] x y := by
  have hx := isBits_take_drop x.isBits_bits
  have hy := isBits_take_drop y.isBits_bits
  have := hent _ _ _ _ hx.1 hx.2 hy.1 hy.2
  rw [List.take_append_drop, List.take_append_drop] at this
  rw [this, gateMat_nil_apply, Lab.idx_range (by omega), Lab.idx_range (by omega)]
  simp only [Lab.agreeOff_range]
  by_cases h : x.bits.drop k = y.bits.drop k
  · simp [h, entries]
  · simp [h]

/-- A `2^m × 2^m` array reshaped to `(2,)*2m`. -/
theorem dmMat_reshape [Zero K] {op : NDArray K} {m : ℕ} (hop : op.shape = [2 ^ m, 2 ^ m]) (x y : Lab m) :
    dmMat m ⟨List.replicate (m + m) 2, op.data⟩ x y = entries op (binVal x.bits) (binVal y.bits) := by
  rw [dmMat, entries, ← reshape_get hop x.isBits_bits y.isBits_bits, two_mul]

/-- An array of shape `(2,)*2m` reshaped to `(2^m, 2^m)`. -/
theorem entries_reshape [Zero K] {a : NDArray K} {m : ℕ} (ha : a.shape = List.replicate (m + m) 2) (x y : Lab m) :
    entries ⟨[2 ^ m, 2 ^ m], a.data⟩ (binVal x.bits) (binVal y.bits) = dmMat m a x y := by
  rw [← dmMat_reshape (op := ⟨[2 ^ m, 2 ^ m], a.data⟩) rfl, dmMat, dmMat]
  simp only [NDArray.get, ha]

theorem hilbertReshape_eq [CommRing K] {op : NDArray K} {m : ℕ} (hop : op.shape = [2 ^ m, 2 ^ m]) :
    hilbertReshape op = .ok ⟨List.replicate (m + m) 2, op.data⟩ := by
  have : op.size = 2 ^ (m + m) := by rw [size, hop]; simp [pow_add]
  rw [hilbertReshape, this, intLog2_pow, reshape, if_pos]
  rw [hop]; simp [pow_add]

theorem perm_pySorted (l : List ℕ) : (pySorted l).Perm l := List.perm_insertionSort _ _

theorem pySorted_perm_eq {l l' : List ℕ} (h : l.Perm l') : pySorted l = pySorted l' := by
  have h1 : (pySorted l).Pairwise (· ≤ ·) := List.pairwise_insertionSort _ _
  have h2 : (pySorted l').Pairwise (· ≤ ·) := List.pairwise_insertionSort _ _
  exact ((perm_pySorted l).trans (h.trans (perm_pySorted l').symm)).eq_of_pairwise
    (fun a b _ _ h h' => Nat.le_antisymm h h') h1 h2

theorem pySorted_range (n : ℕ) : pySorted (List.range n) = List.range n :=
  pySorted_of_perm_range (List.Perm.refl _)

/-- `expand_operator` computes the operator on the ranks of its support within the (sorted) full support. -/
theorem expandOperator_mat [CommRing K] {op : NDArray K} {k : ℕ} (hop : IsOp k op) {S F : List ℕ}
    (hS : S.Nodup) (hF : F.Nodup) (hsub : ∀ q ∈ S, q ∈ F) (hk : S.length = k) :
    ∃ r, expandOperator op S F = .ok r ∧ IsOp F.length r ∧
      ∀ x y : Lab F.length, entries r (binVal x.bits) (binVal y.bits)
        = gateMat F.length (entries op) ((pySorted S).map (pySorted F).idxOf) [] x y := by
  have hSs := perm_pySorted S
  have hFs := perm_pySorted F
  have hall : (pySorted S).all (· ∈ pySorted F) = true := by
    simp only [List.all_eq_true, decide_eq_true_eq]
    intro q hq
    exact hFs.mem_iff.2 (hsub q (hSs.mem_iff.1 hq))
  set kq := pySorted (((pySorted F).filter (· ∉ pySorted S)).dedup) with hkq
  have hFsn : (pySorted F).Nodup := hFs.nodup_iff.2 hF
  have hSsn : (pySorted S).Nodup := hSs.nodup_iff.2 hS
  have hkqp : kq.Perm ((pySorted F).filter (· ∉ pySorted S)) := by
    rw [hkq, (hFsn.filter _).dedup]; exact perm_pySorted _
  have hcat : (pySorted S ++ kq).Perm (pySorted F) := by
    rw [List.perm_ext_iff_of_nodup _ hFsn]
    · intro a
      rw [List.mem_append, hkqp.mem_iff, List.mem_filter]
      simp only [decide_eq_true_eq]
      constructor
      · rintro (h | h)
        · exact hFs.mem_iff.2 (hsub a (hSs.mem_iff.1 h))
        · exact h.1
      · intro h
        by_cases ha : a ∈ pySorted S
        · exact Or.inl ha
        · exact Or.inr ⟨h, ha⟩
    · rw [List.nodup_append]
      refine ⟨hSsn, hkqp.nodup_iff.2 (hFsn.filter _), ?_⟩
      intro a ha b hb hab
      subst hab
      have := (List.mem_filter.1 (hkqp.mem_iff.1 hb)).2
      simp only [decide_eq_true_eq] at this
      exact this ha
  have hSl : (pySorted S).length = k := by rw [hSs.length_eq, hk]
  have hFl : (pySorted F).length = F.length := hFs.length_eq
  have hsum : k + kq.length = F.length := by
    have := hcat.length_eq
    rw [List.length_append, hSl, hFl] at this
    exact this
  obtain ⟨r, hr, hrop, hrent⟩ := kron_fold hop kq.length
  have hmat := fun x y => kron_fold_mat (k := k) (j := kq.length) hrent x y
  rw [hsum] at hrop hmat
  have hreshape := hilbertReshape_eq hrop.shape
  have hcatn : (pySorted S ++ kq).Nodup := hcat.nodup_iff.2 hFsn
  have hranked : argsort (argsort (pySorted S ++ kq))
      = (pySorted S).map (pySorted F).idxOf ++ kq.map (pySorted F).idxOf := by
    rw [ranked_eq hcatn, List.map_append]
    have h1 : pySorted (pySorted S ++ kq) = pySorted F := by
      rw [pySorted_perm_eq (hcat.trans hFs)]
    rw [h1]
  have hlen : (pySorted S ++ kq).length = F.length := by rw [hcat.length_eq, hFl]
  have hwf : (NDArray.mk (List.replicate (F.length + F.length) 2) r.data).WF := by
    have := hrop.wf
    rw [WF, hrop.shape] at this
    simp [WF, this, pow_add]
  obtain ⟨p, hp, ps, pw, pm⟩ := permuteBasis_inv (n := F.length)
    (a := NDArray.mk (List.replicate (F.length + F.length) 2) r.data) rfl hwf hlen hranked
  have hperm : ((pySorted S).map (pySorted F).idxOf ++ kq.map (pySorted F).idxOf).Perm (List.range F.length) := by
    rw [← hranked, ← hlen]; exact perm_ranked
  have hprod : [2 ^ F.length, 2 ^ F.length].prod = p.shape.prod := by rw [ps]; simp [pow_add]
  refine ⟨⟨[2 ^ F.length, 2 ^ F.length], p.data⟩, ?_, ⟨rfl, ?_⟩, ?_⟩
  · rw [expandOperator]
    simp only [hall, if_true]
    rw [← hkq, hr]
    simp only [bind, Except.bind]
    rw [hreshape]
    simp only
    rw [hp]
    simp only [reshape, hFl, if_pos hprod]
  · rw [WF, hprod]; exact pw
  · intro x y
    rw [entries_reshape ps, pm, dmMat_reshape hrop.shape, entries, hmat]
    have hl : ((pySorted S).map (pySorted F).idxOf).length = k := by rw [List.length_map, hSl]
    rw [← hl]
    exact gateMat_relab _ hperm rfl x y

/-- With the full register as support. -/
theorem expandOperator_register [CommRing K] {op : NDArray K} {k n : ℕ} (hop : IsOp k op) {S : List ℕ}
    (hv : ValidDims n S) (hk : S.length = k) :
    ∃ r, expandOperator op S (List.range n) = .ok r ∧ IsOp n r ∧
      ∀ x y : Lab n, entries r (binVal x.bits) (binVal y.bits) = gateMat n (entries op) (pySorted S) [] x y := by
  obtain ⟨r, h1, h2, h3⟩ := expandOperator_mat (F := List.range n) hop hv.nodup List.nodup_range
    (fun q hq => by simpa using hv.lt q hq) hk
  rw [List.length_range] at h2 h3
  refine ⟨r, h1, h2, fun x y => ?_⟩
  rw [h3, pySorted_range]
  congr 1
  conv_rhs => rw [← List.map_id (pySorted S)]
  apply List.map_congr_left
  intro q hq
  exact idxOf_range (hv.lt q ((perm_pySorted S).mem_iff.1 hq))

/-! ## Kraus operators on the full register -/

/-- Moving the first axes to themselves changes nothing. -/
theorem moveaxisOrder_self {m k : ℕ} (hk : k ≤ m) : moveaxisOrder m (List.range k) (List.range k) = List.range m := by
  have h : ∀ q ∈ List.range k, q < m := fun q hq => by have := List.mem_range.1 hq; omega
  rw [moveaxisOrder_eq rfl List.nodup_range List.nodup_range h h]
  conv_rhs => rw [← List.map_id (List.range m)]
  apply List.map_congr_left
  intro p hp
  have hp' := List.mem_range.1 hp
  by_cases hpk : p ∈ List.range k
  · rw [if_pos hpk]; exact getD_idxOf hpk
  · rw [if_neg hpk]; exact getD_idxOf (mem_freeAxes.2 ⟨hp', hpk⟩)

theorem permIdx_range {m : ℕ} {idx : List ℕ} (h : idx.length = m) : permIdx (List.range m) idx = idx := by
  rw [permIdx, List.length_range]
  conv_rhs => rw [← map_getD_self idx (List.range m) (by rw [h])]
  apply List.map_congr_left
  intro p hp
  rw [idxOf_range (List.mem_range.1 hp)]

theorem moveaxis_self [CommRing K] {m k : ℕ} {a : NDArray K} (ha : a.shape = List.replicate m 2) (hw : a.WF)
    (hk : k ≤ m) : moveaxis a (List.range k) (List.range k) = .ok a := by
  have h : ∀ q ∈ List.range k, q < m := fun q hq => by have := List.mem_range.1 hq; omega
  rw [moveaxis]
  simp only [ndim, ha, List.length_replicate]
  rw [if_pos ⟨trivial, List.nodup_range, List.nodup_range, h, h⟩, moveaxisOrder_self hk,
    transpose_bits ha (List.Perm.refl _)]
  congr 1
  conv_rhs => rw [eq_ofFn_get hw, ha]
  apply ofFn_congr
  intro idx hidx
  rw [permIdx_range (forall₂_replicate.1 hidx).1]

theorem gateMat_range_apply [CommRing K] {n : ℕ} (U : ℕ → ℕ → K) (x y : Lab n) :
    gateMat n U (List.range n) [] x y = U (binVal x.bits) (binVal y.bits) := by
  rw [gateMat_nil_apply, if_pos, Lab.idx_range le_rfl, Lab.idx_range le_rfl]
  · simp [← x.isBits_bits.1]
    simp [x.isBits_bits.1, ← y.isBits_bits.1]
  · rw [Lab.agreeOff_range]
    simp [x.isBits_bits.1, y.isBits_bits.1, List.drop_eq_nil_of_le]

/-- `apply_kraus_operator` with the full register as target. -/
theorem applyKrausOperator_full [CommRing K] [StarRing K] {n : ℕ} {k a : NDArray K} (hk : IsOp n k)
    (ha : a.shape = List.replicate (n + n) 2) (hw : a.WF) :
    ∃ r, applyKrausOperator k a (List.range n) = .ok r ∧ r.shape = List.replicate (n + n) 2 ∧ r.WF ∧
      dmMat n r = gateMat n (entries k) (List.range n) [] * dmMat n a *
        (gateMat n (entries k) (List.range n) []).conjTranspose := by
  obtain ⟨x1, x2, x3, r, e1, e2, e3, e4, s, w, m⟩ := sandwich_dm (n := n) (k := n) hk.shape ha le_rfl
  have hsz : k.size = 2 ^ (2 * n) := by rw [size, hk.shape]; simp [two_mul, pow_add]
  refine ⟨r, ?_, s, w, m⟩
  rw [applyKrausOperator]
  simp only [hsz, intLog2_pow, reshape, hk.shape, List.length_range]
  rw [if_pos (by simp [two_mul, pow_add])]
  simp only [bind, Except.bind]
  rw [moveaxis_self ha hw (by omega), show 2 * n / 2 = n by omega]
  simp only [e1, e2, e3, e4]
  rw [moveaxis_self s w (by omega)]

theorem add_dm [CommRing K] {n : ℕ} {a b : NDArray K} (ha : a.shape = List.replicate (n + n) 2) (hwa : a.WF)
    (hb : b.shape = List.replicate (n + n) 2) (hwb : b.WF) :
    ∃ r, NDArray.add a b = .ok r ∧ r.shape = List.replicate (n + n) 2 ∧ r.WF ∧
      dmMat n r = dmMat n a + dmMat n b := by
  rw [NDArray.add, if_pos (by rw [ha, hb])]
  rw [WF, ha] at hwa
  rw [WF, hb] at hwb
  refine ⟨_, rfl, ha, by simp [WF, ha, hwa, hwb], ?_⟩
  funext x y
  rw [Matrix.add_apply, dmMat, dmMat, dmMat]
  have hlt := ravel_lt (forall₂_append x y)
  simp only [NDArray.get, ha, hb]
  generalize ravel _ _ = i at hlt
  simp [List.getD_eq_getElem?_getD, List.getElem?_zipWith, hwa ▸ hlt, hwb ▸ hlt]

/-- `jnp.sum(…, 0)` of density arrays. -/
theorem sumArrays_dm [CommRing K] {n : ℕ} {l : List (NDArray K)} (hne : l ≠ [])
    (hl : ∀ a ∈ l, a.shape = List.replicate (n + n) 2 ∧ a.WF) :
    ∃ r, sumArrays l = .ok r ∧ r.shape = List.replicate (n + n) 2 ∧ r.WF ∧
      dmMat n r = (l.map (dmMat n)).sum := by
  cases l with
  | nil => exact absurd rfl hne
  | cons a t =>
    have ha := hl a (by simp)
    have ht : ∀ b ∈ t, b.shape = List.replicate (n + n) 2 ∧ b.WF := fun b hb => hl b (by simp [hb])
    rw [sumArrays]
    clear hl hne
    induction t generalizing a with
    | nil => exact ⟨a, rfl, ha.1, ha.2, by simp⟩
    | cons b t ih =>
      have hb := ht b (by simp)
      obtain ⟨c, hc, cs, cw, cm⟩ := add_dm ha.1 ha.2 hb.1 hb.2
      obtain ⟨r, hr, rs, rw', rm⟩ := ih c ⟨cs, cw⟩ fun x hx => ht x (by simp [hx])
      refine ⟨r, ?_, rs, rw', ?_⟩
      · rw [List.foldlM_cons, hc]; exact hr
      · rw [rm]; simp [cm, add_assoc]

theorem mapM_ok {α β : Type} {f : α → Py β} {P : α → β → Prop} {l : List α}
    (h : ∀ a ∈ l, ∃ b, f a = .ok b ∧ P a b) : ∃ bs, l.mapM f = .ok bs ∧ List.Forall₂ P l bs := by
  induction l with
  | nil => exact ⟨[], rfl, List.Forall₂.nil⟩
  | cons a t ih =>
    obtain ⟨b, hb, hP⟩ := h a (by simp)
    obtain ⟨bs, hbs, hF⟩ := ih fun x hx => h x (by simp [hx])
    refine ⟨b :: bs, ?_, List.Forall₂.cons hP hF⟩
    rw [List.mapM_cons, hb, hbs]; rfl

/-- `apply_kraus_sum` on the full register. -/
theorem applyKrausSum_full [CommRing K] [StarRing K] {n : ℕ} {ks : List (NDArray K)} {a : NDArray K} (hne : ks ≠ [])
    (hks : ∀ k ∈ ks, IsOp n k) (ha : a.shape = List.replicate (n + n) 2) (hw : a.WF) :
    ∃ r, applyKrausSum ks a (List.range n) = .ok r ∧ IsDM n r ∧
      dmMat n r.array = (ks.map fun k => gateMat n (entries k) (List.range n) [] * dmMat n a *
        (gateMat n (entries k) (List.range n) []).conjTranspose).sum := by
  obtain ⟨bs, hbs, hF⟩ := mapM_ok (f := fun k => applyKrausOperator k a (List.range n))
    (P := fun k r => r.shape = List.replicate (n + n) 2 ∧ r.WF ∧
      dmMat n r = gateMat n (entries k) (List.range n) [] * dmMat n a *
        (gateMat n (entries k) (List.range n) []).conjTranspose)
    (l := ks) (fun k hk => applyKrausOperator_full (hks k hk) ha hw)
  have hbsne : bs ≠ [] := by
    rintro rfl
    cases hF
    exact hne rfl
  have hall : ∀ b ∈ bs, b.shape = List.replicate (n + n) 2 ∧ b.WF := by
    intro b hb
    obtain ⟨i, hi, rfl⟩ := List.getElem_of_mem hb
    have hlen := hF.length_eq
    have h := (List.forall₂_iff_get.1 hF).2 i (by omega) hi
    simp only [List.get_eq_getElem] at h
    exact ⟨h.1, h.2.1⟩
  obtain ⟨r, hr, rs, rw', rm⟩ := sumArrays_dm hbsne hall
  refine ⟨⟨r⟩, ?_, ⟨rs, rw'⟩, ?_⟩
  · rw [applyKrausSum, hbs]
    simp only [bind, Except.bind, hr]; rfl
  · rw [show (⟨r⟩ : DensityMatrix K).array = r from rfl, rm]
    congr 1
    clear hr rm hbsne hall hbs hne hks
    induction hF with
    | nil => rfl
    | cons h _ ih => rw [List.map_cons, List.map_cons, ih, h.2.2]

end Verif
