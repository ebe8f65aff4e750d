import Verif.Lemmas.Expand

/-! # What `apply_kraus_operator` computes for arbitrary targets -/

set_option autoImplicit false

namespace Verif
open NDArray
variable {K : Type} {n m : ℕ}

theorem freeAxes_double {ts : List ℕ} (hl : ∀ q ∈ ts, q < n) :
    freeAxes (n + n) ts = freeAxes n ts ++ (List.range n).map (n + ·) := by
  rw [freeAxes, freeAxes, List.range_add, List.filter_append]
  refine congrArg _ (List.filter_eq_self.2 fun p hp => ?_)
  obtain ⟨i, -, rfl⟩ := List.mem_map.1 hp
  simp only [decide_eq_true_eq]
  intro h
  have := hl _ h
  omega

theorem map_rows {q : List ℕ} (hp : q.Perm (List.range n)) (x y : Lab n) :
    (q ++ (List.range n).map (n + ·)).map (fun p => (x.bits ++ y.bits).getD p 0) = q.map x.bit ++ y.bits := by
  rw [List.map_append, List.map_map]
  congr 1
  · apply List.map_congr_left
    intro p hpm
    have : p < n := by simpa using hp.mem_iff.1 hpm
    rw [getD_append_lt (by rw [x.isBits_bits.1]; exact this), Lab.getD_bits]
  · conv_rhs => rw [← map_getD_self y.bits (List.range n) (by rw [y.isBits_bits.1])]
    apply List.map_congr_left
    intro p _
    simp only [Function.comp]
    rw [getD_append_ge (by rw [x.isBits_bits.1]; omega), x.isBits_bits.1]
    congr 1; omega

theorem perm_rows {q : List ℕ} (hp : q.Perm (List.range n)) :
    (q ++ (List.range n).map (n + ·)).Perm (List.range (n + n)) := by
  rw [List.range_add]
  exact hp.append_right _

/-- `moveaxis(array, range(m), target)` moves row axes only. -/
theorem moveaxis_rows [CommRing K] {a : NDArray K} (ha : a.shape = List.replicate (n + n) 2) {ts : List ℕ}
    (hv : ValidDims n ts) :
    ∃ r, moveaxis a (List.range ts.length) ts = .ok r ∧ r.shape = List.replicate (n + n) 2 ∧
      ∀ x y, dmMat n r x y = dmMat n a (x.relab (ts ++ freeAxes n ts)) y := by
  have hp := perm_append_freeAxes hv.nodup hv.lt
  have hlen : (ts ++ freeAxes n ts).length = n := by simpa using hp.length_eq
  refine ⟨_, moveaxis_bits ha hv.nodup fun q hq => by have := hv.lt q hq; omega, rfl, fun x y => ?_⟩
  rw [dmMat, get_ofFn (forall₂_append x y), freeAxes_double hv.lt, ← List.map_append, ← List.append_assoc,
    map_rows hp, dmMat, Lab.bits_relab hlen]

theorem moveaxisOrder_back {ts : List ℕ} (hv : ValidDims n ts) :
    moveaxisOrder n ts (List.range ts.length) = ts ++ freeAxes n ts := by
  have hp := perm_append_freeAxes hv.nodup hv.lt
  have hlen : (ts ++ freeAxes n ts).length = n := by simpa using hp.length_eq
  have hk : ts.length ≤ n := by rw [← hlen]; simp
  rw [moveaxisOrder_eq (by simp) hv.nodup List.nodup_range hv.lt fun q hq => by have := List.mem_range.1 hq; omega]
  apply List.ext_getElem
  · rw [hlen]; simp
  · intro i h1 h2
    have hi : i < n := by simpa using h1
    simp only [List.getElem_map, List.getElem_range, List.mem_range]
    split_ifs with h
    · rw [List.getElem_append_left h, idxOf_range h]
      simp [List.getD_eq_getElem?_getD, h]
    · have hf : freeAxes n (List.range ts.length) = List.range' ts.length (n - ts.length) := by
        rw [freeAxes]
        have : List.range n = List.range ts.length ++ List.range' ts.length (n - ts.length) := by
          rw [List.range_eq_range', List.range_eq_range',
            show List.range' ts.length (n - ts.length) = List.range' (0 + 1 * ts.length) (n - ts.length) by simp,
            List.range'_append]
          congr 1; omega
        rw [this, List.filter_append]
        have h1 : (List.range ts.length).filter (fun p => p ∉ List.range ts.length) = [] := by
          rw [List.filter_eq_nil_iff]; simp
        have h2 : (List.range' ts.length (n - ts.length)).filter (fun p => p ∉ List.range ts.length)
            = List.range' ts.length (n - ts.length) := by
          rw [List.filter_eq_self]; simp [List.mem_range'_1]; intros; omega
        rw [h1, h2]; rfl
      have hi' : (freeAxes n (List.range ts.length)).idxOf i = i - ts.length := by
        rw [hf]
        have hlt : i - ts.length < (List.range' ts.length (n - ts.length)).length := by simp; omega
        have hg : (List.range' ts.length (n - ts.length))[i - ts.length] = i := by simp; omega
        conv_lhs => rw [← hg]
        exact (List.nodup_range' (s := ts.length) (n := n - ts.length)).idxOf_getElem _ hlt
      rw [hi', List.getElem_append_right (by omega), List.getD_eq_getElem?_getD, List.getElem?_eq_getElem]
      rfl

/-- `moveaxis(array, target, range(m))` moves them back. -/
theorem moveaxis_rows_back [CommRing K] {a : NDArray K} (ha : a.shape = List.replicate (n + n) 2) {ts : List ℕ}
    (hv : ValidDims n ts) :
    ∃ r, moveaxis a ts (List.range ts.length) = .ok r ∧ r.shape = List.replicate (n + n) 2 ∧ r.WF ∧
      ∀ x y, dmMat n r (x.relab (ts ++ freeAxes n ts)) y = dmMat n a x y := by
  have hp := perm_append_freeAxes hv.nodup hv.lt
  have hlen : (ts ++ freeAxes n ts).length = n := by simpa using hp.length_eq
  have hk : ts.length ≤ n := by rw [← hlen]; simp
  have hv2 : ValidDims (n + n) ts := ⟨hv.nodup, fun q hq => by have := hv.lt q hq; omega⟩
  have ho : moveaxisOrder (n + n) ts (List.range ts.length) = (ts ++ freeAxes n ts) ++ (List.range n).map (n + ·) := by
    rw [moveaxisOrder_back hv2, freeAxes_double hv.lt, List.append_assoc]
  refine ⟨ofFn (List.replicate (n + n) 2) fun idx =>
    a.get (permIdx ((ts ++ freeAxes n ts) ++ (List.range n).map (n + ·)) idx), ?_, rfl, wf_ofFn _ _, ?_⟩
  · rw [moveaxis]
    simp only [ndim, ha, List.length_replicate]
    rw [if_pos ⟨by simp, hv.nodup, List.nodup_range, hv2.lt, fun q hq => by have := List.mem_range.1 hq; omega⟩, ho,
      transpose_bits ha (perm_rows hp)]
  · intro x y
    rw [dmMat, get_ofFn (forall₂_append _ _), Lab.bits_relab hlen, ← map_rows hp x y,
      permIdx_map (perm_rows hp) (by simp [x.isBits_bits.1, y.isBits_bits.1]), dmMat]

/-- Where the qubits of `q` stand. -/
def positions (n : ℕ) (q : List ℕ) : List ℕ := (List.range n).map q.idxOf

theorem perm_positions {q : List ℕ} (hp : q.Perm (List.range n)) : (positions n q).Perm (List.range n) := by
  have hn : q.Nodup := hp.nodup_iff.2 List.nodup_range
  have hlen : q.length = n := by simpa using hp.length_eq
  rw [List.perm_ext_iff_of_nodup _ List.nodup_range]
  · intro a
    simp only [positions, List.mem_map, List.mem_range]
    constructor
    · rintro ⟨p, h, rfl⟩
      rw [← hlen]
      exact List.idxOf_lt_length_of_mem (hp.mem_iff.2 (by simpa using h))
    · intro h
      refine ⟨q[a]'(by omega), by simpa using hp.mem_iff.1 (List.getElem_mem (by omega)), hn.idxOf_getElem _ (by omega)⟩
  · refine List.Nodup.map_on ?_ List.nodup_range
    intro a ha b hb h
    exact (List.idxOf_inj (hp.mem_iff.2 ha)).1 h

theorem relab_positions {q : List ℕ} (hp : q.Perm (List.range n)) (x : Lab n) :
    (x.relab q).relab (positions n q) = x := by
  have hlen : q.length = n := by simpa using hp.length_eq
  apply Lab.ext_bit
  intro i hi
  have h1 : q.idxOf i < n := by rw [← hlen]; exact List.idxOf_lt_length_of_mem (hp.mem_iff.2 (by simpa using hi))
  rw [Lab.bit_relab (by simp [positions]) _ hi]
  have : (positions n q).getD i 0 = q.idxOf i := by simp [positions, List.getD_eq_getElem?_getD, hi]
  rw [this, Lab.bit_relab hlen _ h1, getD_idxOf (hp.mem_iff.2 (by simpa using hi))]

/-- A gate on the first qubits, seen through a permutation of the qubits. -/
theorem gateMat_positions [CommRing K] (U : ℕ → ℕ → K) {q : List ℕ} (hp : q.Perm (List.range n)) (hm : m ≤ n)
    (x y : Lab n) :
    gateMat n U ((List.range m).map q.idxOf) [] (x.relab q) (y.relab q) = gateMat n U (List.range m) [] x y := by
  have hs : positions n q = (List.range m).map q.idxOf ++ (List.range' m (n - m)).map q.idxOf := by
    rw [positions, ← List.map_append]
    refine congrArg _ ?_
    rw [List.range_eq_range', List.range_eq_range',
      show List.range' m (n - m) = List.range' (0 + 1 * m) (n - m) by simp, List.range'_append]
    congr 1; omega
  have := gateMat_relab U (perm_positions hp) hs (x.relab q) (y.relab q)
  rw [relab_positions hp, relab_positions hp, List.length_map, List.length_range] at this
  exact this.symm

/-- The row side uses the qubits `positions`, the column side the first qubits. -/
theorem applyKrausOperator_exact [CommRing K] [StarRing K] {k : NDArray K} {ρ : DensityMatrix K} {ts : List ℕ}
    (hk : IsOp ts.length k) (hρ : IsDM n ρ) (hv : ValidDims n ts) :
    ∃ r, applyKrausOperator k ρ.array ts = .ok r ∧ r.shape = List.replicate (n + n) 2 ∧ r.WF ∧
      dmMat n r = gateMat n (entries k) ((List.range ts.length).map (ts ++ freeAxes n ts).idxOf) [] * dmMat n ρ.array *
        (gateMat n (entries k) (List.range ts.length) []).conjTranspose := by
  have hp := perm_append_freeAxes hv.nodup hv.lt
  have hlen : (ts ++ freeAxes n ts).length = n := by simpa using hp.length_eq
  have hm : ts.length ≤ n := by rw [← hlen]; simp
  obtain ⟨a1, h1, s1, m1⟩ := moveaxis_rows hρ.shape hv
  obtain ⟨x1, x2, x3, a2, e1, e2, e3, e4, s2, w2, m2⟩ := sandwich_dm (n := n) (k := ts.length) hk.shape s1 hm
  obtain ⟨r, h3, s3, w3, m3⟩ := moveaxis_rows_back s2 hv
  have hsz : k.size = 2 ^ (2 * ts.length) := by rw [size, hk.shape]; simp [two_mul, pow_add]
  refine ⟨r, ?_, s3, w3, ?_⟩
  · rw [applyKrausOperator]
    simp only [hsz, intLog2_pow, reshape, hk.shape]
    rw [if_pos (by simp [two_mul, pow_add])]
    simp only [bind, Except.bind]
    rw [h1, show 2 * ts.length / 2 = ts.length by omega]
    simp only [e1, e2, e3, e4, h3]
  · set q := ts ++ freeAxes n ts with hq
    have hR : (dmMat n r).submatrix (Lab.relabEquiv q hp) (Equiv.refl _) = dmMat n a2 := by
      funext x y; exact m3 x y
    have hA : dmMat n a1 = (dmMat n ρ.array).submatrix (Lab.relabEquiv q hp) (Equiv.refl _) := by
      funext x y; exact m1 x y
    have hG : gateMat n (entries k) (List.range ts.length) []
        = (gateMat n (entries k) ((List.range ts.length).map q.idxOf) []).submatrix (Lab.relabEquiv q hp)
          (Lab.relabEquiv q hp) := by
      funext x y; exact (gateMat_positions _ hp hm x y).symm
    rw [m2, hA] at hR
    have hL : gateMat n (entries k) (List.range ts.length) [] *
          (dmMat n ρ.array).submatrix (Lab.relabEquiv q hp) (Equiv.refl _)
        = (gateMat n (entries k) ((List.range ts.length).map q.idxOf) [] * dmMat n ρ.array).submatrix
          (Lab.relabEquiv q hp) (Equiv.refl _) := by
      rw [hG, Matrix.submatrix_mul_equiv]
    rw [hL] at hR
    funext x y
    obtain ⟨x', rfl⟩ := (Lab.relabEquiv q hp).surjective x
    have := congrFun (congrFun hR x') y
    rw [Matrix.submatrix_apply] at this
    rw [Equiv.refl_apply] at this
    rw [this, Matrix.mul_apply, Matrix.mul_apply]
    rfl

theorem idxOf_freeAxes {ts : List ℕ} {j : ℕ} (hj : j < n) (h : j ∉ ts) :
    (freeAxes n ts).idxOf j = ((List.range j).filter fun p => p ∉ ts).length := by
  have hs : List.range n = List.range j ++ j :: List.range' (j + 1) (n - (j + 1)) := by
    rw [List.range_eq_range', List.range_eq_range']
    have : j :: List.range' (j + 1) (n - (j + 1)) = List.range' j (n - j) := by
      conv_rhs => rw [show n - j = (n - (j + 1)) + 1 by omega, List.range'_succ]
    rw [this, show List.range' j (n - j) = List.range' (0 + 1 * j) (n - j) by simp, List.range'_append]
    congr 1; omega
  rw [freeAxes, hs, List.filter_append, List.idxOf_append_of_notMem (by simp), List.filter_cons_of_pos (by simpa using h),
    List.idxOf_cons_self, Nat.add_zero]

end Verif
