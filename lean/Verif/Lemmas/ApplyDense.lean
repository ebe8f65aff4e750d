import Verif.Lemmas.Axes
import Verif.Abs
import Verif.Lemmas.Lab
import Mathlib.LinearAlgebra.Matrix.Notation

/-! # `apply_operator` on vectors computes the matrix of the gate -/

namespace Verif
open NDArray

variable {K : Type}

theorem drop_range_two (k : ℕ) : (List.range (2 * k)).drop k = List.range' k k := by
  apply List.ext_getElem
  · simp; omega
  · intro i h1 h2; simp

theorem freeAxes_upper (k : ℕ) : freeAxes (2 * k) (List.range' k k) = List.range k := by
  rw [freeAxes]
  have : List.range (2 * k) = List.range k ++ List.range' k k := by
    rw [List.range_eq_range', List.range_eq_range',
      show List.range' k k = List.range' (0 + 1 * k) k by simp, List.range'_append]
    congr 1; omega
  rw [this, List.filter_append]
  have h1 : (List.range k).filter (fun p => p ∉ List.range' k k) = List.range k := by
    rw [List.filter_eq_self]; simp [List.mem_range'_1]; intros; omega
  have h2 : (List.range' k k).filter (fun p => p ∉ List.range' k k) = [] := by
    rw [List.filter_eq_nil_iff]; simp
  rw [h1, h2]; simp

theorem getD_append_lt {u v : List ℕ} {i : ℕ} (h : i < u.length) : (u ++ v).getD i 0 = u.getD i 0 := by
  simp [List.getD_eq_getElem?_getD, List.getElem?_append_left h]

theorem getD_append_ge {u v : List ℕ} {i : ℕ} (h : u.length ≤ i) :
    (u ++ v).getD i 0 = v.getD (i - u.length) 0 := by
  simp [List.getD_eq_getElem?_getD, List.getElem?_append_right h]

theorem idxOf_range' {k m p : ℕ} (h1 : k ≤ p) (h2 : p < k + m) : (List.range' k m).idxOf p = p - k := by
  have hl : p - k < (List.range' k m).length := by simp; omega
  have : (List.range' k m)[p - k] = p := by simp; omega
  conv_lhs => rw [← this]
  exact (List.nodup_range' (s := k) (n := m)).idxOf_getElem _ hl

theorem idxOf_range {m p : ℕ} (h2 : p < m) : (List.range m).idxOf p = p := by
  rw [List.range_eq_range']
  simpa using idxOf_range' (k := 0) (m := m) (p := p) (by omega) (by omega)

theorem assemble_upper {k : ℕ} {s u : List ℕ} (hu : u.length = k) (hs : s.length = k) :
    assemble (2 * k) (List.range' k k) s u = u ++ s := by
  rw [assemble, freeAxes_upper]
  apply List.ext_getElem
  · simp; omega
  · intro i h1 h2
    have hi : i < 2 * k := by simpa using h1
    simp only [List.getElem_map, List.getElem_range, List.mem_range'_1]
    by_cases hk : k ≤ i
    · rw [if_pos (by omega), idxOf_range' hk (by omega), List.getElem_append_right (by omega)]
      have : i - k < s.length := by omega
      simp [List.getD_eq_getElem?_getD, this, hu]
    · rw [if_neg (by omega), idxOf_range (by omega), List.getElem_append_left (by omega)]
      have : i < u.length := by omega
      simp [List.getD_eq_getElem?_getD, this]

theorem map_shape_two {n : ℕ} {l : List ℕ} (h : ∀ q ∈ l, q < n) :
    l.map (fun q => (List.replicate n 2).getD q 0) = List.replicate l.length 2 := by
  apply List.ext_getElem
  · simp
  · intro i h1 h2
    have hi : i < l.length := by simpa using h1
    have := h _ (List.getElem_mem hi)
    simp [List.getD_eq_getElem?_getD, this]

theorem tensordot_bits [CommRing K] {k m : ℕ} {a b : NDArray K} (ha : a.shape = List.replicate (2 * k) 2)
    (hb : b.shape = List.replicate m 2) {dims : List ℕ} (hlen : dims.length = k) (hd : dims.Nodup)
    (hdn : ∀ q ∈ dims, q < m) :
    tensordot a b ((List.range (2 * k)).drop k) dims = .ok (ofFn (List.replicate m 2) fun idx =>
      ((allIdx (List.replicate k 2)).map fun s =>
        a.get (idx.take k ++ s) * b.get (assemble m dims s (idx.drop k))).sum) := by
  have hup : ∀ q ∈ List.range' k k, q < 2 * k := by simp only [List.mem_range'_1]; omega
  have hfl := length_freeAxes hd hdn
  rw [tensordot, drop_range_two]
  simp only [ndim, ha, hb, List.length_replicate, map_shape_two hup, map_shape_two hdn]
  rw [if_pos ⟨by simp [hlen], List.nodup_range', hd, hup, hdn, by simp [hlen]⟩]
  congr 1
  have hsh : (freeAxes (2 * k) (List.range' k k)).map (fun q => (List.replicate (2 * k) 2).getD q 0)
      ++ (freeAxes m dims).map (fun q => (List.replicate m 2).getD q 0) = List.replicate m 2 := by
    rw [map_shape_two (fun q hq => (mem_freeAxes.1 hq).1), map_shape_two (fun q hq => (mem_freeAxes.1 hq).1),
      freeAxes_upper, ← List.replicate_add]
    congr 1; simp; omega
  rw [hsh]
  apply ofFn_congr
  intro idx hidx
  have hidx' := forall₂_replicate.1 hidx
  simp only [List.length_range']
  congr 1
  apply List.map_congr_left
  intro s hs
  have hs' := mem_allIdx_two.1 hs
  rw [freeAxes_upper, List.length_range, assemble_upper (by simp [hidx'.1]; omega) hs'.1]

theorem moveaxis_bits [Zero K] {m : ℕ} {a : NDArray K} (ha : a.shape = List.replicate m 2) {dims : List ℕ}
    (hd : dims.Nodup) (hdn : ∀ q ∈ dims, q < m) :
    moveaxis a (List.range dims.length) dims = .ok (ofFn (List.replicate m 2) fun idx =>
      a.get (dims.map (fun p => idx.getD p 0) ++ (freeAxes m dims).map (fun p => idx.getD p 0))) := by
  have hfl := length_freeAxes hd hdn
  have hsn : ∀ q ∈ List.range dims.length, q < m := fun q hq => by
    have := List.mem_range.1 hq; omega
  have hperm := perm_moveaxisOrder (n := m) (src := List.range dims.length) (dst := dims)
    (by simp) List.nodup_range hsn
  rw [moveaxis]
  simp only [ndim, ha, List.length_replicate]
  rw [if_pos ⟨by simp, List.nodup_range, hd, hsn, hdn⟩, transpose]
  simp only [ndim, ha, List.length_replicate]
  rw [if_pos hperm]
  congr 1
  rw [map_shape_two (fun q hq => by simpa using hperm.mem_iff.1 hq), hperm.length_eq, List.length_range]
  apply ofFn_congr
  intro idx _
  rw [permIdx_moveaxis hd hdn]

theorem assemble_free {m : ℕ} {dims s idx : List ℕ} :
    assemble m dims s ((freeAxes m dims).map fun p => idx.getD p 0)
      = (List.range m).map fun p => if p ∈ dims then s.getD (dims.idxOf p) 0 else idx.getD p 0 := by
  apply List.map_congr_left
  intro p hp
  have hp' := List.mem_range.1 hp
  by_cases h : p ∈ dims
  · simp [h]
  · simp only [h, if_false]
    have hm : p ∈ freeAxes m dims := mem_freeAxes.2 ⟨hp', h⟩
    rw [getD_map_lt 0 (List.idxOf_lt_length_of_mem hm), getD_idxOf hm]

theorem reshape_get [Zero K] {op : NDArray K} {k : ℕ} (hs : op.shape = [2 ^ k, 2 ^ k]) {u s : List ℕ}
    (hu : IsBits k u) (hs' : IsBits k s) :
    (NDArray.mk (List.replicate (2 * k) 2) op.data).get (u ++ s) = op.get [binVal u, binVal s] := by
  have h2 : IsBits (2 * k) (u ++ s) := by rw [two_mul]; exact hu.append hs'
  simp only [NDArray.get, ravel_two h2, hs, ravel, List.prod_cons, List.prod_nil]
  rw [binVal_append, hs'.1]; simp

/-- Contract a `2^k × 2^k` matrix with the axes `dims` of a state (the body of `apply_operator` after the operator has
been prepared). -/
theorem contract_eq [CommRing K] {n k : ℕ} {op st : NDArray K} (hop : op.shape = [2 ^ k, 2 ^ k])
    (hst : st.shape = List.replicate n 2) {dims : List ℕ} (hlen : dims.length = k) (hd : dims.Nodup)
    (hdn : ∀ q ∈ dims, q < n) :
    (do let t ← tensordot (NDArray.mk (List.replicate (2 * k) 2) op.data) st ((List.range (2 * k)).drop k) dims
        moveaxis t (List.range dims.length) dims : Py (NDArray K))
      = .ok (ofFn (List.replicate n 2) fun idx => ((allIdx (List.replicate k 2)).map fun s =>
          op.get [binVal (dims.map fun p => idx.getD p 0), binVal s] *
          st.get ((List.range n).map fun p => if p ∈ dims then s.getD (dims.idxOf p) 0 else idx.getD p 0)).sum) := by
  rw [tensordot_bits (k := k) rfl hst hlen hd hdn]
  simp only [bind, Except.bind]
  rw [moveaxis_bits (by simp) hd hdn]
  congr 1
  apply ofFn_congr
  intro idx hidx
  have hidx' := forall₂_replicate.1 hidx
  have hfl := length_freeAxes hd hdn
  have hb1 : IsBits dims.length (dims.map fun p => idx.getD p 0) := hidx'.map_getD dims
  have hb2 : IsBits (freeAxes n dims).length ((freeAxes n dims).map fun p => idx.getD p 0) :=
    hidx'.map_getD _
  have hb3 : IsBits n (dims.map (fun p => idx.getD p 0) ++ (freeAxes n dims).map (fun p => idx.getD p 0)) := by
    have := hb1.append hb2
    rwa [hfl] at this
  rw [get_ofFn (forall₂_replicate.2 hb3)]
  congr 1
  apply List.map_congr_left
  intro s hs
  have hs' := mem_allIdx_two.1 hs
  have e1 : (dims.map (fun p => idx.getD p 0) ++ (freeAxes n dims).map (fun p => idx.getD p 0)).take k
      = dims.map (fun p => idx.getD p 0) := by
    rw [← hlen]; exact List.take_left' (by simp)
  have e2 : (dims.map (fun p => idx.getD p 0) ++ (freeAxes n dims).map (fun p => idx.getD p 0)).drop k
      = (freeAxes n dims).map (fun p => idx.getD p 0) := by
    rw [← hlen]; exact List.drop_left' (by simp)
  rw [e1, e2, assemble_free, reshape_get hop (hlen ▸ hb1) hs']

theorem intLog2_pow (k : ℕ) : intLog2 (2 ^ k) = k := Nat.log_pow (by norm_num) k

theorem gateMat_nil_apply [CommRing K] {n : ℕ} (U : ℕ → ℕ → K) (ts : List ℕ) (b b' : Lab n) :
    gateMat n U ts [] b b' = if Lab.AgreeOff ts b b' then U (b.idx ts) (b'.idx ts) else 0 := by
  simp [gateMat]

theorem mulVec_gateMat_nil [CommRing K] {n : ℕ} (U : ℕ → ℕ → K) {ts : List ℕ} (hv : ValidDims n ts)
    (ψ : Lab n → K) (b : Lab n) :
    (gateMat n U ts []).mulVec ψ b
      = ((allIdx (List.replicate ts.length 2)).map fun s => U (b.idx ts) (binVal s) * ψ (b.override ts s)).sum := by
  rw [Matrix.mulVec, dotProduct]
  simp only [gateMat_nil_apply, ite_mul, zero_mul]
  rw [sum_agreeOff hv.nodup hv.lt b (fun b' => U (b.idx ts) (b'.idx ts) * ψ b')]
  congr 1
  apply List.map_congr_left
  intro s hs
  rw [Lab.idx_override b (mem_allIdx_two.1 hs) hv.nodup hv.lt]

/-- The contraction computes `gateMat` with no controls. -/
theorem contract_ket [CommRing K] {n k : ℕ} {op st : NDArray K} (hop : op.shape = [2 ^ k, 2 ^ k])
    (hst : st.shape = List.replicate n 2) {dims : List ℕ} (hlen : dims.length = k) (hv : ValidDims n dims) :
    ∃ r, (do let t ← tensordot (NDArray.mk (List.replicate (2 * k) 2) op.data) st
                        ((List.range (2 * k)).drop k) dims
             moveaxis t (List.range dims.length) dims : Py (NDArray K)) = .ok r ∧
      r.shape = List.replicate n 2 ∧ r.WF ∧
      ket n r = (gateMat n (entries op) dims []).mulVec (ket n st) := by
  refine ⟨_, contract_eq hop hst hlen hv.nodup hv.lt, rfl, wf_ofFn _ _, ?_⟩
  funext b
  rw [ket, get_ofFn (forall₂_replicate.2 b.isBits_bits), mulVec_gateMat_nil _ hv, hlen]
  congr 1
  apply List.map_congr_left
  intro s hs
  have hs' := mem_allIdx_two.1 hs
  rw [ket, Lab.bits_override _ _ hs'.2, entries, Lab.idx]
  simp only [Lab.getD_bits]

/-- Entries of the block-controlled operator. -/
def ctl [Zero K] [One K] (off : ℕ) (U : ℕ → ℕ → K) : ℕ → ℕ → K := fun i j =>
  if off ≤ i ∧ off ≤ j then U (i - off) (j - off) else if i = j then 1 else 0

theorem controlledBlock_eq [CommRing K] {op : NDArray K} {k nc : ℕ} (hop : op.shape = [2 ^ k, 2 ^ k]) :
    controlledBlock op nc = .ok (ofFn [2 ^ (nc + k), 2 ^ (nc + k)] fun idx =>
      ctl (2 ^ (nc + k) - 2 ^ k) (entries op) (idx.getD 0 0) (idx.getD 1 0)) := by
  rw [controlledBlock]
  simp only [hop, List.getD_cons_zero, intLog2_pow, if_true]
  rfl

theorem entries_ofFn_two [Zero K] {d : ℕ} {f : ℕ → ℕ → K} {i j : ℕ} (hi : i < d) (hj : j < d) :
    entries (ofFn [d, d] fun idx => f (idx.getD 0 0) (idx.getD 1 0)) i j = f i j := by
  rw [entries, get_ofFn (by simp [hi, hj])]; rfl

/-- `gateMat` only looks at entries below `2^k`. -/
theorem gateMat_congr [CommRing K] {n : ℕ} {U V : ℕ → ℕ → K} {ts cs : List ℕ}
    (h : ∀ i j, i < 2 ^ ts.length → j < 2 ^ ts.length → U i j = V i j) : gateMat n U ts cs = gateMat n V ts cs := by
  funext b b'
  simp only [gateMat, h _ _ (b.idx_lt ts) (b'.idx_lt ts)]

/-- A controlled gate is the block-controlled operator on the qubits controls ++ targets. -/
theorem gateMat_controls [CommRing K] {n : ℕ} (U : ℕ → ℕ → K) {ts cs : List ℕ} (hnd : (cs ++ ts).Nodup)
    (hlt : ∀ q ∈ cs, q < n) :
    gateMat n U ts cs = gateMat n (ctl (2 ^ (cs.length + ts.length) - 2 ^ ts.length) U) (cs ++ ts) [] := by
  funext b b'
  rw [gateMat_nil_apply]
  have hpow : 2 ^ (cs.length + ts.length) - 2 ^ ts.length = (2 ^ cs.length - 1) * 2 ^ ts.length := by
    rw [pow_add, Nat.sub_mul, one_mul]
  have hpos : 0 < 2 ^ cs.length := by positivity
  -- characterise the block membership
  have hblk : ∀ c : Lab n, 2 ^ (cs.length + ts.length) - 2 ^ ts.length ≤ c.idx (cs ++ ts) ↔
      ∀ q ∈ cs, c.bit q = 1 := by
    intro c
    rw [c.all_one_iff, c.idx_append, hpow]
    have h1 := c.idx_lt ts
    constructor
    · intro h
      by_contra hc
      push Not at hc
      have : (c.idx cs + 1) * 2 ^ ts.length ≤ (2 ^ cs.length - 1) * 2 ^ ts.length :=
        Nat.mul_le_mul_right _ hc
      rw [Nat.add_mul, one_mul] at this
      omega
    · intro h
      have : (2 ^ cs.length - 1) * 2 ^ ts.length ≤ c.idx cs * 2 ^ ts.length := Nat.mul_le_mul_right _ h
      omega
  have hsub : ∀ c : Lab n, (∀ q ∈ cs, c.bit q = 1) →
      c.idx (cs ++ ts) - (2 ^ (cs.length + ts.length) - 2 ^ ts.length) = c.idx ts := by
    intro c hc
    have h2 := (c.all_one_iff cs).1 hc
    have h3 := c.idx_lt cs
    have h4 : c.idx cs = 2 ^ cs.length - 1 := by omega
    rw [hpow, c.idx_append, h4]; omega
  have hdisj : ∀ q ∈ cs, q ∉ ts := fun q hq hq' =>
    (List.nodup_append.1 hnd).2.2 q hq q hq' rfl
  simp only [gateMat]
  by_cases hb : ∀ c ∈ cs, b.bit c = 1
  · rw [if_pos hb]
    by_cases hb' : ∀ c ∈ cs, b'.bit c = 1
    · have hag : Lab.AgreeOff ts b b' ↔ Lab.AgreeOff (cs ++ ts) b b' := by
        rw [Lab.agreeOff_iff, Lab.agreeOff_iff]
        constructor
        · intro h q hq hm
          exact h q hq fun h' => hm (List.mem_append_right _ h')
        · intro h q hq hm
          by_cases hc : q ∈ cs
          · rw [hb q hc, hb' q hc]
          · exact h q hq (by simp [hc, hm])
      simp only [hag, ctl, (hblk b).2 hb, (hblk b').2 hb', hsub b hb, hsub b' hb']
      simp
    · have hag : ¬ Lab.AgreeOff ts b b' := by
        rw [Lab.agreeOff_iff]
        intro h
        apply hb'
        intro c hc
        rw [← h c (hlt c hc) (hdisj c hc)]; exact hb c hc
      rw [if_neg hag]
      have hne : b.idx (cs ++ ts) ≠ b'.idx (cs ++ ts) := by
        intro h
        apply hb'
        intro c hc
        rw [← Lab.idx_inj h c (List.mem_append_left _ hc)]; exact hb c hc
      have hn : ¬ (2 ^ (cs.length + ts.length) - 2 ^ ts.length ≤ b.idx (cs ++ ts) ∧
          2 ^ (cs.length + ts.length) - 2 ^ ts.length ≤ b'.idx (cs ++ ts)) := by
        rintro ⟨_, h⟩; exact hb' ((hblk b').1 h)
      simp only [ctl, hn, hne, if_false, ite_self]
  · rw [if_neg hb]
    have hn : ¬ (2 ^ (cs.length + ts.length) - 2 ^ ts.length ≤ b.idx (cs ++ ts) ∧
        2 ^ (cs.length + ts.length) - 2 ^ ts.length ≤ b'.idx (cs ++ ts)) := by
      rintro ⟨h, _⟩; exact hb ((hblk b).1 h)
    simp only [ctl, hn, if_false]
    by_cases he : b = b'
    · subst he; simp [Lab.AgreeOff.refl]
    · rw [if_neg he]
      by_cases hag : Lab.AgreeOff (cs ++ ts) b b'
      · rw [if_pos hag, if_neg]
        intro h; exact he (Lab.eq_of_agreeOff_of_idx hag h)
      · rw [if_neg hag]

theorem isControlled_ctlOf (cs : List ℕ) : isControlled (ctlOf cs) = !cs.isEmpty := by
  cases cs <;> simp [ctlOf, isControlled, CIdx.isControlled]

theorem ctlQubits_int (cs : List ℕ) : ctlQubits (some (cs.map .int)) = .ok cs := by
  simp only [ctlQubits]
  induction cs with
  | nil => rfl
  | cons c cs ih =>
    rw [List.map_cons, List.mapM_cons, ih]; rfl

/-- Result of the preamble shared by all `apply_operator` implementations. -/
theorem prepareOperator_eq [CommRing K] {op : NDArray K} {k : ℕ} (hop : op.shape = [2 ^ k, 2 ^ k]) (hwf : op.WF)
    (ts cs : List ℕ) :
    ∃ op' : NDArray K, op'.shape = [2 ^ (cs.length + k), 2 ^ (cs.length + k)] ∧ op'.WF ∧
      prepareOperator op ts (ctlOf cs)
        = .ok (⟨List.replicate (2 * (cs.length + k)) 2, op'.data⟩, cs.length + k, cs ++ ts) ∧
      ∀ i j, i < 2 ^ (cs.length + k) → j < 2 ^ (cs.length + k) →
        entries op' i j = ctl (2 ^ (cs.length + k) - 2 ^ k) (entries op) i j := by
  cases cs with
  | nil =>
    refine ⟨op, by simpa using hop, hwf, ?_, ?_⟩
    · simp only [prepareOperator, isControlled_ctlOf]
      simp only [List.isEmpty_nil, Bool.not_true, Bool.false_eq_true, if_false, pure, Except.pure, bind,
        Except.bind, hop, reshape, List.getD_cons_succ, List.getD_cons_zero, intLog2_pow, List.length_nil,
        zero_add, List.nil_append]
      rw [if_pos (by simp; ring)]
    · intro i j _ _
      simp [ctl]
  | cons c cs =>
    refine ⟨_, rfl, wf_ofFn _ (fun idx =>
      ctl (2 ^ ((c :: cs).length + k) - 2 ^ k) (entries op) (idx.getD 0 0) (idx.getD 1 0)), ?_, ?_⟩
    · have hl : ((ctlOf (c :: cs)).getD []).length = (c :: cs).length := by simp [ctlOf]
      simp only [prepareOperator, isControlled_ctlOf, hl, controlledBlock_eq hop]
      have hq : ctlQubits (ctlOf (c :: cs)) = .ok (c :: cs) := ctlQubits_int (c :: cs)
      rw [hq]
      simp only [List.isEmpty_cons, Bool.not_false, if_true, pure, Except.pure, bind,
        Except.bind, reshape, shape_ofFn, List.getD_cons_succ, List.getD_cons_zero, intLog2_pow]
      rw [if_pos (by simp; ring)]
    · intro i j hi hj
      exact entries_ofFn_two hi hj

/-- `apply_operator` on a vector multiplies by the matrix of the (controlled) gate. -/
theorem applyOperator_ket [CommRing K] {n k : ℕ} {op st : NDArray K} (hop : IsOp k op) (hst : IsKet n st)
    {ts cs : List ℕ} (hts : ts.length = k) (hv : ValidDims n (cs ++ ts)) :
    ∃ r, applyOperator st op ts (ctlOf cs) = .ok r ∧ IsKet n r ∧
      ket n r = (gateMat n (entries op) ts cs).mulVec (ket n st) := by
  obtain ⟨op', hs', hw', hprep, hent⟩ := prepareOperator_eq hop.shape hop.wf ts cs
  obtain ⟨r, hr, hrs, hrw, hket⟩ := contract_ket (n := n) (k := cs.length + k) hs' hst.shape
    (dims := cs ++ ts) (by simp [hts]) hv
  refine ⟨r, ?_, ⟨hrs, hrw⟩, ?_⟩
  · rw [applyOperator, hprep]; exact hr
  · rw [hket, gateMat_controls (entries op) hv.nodup (fun q hq => hv.lt q (List.mem_append_left _ hq)), hts]
    congr 1
    apply gateMat_congr
    intro i j hi hj
    rw [List.length_append, hts] at hi hj
    exact hent i j hi hj

end Verif
