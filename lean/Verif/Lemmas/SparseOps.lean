import Verif.Lemmas.Sparse

/-! # Sparse operators and their application have the dense meaning -/

set_option autoImplicit false

namespace Verif
open NDArray

namespace Bcoo
variable {K : Type} [CommRing K] (lay : Layout)

/-- Square matrices of a positive number of qubits. -/
def Sq (b : Bcoo K) : Prop := b.WF ∧ ∃ k, 1 ≤ k ∧ b.shape = [2 ^ k, 2 ^ k]

theorem matmul_eq_tensordot {a b : NDArray K} {m k k' n : ℕ} (ha : a.shape = [m, k]) (hb : b.shape = [k', n]) :
    NDArray.matmul a b = NDArray.tensordot a b [1] [0] := by
  simp only [NDArray.matmul, NDArray.tensordot, ha, hb, NDArray.ndim]
  have hfa : freeAxes 2 [1] = [0] := by decide
  have hfb : freeAxes 2 [0] = [1] := by decide
  by_cases h : k = k'
  · subst h
    rw [if_pos rfl, if_pos (by simp)]
    refine congrArg Except.ok ?_
    simp only [List.length_cons, List.length_nil, Nat.zero_add, Nat.reduceAdd, hfa, hfb, List.map_cons, List.map_nil,
      List.getD_cons_zero, List.getD_cons_succ, List.singleton_append]
    refine ofFn_congr fun idx hidx => ?_
    rcases idx with _ | ⟨i, _ | ⟨j, _ | ⟨l, t⟩⟩⟩ <;> simp at hidx
    have : allIdx [k] = (List.range k).map fun i => [i] := by
      simp only [allIdx, List.map_cons, List.map_nil]
      induction List.range k with
      | nil => rfl
      | cons a l ih => simp [ih]
    rw [this, List.map_map]
    refine congrArg List.sum (List.map_congr_left fun l _ => ?_)
    have e1 : ∀ x y, assemble 2 [1] [x] [y] = [y, x] := by
      intro x y; simp [assemble, hfa, List.range_succ, List.idxOf_cons]
    have e2 : ∀ x y, assemble 2 [0] [x] [y] = [x, y] := by
      intro x y; simp [assemble, hfb, List.range_succ, List.idxOf_cons]
    simp [Function.comp_def, e1, e2]
  · rw [if_neg h, if_neg (by simp [h])]

theorem matmul_dense {a b : Bcoo K} (ha : a.WF) (hb : b.WF) :
    (a.matmul lay b).map todense = NDArray.matmul a.todense b.todense := by
  rw [Bcoo.matmul]
  split
  · rename_i m k k' n h1 h2
    rw [tensordot_dense lay ha hb, matmul_eq_tensordot (a := a.todense) (b := b.todense) h1 h2]
  · rename_i h
    rw [NDArray.matmul]
    split
    · rename_i m k k' n h1 h2
      exact absurd h2 (h _ _ _ _ h1)
    · rfl

theorem shape_tensordot {a b r : Bcoo K} {axA axB : List ℕ} (h : a.tensordot lay b axA axB = .ok r) :
    r.shape = ((freeAxes a.shape.length axA).map fun q => a.shape.getD q 0)
      ++ ((freeAxes b.shape.length axB).map fun q => b.shape.getD q 0) := by
  rw [Bcoo.tensordot] at h
  split_ifs at h
  cases h
  exact lay.shape _

theorem matmul_sq {a b r : Bcoo K} (ha : a.Sq) (hb : b.Sq) (h : a.matmul lay b = .ok r) : r.Sq := by
  obtain ⟨_, k, hk, ha⟩ := ha
  obtain ⟨_, k', _, hb⟩ := hb
  rw [Bcoo.matmul, ha, hb] at h
  simp only at h
  have hw := wf_tensordot lay h
  have hs := shape_tensordot lay h
  have hg : 2 ^ k = 2 ^ k' := by
    rw [Bcoo.tensordot] at h
    split_ifs at h with hc
    have := hc.2.2.2.2.2
    simpa [ha, hb] using this
  refine ⟨hw, k, hk, ?_⟩
  have hfa : freeAxes 2 [1] = [0] := by decide
  have hfb : freeAxes 2 [0] = [1] := by decide
  rw [hs, ha, hb]
  simp [hfa, hfb, hg]

theorem controlledBlock_dense {b : Bcoo K} (hb : b.WF) {k : ℕ} (hk : b.shape = [2 ^ k, 2 ^ k]) (m : ℕ) :
    Verif.controlledBlock b.todense m = .ok (b.controlledBlock m).todense := by
  have hl : intLog2 (2 ^ k) = k := Nat.log_pow (by norm_num) k
  simp only [Verif.controlledBlock, controlledBlock, shape_todense, hk, List.getD_cons_zero, hl, if_true]
  refine congrArg Except.ok (ofFn_congr fun idx hidx => ?_)
  rcases idx with _ | ⟨i, _ | ⟨j, _ | ⟨l, t⟩⟩⟩ <;> simp at hidx
  have hle : 2 ^ k ≤ 2 ^ (m + k) := Nat.pow_le_pow_right (by norm_num) (by omega)
  set off := 2 ^ (m + k) - 2 ^ k with hoff
  simp only [List.getD_cons_zero, List.getD_cons_succ, List.map_append, List.sum_append, Bcoo.eye, List.map_map,
    Function.comp_def]
  have hid : ∀ a, (if [a, a] = [i, j] then (1 : K) else 0) = if a = i then (if i = j then 1 else 0) else 0 := by
    intro a
    by_cases h1 : a = i
    · subst h1; simp
    · simp [h1]
  simp only [hid]
  rw [sum_ite_mem List.nodup_range]
  simp only [List.mem_range]
  have hop : (b.entries.map fun e => if e.1.map (· + off) = [i, j] then e.2 else 0).sum
      = if off ≤ i ∧ off ≤ j then b.todense.get [i - off, j - off] else 0 := by
    split_ifs with h
    · rw [get_todense _ (by rw [hk]; simp; omega)]
      refine congrArg List.sum (List.map_congr_left fun e he => if_congr ?_ rfl rfl)
      have hel : e.1.length = 2 := by rw [hb e he, hk]; rfl
      rcases h1 : e.1 with _ | ⟨x, _ | ⟨y, _ | ⟨z, t⟩⟩⟩ <;> simp [h1] at hel
      simp; omega
    · rw [List.sum_eq_zero]
      intro x hx
      simp only [List.mem_map] at hx
      obtain ⟨e, he, rfl⟩ := hx
      rw [if_neg]
      intro hc
      have hel : e.1.length = 2 := by rw [hb e he, hk]; rfl
      rcases h1 : e.1 with _ | ⟨x, _ | ⟨y, _ | ⟨z, t⟩⟩⟩ <;> simp [h1] at hel
      rw [h1] at hc
      simp at hc; omega
  rw [hop]
  by_cases h : off ≤ i ∧ off ≤ j
  · rw [if_pos h, if_pos h, if_neg (by omega), zero_add]
  · rw [if_neg h, if_neg h, add_zero]
    by_cases hij : i = j
    · subst hij
      rw [if_pos rfl, if_pos (by omega)]
    · simp [hij]

theorem controlledBlock_sq {b : Bcoo K} (hb : b.Sq) (m : ℕ) : (b.controlledBlock m).Sq := by
  obtain ⟨hw, k, hk, hs⟩ := hb
  refine ⟨?_, m + k, by omega, ?_⟩
  · intro e he
    simp only [controlledBlock, List.mem_append, List.mem_map] at he
    rcases he with he | ⟨e', he', rfl⟩
    · have := wf_eye _ e he
      exact this
    · have := hw e' he'
      simp [controlledBlock, this, hs]
  · have hl : intLog2 (2 ^ k) = k := Nat.log_pow (by norm_num) k
    simp only [controlledBlock, hs, List.getD_cons_zero, hl]

/-- The reshaped operator of a square matrix. -/
theorem reshape_sq {b : Bcoo K} (hb : b.Sq) :
    ∃ r, b.reshape (List.replicate (2 * intLog2 (b.shape.getD 1 0)) 2) = .ok r ∧ r.WF ∧
      b.todense.reshape (List.replicate (2 * intLog2 (b.shape.getD 1 0)) 2) = .ok r.todense := by
  obtain ⟨hw, k, hk, hs⟩ := hb
  have hl : intLog2 (2 ^ k) = k := Nat.log_pow (by norm_num) k
  simp only [hs, List.getD_cons_succ, List.getD_cons_zero, hl]
  have hne : List.replicate (2 * k) 2 ≠ [] := by
    intro h; have := congrArg List.length h; simp at this; omega
  have h := reshape_dense b hne
  rcases h1 : b.reshape (List.replicate (2 * k) 2) with e | r
  · exfalso
    rw [Bcoo.reshape, if_pos (by rw [hs]; simp [two_mul, pow_add])] at h1
    cases h1
  · rw [h1] at h
    exact ⟨r, rfl, (wf_reshape h1).1, h.symm⟩

theorem prepareOperator_dense {b : Bcoo K} (hb : b.Sq) (ts : List ℕ) (c : Ctl) :
    (∃ e, prepareOperator b ts c = .error e ∧ Verif.prepareOperator b.todense ts c = .error e) ∨
    ∃ r nq dims, r.WF ∧ prepareOperator b ts c = .ok (r, nq, dims) ∧
      Verif.prepareOperator b.todense ts c = .ok (r.todense, nq, dims) := by
  rw [prepareOperator, Verif.prepareOperator]
  by_cases hc : isControlled c = true
  · obtain ⟨hw, k, hk, hs⟩ := hb
    rw [if_pos hc, if_pos hc, controlledBlock_dense hw hs]
    rcases hq : ctlQubits c with e | cs
    · exact .inl ⟨e, rfl, rfl⟩
    · obtain ⟨r, h1, h2, h3⟩ := reshape_sq (controlledBlock_sq ⟨hw, k, hk, hs⟩ (c.getD []).length)
      refine .inr ⟨r, intLog2 ((controlledBlock b (c.getD []).length).shape.getD 1 0), cs ++ ts, h2, ?_, ?_⟩
      · simp only [except_bind, pure, Except.pure, h1]
      · simp only [except_bind, pure, Except.pure, shape_todense, h3]
  · rw [if_neg hc, if_neg hc]
    obtain ⟨r, h1, h2, h3⟩ := reshape_sq hb
    refine .inr ⟨r, intLog2 (b.shape.getD 1 0), ts, h2, ?_, ?_⟩
    · simp only [except_bind, pure, Except.pure, h1]
    · simp only [except_bind, pure, Except.pure, shape_todense, h3]

/-- Applying a sparse operator to a sparse state has the dense meaning. -/
theorem applyOperator_dense {st op : Bcoo K} (hst : st.WF) (hop : op.Sq) (ts : List ℕ) (c : Ctl) :
    (applyOperator lay st op ts c).map todense = Verif.applyOperator st.todense op.todense ts c := by
  rw [applyOperator, Verif.applyOperator]
  rcases prepareOperator_dense hop ts c with ⟨e, h1, h2⟩ | ⟨r, nq, dims, hr, h1, h2⟩
  · rw [h1, h2]; rfl
  · rw [h1, h2]
    have ht := tensordot_dense lay hr hst ((List.range (2 * nq)).drop nq) dims
    simp only [except_bind, ← ht]
    rcases h3 : tensordot lay r st ((List.range (2 * nq)).drop nq) dims with e | t
    · rfl
    · exact moveaxis_dense (wf_tensordot lay h3) _ _

theorem wf_applyOperator {st op r : Bcoo K} {ts : List ℕ} {c : Ctl} (h : applyOperator lay st op ts c = .ok r) : r.WF := by
  rw [applyOperator] at h
  rcases h1 : prepareOperator op ts c with e | ⟨o, nq, dims⟩
  · rw [h1] at h; cases h
  · rw [h1] at h
    rcases h3 : tensordot lay o st ((List.range (2 * nq)).drop nq) dims with e | t
    · simp only [bind, Except.bind, h3] at h; cases h
    · simp only [bind, Except.bind, h3] at h
      exact wf_moveaxis h

variable [StarRing K]

theorem dagger_dense {b : Bcoo K} (hb : b.WF) : b.dagger.map todense = Verif.dagger b.todense := by
  rw [Bcoo.dagger, Verif.dagger]
  have hm : (b.mapData star).todense = b.todense.conj := todense_mapData (starAddEquiv : K ≃+ K).toAddMonoidHom b
  by_cases h : 2 < b.shape.length
  · rw [if_pos h, if_pos (show 2 < b.todense.ndim from h)]
    have := transpose_dense (wf_mapData star hb) ((List.range b.shape.length).drop (b.shape.length / 2)
      ++ List.range (b.shape.length / 2))
    rw [hm] at this
    exact this
  · rw [if_neg h, if_neg (show ¬ 2 < b.todense.ndim from h)]
    have := transpose_dense hb (List.range b.shape.length).reverse
    rw [show b.todense.ndim = b.shape.length from rfl, ← this]
    rcases b.transpose (List.range b.shape.length).reverse with e | r
    · rfl
    · exact congrArg Except.ok (todense_mapData (starAddEquiv : K ≃+ K).toAddMonoidHom r)

theorem dagger_sq {b r : Bcoo K} (hb : b.Sq) (h : b.dagger = .ok r) : r.Sq := by
  obtain ⟨hw, k, hk, hs⟩ := hb
  rw [Bcoo.dagger, if_neg (by rw [hs]; simp)] at h
  rcases h1 : b.transpose (List.range b.shape.length).reverse with e | t
  · rw [h1] at h; cases h
  · rw [h1] at h
    cases h
    refine ⟨wf_mapData _ (wf_transpose h1), k, hk, ?_⟩
    rw [Bcoo.transpose] at h1
    split_ifs at h1
    cases h1
    show ((List.range b.shape.length).reverse.map fun p => b.shape.getD p 0) = _
    rw [hs]
    simp [List.range_succ]

end Bcoo
end Verif
