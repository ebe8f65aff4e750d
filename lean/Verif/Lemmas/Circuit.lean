import Verif.Lemmas.Expand
import Verif.Model.ApplyGates

/-! # Sequences of operations: `reduce(apply_operator, …)` and `merge_operators` -/

namespace Verif
open NDArray
variable {K : Type} [CommRing K]

theorem prepareOperator_ctl (op : NDArray K) (ts : List ℕ) {c : Ctl} (h : WfCtl c) :
    prepareOperator op ts c = prepareOperator op ts (ctlOf (ctlInts c)) := by
  rcases h with rfl | rfl | ⟨cs, rfl⟩
  · simp [prepareOperator, ctlInts, ctlOf, isControlled, CIdx.isControlled]
  · simp [prepareOperator, ctlInts, ctlOf]
  · have : ctlInts (some (cs.map .int)) = cs := by
      simp [ctlInts, List.filterMap_map]
    rw [this]
    cases cs with
    | nil => simp [prepareOperator, ctlOf, isControlled, CIdx.isControlled]
    | cons c cs => rfl

theorem applyOperator_ctl (st op : NDArray K) (ts : List ℕ) {c : Ctl} (h : WfCtl c) :
    applyOperator st op ts c = applyOperator st op ts (ctlOf (ctlInts c)) := by
  rw [applyOperator, applyOperator, prepareOperator_ctl op ts h]

theorem applyOperatorDM_ctl [StarRing K] (so : SetOrder) (st : DensityMatrix K) (op : NDArray K) (ts : List ℕ)
    {c : Ctl} (h : WfCtl c) :
    applyOperatorDM so st op ts c = applyOperatorDM so st op ts (ctlOf (ctlInts c)) := by
  rw [applyOperatorDM, applyOperatorDM, prepareOperator_ctl op ts h]

theorem applyOperator_opMat {n : ℕ} {st : NDArray K} {o : NDArray K × List ℕ × Ctl} (hst : IsKet n st)
    (ho : WfOp n o) :
    ∃ r, applyOperator st o.1 o.2.1 o.2.2 = .ok r ∧ IsKet n r ∧ ket n r = (opMat n o).mulVec (ket n st) := by
  obtain ⟨r, h1, h2, h3⟩ := applyOperator_ket ho.op hst rfl ho.dims
  exact ⟨r, by rw [applyOperator_ctl st o.1 o.2.1 ho.ctl]; exact h1, h2, h3⟩

theorem reduceApply_ket {n : ℕ} (ops : List (NDArray K × List ℕ × Ctl)) {st : NDArray K} (hst : IsKet n st)
    (ho : ∀ o ∈ ops, WfOp n o) :
    ∃ r, reduceApply ops st = .ok r ∧ IsKet n r ∧ ket n r = (circMat n ops).mulVec (ket n st) := by
  induction ops generalizing st with
  | nil => exact ⟨st, rfl, hst, by simp [circMat]⟩
  | cons o os ih =>
    obtain ⟨r, h1, h2, h3⟩ := applyOperator_opMat hst (ho o (by simp))
    obtain ⟨r', h1', h2', h3'⟩ := ih h2 (fun o' h => ho o' (by simp [h]))
    refine ⟨r', ?_, h2', ?_⟩
    · rw [reduceApply, List.foldlM_cons, h1]; exact h1'
    · rw [h3', h3, circMat, Matrix.mulVec_mulVec]

theorem matmul_isOp {k : ℕ} {a b : NDArray K} (ha : IsOp k a) (hb : IsOp k b) :
    ∃ r, NDArray.matmul a b = .ok r ∧ IsOp k r ∧
      ∀ i j, i < 2 ^ k → j < 2 ^ k → entries r i j = mulE (2 ^ k) (entries a) (entries b) i j := by
  refine ⟨ofFn [2 ^ k, 2 ^ k] fun idx =>
        ((List.range (2 ^ k)).map fun l => a.get [idx.getD 0 0, l] * b.get [l, idx.getD 1 0]).sum, ?_, ⟨rfl, wf_ofFn _ _⟩, ?_⟩
  · rw [NDArray.matmul, ha.shape, hb.shape]; simp
  · intro i j hi hj
    rw [entries_ofFn_two (f := fun i j => ((List.range (2 ^ k)).map fun l => a.get [i, l] * b.get [l, j]).sum) hi hj]
    rfl

theorem circMat_append (n : ℕ) (l l' : List (NDArray K × List ℕ × Ctl)) :
    circMat n (l ++ l') = circMat n l' * circMat n l := by
  induction l with
  | nil => simp [circMat]
  | cons o l ih => rw [List.cons_append, circMat, ih, circMat, mul_assoc]

@[simp] theorem Ctl.same_refl (c : Ctl) : Ctl.Same c c := rfl

/-- Control tuples without numpy integers are equal in Python just when they are equal. -/
theorem Ctl.same_iff {c d : Ctl} (hc : WfCtl c) (hd : WfCtl d) : Ctl.Same c d ↔ c = d := by
  have h : ∀ {c : Ctl}, WfCtl c → c.map (List.map CIdx.plain) = c := by
    rintro c (rfl | rfl | ⟨cs, rfl⟩)
    · rfl
    · rfl
    · simp [CIdx.plain]
  rw [Ctl.Same, h hc, h hd]

theorem mergeLoop_circMat {n : ℕ} (rest : List (NDArray K × List ℕ × Ctl)) (m : NDArray K × List ℕ × Ctl)
    (acc : List (NDArray K × List ℕ × Ctl)) (hr : ∀ o ∈ rest, WfOp n o) (hm : WfOp n m) (ha : ∀ o ∈ acc, WfOp n o) :
    ∃ res, mergeLoop NDArray.matmul rest m acc = .ok res ∧ (∀ o ∈ res, WfOp n o) ∧
      circMat n res.reverse = circMat n acc.reverse * opMat n m * circMat n rest.reverse := by
  induction rest generalizing m acc with
  | nil =>
    refine ⟨acc ++ [m], rfl, ?_, ?_⟩
    · intro o h
      rcases List.mem_append.1 h with h | h
      · exact ha o h
      · rw [List.mem_singleton.1 h]; exact hm
    · simp [circMat]
  | cons o rest ih =>
    obtain ⟨o, t, c⟩ := o
    obtain ⟨mo, mt, mc⟩ := m
    have ho : WfOp n (o, t, c) := hr _ (by simp)
    have hr' : ∀ o ∈ rest, WfOp n o := fun o h => hr o (by simp [h])
    by_cases h : t = mt ∧ Ctl.Same c mc
    · obtain ⟨rfl, h⟩ := h
      obtain rfl := (Ctl.same_iff ho.ctl hm.ctl).1 h
      obtain ⟨r, h1, h2, h3⟩ := matmul_isOp hm.op ho.op
      obtain ⟨res, e1, e2, e3⟩ := ih (r, t, c) acc hr' ⟨h2, ho.ctl, ho.dims⟩ ha
      refine ⟨res, ?_, e2, ?_⟩
      · simp only [mergeLoop, Ctl.same_refl, and_self, if_true]
        rw [h1]; exact e1
      · rw [e3, List.reverse_cons, circMat_append]
        simp only [circMat, one_mul]
        have : opMat n (r, t, c) = opMat n (mo, t, c) * opMat n (o, t, c) := by
          simp only [opMat]
          rw [gateMat_mul _ _ ho.dims]
          exact gateMat_congr fun i j hi hj => h3 i j hi hj
        rw [this]; simp only [mul_assoc]
    · obtain ⟨res, e1, e2, e3⟩ := ih (o, t, c) (acc ++ [(mo, mt, mc)]) hr' ho (by
        intro o h
        rcases List.mem_append.1 h with h | h
        · exact ha o h
        · rw [List.mem_singleton.1 h]; exact hm)
      refine ⟨res, ?_, e2, ?_⟩
      · simp only [mergeLoop, h, if_false]
        exact e1
      · rw [e3]
        simp [circMat, circMat_append, mul_assoc]

/-- Merging succeeds on well-formed operations and keeps the matrix of the sequence. -/
theorem mergeOperators_circMat {n : ℕ} {ops : List (NDArray K × List ℕ × Ctl)} (ho : ∀ o ∈ ops, WfOp n o) :
    ∃ res, mergeOperators NDArray.matmul ops = .ok res ∧ (∀ o ∈ res, WfOp n o) ∧ circMat n res = circMat n ops := by
  by_cases hl : ops.length < 2
  · exact ⟨ops, by simp [mergeOperators, hl], ho, rfl⟩
  · rcases hrev : ops.reverse with _ | ⟨m, rest⟩
    · simp at hrev; subst hrev; simp at hl
    · have hmem : ∀ o ∈ m :: rest, WfOp n o := fun o h => ho o (by rw [← List.mem_reverse, hrev]; exact h)
      obtain ⟨res, e1, e2, e3⟩ := mergeLoop_circMat rest m [] (fun o h => hmem o (by simp [h]))
        (hmem m (by simp)) (by simp)
      refine ⟨res.reverse, ?_, fun o h => e2 o (List.mem_reverse.1 h), ?_⟩
      · simp only [mergeOperators, hl, if_false, hrev]
        rw [e1]; rfl
      · rw [e3]
        have : ops = rest.reverse ++ [m] := by
          rw [← List.reverse_reverse ops, hrev, List.reverse_cons]
        rw [this, circMat_append]; simp [circMat]

end Verif
