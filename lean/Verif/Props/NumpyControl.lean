import Verif.Props.Gates

/-! # C56: numpy integers as controls of merged gates

`merge_operators` compares controls with `==`, which does not tell `numpy.int64(q)` from `q`, while `is_controlled`
does.  Merged gates act under the control of the last of them, so a numpy control takes effect, or a Python one is lost,
depending on the gate that follows. -/

set_option autoImplicit false

namespace Verif
open NDArray

variable {M : Type}

/-- A run of operations on one target whose controls are equal in Python is merged as if all had the control of the
last operation. -/
theorem mergeLoop_same (mul : M → M → Py M) (t : List ℕ) (c : Ctl) (rest : List (M × List ℕ × Ctl))
    (h : ∀ o ∈ rest, o.2.1 = t ∧ Ctl.Same o.2.2 c) (mo : M) (acc : List (M × List ℕ × Ctl)) :
    mergeLoop mul rest (mo, t, c) acc = mergeLoop mul (rest.map fun o => (o.1, o.2.1, c)) (mo, t, c) acc := by
  induction rest generalizing mo with
  | nil => rfl
  | cons o rest ih =>
    obtain ⟨o, t', c'⟩ := o
    obtain ⟨h1, h2⟩ := h (o, t', c') (by simp)
    simp only at h1 h2
    subst h1
    simp only [List.map_cons, mergeLoop, h2, Ctl.same_refl, and_self, if_true]
    congr 1; ext q
    exact ih (fun o ho => h o (by simp [ho])) q

/-- **C56** (merged gates): noiseless gates on the same target, whose controls are equal in Python, are merged under the
control of the last gate: the sequence acts as if every gate had been given the control of the last one, numpy integers
included.  The last gate decides whether its control has an effect (Python integers) or not (numpy integers). -/
theorem C56_merged_control (so : SetOrder) (state : State) (gs : List Gate) (last : Gate) (values : Values) (ot : OpType)
    (hn : ∀ g ∈ gs ++ [last], g.noise = none) (ht : ∀ g ∈ gs, g.target = last.target)
    (hc : ∀ g ∈ gs, Ctl.Same g.control last.control) :
    applyGates so state (.list (gs ++ [last])) values ot false true
      = applyGates so state (.list ((gs ++ [last]).map fun g => { g with control := last.control })) values ot false true := by
  set set' : Gate → Gate := fun g => { g with control := last.control } with hset
  have hp : prepareSequenceReduce (fun g => g.operator ot values) NDArray.matmul (.list (gs ++ [last])) false true
      = prepareSequenceReduce (fun g => g.operator ot values) NDArray.matmul (.list ((gs ++ [last]).map set')) false true := by
    have hm : ((gs ++ [last]).map set').mapM (fun g => g.operator ot values)
        = (gs ++ [last]).mapM fun g => g.operator ot values := by
      rw [List.mapM_map]
      exact congrArg (fun f => List.mapM f (gs ++ [last])) (funext fun g => rfl)
    simp only [prepareSequenceReduce, Bool.false_eq_true, if_false, hm]
    rcases hops : (gs ++ [last]).mapM (fun g => g.operator ot values) with e | ops
    · simp only [hops]; rfl
    · have hlen : ops.length = (gs ++ [last]).length := by
        clear hm hn ht hc
        generalize gs ++ [last] = l at hops
        induction l generalizing ops with
        | nil => cases hops; rfl
        | cons g l ih =>
          rw [List.mapM_cons] at hops
          rcases hg : g.operator ot values with e | U
          · rw [hg] at hops; cases hops
          · rw [hg] at hops
            rcases hl : l.mapM (fun g => g.operator ot values) with e | Us
            · rw [hl] at hops; cases hops
            · rw [hl] at hops; cases hops
              simp [ih _ hl]
      obtain ⟨ops, U, rfl⟩ : ∃ a b, ops = a ++ [b] := by
        rcases List.eq_nil_or_concat ops with rfl | ⟨a, b, rfl⟩
        · simp at hlen
        · exact ⟨a, b, by simp⟩
      have hlen' : ops.length = gs.length := by simpa using hlen
      have hnoise : ((gs ++ [last]).map set').map Gate.noise = (gs ++ [last]).map Gate.noise := by
        rw [List.map_map]; rfl
      have hz : List.zipWith (fun (o : NDArray ℂ) (g : Gate) => (o, g.target, g.control)) (ops ++ [U]) (gs ++ [last])
          = List.zipWith (fun o g => (o, g.target, g.control)) ops gs ++ [(U, last.target, last.control)] := by
        rw [List.zipWith_append hlen']; rfl
      have hz' : List.zipWith (fun (o : NDArray ℂ) (g : Gate) => (o, g.target, g.control)) (ops ++ [U])
            ((gs ++ [last]).map set')
          = (List.zipWith (fun o (g : Gate) => (o, g.target, g.control)) ops gs).map (fun o => (o.1, o.2.1, last.control))
            ++ [(U, last.target, last.control)] := by
        rw [List.map_append, List.zipWith_append (by simpa using hlen'), List.zipWith_map_right, List.map_zipWith]
        rfl
      have hall : allNoiseless ((gs ++ [last]).map Gate.noise) = true := by
        simp only [allNoiseless, List.all_map, List.all_eq_true]
        intro g hg; simp [hn g hg]
      have hmerge : ∀ l : List (NDArray ℂ × List ℕ × Ctl), (∀ o ∈ l, o.2.1 = last.target ∧ Ctl.Same o.2.2 last.control) →
          mergeOperators NDArray.matmul (l ++ [(U, last.target, last.control)])
            = mergeOperators NDArray.matmul (l.map (fun o => (o.1, o.2.1, last.control)) ++ [(U, last.target, last.control)]) := by
        intro l hl
        rcases l with _ | ⟨o, l⟩
        · rfl
        · simp only [mergeOperators, List.length_append, List.length_map, List.reverse_append, List.reverse_cons,
            List.reverse_nil, List.nil_append, List.singleton_append, List.cons_append, ← List.map_reverse]
          rw [mergeLoop_same _ _ _ _ (by
            intro o' ho'
            exact hl o' (by simpa [or_comm] using ho'))]
          simp
      have he : ((gs ++ [last]).map set').isEmpty = (gs ++ [last]).isEmpty := by cases gs <;> rfl
      simp only [hops, bind, Except.bind, hz, hz', hnoise, hall, he, Bool.true_and, if_true]
      rw [hmerge]
      intro o ho
      obtain ⟨i, hi, rfl⟩ := List.mem_iff_getElem.1 ho
      have hi' : i < gs.length := by simp at hi; omega
      simp only [List.getElem_zipWith]
      exact ⟨ht _ (List.getElem_mem hi'), hc _ (List.getElem_mem hi')⟩
  simp only [applyGates, hp]

/-- **C56** (merged gates): a numpy control that is otherwise ignored takes effect when the gate is followed by one on
the same target with the equal Python control. -/
theorem C56_merged_numpy_first (so : SetOrder) (state : State) (g h : Gate) (cs : List ℕ) (values : Values) (ot : OpType)
    (hg : g.noise = none) (hh : h.noise = none) (ht : g.target = h.target) :
    applyGates so state (.list [{ g with control := npCtl cs }, { h with control := some (cs.map .int) }]) values ot
      = applyGates so state (.list [{ g with control := some (cs.map .int) }, { h with control := some (cs.map .int) }])
          values ot := by
  have := C56_merged_control so state [{ g with control := npCtl cs }] { h with control := some (cs.map .int) } values ot
    (by simp [hg, hh]) (by simp [ht]) (by simp [Ctl.Same, npCtl, CIdx.plain])
  simpa using this

/-- **C56** (merged gates): a Python control is lost when the gate is followed by one on the same target with the equal
numpy control. -/
theorem C56_merged_numpy_last (so : SetOrder) (state : State) (g h : Gate) (cs : List ℕ) (values : Values) (ot : OpType)
    (hg : g.noise = none) (hh : h.noise = none) (ht : g.target = h.target) :
    applyGates so state (.list [{ g with control := some (cs.map .int) }, { h with control := npCtl cs }]) values ot
      = applyGates so state (.list [{ g with control := npCtl cs }, { h with control := npCtl cs }]) values ot := by
  have := C56_merged_control so state [{ g with control := some (cs.map .int) }] { h with control := npCtl cs } values ot
    (by simp [hg, hh]) (by simp [ht]) (by simp [Ctl.Same, npCtl, CIdx.plain])
  simpa using this

/-- **C56** (control tuples with a Python integer): one Python integer among the controls is enough to make the numpy
integers next to it count. -/
theorem C56_mixed_control (so : SetOrder) (st op : NDArray ℂ) (ρ : DensityMatrix ℂ) (ts : List ℕ) (l : List CIdx)
    (h : ∃ q, CIdx.int q ∈ l) :
    applyOperator st op ts (some l) = applyOperator st op ts (some (l.map CIdx.plain)) ∧
      applyOperatorDM so ρ op ts (some l) = applyOperatorDM so ρ op ts (some (l.map CIdx.plain)) := by
  obtain ⟨q, hq⟩ := h
  have hp : prepareOperator op ts (some l) = prepareOperator op ts (some (l.map CIdx.plain)) := by
    have h1 : isControlled (some l) = true := List.any_eq_true.2 ⟨_, hq, rfl⟩
    have h2 : isControlled (some (l.map CIdx.plain)) = true :=
      List.any_eq_true.2 ⟨_, List.mem_map.2 ⟨_, hq, rfl⟩, rfl⟩
    have h3 : ctlQubits (some (l.map CIdx.plain)) = ctlQubits (some l) := by
      simp only [ctlQubits, List.mapM_map]
      refine congrArg (fun f => List.mapM f l) (funext fun c => ?_)
      cases c <;> rfl
    simp only [prepareOperator, h1, h2, h3, Option.getD_some, List.length_map]
  simp only [applyOperator, applyOperatorDM, hp, and_self]

example : ∃ q, CIdx.int q ∈ [CIdx.npInt 0, .int 1] := ⟨1, by decide⟩

/-- **C02** (control tuples with `None`): a control tuple containing both an integer and `None` is refused, on state
vectors and density matrices. -/
theorem C02_none_among_controls (so : SetOrder) (st op : NDArray ℂ) (ρ : DensityMatrix ℂ) (ts : List ℕ) (l : List CIdx)
    (h : ∃ q, CIdx.int q ∈ l) (hn : CIdx.none ∈ l) :
    (∃ e, applyOperator st op ts (some l) = .error e) ∧ ∃ e, applyOperatorDM so ρ op ts (some l) = .error e := by
  obtain ⟨q, hq⟩ := h
  have h1 : isControlled (some l) = true := List.any_eq_true.2 ⟨_, hq, rfl⟩
  have h2 : ∃ e, ctlQubits (some l) = .error e := by
    clear hq h1
    induction l with
    | nil => simp at hn
    | cons c l ih =>
      simp only [ctlQubits, List.mapM_cons] at ih ⊢
      rcases c with _ | q | q
      · exact ⟨_, rfl⟩
      · obtain ⟨e, he⟩ := ih (by simpa using hn)
        exact ⟨e, by rw [he]; rfl⟩
      · obtain ⟨e, he⟩ := ih (by simpa using hn)
        exact ⟨e, by rw [he]; rfl⟩
  have hp : ∃ e, prepareOperator op ts (some l) = .error e := by
    obtain ⟨e, he⟩ := h2
    simp only [prepareOperator, h1, if_true, he, Option.getD_some]
    rcases controlledBlock op l.length with e' | U
    · exact ⟨e', rfl⟩
    · exact ⟨e, rfl⟩
  obtain ⟨e, he⟩ := hp
  exact ⟨⟨e, by rw [applyOperator, he]; rfl⟩, e, by rw [applyOperatorDM, he]; rfl⟩

example : (∃ q, CIdx.int q ∈ [CIdx.none, .int 1]) ∧ CIdx.none ∈ [CIdx.none, .int 1] := ⟨⟨1, by decide⟩, by decide⟩

/-- The control `is_controlled` sees: none, unless there is a Python integer among the entries. -/
def Gate.seenControl (g : Gate) : Gate := { g with control := if isControlled g.control then g.control else none }

/-- **C56** (gates that are not merged): every control tuple without a Python integer, numpy integers in particular, is
ignored, in every list of gates, noisy or not, on state vectors and density matrices. -/
theorem C56_unmerged_ignored (so : SetOrder) (state : State) (gs : List Gate) (values : Values) (ot : OpType) :
    applyGates so state (.list gs) values ot false false
      = applyGates so state (.list (gs.map Gate.seenControl)) values ot false false := by
  let seen : Ctl → Ctl := fun c => if isControlled c then c else none
  have hp : ∀ (op : NDArray ℂ) (t : List ℕ) (c : Ctl), prepareOperator op t (seen c) = prepareOperator op t c := by
    intro op t c
    rcases hi : isControlled c with _ | _
    · simp only [seen, hi, Bool.false_eq_true, if_false]
      rw [prepareOperator, prepareOperator, hi]; rfl
    · simp only [seen, hi, if_true]
  have h1 : ∀ (st op : NDArray ℂ) (t : List ℕ) (c : Ctl), applyOperator st op t (seen c) = applyOperator st op t c := by
    intro st op t c; rw [applyOperator, applyOperator, hp]
  have h2 : ∀ (st : DensityMatrix ℂ) (op : NDArray ℂ) (t : List ℕ) (c : Ctl),
      applyOperatorDM so st op t (seen c) = applyOperatorDM so st op t c := by
    intro st op t c; rw [applyOperatorDM, applyOperatorDM, hp]
  have hm : (gs.map Gate.seenControl).mapM (fun g => g.operator ot values) = gs.mapM fun g => g.operator ot values := by
    rw [List.mapM_map]
    exact congrArg (fun f => List.mapM f gs) (funext fun g => rfl)
  have hnoise : (gs.map Gate.seenControl).map Gate.noise = gs.map Gate.noise := by
    rw [List.map_map]; rfl
  have he : (gs.map Gate.seenControl).isEmpty = gs.isEmpty := by cases gs <;> rfl
  have hz : ∀ ops : List (NDArray ℂ),
      List.zipWith (fun (o : NDArray ℂ) (g : Gate) => (o, g.target, g.control)) ops (gs.map Gate.seenControl)
        = (List.zipWith (fun o (g : Gate) => (o, g.target, g.control)) ops gs).map fun o => (o.1, o.2.1, seen o.2.2) := by
    intro ops
    rw [List.zipWith_map_right, List.map_zipWith]; rfl
  have hr : ∀ (l : List (NDArray ℂ × List ℕ × Ctl)) (st : NDArray ℂ),
      reduceApply (l.map fun o => (o.1, o.2.1, seen o.2.2)) st = reduceApply l st := by
    intro l st
    rw [reduceApply, List.foldlM_map, reduceApply]
    simp only [h1]
  have hrn : ∀ (l : List (NDArray ℂ × List ℕ × Ctl)) (nz : List (Option (List NoiseInstance))) (st : DensityMatrix ℂ),
      reduceApplyNoise so (l.map fun o => (o.1, o.2.1, seen o.2.2)) nz st = reduceApplyNoise so l nz st := by
    intro l nz st
    rw [reduceApplyNoise, List.zip_map_left, List.foldlM_map, reduceApplyNoise]
    simp only [Prod.map_fst, Prod.map_snd, id, applyOperatorWithNoise, h2]
  simp only [applyGates, prepareSequenceReduce, Bool.false_eq_true, if_false, hm, hnoise, he, Bool.and_false, hz]
  rcases hops : gs.mapM (fun g => g.operator ot values) with e | ops
  · simp only [hops]; rfl
  · simp only [hops, bind, Except.bind]
    split_ifs with h0
    · rfl
    · simp only [hr, hrn]

/-- **C56** (merging): with a numpy control, merging gates changes what they do.  Merged, `X` on qubit 1 controlled by
`numpy.int64(0)` followed by `X` on qubit 1 controlled by `0` leave `|00⟩` alone; one by one they give `|01⟩`. -/
theorem C56_merge_false :
    ¬ ∀ (so : SetOrder) (n : ℕ) (st : NDArray ℂ) (t c : ℕ), IsKet n st → t < n → c < n → t ≠ c →
      applyGates so (.vec st) (.list [Gate.X (.int t) (.npInt c), Gate.X (.int t) (.int c)]) [] .unitary false true
        = applyGates so (.vec st) (.list [Gate.X (.int t) (.npInt c), Gate.X (.int t) (.int c)]) [] .unitary false false := by
  intro H
  let so : SetOrder := ⟨List.dedup, List.nodup_dedup, fun _ _ => List.mem_dedup⟩
  let st : NDArray ℂ := ⟨[2, 2], [1, 0, 0, 0]⟩
  have hst : IsKet 2 st := ⟨rfl, rfl⟩
  have h := H so 2 st 1 0 hst (by omega) (by omega) (by omega)
  have hX : ({ Gate.X (.int 1) with control := none } : Gate).Std 2 [] .X := ⟨.X _ _ _, rfl, ⟨.inl rfl, by decide⟩⟩
  have hC : (Gate.X (.int 1) (.int 0)).Std 2 [] .X := ⟨.X _ _ _, rfl, ⟨.inr (.inr ⟨[0], rfl⟩), by decide⟩⟩
  have e1 : applyGates so (.vec st) (.list [Gate.X (.int 1) (.npInt 0), Gate.X (.int 1) (.int 0)]) [] .unitary false true
      = applyGates so (.vec st) (.list [Gate.X (.int 1) (.int 0), Gate.X (.int 1) (.int 0)]) [] .unitary false true :=
    C56_merged_numpy_first so (.vec st) (Gate.X (.int 1)) (Gate.X (.int 1)) [0] [] .unitary rfl rfl rfl
  have e2 : applyGates so (.vec st) (.list [Gate.X (.int 1) (.npInt 0), Gate.X (.int 1) (.int 0)]) [] .unitary false false
      = applyGates so (.vec st) (.list [{ Gate.X (.int 1) with control := none }, Gate.X (.int 1) (.int 0)]) [] .unitary
          false false := C56_unmerged_ignored so (.vec st) _ [] .unitary
  rw [e1, e2] at h
  obtain ⟨r, h1, h2, h3⟩ := C01_apply_gates so (.cons hC (.cons hC .nil)) (by simp) (by simp [Gate.X, mkGate]) hst true
  obtain ⟨r', k1, k2, k3⟩ := C01_apply_gates so (.cons hX (.cons hC .nil)) (by simp) (by simp [Gate.X, mkGate]) hst false
  rw [h1, k1] at h
  simp only [Except.ok.injEq, State.vec.injEq] at h
  rw [h, k3] at h3
  have h00 := congrFun h3 (fun _ => 0)
  simp only [List.zipWith_cons_cons, List.zipWith_nil_right, List.reverse_cons, List.reverse_nil, List.nil_append,
    List.cons_append, List.prod_cons, List.prod_nil, mul_one, ← Matrix.mulVec_mulVec] at h00
  have l : ∀ b : Lab 2, stdMat 2 (Gate.X (.int 1) (.int 0)) .X (fun _ => 0) b = if b = (fun _ => 0) then 1 else 0 := by
    intro b
    simp [stdMat, gateMat, Gate.X, mkGate, parseControl, ctlInts, Lab.bit, eq_comm]
  have hl : ∀ v : Lab 2 → ℂ, (stdMat 2 (Gate.X (.int 1) (.int 0)) .X).mulVec v (fun _ => 0) = v (fun _ => 0) := by
    intro v
    simp [Matrix.mulVec, dotProduct, l]
  rw [hl, hl, hl] at h00
  have hk : ∀ b : Lab 2, ket 2 st b = if b = (fun _ => 0) then 1 else 0 := by
    intro b
    have : ∀ x y : Fin 2, ket 2 st ![x, y] = if ![x, y] = ((fun _ => 0) : Lab 2) then 1 else 0 := by
      intro x y
      fin_cases x <;> fin_cases y <;> simp [ket, st, NDArray.get, ravel, Lab.bits, funext_iff, Fin.forall_fin_two]
    have hb : b = ![b 0, b 1] := by ext i; fin_cases i <;> rfl
    rw [hb]; exact this _ _
  simp only [Matrix.mulVec, dotProduct, hk, mul_ite, mul_one, mul_zero, Finset.sum_ite_eq', Finset.mem_univ, if_true] at h00
  have r : stdMat 2 { Gate.X (.int 1) with control := none } .X (fun _ => 0) (fun _ => 0) = 0 := by
    simp [stdMat, gateMat, Gate.X, mkGate, parseTarget, ctlInts, Lab.bit, Lab.idx, binVal, StdGate.mat, matE, Lab.AgreeOff]
  rw [r] at h00
  exact zero_ne_one h00

example : (Gate.X (.int 1)).noise = none ∧ (Gate.X (.int 1)).target = (Gate.Y (.int 1)).target ∧
    Ctl.Same (Gate.X (.int 1) (.npInt 0)).control (Gate.Y (.int 1) (.int 0)).control ∧
    (Gate.X (.int 1) (.npInt 0)).control ≠ (Gate.Y (.int 1) (.int 0)).control := by decide

end Verif
