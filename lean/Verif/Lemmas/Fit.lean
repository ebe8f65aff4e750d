import Verif.Lemmas.RunTree
import Verif.Lemmas.Misc
import Verif.Lemmas.Subst
import Verif.Lemmas.Grouping

/-! # Gates that do not fit the register of a state vector -/

set_option autoImplicit false

namespace Verif
open NDArray
variable {n : ℕ} {ot : OpType} {values : Values}

/-- A triple `(operator, target, control)` whose operator is a square matrix on some number of qubits. -/
def SizedOp (o : NDArray ℂ × List ℕ × Ctl) : Prop := (∃ k, IsOp k o.1) ∧ WfCtl o.2.2

theorem wfOp_of_apply {o : NDArray ℂ × List ℕ × Ctl} (ho : SizedOp o) {st r : NDArray ℂ} (hst : IsKet n st)
    (h : applyOperator st o.1 o.2.1 o.2.2 = .ok r) : WfOp n o := by
  obtain ⟨⟨k, hk⟩, hc⟩ := ho
  by_contra hcon
  rw [applyOperator_ctl st o.1 o.2.1 hc] at h
  obtain ⟨e, he⟩ := applyOperator_error (ts := o.2.1) (cs := ctlInts o.2.2) hk hst (by
    rintro ⟨rfl, hv⟩
    exact hcon ⟨hk, hc, hv⟩)
  rw [he] at h; cases h

theorem wfOp_of_reduce {ops : List (NDArray ℂ × List ℕ × Ctl)} (ho : ∀ o ∈ ops, SizedOp o) {st r : NDArray ℂ}
    (hst : IsKet n st) (h : reduceApply ops st = .ok r) : ∀ o ∈ ops, WfOp n o := by
  induction ops generalizing st with
  | nil => simp
  | cons o os ih =>
    rw [reduceApply, List.foldlM_cons] at h
    rcases e : applyOperator st o.1 o.2.1 o.2.2 with e' | q
    · rw [e] at h; cases h
    · have hw := wfOp_of_apply (ho o (by simp)) hst e
      obtain ⟨q', k1, k2, -⟩ := applyOperator_opMat hst hw
      rw [e] at k1; cases k1
      rw [e] at h
      intro o' ho'
      rcases List.mem_cons.1 ho' with rfl | ho'
      · exact hw
      · exact ih (fun x hx => ho x (by simp [hx])) k2 h o' ho'

theorem matmul_same {k k' : ℕ} {a b r : NDArray ℂ} (ha : IsOp k a) (hb : IsOp k' b) (h : NDArray.matmul a b = .ok r) :
    k = k' := by
  rw [NDArray.matmul, ha.shape, hb.shape] at h
  by_contra hne
  simp only at h
  rw [if_neg fun e => hne (Nat.pow_right_injective le_rfl e)] at h
  cases h

theorem mergeLoop_sized (rest : List (NDArray ℂ × List ℕ × Ctl)) (m : NDArray ℂ × List ℕ × Ctl)
    (acc res : List (NDArray ℂ × List ℕ × Ctl)) (hr : ∀ o ∈ rest, SizedOp o) (hm : SizedOp m)
    (ha : ∀ o ∈ acc, SizedOp o) (h : mergeLoop NDArray.matmul rest m acc = .ok res) :
    (∀ o ∈ res, SizedOp o) ∧ ((∀ o ∈ res, WfOp n o) → ∀ o, o ∈ rest ∨ o = m ∨ o ∈ acc → WfOp n o) := by
  induction rest generalizing m acc with
  | nil =>
    cases h
    refine ⟨fun o ho => ?_, fun hw o ho => hw o ?_⟩
    · rcases List.mem_append.1 ho with h | h
      · exact ha o h
      · rw [List.mem_singleton.1 h]; exact hm
    · rcases ho with h | rfl | h
      · cases h
      · simp
      · simp [h]
  | cons o rest ih =>
    obtain ⟨o, t, c⟩ := o
    obtain ⟨mo, mt, mc⟩ := m
    have ho : SizedOp (o, t, c) := hr _ (by simp)
    have hr' : ∀ o ∈ rest, SizedOp o := fun o h => hr o (by simp [h])
    by_cases hc : t = mt ∧ Ctl.Same c mc
    · obtain ⟨rfl, hc⟩ := hc
      obtain rfl := (Ctl.same_iff ho.2 hm.2).1 hc
      simp only [mergeLoop, Ctl.same_refl, and_self, if_true] at h
      rcases e : NDArray.matmul mo o with e' | q
      · rw [e] at h; cases h
      · rw [e] at h
        obtain ⟨k, hk⟩ := hm.1
        obtain ⟨k', hk'⟩ := ho.1
        obtain rfl := matmul_same hk hk' e
        obtain ⟨q', e1, e2, -⟩ := matmul_isOp hk hk'
        rw [e] at e1; cases e1
        obtain ⟨i1, i2⟩ := ih (q, t, c) acc hr' ⟨⟨k, e2⟩, hm.2⟩ ha h
        refine ⟨i1, fun hw x hx => ?_⟩
        have hq := i2 hw (q, t, c) (.inr (.inl rfl))
        have hkt : k = t.length := by
          have h1 := e2.shape
          rw [hq.op.shape] at h1
          exact (Nat.pow_right_injective le_rfl (List.cons.inj h1).1).symm
        subst hkt
        rcases hx with hx | rfl | hx
        · rcases List.mem_cons.1 hx with rfl | hx
          · exact ⟨hk', hq.ctl, hq.dims⟩
          · exact i2 hw x (.inl hx)
        · exact ⟨hk, hq.ctl, hq.dims⟩
        · exact i2 hw x (.inr (.inr hx))
    · simp only [mergeLoop, hc, if_false] at h
      obtain ⟨i1, i2⟩ := ih (o, t, c) (acc ++ [(mo, mt, mc)]) hr' ho (by
        intro o h
        rcases List.mem_append.1 h with h | h
        · exact ha o h
        · rw [List.mem_singleton.1 h]; exact hm) h
      refine ⟨i1, fun hw x hx => i2 hw x ?_⟩
      rcases hx with hx | rfl | hx
      · rcases List.mem_cons.1 hx with rfl | hx
        · exact .inr (.inl rfl)
        · exact .inl hx
      · exact .inr (.inr (by simp))
      · exact .inr (.inr (by simp [hx]))

theorem mergeOperators_sized {ops res : List (NDArray ℂ × List ℕ × Ctl)} (ho : ∀ o ∈ ops, SizedOp o)
    (h : mergeOperators NDArray.matmul ops = .ok res) :
    (∀ o ∈ res, SizedOp o) ∧ ((∀ o ∈ res, WfOp n o) → ∀ o ∈ ops, WfOp n o) := by
  by_cases hl : ops.length < 2
  · rw [mergeOperators, if_pos hl] at h
    cases h
    exact ⟨ho, fun h => h⟩
  · rcases hrev : ops.reverse with _ | ⟨m, rest⟩
    · simp at hrev; subst hrev; simp at hl
    · simp only [mergeOperators, hl, if_false, hrev] at h
      have hmem : ∀ o, o ∈ m :: rest ↔ o ∈ ops := fun o => by rw [← hrev, List.mem_reverse]
      rcases e : mergeLoop NDArray.matmul rest m [] with e' | q
      · rw [e] at h; cases h
      · rw [e] at h
        cases h
        obtain ⟨i1, i2⟩ := mergeLoop_sized (n := n) rest m [] q (fun o h => ho o ((hmem o).1 (by simp [h])))
          (ho m ((hmem m).1 (by simp))) (by simp) e
        refine ⟨fun o h => i1 o (List.mem_reverse.1 h), fun hw o h => i2 (fun o h => hw o (List.mem_reverse.2 h)) o ?_⟩
        rcases List.mem_cons.1 ((hmem o).2 h) with rfl | h
        · exact .inr (.inl rfl)
        · exact .inl h

/-- The gate evaluates to a square matrix on some number of qubits and its control is written in a documented form. -/
def Gate.Sized (ot : OpType) (values : Values) (g : Gate) : Prop :=
  (∃ k U, g.operator ot values = .ok U ∧ IsOp k U) ∧ WfCtl g.control

theorem triples_sized {gs : List Gate} (h : ∀ g ∈ gs, g.Sized ot values) :
    ∃ ops, gs.mapM (fun g => g.operator ot values) = .ok ops ∧
      (∀ o ∈ List.zipWith (fun o (g : Gate) => (o, g.target, g.control)) ops gs, SizedOp o) ∧
      ((∀ o ∈ List.zipWith (fun o (g : Gate) => (o, g.target, g.control)) ops gs, WfOp n o) →
        ∀ g ∈ gs, g.Ok n ot values) := by
  induction gs with
  | nil => exact ⟨[], rfl, by simp, by simp⟩
  | cons g gs ih =>
    obtain ⟨⟨k, U, hU, hop⟩, hc⟩ := h g (by simp)
    obtain ⟨ops, h1, h2, h3⟩ := ih fun g' hg' => h g' (by simp [hg'])
    refine ⟨U :: ops, ?_, ?_, fun hw => ?_⟩
    · rw [List.mapM_cons, hU, h1]; rfl
    · intro o ho
      rw [List.zipWith_cons_cons, List.mem_cons] at ho
      rcases ho with rfl | ho
      · exact ⟨⟨k, hop⟩, hc⟩
      · exact h2 o ho
    · simp only [List.zipWith_cons_cons, List.mem_cons, forall_eq_or_imp] at hw
      intro g' hg'
      rcases List.mem_cons.1 hg' with rfl | hg'
      · exact ⟨⟨U, hU, hw.1.op⟩, hw.1.ctl, hw.1.dims⟩
      · exact h3 hw.2 g' hg'

/-- If `apply_gates` returns a state for a list of noiseless gates, every gate fits the register. -/
theorem ok_of_applyGates (so : SetOrder) {gs : List Gate} (h : ∀ g ∈ gs, g.Sized ot values)
    (hnz : ∀ g ∈ gs, g.noise = none) {st : NDArray ℂ} (hst : IsKet n st) {group merge : Bool} {r : State}
    (hr : applyGates so (.vec st) (.list gs) values ot group merge = .ok r) : ∀ g ∈ gs, g.Ok n ot values := by
  obtain ⟨gs', hgs', hmem⟩ : ∃ gs', (if group then groupByIndex gs else gs) = gs' ∧ ∀ g, g ∈ gs' ↔ g ∈ gs := by
    refine ⟨_, rfl, fun g => ?_⟩
    cases group
    · simp
    · simpa using (groupByIndex_perm gs).mem_iff
  suffices ∀ g ∈ gs', g.Ok n ot values from fun g hg => this g ((hmem g).2 hg)
  obtain ⟨ops, h1, h2, h3⟩ := triples_sized (n := n) (gs := gs') fun g hg => h g ((hmem g).1 hg)
  have hz := allNoiseless_map (gs := gs') fun g hg => hnz g ((hmem g).1 hg)
  simp only [applyGates, prepareSequenceReduce, hgs', h1] at hr
  simp only [bind, Except.bind, hz, Bool.true_and, Bool.not_true, Bool.false_eq_true, if_false] at hr
  by_cases hemp : gs'.isEmpty = true
  · simp only [hemp, if_true] at hr; cases hr
  · simp only [hemp, if_false] at hr
    refine h3 ?_
    cases merge
    · simp only [Bool.false_eq_true, if_false, hz, Bool.not_true] at hr
      rcases e : reduceApply (List.zipWith (fun o (g : Gate) => (o, g.target, g.control)) ops gs') st with e' | q
      · simp only [e] at hr; cases hr
      · exact wfOp_of_reduce h2 hst e
    · simp only [if_true] at hr
      rcases e : mergeOperators NDArray.matmul
          (List.zipWith (fun o (g : Gate) => (o, g.target, g.control)) ops gs') with e' | res
      · simp only [e] at hr; cases hr
      · obtain ⟨i1, i2⟩ := mergeOperators_sized (n := n) h2 e
        simp only [e, Bool.false_eq_true, if_false, hz, Bool.not_true] at hr
        rcases e2 : reduceApply res st with e' | q
        · simp only [e2] at hr; cases hr
        · exact i2 (wfOp_of_reduce i1 hst e2)

/-- The same for a circuit that is called gate by gate. -/
theorem ok_of_callSeq (so : SetOrder) {gs : List Gate} (h : ∀ g ∈ gs, g.Sized .unitary values)
    (hnz : ∀ g ∈ gs, g.noise = none) {st : NDArray ℂ} (hst : IsKet n st) {r : Option State}
    (hr : Op.callSeq so values (gs.map .prim) (some (.vec st)) = .ok r) : ∀ g ∈ gs, g.Ok n .unitary values := by
  induction gs generalizing st with
  | nil => simp
  | cons g gs ih =>
    simp only [List.map_cons, Op.callSeq, Op.call, bind, Except.bind] at hr
    rw [applyGates_singleton so _ g values .unitary false true false true] at hr
    rcases e : applyGates so (.vec st) (.list [g]) values .unitary false true with e' | q
    · rw [e] at hr; cases hr
    · have hg := ok_of_applyGates so (gs := [g]) (by simpa using h g (by simp)) (by simpa using hnz g (by simp)) hst e
      obtain ⟨q', k1, k2, -⟩ := applyGates_vec so (gs := [g]) (by simp) hg (by simpa using hnz g (by simp)) hst true
      rw [e] at k1; cases k1
      rw [e] at hr
      have := ih (fun x hx => h x (by simp [hx])) (fun x hx => hnz x (by simp [hx])) k2 hr
      intro x hx
      rcases List.mem_cons.1 hx with rfl | hx
      · exact hg x (by simp)
      · exact this x hx

end Verif
