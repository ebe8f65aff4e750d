import Verif.Lemmas.SparseRun
import Verif.AbsOp

/-! # Sparse and dense calls of operation trees -/

set_option autoImplicit false

namespace Verif
open NDArray

namespace Arr

/-- A sparse array and the dense state with its content. -/
def TRel (a : Arr) (s : Option State) : Prop := ∃ r : Bcoo ℂ, r.WF ∧ a = .sparse r ∧ s = some (.vec r.todense)

theorem tRel_add (lay : Layout) {a a' : Arr} {s s' : Option State} (h : TRel a s) (h' : TRel a' s') :
    PyRel TRel (Arr.add lay a a') (Op.addStates s s') := by
  obtain ⟨r, hr, rfl, rfl⟩ := h
  obtain ⟨r', hr', rfl, rfl⟩ := h'
  simp only [Arr.add, Op.addStates]
  by_cases e : r.shape = r'.shape
  · obtain ⟨t, h1, h2, h3, _⟩ := Bcoo.add_dense lay e
    rw [h1, h2]
    exact .ok ⟨t, h3 hr hr', rfl, rfl⟩
  · rw [Bcoo.add, if_neg e, NDArray.add, if_neg (show ¬ r.todense.shape = r'.todense.shape from e)]
    exact .err _ _

theorem tRel_scale (x : ℝ) {a : Arr} {s : Option State} (h : TRel a s) :
    PyRel TRel (.ok (a.scale x)) (Op.scaleState x s) := by
  obtain ⟨r, hr, rfl, rfl⟩ := h
  exact .ok ⟨r.smul (x : ℂ), Bcoo.wf_mapData _ hr, rfl, by rw [Bcoo.todense_smul]⟩

/-- Contracting two vectors is their dot product. -/
theorem tensordot_vec {a b : NDArray ℂ} {m n : ℕ} (ha : a.WF) (hb : b.WF) (hsa : a.shape = [m]) (hsb : b.shape = [n]) :
    NDArray.tensordot a b [0] [0] = (NDArray.dot a b).map fun z => ⟨[], [z]⟩ := by
  obtain ⟨sa, da⟩ := a
  obtain ⟨sb, db⟩ := b
  simp only at hsa hsb
  subst hsa hsb
  simp only [NDArray.WF, List.prod_cons, List.prod_nil, mul_one] at ha hb
  simp only [NDArray.tensordot, NDArray.dot, ndim, List.length_cons, List.length_nil]
  by_cases h : m = n
  · subst h
    have h1 : freeAxes (0 + 1) [0] = [] := by decide
    rw [if_pos (by simp), if_pos (by simp)]
    simp only [h1, List.map_nil, List.append_nil, List.length_nil, List.take_zero, List.drop_zero, List.map_cons,
      List.getD_cons_zero, NDArray.ofFn, allIdx, List.map_cons, List.map_nil, Except.map]
    refine congrArg (fun z => Except.ok (⟨[], [z]⟩ : NDArray ℂ)) (congrArg List.sum ?_)
    refine List.ext_getElem (by simp [ha, hb]) fun i hi _ => ?_
    have hi' : i < m := by simpa using hi
    have e : ∀ l : List ℕ, (List.flatMap (fun i => [[i]]) l) = l.map fun i => [i] := fun l => by
      induction l with
      | nil => rfl
      | cons x l ih => simp [ih]
    simp only [List.map_cons, List.map_nil, e, List.map_map, List.getElem_map, Function.comp_def, List.getElem_range,
      List.getElem_zipWith]
    have e2 : assemble (0 + 1) [0] [i] [] = [i] := by simp [assemble]
    simp only [e2, NDArray.get, ravel, List.prod_nil, mul_one, add_zero]
    rw [List.getD_eq_getElem?_getD, List.getD_eq_getElem?_getD, List.getElem?_eq_getElem (by omega),
      List.getElem?_eq_getElem (by omega)]
    rfl
  · rw [if_neg (by simpa using h), if_neg (by simpa using h)]
    rfl

theorem inner_rel (lay : Layout) {r r' : Bcoo ℂ} :
    PyRel (fun t z => t.WF ∧ t.todense = ⟨[], [z]⟩) (r.inner lay r') (Verif.inner r.todense r'.todense) := by
  have ex : ∀ b : Bcoo ℂ, ∃ q, b.reshape [b.shape.prod] = .ok q := fun b => ⟨_, by rw [Bcoo.reshape, if_pos (by simp)]⟩
  obtain ⟨q, hr⟩ := ex r
  obtain ⟨q', hr'⟩ := ex r'
  have d := Bcoo.reshape_dense r (s := [r.shape.prod]) (by simp)
  have d' := Bcoo.reshape_dense r' (s := [r'.shape.prod]) (by simp)
  have w := Bcoo.wf_reshape hr
  have w' := Bcoo.wf_reshape hr'
  rw [Bcoo.inner, Verif.inner]
  rw [hr] at d ⊢
  rw [hr'] at d' ⊢
  have f : r.todense.flatten = q.todense := by
    have h := d
    rw [NDArray.reshape, if_pos (by simp [Bcoo.shape_todense])] at h
    injection h with h
    rw [h, NDArray.flatten, Bcoo.shape_todense]
  have f' : r'.todense.flatten = q'.todense := by
    have h := d'
    rw [NDArray.reshape, if_pos (by simp [Bcoo.shape_todense])] at h
    injection h with h
    rw [h, NDArray.flatten, Bcoo.shape_todense]
  rw [f, f']
  have c : q.todense.conj = (q.mapData star).todense :=
    (Bcoo.todense_mapData (starAddEquiv (R := ℂ)).toAddMonoidHom q).symm
  rw [c]
  have t := Bcoo.tensordot_dense lay (Bcoo.wf_mapData star w.1) w'.1 [0] [0]
  rw [tensordot_vec (Bcoo.wf_todense _) (Bcoo.wf_todense _) (show (q.mapData star).todense.shape = _ from w.2)
    (show q'.todense.shape = _ from w'.2)] at t
  simp only [except_bind]
  rcases h1 : Bcoo.tensordot lay (q.mapData star) q' [0] [0] with e | x
  · rw [h1] at t
    rcases h2 : NDArray.dot (q.mapData star).todense q'.todense with e' | z
    · exact .err _ _
    · rw [h2] at t; cases t
  · rw [h1] at t
    rcases h2 : NDArray.dot (q.mapData star).todense q'.todense with e' | z
    · rw [h2] at t; cases t
    · rw [h2] at t
      injection t with t
      exact .ok ⟨Bcoo.wf_tensordot lay h1, t⟩

theorem innerReal_rel (lay : Layout) {r : Bcoo ℂ} {a : Arr} {s : Option State} (h : TRel a s) :
    PyRel TRel (Arr.innerReal lay (.sparse r) a)
      (Op.innerReal r.todense s >>= fun x => pure (some (.vec ⟨[], [(x : ℂ)]⟩))) := by
  obtain ⟨r', hr', rfl, rfl⟩ := h
  simp only [Arr.innerReal, Op.innerReal, bind_assoc, pure_bind]
  refine PyRel.bind (inner_rel lay) fun t z htz => ?_
  refine .ok ⟨_, Bcoo.wf_mapData _ htz.1, rfl, ?_⟩
  let f : ℂ →+ ℂ := ⟨⟨fun z => (z.re : ℂ), by simp⟩, by simp⟩
  have : (t.mapData fun z => (z.re : ℂ)).todense = t.todense.mapArr f := Bcoo.todense_mapData f t
  rw [this, htz.2]
  rfl

end Arr

section tree
variable (lay : Layout) (so : SetOrder) (values : Values)

mutual
theorem callArr_rel : ∀ (o : Op), (∀ g ∈ o.gates, g.SparseOk) → ∀ (a : Arr) (s : Option State), Arr.TRel a s →
    PyRel Arr.TRel (o.callArr lay values a) ((o.mapGates Gate.asDense).call so values s)
  | .prim g, hg, a, s, h => by
    obtain ⟨r, hr, rfl, rfl⟩ := h
    simp only [Op.callArr, Op.mapGates, Op.call, except_bind]
    have := Arr.applyGates_rel lay so (ga := .single g) (ot := .unitary) (fun x hx => hg x (by simpa [GateArg.gates, Op.gates] using hx))
      (by simp) values false true hr
    rcases this with ⟨e, e', h, h'⟩ | ⟨x, y, h, h', t, ht, rfl, rfl⟩
    · rw [h]
      simp only [GateArg.asDense] at h'
      rw [h']
      exact .err _ _
    · rw [h]
      simp only [GateArg.asDense] at h'
      rw [h']
      exact .ok ⟨t, ht, rfl, rfl⟩
  | .comp .seq ops, hg, a, s, h => by
    simpa only [Op.callArr, Op.mapGates, Op.call] using callSeqArr_rel ops (by simpa only [Op.gates] using hg) a s h
  | .comp (.circ _ _) ops, hg, a, s, h => by
    simpa only [Op.callArr, Op.mapGates, Op.call] using callSeqArr_rel ops (by simpa only [Op.gates] using hg) a s h
  | .comp (.scale p) ops, hg, a, s, h => by
    simp only [Op.callArr, Op.mapGates, Op.call]
    refine PyRel.bind PyRel.same fun x y hxy => ?_
    subst hxy
    exact PyRel.bind (callSeqArr_rel ops (by simpa only [Op.gates] using hg) a s h) fun a s h => Arr.tRel_scale x h
  | .comp .add ops, hg, a, s, h => by
    simp only [Op.callArr, Op.mapGates, Op.call]
    exact PyRel.pyReduce (callListArr_rel ops (by simpa only [Op.gates] using hg) a s h) fun _ _ _ _ => Arr.tRel_add lay
  | .comp .obs ops, hg, a, s, h => by
    have hl := callListArr_rel ops (by simpa only [Op.gates] using hg) a s h
    obtain ⟨r, hr, rfl, rfl⟩ := h
    simp only [Op.callArr, Op.mapGates, Op.call]
    exact PyRel.bind (PyRel.pyReduce hl fun _ _ _ _ => Arr.tRel_add lay) fun a s h => Arr.innerReal_rel lay h
theorem callSeqArr_rel : ∀ (os : List Op), (∀ g ∈ Op.gatesList os, g.SparseOk) → ∀ (a : Arr) (s : Option State),
    Arr.TRel a s →
    PyRel Arr.TRel (Op.callSeqArr lay values os a) (Op.callSeq so values (Op.mapGatesList Gate.asDense os) s)
  | [], _, a, s, h => by simpa only [Op.callSeqArr, Op.mapGatesList, Op.callSeq] using .ok h
  | o :: os, hg, a, s, h => by
    simp only [Op.gatesList, List.mem_append] at hg
    simp only [Op.callSeqArr, Op.mapGatesList, Op.callSeq]
    exact PyRel.bind (callArr_rel o (fun g hx => hg g (.inl hx)) a s h) fun a s h =>
      callSeqArr_rel os (fun g hx => hg g (.inr hx)) a s h
theorem callListArr_rel : ∀ (os : List Op), (∀ g ∈ Op.gatesList os, g.SparseOk) → ∀ (a : Arr) (s : Option State),
    Arr.TRel a s → List.Forall₂ (PyRel Arr.TRel) (Op.callListArr lay values os a)
      (Op.callList so values (Op.mapGatesList Gate.asDense os) s)
  | [], _, _, _, _ => by simp only [Op.callListArr, Op.mapGatesList, Op.callList]; exact .nil
  | o :: os, hg, a, s, h => by
    simp only [Op.gatesList, List.mem_append] at hg
    simp only [Op.callListArr, Op.mapGatesList, Op.callList]
    exact .cons (callArr_rel o (fun g hx => hg g (.inl hx)) a s h)
      (callListArr_rel os (fun g hx => hg g (.inr hx)) a s h)
end

theorem opsToGates_map : ∀ os : List Op, opsToGates (Op.mapGatesList Gate.asDense os) = (opsToGates os).map (·.map Gate.asDense)
  | [] => rfl
  | .prim g :: os => by
    simp only [Op.mapGatesList, Op.mapGates, opsToGates, opsToGates_map os]
    cases opsToGates os <;> rfl
  | .comp k ops :: os => rfl

theorem mem_of_opsToGates : ∀ {os : List Op} {gs : List Gate}, opsToGates os = .ok gs → gs = Op.gatesList os
  | [], gs, h => by cases h; rfl
  | .prim g :: os, gs, h => by
    simp only [opsToGates] at h
    rcases e : opsToGates os with _ | gs'
    · rw [e] at h; cases h
    · rw [e] at h; cases h
      rw [Op.gatesList, Op.gates, mem_of_opsToGates e]; rfl
  | .comp k ops :: os, gs, h => by cases h

mutual
theorem flatten_mapGates (f : Gate → Gate) : ∀ o : Op, (o.mapGates f).flatten = Op.mapGatesList f o.flatten
  | .prim g => rfl
  | .comp k ops => by rw [Op.mapGates, Op.flatten, Op.flatten, flattenList_mapGates f ops]
theorem flattenList_mapGates (f : Gate → Gate) : ∀ os : List Op,
    Op.flattenList (Op.mapGatesList f os) = Op.mapGatesList f (Op.flattenList os)
  | [] => rfl
  | o :: os => by
    have app : ∀ l m : List Op, Op.mapGatesList f (l ++ m) = Op.mapGatesList f l ++ Op.mapGatesList f m := fun l m => by
      induction l with
      | nil => rfl
      | cons x l ih => rw [List.cons_append, Op.mapGatesList, ih]; rfl
    rw [Op.mapGatesList, Op.flattenList, Op.flattenList, app, flatten_mapGates f o, flattenList_mapGates f os]
end

theorem iter_mapGates (f : Gate → Gate) (o : Op) : (o.mapGates f).iter = Op.mapGatesList f o.iter := by
  cases o with
  | prim g => rfl
  | comp k ops => cases k <;> first | exact flattenList_mapGates f ops | rfl

theorem gatesList_append (l m : List Op) : Op.gatesList (l ++ m) = Op.gatesList l ++ Op.gatesList m := by
  induction l with
  | nil => rfl
  | cons x l ih => rw [List.cons_append, Op.gatesList, ih, Op.gatesList, List.append_assoc]

mutual
theorem gates_flatten : ∀ o : Op, Op.gatesList o.flatten = o.gates
  | .prim g => by simp [Op.flatten, Op.gatesList, Op.gates]
  | .comp k ops => by rw [Op.flatten, Op.gates, gates_flattenList ops]
theorem gates_flattenList : ∀ os : List Op, Op.gatesList (Op.flattenList os) = Op.gatesList os
  | [] => rfl
  | o :: os => by rw [Op.flattenList, gatesList_append, gates_flatten o, gates_flattenList os, Op.gatesList]
end

theorem gates_iter (o : Op) : Op.gatesList o.iter = o.gates := by
  cases o with
  | prim g => simp [Op.iter, Op.gatesList, Op.gates]
  | comp k ops =>
    cases k <;> first
    | exact gates_flattenList ops
    | simp [Op.iter, Op.gatesList, Op.gates]

theorem applyOpsArr_rel {os : List Op} (hg : ∀ g ∈ Op.gatesList os, g.SparseOk) {b : Bcoo ℂ} (hb : b.WF) :
    PyRel (fun a s => ∃ r : Bcoo ℂ, r.WF ∧ a = .sparse r ∧ s = .vec r.todense) (applyOpsArr lay (.sparse b) os values)
      (applyOps so (.vec b.todense) (Op.mapGatesList Gate.asDense os) values) := by
  rw [applyOpsArr, applyOps, opsToGates_map]
  rcases e : opsToGates os with e' | gs
  · exact .err _ _
  · simp only [Except.map, except_bind]
    refine Arr.applyGates_rel lay so (ga := .list gs) (fun g h => hg g ?_) (by simp) values false true hb
    rw [← mem_of_opsToGates e]; exact h

theorem expect_rel {o : Observable} (hg : ∀ g ∈ Op.gatesList o.ops, g.SparseOk) {b : Bcoo ℂ} (hb : b.WF) :
    PyRel (fun a x => ∃ r : Bcoo ℂ, a = .sparse r ∧ r.todense = ⟨[], [((x : ℝ) : ℂ)]⟩) (o.toOp.callArr lay values (.sparse b))
      (expectSingle so values ⟨Op.mapGatesList Gate.asDense o.ops⟩ (.vec b.todense)) := by
  have := callArr_rel lay so values o.toOp hg (.sparse b) (some (.vec b.todense)) ⟨b, hb, rfl, rfl⟩
  simp only [Observable.toOp, Op.mapGates, Op.call] at this
  simp only [expectSingle, Observable.forward, Observable.toOp]
  rcases e : pyReduce Op.addStates (Op.callList so values (Op.mapGatesList Gate.asDense o.ops) (some (.vec b.todense))) with e' | s
  · rw [e] at this
    rcases this with ⟨e1, _, h, _⟩ | ⟨a, s, h, h', _⟩
    · rw [h]; exact .err _ _
    · cases h'
  · rw [e] at this
    simp only [except_bind] at this ⊢
    rcases e2 : Op.innerReal b.todense s with e' | x
    · rw [e2] at this
      rcases this with ⟨e1, _, h, _⟩ | ⟨a, s, h, h', _⟩
      · rw [h]; exact .err _ _
      · cases h'
    · rw [e2] at this
      rcases this with ⟨e1, _, _, h⟩ | ⟨a, s', h, h', r, _, rfl, h3⟩
      · cases h
      · rw [h]
        cases h'
        injection h3 with h3
        injection h3 with h3
        exact .ok ⟨r, rfl, h3.symm⟩

end tree
end Verif
