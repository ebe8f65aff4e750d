import Verif.Model.JitCache
import Verif.Props.Pytree
import Verif.Props.Equality

/-! # C99, C100: compiled functions and the objects they are called with -/

set_option autoImplicit false

namespace Verif
open NDArray Pytree
open scoped Classical

/-- The comparison ends without an error, and says whether `P` holds. -/
def Says (r : Py Bool) (P : Prop) : Prop := ∃ b : Bool, r = .ok b ∧ (b = true ↔ P)

theorem Says.congr {r : Py Bool} {P Q : Prop} (h : Says r P) (e : P ↔ Q) : Says r Q := by
  obtain ⟨b, h1, h2⟩ := h
  exact ⟨b, h1, h2.trans e⟩

theorem says_decide (P : Prop) [Decidable P] : Says (.ok (decide P)) P := ⟨_, rfl, by simp⟩

theorem says_false {P : Prop} (h : ¬ P) : Says (.ok false) P := ⟨_, rfl, by simp [h]⟩

theorem says_true {P : Prop} (h : P) : Says (.ok true) P := ⟨_, rfl, by simp [h]⟩

theorem Says.and {r r' : Py Bool} {P Q : Prop} (h : Says r P) (h' : Says r' Q) :
    Says (do if ← r then r' else .ok false) (P ∧ Q) := by
  obtain ⟨b, rfl, h1⟩ := h
  obtain ⟨b', rfl, h2⟩ := h'
  cases b
  · exact ⟨false, rfl, by simp_all⟩
  · exact ⟨b', rfl, by simp_all⟩

theorem Says.eq_true {r : Py Bool} {P : Prop} (h : Says r P) (hP : P) : r = .ok true := by
  obtain ⟨b, rfl, h1⟩ := h
  rw [h1.2 hP]

theorem Says.eq_false {r : Py Bool} {P : Prop} (h : Says r P) (hP : ¬ P) : r = .ok false := by
  obtain ⟨b, rfl, h1⟩ := h
  cases b
  · rfl
  · exact absurd (h1.1 rfl) hP

/-! ## Comparison of the attributes of gates -/

namespace Obj

theorem cmpList_cons {x y : Obj} {xs ys : List Obj} {P Q : Prop} (h : Says (cmp x y) P) (hs : Says (cmpList xs ys) Q) :
    Says (cmpList (x :: xs) (y :: ys)) (P ∧ Q) := by
  simp only [cmpList]
  exact h.and hs

theorem cmpList_nil : Says (cmpList [] []) True := ⟨true, by simp [cmpList], by simp⟩

theorem cmpList_map {α : Type} {f : α → Obj} {R : α → α → Prop} {l l' : List α} (h : ∀ a ∈ l, ∀ b, Says (cmp (f a) (f b)) (R a b)) :
    Says (cmpList (l.map f) (l'.map f)) (List.Forall₂ R l l') := by
  induction l generalizing l' with
  | nil =>
    cases l' with
    | nil => exact cmpList_nil.congr (by simp)
    | cons b l' => exact ⟨false, by simp [cmpList], by simp⟩
  | cons a l ih =>
    cases l' with
    | nil => exact ⟨false, by simp [cmpList], by simp⟩
    | cons b l' =>
      exact (cmpList_cons (h a (by simp) b) (ih fun a ha => h a (List.mem_cons_of_mem _ ha))).congr (by simp)

theorem cmpList_map_eq {α : Type} {f : α → Obj} {l l' : List α} (h : ∀ a ∈ l, ∀ b, Says (cmp (f a) (f b)) (a = b)) :
    Says (cmpList (l.map f) (l'.map f)) (l = l') :=
  (cmpList_map h).congr (by rw [List.forall₂_eq_eq_eq])

theorem cmp_cidx (c d : CIdx) : Says (cmp c.toObj d.toObj) (c.plain = d.plain) := by
  cases c <;> cases d <;> simp [CIdx.toObj, cmp, number, CIdx.plain, Says]

theorem cmp_ctl (c d : Ctl) : Says (cmp (Ctl.toObj c) (Ctl.toObj d)) (Ctl.Same c d) := by
  rcases c with _ | l <;> rcases d with _ | l'
  · simp [Ctl.toObj, cmp, Ctl.Same, Says]
  · simp [Ctl.toObj, cmp, Ctl.Same, Says]
  · simp [Ctl.toObj, cmp, Ctl.Same, Says]
  · simp only [Ctl.toObj, cmp, Ctl.Same, Option.map_some, Option.some.injEq]
    refine (cmpList_map fun a _ b => cmp_cidx a b).congr ?_
    rw [← List.forall₂_eq_eq_eq, List.forall₂_map_left_iff, List.forall₂_map_right_iff]

theorem cmp_targets (ts ts' : List ℕ) : Says (cmp (.tuple (ts.map .int)) (.tuple (ts'.map .int))) (ts = ts') := by
  simp only [cmp]
  exact cmpList_map_eq fun a _ b => by simp [cmp, number, Says]

theorem cmp_prob (p q : ErrProb) : Says (cmp p.toObj q.toObj) (p = q) := by
  cases p <;> cases q
  · simp [ErrProb.toObj, cmp, number, Says]
  · simp [ErrProb.toObj, cmp, number, Says]
  · simp [ErrProb.toObj, cmp, Says]
  · simp only [ErrProb.toObj, cmp, ErrProb.tuple.injEq]
    exact cmpList_map_eq fun a _ b => by simp [cmp, number, Says]

theorem cmp_noise_instance (z w : NoiseInstance) : Says (cmp z.toObj w.toObj) (z = w) := by
  obtain ⟨t, p⟩ := z
  obtain ⟨t', p'⟩ := w
  have ht : Says (cmp (.noiseType t) (.noiseType t')) (t = t') := by simp [cmp, Says]
  have := cmpList_cons ht (cmpList_cons (cmp_prob p p') cmpList_nil)
  simp only [NoiseInstance.toObj, cmp, PyClass.comparesFirst, if_true, Bool.false_eq_true, if_false, NoiseInstance.mk.injEq]
  exact this.congr (by tauto)

theorem cmp_noise (z w : Option (List NoiseInstance)) : Says (cmp (noiseObj z) (noiseObj w)) (z = w) := by
  rcases z with _ | l <;> rcases w with _ | l'
  · simp [noiseObj, cmp, Says]
  · simp [noiseObj, cmp, Says]
  · simp [noiseObj, cmp, Says]
  · simp only [noiseObj, cmp, Option.some.injEq]
    exact cmpList_map_eq fun a _ b => cmp_noise_instance a b

theorem cmp_param (p q : Param) : Says (cmp p.toObj q.toObj) (p = q) := by
  cases p <;> cases q <;> simp [Param.toObj, cmp, number, Says]

theorem cmp_bool (b b' : Bool) : Says (cmp (.bool b) (.bool b')) (b = b') := by
  cases b <;> cases b' <;> simp [cmp, number, Says]

theorem cmp_num (x y : ℝ) : Says (cmp (.num x) (.num y)) (x = y) := by simp [cmp, number, Says]

theorem cmp_str (s s' : String) : Says (cmp (.str s) (.str s')) (s = s') := by simp [cmp, Says]

theorem cmp_single {x y : Obj} {P : Prop} (h : Says (cmp x y) P) : Says (cmp (.tuple [x]) (.tuple [y])) P := by
  simp only [cmp]
  exact (cmpList_cons h cmpList_nil).congr (by simp)

theorem cmp_base (g h : Gate) {xs ys : List Obj} {Q : Prop} (hs : Says (cmpList xs ys) Q) :
    Says (cmpList (g.baseFields ++ xs) (h.baseFields ++ ys)) (g.generatorName = h.generatorName ∧ g.target = h.target ∧
      Ctl.Same g.control h.control ∧ g.noise = h.noise ∧ g.sparse = h.sparse ∧ Q) :=
  cmpList_cons (cmp_str _ _) (cmpList_cons (cmp_single (cmp_targets _ _)) (cmpList_cons (cmp_single (cmp_ctl _ _))
    (cmpList_cons (cmp_noise _ _) (cmpList_cons (cmp_bool _ _) hs))))

theorem cmp_two (p q : Param) (s s' : ℝ) : Says (cmpList [p.toObj, .num s] [q.toObj, .num s']) (p = q ∧ s = s') :=
  (cmpList_cons (cmp_param p q) (cmpList_cons (cmp_num s s') cmpList_nil)).congr (by simp)

/-- `==` of the objects of gates is `Gate.PyEq`. -/
theorem cmp_gate (g h : Gate) : Says (cmp g.toObj h.toObj) (g.PyEq h) := by
  obtain ⟨cls, nm, ts, c, nz, sp⟩ := g
  obtain ⟨cls', nm', ts', c', nz', sp'⟩ := h
  cases cls <;> cases cls' <;>
    simp only [Gate.toObj, cmp, reduceCtorEq, if_false, if_true, PyClass.comparesFirst, Bool.false_eq_true] <;>
    first
    | exact says_false (by simp [Gate.PyEq])
    | skip
  · have := cmp_base ⟨.primitive, nm, ts, c, nz, sp⟩ ⟨.primitive, nm', ts', c', nz', sp'⟩ cmpList_nil
    simp only [List.append_nil] at this
    exact this.congr (by simp only [Gate.PyEq]; tauto)
  · exact (cmp_base _ _ (cmp_two _ _ _ _)).congr (by simp only [Gate.PyEq, GateClass.parametric.injEq]; tauto)
  · exact (cmp_base _ _ (cmp_two _ _ _ _)).congr (by simp only [Gate.PyEq, GateClass.phase.injEq]; tauto)
  · exact (cmp_base _ _ (cmpList_cons (cmp_num _ _) cmpList_nil)).congr
      (by simp only [Gate.PyEq, GateClass.hamEvo.injEq]; tauto)

theorem length_toObjs (os : List Op) : (Op.toObjs os).length = os.length := by
  induction os with
  | nil => rfl
  | cons o os ih => simp [Op.toObjs, ih]

theorem _root_.Verif.Op.PyEqs.length : ∀ {os os' : List Op}, Op.PyEqs os os' → os.length = os'.length
  | [], [], _ => rfl
  | o :: os, o' :: os', h => by simp [Op.PyEqs.length h.2]
  | [], _ :: _, h => by simp [Op.PyEqs] at h
  | _ :: _, [], h => by simp [Op.PyEqs] at h

theorem gate_cls (g : Gate) (k : CompKind) : ∃ c fs, g.toObj = .inst c fs ∧ c ≠ k.cls := by
  obtain ⟨cls, nm, ts, ct, nz, sp⟩ := g
  cases cls <;> cases k <;> exact ⟨_, _, rfl, by simp [CompKind.cls]⟩

mutual
/-- `==` of the objects of operations is `Op.PyEq`. -/
theorem cmp_op : ∀ o o' : Op, Says (cmp o.toObj o'.toObj) (o.PyEq o')
  | .prim g, .prim h => by simpa only [Op.toObj, Op.PyEq] using cmp_gate g h
  | .prim g, .comp k ops => by
    obtain ⟨c, fs, h, hne⟩ := gate_cls g k
    simp only [Op.toObj, h, cmp, if_neg hne]
    exact says_false (by simp [Op.PyEq])
  | .comp k ops, .prim g => by
    obtain ⟨c, fs, h, hne⟩ := gate_cls g k
    simp only [Op.toObj, h, cmp, if_neg (Ne.symm hne)]
    exact says_false (by simp [Op.PyEq])
  | .comp k ops, .comp k' ops' => by
    have hl := cmp_ops ops ops'
    have hk : k.cls = k'.cls ↔ k.SameClass k' := by cases k <;> cases k' <;> simp [CompKind.cls, CompKind.SameClass]
    have hc : k.cls.comparesFirst = true := by cases k <;> rfl
    simp only [Op.toObj, cmp, hc, if_true, cmpFirst, Op.PyEq, hk, length_toObjs]
    by_cases h1 : k.SameClass k'
    · by_cases h2 : ops.length = ops'.length
      · simp only [h1, h2, if_true, true_and]
        exact hl
      · simp only [h1, h2, if_true, if_false, true_and]
        exact says_false fun h => h2 h.length
    · simp only [h1, if_false, false_and]
      exact says_false (by simp)
theorem cmp_ops : ∀ os os' : List Op, Says (cmpList (Op.toObjs os) (Op.toObjs os')) (Op.PyEqs os os')
  | [], [] => ⟨true, by simp [Op.toObjs, cmpList], by simp [Op.PyEqs]⟩
  | [], _ :: _ => ⟨false, by simp [Op.toObjs, cmpList], by simp [Op.PyEqs]⟩
  | _ :: _, [] => ⟨false, by simp [Op.toObjs, cmpList], by simp [Op.PyEqs]⟩
  | o :: os, o' :: os' => by
    simp only [Op.toObjs, Op.PyEqs]
    exact cmpList_cons (cmp_op o o') (cmp_ops os os')
end

end Obj

/-! ## Structures of operations -/

/-- The auxiliary data common to all gates. -/
def Gate.baseAux (g : Gate) : List Obj :=
  [.str g.generatorName, .tuple (g.target.map .int), Ctl.toObj g.control, noiseObj g.noise, .bool g.sparse]

/-- The structure of a gate. -/
def gateDef (g : Gate) : TreeDef :=
  match g.cls with
  | .primitive => .node .primitive g.baseAux []
  | .parametric p s => .node .parametric (g.baseAux ++ [p.toObj, .num s]) []
  | .phase _ _ => .leaf
  | .hamEvo _ => .node .hamEvo g.baseAux []

/-- The auxiliary data of a composite object other than a circuit. -/
def CompKind.aux : CompKind → List Obj
  | .scale p => [p.toObj]
  | _ => []

mutual
/-- The structure of an operation. -/
def opDef : Op → TreeDef
  | .prim g => gateDef g
  | .comp (.circ _ fs) ops => .node .quantumCircuit [.list (Op.toObjs ops), .list (fs.map .str)] [.leaf]
  | .comp k ops => .node k.cls k.aux [.list (opDefs ops)]
/-- The structures of a list of operations. -/
def opDefs : List Op → List TreeDef
  | [] => []
  | o :: os => opDef o :: opDefs os
end

mutual
/-- The leaves of an operation. -/
def opLeaves : Op → List Obj
  | .prim g => gateLeaves g
  | .comp (.circ n _) _ => [.int n]
  | .comp _ ops => opLeavesList ops
/-- The leaves of a list of operations. -/
def opLeavesList : List Op → List Obj
  | [] => []
  | o :: os => opLeaves o ++ opLeavesList os
end

mutual
theorem flatten_op (o : Op) (d : ℕ) (hd : o.toObj.depth ≤ d) : flattenTo d o.toObj = .ok (opLeaves o, opDef o) := by
  obtain ⟨d, rfl⟩ : ∃ e, d = e + 1 := ⟨d - 1, by have := depth_pos o.toObj; omega⟩
  cases o with
  | prim g =>
    obtain ⟨cls, nm, ts, c, nz, sp⟩ := g
    cases cls <;> rfl
  | comp k ops =>
    cases k with
    | circ n fs =>
      obtain ⟨d, rfl⟩ : ∃ e, d = e + 1 := ⟨d - 1, by
        simp only [Op.toObj, Obj.depth, Obj.depthList] at hd; omega⟩
      simp only [Op.toObj]; rfl
    | _ =>
      simp only [Op.toObj, Obj.depth, Obj.depthList] at hd
      obtain ⟨d, rfl⟩ : ∃ e, d = e + 1 := ⟨d - 1, by omega⟩
      obtain ⟨r, h1, h2, h3⟩ := flatten_ops ops d (by omega)
      simp only [Op.toObj, flattenTo, CompKind.cls, Obj.registered, Obj.treeFlatten, CompKind.fields, bind, Except.bind,
        List.mapM_cons, List.mapM_nil, ne_eq, reduceCtorEq, not_false_eq_true, decide_true, if_true, h1]
      simp only [pure, Except.pure, List.flatMap_cons, List.flatMap_nil, List.append_nil, List.map_cons, List.map_nil,
        h2, h3, opLeaves, opDef, CompKind.cls, CompKind.aux]
theorem flatten_ops (os : List Op) (d : ℕ) (hd : Obj.depthList (Op.toObjs os) ≤ d) :
    ∃ r, (Op.toObjs os).mapM (flattenTo d) = .ok r ∧ r.flatMap Prod.fst = opLeavesList os ∧ r.map Prod.snd = opDefs os := by
  cases os with
  | nil => exact ⟨[], rfl, rfl, rfl⟩
  | cons o os =>
    simp only [Op.toObjs, Obj.depthList, max_le_iff] at hd
    have h1 := flatten_op o d hd.1
    obtain ⟨r, h2, h3, h4⟩ := flatten_ops os d hd.2
    refine ⟨(opLeaves o, opDef o) :: r, ?_, ?_, ?_⟩
    · rw [Op.toObjs, List.mapM_cons, h1, h2]; rfl
    · simp [opLeavesList, h3]
    · simp [opDefs, h4]
end

theorem treeFlatten_op (o : Op) : treeFlatten o.toObj = .ok (opLeaves o, opDef o) := flatten_op o _ le_rfl

namespace Op
mutual
/-- The structures of two operations compare equal: the same classes and attributes (numpy and Python integers are equal), where
shifts of Hamiltonian evolutions are ignored, `PHASE` gates are leaves, and circuits are compared by `==`. -/
def JitEq : Op → Op → Prop
  | .prim g, .prim h => (g.IsPhase ∧ h.IsPhase) ∨ (¬ g.IsPhase ∧ ¬ h.IsPhase ∧ g.resetShift.PyEq h.resetShift)
  | .comp (.circ _ fs) ops, .comp (.circ _ fs') ops' => PyEqs ops ops' ∧ fs = fs'
  | .comp k ops, .comp k' ops' => k = k' ∧ JitEqs ops ops'
  | _, _ => False
/-- The same for lists. -/
def JitEqs : List Op → List Op → Prop
  | [], [] => True
  | o :: os, o' :: os' => JitEq o o' ∧ JitEqs os os'
  | _, _ => False
end
end Op

theorem TreeDef.cmpList_cons {x y : TreeDef} {xs ys : List TreeDef} {P Q : Prop} (h : Says (cmp x y) P) (hs : Says (cmpList xs ys) Q) :
    Says (cmpList (x :: xs) (y :: ys)) (P ∧ Q) := by
  simp only [cmpList]
  exact h.and hs

theorem TreeDef.cmpList_nil : Says (cmpList [] []) True := ⟨true, by simp [cmpList], by simp⟩

theorem TreeDef.cmp_node {c c' : PyClass} {aux aux' : List Obj} {l l' : List TreeDef} {P Q : Prop} (h : Says (cmpList l l') P)
    (ha : c = c' → Says (Obj.cmpList aux aux') Q) : Says (cmp (.node c aux l) (.node c' aux' l')) (c = c' ∧ P ∧ Q) := by
  simp only [cmp]
  by_cases hc : c = c'
  · simp only [hc, if_true, true_and]
    exact h.and (ha hc)
  · simp only [hc, if_false]
    exact says_false (by simp)

theorem Obj.cmp_baseAux (g h : Gate) {xs ys : List Obj} {Q : Prop} (hs : Says (cmpList xs ys) Q) :
    Says (cmpList (g.baseAux ++ xs) (h.baseAux ++ ys)) (g.generatorName = h.generatorName ∧ g.target = h.target ∧
      Ctl.Same g.control h.control ∧ g.noise = h.noise ∧ g.sparse = h.sparse ∧ Q) :=
  cmpList_cons (cmp_str _ _) (cmpList_cons (cmp_targets _ _) (cmpList_cons (cmp_ctl _ _)
    (cmpList_cons (cmp_noise _ _) (cmpList_cons (cmp_bool _ _) hs))))

theorem cmp_gateDef (g h : Gate) : Says (TreeDef.cmp (gateDef g) (gateDef h)) (Op.JitEq (.prim g) (.prim h)) := by
  have base := Obj.cmp_baseAux g h Obj.cmpList_nil
  have two := fun p q s s' => Obj.cmp_baseAux g h (Obj.cmp_two p q s s')
  obtain ⟨cls, nm, ts, c, nz, sp⟩ := g
  obtain ⟨cls', nm', ts', c', nz', sp'⟩ := h
  simp only [List.append_nil] at base
  cases cls <;> cases cls' <;> simp only [gateDef, Op.JitEq, Gate.IsPhase, Gate.resetShift, Gate.PyEq]
  case primitive.primitive =>
    exact (TreeDef.cmp_node TreeDef.cmpList_nil fun _ => base).congr (by simp)
  case parametric.parametric =>
    exact (TreeDef.cmp_node TreeDef.cmpList_nil fun _ => two _ _ _ _).congr (by simp; tauto)
  case hamEvo.hamEvo =>
    exact (TreeDef.cmp_node TreeDef.cmpList_nil fun _ => base).congr (by simp)
  case phase.phase => exact ⟨true, by simp [TreeDef.cmp], by simp⟩
  all_goals exact ⟨false, by simp [TreeDef.cmp], by simp⟩

theorem gateDef_cases (g : Gate) (k : CompKind) :
    gateDef g = .leaf ∨ ∃ c aux, gateDef g = .node c aux [] ∧ c ≠ k.cls := by
  obtain ⟨cls, nm, ts, c, nz, sp⟩ := g
  cases cls
  · exact .inr ⟨_, _, rfl, by cases k <;> simp [CompKind.cls]⟩
  · exact .inr ⟨_, _, rfl, by cases k <;> simp [CompKind.cls]⟩
  · exact .inl rfl
  · exact .inr ⟨_, _, rfl, by cases k <;> simp [CompKind.cls]⟩

theorem opDef_comp (k : CompKind) (ops : List Op) : ∃ aux l, opDef (.comp k ops) = .node k.cls aux l := by
  cases k <;> exact ⟨_, _, by simp only [opDef, CompKind.cls]; rfl⟩

mutual
theorem cmp_opDef (o o' : Op) : Says (TreeDef.cmp (opDef o) (opDef o')) (Op.JitEq o o') := by
  cases o with
  | prim g =>
    cases o' with
    | prim h => simpa only [opDef] using cmp_gateDef g h
    | comp k ops =>
      obtain ⟨aux, l, h⟩ := opDef_comp k ops
      rw [h, opDef]
      rcases gateDef_cases g k with h | ⟨c, aux', h, hne⟩
      · exact ⟨false, by simp [h, TreeDef.cmp], by simp [Op.JitEq]⟩
      · exact ⟨false, by simp [h, TreeDef.cmp, hne], by simp [Op.JitEq]⟩
  | comp k ops =>
    cases o' with
    | prim g =>
      obtain ⟨aux, l, h⟩ := opDef_comp k ops
      rw [h, opDef]
      rcases gateDef_cases g k with h | ⟨c, aux', h, hne⟩
      · exact ⟨false, by simp [h, TreeDef.cmp], by cases k <;> simp [Op.JitEq]⟩
      · exact ⟨false, by simp [h, TreeDef.cmp, Ne.symm hne], by cases k <;> simp [Op.JitEq]⟩
    | comp k' ops' =>
      have hl := cmp_opDefs ops ops'
      have key : Says (TreeDef.cmpList [.list (opDefs ops)] [.list (opDefs ops')]) (Op.JitEqs ops ops') := by
        refine (TreeDef.cmpList_cons (P := Op.JitEqs ops ops') ?_ TreeDef.cmpList_nil).congr (by simp)
        simp only [TreeDef.cmp]
        exact hl
      have hlist : ∀ l l' : List Obj, l.length = l'.length → ∀ {P}, Says (Obj.cmpList l l') P → Says (Obj.cmp (.list l) (.list l')) P := by
        intro l l' hll P h
        simp only [Obj.cmp, hll, if_true]
        exact h
      by_cases hk : k.cls = k'.cls
      · cases k <;> cases k' <;> first
          | (simp [CompKind.cls] at hk; done)
          | skip
        case circ.circ n fs n' fs' =>
          simp only [opDef, Op.JitEq]
          have h1 : Says (Obj.cmp (.list (Op.toObjs ops)) (.list (Op.toObjs ops'))) (Op.PyEqs ops ops') := by
            by_cases hlen : ops.length = ops'.length
            · exact hlist _ _ (by simp [Obj.length_toObjs, hlen]) (Obj.cmp_ops ops ops')
            · simp only [Obj.cmp, Obj.length_toObjs, hlen, if_false]
              exact says_false fun h => hlen h.length
          have h2 : Says (Obj.cmp (.list (fs.map .str)) (.list (fs'.map .str))) (fs = fs') := by
            by_cases hlen : fs.length = fs'.length
            · exact hlist _ _ (by simp [hlen]) (Obj.cmpList_map_eq fun a _ b => Obj.cmp_str a b)
            · simp only [Obj.cmp, List.length_map, hlen, if_false]
              exact says_false fun h => hlen (by rw [h])
          have leaf : Says (TreeDef.cmpList [.leaf] [.leaf]) True := ⟨true, by simp [TreeDef.cmpList, TreeDef.cmp, bind, Except.bind], by simp⟩
          exact (TreeDef.cmp_node leaf fun _ => Obj.cmpList_cons h1 (Obj.cmpList_cons h2 Obj.cmpList_nil)).congr (by simp)
        case scale.scale p q =>
          simp only [opDef, Op.JitEq]
          exact (TreeDef.cmp_node key fun _ => Obj.cmpList_cons (Obj.cmp_param p q) Obj.cmpList_nil).congr
            (by simp [and_comm, hk])
        all_goals
          simp only [opDef, Op.JitEq]
          exact (TreeDef.cmp_node key fun _ => Obj.cmpList_nil).congr (by simp)
      · obtain ⟨aux, l, h⟩ := opDef_comp k ops
        obtain ⟨aux', l', h'⟩ := opDef_comp k' ops'
        refine ⟨false, by simp [h, h', TreeDef.cmp, hk], ?_⟩
        cases k <;> cases k' <;> first
          | exact absurd rfl hk
          | simp [Op.JitEq]
theorem cmp_opDefs (os os' : List Op) : Says (TreeDef.cmpList (opDefs os) (opDefs os')) (Op.JitEqs os os') := by
  cases os with
  | nil => cases os' <;> simp [opDefs, TreeDef.cmpList, Says, Op.JitEqs]
  | cons o os =>
    cases os' with
    | nil => simp [opDefs, TreeDef.cmpList, Says, Op.JitEqs]
    | cons o' os' =>
      simp only [opDefs, Op.JitEqs]
      exact TreeDef.cmpList_cons (cmp_opDef o o') (cmp_opDefs os os')
end

/-! ## Structures of equal operations -/

theorem gateDef_resetShift (g : Gate) : gateDef g.resetShift = gateDef g := by
  obtain ⟨cls, nm, ts, c, nz, sp⟩ := g
  cases cls <;> rfl

theorem Gate.NoNumpy.resetShift {g : Gate} (h : g.NoNumpy) : g.resetShift.NoNumpy := by
  obtain ⟨cls, nm, ts, c, nz, sp⟩ := g
  cases cls <;> exact h

theorem Op.JitEq.comp_eq {k k' : CompKind} {ops ops' : List Op} (hk : ¬ k'.IsCircuit) (h : Op.JitEq (.comp k ops) (.comp k' ops')) :
    k = k' ∧ Op.JitEqs ops ops' := by
  cases k' with
  | circ n fs => exact absurd ⟨n, fs, rfl⟩ hk
  | _ => cases k <;> simpa only [Op.JitEq] using h

mutual
theorem Op.JitEq.opDef_eq {o o' : Op} (hc : ¬ o'.HasKind CompKind.IsCircuit) (h : o.JitEq o') (hn : o.NoNumpy) (hn' : o'.NoNumpy) :
    opDef o = opDef o' := by
  cases o with
  | prim g =>
    cases o' with
    | prim g' =>
      simp only [Op.JitEq] at h
      simp only [opDef]
      rcases h with ⟨h, h'⟩ | ⟨-, -, h⟩
      · obtain ⟨cls, nm, ts, c, nz, sp⟩ := g
        obtain ⟨cls', nm', ts', c', nz', sp'⟩ := g'
        obtain ⟨p, s, rfl⟩ := h
        obtain ⟨p', s', rfl⟩ := h'
        rfl
      · rw [← gateDef_resetShift g, ← gateDef_resetShift g', h.eq (Gate.NoNumpy.resetShift hn) (Gate.NoNumpy.resetShift hn')]
    | comp k ops => simp [Op.JitEq] at h
  | comp k ops =>
    cases o' with
    | prim g => cases k <;> simp [Op.JitEq] at h
    | comp k' ops' =>
      simp only [Op.HasKind, not_or] at hc
      have key : Op.JitEqs ops ops' → opDefs ops = opDefs ops' := fun h => Op.JitEqs.opDefs_eq hc.2 h hn hn'
      obtain ⟨rfl, h'⟩ := Op.JitEq.comp_eq hc.1 h
      cases k with
      | circ n fs => exact absurd ⟨n, fs, rfl⟩ hc.1
      | _ => simp only [opDef, key h']
theorem Op.JitEqs.opDefs_eq {os os' : List Op} (hc : ¬ Op.AnyKind CompKind.IsCircuit os') (h : Op.JitEqs os os')
    (hn : Op.NoNumpyList os) (hn' : Op.NoNumpyList os') : opDefs os = opDefs os' := by
  cases os with
  | nil =>
    cases os' with
    | nil => rfl
    | cons o' os' => simp [Op.JitEqs] at h
  | cons o os =>
    cases os' with
    | nil => simp [Op.JitEqs] at h
    | cons o' os' =>
      simp only [Op.AnyKind, not_or] at hc
      simp only [Op.JitEqs] at h
      simp only [opDefs, Op.JitEq.opDef_eq hc.1 h.1 hn.1 hn'.1, Op.JitEqs.opDefs_eq hc.2 h.2 hn.2 hn'.2]
end

mutual
theorem Op.jitEq_iff {o o' : Op} (hc : ¬ o'.HasKind CompKind.IsCircuit) (hp : ∀ g ∈ o.gates, ¬ g.IsPhase)
    (hp' : ∀ g ∈ o'.gates, ¬ g.IsPhase) (hn : o.NoNumpy) (hn' : o'.NoNumpy) :
    o.JitEq o' ↔ o.mapGates Gate.resetShift = o'.mapGates Gate.resetShift := by
  cases o with
  | prim g =>
    cases o' with
    | prim g' =>
      simp only [Op.JitEq, Op.mapGates, Op.prim.injEq, hp g (by simp [Op.gates]), hp' g' (by simp [Op.gates]), false_and, false_or,
        not_false_eq_true, true_and]
      refine ⟨fun h => h.eq (Gate.NoNumpy.resetShift hn) (Gate.NoNumpy.resetShift hn'), fun h => ?_⟩
      rw [h]
      exact ⟨rfl, rfl, rfl, rfl, rfl, rfl⟩
    | comp k ops => simp [Op.JitEq, Op.mapGates]
  | comp k ops =>
    cases o' with
    | prim g => cases k <;> simp [Op.JitEq, Op.mapGates]
    | comp k' ops' =>
      simp only [Op.HasKind, not_or] at hc
      have key := Op.jitEqs_iff hc.2 (by simpa only [Op.gates] using hp) (by simpa only [Op.gates] using hp') hn hn'
      simp only [Op.mapGates, Op.comp.injEq, ← key]
      refine ⟨Op.JitEq.comp_eq hc.1, ?_⟩
      rintro ⟨rfl, h⟩
      cases k with
      | circ n fs => exact absurd ⟨n, fs, rfl⟩ hc.1
      | _ => exact ⟨rfl, h⟩
theorem Op.jitEqs_iff {os os' : List Op} (hc : ¬ Op.AnyKind CompKind.IsCircuit os') (hp : ∀ g ∈ Op.gatesList os, ¬ g.IsPhase)
    (hp' : ∀ g ∈ Op.gatesList os', ¬ g.IsPhase) (hn : Op.NoNumpyList os) (hn' : Op.NoNumpyList os') :
    Op.JitEqs os os' ↔ Op.mapGatesList Gate.resetShift os = Op.mapGatesList Gate.resetShift os' := by
  cases os with
  | nil => cases os' <;> simp [Op.JitEqs, Op.mapGatesList]
  | cons o os =>
    cases os' with
    | nil => simp [Op.JitEqs, Op.mapGatesList]
    | cons o' os' =>
      simp only [Op.AnyKind, not_or] at hc
      simp only [Op.gatesList, List.mem_append] at hp hp'
      simp only [Op.JitEqs, Op.mapGatesList, List.cons.injEq,
        Op.jitEq_iff hc.1 (fun g hg => hp g (.inl hg)) (fun g hg => hp' g (.inl hg)) hn.1 hn'.1,
        Op.jitEqs_iff hc.2 (fun g hg => hp g (.inr hg)) (fun g hg => hp' g (.inr hg)) hn.2 hn'.2]
end

mutual
theorem opLeaves_all (o : Op) (h : ∀ g ∈ o.gates, ¬ g.IsPhase) : (opLeaves o).all Obj.isArrayLike = true := by
  cases o with
  | prim g => exact (gateLeaves_all g).2 (h g (by simp [Op.gates]))
  | comp k ops =>
    have := opLeavesList_all ops (by simpa only [Op.gates] using h)
    cases k with
    | circ n fs => rfl
    | _ => simpa only [opLeaves] using this
theorem opLeavesList_all (os : List Op) (h : ∀ g ∈ Op.gatesList os, ¬ g.IsPhase) : (opLeavesList os).all Obj.isArrayLike = true := by
  cases os with
  | nil => rfl
  | cons o os =>
    simp only [Op.gatesList, List.mem_append] at h
    simp only [opLeavesList, List.all_append, opLeaves_all o fun g hg => h g (.inl hg),
      opLeavesList_all os fun g hg => h g (.inr hg), Bool.and_self]
end

/-! ## The cache -/

theorem jitLookup_same {t : TreeDef} {traced : List TreeDef}
    (h : ∀ t₀ ∈ traced, ∃ b, TreeDef.cmp t₀ t = .ok b ∧ (b = true → t₀ = t)) : jitLookup t traced = .ok t := by
  induction traced with
  | nil => rfl
  | cons t₀ traced ih =>
    obtain ⟨b, h1, h2⟩ := h t₀ (by simp)
    rw [jitLookup, h1]
    cases b
    · exact ih fun t₁ h₁ => h t₁ (List.mem_cons_of_mem _ h₁)
    · rw [h2 rfl]; rfl

theorem jitSees_same {x : Obj} {lv : List Obj} {t : TreeDef} (hx : treeFlatten x = .ok (lv, t)) {traced : List TreeDef}
    (h : jitLookup t traced = .ok t) : jitSees traced x = jitRoundTrip x := by
  simp only [jitSees, jitRoundTrip, hx, bind, Except.bind, h]

theorem mem_jitTraced {t : TreeDef} {xs : List Obj} {traced : List TreeDef} (h : t ∈ jitTraced xs traced) :
    t ∈ traced ∨ ∃ x ∈ xs, ∃ lv, treeFlatten x = .ok (lv, t) := by
  induction xs generalizing traced with
  | nil => exact .inl h
  | cons x xs ih =>
    rw [jitTraced] at h
    rcases hx : treeFlatten x with e | ⟨lv, t'⟩
    · simp only [hx, bind, Except.bind] at h
      rcases ih h with h | ⟨y, hy, h⟩
      · exact .inl h
      · exact .inr ⟨y, List.mem_cons_of_mem _ hy, h⟩
    · simp only [hx, bind, Except.bind] at h
      by_cases hl : lv.all Obj.isArrayLike
      · rcases hk : jitLookup t' traced with e | t₀
        · simp only [hl, hk, if_true] at h
          rcases ih h with h | ⟨y, hy, h⟩
          · exact .inl h
          · exact .inr ⟨y, List.mem_cons_of_mem _ hy, h⟩
        · simp only [hl, hk, if_true, pure, Except.pure] at h
          rcases ih h with h | ⟨y, hy, h⟩
          · by_cases hm : t₀ ∈ traced
            · rw [if_pos hm] at h; exact .inl h
            · rw [if_neg hm] at h
              rcases List.mem_append.1 h with h | h
              · exact .inl h
              · exact .inr ⟨x, by simp, lv, by rw [hx, List.mem_singleton.1 h]⟩
          · exact .inr ⟨y, List.mem_cons_of_mem _ hy, h⟩
      · simp only [hl, Bool.false_eq_true, if_false] at h
        rcases ih h with h | ⟨y, hy, h⟩
        · exact .inl h
        · exact .inr ⟨y, List.mem_cons_of_mem _ hy, h⟩

/-! ## The arguments of expectation values -/

/-- The structure of a state: a leaf, or a node with the array as auxiliary data. -/
def stateDef : State → TreeDef
  | .vec _ => .leaf
  | .dm ρ => .node .densityMatrix [.arr ρ.array] []

/-- The leaves of a state. -/
def stateLeaves : State → List Obj
  | .vec a => [.arr a]
  | .dm _ => []

theorem Goes.tuple {xs lv ys : List Obj} (h : GoesList xs lv ys) : Goes (.tuple xs) lv (.tuple ys) := by
  intro d hd
  obtain ⟨d, rfl⟩ : ∃ e, d = e + 1 := ⟨d - 1, by have := depth_pos (.tuple xs); omega⟩
  obtain ⟨r, h1, h2, h3⟩ := h d (by simp only [Obj.depth] at hd; omega)
  refine ⟨.tuple (r.map Prod.snd), ?_, fun rest => ?_⟩
  · simp only [flattenTo, h1, bind, Except.bind, h2]; rfl
  · simp only [treeUnflatten, h3, bind, Except.bind]; rfl

theorem flatten_state (st : State) (d : ℕ) : flattenTo (d + 1) st.toObj = .ok (stateLeaves st, stateDef st) := by
  cases st <;> rfl

theorem goes_state (st : State) : Goes st.toObj (stateLeaves st) st.toObj := by
  cases st with
  | vec a =>
    intro d hd
    obtain ⟨d, rfl⟩ : ∃ e, d = e + 1 := ⟨d - 1, by have := depth_pos (.arr a); simp only [State.toObj] at hd; omega⟩
    exact ⟨.leaf, rfl, fun rest => by simp [treeUnflatten, stateLeaves, State.toObj]⟩
  | dm ρ => exact Goes.childless rfl rfl rfl

theorem flatten_ops_list (os : List Op) (d : ℕ) (hd : Obj.depthList (Op.toObjs os) ≤ d) :
    flattenTo (d + 1) (.list (Op.toObjs os)) = .ok (opLeavesList os, .list (opDefs os)) := by
  obtain ⟨r, h1, h2, h3⟩ := flatten_ops os d hd
  simp only [flattenTo, h1, bind, Except.bind, pure, Except.pure, h2, h3]

/-- The structure of the arguments of an expectation value. -/
def expDef (st : State) (gs os : List Op) : TreeDef := .tuple [stateDef st, .list (opDefs gs), .list (opDefs os)]

theorem treeFlatten_expArgs (st : State) (gs os : List Op) :
    treeFlatten (expArgs st gs os) = .ok (stateLeaves st ++ (opLeavesList gs ++ opLeavesList os), expDef st gs os) := by
  obtain ⟨m, hm⟩ : ∃ m, m = Obj.depthList [st.toObj, .list (Op.toObjs gs), .list (Op.toObjs os)] := ⟨_, rfl⟩
  have hm' := hm
  simp only [Obj.depthList, Obj.depth] at hm'
  obtain ⟨e, rfl⟩ : ∃ e, m = e + 1 := ⟨m - 1, by omega⟩
  have h1 := flatten_state st e
  have h2 := flatten_ops_list gs e (by omega)
  have h3 := flatten_ops_list os e (by omega)
  have hd : (expArgs st gs os).depth = (e + 1) + 1 := by
    rw [expArgs, Obj.depth, ← hm, Nat.add_comm]
  rw [treeFlatten, hd]
  simp only [expArgs, flattenTo.eq_3, List.mapM_cons, List.mapM_nil, h1, h2, h3, bind, Except.bind, pure, Except.pure, expDef,
    List.flatMap_cons, List.flatMap_nil, List.append_nil, List.map_cons, List.map_nil]

theorem goes_expArgs (st : State) (gs os : List Op) (hg : ¬ Op.AnyKind CompKind.IsCircuit gs)
    (ho : ¬ Op.AnyKind CompKind.IsCircuit os) :
    Goes (expArgs st gs os) (stateLeaves st ++ (leavesList gs ++ (leavesList os ++ [])))
      (expArgs st (Op.mapGatesList Gate.resetShift gs) (Op.mapGatesList Gate.resetShift os)) :=
  Goes.tuple (GoesList.cons (goes_state st) (GoesList.cons (Goes.list (goes_ops gs hg)) (GoesList.cons (Goes.list (goes_ops os ho)) .nil)))

theorem cmp_list_opDefs (os os' : List Op) : Says (TreeDef.cmp (.list (opDefs os)) (.list (opDefs os'))) (Op.JitEqs os os') := by
  simp only [TreeDef.cmp]
  exact cmp_opDefs os os'

/-- Unless both states are density matrices, structures of arguments are compared without error. -/
theorem cmp_expDef (st st' : State) (gs gs' os os' : List Op)
    (h : (∃ a, st = .vec a) ∨ ∃ a, st' = .vec a) :
    Says (TreeDef.cmp (expDef st gs os) (expDef st' gs' os'))
      ((∃ a b, st = .vec a ∧ st' = .vec b) ∧ Op.JitEqs gs gs' ∧ Op.JitEqs os os') := by
  have hs : Says (TreeDef.cmp (stateDef st) (stateDef st')) (∃ a b, st = .vec a ∧ st' = .vec b) := by
    cases st <;> cases st' <;> simp only [stateDef, TreeDef.cmp] <;> simp at h ⊢
    · exact says_true trivial
    · exact says_false not_false
    · exact says_false not_false
  simp only [expDef, TreeDef.cmp]
  exact (TreeDef.cmpList_cons hs (TreeDef.cmpList_cons (cmp_list_opDefs gs gs')
    (TreeDef.cmpList_cons (cmp_list_opDefs os os') TreeDef.cmpList_nil))).congr (by simp)

/-! ## Theorems -/

/-- **C99**: `==` of the objects, field by field as Python compares them, is the relation of C99. -/
theorem C99_object (o o' : Op) : Obj.cmp o.toObj o'.toObj = .ok true ↔ o.PyEq o' := by
  obtain ⟨b, h1, h2⟩ := Obj.cmp_op o o'
  rw [h1, ← h2]
  simp

/-- **C100** (the part that holds): whatever operations a compiled function was called with before, it computes with the operation it is
called with now as a freshly compiled function does, if there are no numpy integers among the controls and no circuits
in the operation. -/
theorem C100_history_partial (os : List Op) (hos : ∀ o ∈ os, o.NoNumpy) (o : Op) (hc : ¬ o.HasKind CompKind.IsCircuit) (hn : o.NoNumpy) :
    jitSees (jitTraced (os.map Op.toObj) []) o.toObj = jitRoundTrip o.toObj := by
  refine jitSees_same (treeFlatten_op o) (jitLookup_same fun t₀ h => ?_)
  rcases mem_jitTraced h with h | ⟨x, hx, lv, h⟩
  · cases h
  · obtain ⟨o', ho', rfl⟩ := List.mem_map.1 hx
    rw [treeFlatten_op] at h
    cases h
    obtain ⟨b, h1, h2⟩ := cmp_opDef o' o
    exact ⟨b, h1, fun hb => (h2.1 hb).opDef_eq hc (hos _ ho') hn⟩

/-- **C100** (the part that holds): if there are no `PHASE` gates and shifted Hamiltonian evolutions either, it computes with that very
operation. -/
theorem C100_op_partial (os : List Op) (hos : ∀ o ∈ os, o.NoNumpy) (o : Op) (hc : ¬ o.HasKind CompKind.IsCircuit) (hn : o.NoNumpy)
    (hp : ∀ g ∈ o.gates, ¬ g.IsPhase) (hs : ∀ g ∈ o.gates, ∀ s, g.cls = .hamEvo s → s = 0) :
    jitSees (jitTraced (os.map Op.toObj) []) o.toObj = .ok o.toObj := by
  rw [C100_history_partial os hos o hc hn, jit_cases o hc, if_neg (by rintro ⟨g, hg, h⟩; exact hp g hg h),
    mapGates_id o fun g hg => resetShift_eq (hs g hg)]

/-- **C100**, exactly: a second call runs the program of the first one if and only if the operations are the same up to the shifts of
Hamiltonian evolutions. -/
theorem C100_shared_iff (o' o : Op) (hc : ¬ o.HasKind CompKind.IsCircuit) (hp' : ∀ g ∈ o'.gates, ¬ g.IsPhase)
    (hp : ∀ g ∈ o.gates, ¬ g.IsPhase) (hn' : o'.NoNumpy) (hn : o.NoNumpy) :
    jitTraced [o'.toObj, o.toObj] [] = jitTraced [o'.toObj] [] ↔ o'.mapGates Gate.resetShift = o.mapGates Gate.resetShift := by
  rw [← Op.jitEq_iff hc hp' hp hn' hn]
  have h1 := opLeaves_all o' hp'
  have h2 := opLeaves_all o hp
  obtain ⟨b, h3, h4⟩ := cmp_opDef o' o
  have hne : b = false → opDef o ≠ opDef o' := by
    rintro rfl he
    obtain ⟨b', h5, h6⟩ := cmp_opDef o o
    rw [← he, h5] at h3
    cases h3
    exact absurd (h6.2 ((Op.jitEq_iff hc hp hp hn hn).2 rfl)) (by simp)
  simp only [jitTraced, treeFlatten_op, bind, Except.bind, h1, h2, if_true, jitLookup, pure, Except.pure, List.not_mem_nil, if_false,
    List.nil_append, h3, ← h4]
  cases b
  · simp [hne rfl]
  · simp

/-- **C100** (the part that holds): whatever expectation values were computed before, the compiled expectation value is computed with the
state, gates and observables that are given, if there are no numpy integers among controls, no circuits, `PHASE` gates and shifted
Hamiltonian evolutions, and the state or all earlier states are vectors. -/
theorem C100_expectation_partial (calls : List (State × List Op × List Op))
    (hcalls : ∀ c ∈ calls, Op.NoNumpyList c.2.1 ∧ Op.NoNumpyList c.2.2) (st : State) (gs os : List Op)
    (hv : (∃ a, st = .vec a) ∨ ∀ c ∈ calls, ∃ a, c.1 = .vec a) (hng : Op.NoNumpyList gs) (hno : Op.NoNumpyList os)
    (hcg : ¬ Op.AnyKind CompKind.IsCircuit gs) (hco : ¬ Op.AnyKind CompKind.IsCircuit os)
    (hp : ∀ g ∈ Op.gatesList gs ++ Op.gatesList os, ¬ g.IsPhase)
    (hs : ∀ g ∈ Op.gatesList gs ++ Op.gatesList os, ∀ s, g.cls = .hamEvo s → s = 0) :
    jitSees (jitTraced (calls.map fun c => expArgs c.1 c.2.1 c.2.2) []) (expArgs st gs os) = .ok (expArgs st gs os) := by
  rw [jitSees_same (treeFlatten_expArgs st gs os) (jitLookup_same fun t₀ h => ?_), (goes_expArgs st gs os hcg hco).jit, if_pos,
    mapGatesList_id gs fun g hg => resetShift_eq (hs g (List.mem_append_left _ hg)),
    mapGatesList_id os fun g hg => resetShift_eq (hs g (List.mem_append_right _ hg))]
  · simp only [List.all_append, List.append_nil, Bool.and_eq_true, leavesList_all]
    refine ⟨?_, fun g hg => hp g (List.mem_append_left _ hg), fun g hg => hp g (List.mem_append_right _ hg)⟩
    cases st <;> rfl
  · rcases mem_jitTraced h with h | ⟨x, hx, lv, h⟩
    · cases h
    · obtain ⟨⟨st', gs', os'⟩, hc, rfl⟩ := List.mem_map.1 hx
      rw [treeFlatten_expArgs] at h
      cases h
      obtain ⟨b, h1, h2⟩ := cmp_expDef st' st gs' gs os' os (by
        rcases hv with h | h
        · exact .inr h
        · exact .inl (h _ hc))
      refine ⟨b, h1, fun hb => ?_⟩
      obtain ⟨⟨a, b, rfl, rfl⟩, hg, ho⟩ := h2.1 hb
      obtain ⟨hng', hno'⟩ := hcalls _ hc
      simp only [expDef, stateDef, hg.opDefs_eq hcg hng' hng, ho.opDefs_eq hco hno' hno]

/-- **C100** is false for density matrices, whose arrays are compared as a whole: after an expectation value in one density matrix of more
than one entry, none can be computed in another one, with the same gates and observables. -/
theorem C100_density_refused (ρ ρ' : DensityMatrix ℂ) (gs os : List Op)
    (hp : ∀ g ∈ Op.gatesList gs ++ Op.gatesList os, ¬ g.IsPhase) (hρ : ¬ (ρ.array.size = 1 ∧ ρ'.array.size = 1)) :
    jitSees (jitTraced [expArgs (.dm ρ) gs os] []) (expArgs (.dm ρ') gs os) = .error .valueError := by
  have hl : (stateLeaves (.dm ρ) ++ (opLeavesList gs ++ opLeavesList os)).all Obj.isArrayLike = true := by
    simp only [stateLeaves, List.nil_append, List.all_append, Bool.and_eq_true]
    exact ⟨opLeavesList_all gs fun g hg => hp g (List.mem_append_left _ hg),
      opLeavesList_all os fun g hg => hp g (List.mem_append_right _ hg)⟩
  have hl' : (stateLeaves (.dm ρ') ++ (opLeavesList gs ++ opLeavesList os)).all Obj.isArrayLike = true := hl
  have h1 : jitTraced [expArgs (.dm ρ) gs os] [] = [expDef (.dm ρ) gs os] := by
    simp only [jitTraced, treeFlatten_expArgs, bind, Except.bind, hl, if_true, jitLookup, pure, Except.pure, List.not_mem_nil,
      if_false, List.nil_append]
  have h2 : TreeDef.cmp (expDef (.dm ρ) gs os) (expDef (.dm ρ') gs os) = .error .valueError := by
    simp only [expDef, stateDef, TreeDef.cmp, TreeDef.cmpList, Obj.cmpList, Obj.cmp, if_neg hρ, bind, Except.bind, if_true]
  rw [h1]
  simp only [jitSees, treeFlatten_expArgs, bind, Except.bind, hl', if_true, jitLookup, h2]

/-- **C100** is false for density matrices: the expectation value can be computed by a freshly compiled function. -/
theorem C100_density_false :
    ¬ ∀ (ρ ρ' : DensityMatrix ℂ) (gs os : List Op),
      jitSees (jitTraced [expArgs (.dm ρ) gs os] []) (expArgs (.dm ρ') gs os) = jitSees [] (expArgs (.dm ρ') gs os) := by
  intro H
  let ρ : DensityMatrix ℂ := ⟨⟨[2, 2], [1, 0, 0, 0]⟩⟩
  have h1 := H ρ ρ [] []
  rw [C100_density_refused ρ ρ [] [] (by simp [Op.gatesList]) (by simp [ρ, NDArray.size])] at h1
  have h2 := C100_expectation_partial [] (by simp) (.dm ρ) [] [] (.inr (by simp)) trivial trivial (by simp [Op.AnyKind])
    (by simp [Op.AnyKind]) (by simp [Op.gatesList]) (by simp [Op.gatesList])
  simp only [List.map_nil, jitTraced] at h2
  rw [h2] at h1
  cases h1

/-- **C100**, numpy integers among controls: after a call with `X(t, control=np.int64(c))`, a call with `X(t, control=c)` computes with
the former. -/
theorem C100_numpy_sees (t c : ℕ) :
    jitSees (jitTraced [(Op.prim (Gate.X (.int t) (.npInt c))).toObj] []) (Op.prim (Gate.X (.int t) (.int c))).toObj
      = .ok (Op.prim (Gate.X (.int t) (.npInt c))).toObj := by
  have h1 : jitTraced [(Op.prim (Gate.X (.int t) (.npInt c))).toObj] [] = [opDef (.prim (Gate.X (.int t) (.npInt c)))] := by
    simp only [jitTraced, treeFlatten_op, bind, Except.bind, jitLookup, pure, Except.pure, List.not_mem_nil,
      if_false, List.nil_append]
    rfl
  obtain ⟨b, h2, h3⟩ := cmp_opDef (.prim (Gate.X (.int t) (.npInt c))) (.prim (Gate.X (.int t) (.int c)))
  have hb : b = true := by
    refine h3.2 (.inr ⟨?_, ?_, ⟨rfl, rfl, rfl, rfl, rfl, rfl⟩⟩) <;> rintro ⟨p, s, h⟩ <;> cases h
  have h4 := (goes_op (.prim (Gate.X (.int t) (.npInt c))) (by simp [Op.HasKind])).jit
  have hx : ∀ d, (Gate.X (.int t) d).IsPhase → False := by rintro d ⟨p, s, h⟩; cases h
  rw [h1]
  rw [jitRoundTrip, treeFlatten_op] at h4
  simp only [jitSees, treeFlatten_op, bind, Except.bind, jitLookup, h2, hb, if_true] at h4 ⊢
  exact h4

/-- **C100** is false for numpy integers among controls, which have no effect (C56). -/
theorem C100_numpy_false :
    ¬ ∀ (so : SetOrder) (o' o o'' : Op) (st : State), jitSees (jitTraced [o'.toObj] []) o.toObj = .ok o''.toObj →
      jitRoundTrip o.toObj = .ok o.toObj → o''.call so [] (some st) = o.call so [] (some st) := by
  intro H
  refine C56_numpy_control_false fun so n st t c _ _ _ _ => ?_
  have h := H so (.prim (Gate.X (.int t) (.npInt c))) (.prim (Gate.X (.int t) (.int c))) (.prim (Gate.X (.int t) (.npInt c))) (.vec st)
    (C100_numpy_sees t c) (by
      rw [jit_cases _ (by simp [Op.HasKind]), if_neg]
      · rfl
      · rintro ⟨g, hg, p, s, h⟩
        simp only [Op.gates, List.mem_singleton] at hg
        subst hg
        cases h)
  simp only [Op.call, bind, Except.bind] at h
  generalize applyGates so (State.vec st) (GateArg.single (Gate.X (.int t) (.npInt c))) [] = a at h ⊢
  generalize applyGates so (State.vec st) (GateArg.single (Gate.X (.int t) (.int c))) [] = b at h ⊢
  cases a <;> cases b <;> simp_all [Functor.map, Except.map]

/-- Non-vacuity of `C100_op_partial`: after calls with `Scale(X(0), 2)` and a `QuantumCircuit`, a call with `Scale(X(0), 3)` computes with
the factor `3`, although `Scale(X(0), 2) == Scale(X(0), 3)` (C99). -/
example : jitSees (jitTraced ([Op.comp (.scale (.num 2)) [.prim (Gate.X (.int 0))],
      .comp (.circ 1 []) [.prim (Gate.X (.int 0))]].map Op.toObj) []) (Op.comp (.scale (.num 3)) [.prim (Gate.X (.int 0))]).toObj
    = .ok (Op.comp (.scale (.num 3)) [.prim (Gate.X (.int 0))]).toObj := by
  have hx : Op.NoNumpyList [.prim (Gate.X (.int 0))] := ⟨fun l hl q hq => by cases hl; simp [parseControl] at hq, trivial⟩
  refine C100_op_partial _ (fun o ho => ?_) _ ?_ hx ?_ ?_
  · simp only [List.mem_cons, List.not_mem_nil, or_false] at ho
    rcases ho with rfl | rfl <;> exact hx
  · simp [Op.HasKind, Op.AnyKind, CompKind.IsCircuit]
  · rintro g hg ⟨p, s, h⟩
    simp only [Op.gates, Op.gatesList, List.append_nil, List.mem_singleton] at hg
    subst hg
    cases h
  · intro g hg s h
    simp only [Op.gates, Op.gatesList, List.append_nil, List.mem_singleton] at hg
    subst hg
    cases h

/-- Non-vacuity of `C100_expectation_partial`: an expectation value in a state vector after one in a density matrix. -/
example (a : NDArray ℂ) (ρ : DensityMatrix ℂ) (x : ℝ) :
    jitSees (jitTraced [expArgs (.dm ρ) [.prim (Gate.RX (.num x) (.int 0))] [.comp .obs [.prim (Gate.X (.int 0))]]] [])
      (expArgs (.vec a) [.prim (Gate.RX (.num x) (.int 0))] [.comp .obs [.prim (Gate.X (.int 0))]])
    = .ok (expArgs (.vec a) [.prim (Gate.RX (.num x) (.int 0))] [.comp .obs [.prim (Gate.X (.int 0))]]) := by
  have hx : Op.NoNumpyList [.prim (Gate.X (.int 0))] := ⟨fun l hl q hq => by cases hl; simp [parseControl] at hq, trivial⟩
  have hr : Op.NoNumpyList [.prim (Gate.RX (.num x) (.int 0))] := ⟨fun l hl q hq => by cases hl; simp [parseControl] at hq, trivial⟩
  refine C100_expectation_partial [(.dm ρ, [.prim (Gate.RX (.num x) (.int 0))], [.comp .obs [.prim (Gate.X (.int 0))]])]
    (fun c hc => ?_) _ _ _ (.inl ⟨a, rfl⟩) hr ⟨hx, trivial⟩ ?_ ?_ ?_ ?_
  · simp only [List.mem_singleton] at hc
    subst hc
    exact ⟨hr, hx, trivial⟩
  · simp [Op.AnyKind, Op.HasKind]
  · simp [Op.AnyKind, Op.HasKind, CompKind.IsCircuit]
  · rintro g hg ⟨p, s, h⟩
    simp only [Op.gates, Op.gatesList, List.append_nil, List.cons_append, List.nil_append, List.mem_cons, List.not_mem_nil,
      or_false] at hg
    rcases hg with rfl | rfl <;> cases h
  · intro g hg s h
    simp only [Op.gates, Op.gatesList, List.append_nil, List.cons_append, List.nil_append, List.mem_cons, List.not_mem_nil,
      or_false] at hg
    rcases hg with rfl | rfl <;> cases h

end Verif
