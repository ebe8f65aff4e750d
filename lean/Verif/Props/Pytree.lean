import Verif.Model.Pytree
import Verif.Model.Gpsr
import Verif.AbsTree

/-! # C34: pytree round trips -/

set_option autoImplicit false

namespace Verif
open NDArray
open scoped Classical

namespace Pytree

/-- Flattening `x` and unflattening gives `y`, whatever leaves follow. -/
def Goes (x : Obj) (lv : List Obj) (y : Obj) : Prop :=
  ∀ d, x.depth ≤ d → ∃ td, flattenTo d x = .ok (lv, td) ∧ ∀ rest, treeUnflatten td (lv ++ rest) = .ok (y, rest)

def GoesList (xs : List Obj) (lv : List Obj) (ys : List Obj) : Prop :=
  ∀ d, Obj.depthList xs ≤ d → ∃ r, xs.mapM (flattenTo d) = .ok r ∧ r.flatMap Prod.fst = lv ∧
    ∀ rest, treeUnflattenList (r.map Prod.snd) (lv ++ rest) = .ok (ys, rest)

theorem depth_pos (x : Obj) : 0 < x.depth := by cases x <;> simp [Obj.depth]

theorem GoesList.nil : GoesList [] [] [] := fun d _ => ⟨[], rfl, rfl, fun rest => by simp [treeUnflattenList]⟩

theorem GoesList.cons {x : Obj} {xs lv lvs : List Obj} {y : Obj} {ys : List Obj} (h : Goes x lv y)
    (hs : GoesList xs lvs ys) : GoesList (x :: xs) (lv ++ lvs) (y :: ys) := by
  intro d hd
  simp only [Obj.depthList, max_le_iff] at hd
  obtain ⟨td, h1, h2⟩ := h d hd.1
  obtain ⟨r, h3, h4, h5⟩ := hs d hd.2
  refine ⟨(lv, td) :: r, ?_, ?_, fun rest => ?_⟩
  · rw [List.mapM_cons, h1, h3]; rfl
  · simp [h4]
  · simp only [List.map_cons, treeUnflattenList, List.append_assoc, h2, bind, Except.bind, h5]
    rfl

theorem Goes.list {xs lv ys : List Obj} (h : GoesList xs lv ys) : Goes (.list xs) lv (.list ys) := by
  intro d hd
  obtain ⟨d, rfl⟩ : ∃ e, d = e + 1 := ⟨d - 1, by have := depth_pos (.list xs); omega⟩
  obtain ⟨r, h1, h2, h3⟩ := h d (by simp only [Obj.depth] at hd; omega)
  refine ⟨.list (r.map Prod.snd), ?_, fun rest => ?_⟩
  · simp only [flattenTo, h1, bind, Except.bind, h2]; rfl
  · simp only [treeUnflatten, h3, bind, Except.bind]; rfl

/-- A node whose only child is a list. -/
theorem Goes.node {c : PyClass} {fields aux : List Obj} {xs lv ys : List Obj} {y : Obj} (hr : Obj.registered c = true)
    (hf : Obj.treeFlatten c fields = .ok ([.list xs], aux)) (hm : (.list xs) ∈ fields)
    (h : GoesList xs lv ys) (hu : Obj.treeUnflatten c aux [.list ys] = .ok y) : Goes (.inst c fields) lv y := by
  intro d hd
  obtain ⟨d, rfl⟩ : ∃ e, d = e + 1 := ⟨d - 1, by have := depth_pos (.inst c fields); omega⟩
  have hle : ∀ l : List Obj, Obj.list xs ∈ l → (Obj.list xs).depth ≤ Obj.depthList l := by
    intro l
    induction l with
    | nil => simp
    | cons a l ih =>
      intro hm
      rcases List.mem_cons.1 hm with rfl | hm
      · simp [Obj.depthList]
      · simp [Obj.depthList, ih hm]
  obtain ⟨td, h1, h2⟩ := Goes.list h d (by have := hle _ hm; simp only [Obj.depth] at hd this ⊢; omega)
  refine ⟨.node c aux [td], ?_, fun rest => ?_⟩
  · simp only [flattenTo, hr, if_true, hf, bind, Except.bind, List.mapM_cons, List.mapM_nil, h1]
    simp only [pure, Except.pure, List.flatMap_cons, List.flatMap_nil, List.append_nil, List.map_cons, List.map_nil]
  · simp only [treeUnflatten, treeUnflattenList, h2, bind, Except.bind, pure, Except.pure, hu]

/-- A node without children. -/
theorem Goes.childless {c : PyClass} {fields aux : List Obj} {y : Obj} (hr : Obj.registered c = true)
    (hf : Obj.treeFlatten c fields = .ok ([], aux)) (hu : Obj.treeUnflatten c aux [] = .ok y) :
    Goes (.inst c fields) [] y := by
  intro d hd
  obtain ⟨d, rfl⟩ : ∃ e, d = e + 1 := ⟨d - 1, by have := depth_pos (.inst c fields); omega⟩
  refine ⟨.node c aux [], ?_, fun rest => ?_⟩
  · simp only [flattenTo, hr, if_true, hf, bind, Except.bind, List.mapM_nil]
    simp only [pure, Except.pure, List.flatMap_nil, List.map_nil]
  · simp only [treeUnflatten, treeUnflattenList, bind, Except.bind, pure, Except.pure, hu, List.nil_append]

theorem Goes.leaf {fields : List Obj} : Goes (.inst .phase fields) [.inst .phase fields] (.inst .phase fields) := by
  intro d hd
  obtain ⟨d, rfl⟩ : ∃ e, d = e + 1 := ⟨d - 1, by have := depth_pos (.inst .phase fields); omega⟩
  exact ⟨.leaf, rfl, fun rest => by simp [treeUnflatten]⟩

theorem Goes.roundTrip {x y : Obj} {lv : List Obj} (h : Goes x lv y) : roundTrip x = .ok y := by
  obtain ⟨td, h1, h2⟩ := h _ le_rfl
  have h3 := h2 []
  rw [List.append_nil] at h3
  simp only [Verif.roundTrip, treeFlatten, h1, bind, Except.bind, h3]
  rfl

theorem Goes.jit {x y : Obj} {lv : List Obj} (h : Goes x lv y) :
    jitRoundTrip x = if lv.all Obj.isArrayLike then .ok y else .error .typeError := by
  obtain ⟨td, h1, h2⟩ := h _ le_rfl
  have h3 := h2 []
  rw [List.append_nil] at h3
  simp only [jitRoundTrip, treeFlatten, h1, bind, Except.bind, h3]
  rfl

theorem postInit_eq (ts : List ℕ) (c : Ctl) :
    Obj.postInit (.tuple (ts.map .int)) (Ctl.toObj c)
      = .ok (.tuple [.tuple (ts.map .int)], .tuple [Ctl.toObj c]) := by
  cases c <;> rfl

theorem construct_base (ts : List ℕ) (c : Ctl) (nm nz sp : Obj) :
    Obj.construct .primitive [nm, .tuple (ts.map .int), Ctl.toObj c, nz, sp]
      = .ok (.inst .primitive [nm, .tuple [.tuple (ts.map .int)], .tuple [Ctl.toObj c], nz, sp]) := by
  simp only [Obj.construct, postInit_eq]; rfl

theorem construct_ham (ts : List ℕ) (c : Ctl) (nm nz sp : Obj) :
    Obj.construct .hamEvo [nm, .tuple (ts.map .int), Ctl.toObj c, nz, sp]
      = .ok (.inst .hamEvo [nm, .tuple [.tuple (ts.map .int)], .tuple [Ctl.toObj c], nz, sp, .num 0]) := by
  simp only [Obj.construct, postInit_eq]; rfl

theorem construct_param (ts : List ℕ) (c : Ctl) (nm nz sp p sh : Obj) :
    Obj.construct .parametric [nm, .tuple (ts.map .int), Ctl.toObj c, nz, sp, p, sh]
      = .ok (.inst .parametric [nm, .tuple [.tuple (ts.map .int)], .tuple [Ctl.toObj c], nz, sp, p, sh]) := by
  simp only [Obj.construct, Obj.construct.parametric, postInit_eq]; rfl

/-- The leaves of a gate. -/
def gateLeaves (g : Gate) : List Obj :=
  match g.cls with
  | .phase _ _ => [g.toObj]
  | _ => []

theorem goes_gate (g : Gate) : Goes g.toObj (gateLeaves g) g.resetShift.toObj := by
  obtain ⟨cls, nm, ts, c, nz, sp⟩ := g
  cases cls with
  | primitive => exact Goes.childless rfl rfl (construct_base ts c _ _ _)
  | parametric p s => exact Goes.childless rfl rfl (construct_param ts c _ _ _ _ _)
  | phase p s => exact Goes.leaf
  | hamEvo s => exact Goes.childless rfl rfl (construct_ham ts c _ _ _)

mutual
/-- The leaves of an operation. -/
def leaves : Op → List Obj
  | .prim g => gateLeaves g
  | .comp _ ops => leavesList ops
def leavesList : List Op → List Obj
  | [] => []
  | o :: os => leaves o ++ leavesList os
end

mutual
theorem goes_op (o : Op) (h : ¬ o.HasKind CompKind.IsCircuit) :
    Goes o.toObj (leaves o) (o.mapGates Gate.resetShift).toObj := by
  cases o with
  | prim g => simpa only [Op.toObj, leaves, Op.mapGates] using goes_gate g
  | comp k ops =>
    simp only [Op.HasKind, not_or] at h
    have hl := goes_ops ops h.2
    simp only [Op.toObj, leaves, Op.mapGates]
    cases k with
    | circ n fs => exact absurd ⟨n, fs, rfl⟩ h.1
    | seq => exact Goes.node rfl rfl (by simp) hl rfl
    | scale p => exact Goes.node rfl rfl (by simp) hl rfl
    | add => exact Goes.node rfl rfl (by simp) hl rfl
    | obs => exact Goes.node rfl rfl (by simp) hl rfl
theorem goes_ops (os : List Op) (h : ¬ Op.AnyKind CompKind.IsCircuit os) :
    GoesList (Op.toObjs os) (leavesList os) (Op.toObjs (Op.mapGatesList Gate.resetShift os)) := by
  cases os with
  | nil => simpa only [Op.toObjs, leavesList, Op.mapGatesList] using GoesList.nil
  | cons o os =>
    simp only [Op.AnyKind, not_or] at h
    simpa only [Op.toObjs, leavesList, Op.mapGatesList] using GoesList.cons (goes_op o h.1) (goes_ops os h.2)
end

mutual
theorem mapGates_id {f : Gate → Gate} (o : Op) (h : ∀ g ∈ o.gates, f g = g) : o.mapGates f = o := by
  cases o with
  | prim g => simp only [Op.mapGates, h g (by simp [Op.gates])]
  | comp k ops => simp only [Op.mapGates, mapGatesList_id ops (by simpa only [Op.gates] using h)]
theorem mapGatesList_id {f : Gate → Gate} (os : List Op) (h : ∀ g ∈ Op.gatesList os, f g = g) :
    Op.mapGatesList f os = os := by
  cases os with
  | nil => rfl
  | cons o os =>
    simp only [Op.gatesList, List.mem_append] at h
    simp only [Op.mapGatesList, mapGates_id o fun g hg => h g (.inl hg), mapGatesList_id os fun g hg => h g (.inr hg)]
end

theorem resetShift_eq {g : Gate} (h : ∀ s, g.cls = .hamEvo s → s = 0) : g.resetShift = g := by
  obtain ⟨cls, nm, ts, c, nz, sp⟩ := g
  cases cls with
  | hamEvo s => cases h s rfl; rfl
  | _ => rfl

theorem gateLeaves_all (g : Gate) : (gateLeaves g).all Obj.isArrayLike = true ↔ ¬ g.IsPhase := by
  obtain ⟨cls, nm, ts, c, nz, sp⟩ := g
  cases cls <;> simp [gateLeaves, Gate.IsPhase, Gate.toObj, Obj.isArrayLike]

mutual
theorem leaves_all (o : Op) : (leaves o).all Obj.isArrayLike = true ↔ ∀ g ∈ o.gates, ¬ g.IsPhase := by
  cases o with
  | prim g => simpa only [leaves, Op.gates, List.mem_singleton, forall_eq] using gateLeaves_all g
  | comp k ops => simpa only [leaves, Op.gates] using leavesList_all ops
theorem leavesList_all (os : List Op) : (leavesList os).all Obj.isArrayLike = true ↔ ∀ g ∈ Op.gatesList os, ¬ g.IsPhase := by
  cases os with
  | nil => simp [leavesList, Op.gatesList]
  | cons o os =>
    have h1 := leaves_all o
    have h2 := leavesList_all os
    simp only [leavesList, Op.gatesList, List.all_append, Bool.and_eq_true, List.mem_append, h1, h2]
    exact ⟨fun h g hg => hg.elim (h.1 g) (h.2 g), fun h => ⟨fun g hg => h g (.inl hg), fun g hg => h g (.inr hg)⟩⟩
end

theorem jitGate_cases (g : Gate) : jitGate g = if g.IsPhase then .error .typeError else .ok g.resetShift := by
  obtain ⟨cls, nm, ts, c, nz, sp⟩ := g
  cases cls with
  | phase p s => rw [if_pos ⟨p, s, rfl⟩]; rfl
  | _ => rw [if_neg (by simp [Gate.IsPhase])]; rfl

mutual
theorem jitOp_cases (o : Op) (h : ¬ o.HasKind CompKind.IsCircuit) :
    jitOp o = if ∃ g ∈ o.gates, g.IsPhase then .error .typeError else .ok (o.mapGates Gate.resetShift) := by
  cases o with
  | prim g =>
    simp only [jitOp, jitGate_cases, Op.gates, List.mem_singleton, exists_eq_left, Op.mapGates]
    by_cases hg : g.IsPhase
    · rw [if_pos hg, if_pos hg]; rfl
    · rw [if_neg hg, if_neg hg]; rfl
  | comp k ops =>
    simp only [Op.HasKind, not_or] at h
    have hl := jitOps_cases ops h.2
    have e : jitOp (.comp k ops) = jitOps ops >>= fun x => pure (.comp k x) := by
      cases k with
      | circ n fs => exact absurd ⟨n, fs, rfl⟩ h.1
      | _ => simp only [jitOp]
    have hG : (Op.comp k ops).gates = Op.gatesList ops := by simp only [Op.gates]
    have hM : (Op.comp k ops).mapGates Gate.resetShift = .comp k (Op.mapGatesList Gate.resetShift ops) := by
      simp only [Op.mapGates]
    rw [e, hl, hM]
    by_cases hg : ∃ g ∈ Op.gatesList ops, g.IsPhase
    · rw [if_pos hg, if_pos (by rw [hG]; exact hg)]; rfl
    · rw [if_neg hg, if_neg (by rw [hG]; exact hg)]; rfl
theorem jitOps_cases (os : List Op) (h : ¬ Op.AnyKind CompKind.IsCircuit os) :
    jitOps os = if ∃ g ∈ Op.gatesList os, g.IsPhase then .error .typeError
      else .ok (Op.mapGatesList Gate.resetShift os) := by
  cases os with
  | nil => simp [jitOps, Op.gatesList, Op.mapGatesList]
  | cons o os =>
    simp only [Op.AnyKind, not_or] at h
    have h1 := jitOp_cases o h.1
    have h2 := jitOps_cases os h.2
    simp only [jitOps, h1, h2, Op.gatesList, List.mem_append, Op.mapGatesList]
    by_cases hg : ∃ g ∈ o.gates, g.IsPhase
    · obtain ⟨g, a, b⟩ := hg
      rw [if_pos (c := ∃ g ∈ o.gates, g.IsPhase) ⟨g, a, b⟩,
        if_pos (c := ∃ g, (g ∈ o.gates ∨ g ∈ Op.gatesList os) ∧ g.IsPhase) ⟨g, .inl a, b⟩]; rfl
    · rw [if_neg hg]
      by_cases hg' : ∃ g ∈ Op.gatesList os, g.IsPhase
      · obtain ⟨g, a, b⟩ := hg'
        rw [if_pos (c := ∃ g ∈ Op.gatesList os, g.IsPhase) ⟨g, a, b⟩,
          if_pos (c := ∃ g, (g ∈ o.gates ∨ g ∈ Op.gatesList os) ∧ g.IsPhase) ⟨g, .inr a, b⟩]; rfl
      · rw [if_neg hg', if_neg (by
          rintro ⟨g, a | a, b⟩
          · exact hg ⟨g, a, b⟩
          · exact hg' ⟨g, a, b⟩)]; rfl
end

theorem jit_cases (o : Op) (h : ¬ o.HasKind CompKind.IsCircuit) :
    jitRoundTrip o.toObj
      = if ∃ g ∈ o.gates, g.IsPhase then .error .typeError else .ok (o.mapGates Gate.resetShift).toObj := by
  rw [(goes_op o h).jit]
  by_cases hg : ∃ g ∈ o.gates, g.IsPhase
  · rw [if_pos hg, if_neg]
    rw [leaves_all]
    obtain ⟨g, a, b⟩ := hg
    exact fun h => h g a b
  · rw [if_neg hg, if_pos]
    rw [leaves_all]
    exact fun g a b => hg ⟨g, a, b⟩

/-! ### Distinct operations are distinct objects -/

theorem map_toObj_injective {α : Type} {f : α → Obj} (hf : Function.Injective f) {l l' : List α}
    (h : l.map f = l'.map f) : l = l' := (List.map_injective_iff.2 hf) h

theorem ctl_injective : Function.Injective Ctl.toObj := by
  have h : Function.Injective CIdx.toObj := by
    intro a b hab
    cases a <;> cases b <;> simp_all [CIdx.toObj]
  intro a b hab
  cases a <;> cases b <;> simp only [Ctl.toObj, Obj.tuple.injEq, reduceCtorEq] at hab ⊢
  exact congrArg some (map_toObj_injective h hab)

theorem noise_injective : Function.Injective noiseObj := by
  have h : Function.Injective NoiseInstance.toObj := by
    rintro ⟨t, p⟩ ⟨t', p'⟩ hab
    simp only [NoiseInstance.toObj, Obj.inst.injEq, List.cons.injEq, Obj.noiseType.injEq, true_and, and_true] at hab
    obtain ⟨rfl, hp⟩ := hab
    cases p <;> cases p' <;> simp only [ErrProb.toObj, reduceCtorEq, Obj.num.injEq, Obj.tuple.injEq] at hp
    · rw [hp]
    · rw [map_toObj_injective (f := Obj.num) (fun a b h => by simpa using h) hp]
  intro a b hab
  cases a <;> cases b <;> simp only [noiseObj, Obj.tuple.injEq, reduceCtorEq] at hab ⊢
  exact congrArg some (map_toObj_injective h hab)

theorem param_injective : Function.Injective Param.toObj := by
  intro a b hab
  cases a <;> cases b <;> simp_all [Param.toObj]

theorem base_injective {g g' : Gate} (h : g.baseFields = g'.baseFields) :
    g.generatorName = g'.generatorName ∧ g.target = g'.target ∧ g.control = g'.control ∧ g.noise = g'.noise ∧
      g.sparse = g'.sparse := by
  simp only [Gate.baseFields, List.cons.injEq, Obj.str.injEq, Obj.tuple.injEq, Obj.bool.injEq, and_true] at h
  obtain ⟨h1, h2, h3, h4, h5⟩ := h
  exact ⟨h1, map_toObj_injective (fun a b h => by simpa using h) h2, ctl_injective h3, noise_injective h4, h5⟩

theorem gate_injective : Function.Injective Gate.toObj := by
  intro g g' h
  have hb : g.baseFields = g'.baseFields ∧ g.cls = g'.cls := by
    obtain ⟨cls, nm, ts, c, nz, sp⟩ := g
    obtain ⟨cls', nm', ts', c', nz', sp'⟩ := g'
    cases cls <;> cases cls' <;>
      simp only [Gate.toObj, Obj.inst.injEq, reduceCtorEq, false_and, true_and] at h
    · exact ⟨h, rfl⟩
    all_goals
      obtain ⟨h1, h2⟩ := List.append_inj h rfl
      refine ⟨h1, ?_⟩
      simp only [List.cons.injEq, Obj.num.injEq, and_true] at h2
    · rw [param_injective h2.1, h2.2]
    · rw [param_injective h2.1, h2.2]
    · rw [h2]
  obtain ⟨h1, h2, h3, h4, h5⟩ := base_injective hb.1
  obtain ⟨cls, nm, ts, c, nz, sp⟩ := g
  obtain ⟨cls', nm', ts', c', nz', sp'⟩ := g'
  simp_all

theorem kind_injective {k k' : CompKind} (h : k.cls = k'.cls) (h' : k.fields = k'.fields) : k = k' := by
  cases k <;> cases k' <;> simp only [CompKind.cls, reduceCtorEq] at h <;>
    simp only [CompKind.fields, List.cons.injEq, Obj.int.injEq, Obj.list.injEq, and_true] at h'
  · rfl
  · rw [param_injective h']
  · rfl
  · rfl
  · rw [h'.1, map_toObj_injective (f := Obj.str) (fun a b h => by simpa using h) h'.2]

mutual
theorem op_injective (o o' : Op) (h : o.toObj = o'.toObj) : o = o' := by
  cases o with
  | prim g =>
    cases o' with
    | prim g' =>
      simp only [Op.toObj] at h
      rw [gate_injective h]
    | comp k ops =>
      obtain ⟨cls, nm, ts, c, nz, sp⟩ := g
      simp only [Op.toObj] at h
      cases cls <;> cases k <;> simp [Gate.toObj, CompKind.cls] at h
  | comp k ops =>
    cases o' with
    | prim g =>
      obtain ⟨cls, nm, ts, c, nz, sp⟩ := g
      simp only [Op.toObj] at h
      cases cls <;> cases k <;> simp [Gate.toObj, CompKind.cls] at h
    | comp k' ops' =>
      simp only [Op.toObj, Obj.inst.injEq, List.cons.injEq, Obj.list.injEq] at h
      rw [kind_injective h.1 h.2.2, ops_injective ops ops' h.2.1]
theorem ops_injective (os os' : List Op) (h : Op.toObjs os = Op.toObjs os') : os = os' := by
  cases os with
  | nil => cases os' with
    | nil => rfl
    | cons => simp [Op.toObjs] at h
  | cons o os => cases os' with
    | nil => simp [Op.toObjs] at h
    | cons o' os' =>
      simp only [Op.toObjs, List.cons.injEq] at h
      rw [op_injective o o' h.1, ops_injective os os' h.2]
end

end Pytree

open Pytree

/-- The objects of different operations are different, so that equal objects mean equal operations. -/
theorem Op.toObj_injective : Function.Injective Op.toObj := fun o o' h => op_injective o o' h

/-- **C34, restricted to trees without `QuantumCircuit` objects and without shifted Hamiltonian evolutions**: flattening
and unflattening an operation returns an equal object. -/
theorem C34_op_partial (o : Op) (hc : ¬ o.HasKind CompKind.IsCircuit)
    (hs : ∀ g ∈ o.gates, ∀ s, g.cls = .hamEvo s → s = 0) : roundTrip o.toObj = .ok o.toObj := by
  have := (goes_op o hc).roundTrip
  rwa [mapGates_id o fun g hg => resetShift_eq (hs g hg)] at this

/-- **C34** for noise instances and density matrices. -/
theorem C34_noise_density (z : NoiseInstance) (ρ : DensityMatrix ℂ) :
    roundTrip z.toObj = .ok z.toObj ∧ roundTrip ρ.toObj = .ok ρ.toObj :=
  ⟨(Goes.childless rfl rfl rfl).roundTrip, (Goes.childless rfl rfl rfl).roundTrip⟩

/-- **C34 is false for `QuantumCircuit`**: for every circuit the round trip returns an object whose `n_qubits` is the list
of operations, whose operations are the names in `fparams` and whose `fparams` is the number of qubits. -/
theorem C34_circuit_false (n : ℕ) (fs : List String) (ops : List Op) :
    roundTrip (Op.comp (.circ n fs) ops).toObj
      = .ok (.inst .quantumCircuit [.list (fs.map .str), .list (Op.toObjs ops), .int n]) ∧
    (.inst .quantumCircuit [.list (fs.map .str), .list (Op.toObjs ops), .int n]) ≠ (Op.comp (.circ n fs) ops).toObj := by
  refine ⟨?_, ?_⟩
  · have hg : Goes (Op.comp (.circ n fs) ops).toObj [.int n]
        (.inst .quantumCircuit [.list (fs.map .str), .list (Op.toObjs ops), .int n]) := by
      intro d hd
      obtain ⟨d, rfl⟩ : ∃ e, d = e + 2 := ⟨d - 2, by
        simp only [Op.toObj, Obj.depth, Obj.depthList] at hd; omega⟩
      exact ⟨.node .quantumCircuit [.list (Op.toObjs ops), .list (fs.map .str)] [.leaf], by
        simp only [Op.toObj]; rfl, fun rest => rfl⟩
    exact hg.roundTrip
  · simp [Op.toObj, CompKind.fields]

/-- **C34 is false for Hamiltonian evolutions with a shift**: the shift is lost. -/
theorem C34_shift_false {g : Gate} {s : ℝ} (hg : g.cls = .hamEvo s) (hs : s ≠ 0) :
    roundTrip g.toObj = .ok ({ g with cls := .hamEvo 0 } : Gate).toObj ∧
    ({ g with cls := .hamEvo 0 } : Gate).toObj ≠ g.toObj := by
  have h1 := (goes_gate g).roundTrip
  obtain ⟨cls, nm, ts, c, nz, sp⟩ := g
  subst hg
  refine ⟨h1, fun h => hs ?_⟩
  simp [Gate.toObj, Gate.baseFields] at h
  exact h.symm

/-- **C34 is false under `jax.jit` for `PHASE` gates**: an operation without `QuantumCircuit` is refused (with TypeError)
exactly if it contains a `PHASE` gate. -/
theorem C34_jit_phase (o : Op) (hc : ¬ o.HasKind CompKind.IsCircuit) :
    jitRoundTrip o.toObj = .error .typeError ↔ ∃ g ∈ o.gates, g.IsPhase := by
  rw [jit_cases o hc]
  by_cases hg : ∃ g ∈ o.gates, g.IsPhase
  · simp [hg]
  · rw [if_neg hg]; simp only [reduceCtorEq, false_iff]; exact hg

/-- The round trip that the model of the parameter-shift gradients uses (`jitOp`) is the one of this file. -/
theorem C34_jit_model (o : Op) (hc : ¬ o.HasKind CompKind.IsCircuit) :
    jitRoundTrip o.toObj = (jitOp o).map Op.toObj := by
  rw [jit_cases o hc, jitOp_cases o hc]
  by_cases hg : ∃ g ∈ o.gates, g.IsPhase
  · rw [if_pos hg, if_pos hg]; rfl
  · rw [if_neg hg, if_neg hg]; rfl

/-- A tree that meets the hypotheses: `Observable([Scale([X(0), RZ("a", 1, control=0)], 2), Add([PHASE(1, 0)])])`. -/
noncomputable def pytreeExample : Op :=
  mkObservable (.list [mkScale (.list [.prim (Gate.X (.int 0)), .prim (Gate.RZ (.str "a") (.int 1) (.int 0))]) (.num 2),
    mkAdd (.list [.prim (Gate.PHASE (.num 1) (.int 0))])])

example : ¬ pytreeExample.HasKind CompKind.IsCircuit ∧
    (∀ g ∈ pytreeExample.gates, ∀ s, g.cls = .hamEvo s → s = 0) ∧ ∃ g ∈ pytreeExample.gates, g.IsPhase := by
  simp [pytreeExample, mkObservable, mkScale, mkAdd, OpArg.toList, Op.HasKind, Op.AnyKind, CompKind.IsCircuit, Op.gates,
    Op.gatesList, Gate.X, Gate.RZ, Gate.PHASE, mkGate, Gate.IsPhase]

/-- A shifted Hamiltonian evolution. -/
example : ∃ (g : Gate) (s : ℝ), g.cls = .hamEvo s ∧ s ≠ 0 :=
  ⟨{ Gate.HamiltonianEvolution (.int 0) with cls := .hamEvo 1 }, 1, rfl, one_ne_zero⟩

end Verif
