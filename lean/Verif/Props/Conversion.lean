import Verif.Model.Conversion
import Verif.Props.Pytree
import Verif.Props.Expectation

/-! # C33: conversion between sparse and dense operations -/

set_option autoImplicit false

namespace Verif
open NDArray

/-- The gate with another storage format. -/
def Gate.withFormat (sparse : Bool) (g : Gate) : Gate := { g with sparse := sparse }

mutual
/-- Trees for which the conversion is faithful: Hamiltonian evolutions have no shift, circuits no feature parameters, and
every `Scale` has exactly one operation, which is a gate or again a `Scale`. -/
def Op.Convertible : Op → Prop
  | .prim g => ∀ s, g.cls = .hamEvo s → s = 0
  | .comp (.scale _) ops =>
    match ops with
    | [o] => ((∃ g, o = .prim g) ∨ ∃ p os, o = .comp (.scale p) os) ∧ o.Convertible
    | _ => False
  | .comp (.circ _ fs) ops => fs = [] ∧ Op.AllConvertible ops
  | .comp _ ops => Op.AllConvertible ops
/-- The same for all operations of a list. -/
def Op.AllConvertible : List Op → Prop
  | [] => True
  | o :: os => o.Convertible ∧ Op.AllConvertible os
end

namespace Conversion

theorem convertGate_eq {g : Gate} (b : Bool) (h : ∀ s, g.cls = .hamEvo s → s = 0) : convertGate b g = g.withFormat b := by
  obtain ⟨cls, nm, ts, c, nz, sp⟩ := g
  cases cls with
  | hamEvo s => cases h s rfl; rfl
  | _ => rfl

mutual
theorem convert_eq (b : Bool) (o : Op) (h : o.Convertible) : convert b o = .ok (o.mapGates (Gate.withFormat b)) := by
  match o with
  | .prim g =>
    simp only [Op.Convertible] at h
    simp only [convert, Op.mapGates, convertGate_eq b h]
  | .comp .seq ops =>
    simp only [Op.Convertible] at h
    simp only [convert, convertList_eq b ops h, Op.mapGates]; rfl
  | .comp .add ops =>
    simp only [Op.Convertible] at h
    simp only [convert, convertList_eq b ops h, Op.mapGates]; rfl
  | .comp .obs ops =>
    simp only [Op.Convertible] at h
    simp only [convert, convertList_eq b ops h, Op.mapGates]; rfl
  | .comp (.circ n fs) ops =>
    simp only [Op.Convertible] at h
    simp only [convert, convertList_eq b ops h.2, Op.mapGates, h.1]; rfl
  | .comp (.scale p) [o] =>
    simp only [Op.Convertible] at h
    simp only [convert, convert_eq b o h.2, Op.mapGates, Op.mapGatesList]
    obtain ⟨g, rfl⟩ | ⟨q, os, rfl⟩ := h.1
    · simp only [Op.mapGates]; rfl
    · simp only [Op.mapGates]; rfl
  | .comp (.scale p) [] => simp [Op.Convertible] at h
  | .comp (.scale p) (_ :: _ :: _) => simp [Op.Convertible] at h
theorem convertList_eq (b : Bool) (os : List Op) (h : Op.AllConvertible os) :
    convertList b os = .ok (Op.mapGatesList (Gate.withFormat b) os) := by
  match os with
  | [] => rfl
  | o :: os =>
    simp only [Op.AllConvertible] at h
    simp only [convertList, convert_eq b o h.1, convertList_eq b os h.2, Op.mapGatesList]; rfl
end

mutual
theorem mapGates_mapGates (f f' : Gate → Gate) (o : Op) : (o.mapGates f).mapGates f' = o.mapGates (f' ∘ f) := by
  match o with
  | .prim g => simp only [Op.mapGates, Function.comp]
  | .comp k ops => simp only [Op.mapGates, mapGatesList_mapGatesList f f' ops]
theorem mapGatesList_mapGatesList (f f' : Gate → Gate) (os : List Op) :
    Op.mapGatesList f' (Op.mapGatesList f os) = Op.mapGatesList (f' ∘ f) os := by
  match os with
  | [] => rfl
  | o :: os => simp only [Op.mapGatesList, mapGates_mapGates f f' o, mapGatesList_mapGatesList f f' os]
end

mutual
theorem convertible_format (b : Bool) (o : Op) (h : o.Convertible) : (o.mapGates (Gate.withFormat b)).Convertible := by
  match o with
  | .prim g => simpa only [Op.mapGates, Op.Convertible, Gate.withFormat] using h
  | .comp .seq ops =>
    simp only [Op.Convertible] at h
    simpa only [Op.mapGates, Op.Convertible] using allConvertible_format b ops h
  | .comp .add ops =>
    simp only [Op.Convertible] at h
    simpa only [Op.mapGates, Op.Convertible] using allConvertible_format b ops h
  | .comp .obs ops =>
    simp only [Op.Convertible] at h
    simpa only [Op.mapGates, Op.Convertible] using allConvertible_format b ops h
  | .comp (.circ n fs) ops =>
    simp only [Op.Convertible] at h
    simpa only [Op.mapGates, Op.Convertible] using ⟨h.1, allConvertible_format b ops h.2⟩
  | .comp (.scale p) [o] =>
    simp only [Op.Convertible] at h
    simp only [Op.mapGates, Op.mapGatesList, Op.Convertible]
    refine ⟨?_, convertible_format b o h.2⟩
    obtain ⟨g, rfl⟩ | ⟨q, os, rfl⟩ := h.1
    · exact .inl ⟨g.withFormat b, by simp only [Op.mapGates]⟩
    · exact .inr ⟨q, Op.mapGatesList (Gate.withFormat b) os, by simp only [Op.mapGates]⟩
  | .comp (.scale p) [] => simp [Op.Convertible] at h
  | .comp (.scale p) (_ :: _ :: _) => simp [Op.Convertible] at h
theorem allConvertible_format (b : Bool) (os : List Op) (h : Op.AllConvertible os) :
    Op.AllConvertible (Op.mapGatesList (Gate.withFormat b) os) := by
  match os with
  | [] => trivial
  | o :: os =>
    simp only [Op.AllConvertible] at h
    simp only [Op.mapGatesList, Op.AllConvertible]
    exact ⟨convertible_format b o h.1, allConvertible_format b os h.2⟩
end

theorem zero1_at0 : zero1.get [0] = 1 := by simpa [lab1_bits] using zero1_get 0

theorem zero1_at1 : zero1.get [1] = 0 := by simpa [lab1_bits] using zero1_get 1

end Conversion

open Conversion

/-- **C33, gates**: `to_sparse` and `to_dense` of a gate are what the code computes with `tree_flatten` and
`tree_unflatten` on the attributes of the object, and change nothing but the storage format (and the shift of a Hamiltonian
evolution, see `C33_shift_false`). -/
theorem C33_gate (b : Bool) (g : Gate) :
    (∃ fields, g.toObj = .inst .primitive fields ∧
        (do let (ch, aux) ← Obj.treeFlatten .primitive fields
            Obj.treeUnflatten .primitive (aux.dropLast ++ [Obj.bool b]) ch) = .ok (convertGate b g).toObj) ∨
    (∃ fields, g.toObj = .inst .hamEvo fields ∧
        (do let (ch, aux) ← Obj.treeFlatten .hamEvo fields
            Obj.treeUnflatten .hamEvo (aux.dropLast ++ [Obj.bool b]) ch) = .ok (convertGate b g).toObj) ∨
    (∃ c fields, (c = .parametric ∨ c = .phase) ∧ g.toObj = .inst c fields ∧
        (do let (ch, aux) ← Obj.treeFlatten c fields
            Obj.treeUnflatten c (aux.take (aux.length - 3) ++ [Obj.bool b] ++ aux.drop (aux.length - 2)) ch)
          = .ok (convertGate b g).toObj) := by
  obtain ⟨cls, nm, ts, c, nz, sp⟩ := g
  cases cls with
  | primitive => exact .inl ⟨_, rfl, Pytree.construct_base ts c _ _ _⟩
  | hamEvo s => exact .inr (.inl ⟨_, rfl, Pytree.construct_ham ts c _ _ _⟩)
  | parametric p s => exact .inr (.inr ⟨_, _, .inl rfl, rfl, Pytree.construct_param ts c _ _ _ _ _⟩)
  | phase p s =>
    refine .inr (.inr ⟨_, _, .inr rfl, rfl, ?_⟩)
    show Obj.construct .phase [_, .tuple (ts.map .int), Ctl.toObj c, _, _, _, _] = _
    simp only [Obj.construct, Obj.construct.parametric, Pytree.postInit_eq]; rfl

/-- **C33, restricted to convertible trees**: `to_sparse` and `to_dense` replace the storage format of every gate and
change nothing else: the same operations in the same order, the same parameters.  Converting a dense tree to sparse and
back returns the same tree. -/
theorem C33_convertible_partial (o : Op) (h : o.Convertible) :
    toSparse o = .ok (o.mapGates fun g => { g with sparse := true }) ∧
    toDense o = .ok (o.mapGates fun g => { g with sparse := false }) ∧
    ((∀ g ∈ o.gates, g.sparse = false) → (do toDense (← toSparse o)) = .ok o) := by
  refine ⟨convert_eq true o h, convert_eq false o h, fun hd => ?_⟩
  have h1 : toSparse o = .ok (o.mapGates (Gate.withFormat true)) := convert_eq true o h
  rw [h1]
  show convert false _ = _
  rw [convert_eq false _ (convertible_format true o h), mapGates_mapGates, Pytree.mapGates_id]
  intro g hg
  obtain ⟨cls, nm, ts, c, nz, sp⟩ := g
  have := hd _ hg
  simp only at this
  subst this
  rfl

/-- A convertible tree: a circuit with a controlled rotation and a scaled gate in a sum. -/
example : ∃ o : Op, o.Convertible ∧ (∀ g ∈ o.gates, g.sparse = false) ∧ o.gates.length = 3 := by
  refine ⟨mkCircuit 2 (.list [.prim (Gate.RX (.str "a") (.int 1) (.int 0)),
    mkAdd (.list [mkScale (.one (.prim (Gate.X (.int 0)))) (.num 2), .prim (Gate.Z (.int 1))])]), ?_, ?_, ?_⟩ <;>
  simp [mkCircuit, mkAdd, mkScale, OpArg.toList, Op.iter, Op.Convertible, Op.AllConvertible, Op.gates, Op.gatesList, Gate.RX,
    Gate.X, Gate.Z, mkGate]

/-- **C33 is false for `Scale` with several operations**: all operations but the first are dropped.  For instance
`Scale(OpSequence([X(0), X(0)]), 2)` maps `|0⟩` to `2|0⟩`, but its `to_dense` maps `|0⟩` to `2|1⟩`. -/
theorem C33_scale_false (so : SetOrder) :
    (∀ (p : Param) (o : Op) (os : List Op), toDense (.comp (.scale p) (o :: os)) = toDense (.comp (.scale p) [o]) ∧
      toSparse (.comp (.scale p) (o :: os)) = toSparse (.comp (.scale p) [o])) ∧
    ∃ (o o' : Op) (r r' : NDArray ℂ), o = mkScale (.one (mkSeq [.prim (Gate.X (.int 0)), .prim (Gate.X (.int 0))])) (.num 2) ∧
      toDense o = .ok o' ∧ o.call so [] (some (.vec zero1)) = .ok (some (.vec r)) ∧
      o'.call so [] (some (.vec zero1)) = .ok (some (.vec r')) ∧ r.get [0] = 2 ∧ r'.get [0] = 0 := by
  refine ⟨fun p o os => ⟨by simp only [toDense, convert], by simp only [toSparse, convert]⟩, ?_⟩
  obtain ⟨r, r1, r2, r3⟩ := call_means so zero1_isKet (values := [])
    (.scale (.num 2) (.cons (.gate (leafX (values := [])).any) (.cons (.gate (leafX (values := [])).any) .nil)))
  obtain ⟨q, q1, q2, q3⟩ := call_means so zero1_isKet (values := [])
    (.scale (.num 2) (.cons (.gate (leafX (values := [])).any) .nil))
  refine ⟨_, .comp (.scale (.num 2)) [.prim (Gate.X (.int 0))], r, q, rfl, ?_, r1, q1, ?_, ?_⟩
  · simp only [toDense, mkScale, OpArg.toList, mkSeq, Op.iter, Op.flattenList, Op.flatten, List.singleton_append, convert]
    rfl
  · have := congrFun r3 (lab1 0)
    simp only [ket, lab1_bits, one_mul, Matrix.smul_mulVec, Pi.smul_apply, ← Matrix.mulVec_mulVec, mulVec_lab1, zero1_at0, zero1_at1,
      StdGate.mat, matE] at this
    norm_num [zero1_at0, zero1_at1] at this
    exact this
  · have := congrFun q3 (lab1 0)
    simp only [ket, lab1_bits, one_mul, Matrix.smul_mulVec, Pi.smul_apply, mulVec_lab1, zero1_at0, zero1_at1, StdGate.mat, matE] at this
    norm_num [zero1_at0, zero1_at1] at this
    exact this

/-- **C33 is false for `Scale` of `Add`**: the sum becomes a sequence.  `Scale([Add([X(0), X(0)])], 2)` maps `|0⟩` to
`4|1⟩`, but its `to_dense` maps `|0⟩` to `2|0⟩`. -/
theorem C33_add_false (so : SetOrder) :
    ∃ (o o' : Op) (r r' : NDArray ℂ),
      o = mkScale (.list [mkAdd (.list [.prim (Gate.X (.int 0)), .prim (Gate.X (.int 0))])]) (.num 2) ∧
      toDense o = .ok o' ∧ o.call so [] (some (.vec zero1)) = .ok (some (.vec r)) ∧
      o'.call so [] (some (.vec zero1)) = .ok (some (.vec r')) ∧ r.get [1] = 4 ∧ r'.get [1] = 0 ∧ r'.get [0] = 2 := by
  obtain ⟨r, r1, r2, r3⟩ := call_means so zero1_isKet (values := [])
    (.scale (.num 2) (.cons (.add (.cons (.gate (leafX (values := [])).any) (.one (.gate (leafX (values := [])).any)))) .nil))
  obtain ⟨q, q1, q2, q3⟩ := call_means so zero1_isKet (values := [])
    (.scale (.num 2) (.cons (.gate (leafX (values := [])).any) (.cons (.gate (leafX (values := [])).any) .nil)))
  refine ⟨_, .comp (.scale (.num 2)) [.prim (Gate.X (.int 0)), .prim (Gate.X (.int 0))], r, q, rfl, ?_, r1, q1, ?_, ?_, ?_⟩
  · simp only [toDense, mkScale, OpArg.toList, mkAdd, convert, convertList]
    rfl
  · have := congrFun r3 (lab1 1)
    simp only [ket, lab1_bits, one_mul, Matrix.smul_mulVec, Pi.smul_apply, Matrix.add_mulVec, Pi.add_apply, mulVec_lab1,
      zero1_at0, zero1_at1, StdGate.mat, matE] at this
    norm_num [zero1_at0, zero1_at1] at this
    exact this
  · have := congrFun q3 (lab1 1)
    simp only [ket, lab1_bits, one_mul, Matrix.smul_mulVec, Pi.smul_apply, ← Matrix.mulVec_mulVec, mulVec_lab1, zero1_at0, zero1_at1,
      StdGate.mat, matE] at this
    norm_num [zero1_at0, zero1_at1] at this
    exact this
  · have := congrFun q3 (lab1 0)
    simp only [ket, lab1_bits, one_mul, Matrix.smul_mulVec, Pi.smul_apply, ← Matrix.mulVec_mulVec, mulVec_lab1, zero1_at0, zero1_at1,
      StdGate.mat, matE] at this
    norm_num [zero1_at0, zero1_at1] at this
    exact this

/-- **C33 is false for feature parameters**: the converted circuit has none, so the feature parameters that its gates use
become variational parameters. -/
theorem C33_fparams_false (b : Bool) (n : ℕ) (fs : List String) (ops : List Op) :
    (∀ o', convert b (.comp (.circ n fs) ops) = .ok o' → ∃ ops', o' = .comp (.circ n []) ops') ∧
    ∃ o o' : Op, o = mkCircuit 1 (.list [.prim (Gate.RX (.str "x") (.int 0))]) ["x"] ∧ toDense o = .ok o' ∧
      ∀ strOf, o.nVparams strOf = 0 ∧ o'.nVparams strOf = 1 := by
  refine ⟨fun o' h => ?_, _, mkCircuit 1 (.list [.prim (Gate.RX (.str "x") (.int 0))]), rfl, ?_, fun strOf => ⟨?_, ?_⟩⟩
  · simp only [convert] at h
    rcases hl : convertList b ops with e | os
    · rw [hl] at h; cases h
    · rw [hl] at h
      cases h
      exact ⟨os, rfl⟩
  · simp only [toDense, mkCircuit, OpArg.toList, convert, convertList]
    rfl
  · simp [mkCircuit, OpArg.toList, Op.nVparams, Op.vparams, Op.paramNames, Op.iter, Op.flattenList, Op.flatten, Gate.RX,
      mkGate]
  · simp [mkCircuit, OpArg.toList, Op.nVparams, Op.vparams, Op.paramNames, Op.iter, Op.flattenList, Op.flatten, Gate.RX,
      mkGate]

/-- **C33 is false for Hamiltonian evolutions with a shift and for empty `Scale` objects**: the shift is set to zero, and
converting a `Scale` without operations raises IndexError. -/
theorem C33_shift_false (b : Bool) (g : Gate) {s : ℝ} (hg : g.cls = .hamEvo s) (hs : s ≠ 0) (p : Param) :
    convert b (.prim g) = .ok (.prim { g with cls := .hamEvo 0, sparse := b }) ∧
    ({ g with cls := .hamEvo 0, sparse := b } : Gate).cls ≠ g.cls ∧
    convert b (.comp (.scale p) []) = .error .indexError := by
  refine ⟨?_, ?_, by simp only [convert]⟩
  · simp only [convert, convertGate, hg]
  · rw [hg]
    exact fun h => hs (by injection h with h; exact h.symm)

end Verif
