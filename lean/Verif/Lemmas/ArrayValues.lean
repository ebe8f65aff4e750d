import Verif.Model.ArrayValues
import Verif.Props.ArrayParams
import Verif.Props.Reads

/-!
# Lemmas about array-valued parameters in `run`, `expectation` and the gradients
-/

set_option autoImplicit false

namespace Verif
open NDArray

mutual
/-- Every gate in the operation satisfies `P` and every factor of a `Scale` satisfies `Q`. -/
def Op.OnGates (P : Gate → Prop) (Q : Param → Prop) : Op → Prop
  | .prim g => P g
  | .comp k ops => (∀ p, k = .scale p → Q p) ∧ Op.AllOnGates P Q ops
/-- The same for every operation of a list. -/
def Op.AllOnGates (P : Gate → Prop) (Q : Param → Prop) : List Op → Prop
  | [] => True
  | o :: os => o.OnGates P Q ∧ Op.AllOnGates P Q os
end

mutual
theorem Op.OnGates.mono {P P' : Gate → Prop} {Q Q' : Param → Prop} (hP : ∀ g, P g → P' g) (hQ : ∀ p, Q p → Q' p) (o : Op)
    (h : o.OnGates P Q) : o.OnGates P' Q' := by
  match o with
  | .prim g => exact hP g h
  | .comp k ops => exact ⟨fun p e => hQ p (h.1 p e), Op.AllOnGates.mono hP hQ ops h.2⟩
theorem Op.AllOnGates.mono {P P' : Gate → Prop} {Q Q' : Param → Prop} (hP : ∀ g, P g → P' g) (hQ : ∀ p, Q p → Q' p)
    (os : List Op) (h : Op.AllOnGates P Q os) : Op.AllOnGates P' Q' os := by
  match os with
  | [] => trivial
  | o :: os => exact ⟨Op.OnGates.mono hP hQ o h.1, Op.AllOnGates.mono hP hQ os h.2⟩
end

mutual
theorem onGates_flatten {P : Gate → Prop} {Q : Param → Prop} (o : Op) (h : o.OnGates P Q) {g : Gate}
    (hg : Op.prim g ∈ o.flatten) : P g := by
  match o with
  | .prim g' =>
    simp only [Op.flatten, List.mem_singleton] at hg
    cases hg
    exact h
  | .comp k ops => exact onGates_flattenList ops h.2 (by simpa only [Op.flatten] using hg)
theorem onGates_flattenList {P : Gate → Prop} {Q : Param → Prop} (os : List Op) (h : Op.AllOnGates P Q os) {g : Gate}
    (hg : Op.prim g ∈ Op.flattenList os) : P g := by
  match os with
  | [] => simp [Op.flattenList] at hg
  | o :: os =>
    simp only [Op.flattenList, List.mem_append] at hg
    exact hg.elim (onGates_flatten o h.1) (onGates_flattenList os h.2)
end

theorem onGates_iter {P : Gate → Prop} {Q : Param → Prop} (o : Op) (h : o.OnGates P Q) {g : Gate}
    (hg : Op.prim g ∈ o.iter) : P g := by
  match o with
  | .prim g' =>
    simp only [Op.iter, List.mem_singleton] at hg
    cases hg
    exact h
  | .comp k ops =>
    cases k with
    | scale p => simp only [Op.iter, List.mem_singleton, reduceCtorEq] at hg
    | _ => exact onGates_flattenList ops h.2 (by simpa only [Op.iter] using hg)

mutual
theorem onGates_jit {P : Gate → Prop} {Q : Param → Prop} (hP : ∀ g g', P g → jitGate g = .ok g' → P g') (o : Op)
    (h : o.OnGates P Q) {o' : Op} (ho : jitOp o = .ok o') : o'.OnGates P Q := by
  match o with
  | .prim g =>
    simp only [jitOp, bind, Except.bind] at ho
    rcases hg : jitGate g with e | g'
    · rw [hg] at ho; cases ho
    · rw [hg] at ho
      cases ho
      exact hP g g' h hg
  | .comp k ops =>
    have key : ∀ os', jitOps ops = .ok os' → Op.AllOnGates P Q os' := fun os' => allOnGates_jit hP ops h.2
    have fin : (jitOps ops >>= fun x => pure (Op.comp k x)) = .ok o' → o'.OnGates P Q := by
      intro ho
      simp only [bind, Except.bind] at ho
      rcases hg : jitOps ops with e | os'
      · rw [hg] at ho; cases ho
      · rw [hg] at ho
        cases ho
        exact ⟨h.1, key os' hg⟩
    cases k with
    | circ n fs =>
      cases fs with
      | nil => simp only [jitOp] at ho; cases ho; exact ⟨by simp, trivial⟩
      | cons => simp only [jitOp] at ho; cases ho
    | _ => simp only [jitOp] at ho; exact fin ho
theorem allOnGates_jit {P : Gate → Prop} {Q : Param → Prop} (hP : ∀ g g', P g → jitGate g = .ok g' → P g') (os : List Op)
    (h : Op.AllOnGates P Q os) {os' : List Op} (ho : jitOps os = .ok os') : Op.AllOnGates P Q os' := by
  match os with
  | [] => simp only [jitOps] at ho; cases ho; trivial
  | o :: os =>
    simp only [jitOps, bind, Except.bind] at ho
    rcases h1 : jitOp o with e | o'
    · rw [h1] at ho; cases ho
    · rcases h2 : jitOps os with e | os''
      · rw [h1, h2] at ho; cases ho
      · rw [h1, h2] at ho
        cases ho
        exact ⟨onGates_jit hP o h.1 h1, allOnGates_jit hP os h.2 h2⟩
end

/-! ## The call chain -/

section
variable {v v' : Values} (so : SetOrder)

/-- The factors of `Scale` are read in the same way from both dictionaries. -/
def Param.Same (v v' : Values) (p : Param) : Prop := ∀ s, p = .str s → v.lookup s = v'.lookup s

/-- `apply_gates` with arrays agrees as soon as the operators of the gates do. -/
theorem applyGatesA_eq {ga : GateArg} (h : ∀ g ∈ ga.members, g.unitaryA v' = g.unitary v) (st : State) :
    applyGatesA so st ga v' = applyGates so st ga v := by
  have hp : prepareSequenceReduce (fun g => g.operatorA .unitary v') NDArray.matmul ga false true
      = prepareSequenceReduce (fun g => g.operator .unitary v) NDArray.matmul ga false true := by
    cases ga with
    | single g =>
      have := h g (by simp [GateArg.members])
      simp only [prepareSequenceReduce, Gate.operatorA, Gate.operator, this]
    | list gs =>
      have hm : ∀ g ∈ gs, g.operatorA .unitary v' = g.operator .unitary v := fun g hg => h g hg
      simp only [prepareSequenceReduce, Bool.false_eq_true, if_false, mapM_congr_mem hm]
  simp only [applyGatesA, applyGates_eq_of, applyGatesOf, hp]

/-- All gates of the operation have the same operator for both dictionaries. -/
abbrev Op.SameA (v v' : Values) (o : Op) : Prop := o.OnGates (fun g => g.unitaryA v' = g.unitary v) (Param.Same v v')
/-- The same for a list. -/
abbrev Op.AllSameA (v v' : Values) (os : List Op) : Prop :=
  Op.AllOnGates (fun g => g.unitaryA v' = g.unitary v) (Param.Same v v') os

mutual
theorem tensorA_eq (o : Op) (h : o.SameA v v') (full : Option (List ℕ)) : o.tensorA so v' full = o.tensor so v full := by
  match o with
  | .prim g =>
    have : g.unitaryA v' = g.unitary v := h
    simp only [Op.tensorA, Op.tensor, Gate.tensorA, Gate.tensor, this]
    rfl
  | .comp k ops =>
    have ih := tensorListA_eq ops h.2
    cases k with
    | scale p => simp only [Op.tensorA, Op.tensor, ih, scaleParam_congr (h.1 p rfl)]
    | _ => simp only [Op.tensorA, Op.tensor, ih]
theorem tensorListA_eq (os : List Op) (h : Op.AllSameA v v' os) (full : List ℕ) :
    Op.tensorListA so v' os full = Op.tensorList so v os full := by
  match os with
  | [] => rfl
  | o :: os =>
    simp only [Op.tensorListA, Op.tensorList]
    rw [tensorA_eq o h.1, tensorListA_eq os h.2]
end

theorem expectDMA_eq (ops : List Op) (h : Op.AllSameA v v' ops) (ρ : DensityMatrix ℂ) :
    Op.expectDMA so v' ops ρ = Op.expectDM so v ops ρ := by
  have hh : (Op.comp .obs ops).SameA v v' := ⟨by simp, h⟩
  simp only [Op.expectDMA, Op.expectDM, tensorA_eq so _ hh]

mutual
theorem callA_eq (o : Op) (h : o.SameA v v') (st : Option State) : o.callA so v' st = o.call so v st := by
  match o with
  | .prim g =>
    have hg : ∀ g' ∈ (GateArg.single g).members, g'.unitaryA v' = g'.unitary v := by
      intro g' hg'
      simp only [GateArg.members, List.mem_singleton] at hg'
      subst hg'
      exact h
    simp only [Op.callA, Op.call, applyGatesA_eq so hg]
    cases st <;> rfl
  | .comp k ops =>
    have ih := callSeqA_eq ops h.2
    have ih' := callListA_eq ops h.2
    have ih2 := expectDMA_eq so ops h.2
    cases k with
    | scale p => simp only [Op.callA, Op.call, ih, scaleParam_congr (h.1 p rfl)]
    | obs =>
      cases st with
      | none => rfl
      | some st =>
        cases st with
        | vec a => simp only [Op.callA, Op.call, ih']
        | dm ρ => simp only [Op.callA, Op.call, ih2]
    | add => simp only [Op.callA, Op.call, ih']
    | _ => simp only [Op.callA, Op.call, ih]
theorem callSeqA_eq (os : List Op) (h : Op.AllSameA v v' os) (st : Option State) :
    Op.callSeqA so v' os st = Op.callSeq so v os st := by
  match os with
  | [] => rfl
  | o :: os =>
    simp only [Op.callSeqA, Op.callSeq]
    rw [callA_eq o h.1]
    simp only [callSeqA_eq os h.2]
theorem callListA_eq (os : List Op) (h : Op.AllSameA v v' os) (st : Option State) :
    Op.callListA so v' os st = Op.callList so v os st := by
  match os with
  | [] => rfl
  | o :: os =>
    simp only [Op.callListA, Op.callList]
    rw [callA_eq o h.1, callListA_eq os h.2]
end

theorem applyOpsA_eq {circuit : Op} (h : circuit.SameA v v') (st : State) :
    applyOpsA so st circuit.iter v' = applyOps so st circuit.iter v := by
  simp only [applyOpsA, applyOps, bind, Except.bind]
  rcases ho : opsToGates circuit.iter with e | gs
  · rfl
  · exact applyGatesA_eq so (ga := .list gs) (fun g hg => onGates_iter circuit h (opsToGates_mem ho g hg)) st

theorem expectSingleA_eq {o : Observable} (h : Op.AllSameA v v' o.ops) (st : State) :
    expectSingleA so v' o st = expectSingle so v o st := by
  cases st with
  | vec a => simp only [expectSingleA, expectSingle, Observable.forwardA, Observable.forward, callListA_eq so o.ops h]
  | dm ρ => exact expectDMA_eq so o.ops h ρ

theorem eigenSampleA_eq {obs : List Observable} (h : ∀ o ∈ obs, Op.AllSameA v v' o.ops) (eigh : Eigh) (st : State) (n : ℕ)
    (us : List ℝ) : eigenSampleA so eigh st obs v' n us = eigenSample so eigh st obs v n us := by
  have hm : obs.mapM (observableMatrixA so v' n) = obs.mapM (observableMatrix so v n) := mapM_congr_mem fun o ho => by
    have hh : o.toOp.SameA v v' := ⟨by simp, h o ho⟩
    simp only [observableMatrixA, observableMatrix, tensorA_eq so _ hh]
  simp only [eigenSampleA, eigenSample, hm]
  rfl

theorem gatesExpectationA_eq {ga : GateArg} (hg : ∀ g ∈ ga.members, g.unitaryA v' = g.unitary v) {obs : List Observable}
    (h : ∀ o ∈ obs, Op.AllSameA v v' o.ops) (st : State) :
    gatesExpectationA so st obs ga v' = gatesExpectation so st obs ga v := by
  have : (obs.mapM fun o => (do
      let st ← applyGatesA so st ga v'
      expectSingleA so v' o st : Py ℝ)) = obs.mapM fun o => (do
      let st ← applyGates so st ga v
      expectSingle so v o st : Py ℝ) :=
    mapM_congr_mem fun o ho => by simp only [applyGatesA_eq so hg, expectSingleA_eq so (h o ho)]
  simp only [gatesExpectationA, gatesExpectation, this]

theorem finiteShotsGatesA_eq {ga : GateArg} (hg : ∀ g ∈ ga.members, g.unitaryA v' = g.unitary v) {obs : List Observable}
    (h : ∀ o ∈ obs, Op.AllSameA v v' o.ops) (eigh : Eigh) (st : State) (us : List ℝ) :
    finiteShotsGatesA so eigh st obs us ga v' = finiteShotsGates so eigh st obs us ga v := by
  simp only [finiteShotsGatesA, finiteShotsGates, applyGatesA_eq so hg, eigenSampleA_eq so h]

end

/-! ## Stacking and shifting -/

/-- The vector `xs` as an array, after `squeeze(-1)`. -/
def IsVector (xs : List ℂ) (a : NDArray ℂ) : Prop := a.data = xs ∧ (a.shape = [xs.length] ∨ xs.length = 1 ∧ a.shape = [])

theorem isVector_squeeze {xs : List ℂ} {s : List ℕ} (hs : s = [] ∨ s = [1]) : IsVector xs (squeezeLast ⟨xs.length :: s, xs⟩) := by
  rcases hs with rfl | rfl
  · by_cases h : xs.length = 1
    · exact ⟨by simp [squeezeLast, h], .inr ⟨h, by simp [squeezeLast, h]⟩⟩
    · exact ⟨by simp [squeezeLast, h], .inl (by simp [squeezeLast, h])⟩
  · exact ⟨by simp [squeezeLast], .inl (by simp [squeezeLast])⟩

theorem ofFn_vec (p : ℕ) (f : List ℕ → ℂ) : ofFn [p] f = ⟨[p], (List.range p).map fun j => f [j]⟩ := by
  simp only [ofFn, allIdx, List.map_cons, List.map_nil]
  rw [List.flatMap_def, ← List.map_flatten.symm]
  simp [List.map_map, Function.comp_def, ← List.flatMap_def, List.map_flatMap]
  exact List.flatMap_pure_eq_map _ _

theorem arrayRows_vec (l : List ℂ) : arrayRows ⟨[l.length], l⟩ = l.map fun x => ⟨[], [x]⟩ := by
  simp only [arrayRows, List.prod_nil, mul_one]
  apply List.ext_getElem
  · simp
  · intro j h1 h2
    simp only [List.length_map, List.length_range] at h1
    simp only [List.getElem_map, List.getElem_range, NDArray.mk.injEq, true_and]
    rw [List.take_one, List.head?_drop, List.getElem?_eq_getElem h1]
    rfl

theorem bcast2_vec {xs : List ℂ} {a : NDArray ℂ} (ha : IsVector xs a) (i : ℕ) (δ : ℝ) :
    bcast2 (· + ·) a (shiftVector xs.length i δ)
      = .ok ⟨[xs.length], xs.mapIdx fun j x => if j = i then x + (δ : ℂ) else x⟩ := by
  obtain ⟨hd, hs⟩ := ha
  have hsh : bcastShape a.shape [xs.length] = some [xs.length] := by
    rcases hs with hs | ⟨h1, hs⟩
    · rw [hs]; simp [bcastShape, padShape, bcastDim]
    · rw [hs, h1]; simp [bcastShape, padShape, bcastDim]
  have hget : ∀ j < xs.length, a.get (bcastIdx a.shape [j]) = xs.getD j 0 := by
    intro j hj
    rcases hs with hs | ⟨h1, hs⟩
    · rw [hs]
      simp only [bcastIdx, List.length_cons, List.length_nil, Nat.sub_self, List.drop_zero, List.zipWith_cons_cons,
        List.zipWith_nil_right, NDArray.get, hs, hd]
      by_cases h : xs.length = 1
      · have : j = 0 := by omega
        subst this
        simp [ravel, h]
      · simp [ravel, h]
    · have : j = 0 := by omega
      subst this
      simp [bcastIdx, hs, NDArray.get, hd, ravel]
  simp only [bcast2, shiftVector, hsh, ofFn_vec]
  congr 2
  apply List.ext_getElem
  · simp
  · intro j h1 h2
    simp only [List.length_map, List.length_range] at h1
    simp only [List.getElem_map, List.getElem_range, List.getElem_mapIdx, hget j h1]
    have : (⟨[xs.length], (List.range xs.length).map fun j => if j = i then (δ : ℂ) else 0⟩ : NDArray ℂ).get
        (bcastIdx [xs.length] [j]) = if j = i then (δ : ℂ) else 0 := by
      simp only [bcastIdx, List.length_cons, List.length_nil, Nat.sub_self, List.drop_zero, List.zipWith_cons_cons,
        List.zipWith_nil_right, NDArray.get]
      by_cases h : xs.length = 1
      · have : j = 0 := by omega
        subst this
        simp [ravel, h]
      · simp [ravel, h, h1]
    rw [this, List.getD_eq_getElem?_getD, List.getElem?_eq_getElem h1, Option.getD_some]
    split_ifs <;> simp

/-- The shifted dictionary of arrays is the shifted dictionary of numbers. -/
theorem shiftRows_vec {xs : List ℝ} {keys : List String} (hk : keys.length = xs.length) {a : NDArray ℂ}
    (ha : IsVector (xs.map Complex.ofReal) a) (i : ℕ) (δ : ℝ) : ∃ v', shiftRows keys a i δ = .ok v' ∧
      (shiftAt keys xs i δ).SizeOne v' := by
  have hb := bcast2_vec ha i δ
  rw [List.length_map] at hb
  simp only [shiftRows, hk, hb, bind, Except.bind]
  refine ⟨_, rfl, ?_⟩
  have hl : (xs.map Complex.ofReal).mapIdx (fun j x => if j = i then x + (δ : ℂ) else x)
      = (xs.mapIdx fun j x => if j = i then x + δ else x).map Complex.ofReal := by
    apply List.ext_getElem
    · simp
    · intro j h1 h2
      simp only [List.getElem_mapIdx, List.getElem_map]
      split_ifs <;> simp
  rw [hl]
  generalize hys : (xs.mapIdx fun j x => if j = i then x + δ else x) = ys
  have hyl : ys.length = xs.length := by rw [← hys]; simp
  have hr := arrayRows_vec (ys.map Complex.ofReal)
  rw [List.length_map, hyl] at hr
  rw [hr, shiftAt, hys]
  clear hr hys hyl hl hb ha hk
  induction keys generalizing ys with
  | nil => exact .nil
  | cons k ks ih =>
    cases ys with
    | nil => exact .nil
    | cons y ys => exact .cons ⟨rfl, .array y (.inl rfl)⟩ (ih ys)

/-- `values'` contains the numbers of `values`, all without axes. -/
def Values.AsScalars (values values' : Values) : Prop :=
  List.Forall₂ (fun e e' => e.1 = e'.1 ∧ ∃ x : ℝ, e.2 = .num x ∧ (e'.2 = .num x ∨ e'.2 = .arr ⟨[], [(x : ℂ)]⟩)) values values'

/-- `values'` contains the numbers of `values` as arrays of shape `(1,)`. -/
def Values.AsVectors (values values' : Values) : Prop :=
  List.Forall₂ (fun e e' => e.1 = e'.1 ∧ ∃ x : ℝ, e.2 = .num x ∧ e'.2 = .arr ⟨[1], [(x : ℂ)]⟩) values values'

/-- Every value is a number. -/
def Values.AllNum (values : Values) : Prop := ∀ e ∈ values, ∃ x, e.2 = .num x

theorem Values.AsScalars.sizeOne {v v' : Values} (h : v.AsScalars v') : v.SizeOne v' := by
  refine List.Forall₂.imp (fun e e' he => ⟨he.1, ?_⟩) h
  obtain ⟨x, h1, h2 | h2⟩ := he.2 <;> rw [h1, h2]
  · exact .refl _
  · exact .array x (.inl rfl)

theorem Values.AsVectors.sizeOne {v v' : Values} (h : v.AsVectors v') : v.SizeOne v' := by
  refine List.Forall₂.imp (fun e e' he => ⟨he.1, ?_⟩) h
  obtain ⟨x, h1, h2⟩ := he.2
  rw [h1, h2]
  exact .array x (.inr (.inl rfl))

theorem shiftAt_allNum (keys : List String) (xs : List ℝ) (i : ℕ) (δ : ℝ) : (shiftAt keys xs i δ).AllNum := by
  intro e he
  simp only [shiftAt, List.mem_map] at he
  obtain ⟨e', -, rfl⟩ := he
  exact ⟨_, rfl⟩

theorem Values.SizeOne.keys {v v' : Values} (h : v.SizeOne v') : v'.keys = v.keys := by
  induction h with
  | nil => rfl
  | cons he _ ih => simp only [Values.keys, List.map_cons] at ih ⊢; rw [ih, he.1]

theorem Values.SizeOne.size1 {v v' : Values} (h : v.SizeOne v') (hn : v.AllNum) : (v'.any fun e => !e.2.size1) = false := by
  induction h with
  | nil => rfl
  | @cons e e' l l' he _ ih =>
    rw [List.any_cons, ih fun e he => hn e (List.mem_cons_of_mem _ he), Bool.or_false]
    obtain ⟨x, hx⟩ := hn e (by simp)
    have h2 := he.2
    rw [hx] at h2
    rcases h2' : e'.2 with y | a | d <;> rw [h2'] at h2
    · rfl
    · cases h2 with
      | array x hs => rcases hs with rfl | rfl | rfl <;> simp [PyVal.size1, NDArray.size]
    · cases h2

theorem stackValues_num (keys : List String) (xs : List ℝ) (hk : keys.length = xs.length) (hne : keys ≠ []) :
    stackValues ((keys.zip xs).map fun e => (e.1, .num e.2)) = .ok xs := by
  have hne' : ((keys.zip xs).map fun e => ((e.1, .num e.2) : String × PyVal)) ≠ [] := by
    cases keys with
    | nil => exact absurd rfl hne
    | cons k ks => cases xs <;> simp_all
  rw [stackValues, if_neg hne']
  generalize ((keys.zip xs).map fun e => ((e.1, .num e.2) : String × PyVal)).any (fun e => e.2.isDict) = b
  generalize ((keys.zip xs).map fun e => ((e.1, .num e.2) : String × PyVal)).any (fun e => e.2.isNum) = c
  clear hne hne'
  induction keys generalizing xs with
  | nil => cases xs <;> simp_all <;> rfl
  | cons k ks ih =>
    cases xs with
    | nil => simp at hk
    | cons x xs =>
      simp only [List.zip_cons_cons, List.map_cons, List.mapM_cons, ih xs (by simpa using hk)]
      rfl

/-- What stacking gives, for numbers and for arrays of one shape. -/
theorem stack_eq {v v' : Values} (h0 : v.AsScalars v' ∨ v.AsVectors v') :
    (v = [] ∧ v' = []) ∨ ∃ xs : List ℝ, v.keys.length = xs.length ∧ stackValues v = .ok xs ∧
      ∃ a, stackArrays v' = .ok a ∧ IsVector (xs.map Complex.ofReal) (squeezeLast a) := by
  by_cases hv : v = []
  · subst hv
    rcases h0 with h | h <;> cases h <;> exact .inl ⟨rfl, rfl⟩
  refine .inr ?_
  have key : ∀ s : List ℕ, (s = [] ∨ s = [1]) →
      List.Forall₂ (fun e e' => e.1 = e'.1 ∧ ∃ x : ℝ, e.2 = .num x ∧ e'.2.toArr = .ok ⟨s, [(x : ℂ)]⟩) v v' →
      ∃ xs : List ℝ, v.keys.length = xs.length ∧ stackValues v = .ok xs ∧
        ∃ a, stackArrays v' = .ok a ∧ IsVector (xs.map Complex.ofReal) (squeezeLast a) := by
    intro s hs h
    have h1 : ∃ xs : List ℝ, v = (v.keys.zip xs).map (fun e => (e.1, .num e.2)) ∧ v.keys.length = xs.length ∧
        (v'.mapM fun e => e.2.toArr) = .ok (xs.map fun x : ℝ => (⟨s, [(x : ℂ)]⟩ : NDArray ℂ)) := by
      clear hv h0
      induction h with
      | nil => exact ⟨[], rfl, rfl, rfl⟩
      | @cons e e' l l' he _ ih =>
        obtain ⟨xs, e1, e2, e3⟩ := ih
        obtain ⟨x, hx, hx'⟩ := he.2
        refine ⟨x :: xs, ?_, by simpa [Values.keys] using e2, ?_⟩
        · simp only [Values.keys, List.map_cons, List.zip_cons_cons, List.cons.injEq]
          exact ⟨by rw [← hx], e1⟩
        · rw [List.mapM_cons, hx', e3]
          rfl
    obtain ⟨xs, e1, e2, e3⟩ := h1
    have hxs : xs ≠ [] := by
      rintro rfl
      apply hv
      rw [e1]; simp
    refine ⟨xs, e2, ?_, ⟨xs.length :: s, xs.map Complex.ofReal⟩, ?_, ?_⟩
    · conv_lhs => rw [e1]
      refine stackValues_num _ xs e2 ?_
      intro h0
      rw [h0] at e2
      exact hxs (List.length_eq_zero_iff.1 (by simpa using e2.symm))
    · simp only [stackArrays, e3, bind, Except.bind]
      cases xs with
      | nil => exact absurd rfl hxs
      | cons x xs =>
        have hall : ((x :: xs).map fun x : ℝ => (⟨s, [(x : ℂ)]⟩ : NDArray ℂ)).all (fun b => b.shape = s) = true := by simp
        simp only [List.map_cons] at hall ⊢
        rw [if_pos hall]
        have hfl : ∀ l : List ℝ, (l.map fun x : ℝ => [(x : ℂ)]).flatten = l.map Complex.ofReal := by
          intro l
          induction l with
          | nil => rfl
          | cons y l ih => simp [ih]
        simp [List.flatMap_def, Function.comp_def, hfl]
    · have := isVector_squeeze (xs := xs.map Complex.ofReal) hs
      simpa using this
  rcases h0 with h | h
  · refine key [] (.inl rfl) (List.Forall₂.imp (fun e e' he => ⟨he.1, ?_⟩) h)
    obtain ⟨x, h1, h2 | h2⟩ := he.2
    · exact ⟨x, h1, by rw [h2]; rfl⟩
    · exact ⟨x, h1, by rw [h2]; rfl⟩
  · refine key [1] (.inr rfl) (List.Forall₂.imp (fun e e' he => ⟨he.1, ?_⟩) h)
    obtain ⟨x, h1, h2⟩ := he.2
    exact ⟨x, h1, by rw [h2]; rfl⟩

end Verif
