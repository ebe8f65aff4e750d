import Verif.Lemmas.SparseRun

/-! # Runs with gates and states of both formats -/

set_option autoImplicit false

namespace Verif
open NDArray

/-- The first computation raises, or both return related values. -/
def PyBelow {α β : Type} (P : α → β → Prop) (x : Py α) (y : Py β) : Prop :=
  (∃ e, x = .error e) ∨ ∃ a b, x = .ok a ∧ y = .ok b ∧ P a b

theorem PyRel.below {α β : Type} {P : α → β → Prop} {x : Py α} {y : Py β} (h : PyRel P x y) : PyBelow P x y := by
  rcases h with ⟨e, _, h, _⟩ | h
  · exact .inl ⟨e, h⟩
  · exact .inr h

theorem PyBelow.bind {α β γ δ : Type} {P : α → β → Prop} {Q : γ → δ → Prop} {x : Py α} {y : Py β} {f : α → Py γ}
    {g : β → Py δ} (h : PyBelow P x y) (hf : ∀ a b, P a b → PyBelow Q (f a) (g b)) : PyBelow Q (x >>= f) (y >>= g) := by
  rcases h with ⟨e, rfl⟩ | ⟨a, b, rfl, rfl, h⟩
  · exact .inl ⟨e, rfl⟩
  · exact hf a b h

theorem PyBelow.foldlM {α β ι κ : Type} {P : α → β → Prop} {R : ι → κ → Prop} {f : α → ι → Py α} {g : β → κ → Py β}
    {l : List ι} {m : List κ} (hl : List.Forall₂ R l m) (h : ∀ a b i k, P a b → R i k → PyBelow P (f a i) (g b k))
    {a : α} {b : β} (hab : P a b) : PyBelow P (l.foldlM f a) (m.foldlM g b) := by
  induction hl generalizing a b with
  | nil => exact .inr ⟨a, b, rfl, rfl, hab⟩
  | @cons i k l m hik _ ih =>
    rw [List.foldlM_cons, List.foldlM_cons]
    exact PyBelow.bind (h a b i k hab hik) fun a' b' h' => ih h'

namespace Arr
variable (lay : Layout)

/-- A matrix in either format and its dense content. -/
def AnyOp (a : Arr) (m : NDArray ℂ) : Prop := m = a.todense ∧ ∀ b, a = .sparse b → b.Sq

/-- A state in either format and its dense content. -/
def AnySt (a : Arr) (m : NDArray ℂ) : Prop := m = a.todense ∧ ∀ b, a = .sparse b → b.WF

/-- A dense matrix. -/
def DenseOp (a : Arr) (m : NDArray ℂ) : Prop := a = .dense m

theorem OpRel.any {a : Arr} {m : NDArray ℂ} (h : OpRel a m) : AnyOp a m := by
  obtain ⟨b, hb, rfl, rfl⟩ := h
  exact ⟨rfl, fun c hc => by cases hc; exact hb⟩

theorem anyOp_dense (m : NDArray ℂ) : AnyOp (.dense m) m := ⟨rfl, fun _ h => by cases h⟩

theorem map_dense_rel (x : Py (NDArray ℂ)) : PyRel DenseOp (x.map .dense) x := by
  rcases x with e | a
  · exact .err _ _
  · exact .ok rfl

/-- The gates whose matrices are dense arrays: the ones not marked sparse, and all Hamiltonian evolutions. -/
theorem operator_dense_rel {g : Gate} (hg : g.sparse = false) (ot : OpType) (values : Values) :
    PyRel DenseOp (g.operatorArr lay ot values) (g.asDense.operator ot values) := by
  obtain ⟨cls, nm, ts, c, nz, sp⟩ := g
  simp only at hg
  subst hg
  cases ot with
  | unitary =>
    simp only [Gate.operatorArr, Gate.operator, Gate.unitaryArr, Gate.asDense, Bool.false_eq_true, if_false]
    exact map_dense_rel _
  | dagger =>
    simp only [Gate.operatorArr, Gate.operator, Gate.daggerArr, Gate.daggerOp, Gate.unitaryArr, Gate.asDense,
      Bool.false_eq_true, if_false]
    refine PyRel.bind (map_dense_rel _) fun a m ham => ?_
    cases ham
    exact map_dense_rel _
  | jacobian =>
    simp only [Gate.operatorArr, Gate.operator, Gate.jacobianArr, Gate.asDense, Bool.false_eq_true, if_false]
    exact map_dense_rel _

theorem operator_any_rel {g : Gate} (hn : g.noise = none) {ot : OpType} (hot : ot ≠ .jacobian) (values : Values) :
    PyRel AnyOp (g.operatorArr lay ot values) (g.asDense.operator ot values) := by
  rcases hs : g.sparse with _ | _
  · exact (operator_dense_rel lay hs ot values).mono fun a m h => by cases h; exact anyOp_dense m
  · by_cases hh : ∃ s, g.cls = .hamEvo s
    · obtain ⟨cls, nm, ts, c, nz, sp⟩ := g
      obtain ⟨s, hh⟩ := hh
      simp only at hs hh
      subst hs hh
      have hu : ∀ {x : Py (NDArray ℂ)}, PyRel AnyOp (x.map .dense) x := fun {x} =>
        (map_dense_rel x).mono fun a m h => by cases h; exact anyOp_dense m
      cases ot with
      | unitary => exact hu
      | dagger =>
        simp only [Gate.operatorArr, Gate.operator, Gate.daggerArr, Gate.daggerOp, Gate.unitaryArr, Gate.asDense,
          if_true]
        refine PyRel.bind (map_dense_rel _) fun a m ham => ?_
        cases ham
        exact hu
      | jacobian => exact absurd rfl hot
    · exact (operator_rel lay ⟨hs, hn, fun s h => hh ⟨s, h⟩⟩ hot values).mono fun a m h => h.any

theorem matmul_any_rel {a a' : Arr} {m m' : NDArray ℂ} (h : AnyOp a m) (h' : AnyOp a' m') :
    PyRel AnyOp (Arr.matmul lay a a') (NDArray.matmul m m') := by
  obtain ⟨rfl, h⟩ := h
  obtain ⟨rfl, h'⟩ := h'
  cases a with
  | dense a =>
    exact (map_dense_rel (NDArray.matmul a a'.todense)).mono fun a m h => by cases h; exact anyOp_dense m
  | sparse b =>
    cases a' with
    | dense a' => exact (map_dense_rel (NDArray.matmul b.todense a')).mono fun a m h => by cases h; exact anyOp_dense m
    | sparse b' =>
      exact (matmul_rel lay (⟨b, h b rfl, rfl, rfl⟩ : OpRel _ _) ⟨b', h' b' rfl, rfl, rfl⟩).mono fun a m h => h.any

theorem matmul_dense_rel {a a' : Arr} {m m' : NDArray ℂ} (h : DenseOp a m) (h' : DenseOp a' m') :
    PyRel DenseOp (Arr.matmul lay a a') (NDArray.matmul m m') := by
  cases h
  cases h'
  exact map_dense_rel _

theorem applyOperator_any {a o : Arr} {s m : NDArray ℂ} (ha : AnySt a s) (ho : AnyOp o m) (ts : List ℕ) (c : Ctl) :
    PyBelow AnySt (Arr.applyOperator lay a o ts c) (Verif.applyOperator s m ts c) := by
  have hd : ∀ x : Py (NDArray ℂ), PyBelow AnySt (x.map .dense) x := fun x =>
    ((map_dense_rel x).mono fun a m h => by cases h; exact ⟨rfl, fun _ h => by cases h⟩).below
  obtain ⟨rfl, ha⟩ := ha
  obtain ⟨rfl, ho⟩ := ho
  cases a with
  | dense a =>
    cases o with
    | dense o => exact hd _
    | sparse o => exact .inl ⟨_, rfl⟩
  | sparse b =>
    cases o with
    | dense o => exact hd _
    | sparse o =>
      refine ((applyOperator_rel lay (⟨b, ha b rfl, rfl, rfl⟩ : StRel _ _) ⟨o, ho o rfl, rfl, rfl⟩ ts c).mono
        fun a m h => ?_).below
      obtain ⟨r, hr, rfl, rfl⟩ := h
      exact ⟨rfl, fun _ h => by cases h; exact hr⟩

theorem triples_gen {P : Arr → NDArray ℂ → Prop} {gs : List Gate} {os : List Arr} {ms : List (NDArray ℂ)}
    (h : List.Forall₂ P os ms) :
    List.Forall₂ (TripleRel P) (List.zipWith (fun o (g : Gate) => (o, g.target, g.control)) os gs)
      (List.zipWith (fun o (g : Gate) => (o, g.target, g.control)) ms (gs.map Gate.asDense)) := by
  induction h generalizing gs with
  | nil => simp
  | cons h _ ih =>
    cases gs with
    | nil => simp
    | cons g gs => exact .cons ⟨h, rfl⟩ ih

theorem prepare_gen {P : Arr → NDArray ℂ → Prop} {ga : GateArg} (hn : ∀ g ∈ ga.gates, g.noise = none) {ot : OpType}
    {values : Values} (hop : ∀ g ∈ ga.gates, PyRel P (g.operatorArr lay ot values) (g.asDense.operator ot values))
    (hmul : ∀ a b a' b', P a b → P a' b' → PyRel P (Arr.matmul lay a a') (NDArray.matmul b b')) (grp mrg : Bool) :
    PyRel (fun x y => List.Forall₂ (TripleRel P) x.1 y.1 ∧ allNoiseless x.2 = true ∧ allNoiseless y.2 = true)
      (prepareSequenceReduce (fun g => g.operatorArr lay ot values) (Arr.matmul lay) ga grp mrg)
      (prepareSequenceReduce (fun g => g.operator ot values) NDArray.matmul ga.asDense grp mrg) := by
  cases ga with
  | single g =>
    have hgo := hn g (by simp [GateArg.gates])
    refine PyRel.bind (hop g (by simp [GateArg.gates])) fun a m ham => .ok ⟨.cons ⟨ham, rfl⟩ .nil, ?_, ?_⟩ <;>
      simp [allNoiseless, Gate.asDense, hgo]
  | list gs =>
    simp only [prepareSequenceReduce, GateArg.asDense]
    have hmap : (if grp then groupByIndex (gs.map Gate.asDense) else gs.map Gate.asDense)
        = (if grp then groupByIndex gs else gs).map Gate.asDense := by
      split_ifs
      · exact groupLoop_fmt (f := Gate.asDense) (fun _ => rfl) (fun _ => rfl) gs [] []
      · rfl
    have hmem : ∀ g ∈ (if grp then groupByIndex gs else gs), g ∈ gs := by
      intro g hg'
      split_ifs at hg'
      · exact (groupByIndex_perm gs).mem_iff.1 hg'
      · exact hg'
    rw [hmap]
    set l := if grp then groupByIndex gs else gs with hl
    clear_value l
    refine PyRel.bind (PyRel.mapM (forall₂_map_right' (R := fun g g' => g ∈ gs ∧ g' = g.asDense) Gate.asDense l
      fun g h => ⟨hmem g h, rfl⟩) (P := P) fun g g' hgg => ?_) fun os ms hos => ?_
    · obtain ⟨h, rfl⟩ := hgg
      exact hop g h
    · have hn' : allNoiseless (l.map Gate.noise) = true := by
        simp only [allNoiseless, List.all_eq_true, List.mem_map]
        rintro x ⟨g, h, rfl⟩
        rw [hn g (hmem g h)]; rfl
      have hn'' : allNoiseless ((l.map Gate.asDense).map Gate.noise) = true := by
        simpa only [List.map_map, Function.comp_def, Gate.asDense] using hn'
      have hemp : (l.map Gate.asDense).isEmpty = l.isEmpty := by cases l <;> rfl
      simp only [hemp, hn', hn'', Bool.true_and]
      split_ifs
      · exact .err _ _
      · exact PyRel.bind (mergeOperators_rel hmul (triples_gen (gs := l) hos)) fun a b hab => .ok ⟨hab, hn', hn''⟩
      · exact .ok ⟨triples_gen (gs := l) hos, hn', hn''⟩

/-- `apply_gates` with gates and a state of any formats. -/
theorem applyGates_any (so : SetOrder) {ga : GateArg} (hn : ∀ g ∈ ga.gates, g.noise = none) {ot : OpType}
    (hot : ot ≠ .jacobian) (values : Values) (grp mrg : Bool) {st : Arr} (hst : ∀ b, st = .sparse b → b.WF) :
    PyBelow (fun a s => s = .vec a.todense) (Arr.applyGates lay st ga values ot grp mrg)
      (Verif.applyGates so (.vec st.todense) ga.asDense values ot grp mrg) := by
  rw [Arr.applyGates.eq_def, Verif.applyGates]
  refine PyBelow.bind (prepare_gen lay hn (fun g hg => operator_any_rel lay (hn g hg) hot values)
    (fun _ _ _ _ => matmul_any_rel lay) grp mrg).below fun x y hxy => ?_
  obtain ⟨ops, noise⟩ := x
  obtain ⟨ops', noise'⟩ := y
  obtain ⟨h1, h2, h3⟩ := hxy
  simp only at h1 h2 h3
  simp only [h2, h3, Bool.not_true, Bool.false_eq_true, if_false]
  have := PyBelow.foldlM (P := AnySt) h1 (f := fun st o => Arr.applyOperator lay st o.1 o.2.1 o.2.2)
    (g := fun st o => Verif.applyOperator st o.1 o.2.1 o.2.2) (fun a s o o' ha ho => by
      obtain ⟨o, t, c⟩ := o
      obtain ⟨o', t', c'⟩ := o'
      obtain ⟨h, h'⟩ := ho
      cases h'
      exact applyOperator_any lay ha h t c) (⟨rfl, hst⟩ : AnySt st st.todense)
  rw [← bind_pure (List.foldlM _ _ _)]
  refine PyBelow.bind this fun a s has => ?_
  rw [has.1]
  exact .inr ⟨_, _, rfl, rfl, rfl⟩

/-- `apply_gates` with dense gates on a dense state. -/
theorem applyGates_dense (so : SetOrder) {ga : GateArg} (hn : ∀ g ∈ ga.gates, g.noise = none)
    (hs : ∀ g ∈ ga.gates, g.sparse = false) (ot : OpType) (values : Values) (grp mrg : Bool) (a : NDArray ℂ) :
    PyRel (fun r s => ∃ x, r = .dense x ∧ s = .vec x) (Arr.applyGates lay (.dense a) ga values ot grp mrg)
      (Verif.applyGates so (.vec a) ga.asDense values ot grp mrg) := by
  rw [Arr.applyGates, Verif.applyGates]
  refine PyRel.bind (prepare_gen lay hn (fun g hg => operator_dense_rel lay (hs g hg) ot values)
    (fun _ _ _ _ => matmul_dense_rel lay) grp mrg) fun x y hxy => ?_
  obtain ⟨ops, noise⟩ := x
  obtain ⟨ops', noise'⟩ := y
  obtain ⟨h1, h2, h3⟩ := hxy
  simp only at h1 h2 h3
  simp only [h2, h3, Bool.not_true, Bool.false_eq_true, if_false]
  have := PyRel.foldlM (P := DenseOp) h1 (f := fun st o => Arr.applyOperator lay st o.1 o.2.1 o.2.2)
    (g := fun st o => Verif.applyOperator st o.1 o.2.1 o.2.2) (fun a s o o' ha ho => by
      obtain ⟨o, t, c⟩ := o
      obtain ⟨o', t', c'⟩ := o'
      obtain ⟨h, h'⟩ := ho
      cases h'
      cases h
      cases ha
      exact map_dense_rel _) (rfl : DenseOp (.dense a) a)
  rw [← bind_pure (List.foldlM _ _ _)]
  refine PyRel.bind this fun a s has => ?_
  cases has
  exact .ok ⟨s, rfl, rfl⟩

end Arr
end Verif
