import Verif.AbsSparse
import Verif.Lemmas.SparseOps
import Verif.Lemmas.Grouping

/-! # Sparse runs and dense runs -/

set_option autoImplicit false

namespace Verif
open NDArray

/-- Two computations both raise, or both return related values. -/
def PyRel {α β : Type} (P : α → β → Prop) (x : Py α) (y : Py β) : Prop :=
  (∃ e e', x = .error e ∧ y = .error e') ∨ ∃ a b, x = .ok a ∧ y = .ok b ∧ P a b

namespace PyRel
variable {α β γ δ : Type} {P : α → β → Prop} {Q : γ → δ → Prop}

theorem ok {a : α} {b : β} (h : P a b) : PyRel P (.ok a) (.ok b) := .inr ⟨a, b, rfl, rfl, h⟩

theorem err (e e' : Err) : PyRel P (.error e) (.error e') := .inl ⟨e, e', rfl, rfl⟩

theorem bind {x : Py α} {y : Py β} {f : α → Py γ} {g : β → Py δ} (h : PyRel P x y)
    (hf : ∀ a b, P a b → PyRel Q (f a) (g b)) : PyRel Q (x >>= f) (y >>= g) := by
  rcases h with ⟨e, e', rfl, rfl⟩ | ⟨a, b, rfl, rfl, h⟩
  · exact err e e'
  · exact hf a b h

theorem same {x : Py α} : PyRel Eq x x := by
  rcases x with e | a
  · exact err e e
  · exact ok rfl

theorem mono {P' : α → β → Prop} {x : Py α} {y : Py β} (h : PyRel P x y) (hp : ∀ a b, P a b → P' a b) : PyRel P' x y := by
  rcases h with ⟨e, e', rfl, rfl⟩ | ⟨a, b, rfl, rfl, h⟩
  · exact err e e'
  · exact ok (hp a b h)

theorem mapM {ι κ : Type} {R : ι → κ → Prop} {f : ι → Py α} {g : κ → Py β} {l : List ι} {m : List κ}
    (hl : List.Forall₂ R l m) (h : ∀ i k, R i k → PyRel P (f i) (g k)) :
    PyRel (List.Forall₂ P) (l.mapM f) (m.mapM g) := by
  induction hl with
  | nil => exact ok .nil
  | @cons i k l m hik _ ih =>
    rw [List.mapM_cons, List.mapM_cons]
    refine bind (h i k hik) fun a b hab => bind ih fun as bs habs => ok (.cons hab habs)

theorem foldlM {ι κ : Type} {R : ι → κ → Prop} {f : α → ι → Py α} {g : β → κ → Py β} {l : List ι} {m : List κ}
    (hl : List.Forall₂ R l m) (h : ∀ a b i k, P a b → R i k → PyRel P (f a i) (g b k)) {a : α} {b : β} (hab : P a b) :
    PyRel P (l.foldlM f a) (m.foldlM g b) := by
  induction hl generalizing a b with
  | nil => exact ok hab
  | @cons i k l m hik _ ih =>
    rw [List.foldlM_cons, List.foldlM_cons]
    exact bind (h a b i k hab hik) fun a' b' h' => ih h'

theorem pyReduce {f : α → α → Py α} {g : β → β → Py β} {l : List (Py α)} {m : List (Py β)}
    (hl : List.Forall₂ (PyRel P) l m) (h : ∀ a b a' b', P a b → P a' b' → PyRel P (f a a') (g b b')) :
    PyRel P (Verif.pyReduce f l) (Verif.pyReduce g m) := by
  cases hl with
  | nil => exact err _ _
  | @cons x y l m hxy hl =>
    rw [Verif.pyReduce, Verif.pyReduce]
    refine bind hxy fun a b hab => foldlM hl (fun a b x y hab hxy => bind hxy fun a' b' h' => h a b a' b' hab h') hab

end PyRel

/-! ## merging and grouping -/

section merge
variable {M N : Type} {P : M → N → Prop} {mul : M → M → Py M} {mul' : N → N → Py N}

/-- The same targets and controls, related operators. -/
def TripleRel (P : M → N → Prop) (a : M × List ℕ × Ctl) (b : N × List ℕ × Ctl) : Prop := P a.1 b.1 ∧ a.2 = b.2

theorem mergeLoop_rel (hmul : ∀ a b a' b', P a b → P a' b' → PyRel P (mul a a') (mul' b b'))
    {l : List (M × List ℕ × Ctl)} {m : List (N × List ℕ × Ctl)} (hl : List.Forall₂ (TripleRel P) l m) :
    ∀ {a : M × List ℕ × Ctl} {b : N × List ℕ × Ctl} {acc : List (M × List ℕ × Ctl)} {acc' : List (N × List ℕ × Ctl)},
      TripleRel P a b → List.Forall₂ (TripleRel P) acc acc' →
      PyRel (List.Forall₂ (TripleRel P)) (mergeLoop mul l a acc) (mergeLoop mul' m b acc') := by
  induction hl with
  | nil =>
    intro a b acc acc' hab hacc
    exact .ok (List.rel_append hacc (.cons hab .nil))
  | @cons i k l m hik _ ih =>
    intro a b acc acc' hab hacc
    obtain ⟨o, t, c⟩ := i
    obtain ⟨o', t', c'⟩ := k
    obtain ⟨mo, mt, mc⟩ := a
    obtain ⟨mo', mt', mc'⟩ := b
    obtain ⟨h1, h2⟩ := hik
    obtain ⟨h3, h4⟩ := hab
    cases h2
    cases h4
    simp only [mergeLoop]
    split_ifs
    · exact PyRel.bind (hmul _ _ _ _ h3 h1) fun a b hab => ih ⟨hab, rfl⟩ hacc
    · exact ih ⟨h1, rfl⟩ (List.rel_append hacc (.cons ⟨h3, rfl⟩ .nil))

theorem mergeOperators_rel (hmul : ∀ a b a' b', P a b → P a' b' → PyRel P (mul a a') (mul' b b'))
    {l : List (M × List ℕ × Ctl)} {m : List (N × List ℕ × Ctl)} (hl : List.Forall₂ (TripleRel P) l m) :
    PyRel (List.Forall₂ (TripleRel P)) (mergeOperators mul l) (mergeOperators mul' m) := by
  rw [mergeOperators, mergeOperators, hl.length_eq]
  split_ifs
  · exact .ok hl
  · have hr : List.Forall₂ (TripleRel P) l.reverse m.reverse := List.rel_reverse hl
    generalize l.reverse = l', m.reverse = m' at hr
    cases hr with
    | nil => exact .ok hl
    | cons h hr =>
      exact PyRel.bind (mergeLoop_rel hmul hr h .nil) fun a b hab => .ok (List.rel_reverse hab)

end merge

theorem groupLoop_fmt {f : Gate → Gate} (ht : ∀ g, (f g).target = g.target) (hc : ∀ g, (f g).control = g.control)
    (gs sorted batch : List Gate) :
    groupLoop (gs.map f) (sorted.map f) (batch.map f) = (groupLoop gs sorted batch).map f := by
  have hs : ∀ l : List Gate, sortBatch (l.map f) = (sortBatch l).map f := by
    intro l
    rw [sortBatch, sortBatch]
    refine (List.map_insertionSort (fun g h : Gate => tupleLe g.target h.target) _ f l ?_).symm
    intro a _ b _
    simp only [ht]
  induction gs generalizing sorted batch with
  | nil =>
    simp only [List.map_nil, groupLoop, List.length_map, hs]
    split_ifs <;> simp
  | cons g gs ih =>
    simp only [List.map_cons, groupLoop, hc, List.length_map, hs]
    split_ifs
    · rw [← ih, List.map_append]; rfl
    · rw [← ih, List.map_append, List.map_append]; rfl
    · rw [← ih, List.map_append]; rfl

/-! ## gates -/

namespace Arr

/-- A sparse matrix and its dense content. -/
def OpRel (a : Arr) (m : NDArray ℂ) : Prop := ∃ b : Bcoo ℂ, b.Sq ∧ a = .sparse b ∧ m = b.todense

/-- A sparse state and its dense content. -/
def StRel (a : Arr) (m : NDArray ℂ) : Prop := ∃ b : Bcoo ℂ, b.WF ∧ a = .sparse b ∧ m = b.todense

theorem opRel_fromdense {a : NDArray ℂ} (ha : a.WF) {k : ℕ} (hk : 1 ≤ k) (hs : a.shape = [2 ^ k, 2 ^ k]) :
    OpRel (.sparse (Bcoo.fromdense a)) a :=
  ⟨_, ⟨Bcoo.wf_fromdense a, k, hk, hs⟩, rfl, (Bcoo.todense_fromdense ha).symm⟩

theorem generator_rel (name : String) : PyRel (fun (b : Bcoo ℂ) m => b.Sq ∧ m = b.todense)
    ((operationsDict name).map Bcoo.fromdense) (operationsDict name) := by
  have h2 : ∀ a b c d : ℂ, PyRel (fun (b : Bcoo ℂ) m => b.Sq ∧ m = b.todense)
      ((.ok (mat2 a b c d) : Py _).map Bcoo.fromdense) (.ok (mat2 a b c d)) := fun a b c d =>
    .ok ⟨⟨Bcoo.wf_fromdense _, 1, le_rfl, rfl⟩, (Bcoo.todense_fromdense (by simp [mat2, NDArray.WF])).symm⟩
  have h4 : PyRel (fun (b : Bcoo ℂ) m => b.Sq ∧ m = b.todense)
      ((.ok matSWAP : Py _).map Bcoo.fromdense) (.ok matSWAP) :=
    .ok ⟨⟨Bcoo.wf_fromdense _, 2, by norm_num, rfl⟩, (Bcoo.todense_fromdense (by simp [matSWAP, NDArray.WF])).symm⟩
  rw [operationsDict]
  split_ifs
  · exact h2 _ _ _ _
  · exact h2 _ _ _ _
  · exact h2 _ _ _ _
  · exact h2 _ _ _ _
  · exact h2 _ _ _ _
  · exact h2 _ _ _ _
  · exact h2 _ _ _ _
  · exact h4
  · exact .err _ _

variable (lay : Layout)

theorem rotUnitary_rel {b : Bcoo ℂ} (hb : b.Sq) (θ : ℝ) :
    PyRel OpRel ((rotUnitarySp lay b θ).map .sparse) (rotUnitary b.todense θ) := by
  obtain ⟨hw, k, hk, hs⟩ := hb
  rw [rotUnitarySp, rotUnitary, ← Bcoo.todense_eye, ← Bcoo.todense_smul, ← Bcoo.todense_smul]
  have e : (Bcoo.smul (Complex.I * (Real.sin (θ / 2) : ℂ)) b).mapData (- ·)
      = Bcoo.smul (-(Complex.I * (Real.sin (θ / 2) : ℂ))) b := by
    simp only [Bcoo.smul, Bcoo.mapData, List.map_map, Function.comp_def, neg_mul]
  rw [e]
  by_cases h : ([2, 2] : List ℕ) = b.shape
  · obtain ⟨r, h1, h2, h3, h4⟩ := Bcoo.add_dense lay (a := Bcoo.smul (Real.cos (θ / 2) : ℂ) (Bcoo.eye 2))
      (b := Bcoo.smul (-(Complex.I * (Real.sin (θ / 2) : ℂ))) b) h
    rw [h1, h2]
    exact .ok ⟨r, ⟨h3 (Bcoo.wf_mapData _ (Bcoo.wf_eye 2)) (Bcoo.wf_mapData _ hw), 1, le_rfl, h4⟩, rfl, rfl⟩
  · rw [Bcoo.add, if_neg (show ¬ (Bcoo.smul (Real.cos (θ / 2) : ℂ) (Bcoo.eye 2)).shape = (Bcoo.smul (-(Complex.I * (Real.sin (θ / 2) : ℂ))) b).shape from h), NDArray.add,
      if_neg (show ¬ (Bcoo.smul (Real.cos (θ / 2) : ℂ) (Bcoo.eye 2)).todense.shape = (Bcoo.smul (-(Complex.I * (Real.sin (θ / 2) : ℂ))) b).todense.shape from h)]
    exact .err _ _

theorem unitary_rel {g : Gate} (hg : g.SparseOk) (values : Values) :
    PyRel OpRel (g.unitaryArr lay values) (g.asDense.unitary values) := by
  obtain ⟨cls, nm, ts, c, nz, sp⟩ := g
  obtain ⟨h1, h2, h3⟩ := hg
  simp only at h1 h2 h3
  subst h1
  simp only [Gate.unitaryArr, Gate.unitary, Gate.asDense, Gate.generatorSp, Gate.generator, if_true, Bool.false_eq_true, if_false]
  cases cls with
  | primitive =>
    have := generator_rel nm
    simp only
    rcases this with ⟨e, e', h, h'⟩ | ⟨b, m, h, h', hb, rfl⟩
    · rw [h, h']; exact .err _ _
    · rw [h, h']; exact .ok ⟨b, hb, rfl, rfl⟩
  | parametric p s =>
    refine PyRel.bind (generator_rel nm) fun b m hbm => PyRel.bind PyRel.same fun θ θ' hθ => ?_
    subst hθ
    rw [hbm.2]
    exact rotUnitary_rel lay hbm.1 θ
  | phase p s =>
    refine PyRel.bind PyRel.same fun θ θ' hθ => ?_
    subst hθ
    exact .ok (opRel_fromdense (by simp [mat2, NDArray.WF]) le_rfl rfl)
  | hamEvo s => exact absurd rfl (h3 s)

theorem operator_rel {g : Gate} (hg : g.SparseOk) {ot : OpType} (hot : ot ≠ .jacobian) (values : Values) :
    PyRel OpRel (g.operatorArr lay ot values) (g.asDense.operator ot values) := by
  cases ot with
  | unitary => exact unitary_rel lay hg values
  | dagger =>
    simp only [Gate.operatorArr, Gate.operator, Gate.daggerArr, Gate.daggerOp]
    refine PyRel.bind (unitary_rel lay hg values) fun a m ham => ?_
    obtain ⟨b, hb, rfl, rfl⟩ := ham
    simp only
    rw [← Bcoo.dagger_dense hb.1]
    rcases h : b.dagger with e | r
    · exact .err _ _
    · exact .ok ⟨r, Bcoo.dagger_sq hb h, rfl, rfl⟩
  | jacobian => exact absurd rfl hot

theorem matmul_rel {a a' : Arr} {m m' : NDArray ℂ} (h : OpRel a m) (h' : OpRel a' m') :
    PyRel OpRel (Arr.matmul lay a a') (NDArray.matmul m m') := by
  obtain ⟨b, hb, rfl, rfl⟩ := h
  obtain ⟨b', hb', rfl, rfl⟩ := h'
  rw [Arr.matmul, ← Bcoo.matmul_dense lay hb.1 hb'.1]
  rcases h : b.matmul lay b' with e | r
  · exact .err _ _
  · exact .ok ⟨r, Bcoo.matmul_sq lay hb hb' h, rfl, rfl⟩

theorem applyOperator_rel {a o : Arr} {s m : NDArray ℂ} (ha : StRel a s) (ho : OpRel o m) (ts : List ℕ) (c : Ctl) :
    PyRel StRel (Arr.applyOperator lay a o ts c) (Verif.applyOperator s m ts c) := by
  obtain ⟨b, hb, rfl, rfl⟩ := ha
  obtain ⟨o, ho, rfl, rfl⟩ := ho
  simp only [Arr.applyOperator]
  rw [← Bcoo.applyOperator_dense lay hb ho]
  rcases h : Bcoo.applyOperator lay b o ts c with e | r
  · exact .err _ _
  · exact .ok ⟨r, Bcoo.wf_applyOperator lay h, rfl, rfl⟩

/-- The argument of `apply_gates` with all gates in dense format. -/
def _root_.Verif.GateArg.asDense : GateArg → GateArg
  | .single g => .single g.asDense
  | .list gs => .list (gs.map Gate.asDense)

/-- All gates of the argument. -/
def _root_.Verif.GateArg.gates : GateArg → List Gate
  | .single g => [g]
  | .list gs => gs

theorem forall₂_map_right' {α β : Type} {R : α → β → Prop} (f : α → β) : ∀ l : List α, (∀ a ∈ l, R a (f a)) →
    List.Forall₂ R l (l.map f)
  | [], _ => .nil
  | a :: l, h => .cons (h a (by simp)) (forall₂_map_right' f l fun x hx => h x (by simp [hx]))

theorem triples_rel {gs : List Gate} {os : List Arr} {ms : List (NDArray ℂ)} (h : List.Forall₂ OpRel os ms) :
    List.Forall₂ (TripleRel OpRel) (List.zipWith (fun o (g : Gate) => (o, g.target, g.control)) os gs)
      (List.zipWith (fun o (g : Gate) => (o, g.target, g.control)) ms (gs.map Gate.asDense)) := by
  induction h generalizing gs with
  | nil => simp
  | cons h _ ih =>
    cases gs with
    | nil => simp
    | cons g gs => exact .cons ⟨h, rfl⟩ ih

theorem prepare_rel {ga : GateArg} (hg : ∀ g ∈ ga.gates, g.SparseOk) {ot : OpType} (hot : ot ≠ .jacobian) (values : Values)
    (grp mrg : Bool) :
    PyRel (fun x y => List.Forall₂ (TripleRel OpRel) x.1 y.1 ∧ allNoiseless x.2 = true ∧ allNoiseless y.2 = true)
      (prepareSequenceReduce (fun g => g.operatorArr lay ot values) (Arr.matmul lay) ga grp mrg)
      (prepareSequenceReduce (fun g => g.operator ot values) NDArray.matmul ga.asDense grp mrg) := by
  cases ga with
  | single g =>
    have hgo := hg g (by simp [GateArg.gates])
    refine PyRel.bind (operator_rel lay hgo hot values) fun a m ham => .ok ⟨.cons ⟨ham, rfl⟩ .nil, ?_, ?_⟩ <;>
      simp [allNoiseless, Gate.asDense, hgo.2.1]
  | list gs =>
    simp only [prepareSequenceReduce, GateArg.asDense]
    have hmap : (if grp then groupByIndex (gs.map Gate.asDense) else gs.map Gate.asDense)
        = (if grp then groupByIndex gs else gs).map Gate.asDense := by
      split_ifs
      · exact groupLoop_fmt (f := Gate.asDense) (fun _ => rfl) (fun _ => rfl) gs [] []
      · rfl
    have hok : ∀ g ∈ (if grp then groupByIndex gs else gs), g.SparseOk := by
      intro g hg'
      split_ifs at hg'
      · have := (show groupByIndex gs = _ from rfl) ▸ hg'
        exact hg g (by simpa [GateArg.gates] using (groupByIndex_perm gs).mem_iff.1 hg')
      · exact hg g hg'
    rw [hmap]
    set l := if grp then groupByIndex gs else gs with hl
    clear_value l
    refine PyRel.bind (PyRel.mapM (forall₂_map_right' (R := fun g g' => g.SparseOk ∧ g' = g.asDense) Gate.asDense l
      fun g h => ⟨hok g h, rfl⟩) (P := OpRel) fun g g' hgg => ?_) fun os ms hos => ?_
    · obtain ⟨h, rfl⟩ := hgg
      exact operator_rel lay h hot values
    · have hn : allNoiseless (l.map Gate.noise) = true := by
        simp only [allNoiseless, List.all_eq_true, List.mem_map]
        rintro x ⟨g, h, rfl⟩
        rw [(hok g h).2.1]; rfl
      have hn' : allNoiseless ((l.map Gate.asDense).map Gate.noise) = true := by
        simpa only [List.map_map, Function.comp_def, Gate.asDense] using hn
      have hemp : (l.map Gate.asDense).isEmpty = l.isEmpty := by cases l <;> rfl
      simp only [hemp]
      split_ifs
      · exact .err _ _
      · have ht := triples_rel (gs := l) hos
        exact PyRel.bind (mergeOperators_rel (fun _ _ _ _ => matmul_rel lay) ht) fun a b hab => .ok ⟨hab, hn, hn'⟩
      · rename_i h1 h2
        rw [hn] at h1
        rw [hn'] at h2
        exact absurd h1 h2
      · rename_i h1 h2
        rw [hn] at h1
        rw [hn'] at h2
        exact absurd h2 h1
      · exact .ok ⟨triples_rel (gs := l) hos, hn, hn'⟩

/-- `apply_gates` on a sparse state and on its dense content. -/
theorem applyGates_rel (so : SetOrder) {ga : GateArg} (hg : ∀ g ∈ ga.gates, g.SparseOk) {ot : OpType} (hot : ot ≠ .jacobian)
    (values : Values) (grp mrg : Bool) {b : Bcoo ℂ} (hb : b.WF) :
    PyRel (fun a s => ∃ r : Bcoo ℂ, r.WF ∧ a = .sparse r ∧ s = .vec r.todense)
      (Arr.applyGates lay (.sparse b) ga values ot grp mrg)
      (Verif.applyGates so (.vec b.todense) ga.asDense values ot grp mrg) := by
  rw [Arr.applyGates, Verif.applyGates]
  refine PyRel.bind (prepare_rel lay hg hot values grp mrg) fun x y hxy => ?_
  obtain ⟨ops, noise⟩ := x
  obtain ⟨ops', noise'⟩ := y
  obtain ⟨h1, h2, h3⟩ := hxy
  simp only at h1 h2 h3
  simp only [h2, h3, Bool.not_true, Bool.false_eq_true, if_false]
  have := PyRel.foldlM (P := StRel) h1 (f := fun st o => Arr.applyOperator lay st o.1 o.2.1 o.2.2)
    (g := fun st o => Verif.applyOperator st o.1 o.2.1 o.2.2) (fun a s o o' ha ho => by
      obtain ⟨o, t, c⟩ := o
      obtain ⟨o', t', c'⟩ := o'
      obtain ⟨h, h'⟩ := ho
      cases h'
      exact applyOperator_rel lay ha h t c) (⟨b, hb, rfl, rfl⟩ : StRel (.sparse b) b.todense)
  rw [← bind_pure (List.foldlM _ _ _)]
  refine PyRel.bind this fun a s has => ?_
  obtain ⟨r, hr, rfl, rfl⟩ := has
  exact .ok ⟨r, hr, rfl, rfl⟩

end Arr
end Verif
