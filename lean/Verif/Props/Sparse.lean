import Verif.AbsSparse
import Verif.Lemmas.SparseTree
import Verif.Lemmas.SparseMixed
import Verif.Props.Apply
import Verif.Props.Analog
import Verif.Props.Expectation
import Verif.Lemmas.Expect

/-!
# Sparse simulation

C32, C50 (sparse states).  The layout of sparse results (order, duplicates, padding) is arbitrary: `lay : Layout`.
-/

set_option autoImplicit false

namespace Verif
open NDArray

theorem PyRel.sameDense {α : Type} {emb : NDArray ℂ → α} {x : Py Arr} {y : Py α}
    (h : PyRel (fun a s => ∃ r : Bcoo ℂ, r.WF ∧ a = .sparse r ∧ s = emb r.todense) x y) : SameDense emb x y := by
  rcases h with ⟨e, e', rfl, rfl⟩ | ⟨a, s, rfl, rfl, r, hr, rfl, rfl⟩
  · exact ⟨fun _ h => (by cases h), fun _ h => (by cases h)⟩
  · exact ⟨fun _ h => by cases h; exact ⟨r, rfl, rfl⟩, fun _ _ => ⟨_, rfl⟩⟩

/-! ## Layouts used in the examples -/

/-- The layout that keeps all entries as they come. -/
def Layout.keep : Layout := ⟨fun b => b, fun _ => rfl, fun _ h => h, fun _ => rfl⟩

/-- A layout that reverses the entries and adds a padding entry. -/
def Layout.pad : Layout where
  norm b := ⟨b.shape, (b.shape, 0) :: b.entries.reverse⟩
  shape _ := rfl
  wf b h e he := by
    rcases List.mem_cons.1 he with rfl | he
    · rfl
    · exact h e (List.mem_reverse.1 he)
  dense b := by
    simp only [Bcoo.todense, List.map_cons, List.map_reverse, List.sum_cons, List.sum_reverse]
    refine congrArg (ofFn b.shape) (funext fun i => ?_)
    split_ifs <;> simp

/-- A sparse state of two qubits with duplicate, unsorted and padding coordinates. -/
noncomputable def exampleSparse : Bcoo ℂ := ⟨[2, 2], [([1, 0], 2), ([2, 2], 7), ([0, 1], 3), ([1, 0], -1)]⟩

theorem exampleSparse_wf : exampleSparse.WF := by
  intro e he
  simp only [exampleSparse, List.mem_cons, List.not_mem_nil, or_false] at he
  rcases he with rfl | rfl | rfl | rfl <;> rfl

/-- Sparse gates X(0, control 1) and RY("θ")(1). -/
noncomputable def exampleSparseGates : List Gate :=
  [⟨.primitive, "X", [0], some [.int 1], none, true⟩, ⟨.parametric (.str "θ") 0, "Y", [1], none, none, true⟩]

theorem exampleSparseGates_ok : ∀ g ∈ exampleSparseGates, g.SparseOk := by
  intro g hg
  simp only [exampleSparseGates, List.mem_cons, List.not_mem_nil, or_false] at hg
  rcases hg with rfl | rfl <;> exact ⟨rfl, rfl, fun _ h => by cases h⟩

/-! ## C32 -/

/-- **C32** (`apply_gates`): on every sparse state, every list of noiseless sparse gates, with or without grouping and
merging, for unitaries and daggers, the sparse run returns exactly when the dense run on the densified inputs does, and
its densified result is the result of the dense run. -/
theorem C32_apply_gates (lay : Layout) (so : SetOrder) {gs : List Gate} (hg : ∀ g ∈ gs, g.SparseOk) {ot : OpType}
    (hot : ot ≠ .jacobian) (values : Values) (group merge : Bool) {b : Bcoo ℂ} (hb : b.WF) :
    SameDense State.vec (Arr.applyGates lay (.sparse b) (.list gs) values ot group merge)
      (applyGates so (.vec b.todense) (.list (gs.map Gate.asDense)) values ot group merge) :=
  (Arr.applyGates_rel lay so (ga := .list gs) hg hot values group merge hb).sameDense

/-- **C32** (one gate). -/
theorem C32_apply_gate (lay : Layout) (so : SetOrder) {g : Gate} (hg : g.SparseOk) {ot : OpType}
    (hot : ot ≠ .jacobian) (values : Values) (group merge : Bool) {b : Bcoo ℂ} (hb : b.WF) :
    SameDense State.vec (Arr.applyGates lay (.sparse b) (.single g) values ot group merge)
      (applyGates so (.vec b.todense) (.single g.asDense) values ot group merge) :=
  (Arr.applyGates_rel lay so (ga := .single g) (by simpa [GateArg.gates] using hg) hot values group merge hb).sameDense

example : (∀ g ∈ exampleSparseGates, g.SparseOk) ∧ exampleSparse.WF ∧ OpType.unitary ≠ .jacobian :=
  ⟨exampleSparseGates_ok, exampleSparse_wf, by simp⟩

/-- **C32** (the run returns): standard sparse gates on a sparse state of the right shape do return, and the result is the
product of the standard matrices applied to the densified state. -/
theorem C32_apply_gates_means (lay : Layout) {n : ℕ} {gs : List Gate} {ss : List StdGate} {values : Values}
    (hg : ∀ g ∈ gs, g.SparseOk) (h : List.Forall₂ (Gate.Std n values) (gs.map Gate.asDense) ss) (hne : gs ≠ [])
    {b : Bcoo ℂ} (hb : b.WF) (hs : b.shape = List.replicate n 2) (merge : Bool) :
    ∃ r : Bcoo ℂ, Arr.applyGates lay (.sparse b) (.list gs) values .unitary false merge = .ok (.sparse r) ∧
      r.shape = List.replicate n 2 ∧
      ket n r.todense = (List.zipWith (stdMat n) gs ss).reverse.prod.mulVec (ket n b.todense) := by
  let so : SetOrder := ⟨List.dedup, fun _ => List.nodup_dedup _, fun _ _ => List.mem_dedup⟩
  obtain ⟨r, h1, h2, h3⟩ := C01_apply_gates so h (by simpa using hne) (by
    intro g hg'
    obtain ⟨g, hg'', rfl⟩ := List.mem_map.1 hg'
    exact (hg g hg'').2.1) (st := b.todense) ⟨hs, Bcoo.wf_todense b⟩ merge
  have same := C32_apply_gates lay so hg (ot := .unitary) (by simp) values false merge hb
  obtain ⟨x, hx⟩ := same.2 _ h1
  obtain ⟨q, rfl, hq⟩ := same.1 _ hx
  rw [h1] at hq
  injection hq with hq
  injection hq with hq
  subst hq
  refine ⟨q, hx, h2.shape, ?_⟩
  rw [h3]
  refine congrArg (fun l : List (Matrix (Lab n) (Lab n) ℂ) => l.reverse.prod.mulVec (ket n b.todense)) ?_
  rw [List.zipWith_map_left]
  rfl

example : List.Forall₂ (Gate.Std 2 [("θ", .num 1)]) (exampleSparseGates.map Gate.asDense) [.X, .RY 1] ∧
    exampleSparseGates ≠ [] ∧ exampleSparse.shape = List.replicate 2 2 := by
  refine ⟨.cons ⟨.X _ _ _, rfl, ⟨.inr (.inr ⟨[1], rfl⟩), by decide⟩⟩ (.cons ⟨.RY _ _ _ (.str rfl) (by norm_num), rfl,
    ⟨.inl rfl, by decide⟩⟩ .nil), by simp [exampleSparseGates], rfl⟩

/-- **C32** (calls): every operation tree (sequences, scaling, sums, observables, circuits) of noiseless sparse gates. -/
theorem C32_call (lay : Layout) (so : SetOrder) (values : Values) {o : Op} (hg : ∀ g ∈ o.gates, g.SparseOk) {b : Bcoo ℂ}
    (hb : b.WF) :
    SameDense (fun a => some (.vec a)) (o.callArr lay values (.sparse b))
      ((o.mapGates Gate.asDense).call so values (some (.vec b.todense))) :=
  PyRel.sameDense (emb := fun a => some (State.vec a)) (callArr_rel lay so values o hg _ _ ⟨b, hb, rfl, rfl⟩)

example : ∀ g ∈ (mkScale (.list [mkAdd (.list (exampleSparseGates.map .prim))]) (.num 2)).gates, g.SparseOk := by
  have : (mkScale (.list [mkAdd (.list (exampleSparseGates.map .prim))]) (.num 2)).gates = exampleSparseGates := by
    simp [mkScale, mkAdd, OpArg.toList, Op.gates, Op.gatesList, exampleSparseGates]
  rw [this]; exact exampleSparseGates_ok

/-- **C32** (expectation values, AD mode): the sparse run returns exactly when the dense one does, one number (a sparse
array without axes) per observable, with the same values. -/
theorem C32_expectation (lay : Layout) (so : SetOrder) (values : Values) {circuit : Op} {observables : List Observable}
    (hg : ∀ g ∈ circuit.gates, g.SparseOk) (ho : ∀ o ∈ observables, ∀ g ∈ Op.gatesList o.ops, g.SparseOk) {b : Bcoo ℂ}
    (hb : b.WF) :
    (∀ outs, adExpectationArr lay (.sparse b) circuit observables values = .ok outs →
      ∃ xs, adExpectation so (.vec b.todense) (circuit.mapGates Gate.asDense)
          (observables.map fun o => ⟨Op.mapGatesList Gate.asDense o.ops⟩) values = .ok xs ∧
        List.Forall₂ (fun a (x : ℝ) => ∃ r : Bcoo ℂ, a = .sparse r ∧ r.todense = ⟨[], [(x : ℂ)]⟩) outs xs) ∧
    (∀ xs, adExpectation so (.vec b.todense) (circuit.mapGates Gate.asDense)
          (observables.map fun o => ⟨Op.mapGatesList Gate.asDense o.ops⟩) values = .ok xs →
      ∃ outs, adExpectationArr lay (.sparse b) circuit observables values = .ok outs) := by
  have key : PyRel (List.Forall₂ (fun a (x : ℝ) => ∃ r : Bcoo ℂ, a = .sparse r ∧ r.todense = ⟨[], [(x : ℂ)]⟩))
      (adExpectationArr lay (.sparse b) circuit observables values)
      (adExpectation so (.vec b.todense) (circuit.mapGates Gate.asDense)
          (observables.map fun o => ⟨Op.mapGatesList Gate.asDense o.ops⟩) values) := by
    rw [adExpectationArr, adExpectation]
    refine PyRel.bind PyRel.same fun v v' hv => ?_
    subst hv
    obtain ⟨vc, vo⟩ := v
    simp only
    refine PyRel.bind (PyRel.mapM (Arr.forall₂_map_right' (R := fun o o' => o ∈ observables ∧
        o' = (⟨Op.mapGatesList Gate.asDense o.ops⟩ : Observable)) _ observables fun o h => ⟨h, rfl⟩)
      (P := fun a (x : ℝ) => ∃ r : Bcoo ℂ, a = .sparse r ∧ r.todense = ⟨[], [(x : ℂ)]⟩) ?_) ?_
    · rintro o o' ⟨hm, rfl⟩
      rw [iter_mapGates]
      refine PyRel.bind (applyOpsArr_rel lay so vc (os := circuit.iter) (by rw [gates_iter]; exact hg) hb) ?_
      rintro a s ⟨r, hr, rfl, rfl⟩
      exact expect_rel lay so vo (ho o hm) hr
    · intro outs xs hx
      cases hx with
      | nil => exact .err _ _
      | cons h hx => exact .ok (.cons h hx)
  rcases key with ⟨e, e', h, h'⟩ | ⟨a, s, h, h', hp⟩
  · exact ⟨fun _ h1 => (by rw [h] at h1; cases h1), fun _ h1 => (by rw [h'] at h1; cases h1)⟩
  · exact ⟨fun _ h1 => (by rw [h] at h1; cases h1; exact ⟨s, h', hp⟩), fun _ _ => ⟨a, h⟩⟩

example : (∀ g ∈ (mkCircuit 2 (.list (exampleSparseGates.map .prim))).gates, g.SparseOk) ∧
    ∀ o ∈ [(⟨exampleSparseGates.map .prim⟩ : Observable)], ∀ g ∈ Op.gatesList o.ops, g.SparseOk := by
  have h : Op.gatesList (exampleSparseGates.map .prim) = exampleSparseGates := by
    simp [Op.gates, Op.gatesList, exampleSparseGates]
  refine ⟨fun g hg => exampleSparseGates_ok g ?_, fun o ho g hg => ?_⟩
  · simp only [mkCircuit, OpArg.toList, Op.gates] at hg
    rwa [h] at hg
  · rw [List.mem_singleton.1 ho] at hg
    simp only [h] at hg
    exact exampleSparseGates_ok g hg

/-- **C32** (state constructors): `product_state`, `zero_state`, `uniform_state` and `random_state` with `sparse=True`
return exactly when they do with `sparse=False`, with the same content. -/
theorem C32_states :
    (∀ s, (productStateSp s).map Bcoo.todense = productState s) ∧ (∀ n, (zeroStateSp n).map Bcoo.todense = zeroState n) ∧
    (∀ n, 0 < n → (uniformStateSp n).map Bcoo.todense = uniformState n) ∧
    (∀ n u, u.length = 2 ^ n → (randomStateSp n u).map Bcoo.todense = randomState n u) := by
  have hp : ∀ s, (productStateSp s).map Bcoo.todense = productState s := by
    intro s
    rw [productStateSp, productState]
    rcases List.mapM pyIntOfChar s.toList with e | ind
    · rfl
    · refine congrArg Except.ok ?_
      refine congrArg (ofFn _) (funext fun i => ?_)
      simp [eq_comm]
  refine ⟨hp, fun n => hp _, fun n hn => ?_, fun n u hu => ?_⟩
  · rw [uniformStateSp, uniformState, Bcoo.reshape_dense _ (by simpa using hn.ne'), Bcoo.todense_fromdense (by simp [NDArray.WF])]
  · rw [randomStateSp]
    rcases e : randomState n u with e' | a
    · rfl
    · refine congrArg Except.ok (Bcoo.todense_fromdense ?_)
      rw [randomState] at e
      simp only [NDArray.reshape] at e
      rw [if_pos (by simp)] at e
      cases e
      simp [NDArray.WF, hu]

/-! ## The limits of the sparse simulation -/

/-- **C32** (both formats in one run): whatever the formats of the state and of the gates (Hamiltonian evolutions
included), a run that returns gives the result of the dense run, with and without grouping and merging. -/
theorem C32_mixed (lay : Layout) (so : SetOrder) {gs : List Gate} (hn : ∀ g ∈ gs, g.noise = none) {ot : OpType}
    (hot : ot ≠ .jacobian) (values : Values) (group merge : Bool) {st : Arr} (hst : ∀ b, st = .sparse b → b.WF) {r : Arr}
    (hr : Arr.applyGates lay st (.list gs) values ot group merge = .ok r) :
    applyGates so (.vec st.todense) (.list (gs.map Gate.asDense)) values ot group merge = .ok (.vec r.todense) := by
  rcases Arr.applyGates_any lay so (ga := .list gs) hn hot values group merge hst with ⟨e, h⟩ | ⟨a, s, h1, h2, rfl⟩
  · rw [h] at hr; cases hr
  · rw [h1] at hr; cases hr; exact h2

/-- Non-vacuity: a sparse CNOT and then a dense RY on a sparse state returns a dense state. -/
example (lay : Layout) : ∃ r, Arr.applyGates lay (.sparse exampleSparse)
    (.list [⟨.primitive, "X", [0], some [.int 1], none, true⟩, Gate.RY (.num 2) (.int 1)]) [] .unitary false false
      = .ok (.dense r) := by
  have hX : (⟨.primitive, "X", [0], some [.int 1], none, false⟩ : Gate).Std 2 [] .X :=
    ⟨.X _ _ _, rfl, ⟨.inr (.inr ⟨[1], rfl⟩), by decide⟩⟩
  have hY : (Gate.RY (.num 2) (.int 1)).Std 2 [] (.RY 2) :=
    ⟨.RY _ _ _ (.num _) (by norm_num), rfl, ⟨.inr (.inl rfl), by decide⟩⟩
  have hk : IsKet 2 exampleSparse.todense := ⟨rfl, wf_ofFn _ _⟩
  obtain ⟨U, hU, hUo⟩ := hX.ok.op
  obtain ⟨V, hV, hVo⟩ := hY.ok.op
  obtain ⟨r1, a1, a2, -⟩ := applyOperator_opMat (o := (U, [0], some [.int 1])) hk ⟨hUo, hX.valid.ctl, hX.valid.dims⟩
  obtain ⟨r2, b1, -, -⟩ := applyOperator_opMat (o := (V, [1], some [.none])) a2 ⟨hVo, hY.valid.ctl, hY.valid.dims⟩
  obtain ⟨W, w1, w2⟩ : ∃ W, (⟨.primitive, "X", [0], some [.int 1], none, true⟩ : Gate).operatorArr lay .unitary []
      = .ok W ∧ Arr.OpRel W U := by
    rcases Arr.unitary_rel lay (g := ⟨.primitive, "X", [0], some [.int 1], none, true⟩) ⟨rfl, rfl, fun _ h => by cases h⟩ []
      with ⟨e, e', -, h⟩ | ⟨a, m, h1, h2, h3⟩
    · exact absurd (hU.symm.trans h) (by simp)
    · cases hU.symm.trans h2
      exact ⟨a, h1, h3⟩
  have hV' : (Gate.RY (.num 2) (.int 1)).operatorArr lay .unitary [] = .ok (.dense V) :=
    congrArg (Except.map Arr.dense) hV
  obtain ⟨q, q1, q2⟩ : ∃ q, Arr.applyOperator lay (.sparse exampleSparse) W [0] (some [.int 1]) = .ok (.sparse q) ∧
      q.todense = r1 := by
    rcases Arr.applyOperator_rel lay (⟨_, exampleSparse_wf, rfl, rfl⟩ : Arr.StRel _ _) w2 [0] (some [.int 1])
      with ⟨e, e', -, h⟩ | ⟨a, m, h1, h2, q, -, rfl, rfl⟩
    · exact absurd (a1.symm.trans h) (by simp)
    · cases a1.symm.trans h2
      exact ⟨q, h1, rfl⟩
  refine ⟨r2, ?_⟩
  have hz : allNoiseless [(none : Option (List NoiseInstance)), none] = true := rfl
  simp only [Arr.applyGates, prepareSequenceReduce, Bool.false_eq_true, if_false, List.mapM_cons, List.mapM_nil, w1, hV',
    pure, Except.pure, except_bind, List.isEmpty_cons, Bool.and_false, List.map_cons, List.map_nil, List.zipWith_cons_cons,
    List.zipWith_nil_right, List.foldlM_cons, List.foldlM_nil]
  rw [show (Gate.RY (.num 2) (.int 1)).noise = none from rfl, hz]
  simp only [Bool.not_true, Bool.false_eq_true, if_false, q1]
  have hlast : Arr.applyOperator lay (.sparse q) (.dense V) (Gate.RY (.num 2) (.int 1)).target
      (Gate.RY (.num 2) (.int 1)).control = .ok (.dense r2) := by
    change (Verif.applyOperator q.todense V [1] (some [.none])).map Arr.dense = _
    rw [q2, b1]
    rfl
  rw [hlast]

/-- **C32** (dense gates): gates without the sparse flag keep a dense state dense, and the run is the dense run: both
raise, or both return the same array; for all operation types. -/
theorem C32_dense (lay : Layout) (so : SetOrder) {gs : List Gate} (hn : ∀ g ∈ gs, g.noise = none)
    (hs : ∀ g ∈ gs, g.sparse = false) (ot : OpType) (values : Values) (group merge : Bool) (a x : NDArray ℂ) :
    Arr.applyGates lay (.dense a) (.list gs) values ot group merge = .ok (.dense x) ↔
      applyGates so (.vec a) (.list gs) values ot group merge = .ok (.vec x) := by
  have hmap : gs.map Gate.asDense = gs := by
    conv_rhs => rw [← List.map_id gs]
    refine List.map_congr_left fun g hg => ?_
    have := hs g hg
    cases g
    simp only at this
    subst this
    rfl
  have h := Arr.applyGates_dense lay so (ga := .list gs) hn hs ot values group merge a
  rw [GateArg.asDense, hmap] at h
  rcases h with ⟨e, e', h1, h2⟩ | ⟨r, s, h1, h2, y, rfl, rfl⟩
  · rw [h1, h2]
    exact ⟨fun h => (by cases h), fun h => (by cases h)⟩
  · rw [h1, h2]
    exact ⟨fun h => by cases h; rfl, fun h => by cases h; rfl⟩

example : ∀ g ∈ [Gate.H (.int 0), Gate.RX (.str "θ") (.int 1) (.int 0)], g.noise = none ∧ g.sparse = false := by
  intro g hg
  simp only [List.mem_cons, List.not_mem_nil, or_false] at hg
  rcases hg with rfl | rfl <;> exact ⟨rfl, rfl⟩

/-- **C32** (dense gates on sparse states): the matrix is applied to the dense content and the state becomes dense. -/
theorem C32_dense_gate (lay : Layout) (so : SetOrder) {g : Gate} (hn : g.noise = none) (hs : g.sparse = false)
    (ot : OpType) (values : Values) (group merge : Bool) (b : Bcoo ℂ) (x : NDArray ℂ) :
    Arr.applyGates lay (.sparse b) (.single g) values ot group merge = .ok (.dense x) ↔
      applyGates so (.vec b.todense) (.single g) values ot group merge = .ok (.vec x) := by
  have hg : g.asDense = g := by
    cases g
    simp only at hs
    subst hs
    rfl
  have h := Arr.operator_dense_rel lay hs ot values
  rw [hg] at h
  simp only [Arr.applyGates, applyGates, prepareSequenceReduce]
  rcases h with ⟨e, e', h1, h2⟩ | ⟨r, s, h1, h2, h3⟩
  · rw [h1, h2]
    exact ⟨fun h => (by cases h), fun h => (by cases h)⟩
  · cases h3
    rw [h1, h2]
    simp only [except_bind, allNoiseless, hn, List.all_cons, List.all_nil, Option.isNone_none, Bool.and_self,
      Bool.not_true, Bool.false_eq_true, if_false, List.foldlM_cons, List.foldlM_nil, Arr.applyOperator, reduceApply]
    rcases Verif.applyOperator b.todense s g.target g.control with e | y
    · exact ⟨fun h => (by cases h), fun h => (by cases h)⟩
    · constructor
      · intro h; cases h; rfl
      · intro h; cases h; rfl

/-- A sparse gate on a dense state is refused with TypeError. -/
theorem C32_dense_state_refused (lay : Layout) {g : Gate} (hg : g.SparseOk) (values : Values) (a : NDArray ℂ)
    (group merge : Bool) : ∃ e, Arr.applyGates lay (.dense a) (.single g) values .unitary group merge = .error e ∧
      ((∃ U, g.unitaryArr lay values = .ok U) → e = .typeError) := by
  rw [Arr.applyGates, prepareSequenceReduce]
  rcases Arr.operator_rel lay hg (ot := .unitary) (by simp) values with ⟨e, _, h, _⟩ | ⟨x, _, h, _, b, _, rfl, _⟩
  · rw [h]
    refine ⟨e, rfl, fun ⟨U, hU⟩ => ?_⟩
    rw [show g.operatorArr lay .unitary values = g.unitaryArr lay values from rfl, hU] at h
    cases h
  · rw [h]
    refine ⟨.typeError, ?_, fun _ => rfl⟩
    simp [except_bind, allNoiseless, hg.2.1, List.foldlM_cons, Arr.applyOperator]

/-- **C32 does not extend to Hamiltonian evolutions**: `HamiltonianEvolution` always has a dense matrix, so the state
becomes dense and the next sparse gate is refused, although the dense run returns. -/
theorem C32_hamevo_false (lay : Layout) (so : SetOrder) : ∃ (g h : Gate) (values : Values) (b : Bcoo ℂ), g.sparse = true ∧
    (∃ s, g.cls = .hamEvo s) ∧ h.SparseOk ∧ b.WF ∧
    (∃ r, applyGates so (.vec b.todense) (.list [g.asDense, h.asDense]) values .unitary false true = .ok r) ∧
    ∃ e, Arr.applyGates lay (.sparse b) (.list [g, h]) values .unitary false true = .error e := by
  let vs : Values := [("hamiltonian", .arr matX), ("time_evolution", .num 3)]
  have hv : EvolutionValues vs matX 3 := ⟨rfl, rfl⟩
  have ok1 := (hamEvo_ok (n := 2) hv (tg := .int 0) (c := .none) ⟨rfl, rfl⟩ (.inl rfl) (by decide)).1
  have ok2 : (⟨.primitive, "X", [1], none, none, false⟩ : Gate).Ok 2 .unitary vs :=
    Gate.Std.ok (s := .X) ⟨.X _ _ _, rfl, ⟨.inl rfl, by decide⟩⟩
  obtain ⟨r, hr, -, -⟩ := applyGates_vec so (gs := [Gate.HamiltonianEvolution (.int 0) .none,
      ⟨.primitive, "X", [1], none, none, false⟩]) (by simp) (by
        intro g hg
        simp only [List.mem_cons, List.not_mem_nil, or_false] at hg
        rcases hg with rfl | rfl
        · exact ok1
        · exact ok2) (by
        intro g hg
        simp only [List.mem_cons, List.not_mem_nil, or_false] at hg
        rcases hg with rfl | rfl <;> rfl) (st := exampleSparse.todense) ⟨rfl, Bcoo.wf_todense _⟩ true
  refine ⟨{ Gate.HamiltonianEvolution (.int 0) .none with sparse := true }, ⟨.primitive, "X", [1], none, none, true⟩, vs,
    exampleSparse, rfl, ⟨0, rfl⟩, ⟨rfl, rfl, fun _ h => by cases h⟩, exampleSparse_wf, ⟨_, hr⟩, ?_⟩
  obtain ⟨⟨U, hU, -⟩, -⟩ := ok1
  have e1 : ({ Gate.HamiltonianEvolution (.int 0) .none with sparse := true } : Gate).operatorArr lay .unitary vs
      = .ok (.dense U) := by
    have : ({ Gate.HamiltonianEvolution (.int 0) .none with sparse := true } : Gate).operatorArr lay .unitary vs
      = ((Gate.HamiltonianEvolution (.int 0) .none).unitary vs).map .dense := rfl
    rw [this, show (Gate.HamiltonianEvolution (.int 0) .none).unitary vs = .ok U from hU]
    rfl
  have e2 : (⟨.primitive, "X", [1], none, none, true⟩ : Gate).operatorArr lay .unitary vs
      = .ok (.sparse (Bcoo.fromdense matX)) := rfl
  rw [Arr.applyGates]
  simp only [prepareSequenceReduce, Bool.false_eq_true, if_false, List.mapM_cons, List.mapM_nil, e1, e2]
  have hm : ∀ (x y : Arr) (c c' : Ctl), mergeOperators (Arr.matmul lay) [(x, [0], c), (y, [1], c')]
      = .ok [(x, [0], c), (y, [1], c')] := fun x y c c' => by simp [mergeOperators, mergeLoop, except_bind]
  have ht : (Gate.HamiltonianEvolution (.int 0) .none).target = [0] := rfl
  have hn : (Gate.HamiltonianEvolution (.int 0) .none).noise = none := rfl
  simp only [except_bind, pure, Except.pure, List.isEmpty_cons, Bool.false_eq_true, if_false, List.zipWith_cons_cons,
    List.zipWith_nil_right, List.map_cons, List.map_nil, ht, hn, hm, allNoiseless, List.all_cons, List.all_nil,
    Option.isNone_none, Bool.and_self, if_true, Bool.not_true, List.foldlM_cons]
  simp only [Arr.applyOperator]
  rcases applyOperator exampleSparse.todense U [0] _ with e | x
  · exact ⟨e, rfl⟩
  · exact ⟨.typeError, rfl⟩

/-- The Jacobian of a sparse rotation is never computed. -/
theorem C32_jacobian_refused (lay : Layout) {p : Param} {s x : ℝ} {values : Values} (hp : parseValues p s values = .ok x)
    {name : String} (hn : name = "X" ∨ name = "Y" ∨ name = "Z") (ts : List ℕ) (c : Ctl) :
    (⟨.parametric p s, name, ts, c, none, true⟩ : Gate).operatorArr lay .jacobian values = .error .notImplemented := by
  simp only [Gate.operatorArr, Gate.jacobianArr, if_true, Gate.generatorSp, hp]
  rcases hn with rfl | rfl | rfl <;> simp [operationsDict, except_bind, Except.map]

/-- Sampling from a sparse state is refused. -/
theorem C32_sample_refused (lay : Layout) (draw : Draw) {b : Bcoo ℂ} (hb : b.WF) {o : Op} (hg : ∀ g ∈ o.gates, g.SparseOk)
    (values : Values) (nShots : ℤ) : ∃ e, sampleArr lay draw (.sparse b) o values nShots = .error e := by
  rw [sampleArr]
  split_ifs
  · exact ⟨_, rfl⟩
  · let so : SetOrder := ⟨List.dedup, fun _ => List.nodup_dedup _, fun _ _ => List.mem_dedup⟩
    rcases callArr_rel lay so values o hg (.sparse b) _ ⟨b, hb, rfl, rfl⟩ with ⟨e, _, h, _⟩ | ⟨a, _, h, _, r, _, rfl, _⟩
    · rw [h]; exact ⟨_, rfl⟩
    · rw [h]; exact ⟨_, rfl⟩

/-! ## C50 -/

/-- **C50** (sparse states): `apply_gates` never simulates a noisy gate on a sparse state; if the operators of the gates can
be computed, it raises NotImplementedError. -/
theorem C50_sparse_refused (lay : Layout) (b : Bcoo ℂ) {gs : List Gate} {g : Gate} (hg : g ∈ gs) (hn : g.noise ≠ none)
    (values : Values) (ot : OpType) (group merge : Bool) :
    ∃ e, Arr.applyGates lay (.sparse b) (.list gs) values ot group merge = .error e ∧
      ((∀ g ∈ gs, ∃ U, g.operatorArr lay ot values = .ok U) → e = .notImplemented) := by
  set l := if group then groupByIndex gs else gs with hl
  have hmem : ∀ x, x ∈ l ↔ x ∈ gs := fun x => by
    rw [hl]
    split_ifs
    · exact (groupByIndex_perm gs).mem_iff
    · rfl
  have hne : l.isEmpty = false := by
    rcases e : l with _ | _
    · have := (hmem g).2 hg
      rw [e] at this; cases this
    · rfl
  have hnz : allNoiseless (l.map Gate.noise) = false := by
    rw [allNoiseless, List.all_eq_false]
    exact ⟨g.noise, List.mem_map.2 ⟨g, (hmem g).2 hg, rfl⟩, by simpa using hn⟩
  rw [Arr.applyGates]
  simp only [prepareSequenceReduce, ← hl]
  rcases h : l.mapM fun g => g.operatorArr lay ot values with e | us
  · refine ⟨e, by simp only [except_bind, h], fun hall => ?_⟩
    have : ∃ us, l.mapM (fun g => g.operatorArr lay ot values) = .ok us := by
      have hall' : ∀ x ∈ l, ∃ U, x.operatorArr lay ot values = .ok U := fun x hx => hall x ((hmem x).1 hx)
      clear h hnz hne hmem hl
      clear_value l
      induction l with
      | nil => exact ⟨[], rfl⟩
      | cons x l ih =>
        obtain ⟨U, hU⟩ := hall' x (by simp)
        obtain ⟨us, hus⟩ := ih fun y hy => hall' y (by simp [hy])
        exact ⟨U :: us, by rw [List.mapM_cons, hU, hus]; rfl⟩
    obtain ⟨us, hus⟩ := this
    rw [hus] at h; cases h
  · refine ⟨.notImplemented, ?_, fun _ => rfl⟩
    simp only [except_bind, h, hne, hnz, Bool.false_and, Bool.false_eq_true, if_false, Bool.not_false, if_true]

/-- **C50** (sparse states, one gate). -/
theorem C50_sparse_refused_single (lay : Layout) (b : Bcoo ℂ) {g : Gate} (hn : g.noise ≠ none)
    (values : Values) (ot : OpType) (group merge : Bool) :
    ∃ e, Arr.applyGates lay (.sparse b) (.single g) values ot group merge = .error e ∧
      ((∃ U, g.operatorArr lay ot values = .ok U) → e = .notImplemented) := by
  rw [Arr.applyGates, prepareSequenceReduce]
  rcases h : g.operatorArr lay ot values with e | U
  · exact ⟨e, rfl, fun ⟨U, hU⟩ => by cases hU⟩
  · refine ⟨.notImplemented, ?_, fun _ => rfl⟩
    have : allNoiseless [g.noise] = false := by
      rcases e : g.noise with _ | _
      · exact absurd e hn
      · rfl
    simp only [except_bind, this, Bool.not_false, if_true]

example : ∃ g : Gate, g ∈ [(⟨.primitive, "X", [0], none, some [⟨.bitFlip, .float 1⟩], true⟩ : Gate)] ∧ g.noise ≠ none ∧
    ∃ U, g.operatorArr Layout.pad .unitary [] = .ok U :=
  ⟨_, List.mem_singleton.2 rfl, by simp, _, rfl⟩

end Verif
