import Verif.Lemmas.SparseTensor
import Verif.Props.Sparse
import Verif.Props.Tensor
import Verif.Props.Composite

/-!
# Matrices of sparse operations

C59.
-/

set_option autoImplicit false

namespace Verif
open NDArray

theorem PyRel.sameDense_op {x : Py Arr} {y : Py (NDArray ℂ)} (h : PyRel Arr.OpRel x y) : SameDense id x y :=
  PyRel.sameDense (h.mono fun _ _ ⟨b, hb, h1, h2⟩ => ⟨b, hb.1, h1, h2⟩)

/-- **C59** (gates): `tensor` of a sparse gate — with any controls, and with or without `full_support` — returns exactly
when `tensor` of the same dense gate does, a sparse matrix with the same entries. -/
theorem C59_gate (lay : Layout) {g : Gate} (hg : g.SparseOk) (values : Values) (full : Option (List ℕ)) :
    SameDense id (g.tensorArr lay values full) (g.asDense.tensor values full) :=
  (Arr.tensor_rel lay hg values full).sameDense_op

example : ∃ g : Gate, g.SparseOk ∧ ctlInts g.control = [3] ∧ g.target = [1] :=
  ⟨⟨.parametric (.str "θ") 0, "Y", [1], some [.int 3], none, true⟩, ⟨rfl, rfl, fun _ h => by cases h⟩, rfl, rfl⟩

/-- **C59** (meaning): for standard sparse gates the call returns, and the entries are those of the controlled gate
matrix in the ascending order of `full_support`. -/
theorem C59_gate_means (lay : Layout) {g : Gate} {s : StdGate} {values : Values} (hg : g.SparseOk) (hI : g.asDense.Is values s)
    (ha : g.target.length = s.arity) (hc : WfCtl g.control) (hn : (ctlInts g.control ++ g.target).Nodup) {F : List ℕ}
    (hF : F.Nodup) (hsub : ∀ q ∈ ctlInts g.control ++ g.target, q ∈ F) :
    ∃ b, g.tensorArr lay values (some F) = .ok (.sparse b) ∧ b.shape = [2 ^ F.length, 2 ^ F.length] ∧
      ∀ x y : Lab F.length, b.todense.get [binVal x.bits, binVal y.bits]
        = gateMatOn F s.mat g.target (ctlInts g.control) x y := by
  obtain ⟨r, h1, h2, h3⟩ := C14_tensor (g := g.asDense) hI ha hc hn hF hsub
  obtain ⟨k1, k2⟩ := C59_gate lay hg values (some F)
  obtain ⟨a, ha⟩ := k2 r h1
  obtain ⟨b, rfl, hb⟩ := k1 a ha
  rw [h1] at hb
  cases hb
  exact ⟨b, ha, h2, h3⟩

/-- **C59** (sums and multiples): the same for trees of sums, multiples and observables in which no two matrices are
multiplied. -/
theorem C59_tensor_partial (lay : Layout) (so : SetOrder) (values : Values) {o : Op} (hg : ∀ g ∈ o.gates, g.SparseOk)
    (ho : o.SingleProducts) (full : Option (List ℕ)) :
    SameDense id (o.tensorArr lay so values full) ((o.mapGates Gate.asDense).tensor so values full) :=
  (Op.tensorArr_rel lay so values o hg ho full).sameDense_op

/-- The observable `2 · X(0, control 1) + 2 · RY("θ")(1)` with sparse gates. -/
noncomputable def exampleSparseSum : Op :=
  .comp .obs (exampleSparseGates.map fun g => mkScale (.one (.prim g)) (.num 2))

example : (∀ g ∈ exampleSparseSum.gates, g.SparseOk) ∧ exampleSparseSum.SingleProducts := by
  constructor
  · have : exampleSparseSum.gates = exampleSparseGates := by
      simp [exampleSparseSum, mkScale, OpArg.toList, Op.gates, Op.gatesList, exampleSparseGates, Op.iter]
    rw [this]; exact exampleSparseGates_ok
  · simp [exampleSparseSum, mkScale, OpArg.toList, exampleSparseGates, Op.SingleProducts, Op.AllSingleProducts, Op.iter]

/-- **C59 does not extend to sequences**: whenever a sequence, circuit or scaled sequence of sparse gates has two or more
operations, `tensor` raises; if the matrices of the first two operations are computed, it raises TypeError. -/
theorem C59_product_refused (lay : Layout) (so : SetOrder) (values : Values) {k : CompKind} (hk : k ≠ .add) (hk' : k ≠ .obs)
    {a b : Op} {ops : List Op} (hg : ∀ g ∈ (Op.comp k (a :: b :: ops)).gates, g.SparseOk) (full : Option (List ℕ)) :
    ∃ e, (Op.comp k (a :: b :: ops)).tensorArr lay so values full = .error e := by
  have ha : ∀ g ∈ a.gates, g.SparseOk := fun g h => hg g (by simp [Op.gates, Op.gatesList, h])
  have key : ∀ k, ∃ e, (do
      let F ← Op.fullSupport ((Op.comp k (a :: b :: ops)).qubitSupport so) full
      pyReduce Arr.jnpMatmul (Op.tensorListArr lay so values (a :: b :: ops) F)) = .error e := by
    intro k
    rcases Op.fullSupport ((Op.comp k (a :: b :: ops)).qubitSupport so) full with e | F
    · exact ⟨e, rfl⟩
    · obtain ⟨e, he, -⟩ := Op.product_fails (y := b.tensorArr lay so values (some F))
        (l := Op.tensorListArr lay so values ops F) (Op.tensorArr_sparse lay so values a ha (some F))
      refine ⟨e, ?_⟩
      simp only [except_bind]
      rw [Op.tensorListArr, Op.tensorListArr]
      exact he
  cases k with
  | add => exact absurd rfl hk
  | obs => exact absurd rfl hk'
  | seq => rw [Op.tensorArr]; exact key _
  | circ n fs => rw [Op.tensorArr]; exact key _
  | scale p =>
    rw [Op.tensorArr]
    obtain ⟨e, he⟩ := key (.scale p)
    rcases scaleParam p values with e' | x
    · exact ⟨e', rfl⟩
    · refine ⟨e, ?_⟩
      rcases hF : Op.fullSupport ((Op.comp (.scale p) (a :: b :: ops)).qubitSupport so) full with e' | F
      · rw [hF] at he; cases he; rfl
      · rw [hF] at he
        simp only [except_bind] at he ⊢
        rw [he]

/-- **C59 is false of sequences**: `OpSequence([X(0), Z(0)])` has a matrix in dense format and raises TypeError in sparse
format. -/
theorem C59_sequence_false (lay : Layout) (so : SetOrder) :
    ∃ o : Op, (∀ g ∈ o.gates, g.SparseOk) ∧ (∃ m, (o.mapGates Gate.asDense).tensor so [] (some [0]) = .ok m) ∧
      o.tensorArr lay so [] (some [0]) = .error .typeError := by
  let x : Gate := ⟨.primitive, "X", [0], some [.none], none, true⟩
  let z : Gate := ⟨.primitive, "Z", [0], some [.none], none, true⟩
  have hx : x.SparseOk := ⟨rfl, rfl, fun _ h => by cases h⟩
  have hz : z.SparseOk := ⟨rfl, rfl, fun _ h => by cases h⟩
  have hL := Op.Listed.seq (values := []) (.cons (.gate (leafX (values := []))) (.one (.gate (leafZ (values := [])))))
  obtain ⟨m, m1, -⟩ := tensor_acts so hL (F := [0]) (by decide) (st := zero1)
  refine ⟨.comp .seq [.prim x, .prim z], ?_, ⟨m, m1⟩, ?_⟩
  · intro g hg
    simp only [Op.gates, Op.gatesList, List.append_nil, List.mem_append, List.mem_singleton] at hg
    rcases hg with rfl | rfl
    · exact hx
    · exact hz
  · obtain ⟨bx, h1, -⟩ := C59_gate_means lay hx (F := [0]) (values := []) (.X _ _ _) rfl (.inr (.inl rfl)) (by decide) (by decide) (by decide)
    obtain ⟨bz, h2, -⟩ := C59_gate_means lay hz (F := [0]) (values := []) (.Z _ _ _) rfl (.inr (.inl rfl)) (by decide) (by decide) (by decide)
    have hs : Op.fullSupport ((Op.comp .seq [.prim x, .prim z]).qubitSupport so) (some [0]) = .ok [0] := by
      have : (Op.comp .seq [.prim x, .prim z]).qubitSupport so = .ok (so.order [0, 0]) := rfl
      rw [this, Op.fullSupport]
      simp only [except_bind]
      rw [if_pos]
      · rfl
      · rw [List.all_eq_true]
        intro q hq
        have := (so.mem [0, 0] q).1 hq
        simpa using this
    obtain ⟨e, he, ht⟩ := Op.product_fails (l := []) (x := x.tensorArr lay [] (some [0])) (y := z.tensorArr lay [] (some [0]))
      (fun r h => by rw [h1] at h; cases h; exact ⟨_, rfl⟩)
    rw [Op.tensorArr, hs]
    simp only [except_bind]
    rw [Op.tensorListArr, Op.tensorListArr, Op.tensorListArr, Op.tensorArr, Op.tensorArr, he, ht _ _ h1 h2]

end Verif
