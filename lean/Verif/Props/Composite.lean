import Verif.Lemmas.RunTree
import Verif.Lemmas.Small

/-!
# Property theorems about composite operations

C15, C17, C18, C45.
-/

namespace Verif
open NDArray
variable {n : ℕ} {values : Values} (so : SetOrder)

/-! ## C17: `Add`, `Scale` and `Observable.forward` are linear -/

/-- The operations `ops` map the state vector `st` to the vectors `rs`, one each. -/
def CallResults (n : ℕ) (so : SetOrder) (values : Values) (st : NDArray ℂ) (ops : List Op) (rs : List (NDArray ℂ)) : Prop :=
  List.Forall₂ (fun o r => o.call so values (some (.vec st)) = .ok (some (.vec r)) ∧ IsKet n r) ops rs

theorem callList_of_results {st : NDArray ℂ} {ops : List Op} {rs : List (NDArray ℂ)} (h : CallResults n so values st ops rs) :
    Op.callList so values ops (some (.vec st)) = rs.map (fun r => .ok (some (State.vec r))) ∧ ∀ r ∈ rs, IsKet n r := by
  induction h with
  | nil => exact ⟨by simp only [Op.callList, List.map_nil], by simp⟩
  | cons h _ ih => exact ⟨by simp only [Op.callList, h.1, ih.1, List.map_cons], by simpa using ⟨h.2, ih.2⟩⟩

/-- **C17** (`Add`): calling `Add` on any non-empty list of operations (gates or composite objects) returns the sum of
the results of its operations. -/
theorem C17_add {st : NDArray ℂ} {ops : List Op} {rs : List (NDArray ℂ)} (hne : ops ≠ [])
    (h : CallResults n so values st ops rs) :
    ∃ r, (mkAdd (.list ops)).call so values (some (.vec st)) = .ok (some (.vec r)) ∧ IsKet n r ∧
      ∀ b : Lab n, r.get b.bits = (rs.map fun q => q.get b.bits).sum := by
  obtain ⟨h1, h2⟩ := callList_of_results so h
  have hrs : rs ≠ [] := by rintro rfl; cases h; exact hne rfl
  obtain ⟨r, k1, k2, k3⟩ := reduce_addStates hrs h2
  refine ⟨r, by simp only [mkAdd, OpArg.toList, Op.call, h1, k1], k2, fun b => ?_⟩
  have hsum : ∀ l : List (NDArray ℂ), (l.map (ket n)).sum b = (l.map fun q => q.get b.bits).sum := fun l => by
    induction l with
    | nil => rfl
    | cons a l ih => rw [List.map_cons, List.sum_cons, Pi.add_apply, ih]; rfl
  rw [← hsum, ← k3]; rfl

/-- **C17** (`Observable.forward`): likewise. -/
theorem C17_observable {st : NDArray ℂ} {ops : List Op} {rs : List (NDArray ℂ)} (hne : ops ≠ [])
    (h : CallResults n so values st ops rs) :
    ∃ r, (Observable.new (.list ops)).forward so values (some (.vec st)) = .ok (some (.vec r)) ∧ IsKet n r ∧
      ∀ b : Lab n, r.get b.bits = (rs.map fun q => q.get b.bits).sum := by
  obtain ⟨r, k1, k2⟩ := C17_add so hne h
  refine ⟨r, ?_, k2⟩
  simp only [mkAdd, OpArg.toList, Op.call] at k1
  simpa only [Observable.forward, Observable.new, OpArg.toList] using k1

/-- **C17** (`Scale`): calling `Scale([op], p)` returns the value of `p` times the result of `op`. -/
theorem C17_scale {st r : NDArray ℂ} {o : Op} {p : Param} {x : ℝ} (hp : p.Resolves values x)
    (h : o.call so values (some (.vec st)) = .ok (some (.vec r))) (hr : IsKet n r) :
    ∃ q, (mkScale (.list [o]) p).call so values (some (.vec st)) = .ok (some (.vec q)) ∧ IsKet n q ∧
      ∀ b : Lab n, q.get b.bits = x * r.get b.bits := by
  refine ⟨smul (x : ℂ) r, ?_, (smul_ket hr _).1, fun b => congrFun (smul_ket hr _).2 b⟩
  simp only [mkScale, OpArg.toList, Op.call, scaleParam_eq hp, bind, Except.bind, Op.callSeq, h, Op.scaleState]

/-- **C17** (`Scale` of a single gate passed without a list): likewise. -/
theorem C17_scale_gate {st r : NDArray ℂ} {g : Gate} {p : Param} {x : ℝ} (hp : p.Resolves values x)
    (h : (Op.prim g).call so values (some (.vec st)) = .ok (some (.vec r))) (hr : IsKet n r) :
    ∃ q, (mkScale (.one (.prim g)) p).call so values (some (.vec st)) = .ok (some (.vec q)) ∧ IsKet n q ∧
      ∀ b : Lab n, q.get b.bits = x * r.get b.bits := C17_scale so hp h hr

/-- **C17** (meaning of trees): every tree of noiseless gates of any class built with `OpSequence`, `QuantumCircuit`,
`Scale` and `Add` acts on every state vector as its matrix. -/
theorem C17_tree {o : Op} {M : Matrix (Lab n) (Lab n) ℂ} (h : o.Means (AnyLeaf n values) values M) {st : NDArray ℂ}
    (hst : IsKet n st) :
    ∃ r, o.call so values (some (.vec st)) = .ok (some (.vec r)) ∧ IsKet n r ∧ ket n r = M.mulVec (ket n st) :=
  call_means so hst h

/-- **C17** (linearity): such trees act linearly. -/
theorem C17_linear {o : Op} {M : Matrix (Lab n) (Lab n) ℂ} (h : o.Means (AnyLeaf n values) values M) {a b s : NDArray ℂ}
    {α β : ℂ} (ha : IsKet n a) (hb : IsKet n b) (hs : IsKet n s)
    (hsum : ∀ x : Lab n, s.get x.bits = α * a.get x.bits + β * b.get x.bits) :
    ∃ ra rb rs, o.call so values (some (.vec a)) = .ok (some (.vec ra)) ∧
      o.call so values (some (.vec b)) = .ok (some (.vec rb)) ∧ o.call so values (some (.vec s)) = .ok (some (.vec rs)) ∧
      ∀ x : Lab n, rs.get x.bits = α * ra.get x.bits + β * rb.get x.bits := by
  obtain ⟨ra, a1, -, a3⟩ := call_means so ha h
  obtain ⟨rb, b1, -, b3⟩ := call_means so hb h
  obtain ⟨rs, s1, -, s3⟩ := call_means so hs h
  refine ⟨ra, rb, rs, a1, b1, s1, fun x => ?_⟩
  have : ket n s = α • ket n a + β • ket n b := funext hsum
  rw [this, Matrix.mulVec_add, Matrix.mulVec_smul, Matrix.mulVec_smul, ← a3, ← b3] at s3
  exact congrFun s3 x

theorem leafX : StdLeaf 1 values (Gate.X (.int 0)) (gateMat 1 StdGate.X.mat [0] []) :=
  ⟨.X, ⟨.X _ _ _, rfl, ⟨.inr (.inl rfl), by decide⟩⟩, rfl, rfl⟩

theorem leafZ : StdLeaf 1 values (Gate.Z (.int 0)) (gateMat 1 StdGate.Z.mat [0] []) :=
  ⟨.Z, ⟨.Z _ _ _, rfl, ⟨.inr (.inl rfl), by decide⟩⟩, rfl, rfl⟩

/-- Non-vacuity of the tree theorems: `Add([X(0), Scale([Z(0)], "w")])` followed by nothing, with `w = 3`. -/
example : ∃ M : Matrix (Lab 1) (Lab 1) ℂ,
    (mkAdd (.list [.prim (Gate.X (.int 0)), mkScale (.list [.prim (Gate.Z (.int 0))]) (.str "w")])).Means
      (AnyLeaf 1 [("w", .num 3)]) [("w", .num 3)] M :=
  ⟨_, .add (.cons (.gate leafX.any) (.one (.scale (.str rfl) (.cons (.gate leafZ.any) .nil))))⟩

/-- Non-vacuity of `C17_add`, `C17_observable`, `C17_scale`: results exist for lists of gates. -/
example {st : NDArray ℂ} (hst : IsKet 1 st) :
    ∃ rs, CallResults 1 so [] st [.prim (Gate.X (.int 0)), .prim (Gate.Z (.int 0))] rs := by
  obtain ⟨r, h1, h2, -⟩ := call_means so hst (.gate (leafX (values := [])).any)
  obtain ⟨q, k1, k2, -⟩ := call_means so hst (.gate (leafZ (values := [])).any)
  exact ⟨[r, q], .cons ⟨h1, h2⟩ (.cons ⟨k1, k2⟩ .nil)⟩

/-! ## C18: `Scale` of an `Add` -/

/-- The one-qubit state `|0⟩`. -/
noncomputable def zero1 : NDArray ℂ := ⟨[2], [1, 0]⟩

theorem zero1_isKet : IsKet 1 zero1 := ⟨rfl, rfl⟩

theorem zero1_get (i : Fin 2) : zero1.get (lab1 i).bits = if i = 0 then 1 else 0 := by
  fin_cases i <;> simp [lab1_bits, NDArray.get, zero1, ravel]

theorem mulVec_lab1 (U : ℕ → ℕ → ℂ) (ψ : Lab 1 → ℂ) (i : Fin 2) :
    (gateMat 1 U [0] []).mulVec ψ (lab1 i) = U i 0 * ψ (lab1 0) + U i 1 * ψ (lab1 1) := by
  rw [Matrix.mulVec, dotProduct, sum_lab1, gateMat_lab1, gateMat_lab1]; rfl

/-- **C18, restricted to a list argument**: `Scale([Add([A, B, …])], c)`, with the sum wrapped in a list, scales the
sum.  The documented form `Scale(Add([A, B, …]), c)` does not (`C18_scale_add_wrong`). -/
theorem C18_scale_add_partial {st : NDArray ℂ} {ops : List Op} {rs : List (NDArray ℂ)} (hne : ops ≠ [])
    (h : CallResults n so values st ops rs) {p : Param} {x : ℝ} (hp : p.Resolves values x) :
    ∃ r, (mkScale (.list [mkAdd (.list ops)]) p).call so values (some (.vec st)) = .ok (some (.vec r)) ∧ IsKet n r ∧
      ∀ b : Lab n, r.get b.bits = x * (rs.map fun q => q.get b.bits).sum := by
  obtain ⟨r, h1, h2, h3⟩ := C17_add so hne h
  obtain ⟨q, k1, k2, k3⟩ := C17_scale so hp h1 h2
  exact ⟨q, k1, k2, fun b => by rw [k3, h3]⟩

/-- **C18** (what happens instead): `Scale(Add([A, B, …]), c)` for gates `A, B, …` executes the *product*, not the sum:
it equals `Scale(OpSequence([A, B, …]), c)`. -/
theorem C18_scale_add_is_product (gs : List Gate) (p : Param) :
    mkScale (.one (mkAdd (.list (gs.map .prim)))) p = mkScale (.one (mkSeq (gs.map .prim))) p := by
  simp only [mkScale, mkAdd, mkSeq, OpArg.toList, Op.iter]

/-- **C18 is false of the code**: `Scale(Add([X(0), Z(0)]), 2)` applied to `|0⟩` is not twice the sum of `X|0⟩` and
`Z|0⟩`. -/
theorem C18_scale_add_wrong :
    ∃ (st : NDArray ℂ) (ops : List Op) (rs : List (NDArray ℂ)) (r : NDArray ℂ), IsKet 1 st ∧ CallResults 1 so [] st ops rs ∧
      (mkScale (.one (mkAdd (.list ops))) (.num 2)).call so [] (some (.vec st)) = .ok (some (.vec r)) ∧
      ∃ b : Lab 1, r.get b.bits ≠ 2 * (rs.map fun q => q.get b.bits).sum := by
  obtain ⟨a, a1, a2, a3⟩ := call_means so zero1_isKet (.gate (leafX (values := [])).any)
  obtain ⟨c, c1, c2, c3⟩ := call_means so zero1_isKet (.gate (leafZ (values := [])).any)
  obtain ⟨r, r1, -, r3⟩ := call_means so zero1_isKet (values := [])
    (.scale (.num 2) (.cons (.gate (leafX (values := [])).any) (.cons (.gate (leafZ (values := [])).any) .nil)))
  refine ⟨zero1, [.prim (Gate.X (.int 0)), .prim (Gate.Z (.int 0))], [a, c], r, zero1_isKet, .cons ⟨a1, a2⟩ (.cons ⟨c1, c2⟩ .nil),
    r1, lab1 0, ?_⟩
  have hr := congrFun r3 (lab1 0)
  have ha := congrFun a3 (lab1 0)
  have hc := congrFun c3 (lab1 0)
  rw [mulVec_lab1] at ha hc
  rw [Matrix.smul_mulVec, Pi.smul_apply, ← Matrix.mulVec_mulVec, one_mul, mulVec_lab1, mulVec_lab1, mulVec_lab1] at hr
  simp only [ket, zero1_get, StdGate.mat, matE] at ha hc hr
  rw [hr, List.map_cons, List.map_cons, List.map_nil, ha, hc]
  simp

/-! ## C15: `OpSequence.tensor` -/

/-- The matrix `m` acts on the flattened state `st` with result the flattened `q`: `m @ st.flatten() == q.flatten()`. -/
def ActsAs (n : ℕ) (m st q : NDArray ℂ) : Prop :=
  m.shape = [2 ^ n, 2 ^ n] ∧
    ∀ x : Lab n, q.get x.bits = ∑ y : Lab n, m.get [binVal x.bits, binVal y.bits] * st.get y.bits

/-- **C15** (exactly what is computed): for every tree of standard gates (with non-empty sequences), `tensor(values, F)`
is the matrix, on the qubits `F` in increasing order, in which sequences are multiplied in *listing* order. -/
theorem C15_tensor_listed {o : Op} {M : Matrix (Lab n) (Lab n) ℂ} (h : o.Listed (StdLeaf n values) values M) {F : List ℕ}
    (hF : ValidDims n F) (hq : ∀ g ∈ o.gates, ∀ q ∈ g.qubits, q ∈ F) :
    ∃ r, o.tensor so values (some F) = .ok r ∧ r.shape = [2 ^ F.length, 2 ^ F.length] ∧
      gateMat n (fun i j => r.get [i, j]) (pySorted F) [] = M := by
  obtain ⟨r, h1, h2, h3⟩ := tensor_listed so hF hq (h.mono (fun _ _ h => StdLeaf.sort h))
  exact ⟨r, h1, h2.shape, h3⟩

theorem mem_gates_lt {o : Op} {M : Matrix (Lab n) (Lab n) ℂ} (h : o.Listed (StdLeaf n values) values M) :
    ∀ g ∈ o.gates, ∀ q ∈ g.qubits, q < n := by
  intro g hg
  have := Op.Listed.leaves (P := fun g => g.ValidOn n) (fun g M (h : StdLeaf n values g M) => h.choose_spec.1.valid) h g hg
  exact this.dims.lt

theorem tensor_acts {o : Op} {M : Matrix (Lab n) (Lab n) ℂ} (hL : o.Listed (StdLeaf n values) values M) {F : List ℕ}
    (hF : F.Perm (List.range n)) {st : NDArray ℂ} :
    ∃ m, o.tensor so values (some F) = .ok m ∧ m.shape = [2 ^ n, 2 ^ n] ∧
      ∀ x, ∑ y : Lab n, m.get [binVal x.bits, binVal y.bits] * st.get y.bits = M.mulVec (ket n st) x := by
  have hFv : ValidDims n F := ⟨hF.nodup_iff.2 List.nodup_range, fun q hq => List.mem_range.1 (hF.mem_iff.1 hq)⟩
  obtain ⟨m, m1, m2, m3⟩ := C15_tensor_listed so hL hFv fun g hg q hq =>
    hF.mem_iff.2 (List.mem_range.2 (mem_gates_lt hL g hg q hq))
  refine ⟨m, m1, by rw [m2, hF.length_eq, List.length_range], fun x => ?_⟩
  rw [← m3, pySorted_perm_eq hF, pySorted_range, Matrix.mulVec, dotProduct]
  refine Finset.sum_congr rfl fun y _ => ?_
  rw [gateMat_range_apply]; rfl

/-- **C15, restricted to trees whose listing order does not matter**: if the listing-order product equals the operator
that is executed, `tensor` over all qubits is the matrix of running the tree on any state. -/
theorem C15_tensor_partial {o : Op} {M : Matrix (Lab n) (Lab n) ℂ} (h : o.Means (StdLeaf n values) values M)
    (hL : o.Listed (StdLeaf n values) values M) {F : List ℕ} (hF : F.Perm (List.range n)) {st : NDArray ℂ} (hst : IsKet n st) :
    ∃ m q, o.tensor so values (some F) = .ok m ∧ run so o (.vec st) values = .ok (some (.vec q)) ∧ ActsAs n m st q := by
  obtain ⟨q, q1, q2, q3⟩ := call_means so hst (h.mono (fun _ _ h => StdLeaf.any h))
  obtain ⟨m, m1, m2, m3⟩ := tensor_acts so hL hF (st := st)
  exact ⟨m, q, m1, q1, m2, fun x => by rw [m3, ← q3]; rfl⟩

theorem listedSeq_gates {gs : List Gate} {ss : List StdGate} (h : List.Forall₂ (Gate.Std n values) gs ss) (hne : gs ≠ [])
    (hz : ∀ g ∈ gs, g.noise = none) :
    Op.ListedSeq (StdLeaf n values) values (gs.map .prim) (List.zipWith (stdMat n) gs ss).prod := by
  induction h with
  | nil => exact absurd rfl hne
  | @cons g s gs ss hg hgs ih =>
    have hl : Op.Listed (StdLeaf n values) values (.prim g) (stdMat n g s) := .gate ⟨s, hg, hz g (by simp), rfl⟩
    by_cases hnil : gs = []
    · subst hnil; cases hgs; simpa using Op.ListedSeq.one hl
    · simpa using Op.ListedSeq.cons hl (ih hnil fun x hx => hz x (by simp [hx]))

theorem meansSeq_gates {gs : List Gate} {ss : List StdGate} (h : List.Forall₂ (Gate.Std n values) gs ss)
    (hz : ∀ g ∈ gs, g.noise = none) :
    Op.MeansSeq (StdLeaf n values) values (gs.map .prim) (List.zipWith (stdMat n) gs ss).reverse.prod := by
  induction h with
  | nil => simpa using Op.MeansSeq.nil
  | @cons g s gs ss hg hgs ih =>
    have hl : Op.Means (StdLeaf n values) values (.prim g) (stdMat n g s) := .gate ⟨s, hg, hz g (by simp), rfl⟩
    simpa using Op.MeansSeq.cons hl (ih fun x hx => hz x (by simp [hx]))

/-- **C15, restricted to commuting gates**: for a non-empty `OpSequence` of standard gates with pairwise commuting
matrices, `tensor` over all qubits is the matrix of running the sequence on any state. -/
theorem C15_tensor_commuting_partial {gs : List Gate} {ss : List StdGate} (h : List.Forall₂ (Gate.Std n values) gs ss)
    (hne : gs ≠ []) (hz : ∀ g ∈ gs, g.noise = none) (hc : (List.zipWith (stdMat n) gs ss).Pairwise Commute) {F : List ℕ}
    (hF : F.Perm (List.range n)) {st : NDArray ℂ} (hst : IsKet n st) :
    ∃ m q, (mkSeq (gs.map .prim)).tensor so values (some F) = .ok m ∧
      run so (mkSeq (gs.map .prim)) (.vec st) values = .ok (some (.vec q)) ∧ ActsAs n m st q := by
  have he : (List.zipWith (stdMat n) gs ss).reverse.prod = (List.zipWith (stdMat n) gs ss).prod :=
    ((List.reverse_perm _).symm.prod_eq' hc).symm
  exact C15_tensor_partial so (he ▸ .seq (meansSeq_gates h hz)) (.seq (listedSeq_gates h hne hz)) hF hst

/-- Non-vacuity: X on one qubit and H on another commute. -/
example : ∃ gs ss, List.Forall₂ (Gate.Std 2 []) gs ss ∧ gs ≠ [] ∧ (∀ g ∈ gs, g.noise = none) ∧
    (List.zipWith (stdMat 2) gs ss).Pairwise Commute :=
  ⟨[Gate.X (.int 0), Gate.H (.int 1)], [.X, .H], .cons ⟨.X _ _ _, rfl, ⟨.inr (.inl rfl), by decide⟩⟩
      (.cons ⟨.H _ _ _, rfl, ⟨.inr (.inl rfl), by decide⟩⟩ .nil), by simp, by simp [Gate.X, Gate.H, mkGate],
    by
      simp only [List.zipWith_cons_cons, List.zipWith_nil_right, List.pairwise_cons, List.mem_singleton, forall_eq,
        List.not_mem_nil, false_imp_iff, implies_true, List.Pairwise.nil, and_true]
      exact gateMat_comm_disjoint _ _ (by decide)⟩

/-- **C15** (supports that are too small): a composite object refuses (ValueError) every `full_support` that does not contain
its own support, before any of its operations is expanded; `Scale` reads its parameter first. -/
theorem C15_support_refused {k : CompKind} {ops : List Op} {S F : List ℕ} (hS : Op.qubitSupport so (.comp k ops) = .ok S)
    {q : ℕ} (hq : q ∈ S) (hF : q ∉ F) (hk : ∀ p, k = .scale p → ∃ x, scaleParam p values = .ok x) :
    Op.tensor so values (.comp k ops) (some F) = .error .valueError := by
  have hall : S.all (· ∈ F) = false := by
    rw [List.all_eq_false]
    exact ⟨q, hq, by simpa using hF⟩
  have hf : Op.fullSupport (Op.qubitSupport so (.comp k ops)) (some F) = .error .valueError := by
    simp only [Op.fullSupport, hS, bind, Except.bind, hall, Bool.false_eq_true, if_false]
  cases k with
  | scale p =>
    obtain ⟨x, hx⟩ := hk p rfl
    simp only [Op.tensor, hf, hx, bind, Except.bind]
  | _ => simp only [Op.tensor, hf, bind, Except.bind]

/-- Non-vacuity: `OpSequence([RX("a", 1), X(0)]).tensor({}, full_support=(1,))` raises ValueError and not KeyError. -/
example : (mkSeq [.prim (Gate.RX (.str "a") (.int 1)), .prim (Gate.X (.int 0))]).tensor so [] (some [1])
    = .error .valueError :=
  C15_support_refused so (S := so.order [1, 0]) (q := 0) rfl ((so.mem _ _).2 (by decide)) (by decide) (by simp)

/-- **C15 is false of the code**: the tensor of `OpSequence([X(0), Z(0)])` is not the matrix of running it. -/
theorem C15_tensor_not_run :
    ∃ (o : Op) (st m q : NDArray ℂ), IsKet 1 st ∧ o.tensor so [] (some [0]) = .ok m ∧
      run so o (.vec st) [] = .ok (some (.vec q)) ∧ ¬ ActsAs 1 m st q := by
  have hL := Op.Listed.seq (values := []) (.cons (.gate (leafX (values := []))) (.one (.gate (leafZ (values := [])))))
  obtain ⟨m, m1, -, m3⟩ := tensor_acts so hL (F := [0]) (by decide) (st := zero1)
  obtain ⟨q, q1, -, q3⟩ := call_means so zero1_isKet (values := [])
    (.seq (.cons (.gate (leafX (values := [])).any) (.cons (.gate (leafZ (values := [])).any) .nil)))
  refine ⟨_, zero1, m, q, zero1_isKet, m1, q1, fun hact => ?_⟩
  have h1 := hact.2 (lab1 1)
  rw [m3, ← ket, q3, one_mul, ← Matrix.mulVec_mulVec, ← Matrix.mulVec_mulVec] at h1
  simp only [mulVec_lab1, ket, zero1_get, StdGate.mat, matE] at h1
  norm_num at h1

/-! ## C45: nested sequences -/

/-- **C45** (flattening): calling a tree of `OpSequence`s and `QuantumCircuit`s of gates is calling the gates of
`list(iter(circuit))` one after the other — for every state, also when errors are raised. -/
theorem C45_run_iter {o : Op} (h : o.Plain) (st : Option State) :
    o.call so values st = Op.callSeq so values o.iter st := by
  have := h.call so (values := values) st
  cases h with
  | prim g => simpa [Op.iter, Op.gates] using this
  | seq h => rw [this, Op.iter, Op.flattenList_gates]; simp only [Op.gates]; intro p e; cases e
  | circ k fs h => rw [this, Op.iter, Op.flattenList_gates]; simp only [Op.gates]; intro p e; cases e

/-- **C45** (concatenation): running a circuit made of two lists is running the first and then the second; for every
operation, state and error. -/
theorem C45_concat (as bs : List Op) (k k₁ k₂ : ℕ) (fs fs₁ fs₂ : List String) (st : Option State) :
    (mkCircuit k (.list (as ++ bs)) fs).call so values st
      = (do (mkCircuit k₂ (.list bs) fs₂).call so values (← (mkCircuit k₁ (.list as) fs₁).call so values st)) := by
  simp only [mkCircuit, OpArg.toList, Op.call]
  exact callSeq_append so as bs st

/-- **C45** (against `apply_gates`): for every tree of `OpSequence`s and `QuantumCircuit`s with at least one gate, whose
gates (of any class, possibly noisy) are valid on the register, `run` on a state vector or density matrix returns
exactly what `apply_gates(state, list(iter(circuit)), values)` returns. -/
theorem C45_run_apply_gates {o : Op} (h : o.Plain) (hne : o.gates ≠ []) (hok : ∀ g ∈ o.gates, g.Ok n .unitary values)
    {nss : List (List StdNoise)} (hn : List.Forall₂ Gate.NoiseIs o.gates nss) {st : State} (hst : st.On n) (merge : Bool) :
    ∃ r, run so o st values = .ok (some r) ∧ o.iter = o.gates.map .prim ∧
      applyGates so st (.list o.gates) values .unitary false merge = .ok r := by
  obtain ⟨r, h1, h2⟩ := callSeq_evolved so hne hok hn hst
  obtain ⟨q, k1, k2⟩ := applyGates_evolved so hne hok hn hst merge
  refine ⟨r, by rw [run, h.call so]; exact h1, ?_, by rw [k1, h2.unique k2]⟩
  cases h with
  | prim g => simp [Op.iter, Op.gates]
  | seq h => rw [Op.iter, Op.flattenList_gates]; simp only [Op.gates]; intro p e; cases e
  | circ k fs h => rw [Op.iter, Op.flattenList_gates]; simp only [Op.gates]; intro p e; cases e

/-- Non-vacuity: a circuit with a nested sequence, a controlled gate and a noisy gate. -/
example : ∃ o : Op, o.Plain ∧ o.gates.length = 3 ∧ (∀ g ∈ o.gates, g.Ok 2 .unitary []) ∧
    ∃ nss, List.Forall₂ Gate.NoiseIs o.gates nss := by
  refine ⟨mkCircuit 2 (.list [.prim (Gate.H (.int 0)), mkSeq [.prim (Gate.X (.int 1) (.int 0)), mkSeq [],
    .prim (Gate.X (.int 1) (noise := some [⟨.bitFlip, .float (1 / 4)⟩]))]]), ?_, rfl, ?_, [[], [], [.bitFlip (1 / 4)]], ?_⟩
  · exact .circ _ _ (.cons (.prim _) (.cons (.seq (.cons (.prim _) (.cons (.seq .nil) (.cons (.prim _) .nil)))) .nil))
  · intro g hg
    simp [mkCircuit, mkSeq, OpArg.toList, Op.gates, Op.gatesList] at hg
    rcases hg with rfl | rfl | rfl
    · exact Gate.Std.ok ⟨.H _ _ _, rfl, ⟨.inr (.inl rfl), by decide⟩⟩
    · exact Gate.Std.ok ⟨.X _ _ _, rfl, ⟨.inr (.inr ⟨[0], rfl⟩), by decide⟩⟩
    · exact Gate.Std.ok ⟨.X _ _ _, rfl, ⟨.inr (.inl rfl), by decide⟩⟩
  · exact .cons (.none rfl) (.cons (.none rfl) (.cons (.some rfl (.cons (.bitFlip (by norm_num)) .nil) (.inr ⟨1, rfl⟩)) .nil))

end Verif
