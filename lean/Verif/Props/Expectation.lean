import Verif.Lemmas.Expect
import Verif.Props.Composite

/-!
# Property theorems about `expectation` and `run`

C19, C20, C21, C22, C37, C38, C46.
-/

namespace Verif
open NDArray
variable {n : ℕ} {values : Values} (so : SetOrder) (eigh : Eigh) (draw : Draw)

/-! ## Vocabulary -/

/-- `values` is used as `vc` for the circuit and as `vo` for the observables: it has the two dictionaries `circuit`
and `observables`, or it lacks one of the two keys and is used for both. -/
def Values.Splits (values vc vo : Values) : Prop :=
  (values.lookup "circuit" = some (.dict vc) ∧ values.lookup "observables" = some (.dict vo)) ∨
    ((values.lookup "circuit" = none ∨ values.lookup "observables" = none) ∧ vc = values ∧ vo = values)

/-- `values` is one flat dictionary. -/
def Values.Flat (values : Values) : Prop := values.lookup "circuit" = none ∨ values.lookup "observables" = none

theorem Values.Splits.processing {values vc vo : Values} (h : values.Splits vc vo) :
    valuesProcessing values = .ok (vc, vo) := by
  rcases h with ⟨h1, h2⟩ | ⟨h | h, rfl, rfl⟩
  · simp only [valuesProcessing, h1, h2]
  · simp only [valuesProcessing, h]
  · simp only [valuesProcessing, h]
    rcases List.lookup "circuit" vo with _ | v
    · rfl
    · cases v <;> rfl

theorem Values.Flat.splits {values : Values} (h : values.Flat) : values.Splits values values := .inr ⟨h, rfl, rfl⟩

theorem opsToGates_prim (gs : List Gate) : opsToGates (gs.map .prim) = .ok gs := by
  induction gs with
  | nil => rfl
  | cons g gs ih => simp only [List.map_cons, opsToGates, ih]; rfl

theorem Op.Plain.iter {o : Op} (h : o.Plain) : o.iter = o.gates.map .prim := by
  cases h with
  | prim g => simp [Op.iter, Op.gates]
  | seq h => rw [Op.iter, Op.flattenList_gates]; simp only [Op.gates]; intro p e; cases e
  | circ k fs h => rw [Op.iter, Op.flattenList_gates]; simp only [Op.gates]; intro p e; cases e

/-- A circuit whose gates (any class) are valid on an `n`-qubit register and have the noise `nss`: a tree of
`OpSequence`s and `QuantumCircuit`s with at least one gate. -/
structure Op.Circuit (n : ℕ) (values : Values) (o : Op) (nss : List (List StdNoise)) : Prop where
  plain : o.Plain
  ne : o.gates ≠ []
  ok : ∀ g ∈ o.gates, g.Ok n .unitary values
  noise : List.Forall₂ Gate.NoiseIs o.gates nss

theorem circuit_run {circuit : Op} {nss : List (List StdNoise)} (h : circuit.Circuit n values nss) {st : State} (hst : st.On n) :
    ∃ r, run so circuit st values = .ok (some r) ∧ applyOps so st circuit.iter values = .ok r ∧
      State.Evolved n values circuit.gates nss st r := by
  obtain ⟨r, h1, h2⟩ := callSeq_evolved so h.ne h.ok h.noise hst
  obtain ⟨q, k1, k2⟩ := applyGates_evolved so h.ne h.ok h.noise hst true
  refine ⟨r, by rw [run, h.plain.call so]; exact h1, ?_, h2⟩
  rw [applyOps, h.plain.iter, opsToGates_prim, h2.unique k2]
  exact k1

theorem mapM_forall₂ {α β γ : Type} {f : α → Py β} {g : γ → β} {l : List α} {l' : List γ}
    (h : List.Forall₂ (fun a c => f a = .ok (g c)) l l') : l.mapM f = .ok (l'.map g) := by
  induction h with
  | nil => rfl
  | cons h _ ih => rw [List.mapM_cons, h, ih]; rfl

theorem ad_of_single {circuit : Op} {st r : State} {vc vo : Values} (hs : values.Splits vc vo)
    (hr : applyOps so st circuit.iter vc = .ok r) {obs : List Observable} (hne : obs ≠ []) {xs : List ℝ}
    (h : List.Forall₂ (fun o x => expectSingle so vo o r = .ok x) obs xs) :
    expectation so eigh draw st circuit obs values .ad 0 = .ok xs := by
  have hx : xs ≠ [] := by rintro rfl; cases h; exact hne rfl
  have hm : (obs.mapM fun o => do
      let st ← applyOps so st circuit.iter vc
      expectSingle so vo o st) = .ok xs := by
    rw [← List.map_id xs]
    refine mapM_forall₂ (h.imp fun o x hox => ?_)
    simp only [hr, bind, Except.bind]
    exact hox
  simp only [expectation, lt_irrefl, if_false, if_true, adExpectation, hs.processing, bind, Except.bind] at hm ⊢
  rw [hm]
  simp only [stackReal, if_neg hx]

/-! ## C19 and C21 -/

/-- **C19** (state vectors): for noiseless circuits on state vectors, `expectation` with `diff_mode=AD`, `n_shots=0`
returns, per observable in order, `Re ⟨ψ|O|ψ⟩` at the output `ψ` of `run`. -/
theorem C19_expectation {circuit : Op} {nss : List (List StdNoise)} (hc : circuit.Circuit n values nss)
    (hz : ∀ g ∈ circuit.gates, g.noise = none) (hf : values.Flat) {a : NDArray ℂ} (ha : IsKet n a) {obs : List Observable}
    {Os : List (Matrix (Lab n) (Lab n) ℂ)} (hne : obs ≠ [])
    (ho : List.Forall₂ (fun o O => o.Means (AnyLeaf n values) values O) obs Os) :
    ∃ ψ, run so circuit (.vec a) values = .ok (some (.vec ψ)) ∧ IsKet n ψ ∧
      ket n ψ = (gatesMat n .unitary values circuit.gates).mulVec (ket n a) ∧
      expectation so eigh draw (.vec a) circuit obs values .ad 0
        = .ok (Os.map fun O => (∑ x, star (ket n ψ x) * O.mulVec (ket n ψ) x).re) := by
  obtain ⟨r, h1, h2, h3⟩ := circuit_run so hc (st := .vec a) ha
  cases r with
  | dm r => exact absurd hz h3.1
  | vec r =>
    refine ⟨r, h1, h3.2.1, h3.2.2, ad_of_single so eigh draw hf.splits h2 hne ?_⟩
    rw [List.forall₂_map_right_iff]
    refine ho.imp fun o O hO => ?_
    rw [expectSingle_vec so hO h3.2.1, expVal_vec]

/-- **C19** (Hermitian observables): for a Hermitian `O`, `⟨ψ|O|ψ⟩` is real, so the returned real part is the exact
expectation value. -/
theorem C19_hermitian {O : Matrix (Lab n) (Lab n) ℂ} (hO : O.IsHermitian) (ψ : Lab n → ℂ) :
    (∑ x, star (ψ x) * O.mulVec ψ x).im = 0 := by
  have h : star (star ψ ⬝ᵥ O.mulVec ψ) = star ψ ⬝ᵥ O.mulVec ψ := by
    rw [← Matrix.star_dotProduct, Matrix.star_mulVec, hO.eq, ← Matrix.dotProduct_mulVec]
  exact Complex.conj_eq_iff_im.1 h

/-- The observable's matrix `O` is read correctly by the density-matrix code: its sequences may be multiplied in
listing order, and Python iterates over its qubits in increasing order. -/
structure Observable.Simple (so : SetOrder) (n : ℕ) (values : Values) (o : Observable) (O : Matrix (Lab n) (Lab n) ℂ) :
    Prop where
  means : o.Means (StdLeaf n values) values O
  listed : Op.ListedSum (StdLeaf n values) values o.ops O
  sorted : ∀ S, o.toOp.qubitSupport so = .ok S → S.Pairwise (· < ·)

theorem Observable.Simple.single_dm {o : Observable} {O : Matrix (Lab n) (Lab n) ℂ} (h : o.Simple so n values O)
    {ρ : DensityMatrix ℂ} (hρ : IsDM n ρ) : expectSingle so values o (.dm ρ) = .ok (expVal O ((State.dm ρ).mat n)) := by
  obtain ⟨S, m, h1, h2, h3, h4, h5, h6, h7⟩ := expectDM_eq so (h.listed.mono fun _ _ h => StdLeaf.sort h) hρ
  rw [pySorted_of_le ((h.sorted S h1).imp le_of_lt)] at h6
  rw [expectSingle, h7, h6]; rfl

theorem Observable.Simple.single {o : Observable} {O : Matrix (Lab n) (Lab n) ℂ} (h : o.Simple so n values O)
    {r : State} (hr : r.On n) : expectSingle so values o r = .ok (expVal O (r.mat n)) := by
  cases r with
  | vec a => exact expectSingle_vec so (Op.MeansSum.mono (fun _ _ h => StdLeaf.any h) h.means) hr
  | dm ρ => exact h.single_dm so hr

/-- **C19, restricted to observables that the density-matrix code reads correctly** (`Observable.Simple`): on state
vectors and density matrices, with noisy or noiseless circuits, `expectation` returns `Re tr(O ρ)` at the output `ρ` of
`run`.  For other observables it does not (`C22_listing_order_wrong`, `C22_set_order_wrong`). -/
theorem C19_expectation_dm_partial {circuit : Op} {nss : List (List StdNoise)} (hc : circuit.Circuit n values nss)
    (hf : values.Flat) {st : State} (hst : st.On n) {obs : List Observable} {Os : List (Matrix (Lab n) (Lab n) ℂ)}
    (hne : obs ≠ []) (ho : List.Forall₂ (fun o O => o.Simple so n values O) obs Os) :
    ∃ r, run so circuit st values = .ok (some r) ∧ r.On n ∧
      expectation so eigh draw st circuit obs values .ad 0 = .ok (Os.map fun O => expVal O (r.mat n)) := by
  obtain ⟨r, h1, h2, h3⟩ := circuit_run so hc hst
  refine ⟨r, h1, h3.on, ad_of_single so eigh draw hf.splits h2 hne ?_⟩
  rw [List.forall₂_map_right_iff]
  exact ho.imp fun o O hO => hO.single so h3.on

/-- **C21, restricted to circuits built from gates, `OpSequence` and `QuantumCircuit`** (the circuit types): for every
observable, `expectation(state, circuit, [O])` is the value of `O` computed on the output of `run`, whether that is a
number or an error.  With `Scale` or `Add` inside the circuit it is not (`C21_scale_wrong`, `C21_add_wrong`). -/
theorem C21_expectation_run_partial {circuit : Op} {nss : List (List StdNoise)} (hc : circuit.Circuit n values nss)
    (hf : values.Flat) {st : State} (hst : st.On n) (o : Observable) :
    ∃ r, run so circuit st values = .ok (some r) ∧
      expectation so eigh draw st circuit [o] values .ad 0 = (expectSingle so values o r).map fun x => [x] := by
  obtain ⟨r, h1, h2, h3⟩ := circuit_run so hc hst
  refine ⟨r, h1, ?_⟩
  simp only [expectation, lt_irrefl, if_false, if_true, adExpectation, hf.splits.processing, bind, Except.bind,
    List.mapM_cons, List.mapM_nil, h2]
  rcases expectSingle so values o r with e | x
  · rfl
  · simp [pure, Except.pure, stackReal, Except.map]

/-- The observable `Z(0)`. -/
def obsZ : Observable := Observable.new (.list [.prim (Gate.Z (.int 0))])

theorem obsZ_means : obsZ.Means (StdLeaf 1 values) values (gateMat 1 StdGate.Z.mat [0] []) := .one (.gate leafZ)

theorem obsZ_simple : obsZ.Simple so 1 values (gateMat 1 StdGate.Z.mat [0] []) := by
  refine ⟨obsZ_means, .one (.gate leafZ), fun S hS => ?_⟩
  obtain ⟨T, h1, h2, h3⟩ := qubitSupport_tree (n := 1) so obsZ.toOp (by
    simp only [obsZ, Observable.toOp, Observable.new, OpArg.toList, Op.gates, Op.gatesList, List.append_nil, List.mem_singleton,
      forall_eq]
    exact ⟨.inr (.inl rfl), by decide⟩)
  obtain rfl : T = S := by rw [h1] at hS; cases hS; rfl
  have hT : ∀ q ∈ T, q = 0 := by
    intro q hq
    obtain ⟨g, hg, hqg⟩ := (h3 q).1 hq
    simp only [obsZ, Observable.toOp, Observable.new, OpArg.toList, Op.gates, Op.gatesList, List.append_nil, List.mem_singleton] at hg
    subst hg
    simpa [Gate.qubits, Gate.Z, mkGate, ctlInts, parseControl, parseTarget] using hqg
  match T, h2, hT with
  | [], _, _ => simp
  | [a], _, _ => simp
  | a :: b :: t, hn, hT =>
    have := hT a (by simp); have := hT b (by simp); subst_vars; simp at hn

/-- Non-vacuity: a circuit with a noisy gate, and the observable `Z(0)`. -/
example : (mkCircuit 1 (.list [.prim (Gate.X (.int 0) (noise := some [⟨.bitFlip, .float (1 / 4)⟩])), mkSeq []])).Circuit 1 []
    [[.bitFlip (1 / 4)]] ∧ obsZ.Simple so 1 [] (gateMat 1 StdGate.Z.mat [0] []) ∧ Values.Flat [] := by
  refine ⟨⟨.circ _ _ (.cons (.prim _) (.cons (.seq .nil) .nil)), by simp [mkCircuit, OpArg.toList, Op.gates, Op.gatesList], ?_, ?_⟩,
    obsZ_simple so, .inl rfl⟩
  · simp only [mkCircuit, mkSeq, OpArg.toList, Op.gates, Op.gatesList, List.append_nil, List.mem_singleton, forall_eq]
    exact Gate.Std.ok ⟨.X _ _ _, rfl, ⟨.inr (.inl rfl), by decide⟩⟩
  · exact .cons (.some rfl (.cons (.bitFlip (by norm_num)) .nil) (.inr ⟨0, rfl⟩)) .nil

theorem gateX_ok {values : Values} : (Gate.X (.int 0)).Ok 1 .unitary values :=
  Gate.Std.ok (s := .X) ⟨.X _ _ _, rfl, ⟨.inr (.inl rfl), by decide⟩⟩

theorem gateX_mat {values : Values} : (Gate.X (.int 0)).mat 1 .unitary values = gateMat 1 StdGate.X.mat [0] [] :=
  Gate.Std.mat (g := Gate.X (.int 0)) (s := .X) ⟨.X _ _ _, rfl, ⟨.inr (.inl rfl), by decide⟩⟩

theorem applyX {a : NDArray ℂ} (ha : IsKet 1 a) :
    ∃ r, applyOps so (.vec a) [.prim (Gate.X (.int 0))] [] = .ok (.vec r) ∧ IsKet 1 r ∧
      ket 1 r = (gateMat 1 StdGate.X.mat [0] []).mulVec (ket 1 a) := by
  obtain ⟨r, h1, h2, h3⟩ := applyGates_vec so (gs := [Gate.X (.int 0)]) (values := []) (ot := .unitary) (by simp)
    (by simpa using gateX_ok) (by simp [Gate.X, mkGate]) ha true
  refine ⟨r, ?_, h2, ?_⟩
  · rw [applyOps, show [Op.prim (Gate.X (.int 0))] = [Gate.X (.int 0)].map .prim from rfl, opsToGates_prim]; exact h1
  · rw [h3, gatesMat, gatesMat, one_mul, gateX_mat]

/-- **C21 is false of the code** (`Scale`): for the circuit `OpSequence([Scale([X(0)], 2)])` on `|0⟩`, `expectation` of
`Z(0)` is `-1`, but the output of `run` is `2|1⟩` with value `-4`. -/
theorem C21_scale_wrong : ∃ (circuit : Op) (ψ : NDArray ℂ),
    run so circuit (.vec zero1) [] = .ok (some (.vec ψ)) ∧ expectSingle so [] obsZ (.vec ψ) = .ok (-4) ∧
    expectation so eigh draw (.vec zero1) circuit [obsZ] [] .ad 0 = .ok [-1] := by
  obtain ⟨r, r1, r2, r3⟩ := call_means so zero1_isKet (values := [])
    (.seq (.cons (.scale (.num 2) (.cons (.gate (leafX (values := [])).any) .nil)) .nil))
  obtain ⟨q, q1, q2, q3⟩ := applyX so zero1_isKet
  have hZ : ∀ {a : NDArray ℂ}, IsKet 1 a → expectSingle so [] obsZ (.vec a)
      = .ok (expVal (gateMat 1 StdGate.Z.mat [0] []) ((State.vec a).mat 1)) :=
    fun ha => expectSingle_vec so (Op.MeansSum.mono (fun _ _ h => StdLeaf.any h) obsZ_means) ha
  refine ⟨mkSeq [mkScale (.list [.prim (Gate.X (.int 0))]) (.num 2)], r, r1, ?_, ?_⟩
  · rw [hZ r2, expVal_vec, sum_lab1, mulVec_lab1, mulVec_lab1, r3, one_mul, one_mul, Matrix.smul_mulVec]
    simp only [Pi.smul_apply, mulVec_lab1, ket, zero1_get, StdGate.mat, matE]
    norm_num
  · refine ad_of_single so eigh draw (.inr ⟨.inl rfl, rfl, rfl⟩) (r := .vec q) ?_ (by simp) (.cons ?_ .nil)
    · exact q1
    · rw [hZ q2, expVal_vec, sum_lab1, mulVec_lab1, mulVec_lab1, q3]
      simp only [mulVec_lab1, ket, zero1_get, StdGate.mat, matE]
      norm_num

/-- **C21 is false of the code** (`Add`): for the circuit `OpSequence([Add([X(0), X(0)])])` on `|0⟩`, `expectation` of
`Z(0)` is `1` (the sum is executed as a sequence), but the output of `run` is `2|1⟩` with value `-4`. -/
theorem C21_add_wrong : ∃ (circuit : Op) (ψ : NDArray ℂ),
    run so circuit (.vec zero1) [] = .ok (some (.vec ψ)) ∧ expectSingle so [] obsZ (.vec ψ) = .ok (-4) ∧
    expectation so eigh draw (.vec zero1) circuit [obsZ] [] .ad 0 = .ok [1] := by
  obtain ⟨r, r1, r2, r3⟩ := call_means so zero1_isKet (values := [])
    (.seq (.cons (.add (.cons (.gate (leafX (values := [])).any) (.one (.gate (leafX (values := [])).any)))) .nil))
  obtain ⟨q, q1, q2, q3⟩ := applyGates_vec so (gs := [Gate.X (.int 0), Gate.X (.int 0)]) (values := []) (ot := .unitary) (by simp)
    (by simpa using gateX_ok) (by simp [Gate.X, mkGate]) zero1_isKet true
  have hZ : ∀ {a : NDArray ℂ}, IsKet 1 a → expectSingle so [] obsZ (.vec a)
      = .ok (expVal (gateMat 1 StdGate.Z.mat [0] []) ((State.vec a).mat 1)) :=
    fun ha => expectSingle_vec so (Op.MeansSum.mono (fun _ _ h => StdLeaf.any h) obsZ_means) ha
  refine ⟨mkSeq [mkAdd (.list [.prim (Gate.X (.int 0)), .prim (Gate.X (.int 0))])], r, r1, ?_, ?_⟩
  · rw [hZ r2, expVal_vec, sum_lab1, mulVec_lab1, mulVec_lab1, r3, one_mul, Matrix.add_mulVec]
    simp only [Pi.add_apply, mulVec_lab1, ket, zero1_get, StdGate.mat, matE]
    norm_num
  · refine ad_of_single so eigh draw (.inr ⟨.inl rfl, rfl, rfl⟩) (r := .vec q) ?_ (by simp) (.cons ?_ .nil)
    · exact q1
    · rw [hZ q2, expVal_vec, sum_lab1, mulVec_lab1, mulVec_lab1, q3, gatesMat, gatesMat, gatesMat, one_mul,
        gateX_mat, ← Matrix.mulVec_mulVec]
      simp only [mulVec_lab1, ket, zero1_get, StdGate.mat, matE]
      norm_num

end Verif
