import Verif.Props.ExpectModes
import Verif.Props.ShotsExact
import Verif.Props.GateObs

/-!
# Exact characterisations of C18, C20, C21 and C22

These properties are false of the code (see Props/Composite, Props/ExpectModes, Props/Expectation and Props/PureMixed); here is
what holds instead, and when the property holds.
-/

set_option autoImplicit false

namespace Verif
open NDArray
open scoped ComplexOrder
variable {n : ℕ} {values : Values} (so : SetOrder) (eigh : Eigh) (draw : Draw)

/-! ## C18 -/

/-- **C18** (when it holds): for gates `A, B, …` and a factor other than zero, `Scale(Add([A, B, …]), c)` applied to a state
returns `c` times the sum of `A, B, …` applied to it, for all states, if and only if the product of the gates (executed in
order) happens to be their sum. -/
theorem C18_right_iff {gs : List Gate} {S P : Matrix (Lab n) (Lab n) ℂ} {p : Param} {x : ℝ} (hp : p.Resolves values x) (hx : x ≠ 0)
    (hS : Op.MeansSum (AnyLeaf n values) values (gs.map .prim) S) (hP : Op.MeansSeq (AnyLeaf n values) values (gs.map .prim) P) :
    (∀ st r q : NDArray ℂ, IsKet n st →
      (mkAdd (.list (gs.map .prim))).call so values (some (.vec st)) = .ok (some (.vec q)) →
      (mkScale (.one (mkAdd (.list (gs.map .prim)))) p).call so values (some (.vec st)) = .ok (some (.vec r)) →
      ∀ b : Lab n, r.get b.bits = x * q.get b.bits) ↔ P = S := by
  have hm : (mkScale (.one (mkAdd (.list (gs.map .prim)))) p).Means (AnyLeaf n values) values ((x : ℂ) • P) := by
    have e : (mkAdd (.list (gs.map .prim))).iter = gs.map .prim := by
      simp only [mkAdd, OpArg.toList, Op.iter]
      rw [Op.flattenList_gates]
      congr 1
      clear hS hP
      induction gs with
      | nil => rfl
      | cons g gs ih => simp only [List.map_cons, Op.gatesList, Op.gates, ih]; rfl
    rw [mkScale, OpArg.toList, e]
    exact .scale hp hP
  have ha : (mkAdd (.list (gs.map .prim))).Means (AnyLeaf n values) values S := .add hS
  constructor
  · intro h
    have hv : ∀ ψ : Lab n → ℂ, P.mulVec ψ = S.mulVec ψ := by
      intro ψ
      obtain ⟨a, hk, rfl⟩ := exists_ket ψ
      obtain ⟨r, r1, -, r3⟩ := call_means so hk hm
      obtain ⟨q, q1, -, q3⟩ := call_means so hk ha
      funext b
      have h1 : ket n r b = x * ket n q b := h a r q hk q1 r1 b
      rw [r3, q3, Matrix.smul_mulVec, Pi.smul_apply, smul_eq_mul] at h1
      exact mul_left_cancel₀ (by exact_mod_cast hx) h1
    exact Matrix.mulVec_injective (funext hv)
  · rintro rfl st r q hk q1 r1 b
    obtain ⟨r', k1, -, k3⟩ := call_means so hk hm
    obtain ⟨q', l1, -, l3⟩ := call_means so hk ha
    rw [k1] at r1; rw [l1] at q1
    cases r1; cases q1
    have := congrFun k3 b
    rw [Matrix.smul_mulVec, Pi.smul_apply, smul_eq_mul, ← l3] at this
    exact this

/-- Non-vacuity: `Scale(Add([X(0), Z(0)]), 2)`. -/
example : Param.Resolves [] (.num 2) 2 ∧
    Op.MeansSum (AnyLeaf 1 []) [] ([Gate.X (.int 0), Gate.Z (.int 0)].map .prim)
      (gateMat 1 StdGate.X.mat [0] [] + gateMat 1 StdGate.Z.mat [0] []) ∧
    Op.MeansSeq (AnyLeaf 1 []) [] ([Gate.X (.int 0), Gate.Z (.int 0)].map .prim)
      (1 * gateMat 1 StdGate.Z.mat [0] [] * gateMat 1 StdGate.X.mat [0] []) :=
  ⟨.num 2, .cons (.gate leafX.any) (.one (.gate leafZ.any)), .cons (.gate leafX.any) (.cons (.gate leafZ.any) .nil)⟩

/-! ## C20 -/

/-- **C20** (noisy circuits): ADJOINT raises for *every* circuit with a noisy gate, every state vector and every list of
observables, whereas AD and GPSR accept such circuits (`C19_expectation_dm_partial`, `C20_ad_gpsr`). -/
theorem C20_adjoint_noisy {circuit : Op} {nss : List (List StdNoise)} (hc : circuit.Circuit n values nss)
    (hz : ∃ g ∈ circuit.gates, g.noise ≠ none) {a : NDArray ℂ} (ha : IsKet n a) (obs : List Observable) (k : ℤ) :
    ∃ e, expectation so eigh draw (.vec a) circuit obs values .adjoint k = .error e := by
  obtain ⟨r, -, h2, h3⟩ := circuit_run so hc (st := .vec a) ha
  cases r with
  | vec b =>
    obtain ⟨g, hg, h⟩ := hz
    exact absurd (h3.1 g hg) h
  | dm ρ =>
    simp only [expectation, adjointExpectation]
    cases obs with
    | nil => exact ⟨.valueError, by simp [stackReal, bind, Except.bind, pure, Except.pure]⟩
    | cons o os =>
      have : ∃ e, adjointSingle so (.vec a) circuit values o = .error e := by
        simp only [adjointSingle, h2, bind, Except.bind]
        rcases Observable.forward so values o (some (.dm ρ)) with e | q
        · exact ⟨e, rfl⟩
        · exact ⟨.attributeError, rfl⟩
      obtain ⟨e, he⟩ := this
      exact ⟨e, by simp only [List.mapM_cons, he, bind, Except.bind]⟩

/-- Non-vacuity: `X(0)` with a bit flip. -/
example : noisyX.Circuit 1 [] [[.bitFlip (1 / 4)]] ∧ ∃ g ∈ noisyX.gates, g.noise ≠ none :=
  ⟨noisyX_circuit, by simp [noisyX, mkCircuit, OpArg.toList, Op.gates, Op.gatesList, Gate.X, mkGate]⟩

/-! ## C21 -/

/-- **C21** (what `expectation` executes): for every circuit object except a `Scale`, in every mode and for every number of
shots, `expectation` returns or raises what it does for the `OpSequence` of all gates in the tree, in order: factors of
`Scale`s are ignored and the terms of `Add`s are executed one after the other. -/
theorem C21_executed {k : CompKind} (hk : ∀ p, k ≠ .scale p) (ops : List Op) (st : State) (obs : List Observable) (mode : DiffMode)
    (nShots : ℤ) :
    expectation so eigh draw st (.comp k ops) obs values mode nShots
      = expectation so eigh draw st (mkSeq ((Op.comp k ops).gates.map .prim)) obs values mode nShots := by
  have e : (Op.comp k ops).iter = (mkSeq ((Op.comp k ops).gates.map .prim)).iter := by
    have h1 : (Op.comp k ops).iter = Op.flattenList ops := by
      cases k with
      | scale p => exact absurd rfl (hk p)
      | _ => rfl
    have h2 : ∀ gs : List Gate, Op.gatesList (gs.map .prim) = gs := by
      intro gs
      induction gs with
      | nil => rfl
      | cons g gs ih => simp only [List.map_cons, Op.gatesList, Op.gates, ih]; rfl
    rw [h1, Op.flattenList_gates, mkSeq, Op.iter, Op.flattenList_gates, h2, Op.gates]
    intro p h; cases h
  simp only [expectation, adExpectation, adjointExpectation, e]
  have : adjointSingle so st (.comp k ops) values = adjointSingle so st (mkSeq ((Op.comp k ops).gates.map .prim)) values := by
    funext o; simp only [adjointSingle, e]
  rw [this]

/-- **C21** (a `Scale` as the circuit): `expectation` raises AttributeError in every mode (`run` accepts it, `C17_scale`). -/
theorem C21_scale_refused {p : Param} (ops : List Op) (hf : values.Flat) (a : NDArray ℂ) {obs : List Observable} (hne : obs ≠ [])
    {mode : DiffMode} (hm : mode ≠ .other) {nShots : ℤ} (hn : 0 ≤ nShots) :
    expectation so eigh draw (.vec a) (.comp (.scale p) ops) obs values mode nShots = .error .attributeError := by
  obtain ⟨o, os, rfl⟩ := List.exists_cons_of_ne_nil hne
  have ha : applyOps so (.vec a) (Op.comp (.scale p) ops).iter values = .error .attributeError := rfl
  have hn' : ¬ nShots < 0 := by omega
  cases mode with
  | other => exact absurd rfl hm
  | adjoint =>
    simp only [expectation, adjointExpectation, List.mapM_cons, adjointSingle, ha, bind, Except.bind]
  | ad =>
    simp only [expectation, if_neg hn', adExpectation, hf.splits.processing, List.mapM_cons, ha, finiteShots, bind, Except.bind]
    split <;> rfl
  | gpsr =>
    simp only [expectation, if_neg hn', analyticalExpectation, List.mapM_cons, ha, finiteShots, bind, Except.bind]
    split <;> rfl

/-- Non-vacuity: the circuit of `C21_scale_wrong` is no `Scale`, and runs as `[X(0)]`. -/
example : (∀ p, CompKind.seq ≠ .scale p) ∧
    (Op.comp .seq [mkScale (.list [.prim (Gate.X (.int 0))]) (.num 2)]).gates = [Gate.X (.int 0)] :=
  ⟨fun p h => (nomatch h), by simp [mkScale, OpArg.toList, Op.gates, Op.gatesList]⟩

/-! ## C22 -/

/-- **C22** (when it holds): let `O` be the operator of an observable, and `O'` the one with its sequences multiplied in
listing order; let Python iterate over its qubits in increasing order.  Simulations of the circuit `[I(0)]` with state vectors
and with density matrices give the same value for all normalised states if and only if `O` and `O'` have the same Hermitian
part. -/
theorem C22_agree_iff (hn : 0 < n) (hf : values.Flat) {o : Observable} {O O' : Matrix (Lab n) (Lab n) ℂ}
    (hm : o.Means (AnyLeaf n values) values O) (hl : Op.ListedSum (StdLeaf n values) values o.ops O')
    (hs : ∀ S, o.toOp.qubitSupport so = .ok S → S.Pairwise (· < ·)) :
    (∀ a, IsKet n a → normSq n a = 1 →
      expectation so eigh draw (.vec a) circuitI [o] values .ad 0
        = expectation so eigh draw (.dm (densityMat a)) circuitI [o] values .ad 0)
      ↔ O + O.conjTranspose = O' + O'.conjTranspose := by
  have hv : ∀ a, IsKet n a → expectation so eigh draw (.vec a) circuitI [o] values .ad 0 = .ok [expVal O ((State.vec a).mat n)] ∧
      expectation so eigh draw (.dm (densityMat a)) circuitI [o] values .ad 0 = .ok [expVal O' ((State.vec a).mat n)] := by
    intro a ha
    have hr := circuitI_run so hn ha (values := values)
    refine ⟨ad_of_single so eigh draw hf.splits hr (by simp) (.cons (expectSingle_vec so hm ha) .nil), ?_⟩
    obtain ⟨q, q1, q2, q3⟩ := circuitI_run_mixed so hn ha (values := values)
    refine ad_of_single so eigh draw hf.splits q1 (by simp) (.cons ?_ .nil)
    obtain ⟨S, m, e1, -, -, -, -, e6, e7⟩ := expectDM_eq so (hl.mono fun _ _ h => StdLeaf.sort h) q2
    rw [pySorted_of_le ((hs S e1).imp le_of_lt)] at e6
    rw [expectSingle, e7, e6, q3]
  have hH : ∀ (A : Matrix (Lab n) (Lab n) ℂ) (a : NDArray ℂ), expVal (A + A.conjTranspose) ((State.vec a).mat n)
      = 2 * expVal A ((State.vec a).mat n) := by
    intro A a
    have hρ : ((State.vec a).mat n).IsHermitian := (vec_posSemidef a).isHermitian
    have h1 : (A.conjTranspose * (State.vec a).mat n).trace = star (A * (State.vec a).mat n).trace := by
      rw [← Matrix.trace_conjTranspose, Matrix.conjTranspose_mul, hρ.eq, Matrix.trace_mul_comm]
    rw [expVal, add_mul, Matrix.trace_add, h1, Complex.add_re, Complex.star_def, Complex.conj_re, expVal]
    ring
  constructor
  · intro h
    have hD : ((O + O.conjTranspose) - (O' + O'.conjTranspose)).IsHermitian := by
      rw [Matrix.IsHermitian, Matrix.conjTranspose_sub, Matrix.conjTranspose_add, Matrix.conjTranspose_add,
        Matrix.conjTranspose_conjTranspose, Matrix.conjTranspose_conjTranspose, add_comm O, add_comm O']
    refine sub_eq_zero.1 (expVal_all_zero hD fun ψ hψ => ?_)
    obtain ⟨a, ha, rfl⟩ := exists_ket ψ
    have hma : (State.vec a).mat n = Matrix.vecMulVec (ket n a) (star (ket n a)) := by
      ext x y; simp [State.mat, Matrix.vecMulVec, ket]
    have hns : normSq n a = 1 := by
      have := vec_trace (n := n) a
      rw [hma, Matrix.trace_vecMulVec, hψ] at this
      exact_mod_cast this.symm
    have := h a ha hns
    rw [(hv a ha).1, (hv a ha).2] at this
    have he : expVal O ((State.vec a).mat n) = expVal O' ((State.vec a).mat n) := (List.cons.inj (Except.ok.inj this)).1
    rw [expVal, sub_mul, Matrix.trace_sub, Complex.sub_re, ← hma]
    change expVal _ _ - expVal _ _ = 0
    rw [hH, hH, he, sub_self]
  · intro h a ha _
    rw [(hv a ha).1, (hv a ha).2]
    have := hH O a
    rw [h, hH O' a] at this
    have he : expVal O' ((State.vec a).mat n) = expVal O ((State.vec a).mat n) := by linarith
    rw [he]

/-- Non-vacuity: the observable `Z(0)`. -/
example : obsZ.Means (AnyLeaf 1 []) [] (gateMat 1 StdGate.Z.mat [0] []) ∧
    Op.ListedSum (StdLeaf 1 []) [] obsZ.ops (gateMat 1 StdGate.Z.mat [0] []) ∧
    ∀ S, obsZ.toOp.qubitSupport so = .ok S → S.Pairwise (· < ·) :=
  ⟨.one (.gate leafZ.any), (obsZ_simple so).listed, (obsZ_simple (values := []) so).sorted⟩

end Verif
