import Verif.Props.Expectation
import Verif.Props.Noise

/-!
# Property theorems comparing state-vector and density-matrix expectations (C22)
-/

namespace Verif
open NDArray
variable {n : ℕ} {values : Values} (so : SetOrder) (eigh : Eigh) (draw : Draw)

/-- Running a circuit on a state vector and on its density matrix gives the same density operator. -/
theorem circuit_run_mixed {circuit : Op} {nss : List (List StdNoise)} (hc : circuit.Circuit n values nss) {a : NDArray ℂ}
    (ha : IsKet n a) : ∃ r q, applyOps so (.vec a) circuit.iter values = .ok r ∧
      applyOps so (.dm (densityMat a)) circuit.iter values = .ok (.dm q) ∧ r.On n ∧ IsDM n q ∧
      dmMat n q.array = r.mat n := by
  obtain ⟨r, -, h2, h3⟩ := circuit_run so hc (st := .vec a) ha
  obtain ⟨q, -, k2, k3⟩ := circuit_run so hc (st := .dm (densityMat a)) (densityMat_isDM ha).1
  cases q with
  | vec q => exact k3.elim
  | dm q =>
    refine ⟨r, q, h2, k2, h3.on, k3.1, ?_⟩
    rw [k3.2]
    have e : dmMat n (densityMat a).array = (State.vec a).mat n := State.mat_densityMat ha
    cases r with
    | dm r => rw [e]; exact h3.2.2.symm
    | vec r => rw [e, noisyRun_noiseless hc.noise h3.1, vec_mat_conj h3.2.2]; rfl

/-- **C22, restricted to observables that the density-matrix code reads correctly** (`Observable.Simple`: the
sequences inside may be multiplied in listing order, and Python iterates over the observable's qubits in increasing
order): simulation with the density matrix of `ψ` gives the same expectations as with `ψ`.  Circuits may be noisy.
The unrestricted statement is false of the code: `C22_listing_order_wrong`, `C22_set_order_wrong`. -/
theorem C22_pure_partial {circuit : Op} {nss : List (List StdNoise)} (hc : circuit.Circuit n values nss)
    (hf : values.Flat) {a : NDArray ℂ} (ha : IsKet n a) {obs : List Observable} {Os : List (Matrix (Lab n) (Lab n) ℂ)}
    (hne : obs ≠ []) (ho : List.Forall₂ (fun o O => o.Simple so n values O) obs Os) :
    ∃ xs, expectation so eigh draw (.vec a) circuit obs values .ad 0 = .ok xs ∧
      expectation so eigh draw (.dm (densityMat a)) circuit obs values .ad 0 = .ok xs := by
  obtain ⟨r, q, h1, h2, h3, h4, h5⟩ := circuit_run_mixed so hc ha
  refine ⟨Os.map fun O => expVal O (r.mat n), ad_of_single so eigh draw hf.splits h1 hne ?_,
    ad_of_single so eigh draw hf.splits h2 hne ?_⟩
  · rw [List.forall₂_map_right_iff]
    exact ho.imp fun o O hO => hO.single so h3
  · rw [List.forall₂_map_right_iff]
    refine ho.imp fun o O hO => ?_
    rw [hO.single_dm so h4, ← h5]; rfl

/-- For all observables of standard gates: the density-matrix value is `Re tr(O' ρ)`, where `O'` is the observable
multiplied out in listing order, when Python iterates over its qubits in increasing order. -/
theorem C22_listed {circuit : Op} {nss : List (List StdNoise)} (hc : circuit.Circuit n values nss)
    (hf : values.Flat) {a : NDArray ℂ} (ha : IsKet n a) {o : Observable} {O : Matrix (Lab n) (Lab n) ℂ}
    (ho : Op.ListedSum (StdLeaf n values) values o.ops O) (hs : ∀ S, o.toOp.qubitSupport so = .ok S → S.Pairwise (· < ·)) :
    ∃ r, run so circuit (.vec a) values = .ok (some r) ∧
      expectation so eigh draw (.dm (densityMat a)) circuit [o] values .ad 0 = .ok [expVal O (r.mat n)] := by
  obtain ⟨r, q, h1, h2, h3, h4, h5⟩ := circuit_run_mixed so hc ha
  obtain ⟨r', k1, k2, -⟩ := circuit_run so hc (st := .vec a) ha
  obtain rfl : r = r' := by rw [h1] at k2; cases k2; rfl
  refine ⟨r, k1, ad_of_single so eigh draw hf.splits h2 (by simp) (.cons ?_ .nil)⟩
  obtain ⟨S, m, e1, -, -, -, -, e6, e7⟩ := expectDM_eq so (ho.mono fun _ _ h => StdLeaf.sort h) h4
  rw [pySorted_of_le ((hs S e1).imp le_of_lt)] at e6
  rw [expectSingle, e7, e6, h5]

/-- Non-vacuity of `C22_pure_partial`: see the example after `C21_expectation_run_partial` in
`Verif/Props/Expectation.lean` (a noisy circuit with the observable `Z(0)`); here two observables. -/
example : List.Forall₂ (fun o O => o.Simple so 1 [] O) [obsZ, obsZ]
    [gateMat 1 StdGate.Z.mat [0] [], gateMat 1 StdGate.Z.mat [0] []] :=
  .cons (obsZ_simple so) (.cons (obsZ_simple so) .nil)

/-! ### The two counterexamples -/

/-- The identity circuit `[I(0)]`. -/
def circuitI : Op := mkSeq [.prim (Gate.I (.int 0))]

theorem gateI_std (hn : 0 < n) : (Gate.I (.int 0)).Std n values .I :=
  ⟨.I _ _ _, rfl, ⟨.inr (.inl rfl), ⟨by decide, by intro q hq; simp [Gate.I, mkGate, ctlInts, parseControl, parseTarget] at hq; omega⟩⟩⟩

theorem circuitI_circuit (hn : 0 < n) : circuitI.Circuit n values [[]] := by
  refine ⟨.seq (.cons (.prim _) .nil), by simp [circuitI, mkSeq, Op.gates, Op.gatesList], ?_, .cons (.none rfl) .nil⟩
  simpa [circuitI, mkSeq, Op.gates, Op.gatesList] using (gateI_std hn).ok

theorem circuitI_run (hn : 0 < n) {a : NDArray ℂ} (ha : IsKet n a) :
    applyOps so (.vec a) circuitI.iter values = .ok (.vec a) := by
  obtain ⟨r, -, h2, h3⟩ := circuit_run so (circuitI_circuit hn (values := values)) (st := .vec a) ha
  cases r with
  | dm r => exact absurd (by simp [circuitI, mkSeq, Op.gates, Op.gatesList, Gate.I, mkGate]) h3.1
  | vec r =>
    have hk := h3.2.2
    have : gatesMat n .unitary values circuitI.gates = 1 := by
      simp only [circuitI, mkSeq, Op.gates, Op.gatesList, List.append_nil, gatesMat, one_mul, (gateI_std hn).mat, stdMat]
      refine (gateMat_congr (V := oneE) fun i j hi hj => ?_).trans gateMat_one
      have hi : i < 2 := by simpa [Gate.I, mkGate, parseTarget] using hi
      have hj : j < 2 := by simpa [Gate.I, mkGate, parseTarget] using hj
      obtain rfl | rfl : i = 0 ∨ i = 1 := by omega
      all_goals obtain rfl | rfl : j = 0 ∨ j = 1 := by omega
      all_goals simp [StdGate.mat, matE, oneE]
    rw [this, Matrix.one_mulVec] at hk
    rw [h2, ket_ext h3.2.1 ha hk]

theorem circuitI_run_mixed (hn : 0 < n) {a : NDArray ℂ} (ha : IsKet n a) :
    ∃ q, applyOps so (.dm (densityMat a)) circuitI.iter values = .ok (.dm q) ∧ IsDM n q ∧
      dmMat n q.array = (State.vec a).mat n := by
  obtain ⟨r, q, h1, h2, h3, h4, h5⟩ := circuit_run_mixed so (circuitI_circuit hn (values := values)) ha
  rw [circuitI_run so hn ha] at h1; cases h1
  exact ⟨q, h2, h4, h5⟩

/-- The state `(3/5)|0⟩ + (4i/5)|1⟩`. -/
noncomputable def psi1 : NDArray ℂ := ⟨[2], [3 / 5, 4 / 5 * Complex.I]⟩

theorem psi1_isKet : IsKet 1 psi1 := ⟨rfl, rfl⟩

theorem psi1_get (i : Fin 2) : psi1.get (lab1 i).bits = if i = 0 then 3 / 5 else 4 / 5 * Complex.I := by
  rw [lab1_bits]; fin_cases i <;> rfl

theorem leafS : StdLeaf 1 values (Gate.S (.int 0)) (gateMat 1 StdGate.S.mat [0] []) :=
  ⟨.S, ⟨.S _ _ _, rfl, ⟨.inr (.inl rfl), by decide⟩⟩, rfl, rfl⟩

/-- **C22 is false of the code** (order of multiplication): for the observable
`Observable([OpSequence([S(0), X(0), S(0), Z(0)])])`, i.e. `Z S X S = -Y` on state vectors, and the normalised state
`(3/5)|0⟩ + (4i/5)|1⟩`, the expectation is `-24/25` with the state vector and `24/25` with its density matrix, for
every set iteration order. -/
theorem C22_listing_order_wrong : ∃ (circuit : Op) (a : NDArray ℂ) (o : Observable), IsKet 1 a ∧
    expectation so eigh draw (.vec a) circuit [o] [] .ad 0 = .ok [-24 / 25] ∧
    expectation so eigh draw (.dm (densityMat a)) circuit [o] [] .ad 0 = .ok [24 / 25] := by
  obtain ⟨q, h1, h2, h3⟩ := circuitI_run_mixed so (n := 1) one_pos psi1_isKet (values := [])
  have hm : Op.MeansSum (AnyLeaf 1 []) []
      [mkSeq [.prim (Gate.S (.int 0)), .prim (Gate.X (.int 0)), .prim (Gate.S (.int 0)), .prim (Gate.Z (.int 0))]] _ :=
    .one (.seq (.cons (.gate (leafS (values := [])).any) (.cons (.gate (leafX (values := [])).any)
      (.cons (.gate (leafS (values := [])).any) (.cons (.gate (leafZ (values := [])).any) .nil)))))
  have hl : Op.ListedSum (SortLeaf 1 []) []
      [mkSeq [.prim (Gate.S (.int 0)), .prim (Gate.X (.int 0)), .prim (Gate.S (.int 0)), .prim (Gate.Z (.int 0))]] _ :=
    .one (.seq (.cons (.gate (leafS (values := [])).sort) (.cons (.gate (leafX (values := [])).sort)
      (.cons (.gate (leafS (values := [])).sort) (.one (.gate (leafZ (values := [])).sort))))))
  refine ⟨circuitI, psi1, .new (.list [mkSeq [.prim (Gate.S (.int 0)), .prim (Gate.X (.int 0)), .prim (Gate.S (.int 0)),
      .prim (Gate.Z (.int 0))]]), psi1_isKet,
    ad_of_single so eigh draw (.inr ⟨.inl rfl, rfl, rfl⟩) (circuitI_run so one_pos psi1_isKet) (by simp) (.cons ?_ .nil),
    ad_of_single so eigh draw (.inr ⟨.inl rfl, rfl, rfl⟩) h1 (by simp) (.cons ?_ .nil)⟩
  · rw [Observable.new, OpArg.toList, expectSingle_vec so hm psi1_isKet, expVal_vec]
    simp only [one_mul, ← Matrix.mulVec_mulVec, sum_lab1, mulVec_lab1, ket, psi1_get, StdGate.mat, matE]
    refine congrArg Except.ok ?_
    norm_num [Complex.ext_iff]
  · obtain ⟨S, m, e1, e2, -, -, -, e6, e7⟩ := expectDM_eq so hl h2
    have hs : S.Pairwise (· ≤ ·) := by
      have : ∀ q ∈ S, q = 0 := fun q hq => by have := e2.lt q hq; omega
      match S, this with
      | [], _ => simp
      | [a], _ => simp
      | a :: b :: t, h =>
        have := e2.nodup
        rw [h a (by simp), h b (by simp)] at this
        simp at this
    rw [pySorted_of_le hs] at e6
    rw [expectSingle, Observable.new, OpArg.toList, e7, e6, h3, expVal_vec]
    simp only [← Matrix.mulVec_mulVec, sum_lab1, mulVec_lab1, ket, psi1_get, StdGate.mat, matE]
    refine congrArg Except.ok ?_
    norm_num [Complex.ext_iff]

/-- A set iteration order: small integers sorted by their remainder modulo `8`, as for a CPython set with 8 slots. -/
def slotOrder : SetOrder where
  order l := l.dedup.insertionSort fun a b => a % 8 ≤ b % 8
  nodup l := (List.perm_insertionSort _ _).nodup_iff.2 (List.nodup_dedup l)
  mem l x := by rw [(List.perm_insertionSort _ _).mem_iff, List.mem_dedup]

theorem expVal_basis (O : Matrix (Lab n) (Lab n) ℂ) (b : Lab n) :
    expVal O ((State.vec (basisKet ℂ b)).mat n) = (O b b).re := by
  rw [expVal_vec, ket_basisKet]
  simp [Pi.single_apply, Matrix.mulVec_single]

/-- **C22 is false of the code** (order of the qubits): for the observable `X(1) + Z(8)` on nine qubits, with a set
whose elements `{1, 8}` are iterated as `8, 1` (as CPython does), and the basis state with only qubit 1 set, the
expectation is `1` with the state vector and `-1` with its density matrix. -/
theorem C22_set_order_wrong : ∃ (circuit : Op) (a : NDArray ℂ) (o : Observable), IsKet 9 a ∧
    expectation slotOrder eigh draw (.vec a) circuit [o] [] .ad 0 = .ok [1] ∧
    expectation slotOrder eigh draw (.dm (densityMat a)) circuit [o] [] .ad 0 = .ok [-1] := by
  obtain ⟨b, hb⟩ : ∃ b : Lab 9, b = fun i => if i = 1 then 1 else 0 := ⟨_, rfl⟩
  obtain ⟨c, hc⟩ : ∃ c : Lab 9, c = fun i => if i = 8 then 1 else 0 := ⟨_, rfl⟩
  have hk := basisKet_isKet (K := ℂ) b
  obtain ⟨q, h1, h2, h3⟩ := circuitI_run_mixed slotOrder (n := 9) (by norm_num) hk (values := [])
  have lX : StdLeaf 9 [] (Gate.X (.int 1)) (gateMat 9 StdGate.X.mat [1] []) :=
    ⟨.X, ⟨.X _ _ _, rfl, ⟨.inr (.inl rfl), by decide⟩⟩, rfl, rfl⟩
  have lZ : StdLeaf 9 [] (Gate.Z (.int 8)) (gateMat 9 StdGate.Z.mat [8] []) :=
    ⟨.Z, ⟨.Z _ _ _, rfl, ⟨.inr (.inl rfl), by decide⟩⟩, rfl, rfl⟩
  have hm : Op.MeansSum (AnyLeaf 9 []) [] [.prim (Gate.X (.int 1)), .prim (Gate.Z (.int 8))] _ :=
    .cons (.gate lX.any) (.one (.gate lZ.any))
  have hl : Op.ListedSum (SortLeaf 9 []) [] [.prim (Gate.X (.int 1)), .prim (Gate.Z (.int 8))] _ :=
    .cons (.gate lX.sort) (.one (.gate lZ.sort))
  refine ⟨circuitI, basisKet ℂ b, .new (.list [.prim (Gate.X (.int 1)), .prim (Gate.Z (.int 8))]), hk,
    ad_of_single slotOrder eigh draw (.inr ⟨.inl rfl, rfl, rfl⟩) (circuitI_run slotOrder (by norm_num) hk) (by simp) (.cons ?_ .nil),
    ad_of_single slotOrder eigh draw (.inr ⟨.inl rfl, rfl, rfl⟩) h1 (by simp) (.cons ?_ .nil)⟩
  · rw [Observable.new, OpArg.toList, expectSingle_vec slotOrder hm hk, expVal_basis, Matrix.add_apply, gateMat_nil_apply,
      gateMat_nil_apply, if_pos (Lab.AgreeOff.refl _ _), if_pos (Lab.AgreeOff.refl _ _)]
    subst hb
    simp [Lab.idx, Lab.bit, binVal, StdGate.mat, matE]
  · obtain ⟨S, m, e1, e2, e3, e4, e5, e6, e7⟩ := expectDM_eq slotOrder hl h2
    have hS : S = [8, 1] := by
      have : (Op.comp .obs [.prim (Gate.X (.int 1)), .prim (Gate.Z (.int 8))]).qubitSupport slotOrder = .ok [8, 1] := by
        rfl
      rw [this] at e1; cases e1; rfl
    subst hS
    rw [expectSingle, Observable.new, OpArg.toList, e7, h3, expVal_basis, gateMat_nil_apply, if_pos (Lab.AgreeOff.refl _ _)]
    have := congrFun (congrFun e6 c) c
    rw [show pySorted [8, 1] = [1, 8] by decide, gateMat_nil_apply, if_pos (Lab.AgreeOff.refl _ _), Matrix.add_apply,
      gateMat_nil_apply, gateMat_nil_apply, if_pos (Lab.AgreeOff.refl _ _), if_pos (Lab.AgreeOff.refl _ _)] at this
    have i1 : c.idx [1, 8] = 1 := by subst hc; rfl
    have i2 : c.idx [1] = 0 := by subst hc; rfl
    have i3 : c.idx [8] = 1 := by subst hc; rfl
    have i4 : b.idx [8, 1] = 1 := by subst hb; rfl
    rw [i1, i2, i3] at this
    rw [i4, this]
    simp [StdGate.mat, matE]

end Verif
