import Verif.Props.EvolvingCircuits
import Verif.Props.Params
import Verif.Props.Pytree
import Verif.Props.RunApi
import Verif.Props.Shots

/-!
# Sharper forms of C05, C06, C29, C34, C36, C38 and C42

* C05 and C06 with Hamiltonian evolutions among the gates.
* C29: the distribution that `finite_shots` samples from.
* C34: what the pytree round trip returns for *every* operation, and so exactly when it returns an equal one.
* C36: what `vparams` lists for *every* circuit.
* C38: nested values are refused by the other modes for *every* circuit that uses them.
* C42: whole circuits on disjoint qubits commute.
-/

set_option autoImplicit false

namespace Verif
open NDArray
open scoped ComplexOrder
variable {n : ℕ} {values : Values} (so : SetOrder)

/-! ### C05, C06 -/

theorem Gate.Proper.unitary {g : Gate} (h : g.Proper n values) :
    (g.mat n .unitary values).conjTranspose * g.mat n .unitary values = 1 := by
  rcases h with ⟨s, h⟩ | ⟨tg, c, H, t, h⟩
  · rw [h.mat]; exact h.unitary.1
  · rw [h.eq, (hamEvo_ok h.vals h.op h.ctl h.dims).2]
    exact (C40_unitary h.herm t rfl h.dims).2

theorem gatesMat_proper_unitary {gs : List Gate} (h : ∀ g ∈ gs, g.Proper n values) :
    (gatesMat n .unitary values gs).conjTranspose * gatesMat n .unitary values gs = 1 := by
  induction gs with
  | nil => simp [gatesMat]
  | cons g gs ih =>
    rw [gatesMat, Matrix.conjTranspose_mul, mul_assoc,
      ← mul_assoc _ (gatesMat n .unitary values gs) (g.mat n .unitary values), ih fun g hg => h g (by simp [hg]), one_mul,
      (h g (by simp)).unitary]

/-- **C05** (Hamiltonian evolutions): a list of gates of `primitives` and Hamiltonian evolutions with Hermitian matrices,
followed by the reversed list with `op_type=DAGGER`, returns the original state, for state vectors and density matrices. -/
theorem C05_evolution {gs : List Gate} (h : ∀ g ∈ gs, g.Proper n values) (hne : gs ≠ []) (hnz : ∀ g ∈ gs, g.noise = none)
    {st : State} (hst : st.On n) (merge merge' : Bool) :
    (do let r ← applyGates so st (.list gs) values .unitary false merge
        applyGates so r (.list gs.reverse) values .dagger false merge') = .ok st := by
  have hok : ∀ g ∈ gs, g.Ok n .unitary values := fun g hg => (h g hg).ok
  have hok' : ∀ g ∈ gs.reverse, g.Ok n .dagger values := fun g hg => (hok g (List.mem_reverse.1 hg)).dagger.1
  have hnz' : ∀ g ∈ gs.reverse, g.noise = none := fun g hg => hnz g (List.mem_reverse.1 hg)
  have hne' : gs.reverse ≠ [] := by simpa using hne
  cases st with
  | vec a =>
    obtain ⟨r, h1, h2, h3⟩ := applyGates_vec so hne hok hnz hst merge
    obtain ⟨r', h1', h2', h3'⟩ := applyGates_vec so hne' hok' hnz' h2 merge'
    rw [h1]
    simp only [bind, Except.bind, h1']
    rw [ket_ext h2' hst]
    rw [h3', h3, Matrix.mulVec_mulVec, gatesMat_dagger hok, gatesMat_proper_unitary h, Matrix.one_mulVec]
  | dm ρ =>
    obtain ⟨r, h1, h2, h3⟩ := applyGates_dm so hne hok hnz hst merge
    obtain ⟨r', h1', h2', h3'⟩ := applyGates_dm so hne' hok' hnz' h2 merge'
    rw [h1]
    simp only [bind, Except.bind, h1']
    rw [dm_ext h2' hst]
    rw [h3', h3, gatesMat_dagger hok]
    set M := gatesMat n .unitary values gs
    have hM : M.conjTranspose * M = 1 := gatesMat_proper_unitary h
    rw [Matrix.conjTranspose_conjTranspose]
    calc M.conjTranspose * (M * dmMat n ρ.array * M.conjTranspose) * M
        = (M.conjTranspose * M) * dmMat n ρ.array * (M.conjTranspose * M) := by simp only [mul_assoc]
      _ = _ := by rw [hM, one_mul, mul_one]

/-- **C06** (Hamiltonian evolutions): `run` on a noiseless circuit of such gates preserves the norm. -/
theorem C06_evolution {circuit : Op} {nss : List (List StdNoise)} (h : circuit.Proper n values nss)
    (hnz : ∀ g ∈ circuit.gates, g.noise = none) {a : NDArray ℂ} (ha : IsKet n a) :
    ∃ r, run so circuit (.vec a) values = .ok (some (.vec r)) ∧ IsKet n r ∧
      ∑ b : Lab n, Complex.normSq (r.get b.bits) = ∑ b : Lab n, Complex.normSq (a.get b.bits) := by
  obtain ⟨q, h1, h2⟩ := run_applyGates so h.circuit (st := .vec a) ha true
  obtain ⟨r, k1, k2, k3⟩ := applyGates_vec so h.ne (fun g hg => (h.gates g hg).ok) hnz ha true
  obtain rfl : q = .vec r := by rw [k1] at h2; cases h2; rfl
  refine ⟨r, h1, k2, ?_⟩
  have key : ∀ ψ : Lab n → ℂ, ((∑ b, Complex.normSq (ψ b) : ℝ) : ℂ) = star ψ ⬝ᵥ ψ := by
    intro ψ
    simp [dotProduct, Complex.normSq_eq_conj_mul_self]
  apply Complex.ofReal_injective
  change ((∑ b, Complex.normSq (ket n r b) : ℝ) : ℂ) = ((∑ b, Complex.normSq (ket n a b) : ℝ) : ℂ)
  rw [key, key, k3, Matrix.star_mulVec, ← Matrix.dotProduct_mulVec, Matrix.mulVec_mulVec, gatesMat_proper_unitary h.gates,
    Matrix.one_mulVec]

/-- Non-vacuity: `H(0)` and a controlled evolution under `X` on two qubits. -/
example : ∀ g ∈ [Gate.H (.int 0), Gate.HamiltonianEvolution (.int 1) (.int 0)],
    g.Proper 2 [("hamiltonian", .arr matX), ("time_evolution", .num 3)] := by
  intro g hg
  simp only [List.mem_cons, List.not_mem_nil, or_false] at hg
  rcases hg with rfl | rfl
  · exact .inl ⟨.H, .H _ _ _, rfl, ⟨.inr (.inl rfl), by decide⟩⟩
  · exact .inr ⟨_, _, matX, 3, rfl, ⟨rfl, rfl⟩, ⟨rfl, rfl⟩, matX_herm, .inr (.inr ⟨[0], rfl⟩), by decide⟩

/-! ### C29 -/

/-- **C29** (the distribution): the numbers that `finite_shots` passes to `jax.random.choice` as probabilities add up to the
trace of the state (the squared norm of a state vector), and are not negative for positive semidefinite states (so for all
state vectors), whatever eigenvectors `eigh` returns. -/
theorem C29_probabilities (eigh : Eigh) {st : State} (hst : st.On n) (A : Matrix (Fin (2 ^ n)) (Fin (2 ^ n)) ℂ) :
    ∃ ps, eigenProbabilities (2 ^ n) (eigh.vecs A) st = .ok ps ∧ ps.length = 2 ^ n ∧
      ps.sum = (st.mat n).trace.re ∧ ((st.mat n).PosSemidef → ∀ p ∈ ps, 0 ≤ p) := by
  refine ⟨_, eigenProbabilities_eq hst _, by simp, ?_, fun hp p hm => ?_⟩
  · rw [List.sum_ofFn, ← Complex.re_sum]
    change Complex.re (Matrix.trace (_ : Matrix (Fin (2 ^ n)) (Fin (2 ^ n)) ℂ)) = _
    rw [Matrix.trace_mul_comm, ← mul_assoc, mul_eq_one_comm.1 (eigh.unitary A), one_mul, numMat_trace]
  · obtain ⟨i, rfl⟩ := (List.mem_ofFn' _ _).1 hm
    have h1 : (numMat (st.mat n)).PosSemidef := hp.submatrix _
    have h2 := (h1.conjTranspose_mul_mul_same (eigh.vecs A)).diag_nonneg (i := i)
    exact (Complex.le_def.1 h2).1

/-- Non-vacuity: `|0⟩⟨0|`, whose trace is one. -/
example : ∃ st : State, st.On 1 ∧ (st.mat 1).PosSemidef :=
  ⟨.vec zero1, ⟨rfl, rfl⟩, by
    simp only [State.mat]
    exact Matrix.posSemidef_vecMulVec_self_star _⟩

/-! ### C34 -/

mutual
/-- What the pytree round trip makes of an operation: shifts of Hamiltonian evolutions become zero, and the attributes of
the outermost circuits are exchanged. -/
noncomputable def Op.afterTrip : Op → Obj
  | .prim g => g.resetShift.toObj
  | .comp (.circ m fs) ops => .inst .quantumCircuit [.list (fs.map .str), .list (Op.toObjs ops), .int m]
  | .comp k ops => .inst k.cls (.list (Op.afterTrips ops) :: k.fields)
/-- The same for a list of operations. -/
noncomputable def Op.afterTrips : List Op → List Obj
  | [] => []
  | o :: os => o.afterTrip :: Op.afterTrips os
end

namespace Pytree

mutual
theorem goes_any (o : Op) : ∃ lv, Goes o.toObj lv o.afterTrip := by
  cases o with
  | prim g => exact ⟨gateLeaves g, by simpa only [Op.toObj, Op.afterTrip] using goes_gate g⟩
  | comp k ops =>
    obtain ⟨lv, hl⟩ := goes_any_list ops
    simp only [Op.toObj]
    cases k with
    | circ m fs =>
      refine ⟨[.int m], fun d hd => ?_⟩
      obtain ⟨d, rfl⟩ : ∃ e, d = e + 2 := ⟨d - 2, by
        simp only [Obj.depth, Obj.depthList] at hd; omega⟩
      exact ⟨.node .quantumCircuit [.list (Op.toObjs ops), .list (fs.map .str)] [.leaf], rfl, fun rest => by
        simp only [Op.afterTrip]; rfl⟩
    | seq => exact ⟨lv, by simp only [Op.afterTrip]; exact Goes.node rfl rfl (by simp) hl rfl⟩
    | scale p => exact ⟨lv, by simp only [Op.afterTrip]; exact Goes.node rfl rfl (by simp) hl rfl⟩
    | add => exact ⟨lv, by simp only [Op.afterTrip]; exact Goes.node rfl rfl (by simp) hl rfl⟩
    | obs => exact ⟨lv, by simp only [Op.afterTrip]; exact Goes.node rfl rfl (by simp) hl rfl⟩
theorem goes_any_list (os : List Op) : ∃ lv, GoesList (Op.toObjs os) lv (Op.afterTrips os) := by
  cases os with
  | nil => exact ⟨[], by simpa only [Op.toObjs, Op.afterTrips] using GoesList.nil⟩
  | cons o os =>
    obtain ⟨l₁, h₁⟩ := goes_any o
    obtain ⟨l₂, h₂⟩ := goes_any_list os
    exact ⟨l₁ ++ l₂, by simpa only [Op.toObjs, Op.afterTrips] using GoesList.cons h₁ h₂⟩
end

theorem resetShift_iff {g : Gate} : g.resetShift = g ↔ ∀ s, g.cls = .hamEvo s → s = 0 := by
  refine ⟨fun h s hs => ?_, resetShift_eq⟩
  obtain ⟨cls, nm, ts, c, nz, sp⟩ := g
  subst hs
  simp only [Gate.resetShift, Gate.mk.injEq, and_true, GateClass.hamEvo.injEq] at h
  exact h.symm

mutual
theorem afterTrip_iff (o : Op) : o.afterTrip = o.toObj ↔
    ¬ o.HasKind CompKind.IsCircuit ∧ ∀ g ∈ o.gates, ∀ s, g.cls = .hamEvo s → s = 0 := by
  cases o with
  | prim g =>
    simp only [Op.afterTrip, Op.toObj, Op.HasKind, not_false_eq_true, true_and, Op.gates, List.mem_singleton, forall_eq]
    rw [gate_injective.eq_iff, resetShift_iff]
  | comp k ops =>
    have hl := afterTrips_iff ops
    have key : ¬ k.IsCircuit → (Op.afterTrips ops = Op.toObjs ops ↔
        ¬ (Op.comp k ops).HasKind CompKind.IsCircuit ∧ ∀ g ∈ (Op.comp k ops).gates, ∀ s, g.cls = .hamEvo s → s = 0) := by
      intro hk
      simp only [Op.HasKind, Op.gates, hk, false_or]
      exact hl
    cases k with
    | circ m fs =>
      simp only [Op.afterTrip, Op.toObj, Op.HasKind, CompKind.fields]
      refine ⟨fun h => by simp at h, fun h => absurd (.inl ⟨m, fs, rfl⟩) h.1⟩
    | seq => rw [← key (by rintro ⟨_, _, h⟩; cases h)]; simp [Op.afterTrip, Op.toObj]
    | scale p => rw [← key (by rintro ⟨_, _, h⟩; cases h)]; simp [Op.afterTrip, Op.toObj]
    | add => rw [← key (by rintro ⟨_, _, h⟩; cases h)]; simp [Op.afterTrip, Op.toObj]
    | obs => rw [← key (by rintro ⟨_, _, h⟩; cases h)]; simp [Op.afterTrip, Op.toObj]
theorem afterTrips_iff (os : List Op) : Op.afterTrips os = Op.toObjs os ↔
    ¬ Op.AnyKind CompKind.IsCircuit os ∧ ∀ g ∈ Op.gatesList os, ∀ s, g.cls = .hamEvo s → s = 0 := by
  cases os with
  | nil => simp [Op.afterTrips, Op.toObjs, Op.AnyKind, Op.gatesList]
  | cons o os =>
    simp only [Op.afterTrips, Op.toObjs, List.cons.injEq, afterTrip_iff o, afterTrips_iff os, Op.AnyKind, not_or, Op.gatesList,
      List.mem_append]
    exact ⟨fun h => ⟨⟨h.1.1, h.2.1⟩, fun g hg => hg.elim (h.1.2 g) (h.2.2 g)⟩,
      fun h => ⟨⟨h.1.1, fun g hg => h.2 g (.inl hg)⟩, h.1.2, fun g hg => h.2 g (.inr hg)⟩⟩
end

end Pytree

open Pytree in
/-- **C34** (when it holds): flattening and unflattening never raises, and returns an equal object exactly for the operations
that contain no `QuantumCircuit`, at any depth, and no Hamiltonian evolution with a non-zero shift. -/
theorem C34_iff (o : Op) : (∃ x, roundTrip o.toObj = .ok x) ∧
    (roundTrip o.toObj = .ok o.toObj ↔
      ¬ o.HasKind CompKind.IsCircuit ∧ ∀ g ∈ o.gates, ∀ s, g.cls = .hamEvo s → s = 0) := by
  obtain ⟨lv, h⟩ := goes_any o
  refine ⟨⟨_, h.roundTrip⟩, ?_⟩
  rw [h.roundTrip, Except.ok.injEq, afterTrip_iff]

/-- Both sides occur: a sum of gates, and a sum that contains a circuit. -/
example : (¬ (mkAdd (.list [.prim (Gate.X (.int 0)), .prim (Gate.Z (.int 1))])).HasKind CompKind.IsCircuit) ∧
    (mkAdd (.list [.prim (Gate.X (.int 0)), mkCircuit 1 (.list [.prim (Gate.Z (.int 0))])])).HasKind CompKind.IsCircuit := by
  refine ⟨?_, ?_⟩
  · simp [mkAdd, OpArg.toList, Op.HasKind, Op.AnyKind, CompKind.IsCircuit]
  · simp [mkAdd, mkCircuit, OpArg.toList, Op.HasKind, Op.AnyKind, CompKind.IsCircuit]

/-! ### C36 -/

/-- **C36** (what `vparams` lists): for every circuit, without repetition, the names used as angles by its gates and the texts
`str(x)` of their numeric angles `x`, except those in `fparams`; `n_vparams` is their number.  `str` is arbitrary. -/
theorem C36_listed (strOf : ℝ → String) (k : ℕ) (fs : List String) (ops : List Op) :
    ((Op.comp (.circ k fs) ops).vparams strOf fs).Nodup ∧
    (∀ s, s ∈ (Op.comp (.circ k fs) ops).vparams strOf fs ↔
      s ∉ fs ∧ ∃ g ∈ (Op.comp (.circ k fs) ops).gates, g.HasAngle (.str s) ∨ ∃ x, strOf x = s ∧ g.HasAngle (.num x)) ∧
    (Op.comp (.circ k fs) ops).nVparams strOf = {s | s ∉ fs ∧ ∃ g ∈ (Op.comp (.circ k fs) ops).gates,
      g.HasAngle (.str s) ∨ ∃ x, strOf x = s ∧ g.HasAngle (.num x)}.ncard := by
  have h1 : ((Op.comp (.circ k fs) ops).vparams strOf fs).Nodup := (List.nodup_dedup _).filter _
  have h2 : ∀ s, s ∈ (Op.comp (.circ k fs) ops).vparams strOf fs ↔
      s ∉ fs ∧ ∃ g ∈ (Op.comp (.circ k fs) ops).gates, g.HasAngle (.str s) ∨ ∃ x, strOf x = s ∧ g.HasAngle (.num x) := by
    intro s
    rw [Op.vparams, List.mem_filter, mem_paramNames, and_comm, decide_eq_true_iff]
  refine ⟨h1, h2, ?_⟩
  have : {s | s ∉ fs ∧ ∃ g ∈ (Op.comp (.circ k fs) ops).gates, g.HasAngle (.str s) ∨ ∃ x, strOf x = s ∧ g.HasAngle (.num x)}
      = (((Op.comp (.circ k fs) ops).vparams strOf fs).toFinset : Set String) := by
    ext s
    rw [Set.mem_setOf_eq, ← h2]
    simp
  rw [this, Set.ncard_coe_finset, List.toFinset_card_of_nodup h1]
  rfl

/-- **C36** (when it holds): `vparams` is the set of names in use minus `fparams` exactly when the text of every numeric angle
is itself such a name (or a feature parameter); with angles whose texts are not names, exactly when there is no numeric angle. -/
theorem C36_iff (strOf : ℝ → String) (k : ℕ) (fs : List String) (ops : List Op) :
    (∀ s, s ∈ (Op.comp (.circ k fs) ops).vparams strOf fs ↔
      s ∉ fs ∧ ∃ g ∈ (Op.comp (.circ k fs) ops).gates, g.HasAngle (.str s)) ↔
    ∀ g ∈ (Op.comp (.circ k fs) ops).gates, ∀ x, g.HasAngle (.num x) →
      strOf x ∈ fs ∨ ∃ g' ∈ (Op.comp (.circ k fs) ops).gates, g'.HasAngle (.str (strOf x)) := by
  have h := (C36_listed strOf k fs ops).2.1
  constructor
  · intro h' g hg x hx
    by_cases hf : strOf x ∈ fs
    · exact .inl hf
    · exact .inr ((h' _).1 ((h _).2 ⟨hf, g, hg, .inr ⟨x, rfl, hx⟩⟩)).2
  · intro h' s
    rw [h]
    refine and_congr_right fun hf => ⟨?_, fun ⟨g, hg, hs⟩ => ⟨g, hg, .inl hs⟩⟩
    rintro ⟨g, hg, hs | ⟨x, rfl, hx⟩⟩
    · exact ⟨g, hg, hs⟩
    · exact (h' g hg x hx).resolve_left hf

/-- A circuit with a named and a numeric angle. -/
example (strOf : ℝ → String) (h : strOf 0.5 = "0.5") :
    (mkCircuit 2 (.list [.prim (Gate.RX (.str "a") (.int 0)), .prim (Gate.RY (.num 0.5) (.int 1))])).vparams strOf [] = ["a", "0.5"] := by
  simp [mkCircuit, OpArg.toList, Op.vparams, Op.paramNames, Op.iter, Op.flattenList, Op.flatten, Gate.RX, Gate.RY, mkGate, h]

/-! ### C38 -/

theorem Gate.Is.missing {vc : Values} {g : Gate} {s : StdGate} (h : g.Is vc s)
    (hn : ∀ p, g.Uses p → values.lookup p = none) :
    (g.operator .unitary values = .error .keyError ∧ ∃ p, g.Uses p) ∨
      ((∃ u, g.operator .unitary values = .ok u) ∧ ¬ ∃ p, g.Uses p) := by
  have fixed : g.Is values s → (¬ ∃ p, g.Uses p) → (g.operator .unitary values = .error .keyError ∧ ∃ p, g.Uses p) ∨
      ((∃ u, g.operator .unitary values = .ok u) ∧ ¬ ∃ p, g.Uses p) := fun h h' => by
    obtain ⟨U, hU, -⟩ := h.unitary
    exact .inr ⟨⟨U, hU⟩, h'⟩
  have none : ∀ {cls : GateClass} {nm : String} {ts : List ℕ} {c : Ctl} {nz : Option (List NoiseInstance)},
      (∀ p x, cls ≠ .parametric p x) → (∀ p x, cls ≠ .phase p x) → ¬ ∃ p, (⟨cls, nm, ts, c, nz, false⟩ : Gate).Uses p := by
    rintro cls nm ts c nz h1 h2 ⟨p, hp⟩
    unfold Gate.Uses at hp
    rcases cls with _ | ⟨q, s⟩ | ⟨q, s⟩ | s
    · exact hp
    · exact h1 _ _ rfl
    · exact h2 _ _ rfl
    · exact hp
  cases h with
  | I ts c nz => exact fixed (.I ts c nz) (none (by simp) (by simp))
  | X ts c nz => exact fixed (.X ts c nz) (none (by simp) (by simp))
  | Y ts c nz => exact fixed (.Y ts c nz) (none (by simp) (by simp))
  | Z ts c nz => exact fixed (.Z ts c nz) (none (by simp) (by simp))
  | H ts c nz => exact fixed (.H ts c nz) (none (by simp) (by simp))
  | S ts c nz => exact fixed (.S ts c nz) (none (by simp) (by simp))
  | T ts c nz => exact fixed (.T ts c nz) (none (by simp) (by simp))
  | SWAP ts c nz => exact fixed (.SWAP ts c nz) (none (by simp) (by simp))
  | @RX p x s _ ts c nz hp h =>
    cases hp with
    | num => exact fixed (.RX ts c nz (.num _) h) (by simp [Gate.Uses])
    | @str q _ _ =>
      have := hn q rfl
      exact .inl ⟨by simp [Gate.operator, Gate.unitary, Gate.generator, operationsDict, parseValues, Values.get, this, bind,
        Except.bind], q, rfl⟩
  | @RY p x s _ ts c nz hp h =>
    cases hp with
    | num => exact fixed (.RY ts c nz (.num _) h) (by simp [Gate.Uses])
    | @str q _ _ =>
      have := hn q rfl
      exact .inl ⟨by simp [Gate.operator, Gate.unitary, Gate.generator, operationsDict, parseValues, Values.get, this, bind,
        Except.bind], q, rfl⟩
  | @RZ p x s _ ts c nz hp h =>
    cases hp with
    | num => exact fixed (.RZ ts c nz (.num _) h) (by simp [Gate.Uses])
    | @str q _ _ =>
      have := hn q rfl
      exact .inl ⟨by simp [Gate.operator, Gate.unitary, Gate.generator, operationsDict, parseValues, Values.get, this, bind,
        Except.bind], q, rfl⟩
  | @PHASE p x s _ ts c nz hp h =>
    cases hp with
    | num => exact fixed (.PHASE ts c nz (.num _) h) (by simp [Gate.Uses])
    | @str q _ _ =>
      have := hn q rfl
      exact .inl ⟨by simp [Gate.operator, Gate.unitary, Gate.generator, operationsDict, parseValues, Values.get, this, bind,
        Except.bind], q, rfl⟩

/-- **C38 is false of the code for the other modes**, for all circuits: if some gate takes its angle from a name (other than
`circuit` and `observables` themselves), then with nested values GPSR, ADJOINT and AD with shots raise KeyError, for every
state and every list of observables.  The circuit and its dictionary `vc` fit together, so that AD without shots accepts
them (`C38_nested_partial`). -/
theorem C38_named_refused (eigh : Eigh) (draw : Draw) {vc vo : Values} {circuit : Op} (hp : circuit.Plain)
    (hg : ∀ g ∈ circuit.gates, ∃ s, g.Is vc s) (hn : ∀ g ∈ circuit.gates, ∀ p, g.Uses p → p ≠ "circuit" ∧ p ≠ "observables")
    (hu : ∃ g ∈ circuit.gates, ∃ p, g.Uses p) (st : State) (o : Observable) (obs : List Observable) {mode : DiffMode} {k : ℤ}
    (hm : (mode = .gpsr ∧ 0 ≤ k) ∨ (mode = .ad ∧ 0 < k) ∨ (mode = .adjoint ∧ ∃ a, st = .vec a)) :
    expectation so eigh draw st circuit (o :: obs) [("circuit", .dict vc), ("observables", .dict vo)] mode k
      = .error .keyError := by
  set values : Values := [("circuit", .dict vc), ("observables", .dict vo)] with hvals
  have hl : ∀ g ∈ circuit.gates, ∀ p, g.Uses p → values.lookup p = none := by
    intro g hg p hp
    obtain ⟨h1, h2⟩ := hn g hg p hp
    simp only [hvals, List.lookup, beq_eq_false_iff_ne.2 h1, beq_eq_false_iff_ne.2 h2]
  have h : applyOps so st circuit.iter values = .error .keyError := by
    rw [applyOps, hp.iter, opsToGates_prim]
    obtain ⟨g, hgm, p, hgp⟩ := hu
    refine applyGates_error so st (fun g hgm => ?_) ⟨g, hgm, ?_⟩ false true
    · obtain ⟨s, hs⟩ := hg g hgm
      rcases hs.missing (hl g hgm) with h | h
      · exact .inr h.1
      · exact .inl h.1
    · obtain ⟨s, hs⟩ := hg g hgm
      rcases hs.missing (hl g hgm) with h | h
      · exact h.1
      · exact absurd ⟨p, hgp⟩ h.2
  rcases hm with ⟨rfl, hk⟩ | ⟨rfl, hk⟩ | ⟨rfl, a, rfl⟩
  · by_cases h0 : k = 0
    · subst h0
      simp only [expectation, lt_irrefl, if_false, if_true, analyticalExpectation, List.mapM_cons, h, bind, Except.bind]
    · simp only [expectation, not_lt.2 hk, if_false, h0, finiteShots, h, bind, Except.bind]
  · simp only [expectation, not_lt.2 hk.le, if_false, hk.ne', finiteShots, h, bind, Except.bind]
  · simp only [expectation, adjointExpectation, List.mapM_cons, adjointSingle, h, bind, Except.bind]

/-- Non-vacuity: `[H(0), RX("a", 0)]`. -/
example : ∃ circuit : Op, circuit.Plain ∧ (∀ g ∈ circuit.gates, ∃ s, g.Is [("a", .num 1)] s) ∧
    (∀ g ∈ circuit.gates, ∀ p, g.Uses p → p ≠ "circuit" ∧ p ≠ "observables") ∧ ∃ g ∈ circuit.gates, ∃ p, g.Uses p := by
  refine ⟨mkSeq [.prim (Gate.H (.int 0)), .prim (Gate.RX (.str "a") (.int 0))], .seq (.cons (.prim _) (.cons (.prim _) .nil)), ?_, ?_, ?_⟩
  · simp only [mkSeq, Op.gates, Op.gatesList, List.append_nil, List.cons_append, List.nil_append, List.mem_cons, List.not_mem_nil,
      or_false, forall_eq_or_imp, forall_eq]
    exact ⟨⟨_, .H _ _ _⟩, _, .RX _ _ _ (.str rfl) rfl⟩
  · simp [mkSeq, Op.gates, Op.gatesList, Gate.H, Gate.RX, mkGate, Gate.Uses]
  · simp [mkSeq, Op.gates, Op.gatesList, Gate.H, Gate.RX, mkGate, Gate.Uses]

/-! ### C42 -/

theorem gatesMat_commute {gs hs : List Gate}
    (h : ∀ g ∈ gs, ∀ k ∈ hs, Commute (g.mat n .unitary values) (k.mat n .unitary values)) :
    Commute (gatesMat n .unitary values gs) (gatesMat n .unitary values hs) := by
  have one : ∀ (A : Matrix (Lab n) (Lab n) ℂ) (hs : List Gate), (∀ k ∈ hs, Commute A (k.mat n .unitary values)) →
      Commute A (gatesMat n .unitary values hs) := by
    intro A hs h
    induction hs with
    | nil => exact Commute.one_right _
    | cons k hs ih =>
      rw [gatesMat]
      exact (ih fun k hk => h k (by simp [hk])).mul_right (h k (by simp))
  induction gs with
  | nil => exact Commute.one_left _
  | cons g gs ih =>
    rw [gatesMat]
    exact (ih fun g hg => h g (by simp [hg])).mul_left (one _ _ (h g (by simp)))

theorem Op.Proper.pair {a b : Op} {nss nss' : List (List StdNoise)} (ha : a.Proper n values nss) (hb : b.Proper n values nss') :
    (mkSeq [a, b]).Proper n values (nss ++ nss') ∧ (mkSeq [a, b]).gates = a.gates ++ b.gates := by
  have hg : (mkSeq [a, b]).gates = a.gates ++ b.gates := by
    simp [mkSeq, Op.gates, Op.gatesList]
  refine ⟨⟨.seq (.cons ha.plain (.cons hb.plain .nil)), ?_, ?_, ?_⟩, hg⟩
  · rw [hg]; simp [ha.ne]
  · rw [hg]
    intro g hgm
    exact (List.mem_append.1 hgm).elim (ha.gates g) (hb.gates g)
  · rw [hg]; exact List.rel_append ha.noise hb.noise

/-- **C42** (circuits): two circuits, of noisy or noiseless gates and Hamiltonian evolutions with Hermitian matrices, that have
no qubit in common can be run in either order, on state vectors and density matrices. -/
theorem C42_circuits {a b : Op} {nss nss' : List (List StdNoise)} (ha : a.Proper n values nss) (hb : b.Proper n values nss')
    (hd : ∀ g ∈ a.gates, ∀ h ∈ b.gates, ∀ q ∈ ctlInts g.control ++ g.target, q ∉ ctlInts h.control ++ h.target)
    {st : State} (hst : st.On n) :
    run so (mkSeq [a, b]) st values = run so (mkSeq [b, a]) st values ∧ ∃ r, run so (mkSeq [a, b]) st values = .ok (some r) := by
  obtain ⟨hab, gab⟩ := ha.pair hb
  obtain ⟨hba, gba⟩ := hb.pair ha
  obtain ⟨r, h1, -, h2⟩ := circuit_run so hab.circuit hst
  obtain ⟨r', h1', -, h2'⟩ := circuit_run so hba.circuit hst
  refine ⟨?_, r, h1⟩
  rw [h1, h1']
  congr 2
  have hnoise : (∀ g ∈ a.gates ++ b.gates, g.noise = none) ↔ ∀ g ∈ b.gates ++ a.gates, g.noise = none := by
    simp only [List.mem_append]
    exact ⟨fun h g hg => h g hg.symm, fun h g hg => h g hg.symm⟩
  have hmat : gatesMat n .unitary values (a.gates ++ b.gates) = gatesMat n .unitary values (b.gates ++ a.gates) := by
    rw [gatesMat_append, gatesMat_append]
    refine (gatesMat_commute fun g hg h hh => ?_).eq
    obtain ⟨⟨U, hU, -⟩, hv⟩ := (hb.gates g hg).ok
    obtain ⟨⟨V, hV, -⟩, hv'⟩ := (ha.gates h hh).ok
    show _ * _ = _ * _
    simp only [Gate.mat, hU, hV]
    refine gateMat_comm_disjoint _ _ ⟨List.nodup_append.2 ⟨hv.dims.nodup, hv'.dims.nodup, ?_⟩, ?_⟩
    · rintro x hx y hy rfl; exact hd h hh g hg x hy hx
    · intro q hq
      rcases List.mem_append.1 hq with h | h
      · exact hv.dims.lt q h
      · exact hv'.dims.lt q h
  have hrun : ∀ ρ, noisyRun n .unitary values ((a.gates ++ b.gates).zip (nss ++ nss')) ρ
      = noisyRun n .unitary values ((b.gates ++ a.gates).zip (nss' ++ nss)) ρ := by
    intro ρ
    rw [List.zip_append ha.noise.length_eq, List.zip_append hb.noise.length_eq, noisyRun_append, noisyRun_append]
    refine KrausOn.comm (S := b.gates.flatMap fun h => ctlInts h.control ++ h.target)
      (S' := a.gates.flatMap fun h => ctlInts h.control ++ h.target) ?_
      (krausOn_noisyRun hb.ne hb.gates hb.noise ?_) (krausOn_noisyRun ha.ne ha.gates ha.noise ?_) ρ
    · intro q hq hq'
      obtain ⟨h, hh, h3⟩ := List.mem_flatMap.1 hq
      obtain ⟨g, hg, h4⟩ := List.mem_flatMap.1 hq'
      exact hd g hg h hh q h4 h3
    · exact fun g hg q hq => List.mem_flatMap.2 ⟨g, hg, hq⟩
    · exact fun g hg q hq => List.mem_flatMap.2 ⟨g, hg, hq⟩
  rw [gab] at h2
  rw [gba] at h2'
  cases st <;> cases r <;> cases r' <;> try exact h2.elim
  all_goals try exact h2'.elim
  · rw [ket_ext h2.2.1 h2'.2.1 (by rw [h2.2.2, h2'.2.2, hmat])]
  · exact absurd (hnoise.1 h2.1) h2'.1
  · exact absurd (hnoise.2 h2'.1) h2.1
  · rw [dm_ext h2.2.1 h2'.2.1 (by rw [h2.2.2, h2'.2.2, hrun])]
  · rw [dm_ext h2.1 h2'.1 (by rw [h2.2, h2'.2, hrun])]

/-- Non-vacuity: a noisy `H(0)` and a Hamiltonian evolution on qubit 1. -/
example : ∃ a b : Op, a.Proper 2 [("hamiltonian", .arr matX), ("time_evolution", .num 3)] [[.bitFlip (1 / 4)]] ∧
    b.Proper 2 [("hamiltonian", .arr matX), ("time_evolution", .num 3)] [[]] ∧
    ∀ g ∈ a.gates, ∀ h ∈ b.gates, ∀ q ∈ ctlInts g.control ++ g.target, q ∉ ctlInts h.control ++ h.target := by
  refine ⟨.prim (Gate.H (.int 0) (noise := some [⟨.bitFlip, .float (1 / 4)⟩])), .prim (Gate.HamiltonianEvolution (.int 1)),
    ⟨.prim _, by simp [Op.gates], ?_, ?_⟩, ⟨.prim _, by simp [Op.gates], ?_, ?_⟩, ?_⟩
  · simp only [Op.gates, List.mem_singleton, forall_eq]
    exact .inl ⟨.H, .H _ _ _, rfl, ⟨.inr (.inl rfl), by decide⟩⟩
  · exact .cons (.some rfl (.cons (.bitFlip (by norm_num)) .nil) (.inr ⟨0, rfl⟩)) .nil
  · simp only [Op.gates, List.mem_singleton, forall_eq]
    exact .inr ⟨_, _, matX, 3, rfl, ⟨rfl, rfl⟩, ⟨rfl, rfl⟩, matX_herm, .inr (.inl rfl), by decide⟩
  · exact .cons (.none rfl) .nil
  · simp only [Op.gates, List.mem_singleton, forall_eq]
    decide

end Verif
