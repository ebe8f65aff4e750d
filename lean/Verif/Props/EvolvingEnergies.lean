import Verif.Props.EvolvingCircuits
import Verif.Props.GateObs
import Verif.Props.Fit

/-!
# C71, C79 and C83 for circuits with Hamiltonian evolutions
-/

set_option autoImplicit false

namespace Verif
open NDArray
open scoped ComplexOrder

variable {n : ℕ} {values : Values} (so : SetOrder) (eigh : Eigh) (draw : Draw)

/-- `run` on a circuit with Hamiltonian evolutions keeps physical states physical; `apply_gates` returns the same state. -/
theorem Op.Proper.physical {circuit : Op} {nss : List (List StdNoise)} (hc : circuit.Proper n values nss) {st : State}
    (hst : st.On n) (hp : (st.mat n).PosSemidef) :
    ∃ r, run so circuit st values = .ok (some r) ∧ applyOps so st circuit.iter values = .ok r ∧ r.On n ∧
      (r.mat n).PosSemidef ∧ (r.mat n).trace = (st.mat n).trace := by
  obtain ⟨r, h1, h2, h3⟩ := circuit_run so hc.circuit hst
  obtain ⟨r', k1, -, k3, -, k5⟩ := C11_evolution so hc hst
  obtain rfl : r = r' := by rw [h1] at k1; cases k1; rfl
  exact ⟨r, h1, h2, h3.on, k5 hp, k3⟩

/-- **C71** (variational bound, with Hamiltonian evolutions): the same bound as `C71_bound` for circuits that also contain, controlled or
not, evolutions with Hermitian matrices. -/
theorem C71_evolution {circuit : Op} {nss : List (List StdNoise)} (hc : circuit.Proper n values nss) (hf : values.Flat) {st : State}
    (hst : st.On n) (hp : (st.mat n).PosSemidef) (ht : (st.mat n).trace = 1) {o : Observable} {O : Matrix (Lab n) (Lab n) ℂ}
    (ho : o.Simple so n values O) (hO : O.IsHermitian) :
    ∃ x, expectation so eigh draw st circuit [o] values .ad 0 = .ok [x] ∧
      expectation so eigh draw st circuit [o] values .gpsr 0 = .ok [x] ∧
      ∀ lo hi : ℝ, (∀ (y : ℝ) (v : Lab n → ℂ), v ≠ 0 → O.mulVec v = (y : ℂ) • v → lo ≤ y ∧ y ≤ hi) → lo ≤ x ∧ x ≤ hi := by
  obtain ⟨r, -, h2, h3, h4, h5⟩ := hc.physical so hst hp
  rw [ht] at h5
  have hx := ad_of_single so eigh draw hf.splits h2 (obs := [o]) (by simp) (.cons (ho.single so h3) .nil)
  refine ⟨_, hx, by rw [← C20_ad_gpsr so eigh draw hf]; exact hx, fun lo hi hb => ⟨?_, ?_⟩⟩
  · exact expVal_lower hO h4 h5 fun y v hv hy => (hb y v hv hy).1
  · exact expVal_upper hO h4 h5 fun y v hv hy => (hb y v hv hy).2

/-- **C71** (shots, with Hamiltonian evolutions): every finite-shot estimate lies between the bounds too. -/
theorem C71_evolution_shots {circuit : Op} {nss : List (List StdNoise)} (hc : circuit.Proper n values nss) {st : State}
    (hst : st.On n) (hp : (st.mat n).PosSemidef) (ht : (st.mat n).trace = 1) {o : Observable} {O : Matrix (Lab n) (Lab n) ℂ}
    (hm : o.Means (StdLeaf n values) values O) (ho : Op.ListedSum (StdLeaf n values) values o.ops O) (hO : O.IsHermitian)
    {k : ℤ} (hk : 1 ≤ k) (hd : ∀ j, draw k.toNat j ∈ Set.Ico (0 : ℝ) 1) :
    ∃ x, expectation so eigh draw st circuit [o] values .ad k = .ok [x] ∧
      ∀ lo hi : ℝ, (∀ (y : ℝ) (v : Lab n → ℂ), v ≠ 0 → O.mulVec v = (y : ℂ) • v → lo ≤ y ∧ y ≤ hi) → lo ≤ x ∧ x ≤ hi := by
  obtain ⟨r, h1, h2, h3⟩ := C29_unbiased_partial so eigh hc.circuit hst hm ho hO
  obtain ⟨q, k1, -, -, k4, k5⟩ := hc.physical so hst hp
  obtain rfl : q = r := by rw [h1] at k1; cases k1; rfl
  obtain ⟨est, e1, -, e3⟩ := h3 k4 (k5.trans ht) k .ad hk (.inl rfl)
  exact ⟨_, e1 draw, fun lo hi hb => e3 _ hd lo hi hb⟩

/-- Non-vacuity: the energy `Z(0)` after a controlled evolution with the Hamiltonian `X`. -/
example : (gateCircuit 2 [Gate.H (.int 1), Gate.HamiltonianEvolution (.int 0) (.int 1)]).Proper 2
      [("hamiltonian", .arr matX), ("time_evolution", .num 3)] [[], []] ∧
    (Observable.new (.list [.prim (Gate.Z (.int 0))])).Simple so 2 [("hamiltonian", .arr matX), ("time_evolution", .num 3)]
      (stdMat 2 (Gate.Z (.int 0)) .Z) := by
  refine ⟨⟨gateCircuit_plain _ _, by simp [gateCircuit_gates], ?_, ?_⟩, single_simple so ⟨.Z _ _ _, rfl, ⟨.inr (.inl rfl), by decide⟩⟩ rfl rfl⟩
  · rw [gateCircuit_gates]
    intro g hg
    simp only [List.mem_cons, List.not_mem_nil, or_false] at hg
    rcases hg with rfl | rfl
    · exact .inl ⟨.H, .H _ _ _, rfl, ⟨.inr (.inl rfl), by decide⟩⟩
    · exact .inr ⟨.int 0, .int 1, matX, 3, rfl, ⟨rfl, rfl⟩, ⟨rfl, rfl⟩, matX_herm, .inr (.inr ⟨[1], rfl⟩), by decide⟩
  · rw [gateCircuit_gates]
    exact .cons (.none rfl) (.cons (.none rfl) .nil)

/-- **C83** (with Hamiltonian evolutions): after any circuit, evolutions included, the exact expectation of `Observable([R(θ, t)])` is
`cos(θ/2)` times the trace of the initial state. -/
theorem C83_evolution {vc vo : Values} (hs : values.Splits vc vo) {circuit : Op} {nss : List (List StdNoise)}
    (hc : circuit.Proper n vc nss) {st : State} (hst : st.On n)
    (hp : (st.mat n).PosSemidef) {g : Gate} {s : StdGate} {θ : ℝ} (hθ : s.IsRotation θ) (hg : g.Std n vo s) (hgz : g.noise = none)
    (hctl : ctlInts g.control = []) :
    expectation so eigh draw st circuit [Observable.new (.list [.prim g])] values .ad 0
      = .ok [Real.cos (θ / 2) * (st.mat n).trace.re] := by
  obtain ⟨r, h1, h2, h3, h4, h5⟩ := hc.physical so hst hp
  have hl : g.qubits.length = 1 := by
    have := hg.arity
    rw [Gate.qubits, hctl, List.nil_append, this]
    rcases hθ with rfl | rfl | rfl <;> rfl
  refine ad_of_single so eigh draw hs h2 (by simp) (.cons ?_ .nil)
  rw [(single_simple so hg hgz hl).single so h3, expVal_diag (.inl ⟨θ, hθ, rfl, rfl⟩) hg h4.isHermitian, h5, hctl]
  have : r.probOnes n [] = (st.mat n).trace.re := by
    rw [State.probOnes, ← h5, Matrix.trace, Complex.re_sum]
    exact Finset.sum_congr rfl fun b _ => by simp [State.prob]
  rw [this]
  congr 2; ring

/-- `g` is a noiseless Hamiltonian evolution, and the dictionary holds a time and a `2^k × 2^k` matrix; nothing is said about the
qubits. -/
def Gate.EvolvesSized (values : Values) (k : ℕ) (g : Gate) : Prop :=
  ∃ tg c H t, g = Gate.HamiltonianEvolution tg c ∧ EvolutionValues values H t ∧ IsOp k H ∧ WfCtl (parseControl c)

/-- A public gate fits an `n`-qubit register: as many targets as its matrix needs, and all qubits distinct and below `n`. -/
def Gate.FitsAny (n : ℕ) (values : Values) (g : Gate) : Prop :=
  ((∃ s, g.Is values s ∧ g.target.length = s.arity) ∨ g.EvolvesSized values g.target.length) ∧
    (ctlInts g.control ++ g.target).Nodup ∧ ∀ q ∈ ctlInts g.control ++ g.target, q < n

theorem Gate.EvolvesSized.sized {g : Gate} {k : ℕ} (h : g.EvolvesSized values k) : g.Sized .unitary values := by
  obtain ⟨tg, c, H, t, rfl, hv, hH, hc⟩ := h
  obtain ⟨U, h1, h2, -⟩ := hamEvo_unitary hH hv tg c
  exact ⟨⟨_, U, h1, h2⟩, hc⟩

theorem isOp_inj {k l : ℕ} {A : NDArray ℂ} (h : IsOp k A) (h' : IsOp l A) : k = l := by
  have := h.shape
  rw [h'.shape] at this
  exact (Nat.pow_right_injective le_rfl (List.cons.inj this).1).symm

theorem Gate.EvolvesSized.ok_iff {g : Gate} {k : ℕ} (h : g.EvolvesSized values k) :
    g.Ok n .unitary values ↔ g.FitsAny n values := by
  have hh := h
  obtain ⟨tg, c, H, t, rfl, hv, hH, hc⟩ := h
  obtain ⟨U, h1, h2, -⟩ := hamEvo_unitary hH hv tg c
  constructor
  · rintro ⟨⟨V, e1, e2⟩, hd⟩
    change (Gate.HamiltonianEvolution tg c).unitary values = .ok V at e1
    rw [h1] at e1; cases e1
    obtain rfl := isOp_inj h2 e2
    exact ⟨.inr hh, hd.dims.nodup, hd.dims.lt⟩
  · rintro ⟨ha, hd, hl⟩
    rcases ha with ⟨s, hs, -⟩ | ⟨tg', c', H', t', e, hv', hH', -⟩
    · cases hs
    · obtain rfl : H = H' := by
        have := hv.1.symm.trans hv'.1
        cases this; rfl
      exact (hamEvo_ok hv hH' hc ⟨hd, hl⟩).1

theorem Gate.Standard.ok_iff_any {g : Gate} (h : g.Standard values) : g.Ok n .unitary values ↔ g.FitsAny n values := by
  rw [h.ok_iff]
  constructor
  · rintro ⟨h1, h2⟩
    exact ⟨.inl h1, h2⟩
  · rintro ⟨h1 | ⟨tg, c, H, t, rfl, -⟩, h2⟩
    · exact ⟨h1, h2⟩
    · obtain ⟨⟨s, hs⟩, -⟩ := h
      cases hs

/-- **C79** (Hamiltonian evolutions): a circuit of noiseless standard gates and Hamiltonian evolutions can be run on an `n`-qubit state
vector exactly when every gate fits the register; for an evolution this means that its matrix is as large as its targets need. -/
theorem C79_evolution {circuit : Op} (hp : circuit.Plain)
    (h : ∀ g ∈ circuit.gates, g.Standard values ∨ ∃ k, g.EvolvesSized values k)
    (hnz : ∀ g ∈ circuit.gates, g.noise = none) {st : NDArray ℂ} (hst : IsKet n st) :
    (∃ r, run so circuit (.vec st) values = .ok r) ↔ ∀ g ∈ circuit.gates, g.FitsAny n values := by
  have hs : ∀ g ∈ circuit.gates, g.Sized .unitary values := fun g hg => by
    rcases h g hg with h | ⟨k, h⟩
    · exact h.sized
    · exact h.sized
  have hi : ∀ g ∈ circuit.gates, g.Ok n .unitary values ↔ g.FitsAny n values := fun g hg => by
    rcases h g hg with h | ⟨k, h⟩
    · exact h.ok_iff_any
    · exact h.ok_iff
  rw [run, hp.call so]
  constructor
  · rintro ⟨r, hr⟩ g hg
    exact (hi g hg).1 (ok_of_callSeq so hs hnz hst hr g hg)
  · intro hf
    by_cases hne : circuit.gates = []
    · rw [hne]; exact ⟨_, rfl⟩
    · have hn : List.Forall₂ Gate.NoiseIs circuit.gates (circuit.gates.map fun _ => []) := by
        rw [List.forall₂_map_right_iff, List.forall₂_same]
        exact fun g hg => .none (hnz g hg)
      obtain ⟨r, h1, -⟩ := callSeq_evolved so hne (fun g hg => (hi g hg).2 (hf g hg)) hn
        (s := .vec st) hst
      exact ⟨_, h1⟩

/-- Non-vacuity: with a one-qubit Hamiltonian in the dictionary, an evolution of qubit 0 fits two qubits, and an evolution of the qubits
0 and 1 does not. -/
example : (Gate.HamiltonianEvolution (.int 0)).FitsAny 2 [("hamiltonian", .arr matX), ("time_evolution", .num 3)] ∧
    ¬ (Gate.HamiltonianEvolution (.tuple [0, 1])).FitsAny 2 [("hamiltonian", .arr matX), ("time_evolution", .num 3)] := by
  refine ⟨⟨.inr ⟨.int 0, .tuple [.none], matX, 3, rfl, ⟨rfl, rfl⟩, ⟨rfl, rfl⟩, .inr (.inl rfl)⟩, by decide, by decide⟩, ?_⟩
  rintro ⟨⟨s, hs, -⟩ | ⟨tg, c, H, t, -, hv, hH, -⟩, -⟩
  · cases hs
  · obtain rfl : matX = H := by
      have := hv.1
      cases this; rfl
    exact absurd (isOp_inj (show IsOp 1 matX from ⟨rfl, rfl⟩) hH) (by decide)

end Verif
