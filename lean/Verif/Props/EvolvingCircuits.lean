import Verif.Props.Heisenberg

/-!
# Circuits that contain Hamiltonian evolutions (C11, C43)

`C11_physical`, `C11_run` and `C43_locality` are about the gates of `primitives`.  Here: circuits that also contain
`HamiltonianEvolution` with a Hermitian matrix, and why the matrix has to be Hermitian.
-/

set_option autoImplicit false

namespace Verif
open NDArray
open scoped ComplexOrder
variable {n : ℕ} {values : Values} (so : SetOrder)

/-- A Hamiltonian evolution on distinct qubits of the register, with a Hermitian matrix of the right size in `values`. -/
structure Gate.Evolves (n : ℕ) (values : Values) (g : Gate) (tg : TArg) (c : CArg) (H : NDArray ℂ) (t : ℝ) : Prop where
  eq : g = Gate.HamiltonianEvolution tg c
  vals : EvolutionValues values H t
  op : IsOp (parseTarget tg).length H
  herm : (hamMat (parseTarget tg).length H).IsHermitian
  ctl : WfCtl (parseControl c)
  dims : ValidDims n (ctlInts (parseControl c) ++ parseTarget tg)

/-- A public gate on qubits of the register: a gate of `primitives` (noisy or not) or a Hamiltonian evolution. -/
def Gate.Proper (n : ℕ) (values : Values) (g : Gate) : Prop :=
  (∃ s, g.Std n values s) ∨ ∃ tg c H t, g.Evolves n values tg c H t

theorem Gate.Proper.ok {g : Gate} (h : g.Proper n values) : g.Ok n .unitary values := by
  rcases h with ⟨s, h⟩ | ⟨tg, c, H, t, h⟩
  · exact h.ok
  · rw [h.eq]; exact (hamEvo_ok h.vals h.op h.ctl h.dims).1

theorem Gate.Proper.krausOn {g : Gate} (h : g.Proper n values) {ns : List StdNoise} (hn : g.NoiseIs ns) {S : List ℕ}
    (hS : ∀ q ∈ ctlInts g.control ++ g.target, q ∈ S) :
    KrausOn n S (noisyStep n (g.mat n .unitary values) (g.target.headD 0) ns) := by
  rcases h with ⟨s, h⟩ | ⟨tg, c, H, t, h⟩
  · rw [h.mat]; exact krausOn_step h hn hS
  · obtain rfl := h.eq
    cases hn with
    | some hz _ _ => cases hz
    | none _ =>
      rw [(hamEvo_ok h.vals h.op h.ctl h.dims).2]
      exact krausOn_unitary h.dims hS (C40_unitary h.herm t rfl h.dims).2

theorem krausOn_noisyRun {gs : List Gate} {nss : List (List StdNoise)} (hne : gs ≠ []) (h : ∀ g ∈ gs, g.Proper n values)
    (hn : List.Forall₂ Gate.NoiseIs gs nss) {S : List ℕ} (hS : ∀ g ∈ gs, ∀ q ∈ ctlInts g.control ++ g.target, q ∈ S) :
    KrausOn n S (noisyRun n .unitary values (gs.zip nss)) := by
  have key : ∀ {gs : List Gate} {nss : List (List StdNoise)}, List.Forall₂ Gate.NoiseIs gs nss → (∀ g ∈ gs, g.Proper n values) →
      (∀ g ∈ gs, ∀ q ∈ ctlInts g.control ++ g.target, q ∈ S) → ∀ f, KrausOn n S f →
      KrausOn n S fun ρ => noisyRun n .unitary values (gs.zip nss) (f ρ) := by
    intro gs nss hn
    induction hn with
    | nil => exact fun _ _ f hf => hf
    | @cons g ns gs nss hg _ ih =>
      intro h hS f hf
      exact ih (fun g hg => h g (by simp [hg])) (fun g hg => hS g (by simp [hg])) _
        (((h g (by simp)).krausOn hg (hS g (by simp))).comp hf)
  cases hn with
  | nil => exact absurd rfl hne
  | @cons g ns gs nss hg hn =>
    exact key hn (fun g hg => h g (by simp [hg])) (fun g hg => hS g (by simp [hg])) _
      ((h g (by simp)).krausOn hg (hS g (by simp)))

/-- A tree of sequences and circuits of public gates, Hamiltonian evolutions included. -/
structure Op.Proper (n : ℕ) (values : Values) (o : Op) (nss : List (List StdNoise)) : Prop where
  plain : o.Plain
  ne : o.gates ≠ []
  gates : ∀ g ∈ o.gates, g.Proper n values
  noise : List.Forall₂ Gate.NoiseIs o.gates nss

theorem Op.Proper.circuit {o : Op} {nss : List (List StdNoise)} (h : o.Proper n values nss) : o.Circuit n values nss :=
  ⟨h.plain, h.ne, fun g hg => (h.gates g hg).ok, h.noise⟩

/-- **C11** (Hamiltonian evolutions): `run` on a circuit of noisy or noiseless gates and Hamiltonian evolutions with Hermitian matrices
preserves trace, Hermiticity and positivity. -/
theorem C11_evolution {circuit : Op} {nss : List (List StdNoise)} (h : circuit.Proper n values nss) {st : State} (hst : st.On n) :
    ∃ r, run so circuit st values = .ok (some r) ∧ r.On n ∧ (r.mat n).trace = (st.mat n).trace ∧
      ((st.mat n).IsHermitian → (r.mat n).IsHermitian) ∧ ((st.mat n).PosSemidef → (r.mat n).PosSemidef) := by
  obtain ⟨r, h1, -, h2⟩ := circuit_run so h.circuit hst
  have hk := krausOn_noisyRun (S := circuit.gates.flatMap fun g => ctlInts g.control ++ g.target) h.ne h.gates h.noise
    fun g hg q hq => List.mem_flatMap.2 ⟨g, hg, hq⟩
  refine ⟨r, h1, h2.on, ?_, ?_, ?_⟩ <;> rw [h2.mat h.noise]
  · exact hk.trace _
  · exact hk.hermitian
  · exact hk.posSemidef

/-- Non-vacuity: a noisy rotation and a controlled evolution with the Hamiltonian `X` on a register of three qubits. -/
example : (gateCircuit 3 [Gate.RX (.str "a") (.int 1) (.tuple [.none]) (some [⟨.bitFlip, .float (1 / 3)⟩]),
      Gate.HamiltonianEvolution (.int 2) (.int 0)]).Proper 3
    [("a", .num 5), ("hamiltonian", .arr matX), ("time_evolution", .num 3)] [[.bitFlip (1 / 3)], []] := by
  refine ⟨gateCircuit_plain _ _, by simp [gateCircuit_gates], ?_, ?_⟩
  · rw [gateCircuit_gates]
    intro g hg
    simp only [List.mem_cons, List.not_mem_nil, or_false] at hg
    rcases hg with rfl | rfl
    · exact .inl ⟨.RX 5, .RX _ _ _ (.str rfl) (by simp), rfl, ⟨.inr (.inl rfl), by decide⟩⟩
    · exact .inr ⟨.int 2, .int 0, matX, 3, rfl, ⟨rfl, rfl⟩, ⟨rfl, rfl⟩, matX_herm, .inr (.inr ⟨[0], rfl⟩), by decide⟩
  · rw [gateCircuit_gates]
    exact .cons (.some rfl (.cons (.bitFlip (by norm_num)) .nil) (.inr ⟨1, rfl⟩)) (.cons (.none rfl) .nil)

/-- **C43** (Hamiltonian evolutions): `run` on such a circuit does not change the joint distribution of the qubits that no gate touches. -/
theorem C43_evolution {circuit : Op} {nss : List (List StdNoise)} (h : circuit.Proper n values nss) {S : List ℕ}
    (hS : ∀ g ∈ circuit.gates, ∀ q ∈ ctlInts g.control ++ g.target, q ∈ S) {st : State} (hst : st.On n) (a : Lab n) :
    ∃ r, run so circuit st values = .ok (some r) ∧
      ∑ b with Lab.AgreeOff S a b, r.mat n b b = ∑ b with Lab.AgreeOff S a b, st.mat n b b := by
  obtain ⟨r, h1, -, h2⟩ := circuit_run so h.circuit hst
  exact ⟨r, h1, by rw [h2.mat h.noise, (krausOn_noisyRun h.ne h.gates h.noise hS).marginal]⟩

theorem isometry_of_trace {U : Matrix (Lab n) (Lab n) ℂ} (h : ∀ ρ, (conjBy U ρ).trace = ρ.trace) : U.conjTranspose * U = 1 := by
  ext i j
  have := h (Matrix.single j i 1)
  rw [conjBy, Matrix.trace_mul_comm, ← mul_assoc, Matrix.trace_mul_comm, Matrix.trace_single_mul, one_smul] at this
  rw [this, Matrix.one_apply]
  by_cases hij : i = j
  · subst hij; simp [Matrix.trace_single_eq_same]
  · simp [Matrix.trace_single_eq_of_ne _ _ _ (Ne.symm hij), hij]

/-- Different matrices on the targets are different matrices on the register. -/
theorem gateMat_inj {U V : ℕ → ℕ → ℂ} {ts : List ℕ} (hv : ValidDims n ts) (h : gateMat n U ts [] = gateMat n V ts []) {i j : ℕ}
    (hi : i < 2 ^ ts.length) (hj : j < 2 ^ ts.length) : U i j = V i j := by
  obtain ⟨s, hs, rfl⟩ : ∃ s, IsBits ts.length s ∧ binVal s = i := exists_bits hi
  obtain ⟨s', hs', rfl⟩ : ∃ s, IsBits ts.length s ∧ binVal s = j := exists_bits hj
  have := congrFun (congrFun h (Lab.override (fun _ => 0) ts s)) (Lab.override (fun _ => 0) ts s')
  have ha : Lab.AgreeOff ts (Lab.override (fun _ => 0 : Lab n) ts s) (Lab.override (fun _ => 0 : Lab n) ts s') := fun q hq => by
    rw [← Lab.agreeOff_override _ ts s q hq, ← Lab.agreeOff_override _ ts s' q hq]
  rwa [gateMat_nil_apply, gateMat_nil_apply, if_pos ha, if_pos ha, Lab.idx_override _ hs hv.nodup hv.lt,
    Lab.idx_override _ hs' hv.nodup hv.lt] at this

/-- **C11** (why the matrix has to be Hermitian): a Hamiltonian evolution preserves the trace of every density matrix for every time
exactly when its matrix is Hermitian. -/
theorem C11_evolution_iff {tg : TArg} {H : NDArray ℂ} (hop : IsOp (parseTarget tg).length H) (hd : ValidDims n (parseTarget tg)) :
    (∀ (t : ℝ) (ρ r : DensityMatrix ℂ), IsDM n ρ → applyGates so (.dm ρ) (.single (Gate.HamiltonianEvolution tg))
        [("hamiltonian", .arr H), ("time_evolution", .num t)] = .ok (.dm r) → (dmMat n r.array).trace = (dmMat n ρ.array).trace)
      ↔ (hamMat (parseTarget tg).length H).IsHermitian := by
  have hrun : ∀ (t : ℝ) (ρ : DensityMatrix ℂ), IsDM n ρ → ∃ r, applyGates so (.dm ρ) (.single (Gate.HamiltonianEvolution tg))
        [("hamiltonian", .arr H), ("time_evolution", .num t)] = .ok (.dm r) ∧
      dmMat n r.array = conjBy (gateMat n (matE (evolution (parseTarget tg).length H t)) (parseTarget tg) []) (dmMat n ρ.array) := by
    intro t ρ hρ
    obtain ⟨r, h1, h2⟩ := C40_evolution so (values := [("hamiltonian", .arr H), ("time_evolution", .num t)]) (t := t) (tg := tg)
      (c := .tuple [.none]) (state := .dm ρ) ⟨rfl, rfl⟩ hop (.inr (.inl rfl)) hd hρ false true
    cases r with
    | vec r => exact absurd h2 (by simp [State.Applied])
    | dm r => exact ⟨r, h1, h2.2⟩
  constructor
  · intro h
    set k := (parseTarget tg).length with hk
    have hU : ∀ t, (gateMat n (matE (evolution k H t)) (parseTarget tg) []).conjTranspose
        * gateMat n (matE (evolution k H t)) (parseTarget tg) [] = 1 := by
      intro t
      refine isometry_of_trace fun M => ?_
      obtain ⟨ρ, h1, rfl⟩ := exists_dm M
      obtain ⟨r, h2, h3⟩ := hrun t ρ h1
      rw [← h3]
      exact h t ρ r h1 h2
    have hD := evolution_deriv (n := n) k H hk.symm hd 0
    have hP := hD.conjT.mulC hD
    simp only [hU, evolution_zero] at hP
    have h1 : gateMat n (matE (1 : Matrix (Fin (2 ^ k)) (Fin (2 ^ k)) ℂ)) (parseTarget tg) [] = 1 := by
      rw [← gateMat_one (ts := parseTarget tg) (cs := [])]
      refine gateMat_congr fun i j hi hj => ?_
      rw [matE_lt _ hi hj]
      simp [oneE, Matrix.one_apply]
    rw [h1] at hP
    have h2 : ∀ i j, _ = (0 : ℂ) := fun i j => (hP i j).unique (hasDerivAt_const _ _)
    have h3 : (gateMat n (matE (hamMat k H)) (parseTarget tg) []).conjTranspose = gateMat n (matE (hamMat k H)) (parseTarget tg) [] := by
      ext i j
      have := h2 i j
      simp only [mul_one, one_mul, Matrix.conjTranspose_smul, Matrix.conjTranspose_one, Matrix.add_apply, Matrix.smul_apply,
        smul_eq_mul, star_neg, Complex.star_def, Complex.conj_I, neg_neg, neg_mul] at this
      exact mul_left_cancel₀ Complex.I_ne_zero (by linear_combination this)
    rw [gateMat_conjTranspose _ (by simpa using hd)] at h3
    ext i j
    have := gateMat_inj hd h3 i.2 j.2
    simpa [conjT, matE_lt _ i.2 j.2, matE_lt _ j.2 i.2] using this
  · intro hH t ρ r hρ hr
    obtain ⟨r', h1, h2⟩ := hrun t ρ hρ
    rw [hr] at h1
    cases h1
    rw [h2, conjBy, Matrix.trace_mul_comm, ← mul_assoc, (C40_unitary hH t rfl hd).2, one_mul]

/-- Both sides occur: `X` is Hermitian, the raising matrix is not. -/
example : IsOp (parseTarget (.int 1)).length matX ∧ ValidDims 2 (parseTarget (.int 1)) ∧ (hamMat 1 matX).IsHermitian ∧
    IsOp (parseTarget (.int 1)).length ⟨[2, 2], [0, 1, 0, 0]⟩ ∧ ¬ (hamMat 1 ⟨[2, 2], [0, 1, 0, 0]⟩).IsHermitian := by
  refine ⟨⟨rfl, rfl⟩, by decide, matX_herm, ⟨rfl, rfl⟩, fun h => ?_⟩
  have := congrFun (congrFun h 0) 1
  simp [hamMat, NDArray.get, ravel] at this

end Verif
