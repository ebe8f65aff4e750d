import Verif.Props.Trotter
import Verif.Props.RoundedNoise

/-!
# C104 on density matrices
-/

set_option autoImplicit false

namespace Verif
open NDArray
open scoped Matrix.Norms.L2Operator ComplexOrder
variable {n : ℕ} {values : Values} (so : SetOrder)

theorem run_realizes_dm {c : Op} (hc : c.Plain) {xs : List Placed} (h : Realizes n values c.gates xs) {ρ : DensityMatrix ℂ}
    (hρ : IsDM n ρ) :
    ∃ r, run so c (.dm ρ) values = .ok (some (.dm r)) ∧ IsDM n r ∧
      dmMat n r.array = conjBy (placedMat n xs) (dmMat n ρ.array) := by
  by_cases hne : c.gates = []
  · refine ⟨ρ, by rw [run, hc.call so, hne]; simp [Op.callSeq], hρ, ?_⟩
    rw [hne] at h
    cases h
    simp [placedMat, conjBy]
  · have hn : List.Forall₂ Gate.NoiseIs c.gates (c.gates.map fun _ => []) := by
      rw [List.forall₂_map_right_iff, List.forall₂_same]
      exact fun g hg => .none (h.gate g hg).2
    obtain ⟨r, h1, h2⟩ := callSeq_evolved so hne (fun g hg => (h.gate g hg).1) hn (s := .dm ρ) hρ
    cases r with
    | vec r => exact h2.elim
    | dm r =>
      refine ⟨r, by rw [run, hc.call so]; exact h1, h2.1, ?_⟩
      rw [h2.2, noisyRun_noiseless hn fun g hg => (h.gate g hg).2, ← h.mat]
      rfl

theorem evolution_run_dm {circuit : Op} (hp : circuit.Plain) {tg : TArg} (hg : circuit.gates = [Gate.HamiltonianEvolution tg])
    {ρ : DensityMatrix ℂ} {H : NDArray ℂ} {t : ℝ} (hρ : IsDM n ρ) (hv : EvolutionValues values H t)
    (hop : IsOp (parseTarget tg).length H) (hd : ValidDims n (parseTarget tg)) :
    ∃ r, run so circuit (.dm ρ) values = .ok (some (.dm r)) ∧ IsDM n r ∧
      dmMat n r.array = conjBy (evolve (registerHam n H tg) t) (dmMat n ρ.array) := by
  obtain ⟨h1, h2⟩ := hamEvo_ok (n := n) (c := .tuple [.none]) hv hop (.inr (.inl rfl)) hd
  have hc : circuit.Circuit n values [[]] :=
    ⟨hp, by simp [hg], by simpa [hg] using h1, by rw [hg]; exact .cons (.none rfl) .nil⟩
  obtain ⟨r, h3, -, h4⟩ := circuit_run so hc (st := .dm ρ) hρ
  have hn := hc.noise
  rw [hg] at h4 hn
  cases r with
  | vec r => exact h4.elim
  | dm r =>
    refine ⟨r, h3, h4.1, ?_⟩
    rw [h4.2, noisyRun_noiseless hn (by simp only [List.mem_singleton, forall_eq]; rfl), gatesMat, gatesMat, one_mul, h2, registerHam,
      ← gateMat_evolution H hd]
    rfl

/-- Contractions that are close take a matrix to matrices that are close. -/
theorem TraceNormLe.conj_near {X U V : Matrix (Lab n) (Lab n) ℂ} {c d : ℝ} (h : TraceNormLe X c) (hU : ‖U‖ ≤ 1) (hV : ‖V‖ ≤ 1)
    (hd : ‖U - V‖ ≤ d) : TraceNormLe (conjBy U X - conjBy V X) (2 * d * c) := fun O => by
  have hd0 := (norm_nonneg _).trans hd
  have e : (O * (conjBy U X - conjBy V X)).trace
      = ((U.conjTranspose * O * (U - V)) * X).trace + (((U - V).conjTranspose * O * V) * X).trace := by
    rw [mul_sub, Matrix.trace_sub, trace_conjBy, trace_conjBy, ← Matrix.trace_sub, ← Matrix.trace_add, ← sub_mul, ← add_mul,
      Matrix.conjTranspose_sub]
    congr 2
    noncomm_ring
  have n1 : ‖U.conjTranspose * O * (U - V)‖ ≤ ‖O‖ * d := by
    refine (norm_mul_le _ _).trans (mul_le_mul ((norm_mul_le _ _).trans ?_) hd (norm_nonneg _) (norm_nonneg _))
    rw [Matrix.l2_opNorm_conjTranspose]
    exact mul_le_of_le_one_left (norm_nonneg _) hU
  have n2 : ‖(U - V).conjTranspose * O * V‖ ≤ ‖O‖ * d := by
    refine (norm_mul_le _ _).trans ?_
    refine (mul_le_of_le_one_right (norm_nonneg _) hV).trans ((norm_mul_le _ _).trans ?_)
    rw [Matrix.l2_opNorm_conjTranspose, mul_comm]
    exact mul_le_mul_of_nonneg_left hd (norm_nonneg _)
  rw [e]
  calc _ ≤ c * (‖O‖ * d) + c * (‖O‖ * d) := (norm_add_le _ _).trans (add_le_add
        ((h _).trans (mul_le_mul_of_nonneg_left n1 h.nonneg)) ((h _).trans (mul_le_mul_of_nonneg_left n2 h.nonneg)))
    _ = _ := by ring

variable {ts : List (ℝ × List (Pauli × ℕ))} {t : ℝ} {r : ℕ} {digital analog : Op} {dvalues avalues : Values} {ρ : DensityMatrix ℂ}

theorem Simulation.runs_dm (h : Simulation so n ts t r digital analog dvalues avalues) (hρ : IsDM n ρ) :
    ∃ x y, run so digital (.dm ρ) dvalues = .ok (some (.dm x)) ∧ run so analog (.dm ρ) avalues = .ok (some (.dm y)) ∧
      IsDM n x ∧ IsDM n y ∧ dmMat n x.array = conjBy (placedMat n (trotterCircuit ts t r)) (dmMat n ρ.array) ∧
      dmMat n y.array = conjBy (evolve (pauliSum n ts) t) (dmMat n ρ.array) := by
  obtain ⟨H, v, h1, h2⟩ := h.values
  obtain ⟨H', h3, h4, h5⟩ := C104_hamiltonian so h.strings.toPauliTerms v
  obtain rfl : H = H' := by rw [h1] at h3; exact Except.ok.inj h3
  obtain ⟨x, x1, x2, x3⟩ := run_realizes_dm so h.plain h.gates hρ
  obtain ⟨y, y1, y2, y3⟩ := evolution_run_dm so h.analogPlain h.evolution hρ h2 (by simpa only [parseTarget, List.length_range] using h4)
    ⟨List.nodup_range, fun q hq => List.mem_range.1 hq⟩
  exact ⟨x, y, x1, y1, x2, y2, x3, by rw [y3, h5]⟩

/-- **C104** (density matrices): started from a density matrix of trace norm `T`, the two circuits return density matrices that differ
by at most `t²/r Σ ‖[c_j P_j, c_k P_k]‖ T` in the trace norm. -/
theorem C104_density (h : Simulation so n ts t r digital analog dvalues avalues) (hρ : IsDM n ρ) {T : ℝ}
    (hT : TraceNormLe (dmMat n ρ.array) T) :
    ∃ x y, run so digital (.dm ρ) dvalues = .ok (some (.dm x)) ∧ run so analog (.dm ρ) avalues = .ok (some (.dm y)) ∧
      IsDM n x ∧ IsDM n y ∧
      TraceNormLe (dmMat n x.array - dmMat n y.array) (t ^ 2 / r * pauliCommutators n ts * T) := by
  obtain ⟨x, y, h1, h2, h3, h4, h5, h6⟩ := h.runs_dm so hρ
  refine ⟨x, y, h1, h2, h3, h4, ?_⟩
  rw [h5, h6]
  have hU : ‖placedMat n (trotterCircuit ts t r)‖ ≤ 1 := by
    rw [trotterCircuit_mat h.strings]
    refine (norm_pow_le _ _).trans (pow_le_one₀ (norm_nonneg _) ?_)
    exact norm_le_one_of_star_mul (expProd_unitary (stepExps_anti ts (t / r)))
  have hV : ‖evolve (pauliSum n ts) t‖ ≤ 1 := by
    have := exp_norm (sum_anti (stepExps_anti (n := n) ts t))
    rwa [stepExps_sum] at this
  refine (hT.conj_near hU hV (trotter_error h.strings t h.steps)).mono (le_of_eq ?_)
  have hr' : (r : ℝ) ≠ 0 := by exact_mod_cast h.steps
  field_simp

/-- **C104** (expectation values on density matrices): expectation values of an observable that the code reads as `O` differ by at most
`‖O‖` times that. -/
theorem C104_density_expectation (h : Simulation so n ts t r digital analog dvalues avalues) (hρ : IsDM n ρ) {T : ℝ}
    (hT : TraceNormLe (dmMat n ρ.array) T) {o : Observable} {O : Matrix (Lab n) (Lab n) ℂ} (ho : o.ReadAs so n values O) :
    ∃ x y e e', run so digital (.dm ρ) dvalues = .ok (some (.dm x)) ∧ run so analog (.dm ρ) avalues = .ok (some (.dm y)) ∧
      expectSingle so values o (.dm x) = .ok e ∧ expectSingle so values o (.dm y) = .ok e' ∧
      |e - e'| ≤ ‖O‖ * (t ^ 2 / r * pauliCommutators n ts * T) := by
  obtain ⟨x, y, h1, h2, h3, h4, h5⟩ := C104_density so h hρ hT
  refine ⟨x, y, _, _, h1, h2, ho.single_dm so h3, ho.single_dm so h4, ?_⟩
  rw [expVal, expVal, ← Complex.sub_re, ← Matrix.trace_sub, ← mul_sub, mul_comm]
  exact (Complex.abs_re_le_norm _).trans (h5 O)

/-- **C104** (density matrices, commuting strings): then the circuit returns the very density matrix of `HamiltonianEvolution`. -/
theorem C104_density_exact (h : Simulation so n ts t r digital analog dvalues avalues) (hρ : IsDM n ρ)
    (hc : ts.Pairwise fun t t' => clashes n t.2 t'.2 % 2 = 0) :
    ∃ x, run so digital (.dm ρ) dvalues = .ok (some (.dm x)) ∧ run so analog (.dm ρ) avalues = .ok (some (.dm x)) := by
  obtain ⟨x, y, h1, h2, h3, h4, h5, h6⟩ := h.runs_dm so hρ
  have e := trotter_error h.strings t h.steps
  rw [pauliCommutators_zero hc, mul_zero] at e
  rw [← sub_eq_zero.1 (norm_le_zero_iff.1 e), ← h5] at h6
  rw [← dm_ext h3 h4 h6.symm] at h2
  exact ⟨x, h1, h2⟩

/-- The Ising model on two qubits, from any positive matrix. -/
example (t : ℝ) {r : ℕ} (hr : r ≠ 0) {ρ : DensityMatrix ℂ} (hρ : IsDM 2 ρ) (hp : (dmMat 2 ρ.array).PosSemidef) :
    ∃ avalues x y, run so (placedCircuit 2 (trotterCircuit isingTerms t r)) (.dm ρ) [] = .ok (some (.dm x)) ∧
      run so (mkCircuit 2 (.list [.prim (Gate.HamiltonianEvolution (.tuple [0, 1]))]) []) (.dm ρ) avalues = .ok (some (.dm y)) ∧
      TraceNormLe (dmMat 2 x.array - dmMat 2 y.array) (2 * t ^ 2 / r * (dmMat 2 ρ.array).trace.re) := by
  obtain ⟨H, h⟩ := C104_circuits so isingTerms_strings t hr
  obtain ⟨x, y, h1, h2, -, -, h3⟩ := C104_density so h hρ (C113_density hp)
  refine ⟨_, x, y, h1, h2, h3.mono (le_of_eq ?_)⟩
  rw [isingTerms_commutators]
  ring

end Verif
