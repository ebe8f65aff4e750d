import Verif.Lemmas.Trotter
import Verif.Lemmas.PauliRotation
import Verif.Props.Heisenberg
import Verif.Props.Algorithms
import Verif.Props.Vqe
import Verif.Props.Rounding

/-!
# C104: digital simulation of Hamiltonian evolution

The circuits of the first order product formula against `HamiltonianEvolution`.
-/

set_option autoImplicit false

namespace Verif
open NDArray
open scoped Matrix.Norms.L2Operator
variable {n : ℕ} {values : Values} (so : SetOrder)

/-! ## The operator of the circuit -/

/-- A Hamiltonian that the circuits below can simulate: each string lists at least one qubit, each qubit once, with `X`, `Y` or `Z`. -/
structure PauliStrings (n : ℕ) (ts : List (ℝ × List (Pauli × ℕ))) : Prop extends PauliTerms n ts where
  noI : ∀ t ∈ ts, ∀ e ∈ t.2, e.1 ≠ .I

/-- The exponents of one step. -/
noncomputable def stepExps (n : ℕ) (ts : List (ℝ × List (Pauli × ℕ))) (dt : ℝ) : List (Matrix (Lab n) (Lab n) ℂ) :=
  ts.map fun t => (-Complex.I * ((t.1 * dt : ℝ) : ℂ)) • pauliString n t.2

theorem stepExps_anti (ts : List (ℝ × List (Pauli × ℕ))) (dt : ℝ) : ∀ A ∈ stepExps n ts dt, A.conjTranspose = -A := by
  intro A hA
  obtain ⟨t, -, rfl⟩ := List.mem_map.1 hA
  rw [Matrix.conjTranspose_smul, pauliString_hermitian, ← neg_smul]
  congr 1
  simp only [star_mul', star_neg, Complex.star_def, Complex.conj_I, Complex.conj_ofReal, neg_neg]
  ring

theorem stepExps_sum (ts : List (ℝ × List (Pauli × ℕ))) (dt : ℝ) : (stepExps n ts dt).sum = (-Complex.I * (dt : ℂ)) • pauliSum n ts := by
  rw [stepExps, pauliSum, List.smul_sum, List.map_map]
  congr 1
  refine List.map_congr_left fun t _ => ?_
  rw [Function.comp, smul_smul]
  congr 1
  push_cast
  ring

theorem stepExps_comm (ts : List (ℝ × List (Pauli × ℕ))) (dt : ℝ) : commSum (stepExps n ts dt) ≤ dt ^ 2 * pauliCommutators n ts := by
  induction ts with
  | nil => simp [stepExps, commSum, pauliCommutators]
  | cons t ts ih =>
    have e : stepExps n (t :: ts) dt = ((-Complex.I * ((t.1 * dt : ℝ) : ℂ)) • pauliString n t.2) :: stepExps n ts dt := rfl
    rw [e, commSum, pauliCommutators, mul_add]
    refine add_le_add ?_ ih
    clear e ih
    rw [stepExps, List.map_map]
    induction ts with
    | nil => simp
    | cons t' ts ih =>
      simp only [List.map_cons, List.sum_cons, mul_add]
      refine add_le_add ?_ ih
      rw [Function.comp, Matrix.smul_mul, Matrix.mul_smul, Matrix.smul_mul, Matrix.mul_smul,
        smul_comm (-Complex.I * ((t'.1 * dt : ℝ) : ℂ)), ← smul_sub, ← smul_sub, norm_smul, norm_smul]
      have h := pauliString_commutator (n := n) t.2 t'.2
      have hn : ∀ x : ℝ, ‖-Complex.I * (x : ℂ)‖ = |x| := fun x => by
        rw [norm_mul, norm_neg, Complex.norm_I, one_mul, Complex.norm_real, Real.norm_eq_abs]
      rw [hn, hn, abs_mul, abs_mul]
      have h2 : |dt| * |dt| = dt ^ 2 := by rw [← sq, sq_abs]
      calc |t.1| * |dt| * (|t'.1| * |dt| * ‖_‖) ≤ |t.1| * |dt| * (|t'.1| * |dt| * (if clashes n t.2 t'.2 % 2 = 1 then 2 else 0)) := by
            gcongr
        _ = dt ^ 2 * (if clashes n t.2 t'.2 % 2 = 1 then 2 * (|t.1| * |t'.1|) else 0) := by
            rw [← h2]
            split_ifs <;> ring

theorem trotterStep_mat {ts : List (ℝ × List (Pauli × ℕ))}
    (h : ∀ t ∈ ts, t.2 ≠ [] ∧ (t.2.map Prod.snd).Nodup ∧ (∀ e ∈ t.2, e.2 < n) ∧ ∀ e ∈ t.2, e.1 ≠ .I) (dt : ℝ) :
    placedMat n (trotterStep ts dt) = expProd (stepExps n ts dt) := by
  induction ts with
  | nil => rfl
  | cons t ts ih =>
    obtain ⟨h1, h2, h3, h4⟩ := h t List.mem_cons_self
    rw [trotterStep, List.flatMap_cons, placedMat_append, pauliRotation_mat _ h1 h4 h2 h3]
    change placedMat n (trotterStep ts dt) * _ = expProd (stepExps n ts dt) * _
    rw [ih fun t ht => h t (List.mem_cons_of_mem _ ht), evolve]
    congr 5
    ring

theorem trotterCircuit_mat {ts : List (ℝ × List (Pauli × ℕ))} (h : PauliStrings n ts) (t : ℝ) (r : ℕ) :
    placedMat n (trotterCircuit ts t r) = expProd (stepExps n ts (t / r)) ^ r := by
  rw [trotterCircuit, ← trotterStep_mat fun t ht => ⟨(h.term t ht).1, (h.term t ht).2.1, (h.term t ht).2.2, h.noI t ht⟩]
  generalize trotterStep ts (t / r) = l
  induction r with
  | zero => rfl
  | succ r ih => rw [List.replicate_succ, List.flatten_cons, placedMat_append, ih, pow_succ]

theorem evolve_pow (K : Matrix (Lab n) (Lab n) ℂ) (t : ℝ) {r : ℕ} (hr : r ≠ 0) :
    NormedSpace.exp ((-Complex.I * ((t / r : ℝ) : ℂ)) • K) ^ r = evolve K t := by
  rw [← Matrix.exp_nsmul, evolve, ← Nat.cast_smul_eq_nsmul ℂ, smul_smul]
  congr 2
  push_cast
  field_simp

/-- The error of the product formula. -/
theorem trotter_error {ts : List (ℝ × List (Pauli × ℕ))} (h : PauliStrings n ts) (t : ℝ) {r : ℕ} (hr : r ≠ 0) :
    ‖placedMat n (trotterCircuit ts t r) - evolve (pauliSum n ts) t‖ ≤ t ^ 2 / (2 * r) * pauliCommutators n ts := by
  have ha := stepExps_anti (n := n) ts (t / r)
  rw [trotterCircuit_mat h, ← evolve_pow _ t hr, ← stepExps_sum]
  refine (pow_sub_norm (norm_le_one_of_star_mul (expProd_unitary ha)) (exp_norm (sum_anti ha)) r).trans ?_
  have h1 := expProd_sub ha
  have h2 := stepExps_comm (n := n) ts (t / r)
  have hr' : (0 : ℝ) < r := by exact_mod_cast Nat.pos_of_ne_zero hr
  calc (r : ℝ) * _ ≤ r * (1 / 2 * ((t / r) ^ 2 * pauliCommutators n ts)) := by gcongr; linarith
    _ = _ := by field_simp

/-! ## The operator of `HamiltonianEvolution` -/

theorem gateMat_evolution (H : NDArray ℂ) {ts : List ℕ} (hv : ValidDims n ts) (t : ℝ) :
    gateMat n (matE (evolution ts.length H t)) ts [] = evolve (gateMat n (matE (hamMat ts.length H)) ts []) t := by
  have hv' : ValidDims n ([] ++ ts) := hv
  have h0 : gateMat n (fun _ _ => (0 : ℂ)) ts [] = 0 := by
    funext b b'
    simp [gateMat]
  have e : ∀ A : Matrix (Fin (2 ^ ts.length)) (Fin (2 ^ ts.length)) ℂ, liftHom hv' A = gateMat n (matE A) ts [] := by
    intro A
    change liftOn n ts [] A = _
    rw [liftOn, h0, sub_zero]
    rfl
  have h1 : liftHom hv' 1 = 1 := by
    rw [e, gateMat_congr (V := oneE) fun i j hi hj => ?_, gateMat_one]
    rw [matE_lt _ hi hj, Matrix.one_apply, oneE]
    simp
  let f : Matrix (Fin (2 ^ ts.length)) (Fin (2 ^ ts.length)) ℂ →ₗ[ℂ] Matrix (Lab n) (Lab n) ℂ :=
    { toFun := liftHom hv', map_add' := map_add _, map_smul' := map_smul _ }
  let g : Matrix (Fin (2 ^ ts.length)) (Fin (2 ^ ts.length)) ℂ →+* Matrix (Lab n) (Lab n) ℂ :=
    { toFun := liftHom hv', map_add' := map_add _, map_mul' := map_mul _, map_one' := h1, map_zero' := map_zero _ }
  have hc : Continuous g := f.continuous_of_finiteDimensional
  let := NormedAlgebra.restrictScalars ℚ ℂ (Matrix (Fin (2 ^ ts.length)) (Fin (2 ^ ts.length)) ℂ)
  have := NormedSpace.map_exp g hc ((-Complex.I * (t : ℂ)) • hamMat ts.length H)
  rw [← e, ← e, evolve, ← map_smul]
  exact this

/-- The state after `HamiltonianEvolution`. -/
theorem evolution_run {circuit : Op} (hp : circuit.Plain) {tg : TArg} (hg : circuit.gates = [Gate.HamiltonianEvolution tg]) {a H : NDArray ℂ}
    {t : ℝ} (ha : IsKet n a) (hv : EvolutionValues values H t) (hop : IsOp (parseTarget tg).length H) (hd : ValidDims n (parseTarget tg)) :
    ∃ r, run so circuit (.vec a) values = .ok (some (.vec r)) ∧ IsKet n r ∧
      ket n r = (evolve (registerHam n H tg) t).mulVec (ket n a) := by
  obtain ⟨h1, h2⟩ := hamEvo_ok (n := n) (c := .tuple [.none]) hv hop (.inr (.inl rfl)) hd
  have hc : circuit.Circuit n values [[]] :=
    ⟨hp, by simp [hg], by simpa [hg] using h1, by rw [hg]; exact .cons (.none rfl) .nil⟩
  obtain ⟨r, h3, -, h4⟩ := circuit_run so hc (st := .vec a) ha
  rw [hg] at h4
  cases r with
  | dm r => exact absurd (by simp only [List.mem_singleton, forall_eq]; rfl) h4.1
  | vec r =>
    refine ⟨r, h3, h4.2.1, ?_⟩
    rw [h4.2.2, gatesMat, gatesMat, one_mul, h2, registerHam, ← gateMat_evolution H hd]
    rfl

/-! ## The theorems -/

/-- **C104** (rotations about Pauli strings): `run` of the textbook circuit (change of basis, chain of controlled nots, `RZ(θ)`, and
back) multiplies the state by `exp (-i θ/2 P) = cos (θ/2) - i sin (θ/2) P`. -/
theorem C104_rotation {c : Op} (hc : c.Plain) (θ : ℝ) {l : List (Pauli × ℕ)} (h : Realizes n values c.gates (pauliRotation θ l))
    (hne : l ≠ []) (hI : ∀ e ∈ l, e.1 ≠ .I) (hnd : (l.map Prod.snd).Nodup) (hl : ∀ e ∈ l, e.2 < n) {a : NDArray ℂ} (ha : IsKet n a) :
    ∃ r, run so c (.vec a) values = .ok (some (.vec r)) ∧ ket n r = (evolve (pauliString n l) (θ / 2)).mulVec (ket n a) ∧
      ket n r = (Real.cos (θ / 2) : ℂ) • ket n a - (Complex.I * Real.sin (θ / 2)) • (pauliString n l).mulVec (ket n a) := by
  obtain ⟨r, h1, -, h2⟩ := run_realizes so hc h ha
  rw [pauliRotation_mat θ hne hI hnd hl] at h2
  refine ⟨r, h1, h2, ?_⟩
  rw [h2, evolve, exp_involution (pauliString_sq l), Matrix.sub_mulVec, Matrix.smul_mulVec, Matrix.smul_mulVec, Matrix.one_mulVec]

/-- **C104** (the Hamiltonian): the matrix that `Add([Scale(OpSequence(string), c), ...]).tensor()` returns on the whole register is
`Σ c_k P_k`, and `HamiltonianEvolution` on all qubits evolves the register under it. -/
theorem C104_hamiltonian {ts : List (ℝ × List (Pauli × ℕ))} (h : PauliTerms n ts) (values : Values) :
    ∃ H, (mkAdd (.list (ts.map pauliTerm))).tensor so values (some (List.range n)) = .ok H ∧ IsOp n H ∧
      registerHam n H (.tuple (List.range n)) = pauliSum n ts := by
  have hL : Op.Listed (StdLeaf n values) values (mkAdd (.list (ts.map pauliTerm))) (pauliSum n ts) := .add (C70_operator h values).2.1
  have hF : ValidDims n (List.range n) := ⟨List.nodup_range, fun q hq => List.mem_range.1 hq⟩
  obtain ⟨H, h1, h2, h3⟩ := tensor_listed so hF (fun g hg q hq => List.mem_range.2 (mem_gates_lt hL g hg q hq))
    (hL.mono fun _ _ h => StdLeaf.sort h)
  rw [List.length_range] at h2
  refine ⟨H, h1, h2, ?_⟩
  rw [pySorted_range] at h3
  rw [← h3, registerHam]
  refine gateMat_congr fun i j hi hj => ?_
  change i < 2 ^ (List.range n).length at hi
  change j < 2 ^ (List.range n).length at hj
  exact matE_lt _ hi hj

/-- A circuit of the product formula, and the Hamiltonian evolution that it simulates. -/
structure Simulation (n : ℕ) (ts : List (ℝ × List (Pauli × ℕ))) (t : ℝ) (r : ℕ) (digital analog : Op) (dvalues avalues : Values) : Prop where
  strings : PauliStrings n ts
  steps : r ≠ 0
  plain : digital.Plain
  gates : Realizes n dvalues digital.gates (trotterCircuit ts t r)
  analogPlain : analog.Plain
  evolution : analog.gates = [Gate.HamiltonianEvolution (.tuple (List.range n))]
  values : ∃ H v, (mkAdd (.list (ts.map pauliTerm))).tensor so v (some (List.range n)) = .ok H ∧ EvolutionValues avalues H t

variable {ts : List (ℝ × List (Pauli × ℕ))} {t : ℝ} {r : ℕ} {digital analog : Op} {dvalues avalues : Values} {a : NDArray ℂ}

theorem Simulation.runs (h : Simulation so n ts t r digital analog dvalues avalues) (ha : IsKet n a) :
    ∃ x y, run so digital (.vec a) dvalues = .ok (some (.vec x)) ∧ run so analog (.vec a) avalues = .ok (some (.vec y)) ∧
      IsKet n x ∧ IsKet n y ∧ ket n x = (placedMat n (trotterCircuit ts t r)).mulVec (ket n a) ∧
      ket n y = (evolve (pauliSum n ts) t).mulVec (ket n a) := by
  obtain ⟨H, v, h1, h2⟩ := h.values
  obtain ⟨H', h3, h4, h5⟩ := C104_hamiltonian so h.strings.toPauliTerms v
  obtain rfl : H = H' := by rw [h1] at h3; exact Except.ok.inj h3
  obtain ⟨x, x1, x2, x3⟩ := run_realizes so h.plain h.gates ha
  obtain ⟨y, y1, y2, y3⟩ := evolution_run so h.analogPlain h.evolution ha h2 (by simpa only [parseTarget, List.length_range] using h4)
    ⟨List.nodup_range, fun q hq => List.mem_range.1 hq⟩
  exact ⟨x, y, x1, y1, x2, y2, x3, by rw [y3, h5]⟩

/-- **C104** (error of the simulation): the state after `r` steps of the product formula differs from the state after
`HamiltonianEvolution` by at most `t²/(2r) Σ ‖[c_j P_j, c_k P_k]‖` times the length of the initial state. -/
theorem C104_error (h : Simulation so n ts t r digital analog dvalues avalues) (ha : IsKet n a) :
    ∃ x y, run so digital (.vec a) dvalues = .ok (some (.vec x)) ∧ run so analog (.vec a) avalues = .ok (some (.vec y)) ∧
      ketNorm (ket n x - ket n y) ≤ t ^ 2 / (2 * r) * pauliCommutators n ts * ketNorm (ket n a) := by
  obtain ⟨x, y, h1, h2, -, -, h5, h6⟩ := h.runs so ha
  refine ⟨x, y, h1, h2, ?_⟩
  rw [h5, h6, ← Matrix.sub_mulVec]
  exact (ketNorm_mulVec _ _).trans (mul_le_mul_of_nonneg_right (trotter_error h.strings t h.steps) (ketNorm_nonneg _))

/-- **C104** (number of steps): `r ≥ t² Λ / (2 ε)` steps reach the accuracy `ε`. -/
theorem C104_steps {ε : ℝ} (hε : 0 < ε) (hr : t ^ 2 * pauliCommutators n ts / (2 * ε) ≤ r)
    (h : Simulation so n ts t r digital analog dvalues avalues) (ha : IsKet n a) :
    ∃ x y, run so digital (.vec a) dvalues = .ok (some (.vec x)) ∧ run so analog (.vec a) avalues = .ok (some (.vec y)) ∧
      ketNorm (ket n x - ket n y) ≤ ε * ketNorm (ket n a) := by
  obtain ⟨x, y, h1, h2, h3⟩ := C104_error so h ha
  refine ⟨x, y, h1, h2, h3.trans (mul_le_mul_of_nonneg_right ?_ (ketNorm_nonneg _))⟩
  have hr' : (0 : ℝ) < r := by exact_mod_cast Nat.pos_of_ne_zero h.steps
  rw [div_le_iff₀ (by linarith)] at hr
  rw [div_mul_eq_mul_div, div_le_iff₀ (by linarith)]
  linarith

theorem pauliCommutators_zero (h : ts.Pairwise fun t t' => clashes n t.2 t'.2 % 2 = 0) : pauliCommutators n ts = 0 := by
  induction h with
  | nil => rfl
  | cons h _ ih =>
    rw [pauliCommutators, ih, add_zero]
    refine List.sum_eq_zero fun x hx => ?_
    obtain ⟨t', ht, rfl⟩ := List.mem_map.1 hx
    rw [if_neg (by rw [h t' ht]; decide)]

/-- **C104** (commuting strings): if any two strings of the Hamiltonian differ on an even number of qubits on which both act,
the circuit returns the very state of `HamiltonianEvolution`, already with one step. -/
theorem C104_exact (h : Simulation so n ts t r digital analog dvalues avalues) (ha : IsKet n a)
    (hc : ts.Pairwise fun t t' => clashes n t.2 t'.2 % 2 = 0) :
    ∃ x, run so digital (.vec a) dvalues = .ok (some (.vec x)) ∧ run so analog (.vec a) avalues = .ok (some (.vec x)) := by
  obtain ⟨x, y, h1, h2, h3, h4, h5, h6⟩ := h.runs so ha
  have e := trotter_error h.strings t h.steps
  rw [pauliCommutators_zero hc, mul_zero] at e
  rw [← sub_eq_zero.1 (norm_le_zero_iff.1 e), ← h5] at h6
  rw [← ket_ext h3 h4 h6.symm] at h2
  exact ⟨x, h1, h2⟩

/-- How the distance of two states bounds the difference of expectation values. -/
theorem expVal_sub_le (O : Matrix (Lab n) (Lab n) ℂ) {v w : Lab n → ℂ} {δ N : ℝ} (hv : ketNorm v ≤ N) (hw : ketNorm w ≤ N)
    (hd : ketNorm (v - w) ≤ δ) :
    |(∑ x, star (v x) * O.mulVec v x).re - (∑ x, star (w x) * O.mulVec w x).re| ≤ 2 * ‖O‖ * (δ * N) := by
  have hs : (∑ x, star (v x) * O.mulVec v x).re - (∑ x, star (w x) * O.mulVec w x).re
      = (∑ x, star ((v - w) x) * O.mulVec v x).re + (∑ x, star (w x) * O.mulVec (v - w) x).re := by
    rw [← Complex.sub_re, ← Complex.add_re, ← Finset.sum_sub_distrib, ← Finset.sum_add_distrib]
    congr 1
    refine Finset.sum_congr rfl fun x _ => ?_
    rw [Matrix.mulVec_sub, Pi.sub_apply, Pi.sub_apply, star_sub]
    ring
  have hδ := (ketNorm_nonneg _).trans hd
  have hN := (ketNorm_nonneg _).trans hv
  rw [hs]
  calc _ ≤ |(∑ x, star ((v - w) x) * O.mulVec v x).re| + |(∑ x, star (w x) * O.mulVec (v - w) x).re| := abs_add_le _ _
    _ ≤ ‖O‖ * (ketNorm (v - w) * ketNorm v) + ‖O‖ * (ketNorm w * ketNorm (v - w)) :=
        add_le_add (abs_inner_mulVec_le _ _ _) (abs_inner_mulVec_le _ _ _)
    _ ≤ ‖O‖ * (δ * N) + ‖O‖ * (N * δ) := by
        gcongr
        · exact ketNorm_nonneg _
        · exact ketNorm_nonneg _
    _ = _ := by ring

theorem trotter_norm (h : PauliStrings n ts) (t : ℝ) (r : ℕ) : ‖placedMat n (trotterCircuit ts t r)‖ ≤ 1 := by
  rw [trotterCircuit_mat h]
  exact pow_norm (norm_le_one_of_star_mul (expProd_unitary (stepExps_anti _ _))) r

theorem evolve_norm (ts : List (ℝ × List (Pauli × ℕ))) (t : ℝ) : ‖evolve (pauliSum n ts) t‖ ≤ 1 := by
  rw [evolve, ← stepExps_sum]
  exact exp_norm (sum_anti (stepExps_anti _ _))

/-- **C104** (expectation values): the expectation of an observable `O` after the digital circuit differs from the one after
`HamiltonianEvolution` by at most `‖O‖ t²/r Σ ‖[c_j P_j, c_k P_k]‖` times the squared length of the initial state. -/
theorem C104_expectation (h : Simulation so n ts t r digital analog dvalues avalues) (ha : IsKet n a) {o : Observable}
    {O : Matrix (Lab n) (Lab n) ℂ} {ovalues : Values} (ho : o.Means (AnyLeaf n ovalues) ovalues O) :
    ∃ x y p q, run so digital (.vec a) dvalues = .ok (some (.vec x)) ∧ run so analog (.vec a) avalues = .ok (some (.vec y)) ∧
      expectSingle so ovalues o (.vec x) = .ok p ∧ expectSingle so ovalues o (.vec y) = .ok q ∧
      |p - q| ≤ ‖O‖ * (t ^ 2 / r * pauliCommutators n ts * ketNorm (ket n a) ^ 2) := by
  obtain ⟨x, y, h1, h2, h3, h4, h5, h6⟩ := h.runs so ha
  obtain ⟨x', y', h1', h2', hd⟩ := C104_error so h ha
  obtain rfl : x = x' := by rw [h1] at h1'; simpa using h1'
  obtain rfl : y = y' := by rw [h2] at h2'; simpa using h2'
  refine ⟨x, y, _, _, h1, h2, expectSingle_vec so ho h3, expectSingle_vec so ho h4, ?_⟩
  have hN := ketNorm_nonneg (ket n a)
  have hx : ketNorm (ket n x) ≤ ketNorm (ket n a) := by
    rw [h5]
    exact (ketNorm_mulVec _ _).trans (mul_le_of_le_one_left hN (trotter_norm h.strings t r))
  have hy : ketNorm (ket n y) ≤ ketNorm (ket n a) := by
    rw [h6]
    exact (ketNorm_mulVec _ _).trans (mul_le_of_le_one_left hN (evolve_norm ts t))
  rw [expVal_vec, expVal_vec]
  refine (expVal_sub_le O hx hy hd).trans (le_of_eq ?_)
  have hr' : (r : ℝ) ≠ 0 := by exact_mod_cast h.steps
  field_simp

/-! ## The hypotheses can be met -/

theorem parityChain_valid {L : List ℕ} (hnd : L.Nodup) (hl : ∀ q ∈ L, q < n) :
    ∀ x ∈ parityChain L, ValidDims n (x.controls ++ x.targets) ∧ x.targets.length = x.gate.arity := by
  induction L with
  | nil => simp [parityChain]
  | cons p L ih =>
    rcases L with _ | ⟨q, L⟩
    · simp [parityChain]
    · intro x hx
      rw [parityChain, List.mem_cons] at hx
      rcases hx with rfl | hx
      · refine ⟨⟨?_, ?_⟩, rfl⟩
        · have := (List.nodup_cons.1 hnd).1
          simp only [List.mem_cons, not_or] at this
          simpa using this.1
        · simpa using ⟨hl p (by simp), hl q (by simp)⟩
      · exact ih (List.nodup_cons.1 hnd).2 (fun q hq => hl q (List.mem_cons_of_mem _ hq)) x hx

theorem pauliRotation_valid (θ : ℝ) {l : List (Pauli × ℕ)} (hne : l ≠ []) (hnd : (l.map Prod.snd).Nodup) (hl : ∀ e ∈ l, e.2 < n) :
    ∀ x ∈ pauliRotation θ l, ValidDims n (x.controls ++ x.targets) ∧ x.targets.length = x.gate.arity := by
  intro x hx
  have hl' : ∀ q ∈ l.map Prod.snd, q < n := by
    intro q hq
    obtain ⟨e, he, rfl⟩ := List.mem_map.1 hq
    exact hl e he
  have h1 : ∀ q, q < n → ValidDims n ([] ++ [q]) := fun q hq => ⟨by simp, by simpa using hq⟩
  simp only [pauliRotation, List.mem_append, List.mem_reverse, List.mem_flatMap, List.mem_singleton] at hx
  rcases hx with (((⟨⟨P, q⟩, he, hx⟩ | hx) | rfl) | hx) | ⟨⟨P, q⟩, he, hx⟩
  · cases P <;> simp only [Pauli.toZ, List.mem_singleton, List.not_mem_nil] at hx <;> subst hx <;> exact ⟨h1 q (hl _ he), rfl⟩
  · exact parityChain_valid hnd hl' x hx
  · refine ⟨h1 _ (hl' _ ?_), rfl⟩
    have hn : l.map Prod.snd ≠ [] := by simpa using hne
    rw [List.getLastD_eq_getLast?, List.getLast?_eq_getLast_of_ne_nil hn]
    exact List.getLast_mem hn
  · exact parityChain_valid hnd hl' x hx
  · cases P <;> simp only [Pauli.fromZ, List.mem_singleton, List.not_mem_nil] at hx <;> subst hx <;> exact ⟨h1 q (hl _ he), rfl⟩

/-- **C104** (the simulation can be written down): for every such Hamiltonian, time and number of steps there are a circuit of
standard gates and a circuit with a Hamiltonian evolution to which the theorems above apply. -/
theorem C104_circuits (h : PauliStrings n ts) (t : ℝ) (hr : r ≠ 0) :
    ∃ H, Simulation so n ts t r (placedCircuit n (trotterCircuit ts t r))
      (mkCircuit n (.list [.prim (Gate.HamiltonianEvolution (.tuple (List.range n)))]) [])
      [] [("hamiltonian", .arr H), ("time_evolution", .num t)] := by
  obtain ⟨H, h1, -, -⟩ := C104_hamiltonian so h.toPauliTerms []
  refine ⟨H, h, hr, placedCircuit_plain _ _, placedCircuit_realizes n [] fun x hx => ?_, .circ _ _ (.cons (.prim _) .nil), rfl,
    H, [], h1, rfl, rfl⟩
  rw [trotterCircuit, List.mem_flatten] at hx
  obtain ⟨s, hs, hx⟩ := hx
  rw [List.eq_of_mem_replicate hs, trotterStep, List.mem_flatMap] at hx
  obtain ⟨u, hu, hx⟩ := hx
  exact pauliRotation_valid _ (h.term u hu).1 (h.term u hu).2.1 (h.term u hu).2.2 x hx

/-- The transverse field Ising model on two qubits: `Z₀Z₁ + ½ X₀ + ½ X₁`, whose terms do not commute. -/
noncomputable def isingTerms : List (ℝ × List (Pauli × ℕ)) := [(1, [(.Z, 0), (.Z, 1)]), (1 / 2, [(.X, 0)]), (1 / 2, [(.X, 1)])]

theorem isingTerms_strings : PauliStrings 2 isingTerms where
  ne := by simp [isingTerms]
  term := by
    simp [isingTerms]
    rintro P q (⟨rfl, rfl⟩ | ⟨rfl, rfl⟩) <;> simp
  noI := by
    simp [isingTerms]
    rintro P q (⟨rfl, rfl⟩ | ⟨rfl, rfl⟩) <;> simp

theorem isingTerms_commutators : pauliCommutators 2 isingTerms = 2 := by
  have h1 : clashes 2 [(.Z, 0), (.Z, 1)] [(.X, 0)] = 1 := by decide
  have h2 : clashes 2 [(.Z, 0), (.Z, 1)] [(.X, 1)] = 1 := by decide
  have h3 : clashes 2 [(.X, 0)] [(.X, 1)] = 0 := by decide
  simp [isingTerms, pauliCommutators, h1, h2, h3]
  norm_num

example (t : ℝ) {r : ℕ} (hr : r ≠ 0) {a : NDArray ℂ} (ha : IsKet 2 a) :
    ∃ avalues x y, run so (placedCircuit 2 (trotterCircuit isingTerms t r)) (.vec a) [] = .ok (some (.vec x)) ∧
      run so (mkCircuit 2 (.list [.prim (Gate.HamiltonianEvolution (.tuple [0, 1]))]) []) (.vec a) avalues = .ok (some (.vec y)) ∧
      ketNorm (ket 2 x - ket 2 y) ≤ t ^ 2 / r * ketNorm (ket 2 a) := by
  obtain ⟨H, h⟩ := C104_circuits so isingTerms_strings t hr
  obtain ⟨x, y, h1, h2, h3⟩ := C104_error so h ha
  refine ⟨_, x, y, h1, h2, h3.trans (le_of_eq ?_)⟩
  have hr' : (r : ℝ) ≠ 0 := by exact_mod_cast hr
  rw [isingTerms_commutators]
  field_simp

/-- Two strings that commute though their factors do not: `X₀X₁` and `Z₀Z₁`. -/
example (t : ℝ) {a : NDArray ℂ} (ha : IsKet 2 a) (c d : ℝ) :
    ∃ avalues x, run so (placedCircuit 2 (trotterCircuit [(c, [(.X, 0), (.X, 1)]), (d, [(.Z, 0), (.Z, 1)])] t 1)) (.vec a) []
        = .ok (some (.vec x)) ∧
      run so (mkCircuit 2 (.list [.prim (Gate.HamiltonianEvolution (.tuple [0, 1]))]) []) (.vec a) avalues = .ok (some (.vec x)) := by
  have hs : PauliStrings 2 [(c, [(.X, 0), (.X, 1)]), (d, [(.Z, 0), (.Z, 1)])] := by
    refine ⟨⟨by simp, ?_⟩, ?_⟩ <;> simp <;> constructor <;> rintro P q (⟨rfl, rfl⟩ | ⟨rfl, rfl⟩) <;> simp
  obtain ⟨H, h⟩ := C104_circuits so hs t one_ne_zero
  obtain ⟨x, h1, h2⟩ := C104_exact so h ha (by
    have : clashes 2 [(.X, 0), (.X, 1)] [(.Z, 0), (.Z, 1)] = 2 := by decide
    simp [this])
  exact ⟨_, x, h1, h2⟩

end Verif
