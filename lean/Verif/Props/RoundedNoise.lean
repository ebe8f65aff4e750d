import Verif.Lemmas.RoundedNoise
import Verif.Props.Rounding
import Verif.Lemmas.Pauli
import Verif.Props.DmExact

/-!
# C113: noise does not amplify rounding errors

The density matrix that `apply_gates` returns for noisy circuits when every matrix, every product of matrices, every
`ρ ↦ O ρ O†` and every noise channel is computed with some relative error, against the one that exact arithmetic gives.
-/

set_option autoImplicit false

namespace Verif
open NDArray
open scoped Matrix.Norms.L2Operator ComplexOrder
variable {n : ℕ} {values : Values} {gs : List Gate} {A : ArithDM} {ε : ℝ}

theorem exact_step (so : SetOrder) (ρ : DensityMatrix ℂ) (o : NDArray ℂ × List ℕ × Ctl) (z : Option (List NoiseInstance)) :
    (ArithDM.exact so values).step ρ o z = applyOperatorWithNoise so ρ o.1 o.2.1 o.2.2 (noiseKraus z) := by
  simp only [ArithDM.step, applyOperatorWithNoise]
  change (applyOperatorDM so ρ o.1 o.2.1 o.2.2 >>= _) = _
  refine congrArg _ (funext fun g => ?_)
  cases z with
  | none => rfl
  | some ns => simp only [noiseKraus, Option.map_some, List.foldlM_map]; rfl

/-- **C113** (the model is the one of exact runs): with exact arithmetic the run is `apply_gates` on the density matrix,
for every gate or list of gates (also ones it refuses) and all flags. -/
theorem C113_exact (so : SetOrder) (ρ : DensityMatrix ℂ) (gate : GateArg) (group merge : Bool) :
    applyGates so (.dm ρ) gate values .unitary group merge
      = ((ArithDM.exact so values).run ρ gate group merge).map .dm := by
  simp only [applyGates, ArithDM.run, exact_step]
  change (prepareSequenceReduce (fun g => g.operator .unitary values) NDArray.matmul gate group merge >>= _)
    = (prepareSequenceReduce (fun g => g.operator .unitary values) NDArray.matmul gate group merge >>= _).map _
  rcases prepareSequenceReduce (fun g => g.operator .unitary values) NDArray.matmul gate group merge with e | x
  · rfl
  · change (reduceApplyNoise so x.1 x.2 ρ >>= _) = (reduceApplyNoise so x.1 x.2 ρ).map _
    rcases reduceApplyNoise so x.1 x.2 ρ with e | r <;> rfl

/-- **C113** (the state): if each operation has relative error at most `ε` and the initial matrix has trace norm `T`
(see `C113_density`), then after `k` gates with `m` noise channels in all the computed matrix is within
`((1 + ε)^(4k + m) - 1) T` of the exact one in the trace norm: with and without grouping and merging. -/
theorem C113_run (so : SetOrder) (hε : 0 ≤ ε) (hA : A.Accurate n ε values gs) (h : ∀ g ∈ gs, g.UnitaryOn n values)
    (hne : gs ≠ []) (hns : ∀ g ∈ gs, ∃ ns, g.NoiseIs ns) {ρ : DensityMatrix ℂ} (hρ : IsDM n ρ) {T : ℝ}
    (hT : TraceNormLe (dmMat n ρ.array) T) (group merge : Bool) :
    ∃ r e, A.run ρ (.list gs) group merge = .ok r ∧ IsDM n r ∧
      applyGates so (.dm ρ) (.list gs) values .unitary group merge = .ok (.dm e) ∧ IsDM n e ∧
      TraceNormLe (dmMat n e.array) T ∧
      TraceNormLe (dmMat n r.array - dmMat n e.array) (((1 + ε) ^ (4 * gs.length + noiseSteps gs) - 1) * T) := by
  obtain ⟨ops, ops', zs, J, h1, h2, h3, h4, h5⟩ := prepare_near_dm hε hA h hne hns group merge
  have hz : TraceNormLe (dmMat n ρ.array - dmMat n ρ.array) (((1 + ε) ^ 0 - 1) * T) := by
    rw [sub_self, pow_zero, sub_self, zero_mul]; exact .zero
  obtain ⟨e, r, c1, c2, c3, c4, c5, c6⟩ := dm_foldlM_near so hε hA h3 h4 hρ hρ hT hz
  refine ⟨r, e, ?_, c4, ?_, c3, c5, c6.mono ?_⟩
  · simp only [ArithDM.run, h2]; exact c2
  · simp only [applyGates, h1]
    simp only [bind, Except.bind, c1]
  · have hle : 0 + 2 * J + ops.length + noiseCount zs ≤ 4 * gs.length + noiseSteps gs := by omega
    exact mul_le_mul_of_nonneg_right (sub_le_sub_right (pow_le_pow_right₀ (by linarith) hle) 1) hT.nonneg

/-- **C113** (linear growth): as long as `(4k + m) ε ≤ 1`, the error is at most `2 (4k + m) ε T`. -/
theorem C113_linear (so : SetOrder) (hε : 0 ≤ ε) (hA : A.Accurate n ε values gs) (h : ∀ g ∈ gs, g.UnitaryOn n values)
    (hne : gs ≠ []) (hns : ∀ g ∈ gs, ∃ ns, g.NoiseIs ns) {ρ : DensityMatrix ℂ} (hρ : IsDM n ρ) {T : ℝ}
    (hT : TraceNormLe (dmMat n ρ.array) T) (group merge : Bool)
    (hk : (4 * gs.length + noiseSteps gs : ℕ) * ε ≤ 1) :
    ∃ r e, A.run ρ (.list gs) group merge = .ok r ∧
      applyGates so (.dm ρ) (.list gs) values .unitary group merge = .ok (.dm e) ∧
      TraceNormLe (dmMat n r.array - dmMat n e.array) (2 * ((4 * gs.length + noiseSteps gs : ℕ) * ε) * T) := by
  obtain ⟨r, e, h1, -, h3, -, -, h6⟩ := C113_run so hε hA h hne hns hρ hT group merge
  exact ⟨r, e, h1, h3, h6.mono (mul_le_mul_of_nonneg_right (one_add_pow_le hε hk) hT.nonneg)⟩

open scoped MatrixOrder in
/-- **C113** (the initial matrix): a positive matrix, in particular a density matrix, has its trace as trace norm. -/
theorem C113_density {ρ : Matrix (Lab n) (Lab n) ℂ} (h : ρ.PosSemidef) : TraceNormLe ρ ρ.trace.re := by
  obtain ⟨B, rfl⟩ := CStarAlgebra.nonneg_iff_eq_star_mul_self.mp h.nonneg
  exact .of_conj B

/-- **C113** (the least bound): no number smaller than the trace will do. -/
theorem C113_density_least {ρ : Matrix (Lab n) (Lab n) ℂ} {c : ℝ} (h : TraceNormLe ρ c) : ‖ρ.trace‖ ≤ c := by
  have := h 1
  rwa [one_mul, norm_one, mul_one] at this

/-- **C113** (expectation values): for every observable that `expectation` accepts on density matrices, read as the
operator `O`, its values in the computed and in the exact matrix differ by at most `‖O‖ ((1 + ε)^(4k + m) - 1) T`. -/
theorem C113_expectation (so : SetOrder) (hε : 0 ≤ ε) (hA : A.Accurate n ε values gs)
    (h : ∀ g ∈ gs, g.UnitaryOn n values) (hne : gs ≠ []) (hns : ∀ g ∈ gs, ∃ ns, g.NoiseIs ns) {ρ : DensityMatrix ℂ}
    (hρ : IsDM n ρ) {T : ℝ} (hT : TraceNormLe (dmMat n ρ.array) T) (group merge : Bool) {o : Observable}
    {O : Matrix (Lab n) (Lab n) ℂ} (ho : o.ReadAs so n values O) :
    ∃ r e x y, A.run ρ (.list gs) group merge = .ok r ∧
      applyGates so (.dm ρ) (.list gs) values .unitary group merge = .ok (.dm e) ∧
      expectSingle so values o (.dm r) = .ok x ∧ expectSingle so values o (.dm e) = .ok y ∧
      |x - y| ≤ ‖O‖ * (((1 + ε) ^ (4 * gs.length + noiseSteps gs) - 1) * T) := by
  obtain ⟨r, e, h1, h2, h3, h4, -, h6⟩ := C113_run so hε hA h hne hns hρ hT group merge
  refine ⟨r, e, _, _, h1, h3, ho.single_dm so h2, ho.single_dm so h4, ?_⟩
  rw [expVal, expVal, ← Complex.sub_re, ← Matrix.trace_sub, ← mul_sub, mul_comm]
  exact (Complex.abs_re_le_norm _).trans (h6 O)

/-- **C113** (measurement): the probabilities of the outcomes (the diagonal) in the computed and in the exact matrix
differ, summed over all outcomes, by at most `((1 + ε)^(4k + m) - 1) T`. -/
theorem C113_probabilities (so : SetOrder) (hε : 0 ≤ ε) (hA : A.Accurate n ε values gs)
    (h : ∀ g ∈ gs, g.UnitaryOn n values) (hne : gs ≠ []) (hns : ∀ g ∈ gs, ∃ ns, g.NoiseIs ns) {ρ : DensityMatrix ℂ}
    (hρ : IsDM n ρ) {T : ℝ} (hT : TraceNormLe (dmMat n ρ.array) T) (group merge : Bool) :
    ∃ r e, A.run ρ (.list gs) group merge = .ok r ∧
      applyGates so (.dm ρ) (.list gs) values .unitary group merge = .ok (.dm e) ∧
      ∑ b : Lab n, ‖dmMat n r.array b b - dmMat n e.array b b‖
        ≤ ((1 + ε) ^ (4 * gs.length + noiseSteps gs) - 1) * T := by
  obtain ⟨r, e, h1, -, h3, -, -, h6⟩ := C113_run so hε hA h hne hns hρ hT group merge
  refine ⟨r, e, h1, h3, ?_⟩
  generalize dmMat n r.array = R at *
  generalize dmMat n e.array = E at *
  -- the observable that picks the phases of the differences
  let d : Lab n → ℂ := fun b => R b b - E b b
  let O : Matrix (Lab n) (Lab n) ℂ := Matrix.diagonal fun b => star (d b) / (‖d b‖ : ℂ)
  have hO : ‖O‖ ≤ 1 := by
    rw [Matrix.l2_opNorm_diagonal]
    refine (pi_norm_le_iff_of_nonneg zero_le_one).2 fun b => ?_
    rw [norm_div, norm_star, Complex.norm_real, norm_norm]
    exact div_self_le_one _
  have ht : (O * (R - E)).trace = ((∑ b, ‖d b‖ : ℝ) : ℂ) := by
    rw [Complex.ofReal_sum, Matrix.trace]
    refine Finset.sum_congr rfl fun b _ => ?_
    rw [Matrix.diag_apply, Matrix.diagonal_mul, Matrix.sub_apply]
    change star (d b) / (‖d b‖ : ℂ) * d b = _
    by_cases h0 : d b = 0
    · simp [h0]
    · have h1 : (‖d b‖ : ℂ) ≠ 0 := by simpa using h0
      rw [div_mul_eq_mul_div, div_eq_iff h1]
      have := Complex.conj_mul' (d b)
      rw [sq] at this
      exact this
  have h7 := h6 O
  rw [ht, Complex.norm_real, Real.norm_of_nonneg (Finset.sum_nonneg fun _ _ => norm_nonneg _)] at h7
  exact h7.trans ((mul_le_mul_of_nonneg_left hO h6.nonneg).trans (le_of_eq (mul_one _)))

/-- **C113** (from an inexact matrix): if the initial matrix is itself off by a fraction `ε`, the exponent grows by one. -/
theorem C113_start (so : SetOrder) (hε : 0 ≤ ε) (hA : A.Accurate n ε values gs) (h : ∀ g ∈ gs, g.UnitaryOn n values)
    (hne : gs ≠ []) (hns : ∀ g ∈ gs, ∃ ns, g.NoiseIs ns) {ρ ρ' : DensityMatrix ℂ} (hρ : IsDM n ρ) (hρ' : IsDM n ρ') {T : ℝ}
    (hT : TraceNormLe (dmMat n ρ.array) T) (hd : TraceNormLe (dmMat n ρ'.array - dmMat n ρ.array) (ε * T)) (group merge : Bool) :
    ∃ r e, A.run ρ' (.list gs) group merge = .ok r ∧ IsDM n r ∧
      applyGates so (.dm ρ) (.list gs) values .unitary group merge = .ok (.dm e) ∧ IsDM n e ∧
      TraceNormLe (dmMat n e.array) T ∧
      TraceNormLe (dmMat n r.array - dmMat n e.array) (((1 + ε) ^ (4 * gs.length + noiseSteps gs + 1) - 1) * T) := by
  obtain ⟨ops, ops', zs, J, h1, h2, h3, h4, h5⟩ := prepare_near_dm hε hA h hne hns group merge
  have hz : TraceNormLe (dmMat n ρ'.array - dmMat n ρ.array) (((1 + ε) ^ 1 - 1) * T) := by
    rwa [pow_one, add_sub_cancel_left]
  obtain ⟨e, r, c1, c2, c3, c4, c5, c6⟩ := dm_foldlM_near so hε hA h3 h4 hρ hρ' hT hz
  refine ⟨r, e, ?_, c4, ?_, c3, c5, c6.mono ?_⟩
  · simp only [ArithDM.run, h2]; exact c2
  · simp only [applyGates, h1]
    simp only [bind, Except.bind, c1]
  · have hle : 1 + 2 * J + ops.length + noiseCount zs ≤ 4 * gs.length + noiseSteps gs + 1 := by omega
    exact mul_le_mul_of_nonneg_right (sub_le_sub_right (pow_le_pow_right₀ (by linarith) hle) 1) hT.nonneg

/-- With noise, a run on a state vector is a run on its density matrix. -/
theorem applyGates_vec_dm (so : SetOrder) (hε : 0 ≤ ε) (hA : A.Accurate n ε values gs) (h : ∀ g ∈ gs, g.UnitaryOn n values)
    (hns : ∀ g ∈ gs, ∃ ns, g.NoiseIs ns) (hnz : ∃ g ∈ gs, g.noise ≠ none) (a : NDArray ℂ) (group merge : Bool) :
    applyGates so (.vec a) (.list gs) values .unitary group merge
      = applyGates so (.dm (densityMat a)) (.list gs) values .unitary group merge := by
  obtain ⟨g, hg, hgn⟩ := hnz
  have hne : gs ≠ [] := by rintro rfl; simp at hg
  obtain ⟨ops, -, zs, -, p1, -, -, -, -⟩ := prepare_near_dm hε hA h hne hns group merge
  have hzs : allNoiseless zs = false := by
    have hperm : zs.Perm (gs.map Gate.noise) := by
      simp only [prepareSequenceReduce, bind, Except.bind] at p1
      split at p1
      · cases p1
      · split_ifs at p1 with c1 c2 c3
        all_goals first
          | (split at p1
             · cases p1
             · cases p1
               first | exact (groupByIndex_perm gs).map _ | exact .refl _)
          | (cases p1
             first | exact (groupByIndex_perm gs).map _ | exact .refl _)
    rw [Bool.eq_false_iff]
    intro hall
    have := List.all_eq_true.1 hall g.noise (hperm.mem_iff.2 (List.mem_map_of_mem hg))
    exact hgn (by simpa using this)
  simp only [applyGates, p1, bind, Except.bind, hzs, Bool.not_false, if_true]

theorem traceNorm_densityMat {a : NDArray ℂ} (ha : IsKet n a) :
    TraceNormLe (dmMat n (densityMat a).array) (ketNorm (ket n a) ^ 2) := by
  obtain ⟨hdm, hmat⟩ := densityMat_isDM ha
  intro O
  have e : (O * dmMat n (densityMat a).array).trace = ∑ x, star (ket n a x) * O.mulVec (ket n a) x := by
    rw [hmat, Matrix.mul_vecMulVec, Matrix.trace_vecMulVec, dotProduct_comm]; rfl
  rw [e]
  calc _ ≤ ketNorm (ket n a) * (‖O‖ * ketNorm (ket n a)) :=
        (norm_inner_le _ _).trans (mul_le_mul_of_nonneg_left (ketNorm_mulVec _ _) (ketNorm_nonneg _))
    _ = _ := by ring

/-- **C113** (from a state vector): a list of gates of which one has noise, run on a state vector, is a run from its
density matrix, and the error is at most `(1 + ε)^(4k + m) - 1` times the squared length of the vector. -/
theorem C113_vector (so : SetOrder) (hε : 0 ≤ ε) (hA : A.Accurate n ε values gs) (h : ∀ g ∈ gs, g.UnitaryOn n values)
    (hns : ∀ g ∈ gs, ∃ ns, g.NoiseIs ns) (hnz : ∃ g ∈ gs, g.noise ≠ none) {a : NDArray ℂ} (ha : IsKet n a)
    (group merge : Bool) :
    ∃ r e, A.run (densityMat a) (.list gs) group merge = .ok r ∧
      applyGates so (.vec a) (.list gs) values .unitary group merge = .ok (.dm e) ∧ IsDM n r ∧ IsDM n e ∧
      TraceNormLe (dmMat n r.array - dmMat n e.array)
        (((1 + ε) ^ (4 * gs.length + noiseSteps gs) - 1) * ketNorm (ket n a) ^ 2) := by
  have hne : gs ≠ [] := by rintro rfl; simp at hnz
  have hdm := (densityMat_isDM ha).1
  have hT := traceNorm_densityMat ha
  obtain ⟨r, e, h1, h2, h3, h4, -, h6⟩ := C113_run so hε hA h hne hns hdm hT group merge
  refine ⟨r, e, h1, ?_, h2, h4, h6⟩
  rw [← h3]
  exact applyGates_vec_dm so hε hA h hns hnz a group merge

/-- **C113** (errors entry by entry): it is enough to know the errors of the entries.  If every operation has relative
error at most `η` in the root of the sum of the squared entries, the theorems above hold with `ε = √(2^n) η`. -/
theorem C113_entries {η : ℝ} (hη : 0 ≤ η) (hA : A.EntryAccurate n η values gs) :
    A.Accurate n (Real.sqrt (2 ^ n) * η) values gs := by
  have h1 : (1 : ℝ) ≤ Real.sqrt (2 ^ n) := Real.one_le_sqrt.2 (one_le_pow₀ (by norm_num))
  have hle : η ≤ Real.sqrt (2 ^ n) * η := le_mul_of_one_le_left hη h1
  refine ⟨fun g hg u e1 e2 => ?_, fun g hg a b ha hb => ?_, fun g hg ρ u T hρ hu hT => ?_,
    fun g hg nis hnis ni hni s hs t ht ρ T hρ hT => ?_⟩
  · obtain ⟨r, c1, c2, c3⟩ := hA.op g hg u e1 e2
    exact ⟨r, c1, c2, c3.trans hle⟩
  · obtain ⟨r, c1, c2, c3⟩ := hA.mul g hg a b ha hb
    exact ⟨r, c1, c2, c3.trans (mul_le_mul_of_nonneg_right hle (mul_nonneg (norm_nonneg _) (norm_nonneg _)))⟩
  · obtain ⟨r, c1, c2, c3⟩ := hA.app g hg ρ u hρ hu
    refine ⟨r, c1, c2, (TraceNormLe.of_frob _).mono ?_⟩
    calc _ ≤ Real.sqrt (2 ^ n) * (η * (‖opMat n (u, g.target, g.control)‖ ^ 2 * frob (dmMat n ρ.array))) :=
          mul_le_mul_of_nonneg_left c3 (Real.sqrt_nonneg _)
      _ ≤ Real.sqrt (2 ^ n) * (η * (‖opMat n (u, g.target, g.control)‖ ^ 2 * T)) := by
          have := hT.frob_le
          gcongr
      _ = _ := by ring
  · obtain ⟨r, c1, c2, c3⟩ := hA.noise g hg nis hnis ni hni s hs t ht ρ hρ
    refine ⟨r, c1, c2, (TraceNormLe.of_frob _).mono ?_⟩
    calc _ ≤ Real.sqrt (2 ^ n) * (η * frob (dmMat n ρ.array)) := mul_le_mul_of_nonneg_left c3 (Real.sqrt_nonneg _)
      _ ≤ Real.sqrt (2 ^ n) * (η * T) := by
          have := hT.frob_le
          gcongr
      _ = _ := by ring

theorem TraceNormLe.conj_norm {X M : Matrix (Lab n) (Lab n) ℂ} {c : ℝ} (h : TraceNormLe X c) :
    TraceNormLe (conjBy M X) (‖M‖ ^ 2 * c) := fun O => by
  rw [trace_conjBy]
  refine (h _).trans ?_
  calc c * ‖M.conjTranspose * O * M‖ ≤ c * (‖M.conjTranspose‖ * ‖O‖ * ‖M‖) :=
        mul_le_mul_of_nonneg_left
          ((norm_mul_le _ _).trans (mul_le_mul_of_nonneg_right (norm_mul_le _ _) (norm_nonneg _))) h.nonneg
    _ = _ := by rw [Matrix.l2_opNorm_conjTranspose]; ring

theorem TraceNormLe.stretch {X Y : Matrix (Lab n) (Lab n) ℂ} {c : ℝ} (h : TraceNormLe X c) (hε : 0 ≤ ε)
    (hY : Y = ((1 + ε : ℝ) : ℂ) • X) : TraceNormLe (Y - X) (ε * c) := fun O => by
  have e : Y - X = (ε : ℂ) • X := by
    rw [hY]; push_cast; rw [add_smul, one_smul, add_sub_cancel_left]
  rw [e, Matrix.mul_smul, Matrix.trace_smul, smul_eq_mul, norm_mul, Complex.norm_real, Real.norm_of_nonneg hε, mul_assoc]
  exact mul_le_mul_of_nonneg_left (h O) hε

theorem smul_dm {ρ : DensityMatrix ℂ} (h : IsDM n ρ) (c : ℂ) :
    IsDM n ⟨smul c ρ.array⟩ ∧ dmMat n (smul c ρ.array) = c • dmMat n ρ.array := by
  refine ⟨⟨h.shape, by simpa [WF, smul] using h.wf⟩, ?_⟩
  funext x y
  simp only [dmMat, NDArray.get, smul, List.getD_eq_getElem?_getD, List.getElem?_map, Matrix.smul_apply, smul_eq_mul]
  rcases ρ.array.data[ravel ρ.array.shape (x.bits ++ y.bits)]? with _ | x <;> simp

/-- An arithmetic that makes every gate and every noise channel come out too large by the factor `1 + ε`. -/
noncomputable def ArithDM.stretched (so : SetOrder) (values : Values) (ε : ℝ) : ArithDM where
  op := (ArithDM.exact so values).op
  mul := (ArithDM.exact so values).mul
  app := fun ρ op ts c => do
    let r ← applyOperatorDM so ρ op ts c
    .ok ⟨smul ((1 + ε : ℝ) : ℂ) r.array⟩
  noise := fun ρ ni ts full => do
    let r ← (ArithDM.exact so values).noise ρ ni ts full
    .ok ⟨smul ((1 + ε : ℝ) : ℂ) r.array⟩

theorem exact_noise (so : SetOrder) {ni : NoiseInstance} {s : StdNoise} (h : ni.Is s) {t : ℕ} (ht : t < n)
    {ρ : DensityMatrix ℂ} (hρ : IsDM n ρ) :
    ∃ r, (ArithDM.exact so values).noise ρ ni [t] (List.range n) = .ok r ∧ IsDM n r ∧
      dmMat n r.array = s.chan n t (dmMat n ρ.array) := by
  obtain ⟨ks, hk, hg⟩ := h.kraus
  obtain ⟨r, h1, h2, h3⟩ := krausStep hg ht hρ
  refine ⟨r, ?_, h2, h3⟩
  simp only [ArithDM.exact, hk]
  exact h1

/-- **C113** (the hypotheses can hold): this arithmetic has relative error `ε`; for `ε = 0` it is the exact one. -/
theorem C113_stretched (so : SetOrder) (hε : 0 ≤ ε) (h : ∀ g ∈ gs, g.ValidOn n) :
    (ArithDM.stretched so values ε).Accurate n ε values gs where
  op := (Arith.stretched_accurate n values gs hε).op
  mul := (Arith.stretched_accurate n values gs hε).mul
  app := by
    intro g _ ρ u T hρ hu hT
    obtain ⟨r, h1, h2, h3⟩ := applyOperatorDM_opMat so hρ hu
    obtain ⟨k1, k2⟩ := smul_dm h2 ((1 + ε : ℝ) : ℂ)
    refine ⟨_, by simp only [ArithDM.stretched, h1]; rfl, k1, ?_⟩
    refine TraceNormLe.stretch hT.conj_norm hε ?_
    rw [k2, h3]; rfl
  noise := by
    intro g hg nis _ ni _ s hs t ht ρ T hρ hT
    have htn : t < n := (h g hg).dims.lt t (by simp [ht])
    obtain ⟨r, h1, h2, h3⟩ := exact_noise (values := values) so hs htn hρ
    obtain ⟨k1, k2⟩ := smul_dm h2 ((1 + ε : ℝ) : ℂ)
    refine ⟨_, by simp only [ArithDM.stretched, h1]; rfl, k1, ?_⟩
    refine TraceNormLe.stretch (hT.kraus (krausOn_chan hs htn (S := [t]) (by simp))) hε ?_
    rw [k2, h3]

/-- **C113** (the hypotheses of `C113_entries` can hold): the same arithmetic, measured entry by entry. -/
theorem C113_entries_stretched (so : SetOrder) (hε : 0 ≤ ε) (h : ∀ g ∈ gs, g.ValidOn n) :
    (ArithDM.stretched so values ε).EntryAccurate n (Real.sqrt (2 ^ n) * ε) values gs := by
  have h1 : (1 : ℝ) ≤ Real.sqrt (2 ^ n) := Real.one_le_sqrt.2 (one_le_pow₀ (by norm_num))
  have hle : ε ≤ Real.sqrt (2 ^ n) * ε := le_mul_of_one_le_left hε h1
  refine ⟨fun g hg u e1 e2 => ?_, fun g hg a b ha hb => ?_, fun g hg ρ u hρ hu => ?_,
    fun g hg nis hnis ni hni s hs t ht ρ hρ => ?_⟩
  · obtain ⟨r, c1, c2, c3⟩ := (C113_stretched so hε h).op g hg u e1 e2
    exact ⟨r, c1, c2, c3.trans hle⟩
  · obtain ⟨r, c1, c2, c3⟩ := (C113_stretched so hε h).mul g hg a b ha hb
    exact ⟨r, c1, c2, c3.trans (mul_le_mul_of_nonneg_right hle (mul_nonneg (norm_nonneg _) (norm_nonneg _)))⟩
  · obtain ⟨r, h1, h2, h3⟩ := (C113_stretched (values := values) so hε h).app g hg ρ u _ hρ hu (TraceNormLe.of_frob _)
    exact ⟨r, h1, h2, h3.frob_le.trans (le_of_eq (by ring))⟩
  · obtain ⟨r, h1, h2, h3⟩ := (C113_stretched (values := values) so hε h).noise g hg nis hnis ni hni s hs t ht ρ _ hρ
      (TraceNormLe.of_frob _)
    exact ⟨r, h1, h2, h3.frob_le.trans (le_of_eq (by ring))⟩

theorem chan_scale {ni : NoiseInstance} {s : StdNoise} (h : ni.Is s) {t : ℕ} (ht : t < n) (c : ℂ)
    (X : Matrix (Lab n) (Lab n) ℂ) : s.chan n t (c • X) = c • s.chan n t X := by
  obtain ⟨As, -, -, h3⟩ := krausOn_chan (n := n) h ht (S := [t]) (by simp)
  rw [show s.chan n t (c • X) = _ from h3 _, show s.chan n t X = _ from h3 _, List.smul_sum, List.map_map]
  refine congrArg List.sum (List.map_congr_left fun A _ => ?_)
  simp only [Function.comp_apply, conjBy, Matrix.mul_smul, Matrix.smul_mul]

theorem stretched_loop (so : SetOrder) {nis : List NoiseInstance} {ns : List StdNoise}
    (h : List.Forall₂ NoiseInstance.Is nis ns) {t : ℕ} (ht : t < n) {c : ℝ} {ρ ρ' : DensityMatrix ℂ} (hρ : IsDM n ρ)
    (hρ' : IsDM n ρ') (hc : dmMat n ρ'.array = (c : ℂ) • dmMat n ρ.array) :
    ∃ r r', nis.foldlM (fun dm ni => (ArithDM.exact so values).noise dm ni [t] (List.range n)) ρ = .ok r ∧
      nis.foldlM (fun dm ni => (ArithDM.stretched so values ε).noise dm ni [t] (List.range n)) ρ' = .ok r' ∧
      IsDM n r ∧ IsDM n r' ∧ dmMat n r'.array = ((c * (1 + ε) ^ nis.length : ℝ) : ℂ) • dmMat n r.array := by
  induction h generalizing ρ ρ' c with
  | nil => exact ⟨ρ, ρ', rfl, rfl, hρ, hρ', by simpa using hc⟩
  | @cons ni s nis ns h _ ih =>
    obtain ⟨r, a1, a2, a3⟩ := exact_noise (values := values) so h ht hρ
    obtain ⟨q, b1, b2, b3⟩ := exact_noise (values := values) so h ht hρ'
    obtain ⟨k1, k2⟩ := smul_dm b2 ((1 + ε : ℝ) : ℂ)
    obtain ⟨x, x', c1, c2, c3, c4, c5⟩ := ih (c := c * (1 + ε)) a2 k1 (by
      rw [k2, b3, hc, chan_scale h ht, a3, smul_smul]; push_cast; rw [mul_comm (c : ℂ)])
    refine ⟨x, x', ?_, ?_, c3, c4, ?_⟩
    · rw [List.foldlM_cons, a1]; exact c1
    · have : (ArithDM.stretched so values ε).noise ρ' ni [t] (List.range n) = .ok ⟨smul ((1 + ε : ℝ) : ℂ) q.array⟩ := by
        simp only [ArithDM.stretched, b1]; rfl
      rw [List.foldlM_cons, this]; exact c2
    · rw [c5, List.length_cons, pow_succ', mul_assoc]

theorem stretched_step (so : SetOrder) {o : NDArray ℂ × List ℕ × Ctl} (ho : WfOp n o) {z : Option (List NoiseInstance)}
    (hz : NoisyOk gs o z) {c : ℝ} {ρ ρ' : DensityMatrix ℂ} (hρ : IsDM n ρ) (hρ' : IsDM n ρ')
    (hc : dmMat n ρ'.array = (c : ℂ) • dmMat n ρ.array) :
    ∃ r r', (ArithDM.exact so values).step ρ o z = .ok r ∧ (ArithDM.stretched so values ε).step ρ' o z = .ok r' ∧
      IsDM n r ∧ IsDM n r' ∧
      dmMat n r'.array = ((c * (1 + ε) ^ (1 + (z.getD []).length) : ℝ) : ℂ) • dmMat n r.array := by
  obtain ⟨r, a1, a2, a3⟩ := applyOperatorDM_opMat so hρ ho
  obtain ⟨q, b1, b2, b3⟩ := applyOperatorDM_opMat so hρ' ho
  obtain ⟨k1, k2⟩ := smul_dm b2 ((1 + ε : ℝ) : ℂ)
  have e1 : (ArithDM.exact so values).app ρ o.1 o.2.1 o.2.2 = .ok r := a1
  have e2 : (ArithDM.stretched so values ε).app ρ' o.1 o.2.1 o.2.2 = .ok ⟨smul ((1 + ε : ℝ) : ℂ) q.array⟩ := by
    simp only [ArithDM.stretched, b1]; rfl
  have hk : dmMat n (smul ((1 + ε : ℝ) : ℂ) q.array) = ((c * (1 + ε) : ℝ) : ℂ) • dmMat n r.array := by
    rw [k2, b3, hc, a3, Matrix.mul_smul, Matrix.smul_mul, smul_smul]; push_cast; rw [mul_comm (c : ℂ)]
  rcases hz with rfl | ⟨g, hg, hgz, hgt, ns, hns⟩
  · exact ⟨r, _, by simp only [ArithDM.step, e1]; rfl, by simp only [ArithDM.step, e2]; rfl, a2, k1, by simpa using hk⟩
  · cases hns with
    | none h =>
      obtain rfl : z = none := hgz.symm.trans h
      exact ⟨r, _, by simp only [ArithDM.step, e1]; rfl, by simp only [ArithDM.step, e2]; rfl, a2, k1, by simpa using hk⟩
    | @some nis _ h hn ht =>
      obtain rfl : z = some nis := hgz.symm.trans h
      rcases ht with rfl | ⟨t, ht⟩
      · exact ⟨r, _, by simp only [ArithDM.step, e1]; rfl, by simp only [ArithDM.step, e2]; rfl, a2, k1, by simpa using hk⟩
      · have hot : o.2.1 = [t] := by rw [hgt]; exact ht
        have htn : t < n := ho.dims.lt t (by simp [hot])
        obtain ⟨x, x', c1, c2, c3, c4, c5⟩ := stretched_loop (values := values) (ε := ε) so hn htn a2 k1 hk
        refine ⟨x, x', ?_, ?_, c3, c4, ?_⟩
        · simp only [ArithDM.step, e1, bind, Except.bind, numQubitsDM_eq a2]
          rw [hot]; exact c1
        · simp only [ArithDM.step, e2, bind, Except.bind, numQubitsDM_eq k1]
          rw [hot]; exact c2
        · rw [c5, Option.getD_some, pow_add, pow_one, mul_assoc]

theorem stretched_foldlM_dm (so : SetOrder) : ∀ {ops : List (NDArray ℂ × List ℕ × Ctl)}
    {zs : List (Option (List NoiseInstance))} (_ : ops.length = zs.length) (_ : ∀ o ∈ ops, WfOp n o)
    (_ : ∀ x ∈ ops.zip zs, NoisyOk gs x.1 x.2) {c : ℝ} {ρ ρ' : DensityMatrix ℂ} (_ : IsDM n ρ) (_ : IsDM n ρ')
    (_ : dmMat n ρ'.array = (c : ℂ) • dmMat n ρ.array),
    ∃ r r', (ops.zip zs).foldlM (fun st o => (ArithDM.exact so values).step st o.1 o.2) ρ = .ok r ∧
      (ops.zip zs).foldlM (fun st o => (ArithDM.stretched so values ε).step st o.1 o.2) ρ' = .ok r' ∧
      IsDM n r ∧ IsDM n r' ∧
      dmMat n r'.array = ((c * (1 + ε) ^ (ops.length + noiseCount zs) : ℝ) : ℂ) • dmMat n r.array
  | [], [], _, _, _, c, ρ, ρ', h1, h2, h3 => ⟨ρ, ρ', rfl, rfl, h1, h2, by simpa [noiseCount] using h3⟩
  | o :: ops, z :: zs, hl, hw, hz, c, ρ, ρ', h1, h2, h3 => by
    obtain ⟨r, r', a1, a2, a3, a4, a5⟩ := stretched_step (values := values) (ε := ε) so (hw o (by simp))
      (hz (o, z) (by simp)) h1 h2 h3
    obtain ⟨x, x', c1, c2, c3, c4, c5⟩ := stretched_foldlM_dm so (by simpa using hl) (fun o ho => hw o (by simp [ho]))
      (fun x hx => hz x (by simp [hx])) a3 a4 a5
    refine ⟨x, x', ?_, ?_, c3, c4, ?_⟩
    · rw [List.zip_cons_cons, List.foldlM_cons, a1]; exact c1
    · rw [List.zip_cons_cons, List.foldlM_cons, a2]; exact c2
    · rw [c5]
      congr 2
      simp only [noiseCount, List.map_cons, List.sum_cons, List.length_cons]
      ring

/-- **C113** (the growth is real): for every circuit there is an arithmetic with relative error `ε` whose result is
exactly `(1 + ε)^(k + m)` times the exact one. -/
theorem C113_sharp (so : SetOrder) (hε : 0 ≤ ε) (h : ∀ g ∈ gs, g.UnitaryOn n values) (hne : gs ≠ [])
    (hns : ∀ g ∈ gs, ∃ ns, g.NoiseIs ns) {ρ : DensityMatrix ℂ} (hρ : IsDM n ρ) :
    ∃ A : ArithDM, A.Accurate n ε values gs ∧ ∃ r e, A.run ρ (.list gs) false false = .ok r ∧
      applyGates so (.dm ρ) (.list gs) values .unitary false false = .ok (.dm e) ∧
      dmMat n r.array = (((1 + ε) ^ (gs.length + noiseSteps gs) : ℝ) : ℂ) • dmMat n e.array := by
  have hok : ∀ g ∈ gs, g.Ok n .unitary values := fun g hg =>
    ⟨(h g hg).op.imp fun _ hu => ⟨hu.1, hu.2.1⟩, (h g hg).valid⟩
  refine ⟨ArithDM.stretched so values ε, C113_stretched so hε fun g hg => (h g hg).valid, ?_⟩
  obtain ⟨ops, h1, h2, h3, -⟩ := triples_ok hok
  have hemp : gs.isEmpty = false := by cases gs <;> simp_all
  have hlen : (List.zipWith (fun o (g : Gate) => (o, g.target, g.control)) ops gs).length = gs.length := by simp [h2]
  obtain ⟨e, r, e1, e2, e3, e4, e5⟩ := stretched_foldlM_dm (values := values) (ε := ε) (gs := gs) (c := 1) so
    (zs := gs.map Gate.noise) (by rw [hlen, List.length_map]) h3
    (zipWith_noisyOk (fun _ hg => hg) hns ops) hρ hρ (by simp)
  refine ⟨r, e, ?_, ?_, ?_⟩
  · have h1' : gs.mapM (ArithDM.stretched so values ε).op = .ok ops := h1
    simp only [ArithDM.run, prepareSequenceReduce, Bool.false_eq_true, if_false, h1', Bool.and_false]
    simp only [bind, Except.bind, hemp, Bool.false_eq_true, if_false]
    exact e2
  · have h1' : gs.mapM (ArithDM.exact so values).op = .ok ops := h1
    rw [C113_exact]
    simp only [ArithDM.run, prepareSequenceReduce, Bool.false_eq_true, if_false, h1', Bool.and_false]
    simp only [bind, Except.bind, hemp, Bool.false_eq_true, if_false]
    rw [e1]; rfl
  · rw [e5, hlen, one_mul, noiseCount_perm (.refl gs)]

/-- Non-vacuity: H(0) with bit flips, CNOT(1, control 0) without noise, RX("θ")(2) with amplitude and phase damping on
three qubits, with an arithmetic that is off by one percent in every step. -/
example : ∃ gs : List Gate,
    gs = [Gate.H (.int 0) .none (some [⟨.bitFlip, .float (1 / 10)⟩]), Gate.X (.int 1) (.int 0),
      Gate.RX (.str "θ") (.int 2) .none (some [⟨.amplitudeDamping, .float (1 / 5)⟩, ⟨.phaseDamping, .float (1 / 4)⟩])] ∧
    (∀ g ∈ gs, g.UnitaryOn 3 [("θ", .num 1)]) ∧ (∀ g ∈ gs, ∃ ns, g.NoiseIs ns) ∧ (∃ g ∈ gs, g.noise ≠ none) ∧
    noiseSteps gs = 3 ∧ (4 * gs.length + noiseSteps gs : ℕ) * (1 / 100 : ℝ) ≤ 1 ∧
    ∀ so, (ArithDM.stretched so [("θ", .num 1)] (1 / 100)).Accurate 3 (1 / 100) [("θ", .num 1)] gs := by
  have hu : ∀ g ∈ [Gate.H (.int 0) .none (some [⟨.bitFlip, .float (1 / 10)⟩]), Gate.X (.int 1) (.int 0),
      Gate.RX (.str "θ") (.int 2) .none (some [⟨.amplitudeDamping, .float (1 / 5)⟩, ⟨.phaseDamping, .float (1 / 4)⟩])],
      g.UnitaryOn 3 [("θ", .num 1)] := by
    simp only [List.mem_cons, List.not_mem_nil, or_false, forall_eq_or_imp, forall_eq]
    exact ⟨Gate.Std.unitaryOn (s := .H) ⟨.H _ _ _, rfl, ⟨.inl rfl, by decide⟩⟩,
      Gate.Std.unitaryOn (s := .X) ⟨.X _ _ _, rfl, ⟨.inr (.inr ⟨[0], rfl⟩), by decide⟩⟩,
      Gate.Std.unitaryOn (s := .RX 1) ⟨.RX _ _ _ (.str rfl) (by norm_num), rfl, ⟨.inl rfl, by decide⟩⟩⟩
  refine ⟨_, rfl, hu, ?_, ⟨Gate.H (.int 0) .none (some [⟨.bitFlip, .float (1 / 10)⟩]), by simp, Option.some_ne_none _⟩, rfl, ?_,
    fun so => C113_stretched so (by norm_num) fun g hg => (hu g hg).valid⟩
  · simp only [List.mem_cons, List.not_mem_nil, or_false, forall_eq_or_imp, forall_eq]
    refine ⟨⟨_, .some rfl (.cons (.bitFlip (by norm_num)) .nil) (.inr ⟨0, rfl⟩)⟩, ⟨_, .none rfl⟩,
      ⟨_, .some rfl (.cons (.amplitudeDamping (by norm_num)) (.cons (.phaseDamping (by norm_num)) .nil)) (.inr ⟨2, rfl⟩)⟩⟩
  · change ((15 : ℕ) : ℝ) * (1 / 100) ≤ 1
    norm_num

end Verif
