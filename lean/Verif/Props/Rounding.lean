import Verif.Lemmas.Rounding
import Verif.Lemmas.Expect
import Verif.Props.Apply
import Verif.Props.Sampling

/-!
# C103: rounding errors grow at most linearly with the number of gates

The state that `apply_gates` returns when every matrix, every product of matrices and every application of a matrix is
computed with some relative error, against the state that exact arithmetic gives.
-/

set_option autoImplicit false

namespace Verif
open NDArray
open scoped Matrix.Norms.L2Operator
variable {n : ℕ} {values : Values} {gs : List Gate} {A : Arith} {ε : ℝ}

/-- **C103** (the model is the one of exact runs): with exact arithmetic the run is `apply_gates`, for every list of
noiseless gates (also ones it refuses) and all flags. -/
theorem C103_exact (so : SetOrder) (hnz : ∀ g ∈ gs, g.noise = none) (a : NDArray ℂ) (group merge : Bool) :
    applyGates so (.vec a) (.list gs) values .unitary group merge
      = ((Arith.exact values).run a (.list gs) group merge).map .vec := by
  have hall : ∀ hs : List Gate, hs.Perm gs → allNoiseless (hs.map Gate.noise) = true :=
    fun hs hp => allNoiseless_map fun g hg => hnz g (hp.mem_iff.1 hg)
  obtain ⟨hs, hhs, hperm⟩ : ∃ hs, (if group then groupByIndex gs else gs) = hs ∧ hs.Perm gs := by
    cases group with
    | false => exact ⟨gs, rfl, .refl _⟩
    | true => exact ⟨_, rfl, groupByIndex_perm gs⟩
  have hn := hall hs hperm
  have hprep : ∀ x, prepareSequenceReduce (fun g => g.operator .unitary values) NDArray.matmul (.list gs) group merge
      = .ok x → allNoiseless x.2 = true := by
    intro x hx
    simp only [prepareSequenceReduce, hhs, hn, Bool.true_and, bind, Except.bind] at hx
    split at hx
    · cases hx
    · split_ifs at hx
      · split at hx
        · cases hx
        · cases hx; exact hn
      · cases hx; exact hn
  simp only [applyGates, Arith.run, Arith.exact]
  rcases hP : prepareSequenceReduce (fun g => g.operator .unitary values) NDArray.matmul (.list gs) group merge with e | x
  · rfl
  · simp only [bind, Except.bind, hprep x hP, Bool.not_true, Bool.false_eq_true, if_false, reduceApply]
    generalize x.1.foldlM (fun st o => applyOperator st o.1 o.2.1 o.2.2) a = y
    cases y <;> rfl

/-- **C103** (the state): if each operation has relative error at most `ε`, then after `k` gates the computed state is
within `((1 + ε)^(3k) - 1)` times the length of the initial state of the exact one: with and without grouping and
merging. -/
theorem C103_run (so : SetOrder) (hε : 0 ≤ ε) (hA : A.Accurate n ε values gs) (h : ∀ g ∈ gs, g.UnitaryOn n values)
    (hne : gs ≠ []) (hnz : ∀ g ∈ gs, g.noise = none) {a : NDArray ℂ} (ha : IsKet n a) (group merge : Bool) :
    ∃ r e, A.run a (.list gs) group merge = .ok r ∧ IsKet n r ∧
      applyGates so (.vec a) (.list gs) values .unitary group merge = .ok (.vec e) ∧ IsKet n e ∧
      ketNorm (ket n e) ≤ ketNorm (ket n a) ∧
      ketNorm (ket n r - ket n e) ≤ ((1 + ε) ^ (3 * gs.length) - 1) * ketNorm (ket n a) := by
  obtain ⟨ops, ops', noise, J, h1, h2, h3, h4, h5⟩ := prepare_near hε hA h hne hnz group merge
  have hz : ketNorm (ket n a - ket n a) ≤ ((1 + ε) ^ 0 - 1) * ketNorm (ket n a) := by
    rw [sub_self]; simp [ketNorm]
  obtain ⟨e, r, c1, c2, c3, c4, c5, c6⟩ := foldlM_near hε hA (ketNorm_nonneg _) h4 ha ha le_rfl hz
  refine ⟨r, e, ?_, c4, ?_, c3, c5, c6.trans ?_⟩
  · simp only [Arith.run, h3]; exact c2
  · simp only [applyGates, h1]
    simp only [bind, Except.bind, h2, Bool.not_true, Bool.false_eq_true, if_false, c1]
  · have hle : 0 + J + ops.length ≤ 3 * gs.length := by omega
    have := ketNorm_nonneg (ket n a)
    gcongr
    linarith

/-- **C103** (linear growth): as long as `3kε ≤ 1`, the error is at most `6kε` times the length of the initial state. -/
theorem C103_linear (so : SetOrder) (hε : 0 ≤ ε) (hA : A.Accurate n ε values gs) (h : ∀ g ∈ gs, g.UnitaryOn n values)
    (hne : gs ≠ []) (hnz : ∀ g ∈ gs, g.noise = none) {a : NDArray ℂ} (ha : IsKet n a) (group merge : Bool)
    (hk : 3 * gs.length * ε ≤ 1) :
    ∃ r e, A.run a (.list gs) group merge = .ok r ∧
      applyGates so (.vec a) (.list gs) values .unitary group merge = .ok (.vec e) ∧
      ketNorm (ket n r - ket n e) ≤ 6 * gs.length * ε * ketNorm (ket n a) := by
  obtain ⟨r, e, h1, -, h3, -, -, h6⟩ := C103_run so hε hA h hne hnz ha group merge
  refine ⟨r, e, h1, h3, h6.trans ?_⟩
  have := one_add_pow_le hε (m := 3 * gs.length) (by push_cast; linarith)
  have hN := ketNorm_nonneg (ket n a)
  push_cast at this
  have h7 : (1 + ε) ^ (3 * gs.length) - 1 ≤ 6 * gs.length * ε := by linarith
  gcongr

/-- The inner product form of an expectation value, bounded by Cauchy and Schwarz. -/
theorem abs_inner_mulVec_le (O : Matrix (Lab n) (Lab n) ℂ) (v w : Lab n → ℂ) :
    |(∑ x, star (v x) * O.mulVec w x).re| ≤ ‖O‖ * (ketNorm v * ketNorm w) := by
  have h1 : ∑ x, star (v x) * O.mulVec w x
      = Inner.inner ℂ (WithLp.toLp 2 v : EuclideanSpace ℂ (Lab n)) (WithLp.toLp 2 (O.mulVec w)) := by
    rw [PiLp.inner_apply]
    exact Finset.sum_congr rfl fun x _ => by simp [mul_comm]
  rw [h1]
  calc _ ≤ ‖Inner.inner ℂ (WithLp.toLp 2 v : EuclideanSpace ℂ (Lab n)) (WithLp.toLp 2 (O.mulVec w))‖ :=
        Complex.abs_re_le_norm _
    _ ≤ ‖(WithLp.toLp 2 v : EuclideanSpace ℂ (Lab n))‖ * ‖(WithLp.toLp 2 (O.mulVec w) : EuclideanSpace ℂ (Lab n))‖ :=
        norm_inner_le_norm _ _
    _ ≤ ketNorm v * (‖O‖ * ketNorm w) := by
        rw [← ketNorm_eq, ← ketNorm_eq]
        gcongr
        · exact ketNorm_nonneg _
        · exact ketNorm_mulVec _ _
    _ = _ := by ring

/-- **C103** (expectation values): the expectation of an observable `O` in the computed state differs from the one in
the exact state by at most `‖O‖ ((1 + ε)^(6k) - 1)` times the squared length of the initial state. -/
theorem C103_expectation (so : SetOrder) (hε : 0 ≤ ε) (hA : A.Accurate n ε values gs)
    (h : ∀ g ∈ gs, g.UnitaryOn n values) (hne : gs ≠ []) (hnz : ∀ g ∈ gs, g.noise = none) {a : NDArray ℂ} (ha : IsKet n a)
    (group merge : Bool) {o : Observable} {O : Matrix (Lab n) (Lab n) ℂ} (ho : o.Means (AnyLeaf n values) values O) :
    ∃ r e x y, A.run a (.list gs) group merge = .ok r ∧
      applyGates so (.vec a) (.list gs) values .unitary group merge = .ok (.vec e) ∧
      expectSingle so values o (.vec r) = .ok x ∧ expectSingle so values o (.vec e) = .ok y ∧
      |x - y| ≤ ‖O‖ * (((1 + ε) ^ (6 * gs.length) - 1) * ketNorm (ket n a) ^ 2) := by
  obtain ⟨r, e, h1, h2, h3, h4, h5, h6⟩ := C103_run so hε hA h hne hnz ha group merge
  refine ⟨r, e, _, _, h1, h3, expectSingle_vec so ho h2, expectSingle_vec so ho h4, ?_⟩
  rw [expVal_vec, expVal_vec]
  set v := ket n r
  set w := ket n e
  set N := ketNorm (ket n a)
  have hN : 0 ≤ N := ketNorm_nonneg _
  have hs : (∑ x, star (v x) * O.mulVec v x).re - (∑ x, star (w x) * O.mulVec w x).re
      = (∑ x, star ((v - w) x) * O.mulVec v x).re + (∑ x, star (w x) * O.mulVec (v - w) x).re := by
    rw [← Complex.sub_re, ← Complex.add_re, ← Finset.sum_sub_distrib, ← Finset.sum_add_distrib]
    congr 1
    refine Finset.sum_congr rfl fun x _ => ?_
    rw [Matrix.mulVec_sub, Pi.sub_apply, Pi.sub_apply, star_sub]
    ring
  have p : (1 : ℝ) ≤ (1 + ε) ^ (3 * gs.length) := one_le_pow₀ (by linarith)
  have hv : ketNorm v ≤ (1 + ε) ^ (3 * gs.length) * N := by
    calc ketNorm v = ketNorm ((v - w) + w) := by rw [sub_add_cancel]
      _ ≤ ketNorm (v - w) + ketNorm w := ketNorm_add _ _
      _ ≤ ((1 + ε) ^ (3 * gs.length) - 1) * N + N := by gcongr
      _ = _ := by ring
  have hq : (1 + ε) ^ (6 * gs.length) = (1 + ε) ^ (3 * gs.length) * (1 + ε) ^ (3 * gs.length) := by
    rw [← pow_add]; congr 1; omega
  rw [hs, hq]
  generalize (1 + ε) ^ (3 * gs.length) = P at *
  calc _ ≤ |(∑ x, star ((v - w) x) * O.mulVec v x).re| + |(∑ x, star (w x) * O.mulVec (v - w) x).re| := abs_add_le _ _
    _ ≤ ‖O‖ * (ketNorm (v - w) * ketNorm v) + ‖O‖ * (ketNorm w * ketNorm (v - w)) :=
        add_le_add (abs_inner_mulVec_le _ _ _) (abs_inner_mulVec_le _ _ _)
    _ ≤ ‖O‖ * (((P - 1) * N) * (P * N)) + ‖O‖ * (N * ((P - 1) * N)) := by
        gcongr
        · exact ketNorm_nonneg _
        · exact ketNorm_nonneg _
    _ = _ := by ring

/-- **C103** (measurement): the probabilities of the computed state differ from the exact ones, summed over all
outcomes, by at most `(1 + ε)^(6k) - 1` times the squared length of the initial state. -/
theorem C103_probabilities (so : SetOrder) (hε : 0 ≤ ε) (hA : A.Accurate n ε values gs)
    (h : ∀ g ∈ gs, g.UnitaryOn n values) (hne : gs ≠ []) (hnz : ∀ g ∈ gs, g.noise = none) {a : NDArray ℂ} (ha : IsKet n a)
    (group merge : Bool) :
    ∃ r e P Q, A.run a (.list gs) group merge = .ok r ∧
      applyGates so (.vec a) (.list gs) values .unitary group merge = .ok (.vec e) ∧
      probabilities (.vec r) = .ok ⟨[2 ^ n], P⟩ ∧ probabilities (.vec e) = .ok ⟨[2 ^ n], Q⟩ ∧
      ∑ b : Lab n, |P.getD (binVal b.bits) 0 - Q.getD (binVal b.bits) 0|
        ≤ ((1 + ε) ^ (6 * gs.length) - 1) * ketNorm (ket n a) ^ 2 := by
  obtain ⟨r, e, h1, h2, h3, h4, h5, h6⟩ := C103_run so hε hA h hne hnz ha group merge
  obtain ⟨P, p1, -, p2, -, -⟩ := C52_probabilities_vec h2
  obtain ⟨Q, q1, -, q2, -, -⟩ := C52_probabilities_vec h4
  refine ⟨r, e, P, Q, h1, h3, p1, q1, ?_⟩
  simp only [List.getD_eq_getElem?_getD, p2, q2, Option.getD_some]
  set v := ket n r
  set w := ket n e
  set N := ketNorm (ket n a)
  have hN : 0 ≤ N := ketNorm_nonneg _
  have p : (1 : ℝ) ≤ (1 + ε) ^ (3 * gs.length) := one_le_pow₀ (by linarith)
  have hv : ketNorm v ≤ (1 + ε) ^ (3 * gs.length) * N := by
    calc ketNorm v = ketNorm ((v - w) + w) := by rw [sub_add_cancel]
      _ ≤ ketNorm (v - w) + ketNorm w := ketNorm_add _ _
      _ ≤ ((1 + ε) ^ (3 * gs.length) - 1) * N + N := by gcongr
      _ = _ := by ring
  have hq : (1 + ε) ^ (6 * gs.length) = (1 + ε) ^ (3 * gs.length) * (1 + ε) ^ (3 * gs.length) := by
    rw [← pow_add]; congr 1; omega
  have cs : ∀ f g : Lab n → ℂ, ∑ b, ‖f b‖ * ‖g b‖ ≤ ketNorm f * ketNorm g := fun f g =>
    Real.sum_mul_le_sqrt_mul_sqrt _ (fun b => ‖f b‖) (fun b => ‖g b‖)
  have hb : ∀ b, |‖v b‖ ^ 2 - ‖w b‖ ^ 2| ≤ ‖(v - w) b‖ * ‖v b‖ + ‖(v - w) b‖ * ‖w b‖ := by
    intro b
    have : ‖v b‖ ^ 2 - ‖w b‖ ^ 2 = (‖v b‖ - ‖w b‖) * (‖v b‖ + ‖w b‖) := by ring
    rw [this, abs_mul, abs_of_nonneg (a := ‖v b‖ + ‖w b‖) (by positivity), ← mul_add]
    gcongr
    exact abs_norm_sub_norm_le _ _
  rw [hq]
  generalize (1 + ε) ^ (3 * gs.length) = P at *
  calc _ ≤ ∑ b, (‖(v - w) b‖ * ‖v b‖ + ‖(v - w) b‖ * ‖w b‖) := Finset.sum_le_sum fun b _ => hb b
    _ = ∑ b, ‖(v - w) b‖ * ‖v b‖ + ∑ b, ‖(v - w) b‖ * ‖w b‖ := Finset.sum_add_distrib
    _ ≤ ketNorm (v - w) * ketNorm v + ketNorm (v - w) * ketNorm w := add_le_add (cs _ _) (cs _ _)
    _ ≤ ((P - 1) * N) * (P * N) + ((P - 1) * N) * N := by
        have h0 : 0 ≤ (P - 1) * N := mul_nonneg (by linarith) hN
        gcongr
        · exact ketNorm_nonneg _
        · exact ketNorm_nonneg _
    _ = _ := by ring

/-- The standard gates on valid qubits satisfy the hypothesis of the theorems above. -/
theorem Gate.Std.unitaryOn {g : Gate} {s : StdGate} (h : g.Std n values s) : g.UnitaryOn n values := by
  obtain ⟨U, h1, h2⟩ := h.ok.op
  obtain ⟨V, e1, -, e3⟩ := C07_shifted_unitary h.is
  obtain rfl : U = V := by
    have : g.operator .unitary values = .ok V := e1
    rw [h1] at this; exact Except.ok.inj this
  exact ⟨⟨U, h1, h2, h.arity ▸ e3⟩, h.valid⟩

/-- Exact arithmetic has no error. -/
theorem Arith.exact_accurate (n : ℕ) (values : Values) (gs : List Gate) :
    (Arith.exact values).Accurate n 0 values gs where
  op := fun g _ u h1 h2 => ⟨u, h1, h2, by simp⟩
  mul := by
    intro g _ a b ha hb
    obtain ⟨r, h1, h2, h3⟩ := matmul_isOp ha hb
    refine ⟨r, h1, h2, ?_⟩
    rw [← matOf_mulE]
    have : matOf (2 ^ g.target.length) (entries r)
        = matOf (2 ^ g.target.length) (mulE (2 ^ g.target.length) (entries a) (entries b)) := by
      funext i j; exact h3 i j i.2 j.2
    rw [this]; simp
  app := by
    intro g _ st u hst ho
    obtain ⟨r, h1, h2, h3⟩ := applyOperator_opMat hst ho
    exact ⟨r, h1, h2, by rw [h3, sub_self]; simp [ketNorm]⟩

/-- An arithmetic that makes every applied gate come out too long by the factor `1 + ε`. -/
noncomputable def Arith.stretched (values : Values) (ε : ℝ) : Arith where
  op := (Arith.exact values).op
  mul := (Arith.exact values).mul
  app := fun st op ts c => do
    let r ← applyOperator st op ts c
    .ok (smul ((1 + ε : ℝ) : ℂ) r)

theorem ketNorm_smul (z : ℂ) (v : Lab n → ℂ) : ketNorm (z • v) = ‖z‖ * ketNorm v := by
  simp only [ketNorm_eq, WithLp.toLp_smul, norm_smul]

theorem Arith.stretched_accurate (n : ℕ) (values : Values) (gs : List Gate) (hε : 0 ≤ ε) :
    (Arith.stretched values ε).Accurate n ε values gs where
  op := by
    intro g hg u h1 h2
    obtain ⟨r, e1, e2, e3⟩ := (Arith.exact_accurate n values gs).op g hg u h1 h2
    exact ⟨r, e1, e2, e3.trans hε⟩
  mul := by
    intro g hg a b ha hb
    obtain ⟨r, e1, e2, e3⟩ := (Arith.exact_accurate n values gs).mul g hg a b ha hb
    refine ⟨r, e1, e2, e3.trans ?_⟩
    rw [zero_mul]; positivity
  app := by
    intro g _ st u hst ho
    obtain ⟨r, h1, h2, h3⟩ := applyOperator_opMat hst ho
    obtain ⟨k1, k2⟩ := smul_ket h2 ((1 + ε : ℝ) : ℂ)
    refine ⟨_, by simp only [Arith.stretched, h1]; rfl, k1, ?_⟩
    rw [k2, h3]
    generalize (u, g.target, g.control) = o
    have : ((1 + ε : ℝ) : ℂ) • (opMat n o).mulVec (ket n st) - (opMat n o).mulVec (ket n st)
        = (ε : ℂ) • (opMat n o).mulVec (ket n st) := by
      push_cast; rw [add_smul, one_smul]; abel
    rw [this, ketNorm_smul, Complex.norm_real, Real.norm_of_nonneg hε]
    gcongr
    exact ketNorm_mulVec _ _

theorem stretched_foldlM {ops : List (NDArray ℂ × List ℕ × Ctl)} (h : ∀ o ∈ ops, WfOp n o) :
    ∀ {st : NDArray ℂ}, IsKet n st →
    ∃ r, ops.foldlM (fun st o => (Arith.stretched values ε).app st o.1 o.2.1 o.2.2) st = .ok r ∧ IsKet n r ∧
      ket n r = (((1 + ε : ℝ) : ℂ) ^ ops.length) • (circMat n ops).mulVec (ket n st) := by
  induction ops with
  | nil => intro st hst; exact ⟨st, rfl, hst, by simp [circMat]⟩
  | cons o os ih =>
    intro st hst
    obtain ⟨r, h1, h2, h3⟩ := applyOperator_opMat hst (h o (by simp))
    obtain ⟨k1, k2⟩ := smul_ket h2 ((1 + ε : ℝ) : ℂ)
    obtain ⟨q, e1, e2, e3⟩ := ih (fun x hx => h x (by simp [hx])) k1
    refine ⟨q, ?_, e2, ?_⟩
    · rw [List.foldlM_cons]
      simp only [Arith.stretched, h1] at e1 ⊢
      exact e1
    · rw [e3, k2, h3, circMat, ← Matrix.mulVec_mulVec, Matrix.mulVec_smul, smul_smul, List.length_cons, pow_succ]

/-- **C103** (the growth is real): some arithmetic of accuracy `ε` is off by exactly `((1 + ε)^k - 1)` times the length of
the initial state after `k` gates, so no bound that does not grow with the number of gates holds. -/
theorem C103_attained (so : SetOrder) (hε : 0 ≤ ε) (h : ∀ g ∈ gs, g.UnitaryOn n values) (hne : gs ≠ [])
    (hnz : ∀ g ∈ gs, g.noise = none) {a : NDArray ℂ} (ha : IsKet n a) :
    ∃ A : Arith, A.Accurate n ε values gs ∧ ∃ r e, A.run a (.list gs) false false = .ok r ∧
      applyGates so (.vec a) (.list gs) values .unitary false false = .ok (.vec e) ∧
      ketNorm (ket n r - ket n e) = ((1 + ε) ^ gs.length - 1) * ketNorm (ket n a) := by
  have hok : ∀ g ∈ gs, g.Ok n .unitary values := fun g hg =>
    ⟨(h g hg).op.imp fun _ hu => ⟨hu.1, hu.2.1⟩, (h g hg).valid⟩
  refine ⟨Arith.stretched values ε, Arith.stretched_accurate n values gs hε, ?_⟩
  obtain ⟨ops, h1, h2, h3, h4⟩ := triples_ok hok
  have hemp : gs.isEmpty = false := by cases gs <;> simp_all
  obtain ⟨r, e1, e2, e3⟩ := stretched_foldlM (values := values) (ε := ε) h3 ha
  obtain ⟨e, f1, f2, f3⟩ := applyGates_vec so hne hok hnz ha false
  refine ⟨r, e, ?_, f1, ?_⟩
  · have h1' : gs.mapM (Arith.stretched values ε).op = .ok ops := h1
    simp only [Arith.run, prepareSequenceReduce, Bool.false_eq_true, if_false, h1', Bool.and_false]
    simp only [bind, Except.bind, hemp, Bool.false_eq_true, if_false]
    exact e1
  · have hlen : (List.zipWith (fun o (g : Gate) => (o, g.target, g.control)) ops gs).length = gs.length := by
      simp [h2]
    have hnorm : ketNorm (ket n e) = ketNorm (ket n a) := by
      have hU : (gatesMat n .unitary values gs).conjTranspose * gatesMat n .unitary values gs = 1 := by
        clear h1 h2 h3 h4 e1 e2 e3 f1 f2 f3 hemp hlen hne hnz hok
        induction gs with
        | nil => simp [gatesMat]
        | cons g gs ih =>
          obtain ⟨⟨U, hU, -, huni⟩, hv⟩ := h g (by simp)
          rw [gatesMat, Matrix.conjTranspose_mul, mul_assoc, ← mul_assoc _ (gatesMat n .unitary values gs),
            ih (fun x hx => h x (by simp [hx])), one_mul, Gate.Ok.mat_eq hU]
          exact (gateMat_unitary hv.dims huni).1
      refine le_antisymm ?_ ?_
      · rw [f3]
        refine (ketNorm_mulVec _ _).trans ?_
        have := norm_le_one_of_star_mul hU
        have hN := ketNorm_nonneg (ket n a)
        nlinarith
      · have hback : ket n a = (gatesMat n .unitary values gs).conjTranspose.mulVec (ket n e) := by
          rw [f3, Matrix.mulVec_mulVec, hU, Matrix.one_mulVec]
        have hU' : ‖(gatesMat n .unitary values gs).conjTranspose‖ ≤ 1 := by
          rw [Matrix.l2_opNorm_conjTranspose]; exact norm_le_one_of_star_mul hU
        rw [hback]
        refine (ketNorm_mulVec _ _).trans ?_
        have hN := ketNorm_nonneg (ket n e)
        nlinarith
    have hdiff : ket n r - ket n e = (((1 + ε) ^ gs.length - 1 : ℝ) : ℂ) • ket n e := by
      rw [e3, hlen, h4, f3]; push_cast; rw [sub_smul, one_smul]
    have p : (1 : ℝ) ≤ (1 + ε) ^ gs.length := one_le_pow₀ (by linarith)
    rw [hdiff, ketNorm_smul, Complex.norm_real, Real.norm_of_nonneg (by linarith), hnorm]

/-- Non-vacuity: H(0), CNOT(1, control 0), RX("θ")(2) on three qubits, with an arithmetic that is off by one percent in
every applied gate. -/
example : (∀ g ∈ [Gate.H (.int 0), Gate.X (.int 1) (.int 0), Gate.RX (.str "θ") (.int 2)],
      g.UnitaryOn 3 [("θ", .num 1)]) ∧
    (Arith.stretched [("θ", .num 1)] (1 / 100)).Accurate 3 (1 / 100) [("θ", .num 1)]
      [Gate.H (.int 0), Gate.X (.int 1) (.int 0), Gate.RX (.str "θ") (.int 2)] ∧
    3 * ([Gate.H (.int 0), Gate.X (.int 1) (.int 0), Gate.RX (.str "θ") (.int 2)] : List Gate).length * (1 / 100 : ℝ) ≤ 1 := by
  refine ⟨?_, Arith.stretched_accurate _ _ _ (by norm_num), by norm_num⟩
  simp only [List.mem_cons, List.not_mem_nil, or_false, forall_eq_or_imp, forall_eq]
  refine ⟨Gate.Std.unitaryOn (s := .H) ⟨.H _ _ _, rfl, ⟨.inr (.inl rfl), by decide⟩⟩,
    Gate.Std.unitaryOn (s := .X) ⟨.X _ _ _, rfl, ⟨.inr (.inr ⟨[0], rfl⟩), by decide⟩⟩,
    Gate.Std.unitaryOn (s := .RX 1) ⟨.RX _ _ _ (.str rfl) (by norm_num), rfl, ⟨.inr (.inl rfl), by decide⟩⟩⟩

end Verif
