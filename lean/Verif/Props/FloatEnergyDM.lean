import Verif.Props.FloatDM
import Verif.Lemmas.FloatEnergyDM

/-!
# Expectation values of noisy circuits with rounded numbers

`C113_expectation` evaluates the observable exactly in the computed matrix.  Here the evaluation is rounded as well.
-/

set_option autoImplicit false

namespace Verif
open NDArray
open scoped Matrix.Norms.L2Operator
variable {F : Flops} {u δ ε τ : ℝ} {n : ℕ} {values : Values} {gs : List Gate} {A : ArithDM}

/-- The qubits and the matrix that `expectation` uses on density matrices for an observable read as `O`. -/
theorem Observable.ReadAs.matrix (so : SetOrder) {o : Observable} {O : Matrix (Lab n) (Lab n) ℂ} (h : o.ReadAs so n values O) :
    ∃ S m, o.toOp.qubitSupport so = .ok S ∧ ValidDims n S ∧ o.toOp.tensor so values none = .ok m ∧ IsOp S.length m ∧
      gateMat n (entries m) S [] = O := by
  obtain ⟨O₀, S, σ, h1, h2, h3, rfl⟩ := h
  obtain ⟨S', m, e1, e2, -, e4, e5, e6, -⟩ := expectDM_eq so h1 (ρ := densityMat (basisKet ℂ fun _ => 0))
    (densityMat_isDM (n := n) (basisKet_isKet _)).1
  obtain rfl : S' = S := by
    have : o.toOp.qubitSupport so = .ok S' := e1
    rw [h2] at this; cases this; rfl
  refine ⟨S', m, e1, e2, e4, e5, ?_⟩
  have := gateMat_relabel σ (entries m) (ts := pySorted S') (cs := []) (by
    have hp := perm_pySorted S'
    exact ⟨by simpa using hp.nodup_iff.2 e2.nodup, fun q hq => e2.lt q (hp.mem_iff.1 (by simpa using hq))⟩)
  rw [h3, e6] at this
  exact this

/-- The value of an observable, computed in a matrix close to the exact one. -/
theorem energy_near_dm (so : SetOrder) (hu : 0 ≤ u) (hδ : 0 ≤ δ) (hτ : 0 ≤ τ) (hF : F.Accurate u δ) {r e : DensityMatrix ℂ}
    (h2 : IsDM n r) (h4 : IsDM n e) {T q : ℝ} (h5 : TraceNormLe (dmMat n e.array) T)
    (h6 : TraceNormLe (dmMat n r.array - dmMat n e.array) ((q - 1) * T)) {o : Observable} {O : Matrix (Lab n) (Lab n) ℂ}
    (ho : o.ReadAs so n values O) {S : List ℕ} (hS : o.toOp.qubitSupport so = .ok S) {mat mat' : NDArray ℂ}
    (hm : o.toOp.tensor so values none = .ok mat) (hm' : IsOp S.length mat')
    (hmτ : ∀ i j, i < 2 ^ S.length → j < 2 ^ S.length → ‖entries mat' i j - entries mat i j‖ ≤ τ) :
    ∃ x y, F.expectDM mat' S r = .ok x ∧ expectSingle so values o (.dm e) = .ok y ∧
      |x - y| ≤ (‖O‖ * (q - 1) + 2 ^ S.length * τ * q
          + traceError u δ S.length n * Real.sqrt (2 ^ n) * (‖O‖ + 2 ^ S.length * τ) * q) * T := by
  obtain ⟨S', m, e1, e2, e3, e4, e5⟩ := ho.matrix so
  obtain rfl := Except.ok.inj (e1.symm.trans hS)
  obtain rfl := Except.ok.inj (e3.symm.trans hm)
  obtain ⟨x, x1, x2⟩ := expectDM_near hu hδ hF h2 e2 hm'
  refine ⟨x, _, x1, ho.single_dm so h4, ?_⟩
  have hr := h5.of_near h6
  have hd : ‖gateMat n (entries mat') S' [] - O‖ ≤ 2 ^ S'.length * τ := by
    rw [← e5]
    refine (gateMat_dist _ _ (by simpa using e2)).trans ((within_norm hτ hmτ).trans (le_of_eq ?_))
    push_cast; rfl
  generalize gateMat n (entries mat') S' [] = O' at *
  have hO' : ‖O'‖ ≤ ‖O‖ + 2 ^ S'.length * τ := by
    have := norm_add_le (O' - O) O
    rw [sub_add_cancel] at this
    linarith
  have hγ := traceError_nonneg hu hδ S'.length n
  generalize dmMat n r.array = R at *
  generalize dmMat n e.array = E at *
  have hq := hr.nonneg
  have t1 : |x - expVal O' R| ≤ traceError u δ S'.length n * (Real.sqrt (2 ^ n) * (‖O‖ + 2 ^ S'.length * τ) * (q * T)) := by
    refine x2.trans (mul_le_mul_of_nonneg_left ?_ hγ)
    refine mul_le_mul ((frob_le_norm O').trans (mul_le_mul_of_nonneg_left hO' (Real.sqrt_nonneg _))) hr.frob_le (frob_nonneg _) ?_
    have := norm_nonneg O
    positivity
  have t2 : |expVal O' R - expVal O R| ≤ q * T * (2 ^ S'.length * τ) := by
    rw [expVal, expVal, ← Complex.sub_re, ← Matrix.trace_sub, ← sub_mul]
    exact (Complex.abs_re_le_norm _).trans ((hr _).trans (mul_le_mul_of_nonneg_left hd hq))
  have t3 : |expVal O R - expVal O E| ≤ (q - 1) * T * ‖O‖ := by
    rw [expVal, expVal, ← Complex.sub_re, ← Matrix.trace_sub, ← mul_sub]
    exact (Complex.abs_re_le_norm _).trans (h6 O)
  have t := (abs_sub_le x (expVal O' R) (expVal O E)).trans
    (add_le_add t1 ((abs_sub_le (expVal O' R) (expVal O R) (expVal O E)).trans (add_le_add t2 t3)))
  refine t.trans (le_of_eq ?_)
  ring

/-- **C113** (the returned number): run a circuit of `k` gates with `m` noise channels with arithmetic of accuracy `ε` on a density
matrix of trace norm `T`, and evaluate an observable, read as the operator `O` on `s` qubits, with additions and multiplications of
accuracy `u` and `δ` from a matrix whose entries are right up to `τ`.  The number returned differs from the exact expectation value by
at most `(‖O‖ (q - 1) + 2^s τ q + γ 2^(n/2) (‖O‖ + 2^s τ) q) T` with `q = (1 + ε)^(4k + m)` and `γ = traceError u δ s n`: the error of
the run, of the observable's matrix and of the evaluation. -/
theorem C113_energy (so : SetOrder) (hu : 0 ≤ u) (hδ : 0 ≤ δ) (hτ : 0 ≤ τ) (hF : F.Accurate u δ) (hε : 0 ≤ ε)
    (hA : A.Accurate n ε values gs) (h : ∀ g ∈ gs, g.UnitaryOn n values) (hne : gs ≠ [])
    (hns : ∀ g ∈ gs, ∃ ns, g.NoiseIs ns) {ρ : DensityMatrix ℂ} (hρ : IsDM n ρ) {T : ℝ}
    (hT : TraceNormLe (dmMat n ρ.array) T) (group merge : Bool) {o : Observable} {O : Matrix (Lab n) (Lab n) ℂ}
    (ho : o.ReadAs so n values O) {S : List ℕ} (hS : o.toOp.qubitSupport so = .ok S) {mat mat' : NDArray ℂ}
    (hm : o.toOp.tensor so values none = .ok mat) (hm' : IsOp S.length mat')
    (hmτ : ∀ i j, i < 2 ^ S.length → j < 2 ^ S.length → ‖entries mat' i j - entries mat i j‖ ≤ τ) :
    ∃ r e x y, A.run ρ (.list gs) group merge = .ok r ∧
      applyGates so (.dm ρ) (.list gs) values .unitary group merge = .ok (.dm e) ∧
      F.expectDM mat' S r = .ok x ∧ expectSingle so values o (.dm e) = .ok y ∧
      |x - y| ≤ (‖O‖ * ((1 + ε) ^ (4 * gs.length + noiseSteps gs) - 1)
          + 2 ^ S.length * τ * (1 + ε) ^ (4 * gs.length + noiseSteps gs)
          + traceError u δ S.length n * Real.sqrt (2 ^ n) * (‖O‖ + 2 ^ S.length * τ)
            * (1 + ε) ^ (4 * gs.length + noiseSteps gs)) * T := by
  obtain ⟨r, e, h1, h2, h3, h4, h5, h6⟩ := C113_run so hε hA h hne hns hρ hT group merge
  obtain ⟨x, y, x1, x2, x3⟩ := energy_near_dm so hu hδ hτ hF h2 h4 h5 h6 ho hS hm hm' hmτ
  exact ⟨r, e, x, y, h1, h3, x1, x2, x3⟩

/-- With exact operations and the exact matrix of the observable, the number is the one of the exact model. -/
theorem C113_energy_exact (so : SetOrder) (hadd : F.add = (· + ·)) (hmul : F.mul = (· * ·)) {o : Observable}
    {O : Matrix (Lab n) (Lab n) ℂ} (ho : o.ReadAs so n values O) {S : List ℕ} (hS : o.toOp.qubitSupport so = .ok S)
    {mat : NDArray ℂ} (hm : o.toOp.tensor so values none = .ok mat) {ρ : DensityMatrix ℂ} (hρ : IsDM n ρ) :
    F.expectDM mat S ρ = expectSingle so values o (.dm ρ) := by
  obtain ⟨S', m, e1, e2, e3, e4, e5⟩ := ho.matrix so
  obtain rfl := Except.ok.inj (e1.symm.trans hS)
  obtain rfl := Except.ok.inj (e3.symm.trans hm)
  have hF : F.Accurate 0 0 := ⟨fun x y => by simp [hadd], fun x y => by simp [hmul]⟩
  obtain ⟨x, x1, x2⟩ := expectDM_near le_rfl le_rfl hF hρ e2 e4
  have h0 : traceError 0 0 S'.length n = 0 := by simp [traceError, dotError]
  rw [h0, zero_mul, e5] at x2
  rw [x1, ho.single_dm so hρ, sub_eq_zero.1 (abs_nonpos_iff.1 x2)]

theorem traceError_le {v : ℝ} (hv : 0 ≤ v) (hs : v ≤ 1 / 256) {k : ℕ} (hk : k ≤ n) (hn : 3 * 2 ^ n * v ≤ 1) :
    traceError v (Real.sqrt 2 * (2 * v + v ^ 2)) k n ≤ 6 * 2 ^ n * v := by
  have h2 : Real.sqrt 2 ≤ 1415 / 1000 := Real.sqrt_le_left (by norm_num) |>.2 (by norm_num)
  have h0 := Real.sqrt_nonneg 2
  have hδ : 1 + Real.sqrt 2 * (2 * v + v ^ 2) ≤ (1 + v) ^ 3 := by
    have : Real.sqrt 2 * (2 * v + v ^ 2) ≤ 1415 / 1000 * (2 * v + v ^ 2) := by gcongr
    nlinarith [mul_nonneg hv hv, mul_nonneg hv (mul_nonneg hv hv)]
  have hexp : (1 + v) ^ 3 * (1 + v) ^ (2 ^ k - 1) * (1 + v) ^ (2 ^ n - 1) ≤ (1 + v) ^ (3 * 2 ^ n) := by
    simp only [← pow_add]
    refine pow_le_pow_right₀ (by linarith) ?_
    have h1 : 2 ^ k ≤ 2 ^ n := Nat.pow_le_pow_right two_pos hk
    have h3 : 1 ≤ 2 ^ k := Nat.one_le_two_pow
    omega
  have hfin := one_add_pow_le hv (m := 3 * 2 ^ n) (by push_cast; exact hn)
  push_cast at hfin
  have hle : (1 + Real.sqrt 2 * (2 * v + v ^ 2)) * (1 + v) ^ (2 ^ k - 1) * (1 + v) ^ (2 ^ n - 1)
      ≤ (1 + v) ^ 3 * (1 + v) ^ (2 ^ k - 1) * (1 + v) ^ (2 ^ n - 1) := by gcongr
  rw [traceError, dotError, add_sub_cancel]
  linarith

theorem energy_bits_dm {v N K q : ℝ} (hu : 0 ≤ v) (hs : v ≤ 1 / 256) {k : ℕ} (hle : k ≤ n) (hO : 0 ≤ N) (hK : 1 ≤ K)
    (hk : 336 * K * (Real.sqrt (2 ^ n) * 2 ^ n) * v ≤ 1) (hq0 : 1 ≤ q)
    (hq1 : q - 1 ≤ 672 * K * (Real.sqrt (2 ^ n) * 2 ^ n * v)) :
    N * (q - 1) + 2 ^ k * (6 * v) * q
        + traceError v (Real.sqrt 2 * (2 * v + v ^ 2)) k n * Real.sqrt (2 ^ n) * (N + 2 ^ k * (6 * v)) * q
      ≤ ((672 * K + 18) * (Real.sqrt (2 ^ n) * 2 ^ n) * N + 19 * 2 ^ k) * v := by
  have hs1 : (1 : ℝ) ≤ Real.sqrt (2 ^ n) := Real.one_le_sqrt.2 (one_le_pow₀ (by norm_num))
  have hn0 : (0 : ℝ) ≤ 2 ^ n * v := by positivity
  have hD : 336 * (Real.sqrt (2 ^ n) * 2 ^ n * v) ≤ 1 := by
    refine le_trans ?_ hk
    have : 0 ≤ Real.sqrt (2 ^ n) * 2 ^ n * v := by positivity
    nlinarith [mul_le_mul_of_nonneg_right hK this]
  have hγ := traceError_le (n := n) hu hs hle (by nlinarith [mul_le_mul_of_nonneg_right hs1 hn0])
  have hγ0 := traceError_nonneg (u := v) (δ := Real.sqrt 2 * (2 * v + v ^ 2)) hu (by positivity) k n
  generalize traceError v (Real.sqrt 2 * (2 * v + v ^ 2)) k n = γ at *
  have hq3 : q ≤ 3 := by linarith
  have hd0 : 0 ≤ Real.sqrt (2 ^ n) * 2 ^ n * v := by positivity
  have hg : γ * Real.sqrt (2 ^ n) ≤ 6 * (Real.sqrt (2 ^ n) * 2 ^ n * v) := by
    nlinarith [mul_le_mul_of_nonneg_right hγ (Real.sqrt_nonneg (2 ^ n : ℝ))]
  have hg0 : 0 ≤ γ * Real.sqrt (2 ^ n) := by positivity
  have hw : (0 : ℝ) ≤ 2 ^ k * v := by positivity
  calc _ ≤ N * (672 * K * (Real.sqrt (2 ^ n) * 2 ^ n * v)) + 2 ^ k * (6 * v) * 3
        + 6 * (Real.sqrt (2 ^ n) * 2 ^ n * v) * (N + 2 ^ k * (6 * v)) * 3 := by gcongr
    _ ≤ _ := by nlinarith [mul_le_mul_of_nonneg_right hD hw]

/-- **C113** (the returned number, numbers of `p` bits): as in `C113_precision`, with the observable's matrix right up to
`6 · 2^(-p)` in each entry.  The number that `expectation` returns differs from the exact one by at most
`((672 (4k + m) + 18) 2^(3n/2) ‖O‖ + 19 · 2^s) 2^(-p) T`, where the observable acts on `s` qubits. -/
theorem C113_energy_precision (so : SetOrder) {p : ℕ} (hp : 8 ≤ p) (ha : F.add = addC (roundBits p)) (hm : F.mul = mulC (roundBits p))
    {op : Gate → Py (NDArray ℂ)} {kraus : NoiseInstance → Py (List (NDArray ℂ))}
    (hop : OpsWithin (6 * (2 : ℝ) ^ (-(p : ℤ))) values gs op) (hkr : KrausWithin (6 * (2 : ℝ) ^ (-(p : ℤ))) gs kraus)
    (h : ∀ g ∈ gs, g.UnitaryOn n values) (h2 : ∀ g ∈ gs, g.target.length + (ctlInts g.control).length ≤ 2) (hne : gs ≠ [])
    (hns : ∀ g ∈ gs, ∃ ns, g.NoiseIs ns) {ρ : DensityMatrix ℂ} (hρ : IsDM n ρ) {T : ℝ}
    (hT : TraceNormLe (dmMat n ρ.array) T) (group merge : Bool)
    (hk : 336 * (4 * gs.length + noiseSteps gs : ℕ) * (Real.sqrt (2 ^ n) * 2 ^ n) * (2 : ℝ) ^ (-(p : ℤ)) ≤ 1)
    {o : Observable} {O : Matrix (Lab n) (Lab n) ℂ} (ho : o.ReadAs so n values O) {S : List ℕ}
    (hS : o.toOp.qubitSupport so = .ok S) {mat mat' : NDArray ℂ} (hmat : o.toOp.tensor so values none = .ok mat)
    (hm' : IsOp S.length mat')
    (hmτ : ∀ i j, i < 2 ^ S.length → j < 2 ^ S.length → ‖entries mat' i j - entries mat i j‖ ≤ 6 * (2 : ℝ) ^ (-(p : ℤ))) :
    ∃ r e x y, (F.arithDM so op kraus).run ρ (.list gs) group merge = .ok r ∧
      applyGates so (.dm ρ) (.list gs) values .unitary group merge = .ok (.dm e) ∧
      F.expectDM mat' S r = .ok x ∧ expectSingle so values o (.dm e) = .ok y ∧
      |x - y| ≤ ((672 * (4 * gs.length + noiseSteps gs : ℕ) + 18) * (Real.sqrt (2 ^ n) * 2 ^ n) * ‖O‖ + 19 * 2 ^ S.length)
        * (2 : ℝ) ^ (-(p : ℤ)) * T := by
  obtain ⟨ε, hε, hA, hb⟩ := bits_accurate (n := n) so hp ha hm hop hkr h h2 hne hk
  have hu : (0 : ℝ) ≤ (2 : ℝ) ^ (-(p : ℤ)) := by positivity
  have hs : (2 : ℝ) ^ (-(p : ℤ)) ≤ 1 / 256 := by
    have : (2 : ℝ) ^ (-(p : ℤ)) ≤ (2 : ℝ) ^ (-(8 : ℤ)) := zpow_le_zpow_right₀ one_le_two (by omega)
    refine this.trans (le_of_eq (by norm_num [zpow_neg]))
  have hF := C103_complex hu (C103_bits p) ha hm
  obtain ⟨S', m, e1, e2, -⟩ := ho.matrix so
  obtain rfl := Except.ok.inj (e1.symm.trans hS)
  have hle : S'.length ≤ n := by
    simpa using (e2.nodup.subperm (l₂ := List.range n) fun q hq => List.mem_range.2 (e2.lt q hq)).length_le
  generalize (2 : ℝ) ^ (-(p : ℤ)) = v at *
  obtain ⟨r, e, x, y, x1, x2, x3, x4, x5⟩ := C113_energy so hu (by positivity) (by positivity) hF hε hA h hne hns hρ hT group
    merge ho hS hmat hm' hmτ
  refine ⟨r, e, x, y, x1, x2, x3, x4, x5.trans (mul_le_mul_of_nonneg_right ?_ hT.nonneg)⟩
  have hK : (1 : ℝ) ≤ (4 * gs.length + noiseSteps gs : ℕ) := by
    have := List.length_pos_iff.2 hne
    exact_mod_cast (by omega : 1 ≤ 4 * gs.length + noiseSteps gs)
  have hq := one_add_pow_le hε (m := 4 * gs.length + noiseSteps gs) (hb.trans hk)
  exact energy_bits_dm hu hs hle (norm_nonneg O) hK hk (one_le_pow₀ (by linarith)) (by linarith)

/-- Non-vacuity: double precision, a noisy gate, and the observable `X₀ + Z₁` on two qubits, in every iteration order of sets. -/
example (so : SetOrder) {ρ : DensityMatrix ℂ} (hρ : IsDM 2 ρ) (hT : TraceNormLe (dmMat 2 ρ.array) 1) :
    ∃ (O : Matrix (Lab 2) (Lab 2) ℂ) (S : List ℕ) (mat : NDArray ℂ) (r e : DensityMatrix ℂ) (x y : ℝ),
      (Observable.new (.list [.prim (Gate.X (.int 0)), .prim (Gate.Z (.int 1))])).ReadAs so 2 [] O ∧
      ((Flops.leftToRight (addC (roundBits 53)) (mulC (roundBits 53))).arithDM so (fun g => g.operator .unitary [])
        NoiseInstance.kraus).run ρ (.list [Gate.H (.int 0) .none (some [⟨.bitFlip, .float (1 / 10)⟩])]) true true = .ok r ∧
      applyGates so (.dm ρ) (.list [Gate.H (.int 0) .none (some [⟨.bitFlip, .float (1 / 10)⟩])]) [] .unitary true true
        = .ok (.dm e) ∧
      (Flops.leftToRight (addC (roundBits 53)) (mulC (roundBits 53))).expectDM mat S r = .ok x ∧
      expectSingle so [] (Observable.new (.list [.prim (Gate.X (.int 0)), .prim (Gate.Z (.int 1))])) (.dm e) = .ok y ∧
      |x - y| ≤ ((672 * (5 : ℕ) + 18) * (Real.sqrt (2 ^ 2) * 2 ^ 2) * ‖O‖ + 19 * 2 ^ S.length) * (2 : ℝ) ^ (-(53 : ℤ)) * 1 := by
  have lX : StdLeaf 2 [] (Gate.X (.int 0)) (gateMat 2 StdGate.X.mat [0] []) :=
    ⟨.X, ⟨.X _ _ _, rfl, ⟨.inr (.inl rfl), by decide⟩⟩, rfl, rfl⟩
  have lZ : StdLeaf 2 [] (Gate.Z (.int 1)) (gateMat 2 StdGate.Z.mat [1] []) :=
    ⟨.Z, ⟨.Z _ _ _, rfl, ⟨.inr (.inl rfl), by decide⟩⟩, rfl, rfl⟩
  obtain ⟨O, ho⟩ := C68_readable so (n := 2) (values := [])
    (o := Observable.new (.list [.prim (Gate.X (.int 0)), .prim (Gate.Z (.int 1))]))
    (.cons (.gate lX.sort) (.one (.gate lZ.sort)))
  obtain ⟨S, mat, s1, s2, s3, s4, s5⟩ := ho.matrix so
  obtain ⟨r, e, x, y, x1, x2, x3, x4, x5⟩ := C113_energy_precision so (n := 2) (values := []) (p := 53)
    (F := Flops.leftToRight (addC (roundBits 53)) (mulC (roundBits 53)))
    (gs := [Gate.H (.int 0) .none (some [⟨.bitFlip, .float (1 / 10)⟩])]) (op := fun g => g.operator .unitary [])
    (kraus := NoiseInstance.kraus) (by norm_num) rfl rfl
    (fun g _ U h1 h2 => ⟨U, h1, h2, fun i j _ _ => by rw [sub_self, norm_zero]; positivity⟩)
    (fun g _ nis _ ni _ ks h1 h2 => ⟨ks, h1, List.forall₂_same.2 fun k hk => ⟨h2 k hk, fun i j _ _ => by
      rw [sub_self, norm_zero]; positivity⟩⟩)
    (by
      simp only [List.mem_cons, List.not_mem_nil, or_false, forall_eq]
      exact Gate.Std.unitaryOn (s := .H) ⟨.H _ _ _, rfl, ⟨.inl rfl, by decide⟩⟩)
    (by
      simp only [List.mem_cons, List.not_mem_nil, or_false, forall_eq]
      show 1 + 0 ≤ 2
      omega)
    (by simp)
    (by
      simp only [List.mem_cons, List.not_mem_nil, or_false, forall_eq]
      exact ⟨_, .some rfl (.cons (.bitFlip (by norm_num)) .nil) (.inr ⟨0, rfl⟩)⟩)
    hρ hT true true
    (by
      change 336 * ((5 : ℕ) : ℝ) * (Real.sqrt (2 ^ 2) * 2 ^ 2) * (2 : ℝ) ^ (-(53 : ℤ)) ≤ 1
      rw [Real.sqrt_sq (by norm_num), zpow_neg]
      norm_num)
    ho s1 s3 s4 (fun i j _ _ => by rw [sub_self, norm_zero]; positivity)
  exact ⟨O, S, mat, r, e, x, y, ho, x1, x2, x3, x4, x5⟩

end Verif
