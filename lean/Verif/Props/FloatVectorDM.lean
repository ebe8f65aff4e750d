import Verif.Props.FloatEnergyDM

/-!
# Noisy circuits from a state vector, with every step rounded

The density matrix of the initial state, the run and the evaluation of the observable are all computed with rounded numbers.
-/

set_option autoImplicit false

namespace Verif
open NDArray
open scoped Matrix.Norms.L2Operator
variable {F : Flops} {u δ ε τ : ℝ} {n : ℕ} {values : Values} {gs : List Gate} {A : ArithDM}

/-- The computed density matrix of a state. -/
theorem densityMat_near (hδ : 0 ≤ δ) (hF : F.Accurate u δ) {a : NDArray ℂ} (ha : IsKet n a) :
    IsDM n (F.densityMat a) ∧
      TraceNormLe (dmMat n (F.densityMat a).array - dmMat n (densityMat a).array)
        (Real.sqrt (2 ^ n) * δ * ketNorm (ket n a) ^ 2) := by
  have hs : a.shape ++ a.shape = List.replicate (n + n) 2 := by rw [ha.shape]; simp
  refine ⟨⟨hs, wf_ofFn _ _⟩, (TraceNormLe.of_frob _).mono ?_⟩
  have h1 : frob (dmMat n (F.densityMat a).array - dmMat n (densityMat a).array)
      ≤ δ * frob (dmMat n (densityMat a).array) := by
    refine frob_mono hδ fun x y => ?_
    rw [Matrix.sub_apply, (densityMat_isDM ha).2]
    have hx : x.bits.length = n := by simp [Lab.bits]
    have hnd : a.ndim = n := by simp [ndim, ha.shape]
    have e : dmMat n (F.densityMat a).array x y = F.mul (ket n a x) (star (ket n a y)) := by
      rw [dmMat, Flops.densityMat]
      simp only [hs]
      rw [get_ofFn]
      · rw [hnd, List.take_left' hx, List.drop_left' hx]; rfl
      · exact forall₂_replicate.2 (by simpa [two_mul] using x.isBits_bits.append y.isBits_bits)
    rw [e]
    simp only [Matrix.vecMulVec_apply, Pi.star_apply]
    exact hF.mul _ _
  have h2 := (traceNorm_densityMat ha).frob_le
  rw [mul_assoc]
  exact mul_le_mul_of_nonneg_left (h1.trans (mul_le_mul_of_nonneg_left h2 hδ)) (Real.sqrt_nonneg _)

theorem ArithDM.Accurate.mono (hA : A.Accurate n ε values gs) {ε' : ℝ} (h : ε ≤ ε') : A.Accurate n ε' values gs where
  op := fun g hg u h1 h2 => by
    obtain ⟨r, c1, c2, c3⟩ := hA.op g hg u h1 h2
    exact ⟨r, c1, c2, c3.trans h⟩
  mul := fun g hg a b ha hb => by
    obtain ⟨r, c1, c2, c3⟩ := hA.mul g hg a b ha hb
    exact ⟨r, c1, c2, c3.trans (mul_le_mul_of_nonneg_right h (mul_nonneg (norm_nonneg _) (norm_nonneg _)))⟩
  app := fun g hg ρ u T hρ hu hT => by
    obtain ⟨r, c1, c2, c3⟩ := hA.app g hg ρ u T hρ hu hT
    exact ⟨r, c1, c2, c3.mono (mul_le_mul_of_nonneg_right h (mul_nonneg (sq_nonneg _) hT.nonneg))⟩
  noise := fun g hg nis hnis ni hni s hs t ht ρ T hρ hT => by
    obtain ⟨r, c1, c2, c3⟩ := hA.noise g hg nis hnis ni hni s hs t ht ρ T hρ hT
    exact ⟨r, c1, c2, c3.mono (mul_le_mul_of_nonneg_right h hT.nonneg)⟩

/-- **C113** (from a state vector, with the initial density matrix computed): if multiplications of numbers are accurate up to a
fraction `δ ≤ ε 2^(-n/2)`, forming the density matrix of the initial vector counts as one more step. -/
theorem C113_vector_flops (so : SetOrder) (hδ : 0 ≤ δ) (hF : F.Accurate u δ) (hle : Real.sqrt (2 ^ n) * δ ≤ ε)
    (hA : A.Accurate n ε values gs) (h : ∀ g ∈ gs, g.UnitaryOn n values)
    (hns : ∀ g ∈ gs, ∃ ns, g.NoiseIs ns) (hnz : ∃ g ∈ gs, g.noise ≠ none) {a : NDArray ℂ} (ha : IsKet n a)
    (group merge : Bool) :
    ∃ r e, A.run (F.densityMat a) (.list gs) group merge = .ok r ∧ IsDM n r ∧
      applyGates so (.vec a) (.list gs) values .unitary group merge = .ok (.dm e) ∧ IsDM n e ∧
      TraceNormLe (dmMat n e.array) (ketNorm (ket n a) ^ 2) ∧
      TraceNormLe (dmMat n r.array - dmMat n e.array)
        (((1 + ε) ^ (4 * gs.length + noiseSteps gs + 1) - 1) * ketNorm (ket n a) ^ 2) := by
  have hε : 0 ≤ ε := (mul_nonneg (Real.sqrt_nonneg _) hδ).trans hle
  have hne : gs ≠ [] := by rintro rfl; simp at hnz
  obtain ⟨d1, d2⟩ := densityMat_near hδ hF ha
  rw [applyGates_vec_dm so hε hA h hns hnz a group merge]
  exact C113_start so hε hA h hne hns (densityMat_isDM ha).1 d1 (traceNorm_densityMat ha)
    (d2.mono (mul_le_mul_of_nonneg_right hle (sq_nonneg _))) group merge

/-- **C113** (every step in numbers of `p` bits): a circuit of `k` gates on at most two qubits with `m ≥ 1` noise channels, run on a
state vector `ψ` of `n` qubits, and an observable read as the operator `O` on `s` qubits.  The number that `expectation` computes, with
the density matrix of `ψ`, the run and the evaluation of the observable rounded to `p ≥ 8` significant bits, differs from the exact
expectation value by at most `((672 (4k + m + 1) + 18) 2^(3n/2) ‖O‖ + 19 · 2^s) 2^(-p) ‖ψ‖²`. -/
theorem C113_vector_precision (so : SetOrder) {p : ℕ} (hp : 8 ≤ p) (ha : F.add = addC (roundBits p)) (hm : F.mul = mulC (roundBits p))
    {op : Gate → Py (NDArray ℂ)} {kraus : NoiseInstance → Py (List (NDArray ℂ))}
    (hop : OpsWithin (6 * (2 : ℝ) ^ (-(p : ℤ))) values gs op) (hkr : KrausWithin (6 * (2 : ℝ) ^ (-(p : ℤ))) gs kraus)
    (h : ∀ g ∈ gs, g.UnitaryOn n values) (h2 : ∀ g ∈ gs, g.target.length + (ctlInts g.control).length ≤ 2)
    (hns : ∀ g ∈ gs, ∃ ns, g.NoiseIs ns) (hnz : ∃ g ∈ gs, g.noise ≠ none) {ψ : NDArray ℂ} (hψ : IsKet n ψ) (group merge : Bool)
    (hk : 336 * (4 * gs.length + noiseSteps gs + 1 : ℕ) * (Real.sqrt (2 ^ n) * 2 ^ n) * (2 : ℝ) ^ (-(p : ℤ)) ≤ 1)
    {o : Observable} {O : Matrix (Lab n) (Lab n) ℂ} (ho : o.ReadAs so n values O) {S : List ℕ}
    (hS : o.toOp.qubitSupport so = .ok S) {mat mat' : NDArray ℂ} (hmat : o.toOp.tensor so values none = .ok mat)
    (hm' : IsOp S.length mat')
    (hmτ : ∀ i j, i < 2 ^ S.length → j < 2 ^ S.length → ‖entries mat' i j - entries mat i j‖ ≤ 6 * (2 : ℝ) ^ (-(p : ℤ))) :
    ∃ r e x y, (F.arithDM so op kraus).run (F.densityMat ψ) (.list gs) group merge = .ok r ∧
      applyGates so (.vec ψ) (.list gs) values .unitary group merge = .ok (.dm e) ∧
      F.expectDM mat' S r = .ok x ∧ expectSingle so values o (.dm e) = .ok y ∧
      |x - y| ≤ ((672 * (4 * gs.length + noiseSteps gs + 1 : ℕ) + 18) * (Real.sqrt (2 ^ n) * 2 ^ n) * ‖O‖ + 19 * 2 ^ S.length)
        * (2 : ℝ) ^ (-(p : ℤ)) * ketNorm (ket n ψ) ^ 2 := by
  have hne : gs ≠ [] := by rintro rfl; simp at hnz
  have hu : (0 : ℝ) ≤ (2 : ℝ) ^ (-(p : ℤ)) := by positivity
  have hs : (2 : ℝ) ^ (-(p : ℤ)) ≤ 1 / 256 := by
    have : (2 : ℝ) ^ (-(p : ℤ)) ≤ (2 : ℝ) ^ (-(8 : ℤ)) := zpow_le_zpow_right₀ one_le_two (by omega)
    refine this.trans (le_of_eq (by norm_num [zpow_neg]))
  have hD : 0 ≤ Real.sqrt (2 ^ n) * 2 ^ n * (2 : ℝ) ^ (-(p : ℤ)) := by positivity
  have hK : (1 : ℝ) ≤ (4 * gs.length + noiseSteps gs : ℕ) := by
    have := List.length_pos_iff.2 hne
    exact_mod_cast (by omega : 1 ≤ 4 * gs.length + noiseSteps gs)
  obtain ⟨ε, hε, hA, hb⟩ := bits_accurate (n := n) so hp ha hm hop hkr h h2 hne (by
    rw [Nat.cast_succ] at hk
    linarith)
  have hF := C103_complex hu (C103_bits p) ha hm
  obtain ⟨S', m, e1, e2, -⟩ := ho.matrix so
  obtain rfl := Except.ok.inj (e1.symm.trans hS)
  have hle : S'.length ≤ n := by
    simpa using (e2.nodup.subperm (l₂ := List.range n) fun q hq => List.mem_range.2 (e2.lt q hq)).length_le
  generalize (2 : ℝ) ^ (-(p : ℤ)) = v at *
  have hε1 : ε ≤ 336 * (Real.sqrt (2 ^ n) * 2 ^ n * v) :=
    le_of_mul_le_mul_left (hb.trans (le_of_eq (by ring))) (by linarith : (0 : ℝ) < (4 * gs.length + noiseSteps gs : ℕ))
  have hδ : Real.sqrt (2 ^ n) * (Real.sqrt 2 * (2 * v + v ^ 2)) ≤ 336 * (Real.sqrt (2 ^ n) * 2 ^ n * v) := by
    have h3 : Real.sqrt 2 ≤ 2 := Real.sqrt_le_left (by norm_num) |>.2 (by norm_num)
    have hn1 : (1 : ℝ) ≤ 2 ^ n := one_le_pow₀ (by norm_num)
    have h4 : Real.sqrt 2 * (2 * v + v ^ 2) ≤ 336 * (2 ^ n * v) := by
      have h5 : Real.sqrt 2 * (2 * v + v ^ 2) ≤ 2 * (2 * v + v ^ 2) := by gcongr
      have h6 : v ≤ 2 ^ n * v := le_mul_of_one_le_left hu hn1
      nlinarith
    calc _ ≤ Real.sqrt (2 ^ n) * (336 * (2 ^ n * v)) := mul_le_mul_of_nonneg_left h4 (Real.sqrt_nonneg _)
      _ = _ := by ring
  obtain ⟨r, e, r1, r2, r3, r4, r5, r6⟩ := C113_vector_flops so (by positivity) hF hδ (hA.mono hε1) h hns hnz hψ group merge
  obtain ⟨x, y, x1, x2, x3⟩ := energy_near_dm so hu (by positivity) (by positivity) hF r2 r4 r5 r6 ho hS hmat hm' hmτ
  refine ⟨r, e, x, y, r1, r3, x1, x2, x3.trans (mul_le_mul_of_nonneg_right ?_ (sq_nonneg _))⟩
  have hq := one_add_pow_le (ε := 336 * (Real.sqrt (2 ^ n) * 2 ^ n * v)) (by positivity)
    (m := 4 * gs.length + noiseSteps gs + 1) ((le_of_eq (by ring)).trans hk)
  refine energy_bits_dm hu hs hle (norm_nonneg O) ?_ hk (one_le_pow₀ (by linarith)) (hq.trans (le_of_eq ?_))
  · rw [Nat.cast_succ]; linarith
  · ring

/-- With exact multiplications the density matrix is the one of the exact model. -/
theorem C113_vector_exact (hmul : F.mul = (· * ·)) (ψ : NDArray ℂ) : F.densityMat ψ = densityMat ψ := by
  rw [Flops.densityMat, densityMat, hmul]

/-- Non-vacuity: double precision, any state vector, a noisy gate, and the observable `X₀ + Z₁` on two qubits, in every iteration order of sets. -/
example (so : SetOrder) {ψ : NDArray ℂ} (hψ : IsKet 2 ψ) :
    ∃ (O : Matrix (Lab 2) (Lab 2) ℂ) (S : List ℕ) (mat : NDArray ℂ) (r e : DensityMatrix ℂ) (x y : ℝ),
      (Observable.new (.list [.prim (Gate.X (.int 0)), .prim (Gate.Z (.int 1))])).ReadAs so 2 [] O ∧
      ((Flops.leftToRight (addC (roundBits 53)) (mulC (roundBits 53))).arithDM so (fun g => g.operator .unitary [])
        NoiseInstance.kraus).run
          ((Flops.leftToRight (addC (roundBits 53)) (mulC (roundBits 53))).densityMat ψ) (.list [Gate.H (.int 0) .none (some [⟨.bitFlip, .float (1 / 10)⟩])]) true true = .ok r ∧
      applyGates so (.vec ψ) (.list [Gate.H (.int 0) .none (some [⟨.bitFlip, .float (1 / 10)⟩])]) [] .unitary true true
        = .ok (.dm e) ∧
      (Flops.leftToRight (addC (roundBits 53)) (mulC (roundBits 53))).expectDM mat S r = .ok x ∧
      expectSingle so [] (Observable.new (.list [.prim (Gate.X (.int 0)), .prim (Gate.Z (.int 1))])) (.dm e) = .ok y ∧
      |x - y| ≤ ((672 * (6 : ℕ) + 18) * (Real.sqrt (2 ^ 2) * 2 ^ 2) * ‖O‖ + 19 * 2 ^ S.length) * (2 : ℝ) ^ (-(53 : ℤ))
        * ketNorm (ket 2 ψ) ^ 2 := by
  have lX : StdLeaf 2 [] (Gate.X (.int 0)) (gateMat 2 StdGate.X.mat [0] []) :=
    ⟨.X, ⟨.X _ _ _, rfl, ⟨.inr (.inl rfl), by decide⟩⟩, rfl, rfl⟩
  have lZ : StdLeaf 2 [] (Gate.Z (.int 1)) (gateMat 2 StdGate.Z.mat [1] []) :=
    ⟨.Z, ⟨.Z _ _ _, rfl, ⟨.inr (.inl rfl), by decide⟩⟩, rfl, rfl⟩
  obtain ⟨O, ho⟩ := C68_readable so (n := 2) (values := [])
    (o := Observable.new (.list [.prim (Gate.X (.int 0)), .prim (Gate.Z (.int 1))]))
    (.cons (.gate lX.sort) (.one (.gate lZ.sort)))
  obtain ⟨S, mat, s1, s2, s3, s4, s5⟩ := ho.matrix so
  obtain ⟨r, e, x, y, x1, x2, x3, x4, x5⟩ := C113_vector_precision so (n := 2) (values := []) (p := 53)
    (F := Flops.leftToRight (addC (roundBits 53)) (mulC (roundBits 53)))
    (gs := [Gate.H (.int 0) .none (some [⟨.bitFlip, .float (1 / 10)⟩])]) (op := fun g => g.operator .unitary [])
    (kraus := NoiseInstance.kraus) (by norm_num) rfl rfl
    (fun g _ U h1 h2 => ⟨U, h1, h2, fun i j _ _ => by rw [sub_self, norm_zero]; positivity⟩)
    (fun g _ nis _ ni _ ks h1 h2 => ⟨ks, h1, List.forall₂_same.2 fun k hk => ⟨h2 k hk, fun i j _ _ => by
      rw [sub_self, norm_zero]; positivity⟩⟩)
    (by
      simp only [List.mem_cons, List.not_mem_nil, or_false, forall_eq]
      exact Gate.Std.unitaryOn (s := .H) ⟨.H _ _ _, rfl, ⟨.inl rfl, by decide⟩⟩)
    (by
      simp only [List.mem_cons, List.not_mem_nil, or_false, forall_eq]
      show 1 + 0 ≤ 2
      omega)
    (by
      simp only [List.mem_cons, List.not_mem_nil, or_false, forall_eq]
      exact ⟨_, .some rfl (.cons (.bitFlip (by norm_num)) .nil) (.inr ⟨0, rfl⟩)⟩)
    ⟨_, List.mem_singleton_self _, Option.some_ne_none _⟩ hψ true true
    (by
      change 336 * ((6 : ℕ) : ℝ) * (Real.sqrt (2 ^ 2) * 2 ^ 2) * (2 : ℝ) ^ (-(53 : ℤ)) ≤ 1
      rw [Real.sqrt_sq (by norm_num), zpow_neg]
      norm_num)
    ho s1 s3 s4 (fun i j _ _ => by rw [sub_self, norm_zero]; positivity)
  exact ⟨O, S, mat, r, e, x, y, ho, x1, x2, x3, x4, x5⟩

end Verif
