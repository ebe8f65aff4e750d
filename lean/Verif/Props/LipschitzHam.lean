import Verif.Props.LipschitzEvo

/-!
# C88: a small change of the Hamiltonian changes expectation values little
-/

set_option autoImplicit false

namespace Verif
open NDArray
open scoped Matrix.Norms.L2Operator ComplexOrder

theorem exp_sub_exp {m : Type} [Fintype m] [DecidableEq m] {A B : Matrix m m ℂ} (hA : A.conjTranspose = -A)
    (hB : B.conjTranspose = -B) : ‖NormedSpace.exp B - NormedSpace.exp A‖ ≤ ‖B - A‖ := by
  have hA' : (-A).conjTranspose = -(-A) := by rw [Matrix.conjTranspose_neg, hA]
  have hd : ∀ x : ℝ, HasDerivAt (fun s : ℝ => mexp (-A) s * mexp B s) (mexp (-A) x * (B - A) * mexp B x) x := by
    intro x
    refine ((mexp_deriv (-A) x).fun_mul (mexp_deriv' B x)).congr_deriv ?_
    noncomm_ring
  have h := Convex.norm_image_sub_le_of_norm_hasDerivWithin_le (f := fun s : ℝ => mexp (-A) s * mexp B s)
    (f' := fun x => mexp (-A) x * (B - A) * mexp B x) (C := ‖B - A‖) (s := Set.univ) (x := 0) (y := 1)
    (fun x _ => (hd x).hasDerivWithinAt)
    (fun x _ => (norm_mul_le_right (mexp_norm hB x)).trans (norm_mul_le_left (mexp_norm hA' x))) convex_univ
    (Set.mem_univ _) (Set.mem_univ _)
  have e : NormedSpace.exp B - NormedSpace.exp A = mexp A 1 * (mexp (-A) 1 * mexp B 1 - mexp (-A) 0 * mexp B 0) := by
    rw [mexp_zero, mexp_zero, mul_one, mul_sub, ← mul_assoc, mexp_neg, mexp_mul_neg, one_mul, mul_one, mexp_one, mexp_one]
  rw [e]
  refine (norm_mul_le_left (mexp_norm hA 1)).trans (h.trans (le_of_eq ?_))
  simp

theorem evolution_ham_sub {k : ℕ} {H H' : NDArray ℂ} (hH : (hamMat k H).IsHermitian) (hH' : (hamMat k H').IsHermitian) (t : ℝ) :
    ‖evolution k H' t - evolution k H t‖ ≤ |t| * ‖hamMat k H' - hamMat k H‖ := by
  have anti : ∀ {H : NDArray ℂ}, (hamMat k H).IsHermitian →
      ((-Complex.I * (t : ℂ)) • hamMat k H).conjTranspose = -((-Complex.I * (t : ℂ)) • hamMat k H) := fun hH => by
    rw [Matrix.conjTranspose_smul, hH.eq, ← neg_smul]
    congr 1
    simp
  refine (exp_sub_exp (anti hH) (anti hH')).trans (le_of_eq ?_)
  rw [← smul_sub, norm_smul, norm_mul, norm_neg, Complex.norm_I, one_mul, Complex.norm_real, Real.norm_eq_abs]

variable {n : ℕ} (so : SetOrder) (eigh : Eigh) (draw : Draw) {v v' : Values} {nss : List (List StdNoise)}

/-- **C88** (Hamiltonian): replacing the Hermitian matrix `H` by `H'` changes the expectation value of an observable that the code reads as
`O` by at most `2 ‖O‖ · (number of Hamiltonian evolutions) · |t| · ‖H' - H‖`. -/
theorem C88_hamiltonian {circuit : Op} {H H' : NDArray ℂ} {t D : ℝ} (h : circuit.Proper n v nss) (hv : EvolutionValues v H t)
    (hv' : v'.lookup "hamiltonian" = some (.arr H')) (hr : ∀ p, p ≠ "hamiltonian" → v'.lookup p = v.lookup p)
    (hu : ∀ g ∈ circuit.gates, ¬ g.Uses "hamiltonian") (hf : v.Flat) (hf' : v'.Flat)
    (hop : ∀ k, IsOp k H → IsOp k H' ∧ (hamMat k H').IsHermitian ∧ ‖hamMat k H' - hamMat k H‖ ≤ D) (hD0 : 0 ≤ D)
    {ρ : DensityMatrix ℂ} (hρ : IsDM n ρ) (hpos : (dmMat n ρ.array).PosSemidef) (htr : (dmMat n ρ.array).trace = 1)
    {obs : List Observable} {Os : List (LMat n)} (hne : obs ≠ []) (ho : List.Forall₂ (fun o O => o.ReadAs so n v O) obs Os)
    (ho' : List.Forall₂ (fun o O => o.ReadAs so n v' O) obs Os) :
    ∃ xs ys, expectation so eigh draw (.dm ρ) circuit obs v .ad 0 = .ok xs ∧
      expectation so eigh draw (.dm ρ) circuit obs v' .ad 0 = .ok ys ∧ xs.length = Os.length ∧ ys.length = Os.length ∧
      ∀ i O, Os[i]? = some O → |ys.getD i 0 - xs.getD i 0| ≤ 2 * ‖O‖ * (evolutionCount circuit.gates * |t| * D) := by
  have hw : EvolutionValues v' H' t := ⟨hv', (hr _ (by decide)).trans hv.time⟩
  have hs : ∀ g ∈ circuit.gates, ∀ s, g.Std n v s → g.Std n v' s := fun g hg s hgs =>
    hgs.congr fun q hq => hr q fun e => hu g hg (e ▸ hq)
  have hp' : ∀ g ∈ circuit.gates, g.Proper n v' ∧
      ∀ tg c K s, g.Evolves n v tg c K s → ‖g.mat n .unitary v' - g.mat n .unitary v‖ ≤ |t| * D := fun g hg => by
    have key : ∀ tg c K s, g.Evolves n v tg c K s → g.Evolves n v' tg c H' t ∧
        ‖g.mat n .unitary v' - g.mat n .unitary v‖ ≤ |t| * D := by
      intro tg c K s hsg
      obtain rfl : K = H := by
        have := hsg.vals.ham.symm.trans hv.ham
        simpa using this
      obtain rfl : s = t := by
        have := hsg.vals.time.symm.trans hv.time
        simpa using this
      obtain ⟨k1, k2, k3⟩ := hop _ hsg.op
      refine ⟨⟨hsg.eq, hw, k1, k2, hsg.ctl, hsg.dims⟩, ?_⟩
      obtain rfl := hsg.eq
      rw [(hamEvo_ok hsg.vals hsg.op hsg.ctl hsg.dims).2, (hamEvo_ok hw k1 hsg.ctl hsg.dims).2]
      refine (gateMat_dist _ _ hsg.dims).trans ?_
      have e : ∀ M : Matrix (Fin (2 ^ (parseTarget tg).length)) (Fin (2 ^ (parseTarget tg).length)) ℂ, matOf _ (matE M) = M := fun M => by
        ext i j
        simp [matOf, matE]
      rw [e, e]
      exact (evolution_ham_sub hsg.herm k2 s).trans (mul_le_mul_of_nonneg_left k3 (abs_nonneg _))
    refine ⟨?_, fun tg c K s hsg => (key tg c K s hsg).2⟩
    rcases h.gates g hg with ⟨sg, hsg⟩ | ⟨tg, c, K, s, hsg⟩
    · exact .inl ⟨sg, hs g hg sg hsg⟩
    · exact .inr ⟨tg, c, H', t, (key tg c K s hsg).1⟩
  have h' : circuit.Proper n v' nss := ⟨h.plain, h.ne, fun g hg => (hp' g hg).1, h.noise⟩
  refine ⟨_, _, h.value so eigh draw hf hρ hne ho, h'.value so eigh draw hf' hρ hne ho', by simp, by simp, fun i O hO => ?_⟩
  simp only [List.getD_eq_getElem?_getD, List.getElem?_map, hO, Option.map_some, Option.getD_some]
  have hT := C113_density hpos
  rw [htr, Complex.one_re] at hT
  have key := run_perturbed (mul_nonneg (abs_nonneg t) hD0) (fun g hg => (hp' g hg).2) h.gates h'.gates hs h.noise hT
    (ρ' := dmMat n ρ.array) (w := 0) (by rw [sub_self]; exact .zero)
  rw [expVal, expVal, ← Complex.sub_re, ← Matrix.trace_sub, ← mul_sub]
  refine (Complex.abs_re_le_norm _).trans ((key O).trans (le_of_eq ?_))
  ring

/-- Non-vacuity: replacing the Hamiltonian `X` by `Z` in a controlled evolution changes the value of `Z₀` by at most `4 |t|`. -/
example (hso : so.SmallSorted) (t : ℝ) {ρ : DensityMatrix ℂ} (hρ : IsDM 3 ρ) (hpos : (dmMat 3 ρ.array).PosSemidef)
    (ht : (dmMat 3 ρ.array).trace = 1) :
    ∃ x y, expectation so eigh draw (.dm ρ) (gateCircuit 3 [Gate.HamiltonianEvolution (.int 2) (.int 0)])
        [Observable.new (.list [.prim (Gate.Z (.int 0))])] [("hamiltonian", .arr matX), ("time_evolution", .num t)] .ad 0 = .ok [x] ∧
      expectation so eigh draw (.dm ρ) (gateCircuit 3 [Gate.HamiltonianEvolution (.int 2) (.int 0)])
        [Observable.new (.list [.prim (Gate.Z (.int 0))])] [("hamiltonian", .arr matZ), ("time_evolution", .num t)] .ad 0 = .ok [y] ∧
      |y - x| ≤ 4 * |t| := by
  have hc : (gateCircuit 3 [Gate.HamiltonianEvolution (.int 2) (.int 0)]).Proper 3
      [("hamiltonian", .arr matX), ("time_evolution", .num t)] [[]] := by
    refine ⟨gateCircuit_plain _ _, by simp [gateCircuit_gates], ?_, ?_⟩
    · rw [gateCircuit_gates]
      intro g hg
      obtain rfl := List.mem_singleton.1 hg
      exact .inr ⟨.int 2, .int 0, matX, t, rfl, ⟨rfl, rfl⟩, ⟨rfl, rfl⟩, matX_herm, .inr (.inr ⟨[0], rfl⟩), by decide⟩
    · rw [gateCircuit_gates]
      exact .cons (.none rfl) .nil
  have ho : ∀ H : NDArray ℂ, Observable.ReadAs so 3 [("hamiltonian", .arr H), ("time_evolution", .num t)]
      (Observable.new (.list [.prim (Gate.Z (.int 0))])) (gateMat 3 StdGate.Z.mat [0] []) := fun H => by
    have lZ : StdLeaf 3 [("hamiltonian", .arr H), ("time_evolution", .num t)] (Gate.Z (.int 0))
      (gateMat 3 StdGate.Z.mat [0] []) := ⟨.Z, ⟨.Z _ _ _, rfl, ⟨.inr (.inl rfl), by decide⟩⟩, rfl, rfl⟩
    exact C68_small so hso (n := 3) (by norm_num) (o := Observable.new (.list [.prim (Gate.Z (.int 0))])) (.one (.gate lZ.sort))
  have hX : ‖hamMat 1 matX‖ ≤ 1 := (C88_time_attained so eigh draw).2.2.2.1
  have hZ : ‖hamMat 1 matZ‖ ≤ 1 := by
    refine norm_le_one_of_star_mul ?_
    ext i j
    fin_cases i <;> fin_cases j <;> simp [hamMat, matZ, mat2, NDArray.get, ravel, Matrix.mul_apply, Fin.sum_univ_succ]
  have hZh : (hamMat 1 matZ).IsHermitian := by
    ext i j
    fin_cases i <;> fin_cases j <;> simp [hamMat, matZ, mat2, NDArray.get, ravel]
  obtain ⟨xs, ys, h1, h2, h3, h4, h5⟩ := C88_hamiltonian so eigh draw (t := t) (D := 2)
    (v' := [("hamiltonian", .arr matZ), ("time_evolution", .num t)]) (H := matX) (H' := matZ) hc ⟨rfl, rfl⟩ rfl
    (fun p hp => by
      have hp' : (p == "hamiltonian") = false := by simpa using hp
      simp [List.lookup, hp'])
    (by
      rw [gateCircuit_gates]
      intro g hg
      obtain rfl := List.mem_singleton.1 hg
      exact fun h => h)
    (.inl rfl) (.inl rfl) (fun k hk => by
      have h2 : (2 : ℕ) ^ k = 2 ^ 1 := by
        have := hk.shape
        simpa [matX, mat2] using this.symm
      obtain rfl := Nat.pow_right_injective le_rfl h2
      exact ⟨⟨rfl, rfl⟩, hZh, (norm_sub_le _ _).trans (by linarith)⟩)
    zero_le_two hρ hpos ht (by simp) (.cons (ho _) .nil) (.cons (ho _) .nil)
  obtain ⟨x, rfl⟩ := List.length_eq_one_iff.1 h3
  obtain ⟨y, rfl⟩ := List.length_eq_one_iff.1 h4
  refine ⟨x, y, h1, h2, (h5 0 _ rfl).trans ?_⟩
  have hO : ‖gateMat 3 StdGate.Z.mat [0] []‖ ≤ 1 :=
    norm_le_one_of_star_mul (gateMat_unitary (n := 3) (ts := [0]) (cs := []) (by decide) StdGate.Z.isUnitary).1
  have hk : (evolutionCount (gateCircuit 3 [Gate.HamiltonianEvolution (.int 2) (.int 0)]).gates : ℝ) = 1 := by
    classical
    rw [gateCircuit_gates, evolutionCount, List.countP_cons, List.countP_nil, if_pos]
    · norm_num
    · exact decide_eq_true ⟨_, _, rfl⟩
  rw [hk, one_mul]
  have := abs_nonneg t
  nlinarith

end Verif
