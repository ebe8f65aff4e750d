import Mathlib.Analysis.Calculus.MeanValue
import Verif.Props.NoiseBoundEvo
import Verif.Props.TrotterDM
import Verif.Props.Lipschitz
import Verif.Props.GpsrHam
import Verif.Props.PureMixed
import Verif.Props.ExpectModes

/-!
# C88: a small change of the evolution time changes expectation values little
-/

set_option autoImplicit false

namespace Verif
open NDArray
open scoped Matrix.Norms.L2Operator ComplexOrder

theorem mexp_sub {m : Type} [Fintype m] [DecidableEq m] {A : Matrix m m ℂ} (hA : A.conjTranspose = -A) (s t : ℝ) :
    ‖mexp A t - mexp A s‖ ≤ ‖A‖ * |t - s| := by
  have := Convex.norm_image_sub_le_of_norm_hasDerivWithin_le (f := mexp A) (f' := fun x => mexp A x * A) (C := ‖A‖) (s := Set.univ)
    (x := s) (y := t) (fun x _ => (mexp_deriv A x).hasDerivWithinAt) (fun x _ => norm_mul_le_left (mexp_norm hA x)) convex_univ
    (Set.mem_univ _) (Set.mem_univ _)
  simpa only [Real.norm_eq_abs] using this

theorem evolution_sub {k : ℕ} {H : NDArray ℂ} (hH : (hamMat k H).IsHermitian) (s t : ℝ) :
    ‖evolution k H t - evolution k H s‖ ≤ ‖hamMat k H‖ * |t - s| := by
  have e : ∀ t : ℝ, evolution k H t = mexp ((-Complex.I) • hamMat k H) t := fun t => by
    rw [evolution, mexp, mul_comm, ← smul_smul, Complex.coe_smul]
  rw [e, e]
  refine (mexp_sub ?_ s t).trans (le_of_eq ?_)
  · rw [Matrix.conjTranspose_smul, hH.eq, ← neg_smul]
    simp
  · rw [norm_smul, norm_neg, Complex.norm_I, one_mul]

variable {n : ℕ} (so : SetOrder) (eigh : Eigh) (draw : Draw) {v v' : Values} {nss : List (List StdNoise)}

theorem evolve_gate_sub {H : NDArray ℂ} {s t : ℝ} {g : Gate} {tg : TArg} {c : CArg} (h : g.Evolves n v tg c H s)
    (h' : EvolutionValues v' H t) :
    ‖g.mat n .unitary v' - g.mat n .unitary v‖ ≤ ‖hamMat (parseTarget tg).length H‖ * |t - s| := by
  obtain rfl := h.eq
  rw [(hamEvo_ok h.vals h.op h.ctl h.dims).2, (hamEvo_ok h' h.op h.ctl h.dims).2]
  refine (gateMat_dist _ _ h.dims).trans ?_
  have e : ∀ M : Matrix (Fin (2 ^ (parseTarget tg).length)) (Fin (2 ^ (parseTarget tg).length)) ℂ, matOf _ (matE M) = M := fun M => by
    ext i j
    simp [matOf, matE]
  rw [e, e]
  exact evolution_sub h.herm s t

open Classical in
/-- The number of Hamiltonian evolutions in a list of gates. -/
noncomputable def evolutionCount (gs : List Gate) : ℕ := gs.countP fun g => decide (∃ tg c, g = Gate.HamiltonianEvolution tg c)

theorem run_perturbed {D T : ℝ} (hD0 : 0 ≤ D) {gs : List Gate}
    (hD : ∀ g ∈ gs, ∀ tg c H s, g.Evolves n v tg c H s → ‖g.mat n .unitary v' - g.mat n .unitary v‖ ≤ D) (hp : ∀ g ∈ gs, g.Proper n v)
    (hp' : ∀ g ∈ gs, g.Proper n v') (hs : ∀ g ∈ gs, ∀ s, g.Std n v s → g.Std n v' s) (hn : List.Forall₂ Gate.NoiseIs gs nss)
    {ρ ρ' : LMat n} {w : ℝ} (h : TraceNormLe ρ T) (hd : TraceNormLe (ρ' - ρ) w) :
    TraceNormLe (noisyRun n .unitary v' (gs.zip nss) ρ' - noisyRun n .unitary v (gs.zip nss) ρ)
      (w + 2 * evolutionCount gs * D * T) := by
  induction hn generalizing ρ ρ' w with
  | nil => simpa [evolutionCount, noisyRun] using hd
  | @cons g ns gs nss hg _ ih =>
    have hK := (hp g (by simp)).krausOn hg (S := ctlInts g.control ++ g.target) fun q hq => hq
    have hK' := (hp' g (by simp)).krausOn hg (S := ctlInts g.control ++ g.target) fun q hq => hq
    have h1 := hd.kraus hK'
    rw [hK'.sub] at h1
    have hc : (evolutionCount gs : ℝ) ≤ evolutionCount (g :: gs) := by
      rw [evolutionCount, evolutionCount, List.countP_cons]
      push_cast
      exact le_add_of_nonneg_right (by split_ifs <;> simp)
    rcases hp g (by simp) with ⟨sg, hsg⟩ | ⟨tg, c, H', s', hsg⟩
    · have e : g.mat n .unitary v' = g.mat n .unitary v := by rw [hsg.mat, (hs g (by simp) sg hsg).mat]
      have := ih (fun g hg => hD g (by simp [hg])) (fun g hg => hp g (by simp [hg])) (fun g hg => hp' g (by simp [hg])) (fun g hg => hs g (by simp [hg])) (h.kraus hK)
        (by rw [e] at h1; exact h1)
      simp only [List.zip_cons_cons, noisyRun, e]
      refine this.mono ?_
      have := h.nonneg
      gcongr
    · have e1 := hsg.eq
      have hns : ns = [] := by
        subst e1
        cases hg with
        | some hz _ _ => cases hz
        | none _ => rfl
      subst hns
      have n1 := norm_le_one_of_star_mul (hp g (by simp)).isometric.1
      have n2 := norm_le_one_of_star_mul (hp' g (by simp)).isometric.1
      have h2 := h.conj_near n2 n1 (hD g (by simp) _ _ _ _ hsg)
      have h3 := h1.add h2
      have := ih (fun g hg => hD g (by simp [hg])) (fun g hg => hp g (by simp [hg])) (fun g hg => hp' g (by simp [hg])) (fun g hg => hs g (by simp [hg])) (h.kraus hK)
        (ρ' := noisyStep n (g.mat n .unitary v') (g.target.headD 0) [] ρ') (w := w + 2 * D * T) (by
          refine (congrArg (TraceNormLe · _) ?_).mp h3
          simp only [noisyStep, List.foldl_nil]
          abel)
      simp only [List.zip_cons_cons, noisyRun]
      refine this.mono (le_of_eq ?_)
      have hcc : (evolutionCount (g :: gs) : ℝ) = evolutionCount gs + 1 := by
        rw [evolutionCount, evolutionCount, List.countP_cons, if_pos (by simpa using ⟨tg, c, e1⟩)]
        push_cast
        rfl
      rw [hcc]
      ring

theorem Op.Proper.value {circuit : Op} (hc : circuit.Proper n v nss) (hf : v.Flat) {ρ : DensityMatrix ℂ} (hρ : IsDM n ρ)
    {obs : List Observable} {Os : List (LMat n)} (hne : obs ≠ []) (ho : List.Forall₂ (fun o O => o.ReadAs so n v O) obs Os) :
    expectation so eigh draw (.dm ρ) circuit obs v .ad 0
      = .ok (Os.map fun O => expVal O (noisyRun n .unitary v (circuit.gates.zip nss) (dmMat n ρ.array))) := by
  obtain ⟨q, q1, q2, q3⟩ := C68_value so eigh draw hc.circuit hf hρ hne ho
  obtain ⟨r, r1, -, r2⟩ := circuit_run so hc.circuit (st := .dm ρ) hρ
  obtain rfl := Option.some.inj (Except.ok.inj (q1.symm.trans r1))
  have hm := r2.mat hc.noise
  change dmMat n q.array = noisyRun n .unitary v _ (dmMat n ρ.array) at hm
  rw [q3, hm]
  rfl

theorem Op.Proper.retime {circuit : Op} {H : NDArray ℂ} {s t : ℝ} (h : circuit.Proper n v nss) (hv : EvolutionValues v H s)
    (hv' : EvolutionValues v' H t) (hr : ∀ p, p ≠ "time_evolution" → v'.lookup p = v.lookup p)
    (hu : ∀ g ∈ circuit.gates, ¬ g.Uses "time_evolution") :
    (∀ g ∈ circuit.gates, ∀ s, g.Std n v s → g.Std n v' s) ∧ circuit.Proper n v' nss := by
  have hs : ∀ g ∈ circuit.gates, ∀ s, g.Std n v s → g.Std n v' s := fun g hg s hgs =>
    hgs.congr fun q hq => hr q fun e => hu g hg (e ▸ hq)
  have hp' : ∀ g ∈ circuit.gates, g.Proper n v' := fun g hg => by
    rcases h.gates g hg with ⟨sg, hsg⟩ | ⟨tg, c, H', s', hsg⟩
    · exact .inl ⟨sg, hs g hg sg hsg⟩
    · obtain rfl : H' = H := by
        have := hsg.vals.ham.symm.trans hv.ham
        simpa using this
      exact .inr ⟨tg, c, H', t, hsg.eq, hv', hsg.op, hsg.herm, hsg.ctl, hsg.dims⟩
  exact ⟨hs, h.plain, h.ne, hp', h.noise⟩

/-- **C88** (evolution time): changing the time `s` to `t` changes the expectation value of an observable that the code reads as `O` by
at most `2 ‖O‖ · (number of Hamiltonian evolutions) · ‖H‖ · |t - s|`: for every circuit of standard gates with any noise and controls
and of Hamiltonian evolutions with a Hermitian matrix `H`, provided that no other gate uses the name of the time. -/
theorem C88_time {circuit : Op} {H : NDArray ℂ} {s t N : ℝ} (h : circuit.Proper n v nss) (hv : EvolutionValues v H s)
    (ht : v'.lookup "time_evolution" = some (.num t)) (hr : ∀ p, p ≠ "time_evolution" → v'.lookup p = v.lookup p)
    (hu : ∀ g ∈ circuit.gates, ¬ g.Uses "time_evolution") (hf : v.Flat) (hf' : v'.Flat)
    (hN : ∀ k, IsOp k H → ‖hamMat k H‖ ≤ N) (hN0 : 0 ≤ N) {ρ : DensityMatrix ℂ} (hρ : IsDM n ρ)
    (hpos : (dmMat n ρ.array).PosSemidef) (htr : (dmMat n ρ.array).trace = 1) {obs : List Observable} {Os : List (LMat n)}
    (hne : obs ≠ []) (ho : List.Forall₂ (fun o O => o.ReadAs so n v O) obs Os)
    (ho' : List.Forall₂ (fun o O => o.ReadAs so n v' O) obs Os) :
    ∃ xs ys, expectation so eigh draw (.dm ρ) circuit obs v .ad 0 = .ok xs ∧
      expectation so eigh draw (.dm ρ) circuit obs v' .ad 0 = .ok ys ∧ xs.length = Os.length ∧ ys.length = Os.length ∧
      ∀ i O, Os[i]? = some O → |ys.getD i 0 - xs.getD i 0| ≤ 2 * ‖O‖ * (evolutionCount circuit.gates * N * |t - s|) := by
  have hv' : EvolutionValues v' H t := ⟨(hr _ (by decide)).trans hv.ham, ht⟩
  obtain ⟨hs, h'⟩ := h.retime hv hv' hr hu
  have hp' := h'.gates
  refine ⟨_, _, h.value so eigh draw hf hρ hne ho, h'.value so eigh draw hf' hρ hne ho', by simp, by simp, fun i O hO => ?_⟩
  simp only [List.getD_eq_getElem?_getD, List.getElem?_map, hO, Option.map_some, Option.getD_some]
  have hT := C113_density hpos
  rw [htr, Complex.one_re] at hT
  have hD : ∀ g ∈ circuit.gates, ∀ tg c H' s', g.Evolves n v tg c H' s' → ‖g.mat n .unitary v' - g.mat n .unitary v‖ ≤ N * |t - s| := by
    intro g _ tg c H' s' hsg
    obtain rfl : H' = H := by
      have := hsg.vals.ham.symm.trans hv.ham
      simpa using this
    obtain rfl : s' = s := by
      have := hsg.vals.time.symm.trans hv.time
      simpa using this
    exact (evolve_gate_sub hsg hv').trans (mul_le_mul_of_nonneg_right (hN _ hsg.op) (abs_nonneg _))
  have key := run_perturbed (mul_nonneg hN0 (abs_nonneg _)) hD h.gates hp' hs h.noise hT (ρ' := dmMat n ρ.array) (w := 0) (by
    rw [sub_self]; exact .zero)
  rw [expVal, expVal, ← Complex.sub_re, ← Matrix.trace_sub, ← mul_sub]
  refine (Complex.abs_re_le_norm _).trans ((key O).trans (le_of_eq ?_))
  ring

/-- **C88** (derivative with respect to the evolution time): it is at most `2 ‖O‖ · (number of Hamiltonian evolutions) · ‖H‖` in
modulus. -/
theorem C88_time_gradient {circuit : Op} {H : NDArray ℂ} {s N : ℝ} {vt : ℝ → Values} (h : circuit.Proper n (vt s) nss)
    (hv : ∀ t, EvolutionValues (vt t) H t) (hr : ∀ t p, p ≠ "time_evolution" → (vt t).lookup p = (vt s).lookup p)
    (hu : ∀ g ∈ circuit.gates, ¬ g.Uses "time_evolution") (hf : ∀ t, (vt t).Flat)
    (hN : ∀ k, IsOp k H → ‖hamMat k H‖ ≤ N) (hN0 : 0 ≤ N) {ρ : DensityMatrix ℂ} (hρ : IsDM n ρ)
    (hpos : (dmMat n ρ.array).PosSemidef) (htr : (dmMat n ρ.array).trace = 1) {obs : List Observable} {Os : List (LMat n)}
    (hne : obs ≠ []) (ho : ∀ t, List.Forall₂ (fun o O => o.ReadAs so n (vt t) O) obs Os) :
    ∃ F : ℝ → List ℝ, (∀ t, expectation so eigh draw (.dm ρ) circuit obs (vt t) .ad 0 = .ok (F t)) ∧
      ∀ i O, Os[i]? = some O → ∀ t d, HasDerivAt (fun t => (F t).getD i 0) d t →
        |d| ≤ 2 * ‖O‖ * (evolutionCount circuit.gates * N) := by
  have key := fun t t' => C88_time so eigh draw (h.retime (hv s) (hv t) (hr t) hu).2 (hv t) (hv t').time
    (fun p hp => (hr t' p hp).trans (hr t p hp).symm) hu (hf t) (hf t') hN hN0 hρ hpos htr hne (ho t) (ho t')
  choose xs ys h1 h2 h3 h4 h5 using key
  refine ⟨fun t => xs t t, fun t => h1 t t, fun i O hO t d hd => ?_⟩
  refine hd.le_of_lip' (by positivity) (Filter.Eventually.of_forall fun t' => ?_)
  have e1 : xs t t = xs t t' := Except.ok.inj ((h1 t t).symm.trans (h1 t t'))
  have e2 : xs t' t' = ys t t' := Except.ok.inj ((h1 t' t').symm.trans (h2 t t'))
  beta_reduce
  rw [e1, e2, Real.norm_eq_abs, Real.norm_eq_abs]
  exact (h5 t t' i O hO).trans (le_of_eq (by ring))

/-- **C88** (evolution time, the bound is attained): for one evolution with the Hamiltonian `X`, the observable `Z` and the state `|0⟩⟨0|`
the value is `cos 2t`, whose derivative at `π/4` is `-2`; the operator norms of `X` and `Z` are at most 1 and there is one evolution. -/
theorem C88_time_attained : (∀ t, expectation so eigh draw (.dm (densityMat zero1)) onceEvo [obsZ] (onceValues t) .ad 0
      = .ok [Real.cos (2 * t)]) ∧ HasDerivAt (fun t => Real.cos (2 * t)) (-2) (Real.pi / 4) ∧
    evolutionCount onceEvo.gates = 1 ∧ ‖hamMat 1 matX‖ ≤ 1 ∧ ‖gateMat 1 StdGate.Z.mat [0] []‖ ≤ 1 := by
  have hp : onceEvo.Plain := .seq (.cons (.prim _) .nil)
  have hf : ∀ t, (onceValues t).Flat := fun t => .inl rfl
  refine ⟨fun t => ?_, ?_, ?_, ?_, ?_⟩
  · have hok := hamEvo_ok (n := 1) (onceSetting so t).vals (tg := .int 0) (c := .tuple [.none]) (isOp_mat2 _ _ _ _)
      (.inr (.inl rfl)) (by change ValidDims 1 [0]; decide)
    have hc : onceEvo.Circuit 1 (onceValues t) [[]] := by
      refine ⟨hp, by simp [onceEvo_gates, evoGates], ?_, ?_⟩
      · simp only [onceEvo_gates, evoGates, List.nil_append, List.mem_cons, List.not_mem_nil, or_false, forall_eq]
        exact hok.1
      · rw [onceEvo_gates]
        exact .cons (.none rfl) .nil
    obtain ⟨xs, h1, h2⟩ := C22_pure_partial so eigh draw hc (hf t) zero1_isKet (by simp) (.cons (obsZ_simple so) .nil)
    rw [C20_ad_gpsr so eigh draw (hf t), expectation_gates so eigh draw hp, onceEvo_value so t] at h1
    rw [h2, ← h1]
  · have h := (Real.hasDerivAt_cos (2 * (Real.pi / 4))).comp (Real.pi / 4) ((hasDerivAt_id (Real.pi / 4)).const_mul 2)
    refine h.congr_deriv ?_
    rw [show 2 * (Real.pi / 4) = Real.pi / 2 by ring, Real.sin_pi_div_two]
    norm_num
  · classical
    rw [onceEvo_gates, evoGates, List.nil_append, evolutionCount, List.countP_cons, List.countP_nil, if_pos]
    exact decide_eq_true ⟨_, _, rfl⟩
  · refine norm_le_one_of_star_mul ?_
    ext i j
    fin_cases i <;> fin_cases j <;> simp [hamMat, matX, mat2, NDArray.get, ravel, Matrix.mul_apply, Fin.sum_univ_succ]
  · exact norm_le_one_of_star_mul (gateMat_unitary (n := 1) (ts := [0]) (cs := []) (by decide) StdGate.Z.isUnitary).1

open Classical in
/-- Non-vacuity: a noisy rotation and a controlled evolution with the Hamiltonian `X`: the value of `Z₀` changes by at most
`2 |t - s|`. -/
example (hso : so.SmallSorted) (s t : ℝ) {ρ : DensityMatrix ℂ} (hρ : IsDM 3 ρ) (hpos : (dmMat 3 ρ.array).PosSemidef)
    (ht : (dmMat 3 ρ.array).trace = 1) :
    ∃ x y, expectation so eigh draw (.dm ρ) (gateCircuit 3 [Gate.RX (.str "a") (.int 1) (.tuple [.none]) (some [⟨.bitFlip, .float (1 / 3)⟩]),
        Gate.HamiltonianEvolution (.int 2) (.int 0)]) [Observable.new (.list [.prim (Gate.Z (.int 0))])]
        [("a", .num 5), ("hamiltonian", .arr matX), ("time_evolution", .num s)] .ad 0 = .ok [x] ∧
      expectation so eigh draw (.dm ρ) (gateCircuit 3 [Gate.RX (.str "a") (.int 1) (.tuple [.none]) (some [⟨.bitFlip, .float (1 / 3)⟩]),
        Gate.HamiltonianEvolution (.int 2) (.int 0)]) [Observable.new (.list [.prim (Gate.Z (.int 0))])]
        [("a", .num 5), ("hamiltonian", .arr matX), ("time_evolution", .num t)] .ad 0 = .ok [y] ∧ |y - x| ≤ 2 * |t - s| := by
  have hc : (gateCircuit 3 [Gate.RX (.str "a") (.int 1) (.tuple [.none]) (some [⟨.bitFlip, .float (1 / 3)⟩]),
      Gate.HamiltonianEvolution (.int 2) (.int 0)]).Proper 3
      [("a", .num 5), ("hamiltonian", .arr matX), ("time_evolution", .num s)] [[.bitFlip (1 / 3)], []] := by
    refine ⟨gateCircuit_plain _ _, by simp [gateCircuit_gates], ?_, ?_⟩
    · rw [gateCircuit_gates]
      intro g hg
      simp only [List.mem_cons, List.not_mem_nil, or_false] at hg
      rcases hg with rfl | rfl
      · exact .inl ⟨.RX 5, .RX _ _ _ (.str rfl) (by simp), rfl, ⟨.inr (.inl rfl), by decide⟩⟩
      · exact .inr ⟨.int 2, .int 0, matX, s, rfl, ⟨rfl, rfl⟩, ⟨rfl, rfl⟩, matX_herm, .inr (.inr ⟨[0], rfl⟩), by decide⟩
    · rw [gateCircuit_gates]
      exact .cons (.some rfl (.cons (.bitFlip (by norm_num)) .nil) (.inr ⟨1, rfl⟩)) (.cons (.none rfl) .nil)
  have ho : ∀ u : ℝ, Observable.ReadAs so 3 [("a", .num 5), ("hamiltonian", .arr matX), ("time_evolution", .num u)]
      (Observable.new (.list [.prim (Gate.Z (.int 0))])) (gateMat 3 StdGate.Z.mat [0] []) := fun u => by
    have lZ : StdLeaf 3 [("a", .num 5), ("hamiltonian", .arr matX), ("time_evolution", .num u)] (Gate.Z (.int 0))
      (gateMat 3 StdGate.Z.mat [0] []) := ⟨.Z, ⟨.Z _ _ _, rfl, ⟨.inr (.inl rfl), by decide⟩⟩, rfl, rfl⟩
    exact C68_small so hso (n := 3) (by norm_num) (o := Observable.new (.list [.prim (Gate.Z (.int 0))])) (.one (.gate lZ.sort))
  have hX : ∀ k, IsOp k matX → ‖hamMat k matX‖ ≤ 1 := fun k hk => by
    have h2 : (2 : ℕ) ^ k = 2 ^ 1 := by
      have := hk.shape
      simpa [matX, mat2] using this.symm
    obtain rfl := Nat.pow_right_injective le_rfl h2
    refine norm_le_one_of_star_mul ?_
    ext i j
    fin_cases i <;> fin_cases j <;> simp [hamMat, matX, mat2, NDArray.get, ravel, Matrix.mul_apply, Fin.sum_univ_succ]
  obtain ⟨xs, ys, h1, h2, h3, h4, h5⟩ := C88_time so eigh draw (t := t)
    (v' := [("a", .num 5), ("hamiltonian", .arr matX), ("time_evolution", .num t)]) (H := matX) (s := s) hc ⟨rfl, rfl⟩ rfl
    (fun p hp => by
      have hp' : (p == "time_evolution") = false := by simpa using hp
      simp [List.lookup, hp'])
    (by
      rw [gateCircuit_gates]
      intro g hg
      simp only [List.mem_cons, List.not_mem_nil, or_false] at hg
      rcases hg with rfl | rfl
      · exact fun h => absurd (show "a" = "time_evolution" from h) (by decide)
      · exact fun h => h)
    (.inl rfl) (.inl rfl) hX zero_le_one hρ hpos ht (by simp) (.cons (ho s) .nil) (.cons (ho t) .nil)
  obtain ⟨x, rfl⟩ := List.length_eq_one_iff.1 h3
  obtain ⟨y, rfl⟩ := List.length_eq_one_iff.1 h4
  refine ⟨x, y, h1, h2, (h5 0 _ rfl).trans ?_⟩
  have hO : ‖gateMat 3 StdGate.Z.mat [0] []‖ ≤ 1 :=
    norm_le_one_of_star_mul (gateMat_unitary (n := 3) (ts := [0]) (cs := []) (by decide) StdGate.Z.isUnitary).1
  have hk : (evolutionCount (gateCircuit 3 [Gate.RX (.str "a") (.int 1) (.tuple [.none]) (some [⟨.bitFlip, .float (1 / 3)⟩]),
      Gate.HamiltonianEvolution (.int 2) (.int 0)]).gates : ℝ) = 1 := by
    rw [gateCircuit_gates, evolutionCount, List.countP_cons, List.countP_cons, List.countP_nil, if_pos, if_neg]
    · norm_num
    · intro h
      obtain ⟨tg, c, e⟩ := of_decide_eq_true h
      have : GateClass.parametric (.str "a") 0 = GateClass.hamEvo 0 := congrArg Gate.cls e
      cases this
    · exact decide_eq_true ⟨_, _, rfl⟩
  rw [hk, one_mul, one_mul]
  have := abs_nonneg (t - s)
  nlinarith

end Verif
