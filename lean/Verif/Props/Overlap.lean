import Verif.SpecOverlap
import Verif.Props.Cone
import Verif.Props.States
import Verif.Lemmas.GpsrRename

/-!
# C90: circuits preserve overlaps, ignore global phases, respect mixtures and never increase distinguishability
-/

set_option autoImplicit false

namespace Verif
open NDArray
open scoped ComplexOrder
variable {n : ℕ} (so : SetOrder) (eigh : Eigh) (draw : Draw) {values : Values}
  {nss : List (List StdNoise)} {st : State} {obs : List Observable} {Os : List (LMat n)} {circuit : Op}

theorem std_forall₂ {gs : List Gate} (hs : ∀ g ∈ gs, ∃ s, g.Std n values s) : ∃ ss, List.Forall₂ (Gate.Std n values) gs ss := by
  induction gs with
  | nil => exact ⟨[], .nil⟩
  | cons g gs ih =>
    obtain ⟨s, h⟩ := hs g (by simp)
    obtain ⟨ss, hss⟩ := ih fun g hg => hs g (by simp [hg])
    exact ⟨s :: ss, .cons h hss⟩

theorem gatesMat_unitary {gs : List Gate} (hs : ∀ g ∈ gs, ∃ s, g.Std n values s) :
    (gatesMat n .unitary values gs).conjTranspose * gatesMat n .unitary values gs = 1 := by
  obtain ⟨ss, h⟩ := std_forall₂ hs
  exact gatesMat_std_unitary h

/-! ## Overlaps -/

/-- **C90** (overlaps): running the same noiseless circuit of standard gates on two state vectors keeps their inner product;
hence `inner`, `overlap` and `equivalent_state` give the same answers after the run as before it. -/
theorem C90_inner (hc : circuit.Circuit n values nss) (hz : ∀ g ∈ circuit.gates, g.noise = none)
    (hs : ∀ g ∈ circuit.gates, ∃ s, g.Std n values s) {a b : NDArray ℂ} (ha : IsKet n a) (hb : IsKet n b) :
    ∃ r q, run so circuit (.vec a) values = .ok (some (.vec r)) ∧ run so circuit (.vec b) values = .ok (some (.vec q)) ∧
      IsKet n r ∧ IsKet n q ∧
      (∑ x : Lab n, star (ket n r x) * ket n q x) = ∑ x : Lab n, star (ket n a x) * ket n b x ∧
      inner r q = inner a b ∧ overlap r q = overlap a b ∧ equivalentState r q = equivalentState a b := by
  obtain ⟨r, h1, -, h3⟩ := circuit_run so hc (st := .vec a) ha
  obtain ⟨q, k1, -, k3⟩ := circuit_run so hc (st := .vec b) hb
  cases r with
  | dm r => exact absurd hz h3.1
  | vec r =>
  cases q with
  | dm q => exact absurd hz k3.1
  | vec q =>
  have e : (∑ x : Lab n, star (ket n r x) * ket n q x) = ∑ x : Lab n, star (ket n a x) * ket n b x := by
    change star (ket n r) ⬝ᵥ ket n q = star (ket n a) ⬝ᵥ ket n b
    rw [h3.2.2, k3.2.2, Matrix.star_mulVec, Matrix.dotProduct_mulVec, Matrix.vecMul_vecMul, gatesMat_unitary hs, Matrix.vecMul_one]
  have ei : inner r q = inner a b := by rw [inner_ket h3.2.1 k3.2.1, inner_ket ha hb, e]
  have eo : overlap r q = overlap a b := by rw [overlap, overlap, ei]
  exact ⟨r, q, h1, k1, h3.2.1, k3.2.1, e, ei, eo, by rw [equivalentState, equivalentState, eo]⟩

/-! ## Global phases -/

theorem phase_mat {c : ℂ} (hc : ‖c‖ = 1) {a : NDArray ℂ} (ha : IsKet n a) :
    (State.vec (smul c a)).mat n = (State.vec a).mat n := by
  have h := (smul_ket ha c).2
  have hcc : c * star c = 1 := by rw [Complex.star_def, Complex.mul_conj, Complex.normSq_eq_norm_sq, hc]; simp
  ext x y
  have hx := congrFun h x
  have hy := congrFun h y
  simp only [ket, Pi.smul_apply, smul_eq_mul] at hx hy
  simp only [State.mat, Matrix.of_apply, hx, hy, star_mul']
  linear_combination (a.get x.bits * star (a.get y.bits)) * hcc

/-- The outputs of a circuit on `c ψ` and `ψ`: the same density matrix, or state vectors with the same ratio `c`. -/
theorem phase_run (hc : circuit.Circuit n values nss) {c : ℂ} (h1 : ‖c‖ = 1) {a : NDArray ℂ} (ha : IsKet n a) :
    (∃ r, IsKet n r ∧ applyOps so (.vec a) circuit.iter values = .ok (.vec r) ∧
      applyOps so (.vec (smul c a)) circuit.iter values = .ok (.vec (smul c r)) ∧
      run so circuit (.vec a) values = .ok (some (.vec r)) ∧
      run so circuit (.vec (smul c a)) values = .ok (some (.vec (smul c r)))) ∨
    ∃ ρ, IsDM n ρ ∧ applyOps so (.vec a) circuit.iter values = .ok (.dm ρ) ∧
      applyOps so (.vec (smul c a)) circuit.iter values = .ok (.dm ρ) ∧
      run so circuit (.vec a) values = .ok (some (.dm ρ)) ∧
      run so circuit (.vec (smul c a)) values = .ok (some (.dm ρ)) := by
  obtain ⟨r, h2, h3, h4⟩ := circuit_run so hc (st := .vec a) ha
  obtain ⟨q, k2, k3, k4⟩ := circuit_run so hc (st := .vec (smul c a)) (smul_ket ha c).1
  cases r with
  | vec r =>
    cases q with
    | dm q => exact absurd h4.1 k4.1
    | vec q =>
      have : q = smul c r := ket_ext k4.2.1 (smul_ket h4.2.1 c).1 (by
        rw [k4.2.2, (smul_ket ha c).2, (smul_ket h4.2.1 c).2, h4.2.2, Matrix.mulVec_smul])
      subst this
      exact .inl ⟨r, h4.2.1, h3, k3, h2, k2⟩
  | dm r =>
    cases q with
    | vec q => exact absurd k4.1 h4.1
    | dm q =>
      have : q = r := dm_ext k4.2.1 h4.2.1 (by rw [k4.2.2, h4.2.2, phase_mat h1 ha])
      subst this
      exact .inr ⟨q, h4.2.1, h3, k3, h2, k2⟩

theorem phase_eigen {c : ℂ} (h1 : ‖c‖ = 1) (d : ℕ) (V : Matrix (Fin d) (Fin d) ℂ) (a : NDArray ℂ) :
    eigenProbabilities d V (.vec (smul c a)) = eigenProbabilities d V (.vec a) := by
  have e : (fun j : Fin d => (smul c a).flatten.get [j.val]) = c • fun j : Fin d => a.flatten.get [j.val] := by
    funext j
    simp only [NDArray.get, flatten, smul, List.getD_eq_getElem?_getD, List.getElem?_map, Pi.smul_apply, smul_eq_mul]
    generalize ravel _ _ = i
    rcases h : a.data[i]? with _ | x <;> simp
  simp only [eigenProbabilities, e, Matrix.mulVec_smul, Pi.smul_apply, norm_smul, h1, one_mul]
  rfl

theorem phase_probabilities {c : ℂ} (h1 : ‖c‖ = 1) (a : NDArray ℂ) :
    probabilities (.vec (smul c a)) = probabilities (.vec a) := by
  simp only [probabilities, smul, List.map_map]
  congr 3
  funext z
  simp [h1]

theorem phase_single {c : ℂ} (h1 : ‖c‖ = 1) {a : NDArray ℂ} (ha : IsKet n a) {o : Observable} {O : LMat n}
    (ho : o.Means (AnyLeaf n values) values O) :
    expectSingle so values o (.vec (smul c a)) = expectSingle so values o (.vec a) := by
  rw [expectSingle_vec so ho (smul_ket ha c).1, expectSingle_vec so ho ha, phase_mat h1 ha]

/-- **C90** (phases, states): a global phase of the input is a global phase of the output of a noiseless circuit, and
disappears from the output of a noisy one; in both cases the density operators and the probabilities are the same. -/
theorem C90_phase_run (hc : circuit.Circuit n values nss) {c : ℂ} (h1 : ‖c‖ = 1) {a : NDArray ℂ} (ha : IsKet n a) :
    ∃ r q, run so circuit (.vec a) values = .ok (some r) ∧ run so circuit (.vec (smul c a)) values = .ok (some q) ∧
      q.mat n = r.mat n ∧ probabilities q = probabilities r ∧
      ((¬ ∀ g ∈ circuit.gates, g.noise = none) → q = r) ∧
      ∀ ψ, r = .vec ψ → q = .vec (smul c ψ) := by
  obtain ⟨r', -, -, h4⟩ := circuit_run so hc (st := .vec a) ha
  rcases phase_run so hc h1 ha with ⟨r, hr, h5, h6, h7, h8⟩ | ⟨ρ, hρ, h5, h6, h7, h8⟩
  · refine ⟨_, _, h7, h8, phase_mat h1 hr, phase_probabilities h1 r, fun hz => ?_, ?_⟩
    · obtain ⟨s, k1, -, k3⟩ := circuit_run so hc (st := .vec a) ha
      rw [h7] at k1
      cases k1
      exact absurd k3.1 hz
    · rintro ψ ⟨⟩
      rfl
  · exact ⟨_, _, h7, h8, rfl, rfl, fun _ => rfl, by rintro ψ ⟨⟩⟩

/-- **C90** (phases, `sample`): a global phase does not change the counts that `sample` returns, for every number of shots
and all random numbers; also the refusals are the same. -/
theorem C90_phase_sample (hc : circuit.Circuit n values nss) {c : ℂ} (h1 : ‖c‖ = 1) {a : NDArray ℂ} (ha : IsKet n a) (k : ℤ) :
    (sample so draw (.vec (smul c a)) circuit values k).map SampleResult.counts
      = (sample so draw (.vec a) circuit values k).map SampleResult.counts := by
  by_cases hk : k < 1
  · simp only [sample, hk, if_true]
  simp only [sample, hk, if_false]
  rcases phase_run so hc h1 ha with ⟨r, hr, -, -, h7, h8⟩ | ⟨ρ, hρ, -, -, h7, h8⟩
  · rw [run] at h7 h8
    rw [h7, h8]
    simp only [bind, Except.bind, phase_probabilities h1]
    have hn : numQubits (.vec (smul c r)) = numQubits (.vec r) := rfl
    rw [hn]
    rcases probabilities (.vec r) with e | p
    · rfl
    · rcases h : sampleFromProbs p (numQubits (.vec r)) (List.ofFn (draw k.toNat)) with e | x <;> simp only [h] <;> rfl
  · rw [run] at h7 h8
    rw [h7, h8]
    simp only [bind, Except.bind]
    generalize ρ.array.reshape [2 ^ numQubits (.dm ρ), 2 ^ numQubits (.dm ρ)] = x
    rcases x with e | x
    · rfl
    · simp only [pure, Except.pure]
      rcases h2 : probabilities (.dm ⟨x⟩) with e | p
      · rfl
      · rcases h : sampleFromProbs p (numQubits (.dm ρ)) (List.ofFn (draw k.toNat)) with e | x <;> simp only [h] <;> rfl

/-- **C90** (phases, `expectation`): a global phase of the state does not change the result of `expectation`, in any mode,
for any number of shots, and for all random numbers; also the refusals are the same.  The observables are sums of scaled
products of valid gates of any class, Hermitian or not. -/
theorem C90_phase (hc : circuit.Circuit n values nss) (hf : values.Flat)
    (ho : ∀ o ∈ obs, ∃ O : LMat n, o.Means (AnyLeaf n values) values O) {c : ℂ} (h1 : ‖c‖ = 1) {a : NDArray ℂ}
    (ha : IsKet n a) (mode : DiffMode) (k : ℤ) :
    expectation so eigh draw (.vec (smul c a)) circuit obs values mode k
      = expectation so eigh draw (.vec a) circuit obs values mode k := by
  have hsh : ∀ us, finiteShots so eigh (.vec (smul c a)) circuit.iter obs values us
      = finiteShots so eigh (.vec a) circuit.iter obs values us := by
    intro us
    rw [finiteShots, finiteShots]
    rcases phase_run so hc h1 ha with ⟨r, hr, h5, h6, -, -⟩ | ⟨ρ, hρ, h5, h6, -, -⟩
    · rw [h5, h6]
      change eigenSample so eigh (.vec (smul c r)) obs values (numQubits (.vec r)) us
        = eigenSample so eigh (.vec r) obs values (numQubits (.vec r)) us
      simp only [eigenSample, phase_eigen h1]
    · rw [h5, h6]
  have hex : ∀ o ∈ obs, (do
      let st ← applyOps so (.vec (smul c a)) circuit.iter values
      expectSingle so values o st) = (do
      let st ← applyOps so (.vec a) circuit.iter values
      expectSingle so values o st) := by
    intro o hoo
    obtain ⟨O, hO⟩ := ho o hoo
    rcases phase_run so hc h1 ha with ⟨r, hr, h5, h6, -, -⟩ | ⟨ρ, hρ, h5, h6, -, -⟩
    · rw [h5, h6]
      exact phase_single so h1 hr hO
    · rw [h5, h6]
  have hgp : analyticalExpectation so (.vec (smul c a)) circuit.iter obs values
      = analyticalExpectation so (.vec a) circuit.iter obs values := by
    rw [analyticalExpectation, analyticalExpectation]
    rw [List.mapM_congr_left' hex]
  have had : adExpectation so (.vec (smul c a)) circuit obs values = adExpectation so (.vec a) circuit obs values := by
    simp only [adExpectation, hf.splits.processing, bind, Except.bind]
    exact hgp
  have hadj : adjointExpectation so (.vec (smul c a)) circuit obs values = adjointExpectation so (.vec a) circuit obs values := by
    rw [adjointExpectation, adjointExpectation]
    rw [List.mapM_congr_left' (g := adjointSingle so (.vec a) circuit values)]
    intro o hoo
    obtain ⟨O, hO⟩ := ho o hoo
    rw [adjointSingle, adjointSingle]
    rcases phase_run so hc h1 ha with ⟨r, hr, h5, h6, -, -⟩ | ⟨ρ, hρ, h5, h6, -, -⟩
    · rw [h5, h6]
      exact phase_single so h1 hr hO
    · rw [h5, h6]
  cases mode with
  | ad => simp only [expectation, had, hsh]
  | adjoint => simp only [expectation, hadj]
  | gpsr => simp only [expectation, hgp, hsh]
  | other => rfl

/-! ## Mixtures -/

theorem noisyRun_lin (l : List (Gate × List StdNoise)) : IsLin (noisyRun n .unitary values l) := by
  have := isLin_matRun (n := n) (l.map fun e => (e.1.mat n .unitary values, e.1.target.headD 0, e.2))
  exact ⟨fun A B => by rw [noisyRun_matRun, noisyRun_matRun, noisyRun_matRun]; exact this.add _ _,
    fun c A => by rw [noisyRun_matRun, noisyRun_matRun]; exact this.smul _ _⟩

/-- **C90** (mixtures, `run`): a circuit, noisy or not, maps a combination of states to the same combination of the
results. -/
theorem C90_mixture_run (hc : circuit.Circuit n values nss) {s t u : State} (hs : s.On n) (ht : t.On n) (hu : u.On n)
    {p q : ℂ} (h : u.mat n = p • s.mat n + q • t.mat n) :
    ∃ s' t' u', run so circuit s values = .ok (some s') ∧ run so circuit t values = .ok (some t') ∧
      run so circuit u values = .ok (some u') ∧ u'.mat n = p • s'.mat n + q • t'.mat n := by
  obtain ⟨s', a1, -, a3⟩ := circuit_run so hc hs
  obtain ⟨t', b1, -, b3⟩ := circuit_run so hc ht
  obtain ⟨u', c1, -, c3⟩ := circuit_run so hc hu
  refine ⟨s', t', u', a1, b1, c1, ?_⟩
  have hl := noisyRun_lin (n := n) (values := values) (circuit.gates.zip nss)
  rw [a3.mat hc.noise, b3.mat hc.noise, c3.mat hc.noise, h, hl.add, hl.smul, hl.smul]

/-- **C90** (mixtures, `expectation`): if a density matrix is the real combination `p s + q t` of two states (state vectors
or density matrices), then its exact expectation values are the same combinations of theirs. -/
theorem C90_mixture {mode : DiffMode} {ρ : DensityMatrix ℂ} (hp : circuit.Plain) (hm : ExactMode mode values (.dm ρ) circuit)
    (h : BaseSetting so n values circuit.gates nss (.dm ρ) obs Os) {s t : State} (hs : s.On n) (ht : t.On n) {p q : ℝ}
    (he : dmMat n ρ.array = (p : ℂ) • s.mat n + (q : ℂ) • t.mat n) :
    ∃ xs ys, xs.length = obs.length ∧ ys.length = obs.length ∧
      expectation so eigh draw s circuit obs values mode 0 = .ok xs ∧
      expectation so eigh draw t circuit obs values mode 0 = .ok ys ∧
      expectation so eigh draw (.dm ρ) circuit obs values mode 0 = .ok (List.zipWith (fun x y => p * x + q * y) xs ys) := by
  have hb : ∀ v : State, v.On n → BaseSetting so n values circuit.gates nss v obs Os := fun v hv =>
    { ne := h.ne, std := h.std, noise := h.noise, on := hv, numeric := h.numeric, obs_ne := h.obs_ne
      fixed := h.fixed.imp fun o O hO values => ⟨(hO values).1, fun _ => (hO values).2 (.inl ⟨ρ, rfl⟩)⟩ }
  have hmm : ∀ v : State, ExactMode mode values v circuit := fun v => by
    rcases hm with hm | hm | ⟨-, -, hx⟩
    · exact .inl hm
    · exact .inr (.inl hm)
    · exact absurd (.inl ⟨ρ, rfl⟩) hx
  refine ⟨_, _, ?_, ?_, expectation_exact so eigh draw (hmm s) hp (hb s hs), expectation_exact so eigh draw (hmm t) hp (hb t ht), ?_⟩
  · rw [List.length_map, h.fixed.length_eq]
  · rw [List.length_map, h.fixed.length_eq]
  rw [expectation_exact so eigh draw hm hp h, List.zipWith_map, List.zipWith_self]
  refine congrArg Except.ok (List.map_congr_left fun O _ => ?_)
  have hl := noisyRun_lin (n := n) (values := values) (circuit.gates.zip nss)
  change expVal O (noisyRun n .unitary values (circuit.gates.zip nss) (dmMat n ρ.array)) = _
  rw [he, hl.add, hl.smul, hl.smul, expVal_add, expVal_ofReal_smul, expVal_ofReal_smul]

/-! ## Distinguishability -/

theorem heisenberg_psd {F : LMat n} (hF : F.PosSemidef) (As : List (LMat n)) :
    (As.map fun A => A.conjTranspose * F * A).sum.PosSemidef := by
  induction As with
  | nil => rw [List.map_nil, List.sum_nil]; exact Matrix.PosSemidef.zero
  | cons A As ih =>
    rw [List.map_cons, List.sum_cons]
    exact (hF.conjTranspose_mul_mul_same A).add ih

theorem heisenberg_compl (E : LMat n) (As : List (LMat n)) :
    (As.map fun A => A.conjTranspose * A).sum - (As.map fun A => A.conjTranspose * E * A).sum
      = (As.map fun A => A.conjTranspose * (1 - E) * A).sum := by
  induction As with
  | nil => simp
  | cons A As ih =>
    simp only [List.map_cons, List.sum_cons, ← ih]
    rw [mul_sub, sub_mul, mul_one]
    abel

theorem IsEffect.pull {f : LMat n → LMat n} {S : List ℕ} (hf : KrausOn n S f) {E : LMat n} (hE : IsEffect E) :
    ∃ E', IsEffect E' ∧ ∀ ρ, (E * f ρ).trace = (E' * ρ).trace := by
  obtain ⟨As, -, h2, h3⟩ := hf
  have h4 : IsEffect (As.map fun A => A.conjTranspose * E * A).sum := by
    refine ⟨heisenberg_psd hE.1 As, ?_⟩
    have h5 := heisenberg_psd hE.2 As
    rw [← heisenberg_compl, h2] at h5
    exact h5
  exact ⟨_, h4, fun ρ => (congrArg (fun X => (E * X).trace) (h3 ρ)).trans (heisenberg_sum E ρ As)⟩

theorem IsEffect.pull_run {l : List (Gate × List StdNoise)} (hl : ∀ x ∈ l, (∃ s, x.1.Std n values s) ∧ x.1.NoiseIs x.2) {E : LMat n}
    (hE : IsEffect E) : ∃ E', IsEffect E' ∧ ∀ ρ, (E * noisyRun n .unitary values l ρ).trace = (E' * ρ).trace := by
  induction l with
  | nil => exact ⟨E, hE, fun ρ => rfl⟩
  | cons x l ih =>
    obtain ⟨E', h1, h2⟩ := ih fun y hy => hl y (by simp [hy])
    obtain ⟨⟨s, hs⟩, hn⟩ := hl x (by simp)
    have hk := krausOn_step hs hn (S := x.1.qubits) fun q hq => hq
    rw [← hs.mat] at hk
    obtain ⟨E'', h3, h4⟩ := h1.pull hk
    obtain ⟨g, ns⟩ := x
    exact ⟨E'', h3, fun ρ => by rw [noisyRun, h2, h4]⟩

/-- **C90** (data processing): a circuit of standard gates, noisy or not, never makes two states easier to tell apart: if no
measurement distinguishes the inputs with an advantage above `ε`, then none distinguishes the outputs of `run` with an
advantage above `ε`. -/
theorem C90_contract (hc : circuit.Circuit n values nss) (hs : ∀ g ∈ circuit.gates, ∃ s, g.Std n values s) {s t : State}
    (h1 : s.On n) (h2 : t.On n) :
    ∃ s' t', run so circuit s values = .ok (some s') ∧ run so circuit t values = .ok (some t') ∧
      ∀ ε, WithinDist ε (s.mat n) (t.mat n) → WithinDist ε (s'.mat n) (t'.mat n) := by
  obtain ⟨s', a1, -, a3⟩ := circuit_run so hc h1
  obtain ⟨t', b1, -, b3⟩ := circuit_run so hc h2
  refine ⟨s', t', a1, b1, fun ε h E hE => ?_⟩
  obtain ⟨E', k1, k2⟩ := hE.pull_run (zip_mem hs hc.noise)
  rw [a3.mat hc.noise, b3.mat hc.noise, k2, k2]
  exact h E' k1

/-- **C90** (noiseless circuits lose nothing): without noise the outputs are exactly as distinguishable as the inputs. -/
theorem C90_noiseless (hc : circuit.Circuit n values nss) (hs : ∀ g ∈ circuit.gates, ∃ s, g.Std n values s)
    (hz : ∀ g ∈ circuit.gates, g.noise = none) {s t : State} (h1 : s.On n) (h2 : t.On n) :
    ∃ s' t', run so circuit s values = .ok (some s') ∧ run so circuit t values = .ok (some t') ∧
      ∀ ε, WithinDist ε (s'.mat n) (t'.mat n) ↔ WithinDist ε (s.mat n) (t.mat n) := by
  obtain ⟨s', t', a1, b1, hle⟩ := C90_contract so hc hs h1 h2
  refine ⟨s', t', a1, b1, fun ε => ⟨fun h E hE => ?_, hle ε⟩⟩
  obtain ⟨s'', a1', -, a3⟩ := circuit_run so hc h1
  obtain ⟨t'', b1', -, b3⟩ := circuit_run so hc h2
  rw [a1] at a1'; cases a1'
  rw [b1] at b1'; cases b1'
  have hU := gatesMat_unitary hs
  have hU' := mul_eq_one_comm.1 hU
  have es := a3.mat hc.noise
  have et := b3.mat hc.noise
  rw [noisyRun_noiseless hc.noise hz] at es et
  generalize gatesMat n .unitary values circuit.gates = U at hU hU' es et
  have hE' : IsEffect (U * E * U.conjTranspose) := by
    refine ⟨hE.1.mul_mul_conjTranspose_same U, ?_⟩
    have : 1 - U * E * U.conjTranspose = U * (1 - E) * U.conjTranspose := by rw [mul_sub, sub_mul, mul_one, hU']
    rw [this]
    exact hE.2.mul_mul_conjTranspose_same U
  have key : ∀ ρ : LMat n, (U * E * U.conjTranspose * (U * ρ * U.conjTranspose)).trace = (E * ρ).trace := by
    intro ρ
    have : U * E * U.conjTranspose * (U * ρ * U.conjTranspose) = U * (E * (U.conjTranspose * U) * ρ * U.conjTranspose) := by
      simp only [mul_assoc]
    rw [this, hU, mul_one, Matrix.trace_mul_comm, mul_assoc, hU, mul_one]
  have := h _ hE'
  rw [es, et, key, key] at this
  exact this

/-! ## Concrete cases -/

/-- The state `|1⟩`. -/
noncomputable def one1 : NDArray ℂ := ⟨[2], [0, 1]⟩

theorem one1_isKet : IsKet 1 one1 := ⟨rfl, rfl⟩

theorem one1_get (i : Fin 2) : one1.get (lab1 i).bits = if i = 0 then 0 else 1 := by
  fin_cases i <;> simp [lab1_bits, NDArray.get, one1, ravel]

theorem one1_mat (i j : Fin 2) : (State.vec one1).mat 1 (lab1 i) (lab1 j) = if i = 0 ∨ j = 0 then 0 else 1 := by
  fin_cases i <;> fin_cases j <;> simp [State.mat, one1_get]

theorem ext_lab1 {A B : LMat 1} (h : ∀ i j, A (lab1 i) (lab1 j) = B (lab1 i) (lab1 j)) : A = B := by
  ext x y
  have e : ∀ z : Lab 1, z = lab1 (z 0) := fun z => funext fun k => by rw [Subsingleton.elim k 0]; rfl
  rw [e x, e y, h]

include so in
theorem noisyFlip_circuit {a : StdNoise} (ha : a.Valid) : (noisyFlip a).Circuit 1 [] [[a]] :=
  have h := noisyFlip_setting so ha
  ⟨noisyFlip_plain a, h.ne, fun g hg => (h.std g hg).choose_spec.ok, h.noise⟩

/-- **C90** (noise can lose everything): `|0⟩` and `|1⟩` are perfectly distinguishable, but after `X(0)` with a bit flip of
probability `1/2` they cannot be told apart at all. -/
theorem C90_strict : (noisyFlip (.bitFlip (1 / 2))).Circuit 1 [] [[.bitFlip (1 / 2)]] ∧
    (∀ g ∈ (noisyFlip (.bitFlip (1 / 2))).gates, ∃ s, g.Std 1 [] s) ∧
    (∀ ε, WithinDist ε ((State.vec zero1).mat 1) ((State.vec one1).mat 1) → 1 ≤ ε) ∧
    ∃ s' t', run so (noisyFlip (.bitFlip (1 / 2))) (.vec zero1) [] = .ok (some s') ∧
      run so (noisyFlip (.bitFlip (1 / 2))) (.vec one1) [] = .ok (some t') ∧ WithinDist 0 (s'.mat 1) (t'.mat 1) := by
  have hv : (StdNoise.bitFlip (1 / 2)).Valid := by constructor <;> norm_num
  have hc := noisyFlip_circuit so hv
  refine ⟨hc, (noisyFlip_setting so hv).std, fun ε h => ?_, ?_⟩
  · have hp := zero1_density.1
    have hq : 1 - (State.vec zero1).mat 1 = (State.vec one1).mat 1 := ext_lab1 fun i j => by
      rw [Matrix.sub_apply, zero1_mat, one1_mat, Matrix.one_apply]
      fin_cases i <;> fin_cases j <;> simp [lab1_inj]
    have := h _ ⟨hp, hq ▸ Matrix.posSemidef_vecMulVec_self_star (ket 1 one1)⟩
    simp only [Matrix.trace, sum_lab1, Matrix.diag_apply, Matrix.mul_apply, zero1_mat, one1_mat] at this
    simpa using this
  · obtain ⟨s', h1, -, h3⟩ := circuit_run so hc (st := .vec zero1) zero1_isKet
    obtain ⟨t', k1, -, k3⟩ := circuit_run so hc (st := .vec one1) one1_isKet
    refine ⟨s', t', h1, k1, fun E _ => ?_⟩
    have hx : (Gate.X (.int 0) (noise := some [(StdNoise.bitFlip (1 / 2)).inst])).Std 1 [] .X :=
      ⟨.X _ _ _, rfl, ⟨.inr (.inl rfl), (by decide : ValidDims 1 [0])⟩⟩
    have hm : (Gate.X (.int 0) (noise := some [(StdNoise.bitFlip (1 / 2)).inst])).mat 1 .unitary [] = gateMat 1 StdGate.X.mat [0] [] :=
      hx.mat
    have es : s'.mat 1 = StdNoise.chan 1 0 (conjBy ((Gate.X (.int 0) (noise := some [(StdNoise.bitFlip (1 / 2)).inst])).mat 1 .unitary [])
      ((State.vec zero1).mat 1)) (.bitFlip (1 / 2)) := h3.mat hc.noise
    have et : t'.mat 1 = StdNoise.chan 1 0 (conjBy ((Gate.X (.int 0) (noise := some [(StdNoise.bitFlip (1 / 2)).inst])).mat 1 .unitary [])
      ((State.vec one1).mat 1)) (.bitFlip (1 / 2)) := k3.mat hc.noise
    have e : s'.mat 1 = t'.mat 1 := by
      rw [es, et, hm]
      refine ext_lab1 fun i j => ?_
      simp only [StdNoise.chan, Matrix.add_apply, Matrix.smul_apply, conjBy, Matrix.mul_apply, sum_lab1, Matrix.conjTranspose_apply,
        zero1_mat, one1_mat, onQubit, gateMat_lab1, StdGate.mat, matE]
      fin_cases i <;> fin_cases j <;> simp <;> norm_num
    rw [e, sub_self, abs_zero]

/-- Non-vacuity of C90: a noiseless and a noisy circuit on one qubit, a phase, and `1/2 |0⟩⟨0| + 1/2 |1⟩⟨1|`. -/
example : plainFlip.Circuit 1 [] [[]] ∧ (∀ g ∈ plainFlip.gates, g.noise = none) ∧ (∀ g ∈ plainFlip.gates, ∃ s, g.Std 1 [] s) ∧
    IsKet 1 zero1 ∧ IsKet 1 one1 ∧ ‖Complex.I‖ = 1 ∧ smul Complex.I zero1 ≠ zero1 ∧
    (noisyFlip (.bitFlip (1 / 4))).Circuit 1 [] [[.bitFlip (1 / 4)]] ∧ Values.Flat [] ∧
    (∀ o ∈ [obsZ], ∃ O : LMat 1, o.Means (AnyLeaf 1 []) [] O) ∧
    ∃ ρ : DensityMatrix ℂ, BaseSetting so 1 [] (noisyFlip (.bitFlip (1 / 4))).gates [[.bitFlip (1 / 4)]] (.dm ρ) [obsZ]
        [gateMat 1 StdGate.Z.mat [0] []] ∧
      dmMat 1 ρ.array = ((1 / 2 : ℝ) : ℂ) • (State.vec zero1).mat 1 + ((1 / 2 : ℝ) : ℂ) • (State.vec one1).mat 1 := by
  have hv : (StdNoise.bitFlip (1 / 4)).Valid := by constructor <;> norm_num
  have h0 := (noisyFlip_setting so (a := .bitFlip 0) ⟨le_rfl, zero_le_one⟩).noiseless
  have h1 := noisyFlip_setting so hv
  refine ⟨⟨plainFlip_plain, h0.ne, fun g hg => (h0.std g hg).choose_spec.ok, h0.noise⟩, ?_, h0.std, zero1_isKet, one1_isKet,
    Complex.norm_I, ?_, noisyFlip_circuit so hv, .inl rfl, ?_, ⟨⟨[2, 2], [1 / 2, 0, 0, 1 / 2]⟩⟩, ?_, ?_⟩
  · intro g hg
    change g ∈ [Gate.X (.int 0)] at hg
    rw [List.mem_singleton] at hg
    subst hg; rfl
  · intro h
    have := congrArg (fun a : NDArray ℂ => (a.data.headD 0).re) h
    simp [smul, zero1] at this
  · intro o ho
    rw [List.mem_singleton] at ho
    subst ho
    exact ⟨_, Op.MeansSum.mono (fun _ _ h => StdLeaf.any h) (obsZ_fixed so True []).1⟩
  · exact { ne := h1.ne, std := h1.std, noise := h1.noise, on := ⟨rfl, rfl⟩, numeric := h1.numeric, obs_ne := h1.obs_ne
            fixed := .cons (obsZ_fixed so _) .nil }
  · refine ext_lab1 fun i j => ?_
    rw [Matrix.add_apply, Matrix.smul_apply, Matrix.smul_apply, zero1_mat, one1_mat]
    fin_cases i <;> fin_cases j <;> simp [dmMat, lab1_bits, NDArray.get, ravel]

end Verif
