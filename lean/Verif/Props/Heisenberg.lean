import Mathlib.Analysis.Calculus.Deriv.Star
import Verif.Lemmas.Identities
import Verif.Props.GpsrHam
import Verif.Props.Overlap
import Verif.Props.Trace

/-!
# C93: the equations of motion of Hamiltonian evolution

A circuit with a `HamiltonianEvolution` as its last gate solves the Schrödinger equation (pure states), the von Neumann equation (all
states) and the Heisenberg equation (expectation values) in the parameter `time_evolution`; observables that commute with the
Hamiltonian are conserved, eigenvectors of the Hamiltonian are stationary.
-/

set_option autoImplicit false

namespace Verif
open NDArray

/-- The Hamiltonian on the register: the matrix `H` on the targets, nothing on the other qubits. -/
noncomputable def registerHam (n : ℕ) (H : NDArray ℂ) (tg : TArg) : Matrix (Lab n) (Lab n) ℂ :=
  gateMat n (matE (hamMat (parseTarget tg).length H)) (parseTarget tg) []

/-- The rate of change `i [K, O]` of the observable `O` under the Hamiltonian `K`. -/
noncomputable def heisenberg {n : ℕ} (K O : Matrix (Lab n) (Lab n) ℂ) : Matrix (Lab n) (Lab n) ℂ := Complex.I • (K * O - O * K)

/-- The rate of change `-i [K, ρ]` of the state `ρ` under the Hamiltonian `K`. -/
noncomputable def vonNeumann {n : ℕ} (K ρ : Matrix (Lab n) (Lab n) ℂ) : Matrix (Lab n) (Lab n) ℂ := (-Complex.I) • (K * ρ - ρ * K)

section lemmas
variable {n : ℕ}

theorem evolution_deriv (k : ℕ) (H : NDArray ℂ) {ts : List ℕ} (hts : ts.length = k) (hv : ValidDims n ts) (x : ℝ) :
    MatDeriv (fun t => gateMat n (matE (evolution k H t)) ts [])
      ((-Complex.I) • (gateMat n (matE (hamMat k H)) ts [] * gateMat n (matE (evolution k H x)) ts [])) x := by
  subst hts
  intro b b'
  rw [gateMat_matE_mul _ _ rfl hv]
  simp only [gateMat_nil_apply, Matrix.smul_apply]
  by_cases h : Lab.AgreeOff ts b b'
  · simp only [h, if_true]
    have hb := b.idx_lt ts
    have hb' := b'.idx_lt ts
    simp only [matE_lt _ hb hb']
    have e : ∀ t : ℝ, evolution ts.length H t = NormedSpace.exp (t • ((-Complex.I) • hamMat ts.length H)) := by
      intro t
      rw [evolution]
      congr 1
      ext i j
      simp only [Matrix.smul_apply, smul_eq_mul, Complex.real_smul]
      ring
    have := expEntry_hasDerivAt ((-Complex.I) • hamMat ts.length H) ⟨_, hb⟩ ⟨_, hb'⟩ x
    simp only [e]
    rwa [Matrix.smul_mul] at this
  · simp only [h, if_false, smul_zero]
    exact hasDerivAt_const _ _

theorem MatDeriv.mulC {f g : ℝ → Matrix (Lab n) (Lab n) ℂ} {f' g' : Matrix (Lab n) (Lab n) ℂ} {x : ℝ} (hf : MatDeriv f f' x)
    (hg : MatDeriv g g' x) : MatDeriv (fun t => f t * g t) (f' * g x + f x * g') x := by
  intro i j
  simp only [Matrix.add_apply, Matrix.mul_apply, ← Finset.sum_add_distrib]
  exact HasDerivAt.fun_sum fun k _ => (hf i k).fun_mul (hg k j)

theorem MatDeriv.conjT {f : ℝ → Matrix (Lab n) (Lab n) ℂ} {f' : Matrix (Lab n) (Lab n) ℂ} {x : ℝ} (hf : MatDeriv f f' x) :
    MatDeriv (fun t => (f t).conjTranspose) f'.conjTranspose x := fun i j => HasDerivAt.star (hf j i)

/-- The von Neumann equation for the evolution operator. -/
theorem conj_evolution_deriv (k : ℕ) {H : NDArray ℂ} (hH : (hamMat k H).IsHermitian) {ts : List ℕ} (hts : ts.length = k)
    (hv : ValidDims n ts) (σ : Matrix (Lab n) (Lab n) ℂ) (x : ℝ) :
    MatDeriv (fun t => conjBy (gateMat n (matE (evolution k H t)) ts []) σ)
      (vonNeumann (gateMat n (matE (hamMat k H)) ts []) (conjBy (gateMat n (matE (evolution k H x)) ts []) σ)) x := by
  have h := evolution_deriv (n := n) k H hts hv x
  have hK : (gateMat n (matE (hamMat k H)) ts []).conjTranspose = gateMat n (matE (hamMat k H)) ts [] := by
    subst hts
    rw [gateMat_conjTranspose _ (by simpa using hv)]
    refine gateMat_congr fun i j hi hj => ?_
    rw [matE_lt _ hi hj]
    simp only [conjT, matE_lt _ hj hi]
    exact hH.apply _ _
  have h2 := (h.mulC (MatDeriv.const σ x)).mulC h.conjT
  intro i j
  refine (h2 i j).congr_deriv (congrFun (congrFun ?_ i) j)
  rw [Matrix.mul_zero, add_zero, Matrix.conjTranspose_smul, Matrix.conjTranspose_mul, hK, vonNeumann, conjBy]
  simp only [Matrix.smul_mul, Matrix.mul_smul, star_neg, RCLike.star_def, Complex.conj_I, neg_neg, neg_smul, smul_sub, Matrix.neg_mul,
    Matrix.mul_assoc]
  abel

theorem expVal_vonNeumann (K O ρ : Matrix (Lab n) (Lab n) ℂ) : expVal O (vonNeumann K ρ) = expVal (heisenberg K O) ρ := by
  rw [expVal, expVal, vonNeumann, heisenberg]
  congr 1
  rw [Matrix.mul_smul, Matrix.smul_mul, Matrix.trace_smul, Matrix.trace_smul, Matrix.mul_sub, Matrix.sub_mul, Matrix.trace_sub,
    Matrix.trace_sub, ← Matrix.mul_assoc O ρ K, Matrix.trace_mul_comm (O * ρ) K, ← Matrix.mul_assoc O K ρ, ← Matrix.mul_assoc K O ρ]
  simp only [smul_eq_mul]
  ring

theorem gatesMat_congr {values values' : Values} {gs : List Gate}
    (h : ∀ g ∈ gs, g.mat n .unitary values = g.mat n .unitary values') : gatesMat n .unitary values gs = gatesMat n .unitary values' gs := by
  induction gs with
  | nil => rfl
  | cons g gs ih => rw [gatesMat, gatesMat, h g List.mem_cons_self, ih fun g hg => h g (List.mem_cons_of_mem _ hg)]

theorem evolution_comm (k : ℕ) (H : NDArray ℂ) (x : ℝ) : hamMat k H * evolution k H x = evolution k H x * hamMat k H := by
  rw [evolution]
  letI : NormedRing (Matrix (Fin (2 ^ k)) (Fin (2 ^ k)) ℂ) := Matrix.linftyOpNormedRing
  letI : NormedAlgebra ℂ (Matrix (Fin (2 ^ k)) (Fin (2 ^ k)) ℂ) := Matrix.linftyOpNormedAlgebra
  letI : NormedAlgebra ℚ (Matrix (Fin (2 ^ k)) (Fin (2 ^ k)) ℂ) := NormedAlgebra.restrictScalars ℚ ℂ _
  exact (((Commute.refl (hamMat k H)).smul_right (-Complex.I * (x : ℂ))).exp_right).eq

theorem evolution_zero (k : ℕ) (H : NDArray ℂ) : evolution k H 0 = 1 := by
  rw [evolution]; simp [NormedSpace.exp_zero]

theorem partial_of_deriv {E : Values → Py (List ℝ)} {values : Values} {p : String} {x : ℝ} (hx : values.lookup p = some (.num x))
    {α : Type} (l : List α) {f : α → ℝ → ℝ} {f' : α → ℝ} (hE : ∀ t, E (values.upd p t) = .ok (l.map fun a => f a t))
    (hd : ∀ a ∈ l, HasDerivAt (f a) (f' a) x) : IsPartial E values p (l.map f') := by
  refine ⟨x, fun t => l.map fun a => f a t, hx, hE, fun t => by simp, fun i => ?_⟩
  by_cases hi : i < l.length
  · simp only [List.getD_eq_getElem?_getD, List.getElem?_map, List.getElem?_eq_getElem hi, Option.map_some, Option.getD_some]
    exact hd _ (List.getElem_mem hi)
  · simp only [List.getD_eq_getElem?_getD, List.getElem?_map, List.getElem?_eq_none (not_lt.1 hi), Option.map_none,
      Option.getD_none]
    exact hasDerivAt_const _ _

end lemmas

variable (so : SetOrder) (eigh : Eigh) (draw : Draw)
variable {n : ℕ} {values : Values} {H : NDArray ℂ} {t : ℝ} {l₁ : List Gate} {tg : TArg} {l₂ : List Gate}
  {ns₁ ns₂ : List (List StdNoise)} {st : State} {obs : List Observable} {Os : List (Matrix (Lab n) (Lab n) ℂ)}

theorem EvoSetting.circuit (h : EvoSetting so n values H t l₁ tg l₂ ns₁ ns₂ st obs Os) {v : Values} {t' : ℝ}
    (hv : EvolutionValues v H t') (hstd : ∀ g ∈ l₁ ++ l₂, ∃ s, g.Std n v s) {circuit : Op} (hp : circuit.Plain)
    (hg : circuit.gates = evoGates l₁ tg l₂) : circuit.Circuit n v (evoNoise ns₁ ns₂) := by
  refine ⟨hp, by simp [hg, evoGates], fun g hg' => ?_, by rw [hg]; exact h.noise⟩
  rw [hg] at hg'
  rcases List.mem_append.1 hg' with hg' | hg'
  · obtain ⟨s, hs⟩ := hstd g (by simp [hg']); exact hs.ok
  · rcases List.mem_cons.1 hg' with rfl | hg'
    · exact (hamEvo_ok (n := n) (c := .tuple [.none]) hv h.op (.inr (.inl rfl)) h.place).1
    · obtain ⟨s, hs⟩ := hstd g (by simp [hg']); exact hs.ok

theorem EvoSetting.run_at (h : EvoSetting so n values H t l₁ tg l₂ ns₁ ns₂ st obs Os) {v : Values} {t' : ℝ}
    (hv : EvolutionValues v H t') (hstd : ∀ g ∈ l₁ ++ l₂, ∃ s, g.Std n v s) {circuit : Op} (hp : circuit.Plain)
    (hg : circuit.gates = evoGates l₁ tg l₂) :
    ∃ r, run so circuit st v = .ok (some r) ∧ State.Evolved n v (evoGates l₁ tg l₂) (evoNoise ns₁ ns₂) st r ∧
      r.mat n = noisyRun n .unitary v (l₂.zip ns₂) (conjBy (gateMat n (matE (evolution (parseTarget tg).length H t')) (parseTarget tg) [])
        (noisyRun n .unitary v (l₁.zip ns₁) (st.mat n))) := by
  obtain ⟨r, h1, -, h3⟩ := circuit_run so (h.circuit so hv hstd hp hg) h.on
  rw [hg] at h3
  refine ⟨r, h1, h3, ?_⟩
  rw [h3.mat h.noise, evoGates, evoNoise, List.zip_append h.noise₁.length_eq, List.zip_cons_cons, noisyRun_append, noisyRun,
    (hamEvo_ok (n := n) (c := .tuple [.none]) hv h.op (.inr (.inl rfl)) h.place).2]
  rfl

theorem EvoSetting.mat_time (h : EvoSetting so n values H t l₁ tg l₂ ns₁ ns₂ st obs Os) (x : ℝ) {g : Gate} (hg : g ∈ l₁ ++ l₂) :
    g.mat n .unitary (values.upd "time_evolution" x) = g.mat n .unitary values := by
  obtain ⟨s, hs⟩ := h.std g hg
  rw [hs.mat, (hs.congr fun q hq => Values.lookup_set_of_ne (by rintro rfl; exact h.free g hg hq) x).mat]

/-- **C93** (von Neumann equation): as a function of the time, the state `ρ` that `run` returns for a circuit with a Hamiltonian
evolution as its last gate satisfies `dρ/dt = -i [K, ρ]`, where `K` is the Hamiltonian on the register. -/
theorem C93_vonNeumann {circuit : Op} (hp : circuit.Plain) (hg : circuit.gates = evoGates l₁ tg [])
    (h : EvoSetting so n values H t l₁ tg [] ns₁ [] st obs Os) (hH : (hamMat (parseTarget tg).length H).IsHermitian) :
    ∃ r : ℝ → State, (∀ x, run so circuit st (values.upd "time_evolution" x) = .ok (some (r x))) ∧
      ∀ x i j, HasDerivAt (fun t => (r t).mat n i j) (vonNeumann (registerHam n H tg) ((r x).mat n) i j) x := by
  choose r hr1 hr2 hr3 using fun x => h.run_at so (h.vals_time x) (h.std_upd _ x) hp hg
  refine ⟨r, hr1, fun x => ?_⟩
  have e : ∀ x, (r x).mat n = conjBy (gateMat n (matE (evolution (parseTarget tg).length H x)) (parseTarget tg) [])
        (noisyRun n .unitary values (l₁.zip ns₁) (st.mat n)) := by
    intro x
    rw [hr3 x, noisyRun_congr (l := l₁.zip ns₁) fun e he => h.mat_time so x (by simp [(List.of_mem_zip he).1])]
    rfl
  simp only [e]
  exact conj_evolution_deriv _ hH rfl h.place _ x

/-- **C93** (Schrödinger equation): as a function of the time, the state vector `ψ` that `run` returns for a circuit without noise
with a Hamiltonian evolution as its last gate satisfies `dψ/dt = -i K ψ`, for every matrix `H`. -/
theorem C93_schroedinger {circuit : Op} (hp : circuit.Plain) (hg : circuit.gates = evoGates l₁ tg []) {a : NDArray ℂ}
    (h : EvoSetting so n values H t l₁ tg [] ns₁ [] (.vec a) obs Os) (hno : ∀ g ∈ l₁, g.noise = none) :
    ∃ ψ : ℝ → NDArray ℂ, (∀ x, run so circuit (.vec a) (values.upd "time_evolution" x) = .ok (some (.vec (ψ x)))) ∧
      ∀ x b, HasDerivAt (fun t => ket n (ψ t) b) (-Complex.I * (registerHam n H tg).mulVec (ket n (ψ x)) b) x := by
  have key : ∀ x, ∃ ψ, run so circuit (.vec a) (values.upd "time_evolution" x) = .ok (some (.vec ψ)) ∧
      ket n ψ = (gateMat n (matE (evolution (parseTarget tg).length H x)) (parseTarget tg) []).mulVec
        ((gatesMat n .unitary values l₁).mulVec (ket n a)) := by
    intro x
    obtain ⟨r, h1, h2, -⟩ := h.run_at so (h.vals_time x) (h.std_upd _ x) hp hg
    cases r with
    | dm r =>
      refine absurd (fun g hg => ?_) h2.1
      rcases List.mem_append.1 hg with hg | hg
      · exact hno g hg
      · rw [List.mem_singleton.1 hg]; rfl
    | vec ψ =>
      refine ⟨ψ, h1, ?_⟩
      rw [h2.2.2, evoGates, gatesMat_append, gatesMat, gatesMat, one_mul,
        (hamEvo_ok (n := n) (c := .tuple [.none]) (h.vals_time x) h.op (.inr (.inl rfl)) h.place).2, ← Matrix.mulVec_mulVec]
      congr 2
      exact gatesMat_congr fun g hg => h.mat_time so x (by simp [hg])
  choose ψ h1 h2 using key
  refine ⟨ψ, h1, fun x b => ?_⟩
  simp only [h2]
  have hd := evolution_deriv (n := n) (parseTarget tg).length H rfl h.place x
  generalize (gatesMat n .unitary values l₁).mulVec (ket n a) = φ
  rw [Matrix.mulVec_mulVec]
  simp only [Matrix.mulVec, dotProduct, Finset.mul_sum]
  refine HasDerivAt.fun_sum fun i _ => ?_
  refine ((hd b i).mul_const (φ i)).congr_deriv ?_
  simp only [Matrix.smul_apply, smul_eq_mul, registerHam]
  ring

/-- **C93** (response): the derivative with respect to the time of the expectation values for an evolution in the middle of a circuit,
with noise before and after: the state after the evolution changes at the rate `-i [K, ρ]`, and the rest of the circuit carries this
change to the end. -/
theorem C93_response {circuit : Op} (hp : circuit.Plain) (hg : circuit.gates = evoGates l₁ tg l₂)
    (h : EvoSetting so n values H t l₁ tg l₂ ns₁ ns₂ st obs Os) (hH : (hamMat (parseTarget tg).length H).IsHermitian) :
    ∃ ρ, applyGates so st (.list (l₁ ++ [Gate.HamiltonianEvolution tg])) values = .ok ρ ∧
      IsPartial (fun v => expectation so eigh draw st circuit obs v .gpsr 0) values "time_evolution"
        (Os.map fun O => expVal O (noisyRun n .unitary values (l₂.zip ns₂) (vonNeumann (registerHam n H tg) (ρ.mat n)))) := by
  obtain ⟨h1, h2⟩ := hamEvo_ok (n := n) (c := .tuple [.none]) h.vals h.op (.inr (.inl rfl)) h.place
  have hn : List.Forall₂ Gate.NoiseIs (l₁ ++ [Gate.HamiltonianEvolution tg]) (ns₁ ++ [[]]) :=
    List.rel_append h.noise₁ (.cons (.none rfl) .nil)
  obtain ⟨ρ, h3, h4⟩ := applyGates_evolved so (gs := l₁ ++ [Gate.HamiltonianEvolution tg]) (by simp) (fun g hg => by
    rcases List.mem_append.1 hg with hg | hg
    · obtain ⟨s, hs⟩ := h.std g (by simp [hg]); exact hs.ok
    · rw [List.mem_singleton.1 hg]; exact h1) hn h.on true
  have h5 : ρ.mat n = conjBy (gateMat n (matE (evolution (parseTarget tg).length H t)) (parseTarget tg) [])
        (noisyRun n .unitary values (l₁.zip ns₁) (st.mat n)) := by
    rw [h4.mat hn, List.zip_append h.noise₁.length_eq, noisyRun_append, List.zip_cons_cons, noisyRun, h2]
    rfl
  refine ⟨ρ, h3, partial_of_deriv h.vals.time Os (f := fun O x => expVal O
      (noisyRun n .unitary values (l₂.zip ns₂) (conjBy (gateMat n (matE (evolution (parseTarget tg).length H x)) (parseTarget tg) [])
        (noisyRun n .unitary values (l₁.zip ns₁) (st.mat n))))) (fun x => ?_) fun O _ => ?_⟩
  · simp only [expectation_gates so eigh draw hp, hg]
    exact h.eval_time x
  · rw [h5]
    exact expVal_deriv O ((conj_evolution_deriv (n := n) _ hH rfl h.place _ t).lin (isLin_noisyRun _))

/-- **C93** (Heisenberg equation): for a circuit with a Hamiltonian evolution as its last gate, the derivative of the expectation
values with respect to the time is the expectation value of `i [K, O]` in the state that `run` returns. -/
theorem C93_heisenberg {circuit : Op} (hp : circuit.Plain) (hg : circuit.gates = evoGates l₁ tg [])
    (h : EvoSetting so n values H t l₁ tg [] ns₁ [] st obs Os) (hH : (hamMat (parseTarget tg).length H).IsHermitian) :
    ∃ r, run so circuit st values = .ok (some r) ∧
      IsPartial (fun v => expectation so eigh draw st circuit obs v .gpsr 0) values "time_evolution"
        (Os.map fun O => expVal (heisenberg (registerHam n H tg) O) (r.mat n)) := by
  obtain ⟨r, h1, h2, h3⟩ := h.run_at so h.vals h.std hp hg
  refine ⟨r, h1, partial_of_deriv h.vals.time Os (f := fun O x => expVal O
      (noisyRun n .unitary values [] (conjBy (gateMat n (matE (evolution (parseTarget tg).length H x)) (parseTarget tg) [])
        (noisyRun n .unitary values (l₁.zip ns₁) (st.mat n))))) (fun x => ?_) fun O _ => ?_⟩
  · simp only [expectation_gates so eigh draw hp, hg]
    exact h.eval_time x
  · rw [← expVal_vonNeumann, h3]
    exact expVal_deriv O (conj_evolution_deriv (n := n) _ hH rfl h.place _ t)

/-- **C93** (automatic differentiation): the tangents with respect to the time that `jax.jvp` returns for `expectation` in AD mode are
the expectation values of `i [K, O]`. -/
theorem C93_jvp {d : TDict ℝ ℂ} (hf : d.toValues.Flat) {circuit : Op} (hp : circuit.Plain) (hg : circuit.gates = evoGates l₁ tg [])
    (h : EvoSetting so n d.toValues H t l₁ tg [] ns₁ [] st obs Os) (hH : (hamMat (parseTarget tg).length H).IsHermitian) :
    ∃ r l, run so circuit st d.toValues = .ok (some r) ∧
      jvpExpectation so (st.const Tracer.base.dual) circuit obs (.flat (d.seed "time_evolution")) = .ok l ∧
      l.map TrivSqZeroExt.snd = Os.map fun O => expVal (heisenberg (registerHam n H tg) O) (r.mat n) := by
  obtain ⟨eigh⟩ := eigh_exists
  obtain ⟨r, h1, h2⟩ := C93_heisenberg so eigh (fun _ _ => 0) hp hg h hH
  have hn : (d.map Prod.fst).Nodup := by
    have := h.nodup
    rwa [TDict.toValues, List.map_map] at this
  obtain ⟨l, h3, h4⟩ := C92_agree so eigh _ circuit obs st hn hf h2
  exact ⟨r, l, h1, h3, h4⟩

/-- **C93** (conservation laws): the expectation values of observables that commute with the Hamiltonian do not depend on the time, in
gpsr mode and (for dictionaries without the two special keys) in AD mode. -/
theorem C93_conserved {circuit : Op} (hp : circuit.Plain) (hg : circuit.gates = evoGates l₁ tg [])
    (h : EvoSetting so n values H t l₁ tg [] ns₁ [] st obs Os) (hH : (hamMat (parseTarget tg).length H).IsHermitian)
    (hc : ∀ O ∈ Os, registerHam n H tg * O = O * registerHam n H tg) :
    ∃ c : List ℝ, (∀ x, expectation so eigh draw st circuit obs (values.upd "time_evolution" x) .gpsr 0 = .ok c) ∧
      (values.Flat → ∀ x, expectation so eigh draw st circuit obs (values.upd "time_evolution" x) .ad 0 = .ok c) := by
  have hE : ∀ x, expectation so eigh draw st circuit obs (values.upd "time_evolution" x) .gpsr 0 = .ok (Os.map fun O => expVal O
      (conjBy (gateMat n (matE (evolution (parseTarget tg).length H 0)) (parseTarget tg) [])
        (noisyRun n .unitary values (l₁.zip ns₁) (st.mat n)))) := by
    intro x
    rw [expectation_gates so eigh draw hp, hg, h.eval_time x]
    refine congrArg Except.ok (List.map_congr_left fun O hO => ?_)
    have hd : ∀ y, HasDerivAt (fun x => expVal O (conjBy (gateMat n (matE (evolution (parseTarget tg).length H x)) (parseTarget tg) [])
        (noisyRun n .unitary values (l₁.zip ns₁) (st.mat n)))) 0 y := by
      intro y
      refine (expVal_deriv O (conj_evolution_deriv (n := n) _ hH rfl h.place _ y)).congr_deriv ?_
      rw [expVal_vonNeumann, heisenberg]
      have := hc O hO
      rw [registerHam] at this
      rw [this, sub_self, smul_zero, expVal, Matrix.zero_mul, Matrix.trace_zero, Complex.zero_re]
    exact is_const_of_deriv_eq_zero (fun y => (hd y).differentiableAt) (fun y => (hd y).deriv) x 0
  exact ⟨_, hE, fun hf x => (C20_ad_gpsr so eigh draw (hf.upd _ x) st circuit obs 0).trans (hE x)⟩

/-- **C93** (stationary states): the evolution multiplies an eigenvector of the Hamiltonian with eigenvalue `E` by `exp (-i E t)`. -/
theorem C93_stationary {circuit : Op} (hp : circuit.Plain) (hg : circuit.gates = [Gate.HamiltonianEvolution tg]) {a : NDArray ℂ}
    (ha : IsKet n a) (hv : EvolutionValues values H t) (hop : IsOp (parseTarget tg).length H) (hd : ValidDims n (parseTarget tg))
    {E : ℝ} (hE : (registerHam n H tg).mulVec (ket n a) = (E : ℂ) • ket n a) :
    ∃ r, run so circuit (.vec a) values = .ok (some (.vec r)) ∧ ket n r = Complex.exp (-Complex.I * E * t) • ket n a := by
  obtain ⟨h1, h2⟩ := hamEvo_ok (n := n) (c := .tuple [.none]) hv hop (.inr (.inl rfl)) hd
  have hc : circuit.Circuit n values [[]] :=
    ⟨hp, by simp [hg], by simpa [hg] using h1, by rw [hg]; exact .cons (.none rfl) .nil⟩
  obtain ⟨r, h3, -, h4⟩ := circuit_run so hc (st := .vec a) ha
  rw [hg] at h4
  cases r with
  | dm r => exact absurd (by simp only [List.mem_singleton, forall_eq]; rfl) h4.1
  | vec r =>
    refine ⟨r, h3, ?_⟩
    rw [h4.2.2, gatesMat, gatesMat, one_mul, h2]
    change (gateMat n _ _ []).mulVec _ = _
    generalize hk : (parseTarget tg).length = k at hop h2
    have key : ∀ b x, HasDerivAt (fun x : ℝ => Complex.exp (Complex.I * E * x)
        * (gateMat n (matE (evolution k H x)) (parseTarget tg) []).mulVec (ket n a) b) 0 x := by
      intro b x
      have e1 : HasDerivAt (fun x : ℝ => (gateMat n (matE (evolution k H x)) (parseTarget tg) []).mulVec (ket n a) b)
          (-Complex.I * E * (gateMat n (matE (evolution k H x)) (parseTarget tg) []).mulVec (ket n a) b) x := by
        have hd' := evolution_deriv (n := n) k H hk hd x
        have e2 : (gateMat n (matE (hamMat k H)) (parseTarget tg) [] * gateMat n (matE (evolution k H x)) (parseTarget tg) []).mulVec (ket n a)
            = (E : ℂ) • (gateMat n (matE (evolution k H x)) (parseTarget tg) []).mulVec (ket n a) := by
          rw [gateMat_matE_mul _ _ (by rw [hk]) (by simpa using hd), evolution_comm, ← gateMat_matE_mul _ _ (by rw [hk]) (by simpa using hd),
            ← Matrix.mulVec_mulVec]
          rw [registerHam, hk] at hE
          rw [hE, Matrix.mulVec_smul]
        have e3 : -Complex.I * E * (gateMat n (matE (evolution k H x)) (parseTarget tg) []).mulVec (ket n a) b
            = ((-Complex.I) • (gateMat n (matE (hamMat k H)) (parseTarget tg) [] * gateMat n (matE (evolution k H x)) (parseTarget tg) [])).mulVec
              (ket n a) b := by
          rw [Matrix.smul_mulVec, e2]
          simp only [Pi.smul_apply, smul_eq_mul]
          ring
        rw [e3]
        simp only [Matrix.mulVec, dotProduct]
        exact HasDerivAt.fun_sum fun i _ => (hd' b i).mul_const _
      have e4 : HasDerivAt (fun x : ℝ => Complex.exp (Complex.I * E * x)) (Complex.exp (Complex.I * E * x) * (Complex.I * E)) x := by
        have : HasDerivAt (fun x : ℝ => Complex.I * E * (x : ℂ)) (Complex.I * E) x := by
          simpa using (Complex.ofRealCLM.hasDerivAt (x := x)).const_mul (Complex.I * E)
        exact this.cexp
      refine (e4.fun_mul e1).congr_deriv ?_
      ring
    funext b
    have h0 := is_const_of_deriv_eq_zero (fun y => (key b y).differentiableAt) (fun y => (key b y).deriv) t 0
    have hz : (gateMat n (matE (evolution k H 0)) (parseTarget tg) []).mulVec (ket n a) b = ket n a b := by
      rw [evolution_zero, gateMat_congr (V := oneE) fun i j hi hj => ?_, gateMat_one, Matrix.one_mulVec]
      rw [hk] at hi hj
      rw [matE_lt _ hi hj, Matrix.one_apply, oneE]
      simp
    simp only [hz, Complex.ofReal_zero, mul_zero, Complex.exp_zero, one_mul] at h0
    rw [Pi.smul_apply, ← h0, smul_eq_mul, ← mul_assoc, ← Complex.exp_add]
    rw [show -Complex.I * (E : ℂ) * t + Complex.I * E * t = 0 by ring, Complex.exp_zero, one_mul]

/-! ## Cases that meet the hypotheses -/

theorem matX_herm : (hamMat 1 matX).IsHermitian := by
  ext i j
  fin_cases i <;> fin_cases j <;> simp [hamMat, matX, mat2, NDArray.get, ravel]

/-- Non-vacuity: a qubit in the state `|0⟩` with the Hamiltonian X (the expectation value of Z is `cos (2 t)`, see `onceEvo_value`; its
rate of change is that of `i [X, Z] = 2 Y`), and an evolution between a rotation and a noisy gate. -/
example (t : ℝ) : EvoSetting so 1 (onceValues t) matX t [] (.int 0) [] [] [] (.vec zero1) [obsZ] [gateMat 1 StdGate.Z.mat [0] []] ∧
    onceEvo.Plain ∧ onceEvo.gates = evoGates [] (.int 0) [] ∧ (hamMat (parseTarget (.int 0)).length matX).IsHermitian ∧
    EvoSetting so 1 (evoValues matX) matX 2 [Gate.RX (.str "a") (.int 0)] (.int 0)
      [Gate.H (.int 0) (noise := some [⟨.bitFlip, .float (1 / 4)⟩])] [[]] [[.bitFlip (1 / 4)]] (.vec zero1)
      [obsZ] [gateMat 1 StdGate.Z.mat [0] []] :=
  ⟨onceSetting so t, .seq (.cons (.prim _) .nil), rfl, matX_herm, evoSetting so (isOp_mat2 _ _ _ _)⟩

/-- The rate of change of Z under X is not zero. -/
example : heisenberg (registerHam 1 matX (.int 0)) (gateMat 1 StdGate.Z.mat [0] []) ≠ 0 := by
  intro h
  have h1 := congrFun (congrFun h (lab1 0)) (lab1 1)
  have e : registerHam 1 matX (.int 0) = gateMat 1 (matE (hamMat 1 matX)) [0] [] := rfl
  rw [heisenberg, e] at h1
  simp [Matrix.mul_apply, sum_lab1, gateMat_lab1, matE, hamMat, matX, mat2, NDArray.get, ravel, StdGate.mat] at h1
  norm_num at h1

/-- The Hamiltonian Z after a rotation. -/
noncomputable def zEvo : Op := mkSeq [.prim (Gate.RX (.str "a") (.int 0)), .prim (Gate.HamiltonianEvolution (.int 0))]

theorem zEvo_setting : EvoSetting so 1 (evoValues matZ) matZ 2 [Gate.RX (.str "a") (.int 0)] (.int 0) [] [[]] [] (.vec zero1) [obsZ]
    [gateMat 1 StdGate.Z.mat [0] []] where
  std := by
    simp only [List.append_nil, List.mem_singleton, forall_eq]
    exact ⟨.RX 1, .RX _ _ _ (.str rfl) (by simp), rfl, ⟨.inr (.inl rfl), by decide⟩⟩
  free := by simp [Gate.Uses, Gate.RX, mkGate]
  noise₁ := .cons (.none rfl) .nil
  noise₂ := .nil
  op := isOp_mat2 _ _ _ _
  place := by change ValidDims 1 [0]; decide
  vals := ⟨rfl, rfl⟩
  nodup := by simp [evoValues]
  num := by simp [evoValues]
  on := zero1_isKet
  obs_ne := by simp
  fixed := .cons (obsZ_fixed so _) .nil

theorem registerHam_Z : registerHam 1 matZ (.int 0) = gateMat 1 StdGate.Z.mat [0] [] := by
  refine gateMat_congr (ts := [0]) fun i j hi hj => ?_
  have e : hamMat 1 matZ = !![1, 0; 0, -1] := by
    ext i j
    fin_cases i <;> fin_cases j <;> simp [hamMat, matZ, mat2, NDArray.get, ravel]
  change matE (hamMat 1 matZ) i j = matE _ i j
  rw [e]

/-- Non-vacuity of `C93_conserved`: Z is conserved under the Hamiltonian Z, in a state that is not stationary. -/
example : zEvo.Plain ∧ zEvo.gates = evoGates [Gate.RX (.str "a") (.int 0)] (.int 0) [] ∧
    EvoSetting so 1 (evoValues matZ) matZ 2 [Gate.RX (.str "a") (.int 0)] (.int 0) [] [[]] [] (.vec zero1) [obsZ]
      [gateMat 1 StdGate.Z.mat [0] []] ∧ (hamMat (parseTarget (.int 0)).length matZ).IsHermitian ∧
    ∀ O ∈ [gateMat 1 StdGate.Z.mat [0] []], registerHam 1 matZ (.int 0) * O = O * registerHam 1 matZ (.int 0) := by
  refine ⟨.seq (.cons (.prim _) (.cons (.prim _) .nil)), rfl, zEvo_setting so, ?_, ?_⟩
  · change (hamMat 1 matZ).IsHermitian
    ext i j
    fin_cases i <;> fin_cases j <;> simp [hamMat, matZ, mat2, NDArray.get, ravel]
  · simp [registerHam_Z]

/-- Non-vacuity of `C93_stationary`: `|0⟩` is an eigenvector of Z with eigenvalue 1. -/
example : (registerHam 1 matZ (.int 0)).mulVec (ket 1 zero1) = ((1 : ℝ) : ℂ) • ket 1 zero1 := by
  rw [registerHam_Z]
  funext b
  obtain ⟨i, rfl⟩ : ∃ i, b = lab1 i := ⟨b 0, funext fun q => by rw [Subsingleton.elim q 0]; rfl⟩
  fin_cases i <;> simp [mulVec_lab1, ket, zero1_get, StdGate.mat, matE]

end Verif
