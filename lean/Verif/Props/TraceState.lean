import Verif.Props.Heisenberg

/-!
# C97: derivatives with respect to the initial state and the Hamiltonian

`C92_jvp` says that AD computes the derivatives; here their values are computed from the documented meaning of the circuit.
-/

set_option autoImplicit false

namespace Verif
open NDArray
variable {n : ℕ} (so : SetOrder)

section lemmas

/-- If the expectation values along the tangents are known functions, the tangents are their derivatives. -/
theorem jvp_of_deriv {circuit : Op} {obs : List Observable} {state : TState (DualNumber ℂ)} {a : TArgs (DualNumber ℝ) (DualNumber ℂ)}
    {α : Type} (l : List α) {f : α → ℝ → ℝ} {f' : α → ℝ}
    (hE : ∀ eigh draw t, expectation so eigh draw (state.line t) circuit obs (a.line t).toValues .ad 0 = .ok (l.map fun O => f O t))
    (hd : ∀ O ∈ l, HasDerivAt (f O) (f' O) 0) :
    jvpExpectation so state circuit obs a = .ok (l.map fun O => jet (f O 0) (f' O)) := by
  obtain ⟨eigh⟩ := eigh_exists
  rcases C92_jvp so eigh (fun _ _ => 0) circuit obs state a with ⟨e, h1, h2⟩ | ⟨fs, -, h1, h2⟩
  · have := h1 0
    rw [hE] at this
    cases this
  · rw [h2]
    have h3 : ∀ t, fs.map (· t) = l.map fun O => f O t := fun t => by
      have := h1 t
      rw [hE] at this
      exact (Except.ok.inj this).symm
    have hlen : fs.length = l.length := by simpa using congrArg List.length (h3 0)
    refine congrArg Except.ok (List.ext_getElem (by simpa using hlen) fun i hi hi' => ?_)
    have hi1 : i < fs.length := by simpa using hi
    have hi2 : i < l.length := by simpa using hi'
    simp only [List.getElem_map]
    have hf : fs[i] = f l[i] := by
      funext t
      have := congrArg (fun l => l[i]?) (h3 t)
      simpa [hi1, hi2] using this
    rw [hf, (hd _ (List.getElem_mem hi2)).deriv]

end lemmas

/-! ## The initial state -/

/-- The tangent of the matrix of the state: `|φ⟩⟨ψ| + |ψ⟩⟨φ|` for the state vector `ψ` with the tangent `φ`, and the tangent itself
for a density matrix. -/
noncomputable def TState.tangentMat (n : ℕ) : TState (DualNumber ℂ) → Matrix (Lab n) (Lab n) ℂ
  | .vec a => Matrix.of fun x y => ket n (a.mapArr TrivSqZeroExt.snd) x * star (ket n (a.mapArr TrivSqZeroExt.fst) y)
      + ket n (a.mapArr TrivSqZeroExt.fst) x * star (ket n (a.mapArr TrivSqZeroExt.snd) y)
  | .dm ρ => dmMat n (ρ.array.mapArr TrivSqZeroExt.snd)

/-- The dictionary with all tangents zero. -/
def TDict.still (d : TDict ℝ ℂ) : TDict (DualNumber ℝ) (DualNumber ℂ) := d.mapVals (fun x => jet x 0) fun z => jet z 0

theorem still_line (d : TDict ℝ ℂ) (t : ℝ) : ((TArgs.flat d.still).line t).toValues = d.toValues := by
  have : (TArgs.flat d.still).line t = .flat d := by
    refine (TArgs.mapVals_comp _ _ _ _ (.flat d)).trans ?_
    exact TArgs.mapVals_id (fun x => by simp) (fun z => by simp) _
  rw [this]; rfl

theorem get_line (a : NDArray (DualNumber ℂ)) (t : ℝ) (idx : List ℕ) :
    (a.mapArr fun z => z.fst + (t : ℂ) * z.snd).get idx
      = (a.mapArr TrivSqZeroExt.fst).get idx + (t : ℂ) * (a.mapArr TrivSqZeroExt.snd).get idx := by
  simp only [NDArray.get, mapArr, List.getD_eq_getElem?_getD, List.getElem?_map]
  cases a.data[ravel a.shape idx]? <;> simp

theorem entry_line (a b : ℂ) : HasDerivAt (fun t : ℝ => a + (t : ℂ) * b) b 0 := by
  simpa using ((Complex.ofRealCLM.hasDerivAt (x := (0 : ℝ))).mul_const b).const_add a

theorem TState.mat_deriv (state : TState (DualNumber ℂ)) : MatDeriv (fun t => (state.line t).mat n) (state.tangentMat n) 0 := by
  intro i j
  cases state with
  | vec a =>
    simp only [TState.line, TState.map, TState.toState, State.mat, Matrix.of_apply, get_line, TState.tangentMat, ket]
    refine ((entry_line _ _).fun_mul (HasDerivAt.star (entry_line _ _))).congr_deriv ?_
    simp
  | dm ρ =>
    simp only [TState.line, TState.map, TState.toState, State.mat, dmMat, TState.tangentMat]
    simp only [get_line]
    exact entry_line _ _

theorem TState.line_on {state : TState (DualNumber ℂ)} (h : (state.line 0).On n) (t : ℝ) : (state.line t).On n := by
  cases state with
  | vec a => exact ⟨h.1, by simpa [NDArray.WF, TState.line, TState.map, mapArr] using h.2⟩
  | dm ρ => exact ⟨h.1, by simpa [NDArray.WF, TState.line, TState.map, mapArr] using h.2⟩

theorem TState.line_mixed (state : TState (DualNumber ℂ)) (t : ℝ) (gs : List Gate) :
    Mixed (state.line t) gs ↔ Mixed (state.line 0) gs := by
  cases state <;> simp [Mixed, TState.line, TState.map, TState.toState]

section
variable {nss : List (List StdNoise)} {obs : List Observable} {Os : List (Matrix (Lab n) (Lab n) ℂ)}

/-- **C97 (initial states).** AD with respect to the initial state: the tangents of the expectation values are the values of the
observables at the image under the noisy circuit of the tangent of the state, `|φ⟩⟨ψ| + |ψ⟩⟨φ|` for state vectors. -/
theorem C97_state {d : TDict ℝ ℂ} (hf : d.toValues.Flat) {circuit : Op} (hc : circuit.Circuit n d.toValues nss)
    {state : TState (DualNumber ℂ)} (hst : (state.line 0).On n) (hobs : obs ≠ [])
    (ho : List.Forall₂ (fun o O => o.Fixed so n (Mixed (state.line 0) circuit.gates) O) obs Os) :
    jvpExpectation so state circuit obs (.flat d.still) = .ok (Os.map fun O =>
      jet (expVal O (noisyRun n .unitary d.toValues (circuit.gates.zip nss) ((state.line 0).mat n)))
        (expVal O (noisyRun n .unitary d.toValues (circuit.gates.zip nss) (state.tangentMat n)))) := by
  refine jvp_of_deriv so Os (f := fun O t => expVal O (noisyRun n .unitary d.toValues (circuit.gates.zip nss) ((state.line t).mat n)))
    (fun eigh draw t => ?_) fun O _ => expVal_deriv O (state.mat_deriv.lin (isLin_noisyRun _))
  rw [still_line, C20_ad_gpsr so eigh draw hf, expectation_gates so eigh draw hc.plain]
  refine gatesExpectation_eq so hc.ne hc.ok hc.noise (TState.line_on hst t) hobs (ho.imp fun o O h => ?_)
  rwa [show Mixed (state.line t) circuit.gates = Mixed (state.line 0) circuit.gates from propext (state.line_mixed t _)]

/-- **C97 (state vectors).** For noiseless circuits on state vectors and Hermitian observables: the derivative of `⟨ψ|C† O C|ψ⟩` in the
direction `φ` is `2 Re ⟨φ|C† O C|ψ⟩`. -/
theorem C97_vector {d : TDict ℝ ℂ} (hf : d.toValues.Flat) {circuit : Op} (hc : circuit.Circuit n d.toValues nss)
    (hz : ∀ g ∈ circuit.gates, g.noise = none) {a : NDArray (DualNumber ℂ)} (ha : IsKet n (a.mapArr TrivSqZeroExt.fst)) (hobs : obs ≠ [])
    (ho : List.Forall₂ (fun o O => o.Fixed so n False O) obs Os) (hO : ∀ O ∈ Os, O.IsHermitian) :
    ∃ l, jvpExpectation so (.vec a) circuit obs (.flat d.still) = .ok l ∧ l.map TrivSqZeroExt.snd = Os.map fun O =>
      2 * (star ((gatesMat n .unitary d.toValues circuit.gates).mulVec (ket n (a.mapArr TrivSqZeroExt.snd)))
        ⬝ᵥ O.mulVec ((gatesMat n .unitary d.toValues circuit.gates).mulVec (ket n (a.mapArr TrivSqZeroExt.fst)))).re := by
  have e0 : (TState.vec a).line 0 = .vec (a.mapArr TrivSqZeroExt.fst) := by
    simp [TState.line, TState.map, TState.toState]
  have hm : ¬ Mixed ((TState.vec a).line 0) circuit.gates := by
    rw [e0]
    rintro (⟨ρ, h⟩ | h)
    · cases h
    · exact h hz
  refine ⟨_, C97_state so hf hc (by rw [e0]; exact ha) hobs (ho.imp fun o O h v => ⟨(h v).1, fun h' => absurd h' hm⟩), ?_⟩
  rw [List.map_map]
  refine List.map_congr_left fun O hO' => ?_
  simp only [Function.comp_apply]
  change expVal O _ = _
  rw [noisyRun_noiseless hc.noise hz]
  generalize gatesMat n .unitary d.toValues circuit.gates = C
  generalize hφ : ket n (a.mapArr TrivSqZeroExt.snd) = φ
  generalize hψ : ket n (a.mapArr TrivSqZeroExt.fst) = ψ
  have e1 : (TState.vec a).tangentMat n = Matrix.vecMulVec φ (star ψ) + Matrix.vecMulVec ψ (star φ) := by
    ext x y
    simp only [TState.tangentMat, hφ, hψ, Matrix.of_apply, Matrix.add_apply, Matrix.vecMulVec_apply, Pi.star_apply]
  have e2 : ∀ u v : Lab n → ℂ, (O * (C * Matrix.vecMulVec u (star v) * C.conjTranspose)).trace = star (C.mulVec v) ⬝ᵥ O.mulVec (C.mulVec u) := by
    intro u v
    rw [Matrix.mul_vecMulVec, Matrix.vecMulVec_mul, ← Matrix.star_mulVec, Matrix.mul_vecMulVec, Matrix.trace_vecMulVec,
      dotProduct_comm]
  rw [e1, expVal, Matrix.mul_add, Matrix.add_mul, Matrix.mul_add, Matrix.trace_add, e2, e2, Complex.add_re]
  have e3 : star (star (C.mulVec φ) ⬝ᵥ O.mulVec (C.mulVec ψ)) = star (C.mulVec ψ) ⬝ᵥ O.mulVec (C.mulVec φ) := by
    rw [← Matrix.star_dotProduct, Matrix.star_mulVec, (hO O hO').eq, ← Matrix.dotProduct_mulVec]
  rw [← e3, RCLike.star_def, Complex.conj_re]
  ring

end

/-! ## The Hamiltonian -/

theorem lookup_mapVals {R S K L : Type} (f : R → S) (g : K → L) (d : TDict R K) (p : String) :
    (d.mapVals f g).lookup p = (d.lookup p).map fun v => v.map f g := by
  induction d with
  | nil => rfl
  | cons e d ih =>
    obtain ⟨k, v⟩ := e
    by_cases h : p = k
    · subst h; simp [TDict.mapVals, List.lookup_cons]
    · have h' : (p == k) = false := by simpa using h
      simp only [TDict.mapVals, List.map_cons, List.lookup_cons, h'] at ih ⊢
      exact ih

theorem lookup_toValues (d : TDict ℝ ℂ) (p : String) : d.toValues.lookup p = (d.lookup p).map TVal.toPy := by
  induction d with
  | nil => rfl
  | cons e d ih =>
    obtain ⟨k, v⟩ := e
    by_cases h : p = k
    · subst h; simp [TDict.toValues, List.lookup_cons]
    · have h' : (p == k) = false := by simpa using h
      simp only [TDict.toValues, List.map_cons, List.lookup_cons, h'] at ih ⊢
      exact ih

/-- The evolution operator along a direction that commutes with the Hamiltonian. -/
theorem evolution_ham_deriv (k : ℕ) {h : NDArray (DualNumber ℂ)} {A B : Matrix (Fin (2 ^ k)) (Fin (2 ^ k)) ℂ}
    (hA : hamMat k (h.mapArr TrivSqZeroExt.fst) = A) (hB : hamMat k (h.mapArr TrivSqZeroExt.snd) = B) (hAB : Commute A B)
    {ts : List ℕ} (hts : ts.length = k) (hv : ValidDims n ts) (x : ℝ) :
    MatDeriv (fun s : ℝ => gateMat n (matE (evolution k (h.mapArr fun z => z.fst + (s : ℂ) * z.snd) x)) ts [])
      ((-Complex.I * x) • (gateMat n (matE B) ts [] * gateMat n (matE (evolution k (h.mapArr TrivSqZeroExt.fst) x)) ts [])) 0 := by
  subst hts
  intro b b'
  rw [gateMat_matE_mul _ _ rfl hv]
  simp only [gateMat_nil_apply, Matrix.smul_apply]
  by_cases hb : Lab.AgreeOff ts b b'
  · simp only [hb, if_true]
    have hi := b.idx_lt ts
    have hj := b'.idx_lt ts
    simp only [matE_lt _ hi hj]
    have e : ∀ s : ℝ, evolution ts.length (h.mapArr fun z => z.fst + (s : ℂ) * z.snd) x
        = NormedSpace.exp (s • ((-Complex.I * x) • B)) * evolution ts.length (h.mapArr TrivSqZeroExt.fst) x := by
      intro s
      rw [evolution, evolution, hA, ← Matrix.exp_add_of_commute]
      · congr 1
        rw [← hA, ← hB]
        ext i j
        simp only [hamMat, Matrix.smul_apply, Matrix.of_apply, Matrix.add_apply, get_line, smul_eq_mul, Complex.real_smul]
        ring
      · exact ((hAB.symm.smul_left _).smul_left _).smul_right _
    simp only [e, Matrix.mul_apply, smul_eq_mul, Finset.mul_sum]
    refine HasDerivAt.fun_sum fun l _ => ?_
    have h1 := expEntry_hasDerivAt ((-Complex.I * x) • B) ⟨_, hi⟩ l 0
    rw [zero_smul, NormedSpace.exp_zero, mul_one] at h1
    refine (h1.mul_const _).congr_deriv ?_
    rw [Matrix.smul_apply, smul_eq_mul, mul_assoc]
  · simp only [hb, if_false, smul_zero]
    exact hasDerivAt_const _ _

section
variable {t : ℝ} {l₁ : List Gate} {tg : TArg} {ns₁ : List (List StdNoise)} {st : State} {obs : List Observable}
  {Os : List (Matrix (Lab n) (Lab n) ℂ)}

/-- **C97 (Hamiltonians).** AD with respect to the entries of the Hamiltonian of a final Hamiltonian evolution of duration `t`, in a
Hermitian direction `B` that commutes with the Hamiltonian: the tangents are `t` times the expectation values of `i [B, O]`.  In
particular (`B` the Hamiltonian itself), rescaling the Hamiltonian is rescaling the time. -/
theorem C97_hamiltonian {d : TDict (DualNumber ℝ) (DualNumber ℂ)} {h : NDArray (DualNumber ℂ)}
    (hl : d.lookup "hamiltonian" = some (.arr h)) (hn : ∀ k x, d.lookup k = some (.num x) → x.snd = 0)
    (hf : ∀ s, ((TArgs.flat d).line s).toValues.Flat) {circuit : Op} (hp : circuit.Plain) (hg : circuit.gates = evoGates l₁ tg [])
    (hs : EvoSetting so n ((TArgs.flat d).line 0).toValues (h.mapArr TrivSqZeroExt.fst) t l₁ tg [] ns₁ [] st obs Os)
    (hB : (hamMat (parseTarget tg).length (h.mapArr TrivSqZeroExt.snd)).IsHermitian)
    (hAB : Commute (hamMat (parseTarget tg).length (h.mapArr TrivSqZeroExt.fst))
      (hamMat (parseTarget tg).length (h.mapArr TrivSqZeroExt.snd))) :
    ∃ r l, run so circuit st ((TArgs.flat d).line 0).toValues = .ok (some r) ∧
      jvpExpectation so (st.const Tracer.base.dual) circuit obs (.flat d) = .ok l ∧
      l.map TrivSqZeroExt.snd = Os.map fun O => t * expVal (heisenberg (registerHam n (h.mapArr TrivSqZeroExt.snd) tg) O) (r.mat n) := by
  obtain ⟨r, h1, -, h3⟩ := hs.run_at so hs.vals hs.std hp hg
  have hlook : ∀ s q, ((TArgs.flat d).line s).toValues.lookup q
      = (d.lookup q).map fun v => (v.map (fun z => z.fst + s * z.snd) fun z => z.fst + (s : ℂ) * z.snd).toPy := by
    intro s q
    change (TDict.toValues (d.mapVals _ _)).lookup q = _
    rw [lookup_toValues, lookup_mapVals, Option.map_map]
    rfl
  have hnum : ∀ s q y, ((TArgs.flat d).line 0).toValues.lookup q = some (.num y) →
      ((TArgs.flat d).line s).toValues.lookup q = ((TArgs.flat d).line 0).toValues.lookup q := by
    intro s q y hq
    rw [hlook] at hq ⊢
    rw [hlook]
    rcases hd : d.lookup q with _ | v
    · rfl
    · cases v with
      | num z =>
        have := hn q z hd
        simp [TVal.map, TVal.toPy, this]
      | arr a => rw [hd] at hq; cases hq
  have hv : ∀ s, EvolutionValues ((TArgs.flat d).line s).toValues (h.mapArr fun z => z.fst + (s : ℂ) * z.snd) t := by
    intro s
    refine ⟨?_, ?_⟩
    · rw [hlook, hl]; rfl
    · rw [hnum s _ t hs.vals.time]; exact hs.vals.time
  have hop : ∀ s : ℝ, IsOp (parseTarget tg).length (h.mapArr fun z => z.fst + (s : ℂ) * z.snd) := by
    intro s
    have := hs.op
    exact ⟨this.shape, by simpa [NDArray.WF, mapArr] using this.wf⟩
  have hstd : ∀ s, ∀ g ∈ l₁ ++ [], ∃ s', g.Std n ((TArgs.flat d).line s).toValues s' := by
    intro s g hg
    obtain ⟨s', hs'⟩ := hs.std g hg
    refine ⟨s', hs'.congr fun q hq => ?_⟩
    obtain ⟨y, hy⟩ := hs'.lookup hq
    exact hnum s q y hy
  have hmat : ∀ s, noisyRun n .unitary ((TArgs.flat d).line s).toValues (l₁.zip ns₁) (st.mat n)
      = noisyRun n .unitary ((TArgs.flat d).line 0).toValues (l₁.zip ns₁) (st.mat n) := by
    intro s
    refine noisyRun_congr (fun e he => ?_) _
    obtain ⟨s', hs'⟩ := hs.std e.1 (by simp [(List.of_mem_zip he).1])
    rw [hs'.mat, (hs'.congr (values' := ((TArgs.flat d).line s).toValues) fun q hq => ?_).mat]
    obtain ⟨y, hy⟩ := hs'.lookup hq
    exact hnum s q y hy
  refine ⟨r, _, h1, jvp_of_deriv so Os (f := fun O s => expVal O
      (conjBy (gateMat n (matE (evolution (parseTarget tg).length (h.mapArr fun z => z.fst + (s : ℂ) * z.snd) t)) (parseTarget tg) [])
        (noisyRun n .unitary ((TArgs.flat d).line 0).toValues (l₁.zip ns₁) (st.mat n))))
      (f' := fun O => t * expVal (heisenberg (registerHam n (h.mapArr TrivSqZeroExt.snd) tg) O) (r.mat n))
      (fun eigh draw s => ?_) fun O _ => ?_, ?_⟩
  · rw [const_line, C20_ad_gpsr so eigh draw (hf s), expectation_gates so eigh draw hp, hg, hs.eval (hv s) (hop s) (hstd s)]
    refine congrArg Except.ok (List.map_congr_left fun O _ => ?_)
    rw [hmat]
    rfl
  · have hr : r.mat n = conjBy (gateMat n (matE (evolution (parseTarget tg).length (h.mapArr TrivSqZeroExt.fst) t)) (parseTarget tg) [])
        (noisyRun n .unitary ((TArgs.flat d).line 0).toValues (l₁.zip ns₁) (st.mat n)) := h3
    rw [hr, ← expVal_vonNeumann]
    generalize noisyRun n .unitary ((TArgs.flat d).line 0).toValues (l₁.zip ns₁) (st.mat n) = σ
    have hd := evolution_ham_deriv (n := n) (parseTarget tg).length rfl rfl hAB rfl hs.place t
    have hK : (gateMat n (matE (hamMat (parseTarget tg).length (h.mapArr TrivSqZeroExt.snd))) (parseTarget tg) []).conjTranspose
        = gateMat n (matE (hamMat (parseTarget tg).length (h.mapArr TrivSqZeroExt.snd))) (parseTarget tg) [] := by
      rw [gateMat_conjTranspose _ (by simpa using hs.place)]
      refine gateMat_congr fun i j hi hj => ?_
      rw [matE_lt _ hi hj]
      simp only [conjT, matE_lt _ hj hi]
      exact hB.apply _ _
    have h2 := (hd.mulC (MatDeriv.const σ 0)).mulC hd.conjT
    refine (expVal_deriv O h2).congr_deriv ?_
    have e0 : (h.mapArr fun z => z.fst + (((0 : ℝ) : ℂ)) * z.snd) = h.mapArr TrivSqZeroExt.fst := by simp
    rw [← expVal_smul_real]
    congr 1
    rw [e0, Matrix.mul_zero, add_zero, Matrix.conjTranspose_smul, Matrix.conjTranspose_mul, hK, vonNeumann, registerHam, conjBy]
    simp only [Matrix.smul_mul, Matrix.mul_smul, star_mul', star_neg, RCLike.star_def, Complex.conj_I, neg_neg, smul_sub, Matrix.mul_assoc,
      Complex.conj_ofReal, smul_smul]
    rw [sub_eq_add_neg, ← neg_smul]
    congr 2 <;> ring
  · rw [List.map_map]
    rfl
end

/-! ## Cases that meet the hypotheses -/

/-- The state `|0⟩ + |1⟩` with the tangent `|0⟩`. -/
def plusTangent : NDArray (DualNumber ℂ) := ⟨[2], [jet 1 1, jet 1 0]⟩

/-- The circuit `X(0)`. -/
noncomputable def justX : Op := mkSeq [.prim (Gate.X (.int 0))]

theorem justX_std : (Gate.X (.int 0)).Std 1 [] .X := ⟨.X _ _ _, rfl, ⟨.inr (.inl rfl), by decide⟩⟩

theorem justX_circuit : justX.Circuit 1 [] [[]] := by
  refine ⟨.seq (.cons (.prim _) .nil), by simp [justX, Op.gates, Op.gatesList, mkSeq], fun g hg => ?_, .cons (.none rfl) .nil⟩
  obtain rfl : g = Gate.X (.int 0) := by simpa [justX, Op.gates, Op.gatesList, mkSeq] using hg
  exact justX_std.ok

/-- Non-vacuity of `C97_state` and `C97_vector`, with the value: for the circuit `X`, the observable Z and the state `|0⟩ + |1⟩`, the
derivative in the direction `|0⟩` is `-2`. -/
example : ∃ l, jvpExpectation so (.vec plusTangent) justX [obsZ] (.flat (TDict.still [])) = .ok l ∧ l.map TrivSqZeroExt.snd = [-2] := by
  obtain ⟨l, h1, h2⟩ := C97_vector (n := 1) so (d := []) (.inl rfl) justX_circuit (by simp [justX, Op.gates, Op.gatesList, mkSeq, Gate.X, mkGate])
    (a := plusTangent) ⟨rfl, rfl⟩ (obs := [obsZ]) (by simp) (.cons (obsZ_fixed so _) .nil) (by simpa using gateZ_hermitian)
  refine ⟨l, h1, h2.trans ?_⟩
  have e : gatesMat 1 .unitary [] justX.gates = gateMat 1 StdGate.X.mat [0] [] := by
    have : justX.gates = [Gate.X (.int 0)] := rfl
    rw [this, gatesMat, gatesMat, one_mul, justX_std.mat]
    rfl
  change [_] = _
  rw [TDict.toValues]
  simp only [List.map_nil, e, dotProduct, sum_lab1, mulVec_lab1, ket, Pi.star_apply]
  simp [plusTangent, mapArr, NDArray.get, ravel, StdGate.mat, matE, lab1, Lab.bits]

/-- The Hamiltonian X with the tangent X. -/
noncomputable def scaledX : NDArray (DualNumber ℂ) := ⟨[2, 2], [0, jet 1 1, jet 1 1, 0]⟩

/-- The dictionary for `onceEvo` with the duration `t`. -/
noncomputable def scaledValues (t : ℝ) : TDict (DualNumber ℝ) (DualNumber ℂ) :=
  [("hamiltonian", .arr scaledX), ("time_evolution", .num (jet t 0))]

theorem scaledX_fst : scaledX.mapArr TrivSqZeroExt.fst = matX := by simp [scaledX, mapArr, matX, mat2]

theorem scaledX_snd : scaledX.mapArr TrivSqZeroExt.snd = matX := by simp [scaledX, mapArr, matX, mat2]

/-- Non-vacuity of `C97_hamiltonian`: the qubit of `onceEvo`, whose Hamiltonian X is rescaled. -/
example (t : ℝ) : (scaledValues t).lookup "hamiltonian" = some (.arr scaledX) ∧
    (∀ k x, (scaledValues t).lookup k = some (.num x) → x.snd = 0) ∧ (∀ s, ((TArgs.flat (scaledValues t)).line s).toValues.Flat) ∧
    onceEvo.Plain ∧ onceEvo.gates = evoGates [] (.int 0) [] ∧
    EvoSetting so 1 ((TArgs.flat (scaledValues t)).line 0).toValues (scaledX.mapArr TrivSqZeroExt.fst) t [] (.int 0) [] [] []
      (.vec zero1) [obsZ] [gateMat 1 StdGate.Z.mat [0] []] ∧
    (hamMat (parseTarget (.int 0)).length (scaledX.mapArr TrivSqZeroExt.snd)).IsHermitian ∧
    Commute (hamMat (parseTarget (.int 0)).length (scaledX.mapArr TrivSqZeroExt.fst))
      (hamMat (parseTarget (.int 0)).length (scaledX.mapArr TrivSqZeroExt.snd)) := by
  have e : ((TArgs.flat (scaledValues t)).line 0).toValues = onceValues t := by
    simp [TArgs.line, TArgs.mapVals, TArgs.toValues, TDict.toValues, TDict.mapVals, scaledValues, onceValues, TVal.map, TVal.toPy,
      scaledX, mapArr, matX, mat2]
  refine ⟨rfl, ?_, fun s => .inl rfl, .seq (.cons (.prim _) .nil), rfl, ?_, ?_, ?_⟩
  · intro k x h
    by_cases hk : k = "hamiltonian"
    · subst hk; cases h
    · have h' : (k == "hamiltonian") = false := by simpa using hk
      rw [scaledValues, List.lookup_cons, h'] at h
      by_cases hk2 : k = "time_evolution"
      · subst hk2
        cases h
        rfl
      · have h' : (k == "time_evolution") = false := by simpa using hk2
        simp [List.lookup_cons, h'] at h
  · rw [e, scaledX_fst]; exact onceSetting so t
  · rw [scaledX_snd]; exact matX_herm
  · rw [scaledX_snd, scaledX_fst]

end Verif
