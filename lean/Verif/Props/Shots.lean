import Verif.Lemmas.Shots
import Verif.SpecStates

/-!
# C29, C54: expectation values from finite shots

Circuits are built from gates, `OpSequence` and `QuantumCircuit`, with or without noise; states are state vectors or
density matrices.  The uniform numbers behind the PRNG key are arbitrary.
-/

set_option autoImplicit false

namespace Verif
open NDArray MeasureTheory
open scoped ComplexOrder

variable {n : ℕ} {values : Values} (so : SetOrder) (eigh : Eigh)

/-- The probabilities used for sampling. -/
noncomputable def shotProbs (V : Matrix (Fin (2 ^ n)) (Fin (2 ^ n)) ℂ) (ρ : Matrix (Lab n) (Lab n) ℂ) : List ℝ :=
  List.ofFn fun i => ((V.conjTranspose * numMat ρ * V) i i).re

theorem expectation_shots {circuit : Op} {st r : State} (h1 : applyOps so st circuit.iter values = .ok r) (h2 : r.On n)
    {obs : List Observable} {O : Matrix (Lab n) (Lab n) ℂ} {Os : List (Matrix (Lab n) (Lab n) ℂ)}
    (ho : List.Forall₂ (fun o O => Op.ListedSum (StdLeaf n values) values o.ops O) obs (O :: Os)) (draw : Draw) {k : ℤ} (hk : 1 ≤ k)
    {mode : DiffMode} (hm : mode = .ad ∨ mode = .gpsr) :
    expectation so eigh draw st circuit obs values mode k = .ok ((O :: Os).map fun O' =>
      (∑ j, pick (shotProbs (eigh.vecs (numMat O)) (r.mat n))
        (alignedEigenvalues (eigh.vals (numMat O')) (eigh.vecs (numMat O')) (eigh.vecs (numMat O))) (draw k.toNat j)) / k.toNat) := by
  have hne : List.ofFn (draw k.toNat) ≠ [] := by
    intro h; have := congrArg List.length h; simp at this; omega
  have hf := finiteShots_eq so eigh h1 h2
    (ho.imp fun _ _ h => Op.ListedSum.mono (fun _ _ h => StdLeaf.sort h) h) hne
  have hL : expectation so eigh draw st circuit obs values mode k
      = finiteShots so eigh st circuit.iter obs values (List.ofFn (draw k.toNat)) := by
    have hk1 : ¬ k < 0 := by omega
    have hk2 : ¬ k = 0 := by omega
    rcases hm with rfl | rfl <;> simp only [expectation, hk1, hk2, if_false]
  rw [hL, hf]
  refine congrArg _ (List.map_congr_left fun O' _ => ?_)
  rw [List.map_map, List.length_ofFn, List.map_ofFn, List.sum_ofFn]
  rfl

theorem shotProbs_facts {A : Matrix (Lab n) (Lab n) ℂ} {ρ : Matrix (Lab n) (Lab n) ℂ} (hρ : ρ.PosSemidef) :
    (∀ x ∈ shotProbs (eigh.vecs (numMat A)) ρ, 0 ≤ x) ∧ (shotProbs (eigh.vecs (numMat A)) ρ).sum = ρ.trace.re := by
  constructor
  · intro x hx
    rw [shotProbs, List.mem_ofFn] at hx
    obtain ⟨i, rfl⟩ := hx
    have h1 : (numMat ρ).PosSemidef := hρ.submatrix _
    have h2 := (h1.conjTranspose_mul_mul_same (eigh.vecs (numMat A))).diag_nonneg (i := i)
    exact (Complex.le_def.1 h2).1
  · rw [shotProbs, List.sum_ofFn, eigh.sum_probs, numMat_trace]

/-- The mean, over the uniform number, of the value drawn for an observable whose eigenvectors are the reference
eigenvectors in another order. -/
theorem pick_mean {A B ρ : Matrix (Lab n) (Lab n) ℂ} (hρ : ρ.PosSemidef) (ht : ρ.trace = 1) (hB : B.IsHermitian)
    (σ : Equiv.Perm (Fin (2 ^ n))) (hσ : ∀ i j, eigh.vecs (numMat A) i j = eigh.vecs (numMat B) i (σ j)) :
    IntegrableOn (pick (shotProbs (eigh.vecs (numMat A)) ρ)
        (alignedEigenvalues (eigh.vals (numMat B)) (eigh.vecs (numMat B)) (eigh.vecs (numMat A)))) (Set.Ico 0 1) ∧
      ∫ u in Set.Ico (0 : ℝ) 1, pick (shotProbs (eigh.vecs (numMat A)) ρ)
        (alignedEigenvalues (eigh.vals (numMat B)) (eigh.vecs (numMat B)) (eigh.vecs (numMat A))) u = expVal B ρ := by
  obtain ⟨h1, h2⟩ := shotProbs_facts eigh (A := A) hρ
  rw [ht, Complex.one_re] at h2
  obtain ⟨i1, i2⟩ := pick_integral h1 (by rw [h2]; exact one_pos) (d := 2 ^ n) (by simp [shotProbs])
    (alignedEigenvalues (eigh.vals (numMat B)) (eigh.vecs (numMat B)) (eigh.vecs (numMat A)))
  refine ⟨i1, ?_⟩
  rw [i2, h2, div_one]
  have hBn : (numMat B).IsHermitian := by rw [Matrix.IsHermitian, numMat_conjTranspose, hB.eq]
  rw [expVal, ← numMat_trace, numMat_mul, ← eigh.sum_vals hBn (eigh.vecs (numMat A)) (numMat ρ) σ hσ]
  refine Finset.sum_congr rfl fun i _ => ?_
  rw [alignedEigenvalues_perm _ (eigh.unitary _) σ hσ, shotProbs, List.getD_eq_getElem?_getD, List.getElem?_ofFn,
    dif_pos i.2]
  rfl

/-- Every value drawn is an eigenvalue. -/
theorem pick_eigenvalue {A B ρ : Matrix (Lab n) (Lab n) ℂ} (hρ : ρ.PosSemidef) (ht : ρ.trace = 1) (hB : B.IsHermitian)
    (σ : Equiv.Perm (Fin (2 ^ n))) (hσ : ∀ i j, eigh.vecs (numMat A) i j = eigh.vecs (numMat B) i (σ j)) {u : ℝ}
    (hu : u ∈ Set.Ico (0 : ℝ) 1) : ∃ v : Lab n → ℂ, v ≠ 0 ∧ B.mulVec v = (pick (shotProbs (eigh.vecs (numMat A)) ρ)
        (alignedEigenvalues (eigh.vals (numMat B)) (eigh.vecs (numMat B)) (eigh.vecs (numMat A))) u : ℂ) • v := by
  obtain ⟨h1, h2⟩ := shotProbs_facts eigh (A := A) hρ
  rw [ht, Complex.one_re] at h2
  have hBn : (numMat B).IsHermitian := by rw [Matrix.IsHermitian, numMat_conjTranspose, hB.eq]
  have hlen : (shotProbs (eigh.vecs (numMat A)) ρ).length = 2 ^ n := by simp [shotProbs]
  have hlt : choiceIndex (shotProbs (eigh.vecs (numMat A)) ρ) u < 2 ^ n := by
    have := choiceIndex_lt (p := shotProbs (eigh.vecs (numMat A)) ρ) (by intro h; rw [h] at h2; simp at h2)
      (by rw [h2]; exact zero_le_one) hu.1
    rwa [hlen] at this
  obtain ⟨v, hv, he⟩ := eigh.eigenvector hBn (σ ⟨_, hlt⟩)
  refine ⟨fun b => v (numEquiv n b), fun h0 => hv ?_, ?_⟩
  · funext i
    have := congrFun h0 ((numEquiv n).symm i)
    simpa using this
  · funext b
    rw [pick, dif_pos hlt, alignedEigenvalues_perm _ (eigh.unitary _) σ hσ]
    have := congrFun he (numEquiv n b)
    rw [Pi.smul_apply] at this ⊢
    rw [← this, Matrix.mulVec, Matrix.mulVec, dotProduct, dotProduct, ← (numEquiv n).sum_comp]
    exact Finset.sum_congr rfl fun x _ => by rw [numMat_apply]

/-! ## C29 -/

/-- What the finite-shot code estimates, for every observable of standard gates that is Hermitian when its sequences are
multiplied in listing order: the estimate is the average of `f(u)` over the uniform numbers `u`; every `f(u)` is an
eigenvalue of `O`, and the mean of `f(u)` for uniform `u` is `tr(O ρ)` at the output `ρ` of `run`. -/
theorem C29_listed {circuit : Op} {nss : List (List StdNoise)} (hc : circuit.Circuit n values nss) {st : State} (hst : st.On n)
    {o : Observable} {O : Matrix (Lab n) (Lab n) ℂ} (ho : Op.ListedSum (StdLeaf n values) values o.ops O) (hO : O.IsHermitian) :
    ∃ r, run so circuit st values = .ok (some r) ∧ r.On n ∧ ((r.mat n).PosSemidef → (r.mat n).trace = 1 → ∃ f : ℝ → ℝ,
      (∀ u ∈ Set.Ico (0 : ℝ) 1, ∃ v : Lab n → ℂ, v ≠ 0 ∧ O.mulVec v = (f u : ℂ) • v) ∧
      IntegrableOn f (Set.Ico 0 1) ∧ ∫ u in Set.Ico (0 : ℝ) 1, f u = expVal O (r.mat n) ∧
      ∀ (draw : Draw) (k : ℤ) (mode : DiffMode), 1 ≤ k → mode = .ad ∨ mode = .gpsr →
        expectation so eigh draw st circuit [o] values mode k = .ok [(∑ j, f (draw k.toNat j)) / k.toNat]) := by
  obtain ⟨r, h1, h2, h3⟩ := circuit_run so hc hst
  refine ⟨r, h1, h3.on, fun hp ht => ?_⟩
  obtain ⟨i1, i2⟩ := pick_mean eigh (A := O) (B := O) hp ht hO (Equiv.refl _) fun _ _ => rfl
  exact ⟨_, fun u hu => pick_eigenvalue eigh (A := O) hp ht hO (Equiv.refl _) (fun _ _ => rfl) hu, i1, i2,
    fun draw k mode hk hm => expectation_shots so eigh h2 h3.on (.cons ho .nil) draw hk hm⟩

/-- **C29, restricted to observables whose sequences may be multiplied in either order** (`hm` and `ho` agree on `O`; true
for sums of products of commuting gates, e.g. Pauli strings): the finite-shot estimate is unbiased.  For any probability
space on which each of the `k` numbers drawn is uniform on `[0, 1)`, the mean of the estimate is the exact expectation
value `tr(O ρ)` at the output `ρ` of `run`; and for all draws the estimate lies between any lower and upper bounds of the
eigenvalues of `O`.  For other observables it is biased (`C29_listing_order_wrong`). -/
theorem C29_unbiased_partial {circuit : Op} {nss : List (List StdNoise)} (hc : circuit.Circuit n values nss) {st : State}
    (hst : st.On n) {o : Observable} {O : Matrix (Lab n) (Lab n) ℂ}
    (hm : o.Means (StdLeaf n values) values O) (ho : Op.ListedSum (StdLeaf n values) values o.ops O) (hO : O.IsHermitian) :
    ∃ r, run so circuit st values = .ok (some r) ∧ r.On n ∧ ((r.mat n).PosSemidef → (r.mat n).trace = 1 →
      ∀ (k : ℤ) (mode : DiffMode), 1 ≤ k → mode = .ad ∨ mode = .gpsr → ∃ est : (Fin k.toNat → ℝ) → ℝ,
        (∀ draw : Draw, expectation so eigh draw st circuit [o] values mode k = .ok [est (draw k.toNat)]) ∧
        (∀ (Ω : Type) [MeasurableSpace Ω] (μ : Measure Ω) (U : Ω → Fin k.toNat → ℝ),
          (∀ j, MeasurePreserving (fun ω => U ω j) μ (volume.restrict (Set.Ico 0 1))) →
          ∫ ω, est (U ω) ∂μ = expVal O (r.mat n)) ∧
        ∀ u : Fin k.toNat → ℝ, (∀ j, u j ∈ Set.Ico (0 : ℝ) 1) → ∀ lo hi : ℝ,
          (∀ (x : ℝ) (v : Lab n → ℂ), v ≠ 0 → O.mulVec v = (x : ℂ) • v → lo ≤ x ∧ x ≤ hi) → lo ≤ est u ∧ est u ≤ hi) := by
  obtain ⟨r, h1, h2, h3⟩ := C29_listed so eigh hc hst ho hO
  refine ⟨r, h1, h2, fun hp ht k mode hk hmode => ?_⟩
  obtain ⟨f, f1, f2, f3, f4⟩ := h3 hp ht
  have hkp : (0 : ℝ) < k.toNat := by exact_mod_cast (by omega : 0 < k.toNat)
  refine ⟨fun u => (∑ j, f (u j)) / k.toNat, fun draw => f4 draw k mode hk hmode, ?_, ?_⟩
  · intro Ω _ μ U hU
    have hint : ∀ j, Integrable (fun ω => f (U ω j)) μ := fun j =>
      (hU j).integrable_comp_of_integrable f2
    have hval : ∀ j, ∫ ω, f (U ω j) ∂μ = expVal O (r.mat n) := by
      intro j
      rw [← f3, ← (hU j).map_eq, integral_map (hU j).measurable.aemeasurable]
      rw [(hU j).map_eq]; exact f2.aestronglyMeasurable
    rw [integral_div, integral_finset_sum _ fun j _ => hint j]
    simp only [hval, Finset.sum_const, Finset.card_univ, Fintype.card_fin, nsmul_eq_mul]
    field_simp
  · intro u hu lo hi hb
    have : ∀ j, lo ≤ f (u j) ∧ f (u j) ≤ hi := fun j => by
      obtain ⟨v, hv, he⟩ := f1 (u j) (hu j)
      exact hb _ v hv he
    constructor
    · rw [le_div_iff₀ hkp]
      have := Finset.sum_le_sum fun j (_ : j ∈ Finset.univ) => (this j).1
      simpa [mul_comm] using this
    · rw [div_le_iff₀ hkp]
      have := Finset.sum_le_sum fun j (_ : j ∈ Finset.univ) => (this j).2
      simpa [mul_comm] using this

/-- Matrices on one qubit. -/
theorem mat1_ext {A B : Matrix (Lab 1) (Lab 1) ℂ} (h : ∀ i j : Fin 2, A (lab1 i) (lab1 j) = B (lab1 i) (lab1 j)) : A = B := by
  have hl : ∀ x : Lab 1, x = lab1 (x 0) := fun x => by funext i; rw [Subsingleton.elim i 0]; rfl
  ext x y
  rw [hl x, hl y]; exact h _ _

theorem gateZ_hermitian : (gateMat 1 StdGate.Z.mat [0] []).IsHermitian := by
  refine mat1_ext fun i j => ?_
  rw [Matrix.conjTranspose_apply, gateMat_lab1, gateMat_lab1]
  fin_cases i <;> fin_cases j <;> simp [StdGate.mat, matE]

theorem vec_posSemidef (a : NDArray ℂ) : ((State.vec a).mat n).PosSemidef := by
  have : (State.vec a).mat n = Matrix.vecMulVec (ket n a) (star (ket n a)) := by
    ext x y; simp [State.mat, Matrix.vecMulVec, ket]
  rw [this]
  exact Matrix.posSemidef_vecMulVec_self_star _

theorem vec_trace (a : NDArray ℂ) : ((State.vec a).mat n).trace = ((normSq n a : ℝ) : ℂ) := by
  rw [Matrix.trace, normSq, Complex.ofReal_sum]
  refine Finset.sum_congr rfl fun x _ => ?_
  simp only [Matrix.diag_apply, State.mat, Matrix.of_apply, ket]
  rw [Complex.star_def, Complex.mul_conj, Complex.normSq_eq_norm_sq]

/-- Non-vacuity of C29: the observable `Z(0)`, the circuit `[I(0)]` and a normalised state. -/
example : obsZ.Means (StdLeaf 1 []) [] (gateMat 1 StdGate.Z.mat [0] []) ∧
    Op.ListedSum (StdLeaf 1 []) [] obsZ.ops (gateMat 1 StdGate.Z.mat [0] []) ∧ (gateMat 1 StdGate.Z.mat [0] []).IsHermitian ∧
    circuitI.Circuit 1 [] [[]] ∧ ((State.vec psi1).mat 1).PosSemidef ∧ ((State.vec psi1).mat 1).trace = 1 := by
  refine ⟨obsZ_means, (obsZ_simple so).listed, gateZ_hermitian, circuitI_circuit one_pos, vec_posSemidef _, ?_⟩
  rw [vec_trace, normSq, sum_lab1, ket, ket, psi1_get, psi1_get]
  norm_num

/-- `S X S Z` in listing order is `Y`. -/
theorem listedSXSZ_hermitian : (gateMat 1 StdGate.S.mat [0] [] * (gateMat 1 StdGate.X.mat [0] [] *
    (gateMat 1 StdGate.S.mat [0] [] * gateMat 1 StdGate.Z.mat [0] []))).IsHermitian := by
  refine mat1_ext fun i j => ?_
  rw [Matrix.conjTranspose_apply]
  simp only [Matrix.mul_apply, sum_lab1, gateMat_lab1]
  fin_cases i <;> fin_cases j <;> simp [StdGate.mat, matE]

/-- **C29 is false of the code** for observables with non-commuting sequences: for
`Observable([OpSequence([S(0), X(0), S(0), Z(0)])])` and the state `(3/5)|0⟩ + (4i/5)|1⟩` the exact expectation is `-24/25`
but the finite-shot estimate is the average of numbers with mean `+24/25`. -/
theorem C29_listing_order_wrong : ∃ (circuit : Op) (a : NDArray ℂ) (o : Observable) (f : ℝ → ℝ), IsKet 1 a ∧
    (∀ draw, expectation so eigh draw (.vec a) circuit [o] [] .ad 0 = .ok [-24 / 25]) ∧
    (∀ draw (k : ℤ), 1 ≤ k →
      expectation so eigh draw (.vec a) circuit [o] [] .ad k = .ok [(∑ j, f (draw k.toNat j)) / k.toNat]) ∧
    ∫ u in Set.Ico (0 : ℝ) 1, f u = 24 / 25 := by
  have hm : Op.MeansSum (AnyLeaf 1 []) []
      [mkSeq [.prim (Gate.S (.int 0)), .prim (Gate.X (.int 0)), .prim (Gate.S (.int 0)), .prim (Gate.Z (.int 0))]] _ :=
    .one (.seq (.cons (.gate (leafS (values := [])).any) (.cons (.gate (leafX (values := [])).any)
      (.cons (.gate (leafS (values := [])).any) (.cons (.gate (leafZ (values := [])).any) .nil)))))
  have hl : Op.ListedSum (StdLeaf 1 []) []
      [mkSeq [.prim (Gate.S (.int 0)), .prim (Gate.X (.int 0)), .prim (Gate.S (.int 0)), .prim (Gate.Z (.int 0))]] _ :=
    .one (.seq (.cons (.gate (leafS (values := []))) (.cons (.gate (leafX (values := [])))
      (.cons (.gate (leafS (values := []))) (.one (.gate (leafZ (values := []))))))))
  have ht : ((State.vec psi1).mat 1).trace = 1 := by
    rw [vec_trace, normSq, sum_lab1, ket, ket, psi1_get, psi1_get]; norm_num
  obtain ⟨i1, i2⟩ := pick_mean eigh (A := _) (vec_posSemidef psi1) ht listedSXSZ_hermitian (Equiv.refl _) fun _ _ => rfl
  refine ⟨circuitI, psi1, .new (.list [mkSeq [.prim (Gate.S (.int 0)), .prim (Gate.X (.int 0)), .prim (Gate.S (.int 0)),
      .prim (Gate.Z (.int 0))]]), _, psi1_isKet,
    fun draw => ad_of_single so eigh draw (.inr ⟨.inl rfl, rfl, rfl⟩) (circuitI_run so one_pos psi1_isKet) (by simp) (.cons ?_ .nil),
    fun draw k hk => expectation_shots so eigh (r := .vec psi1) (circuitI_run so one_pos psi1_isKet) psi1_isKet (.cons hl .nil)
      draw hk (.inl rfl), ?_⟩
  · rw [Observable.new, OpArg.toList, expectSingle_vec so hm psi1_isKet, expVal_vec]
    simp only [one_mul, ← Matrix.mulVec_mulVec, sum_lab1, mulVec_lab1, ket, psi1_get, StdGate.mat, matE]
    refine congrArg Except.ok ?_
    norm_num [Complex.ext_iff]
  · rw [i2, expVal_vec]
    simp only [← Matrix.mulVec_mulVec, sum_lab1, mulVec_lab1, ket, psi1_get, StdGate.mat, matE]
    norm_num [Complex.ext_iff]

/-! ## C54 -/

/-- **C54, restricted to observables whose eigenvectors, as returned by `eigh`, are those of the first observable in
another order (including signs and phases)**: the estimate for each such observable is the average of numbers `f(u)` whose
mean is its expectation value.  In general this fails, silently: `C54_noncommuting_wrong`, `C54_commuting_wrong`. -/
theorem C54_aligned_partial {circuit : Op} {nss : List (List StdNoise)} (hc : circuit.Circuit n values nss) {st : State} (hst : st.On n)
    {obs : List Observable} {O : Matrix (Lab n) (Lab n) ℂ} {Os : List (Matrix (Lab n) (Lab n) ℂ)}
    (ho : List.Forall₂ (fun o O => Op.ListedSum (StdLeaf n values) values o.ops O) obs (O :: Os)) :
    ∃ r, run so circuit st values = .ok (some r) ∧ r.On n ∧ ((r.mat n).PosSemidef → (r.mat n).trace = 1 →
      ∃ f : Matrix (Lab n) (Lab n) ℂ → ℝ → ℝ,
        (∀ (draw : Draw) (k : ℤ) (mode : DiffMode), 1 ≤ k → mode = .ad ∨ mode = .gpsr →
          expectation so eigh draw st circuit obs values mode k
            = .ok ((O :: Os).map fun O' => (∑ j, f O' (draw k.toNat j)) / k.toNat)) ∧
        ∀ O' ∈ O :: Os, O'.IsHermitian → ∀ σ : Equiv.Perm (Fin (2 ^ n)),
          (∀ i j, eigh.vecs (numMat O) i j = eigh.vecs (numMat O') i (σ j)) →
          ∫ u in Set.Ico (0 : ℝ) 1, f O' u = expVal O' (r.mat n)) := by
  obtain ⟨r, h1, h2, h3⟩ := circuit_run so hc hst
  refine ⟨r, h1, h3.on, fun hp ht => ⟨fun O' => _, fun draw k mode hk hm => expectation_shots so eigh h2 h3.on ho draw hk hm, ?_⟩⟩
  intro O' _ hO' σ hσ
  exact (pick_mean eigh hp ht hO' σ hσ).2

/-- The hypotheses of `C54_aligned_partial` are met by `[Z(0), Z(0)]`. -/
example : circuitI.Circuit 1 [] [[]] ∧ (State.vec psi1).On 1 ∧
    List.Forall₂ (fun o O => Op.ListedSum (StdLeaf 1 []) [] o.ops O) [obsZ, obsZ]
      [gateMat 1 StdGate.Z.mat [0] [], gateMat 1 StdGate.Z.mat [0] []] ∧
    (gateMat 1 StdGate.Z.mat [0] [] : Matrix (Lab 1) (Lab 1) ℂ).IsHermitian ∧
    ∀ i j, eigh.vecs (numMat (gateMat 1 StdGate.Z.mat [0] [])) i j
      = eigh.vecs (numMat (gateMat 1 StdGate.Z.mat [0] [])) i (Equiv.refl _ j) :=
  ⟨circuitI_circuit one_pos, psi1_isKet, .cons (obsZ_simple so).listed (.cons (obsZ_simple so).listed .nil), gateZ_hermitian,
    fun _ _ => rfl⟩

/-- The observable `X(0)`. -/
def obsX : Observable := Observable.new (.list [.prim (Gate.X (.int 0))])

theorem numEquiv1_sum {M : Type} [AddCommMonoid M] (f : Fin (2 ^ 1) → M) :
    ∑ i, f i = f (numEquiv 1 (lab1 0)) + f (numEquiv 1 (lab1 1)) := by
  rw [← (numEquiv 1).sum_comp, sum_lab1]

/-- The eigenvectors of `X` have components of equal size. -/
theorem eighX_entries (j : Fin (2 ^ 1)) :
    star (eigh.vecs (numMat (gateMat 1 StdGate.X.mat [0] [])) (numEquiv 1 (lab1 0)) j)
        * eigh.vecs (numMat (gateMat 1 StdGate.X.mat [0] [])) (numEquiv 1 (lab1 0)) j
      = star (eigh.vecs (numMat (gateMat 1 StdGate.X.mat [0] [])) (numEquiv 1 (lab1 1)) j)
        * eigh.vecs (numMat (gateMat 1 StdGate.X.mat [0] [])) (numEquiv 1 (lab1 1)) j := by
  have hX : (gateMat 1 StdGate.X.mat [0] [] : Matrix (Lab 1) (Lab 1) ℂ).IsHermitian := by
    refine mat1_ext fun i j => ?_
    rw [Matrix.conjTranspose_apply, gateMat_lab1, gateMat_lab1]
    fin_cases i <;> fin_cases j <;> simp [StdGate.mat, matE]
  have hXn : (numMat (gateMat 1 StdGate.X.mat [0] [])).IsHermitian := by
    rw [Matrix.IsHermitian, numMat_conjTranspose, hX.eq]
  obtain ⟨V, hV⟩ : ∃ V, V = eigh.vecs (numMat (gateMat 1 StdGate.X.mat [0] [])) := ⟨_, rfl⟩
  obtain ⟨l, hl⟩ : ∃ l, l = eigh.vals (numMat (gateMat 1 StdGate.X.mat [0] [])) j := ⟨_, rfl⟩
  have he := eigh.eigen_hermitian hXn
  have hu := congrFun (congrFun (eigh.unitary (numMat (gateMat 1 StdGate.X.mat [0] []))) j) j
  have he0 := congrFun (congrFun he (numEquiv 1 (lab1 0))) j
  have he1 := congrFun (congrFun he (numEquiv 1 (lab1 1))) j
  rw [Matrix.mul_diagonal, Matrix.mul_apply, numEquiv1_sum, numMat_apply, numMat_apply, gateMat_lab1, gateMat_lab1,
    ← hV, ← hl] at he0 he1
  rw [Matrix.mul_apply, numEquiv1_sum, Matrix.conjTranspose_apply, Matrix.conjTranspose_apply, Matrix.one_apply_eq, ← hV] at hu
  rw [← hV]
  obtain ⟨x, hx⟩ : ∃ x, x = V (numEquiv 1 (lab1 0)) j := ⟨_, rfl⟩
  obtain ⟨y, hy⟩ : ∃ y, y = V (numEquiv 1 (lab1 1)) j := ⟨_, rfl⟩
  rw [← hx, ← hy] at he0 he1 hu ⊢
  simp [StdGate.mat, matE] at he0 he1
  -- `y = x l` and `x = y l`
  have h1 : star y * y = star x * x * ((l : ℂ) * l) := by
    rw [he0, star_mul', Complex.star_def, Complex.conj_ofReal]; ring
  have h2 : star x * x = star y * y * ((l : ℂ) * l) := by
    conv_lhs => rw [he1]
    rw [star_mul', Complex.star_def, Complex.conj_ofReal]; ring
  have h3 : star x * x * (1 - (l : ℂ) ^ 2) * (1 + (l : ℂ) ^ 2) = 0 := by
    linear_combination h2 + ((l : ℂ) * l) * h1
  have h4 : (1 + (l : ℂ) ^ 2) ≠ 0 := by
    have : (1 + l ^ 2 : ℝ) ≠ 0 := by positivity
    exact_mod_cast this
  have h5 : star x * x * (1 - (l : ℂ) ^ 2) = 0 := (mul_eq_zero.1 h3).resolve_right h4
  linear_combination h5 - h1

theorem basis_num (b : Lab n) : numMat ((State.vec (basisKet ℂ b)).mat n)
    = Matrix.vecMulVec (Pi.single (numEquiv n b) 1) (Pi.single (numEquiv n b) 1) := by
  refine (numMat_ext fun x y => ?_).symm
  have hk : ∀ z, (basisKet ℂ b).get z.bits = (Pi.single b 1 : Lab n → ℂ) z := fun z => congrFun (ket_basisKet b) z
  simp only [State.mat, Matrix.of_apply, hk, Matrix.vecMulVec_apply, Pi.single_apply, (numEquiv n).injective.eq_iff]
  split <;> split <;> simp

theorem basis_probs (V : Matrix (Fin (2 ^ n)) (Fin (2 ^ n)) ℂ) (b : Lab n) (j : Fin (2 ^ n)) :
    (V.conjTranspose * numMat ((State.vec (basisKet ℂ b)).mat n) * V) j j
      = star (V (numEquiv n b) j) * V (numEquiv n b) j := by
  rw [basis_num, Matrix.mul_vecMulVec, Matrix.vecMulVec_mul, Matrix.vecMulVec_apply, Matrix.mulVec_single_one,
    Matrix.single_one_vecMul]
  rfl

theorem obsX_listed : Op.ListedSum (StdLeaf 1 []) [] obsX.ops (gateMat 1 StdGate.X.mat [0] []) := .one (.gate leafX)

/-- **C54 is false of the code**: `X(0)` and `Z(0)` share no eigenbasis, but the pair is not refused.  Whatever `eigh`
returns, the estimates on `|0⟩` and on `|1⟩` coincide for all draws, while the exact values of `Z(0)` are `1` and `-1`. -/
theorem C54_noncommuting_wrong (draw : Draw) {k : ℤ} (hk : 1 ≤ k) :
    (∃ xs, expectation so eigh draw (.vec (basisKet ℂ (lab1 0))) circuitI [obsX, obsZ] [] .ad k = .ok xs ∧
      expectation so eigh draw (.vec (basisKet ℂ (lab1 1))) circuitI [obsX, obsZ] [] .ad k = .ok xs) ∧
    expectation so eigh draw (.vec (basisKet ℂ (lab1 0))) circuitI [obsX, obsZ] [] .ad 0 = .ok [0, 1] ∧
    expectation so eigh draw (.vec (basisKet ℂ (lab1 1))) circuitI [obsX, obsZ] [] .ad 0 = .ok [0, -1] := by
  have hrun : ∀ i, applyOps so (.vec (basisKet ℂ (lab1 i))) circuitI.iter [] = .ok (.vec (basisKet ℂ (lab1 i))) :=
    fun i => circuitI_run so one_pos (basisKet_isKet _)
  have hex : ∀ i : Fin 2, expectation so eigh draw (.vec (basisKet ℂ (lab1 i))) circuitI [obsX, obsZ] [] .ad 0
      = .ok [0, if i = 0 then 1 else -1] := by
    intro i
    refine ad_of_single so eigh draw (.inr ⟨.inl rfl, rfl, rfl⟩) (hrun i) (by simp) (.cons ?_ (.cons ?_ .nil))
    · have h := expectSingle_vec so (.one (.gate (leafX (values := [])).any)) (basisKet_isKet (K := ℂ) (lab1 i))
      refine h.trans ?_
      rw [expVal_vec]
      simp only [ket_basisKet, sum_lab1, Matrix.mulVec, dotProduct, gateMat_lab1, StdGate.mat, matE]
      refine congrArg Except.ok ?_
      fin_cases i <;> simp [Pi.single_apply, lab1_inj]
    · have h := expectSingle_vec so (.one (.gate (leafZ (values := [])).any)) (basisKet_isKet (K := ℂ) (lab1 i))
      refine h.trans ?_
      rw [expVal_vec]
      simp only [ket_basisKet, sum_lab1, Matrix.mulVec, dotProduct, gateMat_lab1, StdGate.mat, matE]
      refine congrArg Except.ok ?_
      fin_cases i <;> simp [Pi.single_apply, lab1_inj]
  have hsame : shotProbs (eigh.vecs (numMat (gateMat 1 StdGate.X.mat [0] []))) ((State.vec (basisKet ℂ (lab1 0))).mat 1)
      = shotProbs (eigh.vecs (numMat (gateMat 1 StdGate.X.mat [0] []))) ((State.vec (basisKet ℂ (lab1 1))).mat 1) := by
    refine congrArg List.ofFn (funext fun j => ?_)
    rw [basis_probs, basis_probs, eighX_entries]
  refine ⟨⟨_, expectation_shots so eigh (r := .vec (basisKet ℂ (lab1 0))) (hrun 0) (basisKet_isKet _)
      (.cons obsX_listed (.cons (obsZ_simple so).listed .nil)) draw hk (.inl rfl), ?_⟩, hex 0, by simpa using hex 1⟩
  rw [hsame]
  exact expectation_shots so eigh (r := .vec (basisKet ℂ (lab1 1))) (hrun 1) (basisKet_isKet _)
      (.cons obsX_listed (.cons (obsZ_simple so).listed .nil)) draw hk (.inl rfl)

/-! ### Commuting observables -/

/-- The contract of `eigh` can be met (spectral theorem). -/
theorem eigh_exists : Nonempty Eigh := by
  have key : ∀ {d : ℕ} (A : Matrix (Fin d) (Fin d) ℂ), ∃ (w : Fin d → ℝ) (V : Matrix (Fin d) (Fin d) ℂ), Monotone w ∧
      V.conjTranspose * V = 1 ∧
      ((1 / 2 : ℂ) • (A + A.conjTranspose)) * V = V * Matrix.diagonal fun i => (w i : ℂ) := by
    intro d A
    have hH : ((1 / 2 : ℂ) • (A + A.conjTranspose)).IsHermitian := by
      rw [Matrix.IsHermitian, Matrix.conjTranspose_smul, Matrix.conjTranspose_add, Matrix.conjTranspose_conjTranspose, add_comm]
      norm_num
    obtain ⟨H, hHd⟩ : ∃ H, H = (1 / 2 : ℂ) • (A + A.conjTranspose) := ⟨_, rfl⟩
    rw [← hHd] at hH ⊢
    let e : Fin d ≃ Fin (Fintype.card (Fin d)) := (finCongr (Fintype.card_fin d).symm).trans Fin.revPerm
    let τ : Fin d ≃ Fin d := e.trans (Fintype.equivOfCardEq (Fintype.card_fin _))
    refine ⟨fun i => hH.eigenvalues (τ i), (hH.eigenvectorUnitary : Matrix (Fin d) (Fin d) ℂ).submatrix id τ, ?_, ?_, ?_⟩
    · intro i j hij
      simp only [Matrix.IsHermitian.eigenvalues, τ, Equiv.trans_apply, Equiv.symm_apply_apply]
      refine hH.eigenvalues₀_antitone ?_
      simp only [e, Equiv.trans_apply, Fin.revPerm_apply, Fin.rev_le_rev]
      exact hij
    · have : (hH.eigenvectorUnitary : Matrix (Fin d) (Fin d) ℂ).conjTranspose * hH.eigenvectorUnitary = 1 :=
        Unitary.coe_star_mul_self _
      rw [Matrix.conjTranspose_submatrix, ← Matrix.submatrix_mul _ _ _ _ _ Function.bijective_id, this,
        Matrix.submatrix_one_equiv]
    · ext k i
      rw [Matrix.mul_diagonal, Matrix.mul_apply, Matrix.submatrix_apply, id]
      have := congrFun (hH.mulVec_eigenvectorBasis (τ i)) k
      rw [Matrix.mulVec, dotProduct] at this
      simp only [Matrix.submatrix_apply, id, Matrix.IsHermitian.eigenvectorUnitary_apply]
      rw [this]
      simp [mul_comm]
  choose w V h1 h2 h3 using @key
  exact ⟨⟨fun {d} A => w A, fun {d} A => V A, fun {d} A => h1 A, fun {d} A => h2 A, fun {d} A => h3 A⟩⟩

/-- The observable `I(0)`. -/
def obsI : Observable := Observable.new (.list [.prim (Gate.I (.int 0))])

theorem gateI_one : (gateMat 1 StdGate.I.mat [0] [] : Matrix (Lab 1) (Lab 1) ℂ) = 1 := by
  refine mat1_ext fun i j => ?_
  rw [gateMat_lab1, Matrix.one_apply]
  simp only [lab1_inj]
  fin_cases i <;> fin_cases j <;> simp [StdGate.mat, matE]

theorem leafI : StdLeaf 1 values (Gate.I (.int 0)) 1 := ⟨.I, gateI_std one_pos, rfl, gateI_one.symm⟩

/-- The states `(3|0⟩ ± 4|1⟩)/5`. -/
noncomputable def psiPM (s : ℝ) : NDArray ℂ := ⟨[2], [3 / 5, 4 / 5 * s]⟩

theorem psiPM_isKet (s : ℝ) : IsKet 1 (psiPM s) := ⟨rfl, rfl⟩

theorem psiPM_get (s : ℝ) (i : Fin 2) : (psiPM s).get (lab1 i).bits = if i = 0 then 3 / 5 else 4 / 5 * (s : ℂ) := by
  rw [lab1_bits]; fin_cases i <;> rfl

/-- **C54 is false of the code, also for commuting observables**: `I(0)` and `X(0)` commute, but the eigenvectors that
`eigh` returns for the identity need not be eigenvectors of `X(0)`.  For every `eigh` that decomposes the identity matrix
with the standard basis, the estimates on `(3|0⟩ + 4|1⟩)/5` and `(3|0⟩ - 4|1⟩)/5` coincide for all draws, while the exact
values of `X(0)` are `24/25` and `-24/25`. -/
theorem C54_commuting_wrong (h1 : eigh.vecs (1 : Matrix (Fin (2 ^ 1)) (Fin (2 ^ 1)) ℂ) = 1) (draw : Draw) {k : ℤ} (hk : 1 ≤ k) :
    (∃ xs, expectation so eigh draw (.vec (psiPM 1)) circuitI [obsI, obsX] [] .ad k = .ok xs ∧
      expectation so eigh draw (.vec (psiPM (-1))) circuitI [obsI, obsX] [] .ad k = .ok xs) ∧
    expectation so eigh draw (.vec (psiPM 1)) circuitI [obsI, obsX] [] .ad 0 = .ok [1, 24 / 25] ∧
    expectation so eigh draw (.vec (psiPM (-1))) circuitI [obsI, obsX] [] .ad 0 = .ok [1, -(24 / 25)] := by
  have hrun : ∀ s, applyOps so (.vec (psiPM s)) circuitI.iter [] = .ok (.vec (psiPM s)) :=
    fun s => circuitI_run so one_pos (psiPM_isKet s)
  have hex : ∀ s : ℝ, s ^ 2 = 1 → expectation so eigh draw (.vec (psiPM s)) circuitI [obsI, obsX] [] .ad 0
      = .ok [1, 24 / 25 * s] := by
    intro s hs
    refine ad_of_single so eigh draw (.inr ⟨.inl rfl, rfl, rfl⟩) (hrun s) (by simp) (.cons ?_ (.cons ?_ .nil))
    · have h := expectSingle_vec so (.one (.gate (leafI (values := [])).any)) (psiPM_isKet s)
      refine h.trans ?_
      rw [expVal_vec, Matrix.one_mulVec]
      simp only [sum_lab1, psiPM_get, ket]
      refine congrArg Except.ok ?_
      simp
      linear_combination (16 / 25 : ℝ) * hs
    · have h := expectSingle_vec so (.one (.gate (leafX (values := [])).any)) (psiPM_isKet s)
      refine h.trans ?_
      rw [expVal_vec]
      simp only [sum_lab1, mulVec_lab1, psiPM_get, ket, StdGate.mat, matE]
      refine congrArg Except.ok ?_
      simp
      ring
  have hn1 : numMat (1 : Matrix (Lab 1) (Lab 1) ℂ) = 1 := by rw [numMat, Matrix.submatrix_one_equiv]
  have hsame : shotProbs (eigh.vecs (numMat (1 : Matrix (Lab 1) (Lab 1) ℂ))) ((State.vec (psiPM 1)).mat 1)
      = shotProbs (eigh.vecs (numMat (1 : Matrix (Lab 1) (Lab 1) ℂ))) ((State.vec (psiPM (-1))).mat 1) := by
    refine congrArg List.ofFn (funext fun j => ?_)
    rw [hn1, h1, Matrix.conjTranspose_one, Matrix.one_mul, Matrix.mul_one, Matrix.one_mul, Matrix.mul_one]
    obtain ⟨b, rfl⟩ := (numEquiv 1).surjective j
    obtain ⟨i, rfl⟩ : ∃ i, b = lab1 i := ⟨b 0, funext fun q => by rw [Subsingleton.elim q 0]; rfl⟩
    rw [numMat_apply, numMat_apply]
    simp only [State.mat, Matrix.of_apply, psiPM_get]
    fin_cases i <;> simp
  refine ⟨⟨_, expectation_shots so eigh (r := .vec (psiPM 1)) (hrun 1) (psiPM_isKet _)
      (.cons (.one (.gate leafI)) (.cons obsX_listed .nil)) draw hk (.inl rfl), ?_⟩, by simpa using hex 1 (by norm_num),
      by simpa using hex (-1) (by norm_num)⟩
  rw [hsame]
  exact expectation_shots so eigh (r := .vec (psiPM (-1))) (hrun (-1)) (psiPM_isKet _)
      (.cons (.one (.gate leafI)) (.cons obsX_listed .nil)) draw hk (.inl rfl)

/-- There are decompositions as in `C54_commuting_wrong`. -/
theorem eigh_one_exists : ∃ eigh : Eigh, eigh.vecs (1 : Matrix (Fin (2 ^ 1)) (Fin (2 ^ 1)) ℂ) = 1 := by
  classical
  obtain ⟨e⟩ := eigh_exists
  refine ⟨⟨fun {d} A => if A = 1 then fun _ => 1 else e.vals A, fun {d} A => if A = 1 then 1 else e.vecs A, ?_, ?_, ?_⟩, if_pos rfl⟩
  · intro d A
    split
    · exact monotone_const
    · exact e.sorted A
  · intro d A
    split
    · simp
    · exact e.unitary A
  · intro d A
    split
    case isTrue h =>
      subst h
      rw [Matrix.conjTranspose_one, ← two_smul ℂ (1 : Matrix (Fin d) (Fin d) ℂ), smul_smul]
      simp
    case isFalse h => simpa using e.eigen A

end Verif
