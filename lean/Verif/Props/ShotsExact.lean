import Verif.Props.Shots
import Verif.Props.DmExact

/-!
# C54: what the finite-shot estimates of several observables are estimates of

The outcomes are those of the first observable; the values read off for another observable are its eigenvalues,
matched to the outcomes by comparing the eigenvectors returned by `eigh`.
-/

set_option autoImplicit false

namespace Verif
open NDArray MeasureTheory
open scoped ComplexOrder

variable {n : ℕ} {values : Values} (so : SetOrder) (eigh : Eigh)

/-- The `j`-th eigenvector that `eigh` returns for `O`. -/
noncomputable def eigVec (O : Matrix (Lab n) (Lab n) ℂ) (j : Fin (2 ^ n)) : Lab n → ℂ :=
  fun x => eigh.vecs (numMat O) (numEquiv n x) j

/-- The value read off for `B` at the `j`-th outcome of `A`: the sum of the eigenvalues of `B` whose eigenvector has an
inner product of real part above `1/2` with the `j`-th eigenvector of `A`. -/
noncomputable def readValue (A B : Matrix (Lab n) (Lab n) ℂ) (j : Fin (2 ^ n)) : ℝ :=
  ∑ i, if 1 / 2 < (star (eigVec eigh B i) ⬝ᵥ eigVec eigh A j).re then eigh.vals (numMat B) i else 0

/-- The operator with these values and the eigenvectors of `A`. -/
noncomputable def readOp (A B : Matrix (Lab n) (Lab n) ℂ) : Matrix (Lab n) (Lab n) ℂ :=
  ∑ j, (readValue eigh A B j : ℂ) • Matrix.vecMulVec (eigVec eigh A j) (star (eigVec eigh A j))

theorem alignedEigenvalues_read (A B : Matrix (Lab n) (Lab n) ℂ) (j : Fin (2 ^ n)) :
    alignedEigenvalues (eigh.vals (numMat B)) (eigh.vecs (numMat B)) (eigh.vecs (numMat A)) j = readValue eigh A B j := by
  rw [alignedEigenvalues, readValue]
  refine Finset.sum_congr rfl fun i _ => ?_
  have hinv : (eigh.vecs (numMat B))⁻¹ = (eigh.vecs (numMat B)).conjTranspose := Matrix.inv_eq_left_inv (eigh.unitary _)
  have : ((eigh.vecs (numMat B))⁻¹ * eigh.vecs (numMat A)) i j = star (eigVec eigh B i) ⬝ᵥ eigVec eigh A j := by
    rw [hinv, Matrix.mul_apply, dotProduct, ← (numEquiv n).sum_comp]
    rfl
  rw [permutationMatrix, this]
  split <;> simp

theorem numMat_readOp (A B : Matrix (Lab n) (Lab n) ℂ) : numMat (readOp eigh A B)
    = eigh.vecs (numMat A) * Matrix.diagonal (fun j => (readValue eigh A B j : ℂ)) * (eigh.vecs (numMat A)).conjTranspose := by
  symm
  refine numMat_ext fun x y => ?_
  rw [readOp, Matrix.sum_apply, Matrix.mul_apply]
  refine Finset.sum_congr rfl fun j _ => ?_
  rw [Matrix.mul_diagonal, Matrix.smul_apply, Matrix.vecMulVec_apply, Matrix.conjTranspose_apply]
  simp only [eigVec, Pi.star_apply, smul_eq_mul]
  ring

theorem pick_mean_read {A B ρ : Matrix (Lab n) (Lab n) ℂ} (hρ : ρ.PosSemidef) (ht : ρ.trace = 1) :
    IntegrableOn (pick (shotProbs (eigh.vecs (numMat A)) ρ)
        (alignedEigenvalues (eigh.vals (numMat B)) (eigh.vecs (numMat B)) (eigh.vecs (numMat A)))) (Set.Ico 0 1) ∧
      ∫ u in Set.Ico (0 : ℝ) 1, pick (shotProbs (eigh.vecs (numMat A)) ρ)
        (alignedEigenvalues (eigh.vals (numMat B)) (eigh.vecs (numMat B)) (eigh.vecs (numMat A))) u
      = expVal (readOp eigh A B) ρ := by
  obtain ⟨h1, h2⟩ := shotProbs_facts eigh (A := A) hρ
  rw [ht, Complex.one_re] at h2
  obtain ⟨i1, i2⟩ := pick_integral h1 (by rw [h2]; exact one_pos) (d := 2 ^ n) (by simp [shotProbs])
    (alignedEigenvalues (eigh.vals (numMat B)) (eigh.vecs (numMat B)) (eigh.vecs (numMat A)))
  refine ⟨i1, ?_⟩
  rw [i2, h2, div_one, expVal, ← numMat_trace, numMat_mul, numMat_readOp, Matrix.mul_assoc, Matrix.mul_assoc,
    Matrix.trace_mul_comm, Matrix.mul_assoc, Matrix.trace, Complex.re_sum]
  refine Finset.sum_congr rfl fun i _ => ?_
  rw [alignedEigenvalues_read, shotProbs, List.getD_eq_getElem?_getD, List.getElem?_ofFn, dif_pos i.2, Matrix.diag_apply,
    Matrix.diagonal_mul, Complex.re_ofReal_mul, mul_comm]
  rfl

/-- **C54** (exactly what is estimated): for observables of standard gates, Hermitian or not, the estimate of each is an
average of `f(u)` over the uniform numbers `u`, and the mean of `f(u)` is the expectation value of `readOp O O'`, the
operator with the eigenvectors of the first observable and the values matched to them.  The matching is not checked. -/
theorem C54_exact {circuit : Op} {nss : List (List StdNoise)} (hc : circuit.Circuit n values nss) {st : State} (hst : st.On n)
    {obs : List Observable} {O : Matrix (Lab n) (Lab n) ℂ} {Os : List (Matrix (Lab n) (Lab n) ℂ)}
    (ho : List.Forall₂ (fun o O => Op.ListedSum (StdLeaf n values) values o.ops O) obs (O :: Os)) :
    ∃ r, run so circuit st values = .ok (some r) ∧ r.On n ∧ ((r.mat n).PosSemidef → (r.mat n).trace = 1 →
      ∃ f : Matrix (Lab n) (Lab n) ℂ → ℝ → ℝ,
        (∀ (draw : Draw) (k : ℤ) (mode : DiffMode), 1 ≤ k → mode = .ad ∨ mode = .gpsr →
          expectation so eigh draw st circuit obs values mode k
            = .ok ((O :: Os).map fun O' => (∑ j, f O' (draw k.toNat j)) / k.toNat)) ∧
        ∀ O' ∈ O :: Os, IntegrableOn (f O') (Set.Ico 0 1) ∧
          ∫ u in Set.Ico (0 : ℝ) 1, f O' u = expVal (readOp eigh O O') (r.mat n)) := by
  obtain ⟨r, h1, h2, h3⟩ := circuit_run so hc hst
  exact ⟨r, h1, h3.on, fun hp ht => ⟨fun O' => _,
    fun draw k mode hk hm => expectation_shots so eigh h2 h3.on ho draw hk hm, fun O' _ => pick_mean_read eigh hp ht⟩⟩

theorem eigVec_norm (A : Matrix (Lab n) (Lab n) ℂ) (j : Fin (2 ^ n)) : eigVec eigh A j ⬝ᵥ star (eigVec eigh A j) = 1 := by
  have h := congrFun (congrFun (eigh.unitary (numMat A)) j) j
  rw [Matrix.mul_apply, Matrix.one_apply_eq, ← (numEquiv n).sum_comp] at h
  rw [← h, dotProduct]
  exact Finset.sum_congr rfl fun x _ => mul_comm _ _

theorem eigVec_eigen {A : Matrix (Lab n) (Lab n) ℂ} (hA : A.IsHermitian) (j : Fin (2 ^ n)) :
    A.mulVec (eigVec eigh A j) = (eigh.vals (numMat A) j : ℂ) • eigVec eigh A j := by
  have hn : (numMat A).IsHermitian := by rw [Matrix.IsHermitian, numMat_conjTranspose, hA.eq]
  funext x
  have h := congrFun (congrFun (eigh.eigen_hermitian hn) (numEquiv n x)) j
  rw [Matrix.mul_apply, Matrix.mul_diagonal, ← (numEquiv n).sum_comp] at h
  rw [Matrix.mulVec, dotProduct, Pi.smul_apply, smul_eq_mul, mul_comm]
  refine (Finset.sum_congr rfl fun y _ => ?_).trans h
  rw [numMat_apply]; rfl

/-- A Hermitian operator without expectation values is zero. -/
theorem expVal_all_zero {D : Matrix (Lab n) (Lab n) ℂ} (hD : D.IsHermitian)
    (h : ∀ ψ : Lab n → ℂ, ψ ⬝ᵥ star ψ = 1 → expVal D (Matrix.vecMulVec ψ (star ψ)) = 0) : D = 0 := by
  obtain ⟨eigh⟩ := eigh_exists
  have hn : (numMat D).IsHermitian := by rw [Matrix.IsHermitian, numMat_conjTranspose, hD.eq]
  have hv : ∀ j, eigh.vals (numMat D) j = 0 := by
    intro j
    have := h _ (eigVec_norm eigh D j)
    rwa [expVal, Matrix.mul_vecMulVec, eigVec_eigen eigh hD, Matrix.trace_vecMulVec, smul_dotProduct,
      eigVec_norm, smul_eq_mul, mul_one, Complex.ofReal_re] at this
  have h0 : numMat D = 0 := by
    have := eigh.eigen_hermitian hn
    simp only [hv, Complex.ofReal_zero, Matrix.diagonal_zero, Matrix.mul_zero] at this
    have h2 := congrArg (· * (eigh.vecs (numMat D)).conjTranspose) this
    simpa [Matrix.mul_assoc, eigh.mul_conj] using h2
  ext x y
  have := numMat_apply D x y
  rw [h0] at this
  exact this.symm

theorem readOp_hermitian (A B : Matrix (Lab n) (Lab n) ℂ) : (readOp eigh A B).IsHermitian := by
  rw [Matrix.IsHermitian, readOp, Matrix.conjTranspose_sum]
  refine Finset.sum_congr rfl fun j _ => ?_
  rw [Matrix.conjTranspose_smul, Matrix.conjTranspose_vecMulVec, star_star, Complex.star_def, Complex.conj_ofReal]

theorem readOp_commutes {A : Matrix (Lab n) (Lab n) ℂ} (hA : A.IsHermitian) (B : Matrix (Lab n) (Lab n) ℂ) :
    A * readOp eigh A B = readOp eigh A B * A := by
  rw [readOp, Finset.mul_sum, Finset.sum_mul]
  refine Finset.sum_congr rfl fun j _ => ?_
  have h1 : Matrix.vecMul (star (eigVec eigh A j)) A = star ((eigh.vals (numMat A) j : ℂ) • eigVec eigh A j) := by
    rw [← eigVec_eigen eigh hA, Matrix.star_mulVec, hA.eq]
  rw [Matrix.mul_smul, Matrix.smul_mul, Matrix.mul_vecMulVec, Matrix.vecMulVec_mul, eigVec_eigen eigh hA, h1, star_smul,
    Complex.star_def, Complex.conj_ofReal]
  ext x y
  simp only [Matrix.smul_apply, Matrix.vecMulVec_apply, Pi.smul_apply, smul_eq_mul]
  ring

theorem readOp_right_iff (O : Matrix (Lab n) (Lab n) ℂ) {O' : Matrix (Lab n) (Lab n) ℂ} (hO' : O'.IsHermitian) :
    (∀ ρ : Matrix (Lab n) (Lab n) ℂ, ρ.PosSemidef → ρ.trace = 1 → expVal (readOp eigh O O') ρ = expVal O' ρ)
      ↔ readOp eigh O O' = O' := by
  refine ⟨fun h => sub_eq_zero.1 (expVal_all_zero ((readOp_hermitian eigh O O').sub hO') fun ψ hψ => ?_), fun h ρ _ _ => by rw [h]⟩
  have := h _ (Matrix.posSemidef_vecMulVec_self_star ψ) (by rw [Matrix.trace_vecMulVec, hψ])
  rw [expVal, sub_mul, Matrix.trace_sub, Complex.sub_re]
  exact sub_eq_zero.2 this

/-- **C54** (when the estimates are right): for two observables and the circuit `[I(0)]`, the mean of the estimate of the
second is its expectation value in every normalised state exactly when the operator read off is the observable itself. -/
theorem C54_right_iff (hn : 0 < n) {o o' : Observable} {O O' : Matrix (Lab n) (Lab n) ℂ}
    (ho : Op.ListedSum (StdLeaf n values) values o.ops O) (ho' : Op.ListedSum (StdLeaf n values) values o'.ops O')
    (hO' : O'.IsHermitian) :
    (∀ (a : NDArray ℂ) (f f' : ℝ → ℝ), IsKet n a → normSq n a = 1 →
      (∀ (draw : Draw) (k : ℤ) (mode : DiffMode), 1 ≤ k → mode = .ad ∨ mode = .gpsr →
        expectation so eigh draw (.vec a) circuitI [o, o'] values mode k
          = .ok [(∑ j, f (draw k.toNat j)) / k.toNat, (∑ j, f' (draw k.toNat j)) / k.toNat]) →
      ∫ u in Set.Ico (0 : ℝ) 1, f' u = expVal O' ((State.vec a).mat n))
      ↔ readOp eigh O O' = O' := by
  have htr : ∀ a : NDArray ℂ, normSq n a = 1 → ((State.vec a).mat n).trace = 1 := fun a h => by
    rw [vec_trace (n := n) a, h, Complex.ofReal_one]
  have hsh := fun (a : NDArray ℂ) (ha : IsKet n a) (draw : Draw) (k : ℤ) (mode : DiffMode) (hk : 1 ≤ k)
      (hm : mode = .ad ∨ mode = .gpsr) =>
    expectation_shots so eigh (circuitI_run so hn ha (values := values)) (show (State.vec a).On n from ha)
      (.cons ho (.cons ho' .nil)) draw hk hm
  refine ⟨fun h => ?_, fun h a f f' ha hna hf => ?_⟩
  · refine sub_eq_zero.1 (expVal_all_zero ((readOp_hermitian eigh O O').sub hO') fun ψ hψ => ?_)
    obtain ⟨a, ha, rfl⟩ := exists_ket ψ
    have hm : (State.vec a).mat n = Matrix.vecMulVec (ket n a) (star (ket n a)) := by
      ext x y; simp [State.mat, Matrix.vecMulVec, ket]
    have ht : ((State.vec a).mat n).trace = 1 := by rw [hm, Matrix.trace_vecMulVec, hψ]
    have hns : normSq n a = 1 := by
      have := vec_trace (n := n) a
      rw [ht] at this
      exact_mod_cast this.symm
    have := h a _ _ ha hns (hsh a ha)
    rw [(pick_mean_read eigh (vec_posSemidef a) ht).2] at this
    rw [expVal, sub_mul, Matrix.trace_sub, Complex.sub_re, ← hm]
    exact sub_eq_zero.2 this
  · have e : f' = pick (shotProbs (eigh.vecs (numMat O)) ((State.vec a).mat n))
        (alignedEigenvalues (eigh.vals (numMat O')) (eigh.vecs (numMat O')) (eigh.vecs (numMat O))) := funext fun u => by
      have h1 := hf (fun _ _ => u) 1 .ad le_rfl (.inl rfl)
      rw [hsh a ha (fun _ _ => u) 1 .ad le_rfl (.inl rfl)] at h1
      have h2 := (List.cons.inj (List.cons.inj (Except.ok.inj h1)).2).1
      simp only [Int.toNat_one, Finset.univ_unique, Finset.sum_const, Finset.card_singleton, one_smul, Nat.cast_one, div_one] at h2
      exact h2.symm
    rw [e, (pick_mean_read eigh (vec_posSemidef a) (htr a hna)).2, h]

/-- **C54 is false of the code for every two observables that do not commute**: whatever `eigh` returns, there is a
normalised state such that, for the circuit `[I(0)]`, the call is accepted and the mean of the estimate of the second
observable is not its expectation value. -/
theorem C54_noncommuting_biased (hn : 0 < n) {o o' : Observable} {O O' : Matrix (Lab n) (Lab n) ℂ}
    (ho : Op.ListedSum (StdLeaf n values) values o.ops O) (ho' : Op.ListedSum (StdLeaf n values) values o'.ops O')
    (hO : O.IsHermitian) (hO' : O'.IsHermitian) (hne : O * O' ≠ O' * O) :
    ∃ a, IsKet n a ∧ normSq n a = 1 ∧ ∃ f f' : ℝ → ℝ,
      (∀ (draw : Draw) (k : ℤ) (mode : DiffMode), 1 ≤ k → mode = .ad ∨ mode = .gpsr →
        expectation so eigh draw (.vec a) circuitI [o, o'] values mode k
          = .ok [(∑ j, f (draw k.toNat j)) / k.toNat, (∑ j, f' (draw k.toNat j)) / k.toNat]) ∧
      ∫ u in Set.Ico (0 : ℝ) 1, f' u ≠ expVal O' ((State.vec a).mat n) := by
  by_contra hcon
  refine hne ?_
  have h0 : readOp eigh O O' - O' = 0 := by
    refine expVal_all_zero ((readOp_hermitian eigh O O').sub hO') fun ψ hψ => ?_
    obtain ⟨a, ha, rfl⟩ := exists_ket ψ
    have hm : (State.vec a).mat n = Matrix.vecMulVec (ket n a) (star (ket n a)) := by
      ext x y; simp [State.mat, Matrix.vecMulVec, ket]
    have htr : ((State.vec a).mat n).trace = 1 := by rw [hm, Matrix.trace_vecMulVec, hψ]
    have hns : normSq n a = 1 := by
      have := vec_trace (n := n) a
      rw [htr] at this
      exact_mod_cast this.symm
    by_contra hb
    refine hcon ⟨a, ha, hns, _, _, fun draw k mode hk hmode =>
      expectation_shots so eigh (circuitI_run so hn ha) ha (.cons ho (.cons ho' .nil)) draw hk hmode, ?_⟩
    rw [(pick_mean_read eigh (vec_posSemidef a) htr).2]
    intro he
    refine hb ?_
    rw [expVal, sub_mul, Matrix.trace_sub, Complex.sub_re, ← hm]
    exact sub_eq_zero.2 he
  have := readOp_commutes eigh hO O'
  rwa [sub_eq_zero.1 h0] at this

/-- If the eigenvectors of `O` are those of `O'` in some order and up to
phases `c j`, the value read off at outcome `j` is the eigenvalue where `Re (c j) > 1/2`, and zero elsewhere. -/
theorem readValue_phases {O O' : Matrix (Lab n) (Lab n) ℂ} (σ : Equiv.Perm (Fin (2 ^ n))) (c : Fin (2 ^ n) → ℂ)
    (h : ∀ j, eigVec eigh O j = c j • eigVec eigh O' (σ j)) (j : Fin (2 ^ n)) :
    readValue eigh O O' j = if 1 / 2 < (c j).re then eigh.vals (numMat O') (σ j) else 0 := by
  have hp : ∀ i, star (eigVec eigh O' i) ⬝ᵥ eigVec eigh O j = if i = σ j then c j else 0 := by
    intro i
    have hu := congrFun (congrFun (eigh.unitary (numMat O')) i) (σ j)
    rw [Matrix.mul_apply, Matrix.one_apply, ← (numEquiv n).sum_comp] at hu
    rw [h, dotProduct_smul, smul_eq_mul]
    have : star (eigVec eigh O' i) ⬝ᵥ eigVec eigh O' (σ j) = if i = σ j then 1 else 0 := hu
    rw [this]; split <;> simp
  rw [readValue, Finset.sum_eq_single (σ j)]
  · rw [hp, if_pos rfl]
  · intro i _ hi
    rw [hp, if_neg hi, Complex.zero_re, if_neg (by norm_num)]
  · simp

/-- **C54** (the phase of the eigenvectors matters): if the eigenvectors of `O` are those of `O'` in some order and up to
phases `c j`, the outcomes with `Re (c j) > 1/2` count with the eigenvalue of `O'`, and the others with zero. -/
theorem C54_phases {circuit : Op} {nss : List (List StdNoise)} (hc : circuit.Circuit n values nss) {st : State} (hst : st.On n)
    {o o' : Observable} {O O' : Matrix (Lab n) (Lab n) ℂ}
    (ho : Op.ListedSum (StdLeaf n values) values o.ops O) (ho' : Op.ListedSum (StdLeaf n values) values o'.ops O')
    (σ : Equiv.Perm (Fin (2 ^ n))) (c : Fin (2 ^ n) → ℂ) (h : ∀ j, eigVec eigh O j = c j • eigVec eigh O' (σ j)) :
    ∃ r, run so circuit st values = .ok (some r) ∧ r.On n ∧ ((r.mat n).PosSemidef → (r.mat n).trace = 1 →
      ∃ f f' : ℝ → ℝ,
        (∀ (draw : Draw) (k : ℤ) (mode : DiffMode), 1 ≤ k → mode = .ad ∨ mode = .gpsr →
          expectation so eigh draw st circuit [o, o'] values mode k
            = .ok [(∑ j, f (draw k.toNat j)) / k.toNat, (∑ j, f' (draw k.toNat j)) / k.toNat]) ∧
        IntegrableOn f' (Set.Ico 0 1) ∧
        ∫ u in Set.Ico (0 : ℝ) 1, f' u = ∑ j, (if 1 / 2 < (c j).re then eigh.vals (numMat O') (σ j) else 0)
          * expVal (Matrix.vecMulVec (eigVec eigh O j) (star (eigVec eigh O j))) (r.mat n)) := by
  obtain ⟨r, h1, h2, h3⟩ := circuit_run so hc hst
  refine ⟨r, h1, h3.on, fun hp ht => ⟨_, _,
    fun draw k mode hk hm => expectation_shots so eigh h2 h3.on (.cons ho (.cons ho' .nil)) draw hk hm,
    (pick_mean_read eigh hp ht).1, ?_⟩⟩
  rw [(pick_mean_read eigh hp ht).2, readOp, expVal, Finset.sum_mul, Matrix.trace_sum, Complex.re_sum]
  refine Finset.sum_congr rfl fun j _ => ?_
  rw [Matrix.smul_mul, Matrix.trace_smul, smul_eq_mul, Complex.re_ofReal_mul, readValue_phases eigh σ c h, expVal]

/-- Non-vacuity: `X(0)` and `Z(0)` do not commute. -/
example : Op.ListedSum (StdLeaf 1 []) [] obsX.ops (gateMat 1 StdGate.X.mat [0] []) ∧
    Op.ListedSum (StdLeaf 1 []) [] obsZ.ops (gateMat 1 StdGate.Z.mat [0] []) ∧
    (gateMat 1 StdGate.X.mat [0] []).IsHermitian ∧ (gateMat 1 StdGate.Z.mat [0] []).IsHermitian ∧
    gateMat 1 StdGate.X.mat [0] [] * gateMat 1 StdGate.Z.mat [0] []
      ≠ gateMat 1 StdGate.Z.mat [0] [] * gateMat 1 StdGate.X.mat [0] [] := by
  refine ⟨?_, (obsZ_simple so).listed, ?_, gateZ_hermitian, fun h => ?_⟩
  · exact .one (.gate leafX)
  · refine mat1_ext fun i j => ?_
    rw [Matrix.conjTranspose_apply, gateMat_lab1, gateMat_lab1]
    fin_cases i <;> fin_cases j <;> simp [StdGate.mat, matE]
  · have := congrFun (congrFun h (lab1 0)) (lab1 1)
    simp only [Matrix.mul_apply, sum_lab1, gateMat_lab1] at this
    simp [StdGate.mat, matE] at this
    norm_num [Complex.ext_iff] at this

/-- Non-vacuity of `C54_phases`: an observable with itself, all phases one. -/
example (O : Matrix (Lab n) (Lab n) ℂ) : ∀ j, eigVec eigh O j = (1 : ℂ) • eigVec eigh O (Equiv.refl _ j) := by
  simp

end Verif
