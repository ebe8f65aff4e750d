import Mathlib.Analysis.Matrix.Spectrum
import Mathlib.MeasureTheory.Integral.Bochner.Set
import Verif.Props.PureMixed
import Verif.Lemmas.Choice

/-! # Lemmas about finite shots -/

set_option autoImplicit false

namespace Verif
open NDArray

variable {n : ℕ} {values : Values}

/-- Labels as numbers. -/
noncomputable def numEquiv (n : ℕ) : Lab n ≃ Fin (2 ^ n) :=
  Equiv.ofBijective (fun b => ⟨binVal b.bits, b.isBits_bits.lt⟩) <| by
    rw [Fintype.bijective_iff_injective_and_card]
    refine ⟨fun x y h => ?_, by simp [Lab]⟩
    have h' : binVal x.bits = binVal y.bits := by simpa using h
    exact Lab.bits_injective (binVal_inj x.isBits_bits.2 y.isBits_bits.2 (by rw [x.isBits_bits.1, y.isBits_bits.1]) h')

theorem numEquiv_val (b : Lab n) : (numEquiv n b).val = binVal b.bits := rfl

/-- A matrix on labels as a matrix on numbers. -/
noncomputable def numMat (O : Matrix (Lab n) (Lab n) ℂ) : Matrix (Fin (2 ^ n)) (Fin (2 ^ n)) ℂ :=
  O.submatrix (numEquiv n).symm (numEquiv n).symm

theorem numMat_apply (O : Matrix (Lab n) (Lab n) ℂ) (x y : Lab n) : numMat O (numEquiv n x) (numEquiv n y) = O x y := by
  simp [numMat]

theorem numMat_ext {A : Matrix (Fin (2 ^ n)) (Fin (2 ^ n)) ℂ} {O : Matrix (Lab n) (Lab n) ℂ}
    (h : ∀ x y, A (numEquiv n x) (numEquiv n y) = O x y) : A = numMat O := by
  ext i j
  have := h ((numEquiv n).symm i) ((numEquiv n).symm j)
  simpa [numMat] using this

theorem numMat_mul (A B : Matrix (Lab n) (Lab n) ℂ) : numMat (A * B) = numMat A * numMat B := by
  rw [numMat, numMat, numMat, Matrix.submatrix_mul_equiv]

theorem numMat_trace (A : Matrix (Lab n) (Lab n) ℂ) : (numMat A).trace = A.trace := by
  rw [Matrix.trace, Matrix.trace, ← (numEquiv n).sum_comp]
  simp [numMat]

theorem numMat_conjTranspose (A : Matrix (Lab n) (Lab n) ℂ) : (numMat A).conjTranspose = numMat A.conjTranspose := rfl

theorem numMat_add (A B : Matrix (Lab n) (Lab n) ℂ) : numMat (A + B) = numMat A + numMat B := rfl

theorem numQubits_on {r : State} (h : r.On n) : numQubits r = n := by
  cases r with
  | vec a => simp [numQubits, numQubitsVec, IsKet.shape h]
  | dm ρ => simp [numQubits, numQubitsDM, IsDM.shape h]; omega

theorem observableMatrix_eq (so : SetOrder) {o : Observable} {O : Matrix (Lab n) (Lab n) ℂ}
    (ho : Op.ListedSum (SortLeaf n values) values o.ops O) :
    ∃ m, observableMatrix so values n o = .ok m ∧ toMat (2 ^ n) m = numMat O := by
  have hvalid := Op.ListedSum.leaves (L := SortLeaf n values) (fun _ _ => SortLeaf.valid) ho
  obtain ⟨S, h1, h2, h3⟩ := qubitSupport_tree so (.comp .obs o.ops) (by simpa only [Op.gates] using hvalid)
  simp only [Op.gates] at h3
  have hS : ValidDims n S := ⟨h2, fun q hq => by
    obtain ⟨g, hg, hq⟩ := (h3 q).1 hq
    exact (hvalid g hg).dims.lt q hq⟩
  obtain ⟨rs, k1, k2, k3, k4⟩ := tensorSum_listed so hS (fun g hg q hq => (h3 q).2 ⟨g, hg, hq⟩) ho
  obtain ⟨m, m1, m2, m3⟩ := reduce_addOps (n := n) k2 k3
  have ht : (Op.comp .obs o.ops).tensor so values none = .ok m := by
    simp only [Op.tensor, Op.fullSupport, h1, bind, Except.bind, k1, m1]
  obtain ⟨r, r1, r2, r3⟩ := expandOperator_register m2 hS rfl
  have hres : r.reshape [2 ^ n, 2 ^ n] = .ok r := by
    rw [reshape, if_pos (by rw [r2.shape])]
    rw [← r2.shape]
  refine ⟨r, ?_, numMat_ext fun x y => ?_⟩
  · simp only [observableMatrix, Observable.toOp, ht, h1, r1, hres, bind, Except.bind]
  · change entries r _ _ = _
    rw [numEquiv_val, numEquiv_val, r3, m3, k4]

theorem eigenProbabilities_eq {r : State} (h : r.On n) (V : Matrix (Fin (2 ^ n)) (Fin (2 ^ n)) ℂ) :
    eigenProbabilities (2 ^ n) V r = .ok (List.ofFn fun i => ((V.conjTranspose * numMat (r.mat n) * V) i i).re) := by
  cases r with
  | vec a =>
    have ha : IsKet n a := h
    rw [eigenProbabilities, if_pos (by simp [ha.shape])]
    refine congrArg _ (congrArg List.ofFn (funext fun i => ?_))
    have hket : (fun j : Fin (2 ^ n) => a.flatten.get [j.val]) = fun j => ket n a ((numEquiv n).symm j) := by
      funext j
      obtain ⟨b, rfl⟩ := (numEquiv n).surjective j
      rw [Equiv.symm_apply_apply, ket, numEquiv_val]
      simp only [NDArray.get, flatten, ravel, ha.shape, ravel_two b.isBits_bits]
      simp [ravel]
    rw [hket]
    obtain ⟨ψ, hψ⟩ : ∃ ψ, ψ = fun j => ket n a ((numEquiv n).symm j) := ⟨_, rfl⟩
    have hmat : numMat ((State.vec a).mat n) = Matrix.vecMulVec ψ (star ψ) := by
      ext i j
      simp [numMat, State.mat, Matrix.vecMulVec, hψ, ket]
    rw [← hψ, hmat, Matrix.mul_vecMulVec, Matrix.vecMulVec_mul, Matrix.vecMulVec_apply]
    have : Matrix.vecMul (star ψ) V i = star (V.conjTranspose.mulVec ψ i) := by
      have := congrFun (Matrix.star_mulVec V.conjTranspose ψ) i
      rw [Matrix.conjTranspose_conjTranspose] at this
      rw [← this]; rfl
    rw [this, Complex.star_def, Complex.mul_conj, Complex.normSq_eq_norm_sq, Complex.ofReal_re]
  | dm ρ =>
    have hρ : IsDM n ρ := h
    have hres : ρ.array.reshape [2 ^ n, 2 ^ n] = .ok ⟨[2 ^ n, 2 ^ n], ρ.array.data⟩ := by
      rw [reshape, if_pos]; simp [hρ.shape, pow_add]
    simp only [eigenProbabilities, hres, bind, Except.bind, pure, Except.pure]
    have : toMat (2 ^ n) ⟨[2 ^ n, 2 ^ n], ρ.array.data⟩ = numMat ((State.dm ρ).mat n) :=
      numMat_ext fun x y => entries_reshape hρ.shape x y
    rw [this]

/-- What `finite_shots` computes, in terms of the density operator of the output and the matrices of the observables. -/
theorem finiteShots_eq (so : SetOrder) (eigh : Eigh) {st r : State} {ops : List Op} (h1 : applyOps so st ops values = .ok r)
    (h2 : r.On n) {obs : List Observable} {O : Matrix (Lab n) (Lab n) ℂ} {Os : List (Matrix (Lab n) (Lab n) ℂ)}
    (ho : List.Forall₂ (fun o O => Op.ListedSum (SortLeaf n values) values o.ops O) obs (O :: Os)) {us : List ℝ} (hu : us ≠ []) :
    finiteShots so eigh st ops obs values us = .ok ((O :: Os).map fun O' =>
      ((us.map (choiceIndex (List.ofFn fun i =>
          (((eigh.vecs (numMat O)).conjTranspose * numMat (r.mat n) * eigh.vecs (numMat O)) i i).re))).map fun i =>
        if h : i < 2 ^ n then alignedEigenvalues (eigh.vals (numMat O')) (eigh.vecs (numMat O')) (eigh.vecs (numMat O)) ⟨i, h⟩
        else 0).sum / us.length) := by
  have hm : ∀ {obs : List Observable} {Os : List (Matrix (Lab n) (Lab n) ℂ)},
      List.Forall₂ (fun o O => Op.ListedSum (SortLeaf n values) values o.ops O) obs Os →
      ∃ ms, obs.mapM (observableMatrix so values n) = .ok ms ∧ ms.map (toMat (2 ^ n)) = Os.map numMat := by
    intro obs Os h
    induction h with
    | nil => exact ⟨[], rfl, rfl⟩
    | cons h _ ih =>
      obtain ⟨ms, e1, e2⟩ := ih
      obtain ⟨m, f1, f2⟩ := observableMatrix_eq so h
      exact ⟨m :: ms, by rw [List.mapM_cons, f1, e1]; rfl, by simp [e2, f2]⟩
  obtain ⟨ms, e1, e2⟩ := hm ho
  cases ms with
  | nil => simp at e2
  | cons m ms =>
    simp only [List.map_cons, List.cons.injEq] at e2
    obtain ⟨e2, e3⟩ := e2
    rw [finiteShots]
    change (applyOps so st ops values >>= fun out => eigenSample so eigh out obs values (numQubits out) us) = _
    rw [h1]
    change eigenSample so eigh r obs values (numQubits r) us = _
    rw [numQubits_on h2]
    simp only [bind, Except.bind, eigenSample, e1, eigenProbabilities_eq h2, if_neg hu, pure, Except.pure]
    refine congrArg _ ?_
    have : ∀ (F : Matrix (Fin (2 ^ n)) (Fin (2 ^ n)) ℂ → ℝ), ((m :: ms).map fun m' => F (toMat (2 ^ n) m'))
        = (O :: Os).map fun O' => F (numMat O') := by
      intro F
      have h : (m :: ms).map (toMat (2 ^ n)) = (O :: Os).map numMat := by simp [e2, e3]
      have := congrArg (List.map F) h
      simpa only [List.map_map, Function.comp_def] using this
    rw [e2]
    exact this fun A => ((us.map (choiceIndex (List.ofFn fun i =>
          (((eigh.vecs (numMat O)).conjTranspose * numMat (r.mat n) * eigh.vecs (numMat O)) i i).re))).map fun i =>
        if h : i < 2 ^ n then alignedEigenvalues (eigh.vals A) (eigh.vecs A) (eigh.vecs (numMat O)) ⟨i, h⟩ else 0).sum / us.length

/-! ### The contract of `eigh` -/

theorem Eigh.mul_conj (eigh : Eigh) {d : ℕ} (A : Matrix (Fin d) (Fin d) ℂ) : eigh.vecs A * (eigh.vecs A).conjTranspose = 1 :=
  mul_eq_one_comm.1 (eigh.unitary A)

theorem Eigh.eigen_hermitian (eigh : Eigh) {d : ℕ} {A : Matrix (Fin d) (Fin d) ℂ} (h : A.IsHermitian) :
    A * eigh.vecs A = eigh.vecs A * Matrix.diagonal fun i => (eigh.vals A i : ℂ) := by
  have := eigh.eigen A
  rw [h.eq, ← two_smul ℂ A, smul_smul] at this
  norm_num at this
  exact this

/-- Each column is an eigenvector. -/
theorem Eigh.eigenvector (eigh : Eigh) {d : ℕ} {A : Matrix (Fin d) (Fin d) ℂ} (h : A.IsHermitian) (i : Fin d) :
    ∃ v, v ≠ 0 ∧ A.mulVec v = (eigh.vals A i : ℂ) • v := by
  refine ⟨fun k => eigh.vecs A k i, fun h0 => ?_, ?_⟩
  · have h1 := congrFun (congrFun (eigh.unitary A) i) i
    rw [Matrix.mul_apply, Matrix.one_apply_eq] at h1
    have : ∀ k, eigh.vecs A k i = 0 := fun k => congrFun h0 k
    simp [this] at h1
  · funext k
    have h1 := congrFun (congrFun (eigh.eigen_hermitian h) k) i
    rw [Matrix.mul_apply, Matrix.mul_diagonal] at h1
    rw [Matrix.mulVec, dotProduct, h1, Pi.smul_apply, smul_eq_mul, mul_comm]

theorem Eigh.sum_probs (eigh : Eigh) {d : ℕ} (A R : Matrix (Fin d) (Fin d) ℂ) :
    ∑ i, (((eigh.vecs A).conjTranspose * R * eigh.vecs A) i i).re = R.trace.re := by
  rw [← Complex.re_sum]
  change Complex.re (Matrix.trace _) = _
  rw [Matrix.mul_assoc, Matrix.trace_mul_comm, Matrix.mul_assoc, eigh.mul_conj, Matrix.mul_one]

/-- If the reference eigenvectors are a permutation of the eigenvectors of `A`, weighting the eigenvalues of `A` in that
order by the probabilities gives the expectation of `A`. -/
theorem Eigh.sum_vals (eigh : Eigh) {d : ℕ} {A : Matrix (Fin d) (Fin d) ℂ} (h : A.IsHermitian) (V R : Matrix (Fin d) (Fin d) ℂ)
    (σ : Equiv.Perm (Fin d)) (hV : ∀ i j, V i j = eigh.vecs A i (σ j)) :
    ∑ i, ((V.conjTranspose * R * V) i i).re * eigh.vals A (σ i) = (A * R).trace.re := by
  have h1 : V = (eigh.vecs A).submatrix id σ := by ext i j; exact hV i j
  have h2 : ∀ i, (V.conjTranspose * R * V) i i = ((eigh.vecs A).conjTranspose * R * eigh.vecs A) (σ i) (σ i) := by
    intro i
    rw [h1, Matrix.conjTranspose_submatrix]
    simp only [Matrix.mul_apply, Matrix.submatrix_apply, id]
  simp only [h2]
  rw [Equiv.sum_comp σ fun j => (((eigh.vecs A).conjTranspose * R * eigh.vecs A) j j).re * eigh.vals A j]
  have h3 : ∀ j, (((eigh.vecs A).conjTranspose * R * eigh.vecs A) j j).re * eigh.vals A j
      = (((eigh.vecs A).conjTranspose * R * eigh.vecs A * Matrix.diagonal fun i => (eigh.vals A i : ℂ)) j j).re := by
    intro j; rw [Matrix.mul_diagonal, Complex.re_mul_ofReal]
  simp only [h3]
  rw [← Complex.re_sum]
  change Complex.re (Matrix.trace _) = _
  rw [Matrix.mul_assoc _ _ (Matrix.diagonal _), ← eigh.eigen_hermitian h, Matrix.mul_assoc, Matrix.trace_mul_comm,
    Matrix.mul_assoc, Matrix.mul_assoc, eigh.mul_conj, Matrix.mul_one, Matrix.trace_mul_comm]

theorem alignedEigenvalues_perm {d : ℕ} (w : Fin d → ℝ) {W V : Matrix (Fin d) (Fin d) ℂ} (hW : W.conjTranspose * W = 1)
    (σ : Equiv.Perm (Fin d)) (hV : ∀ i j, V i j = W i (σ j)) (j : Fin d) : alignedEigenvalues w W V j = w (σ j) := by
  have hinv : W⁻¹ = W.conjTranspose := Matrix.inv_eq_left_inv hW
  have hp : ∀ i, (W⁻¹ * V) i j = if i = σ j then 1 else 0 := by
    intro i
    have := congrFun (congrFun hW i) (σ j)
    rw [Matrix.mul_apply, Matrix.one_apply] at this
    rw [hinv, Matrix.mul_apply, ← this]
    exact Finset.sum_congr rfl fun k _ => by rw [hV]
  rw [alignedEigenvalues, Finset.sum_eq_single (σ j)]
  · rw [permutationMatrix, hp, if_pos rfl, if_pos (by norm_num), mul_one]
  · intro i _ hi
    rw [permutationMatrix, hp, if_neg hi, if_neg (by norm_num), mul_zero]
  · simp

/-! ### Integrals over the uniform number -/

/-- The value attached to the index drawn with `u`. -/
noncomputable def pick (p : List ℝ) {d : ℕ} (w : Fin d → ℝ) (u : ℝ) : ℝ :=
  if h : choiceIndex p u < d then w ⟨choiceIndex p u, h⟩ else 0

theorem choiceIndex_antitone {p : List ℝ} (hs : 0 ≤ p.sum) : Antitone (choiceIndex p) := fun u v h => by
  refine List.Sublist.length_le (List.monotone_filter_right _ fun c hc => ?_)
  simp only [decide_eq_true_eq] at hc ⊢
  nlinarith

theorem pick_measurable {p : List ℝ} (hs : 0 ≤ p.sum) {d : ℕ} (w : Fin d → ℝ) : Measurable (pick p w) := by
  have : pick p w = (fun i : ℕ => if h : i < d then w ⟨i, h⟩ else 0) ∘ choiceIndex p := rfl
  rw [this]
  exact (measurable_from_nat (f := fun i : ℕ => if h : i < d then w ⟨i, h⟩ else 0)).comp (choiceIndex_antitone hs).measurable

theorem pick_range (p : List ℝ) {d : ℕ} (w : Fin d → ℝ) : (Set.range (pick p w)).Finite := by
  refine ((Set.finite_range w).union (Set.finite_singleton 0)).subset ?_
  rintro _ ⟨u, rfl⟩
  rw [pick]
  split_ifs with h
  · exact .inl ⟨_, rfl⟩
  · exact .inr rfl

theorem pick_sum {p : List ℝ} (hp : ∀ x ∈ p, 0 ≤ x) (hs : 0 < p.sum) {d : ℕ} (hd : p.length = d) (w : Fin d → ℝ) {u : ℝ}
    (hu : u ∈ Set.Ico (0 : ℝ) 1) :
    pick p w u = ∑ i : Fin d, ({u : ℝ | u ∈ Set.Ico 0 1 ∧ choiceIndex p u = i}).indicator (fun _ => w i) u := by
  have hlt : choiceIndex p u < d := hd ▸ choiceIndex_lt (by rintro rfl; simp at hs) hs.le hu.1
  rw [pick, dif_pos hlt, Finset.sum_eq_single ⟨choiceIndex p u, hlt⟩]
  · rw [Set.indicator_of_mem]; exact ⟨hu, rfl⟩
  · intro i _ hi
    rw [Set.indicator_of_notMem]
    rintro ⟨-, h⟩
    exact hi (Fin.ext h.symm)
  · simp

open MeasureTheory in
theorem pick_integral {p : List ℝ} (hp : ∀ x ∈ p, 0 ≤ x) (hs : 0 < p.sum) {d : ℕ} (hd : p.length = d) (w : Fin d → ℝ) :
    IntegrableOn (pick p w) (Set.Ico 0 1) ∧
      ∫ u in Set.Ico (0 : ℝ) 1, pick p w u = (∑ i : Fin d, p.getD i 0 * w i) / p.sum := by
  have hB : ∀ i, MeasurableSet {u : ℝ | u ∈ Set.Ico (0 : ℝ) 1 ∧ choiceIndex p u = i} := fun i => choiceIndex_measurable hp hs i
  have hi : ∀ i : Fin d, Integrable (({u : ℝ | u ∈ Set.Ico (0 : ℝ) 1 ∧ choiceIndex p u = i}).indicator fun _ => w i)
      (volume.restrict (Set.Ico 0 1)) := fun i => (integrable_const _).indicator (hB i)
  have hcongr : Set.EqOn (pick p w) (fun u => ∑ i : Fin d, ({u : ℝ | u ∈ Set.Ico 0 1 ∧ choiceIndex p u = i}).indicator (fun _ => w i) u)
      (Set.Ico 0 1) := fun u hu => pick_sum hp hs hd w hu
  constructor
  · rw [integrableOn_congr_fun hcongr measurableSet_Ico]
    exact integrable_finset_sum _ fun i _ => hi i
  · rw [setIntegral_congr_fun measurableSet_Ico hcongr, integral_finset_sum _ fun i _ => hi i, Finset.sum_div]
    refine Finset.sum_congr rfl fun i _ => ?_
    rw [integral_indicator_const _ (hB i), Measure.real, Measure.restrict_apply (hB i),
      Set.inter_eq_left.2 fun u hu => hu.1, choiceIndex_volume hp hs (hd ▸ i.2), smul_eq_mul,
      ENNReal.toReal_ofReal]
    · ring
    · refine div_nonneg ?_ hs.le
      rw [List.getD_eq_getElem?_getD, List.getElem?_eq_getElem (hd ▸ i.2)]
      exact hp _ (List.getElem_mem _)

end Verif
