import Verif.Model.AlignCheck
import Verif.Props.ShotsExact

/-!
# C96: the check that the matching of eigenvectors is a permutation

`align_eigenvectors` computes this check and discards the result.  The theorems say what it would detect.
-/

set_option autoImplicit false

namespace Verif
open NDArray MeasureTheory
open scoped ComplexOrder

variable {n : ℕ} {values : Values} (so : SetOrder) (eigh : Eigh)

/-- The `i`-th eigenvector of `B` is matched to the `j`-th eigenvector of `A`: their inner product has real part above
`1/2`. -/
def Matched (A B : Matrix (Lab n) (Lab n) ℂ) (i j : Fin (2 ^ n)) : Prop :=
  1 / 2 < (star (eigVec eigh B i) ⬝ᵥ eigVec eigh A j).re

open Classical in
theorem permutationMatrix_matched (A B : Matrix (Lab n) (Lab n) ℂ) (i j : Fin (2 ^ n)) :
    permutationMatrix (eigh.vecs (numMat B)) (eigh.vecs (numMat A)) i j = if Matched eigh A B i j then 1 else 0 := by
  have hinv : (eigh.vecs (numMat B))⁻¹ = (eigh.vecs (numMat B)).conjTranspose := Matrix.inv_eq_left_inv (eigh.unitary _)
  have : ((eigh.vecs (numMat B))⁻¹ * eigh.vecs (numMat A)) i j = star (eigVec eigh B i) ⬝ᵥ eigVec eigh A j := by
    rw [hinv, Matrix.mul_apply, dotProduct, ← (numEquiv n).sum_comp]
    rfl
  rw [permutationMatrix, this, Matched]

open Classical in
theorem readValue_eq (A B : Matrix (Lab n) (Lab n) ℂ) (j : Fin (2 ^ n)) :
    readValue eigh A B j = ∑ i, if Matched eigh A B i j then eigh.vals (numMat B) i else 0 :=
  Finset.sum_congr rfl fun _ _ => ite_congr rfl (fun _ => rfl) fun _ => rfl

open Classical in
theorem sum_ite_one_iff {d : ℕ} (p : Fin d → Prop) :
    (1 = ∑ i, if p i then (1 : ℝ) else 0) ↔ ∃! i, p i := by
  rw [Finset.sum_boole, eq_comm, Nat.cast_eq_one, Finset.card_eq_one]
  constructor
  · rintro ⟨a, ha⟩
    have h : ∀ i, p i ↔ i = a := fun i => by
      have := Finset.ext_iff.1 ha i
      simpa using this
    exact ⟨a, (h a).2 rfl, fun i hi => (h i).1 hi⟩
  · rintro ⟨a, ha, hu⟩
    refine ⟨a, Finset.ext fun i => ?_⟩
    simp only [Finset.mem_filter, Finset.mem_univ, true_and, Finset.mem_singleton]
    exact ⟨hu i, fun h => h ▸ ha⟩

/-- The matrix of matches has row and column sums one exactly when the matching is a permutation. -/
theorem validate_iff (A B : Matrix (Lab n) (Lab n) ℂ) :
    validatePermutationMatrix (permutationMatrix (eigh.vecs (numMat B)) (eigh.vecs (numMat A)))
      ↔ ∃ σ : Equiv.Perm (Fin (2 ^ n)), ∀ i j, Matched eigh A B i j ↔ i = σ j := by
  classical
  simp only [validatePermutationMatrix, permutationMatrix_matched, sum_ite_one_iff]
  constructor
  · intro h
    choose f hf hu using fun j => (h j).1
    have hbij : Function.Bijective f := by
      refine Finite.injective_iff_bijective.1 fun j k hjk => ?_
      obtain ⟨c, hc, huc⟩ := (h (f j)).2
      rw [huc j (hf j), huc k (by rw [hjk]; exact hf k)]
    refine ⟨Equiv.ofBijective f hbij, fun i j => ⟨fun hm => hu j i hm, fun hi => ?_⟩⟩
    rw [hi]; exact hf j
  · rintro ⟨σ, hσ⟩ j
    refine ⟨⟨σ j, (hσ _ _).2 rfl, fun i hi => (hσ _ _).1 hi⟩, ⟨σ.symm j, (hσ _ _).2 (by simp), fun k hk => ?_⟩⟩
    rw [(hσ _ _).1 hk, Equiv.symm_apply_apply]

theorem observableMatrices_eq {obs : List Observable} {Os : List (Matrix (Lab n) (Lab n) ℂ)}
    (h : List.Forall₂ (fun o O => Op.ListedSum (SortLeaf n values) values o.ops O) obs Os) :
    ∃ ms, obs.mapM (observableMatrix so values n) = .ok ms ∧ ms.map (toMat (2 ^ n)) = Os.map numMat := by
  induction h with
  | nil => exact ⟨[], rfl, rfl⟩
  | cons h _ ih =>
    obtain ⟨ms, e1, e2⟩ := ih
    obtain ⟨m, f1, f2⟩ := observableMatrix_eq so h
    exact ⟨m :: ms, by rw [List.mapM_cons, f1, e1]; rfl, by simp [e2, f2]⟩

/-- **C96** (what is checked): for observables of standard gates the check is passed exactly when, for each of them, the
matching of its eigenvectors with those of the first observable is a permutation. -/
theorem C96_passes_iff {obs : List Observable} {O : Matrix (Lab n) (Lab n) ℂ} {Os : List (Matrix (Lab n) (Lab n) ℂ)}
    (ho : List.Forall₂ (fun o O => Op.ListedSum (StdLeaf n values) values o.ops O) obs (O :: Os)) :
    ∃ b, alignmentCheck so eigh obs values n = .ok b ∧ (b = true ↔
      ∀ O' ∈ O :: Os, ∃ σ : Equiv.Perm (Fin (2 ^ n)), ∀ i j, Matched eigh O O' i j ↔ i = σ j) := by
  classical
  obtain ⟨ms, e1, e2⟩ := observableMatrices_eq so
    (ho.imp fun _ _ h => Op.ListedSum.mono (fun _ _ h => StdLeaf.sort h) h)
  cases ms with
  | nil => simp at e2
  | cons m ms =>
    refine ⟨_, by rw [alignmentCheck, e1]; rfl, ?_⟩
    have hm : toMat (2 ^ n) m = numMat O := (List.cons.inj e2).1
    rw [hm, List.all_eq_true]
    simp only [decide_eq_true_eq, ← validate_iff]
    constructor
    · intro h O' hO'
      have : numMat O' ∈ (m :: ms).map (toMat (2 ^ n)) := by rw [e2]; exact List.mem_map_of_mem hO'
      obtain ⟨m', hm', e⟩ := List.mem_map.1 this
      have := h m' hm'
      rwa [e] at this
    · intro h m' hm'
      have : toMat (2 ^ n) m' ∈ (O :: Os).map numMat := by rw [← e2]; exact List.mem_map_of_mem hm'
      obtain ⟨O', hO', e⟩ := List.mem_map.1 this
      have := h O' hO'
      rwa [e] at this

theorem alignmentCheck_true {obs : List Observable} {O : Matrix (Lab n) (Lab n) ℂ} {Os : List (Matrix (Lab n) (Lab n) ℂ)}
    (ho : List.Forall₂ (fun o O => Op.ListedSum (StdLeaf n values) values o.ops O) obs (O :: Os)) :
    alignmentCheck so eigh obs values n = .ok true ↔
      ∀ O' ∈ O :: Os, ∃ σ : Equiv.Perm (Fin (2 ^ n)), ∀ i j, Matched eigh O O' i j ↔ i = σ j := by
  obtain ⟨b, h1, h2⟩ := C96_passes_iff so eigh ho
  rw [h1, ← h2]
  exact ⟨Except.ok.inj, fun h => by rw [h]⟩

/-- A permutation of matches gives the eigenvalues in that order. -/
theorem readValue_matched {A B : Matrix (Lab n) (Lab n) ℂ} {j k : Fin (2 ^ n)} (h : ∀ i, Matched eigh A B i j ↔ i = k) :
    readValue eigh A B j = eigh.vals (numMat B) k := by
  classical
  rw [readValue_eq, Finset.sum_eq_single k]
  · rw [if_pos ((h k).2 rfl)]
  · intro i _ hi
    rw [if_neg fun hm => hi ((h i).1 hm)]
  · simp

/-- The value drawn is the value read off at some outcome. -/
theorem pick_read {A B ρ : Matrix (Lab n) (Lab n) ℂ} (hρ : ρ.PosSemidef) (ht : ρ.trace = 1) {u : ℝ}
    (hu : u ∈ Set.Ico (0 : ℝ) 1) : ∃ j, pick (shotProbs (eigh.vecs (numMat A)) ρ)
      (alignedEigenvalues (eigh.vals (numMat B)) (eigh.vecs (numMat B)) (eigh.vecs (numMat A))) u = readValue eigh A B j := by
  obtain ⟨-, h2⟩ := shotProbs_facts eigh (A := A) hρ
  rw [ht, Complex.one_re] at h2
  have hlen : (shotProbs (eigh.vecs (numMat A)) ρ).length = 2 ^ n := by simp [shotProbs]
  have hlt : choiceIndex (shotProbs (eigh.vecs (numMat A)) ρ) u < 2 ^ n := by
    have := choiceIndex_lt (p := shotProbs (eigh.vecs (numMat A)) ρ) (by intro h; rw [h] at h2; simp at h2)
      (by rw [h2]; exact zero_le_one) hu.1
    rwa [hlen] at this
  exact ⟨⟨_, hlt⟩, by rw [pick, dif_pos hlt, alignedEigenvalues_read]⟩

/-- **C96** (what passing the check gives): if the check is passed, every value sampled for a Hermitian observable of the
list is one of its eigenvalues. -/
theorem C96_eigenvalues {circuit : Op} {nss : List (List StdNoise)} (hc : circuit.Circuit n values nss) {st : State} (hst : st.On n)
    {obs : List Observable} {O : Matrix (Lab n) (Lab n) ℂ} {Os : List (Matrix (Lab n) (Lab n) ℂ)}
    (ho : List.Forall₂ (fun o O => Op.ListedSum (StdLeaf n values) values o.ops O) obs (O :: Os))
    (hpass : alignmentCheck so eigh obs values n = .ok true) :
    ∃ r, run so circuit st values = .ok (some r) ∧ r.On n ∧ ((r.mat n).PosSemidef → (r.mat n).trace = 1 →
      ∃ f : Matrix (Lab n) (Lab n) ℂ → ℝ → ℝ,
        (∀ (draw : Draw) (k : ℤ) (mode : DiffMode), 1 ≤ k → mode = .ad ∨ mode = .gpsr →
          expectation so eigh draw st circuit obs values mode k
            = .ok ((O :: Os).map fun O' => (∑ j, f O' (draw k.toNat j)) / k.toNat)) ∧
        ∀ O' ∈ O :: Os, O'.IsHermitian → ∀ u ∈ Set.Ico (0 : ℝ) 1,
          ∃ v : Lab n → ℂ, v ≠ 0 ∧ O'.mulVec v = (f O' u : ℂ) • v) := by
  obtain ⟨r, h1, h2, h3⟩ := circuit_run so hc hst
  refine ⟨r, h1, h3.on, fun hp ht => ⟨fun O' => _,
    fun draw k mode hk hm => expectation_shots so eigh h2 h3.on ho draw hk hm, fun O' hO' hH u hu => ?_⟩⟩
  obtain ⟨σ, hσ⟩ := (alignmentCheck_true so eigh ho).1 hpass O' hO'
  obtain ⟨j, hj⟩ := pick_read eigh (A := O) (B := O') hp ht hu
  beta_reduce
  rw [hj, readValue_matched eigh fun i => hσ i j]
  refine ⟨eigVec eigh O' (σ j), fun h0 => ?_, eigVec_eigen eigh hH (σ j)⟩
  have := eigVec_norm eigh O' (σ j)
  rw [h0, zero_dotProduct] at this
  exact zero_ne_one this

/-! ### When the estimates are right -/

theorem eigVec_orth (A : Matrix (Lab n) (Lab n) ℂ) (i j : Fin (2 ^ n)) :
    star (eigVec eigh A i) ⬝ᵥ eigVec eigh A j = if i = j then 1 else 0 := by
  have h := congrFun (congrFun (eigh.unitary (numMat A)) i) j
  rw [Matrix.mul_apply, Matrix.one_apply, ← (numEquiv n).sum_comp] at h
  exact h

/-- The value read off is the eigenvalue of the reference vector on the operator read off. -/
theorem readOp_mulVec (A B : Matrix (Lab n) (Lab n) ℂ) (j : Fin (2 ^ n)) :
    (readOp eigh A B).mulVec (eigVec eigh A j) = (readValue eigh A B j : ℂ) • eigVec eigh A j := by
  rw [readOp, Matrix.sum_mulVec, Finset.sum_eq_single j]
  · rw [Matrix.smul_mulVec, Matrix.vecMulVec_mulVec, eigVec_orth, if_pos rfl]
    simp
  · intro i _ hi
    rw [Matrix.smul_mulVec, Matrix.vecMulVec_mulVec, eigVec_orth, if_neg hi]
    simp
  · simp

/-- Matrices that agree on the eigenvectors are equal. -/
theorem eq_of_eigVec (A : Matrix (Lab n) (Lab n) ℂ) {B C : Matrix (Lab n) (Lab n) ℂ}
    (h : ∀ j, B.mulVec (eigVec eigh A j) = C.mulVec (eigVec eigh A j)) : B = C := by
  have key : numMat B * eigh.vecs (numMat A) = numMat C * eigh.vecs (numMat A) := by
    ext i j
    obtain ⟨x, rfl⟩ := (numEquiv n).surjective i
    have := congrFun (h j) x
    rw [Matrix.mul_apply, Matrix.mul_apply, ← (numEquiv n).sum_comp, ← (numEquiv n).sum_comp]
    simp only [numMat_apply]
    exact this
  have := congrArg (· * (eigh.vecs (numMat A)).conjTranspose) key
  simp only [Matrix.mul_assoc, eigh.mul_conj, Matrix.mul_one] at this
  ext x y
  rw [← numMat_apply B, this, numMat_apply]

/-- An eigenvector of `O'` matched to an eigenvector of `O'` has the same eigenvalue. -/
theorem matched_value {A B : Matrix (Lab n) (Lab n) ℂ} (hB : B.IsHermitian) {i j : Fin (2 ^ n)} (h : Matched eigh A B i j)
    {l : ℂ} (hl : B.mulVec (eigVec eigh A j) = l • eigVec eigh A j) : (eigh.vals (numMat B) i : ℂ) = l := by
  have h1 : star (eigVec eigh B i) ⬝ᵥ B.mulVec (eigVec eigh A j)
      = (eigh.vals (numMat B) i : ℂ) * (star (eigVec eigh B i) ⬝ᵥ eigVec eigh A j) := by
    have : Matrix.vecMul (star (eigVec eigh B i)) B = star ((eigh.vals (numMat B) i : ℂ) • eigVec eigh B i) := by
      rw [← eigVec_eigen eigh hB, Matrix.star_mulVec, hB.eq]
    rw [Matrix.dotProduct_mulVec, this, star_smul, smul_dotProduct, Complex.star_def, Complex.conj_ofReal, smul_eq_mul]
  rw [hl, dotProduct_smul, smul_eq_mul] at h1
  refine (mul_right_cancel₀ (fun h0 => ?_) h1).symm
  rw [Matched, h0, Complex.zero_re] at h
  norm_num at h

/-- For an invertible observable the operator read off is the observable itself exactly when every eigenvector of the
first observable is one of the second too, and is matched to exactly one. -/
theorem readOp_eq_iff {A B : Matrix (Lab n) (Lab n) ℂ} (hB : B.IsHermitian) (hu : IsUnit B) :
    readOp eigh A B = B ↔ (∀ j, ∃ l : ℂ, B.mulVec (eigVec eigh A j) = l • eigVec eigh A j) ∧ ∀ j, ∃! i, Matched eigh A B i j := by
  classical
  constructor
  · intro h
    have hv : ∀ j, B.mulVec (eigVec eigh A j) = (readValue eigh A B j : ℂ) • eigVec eigh A j := fun j => by
      rw [← readOp_mulVec, h]
    refine ⟨fun j => ⟨_, hv j⟩, fun j => (sum_ite_one_iff _).1 ?_⟩
    have hne : readValue eigh A B j ≠ 0 := by
      intro h0
      have h1 := hv j
      rw [h0, Complex.ofReal_zero, zero_smul] at h1
      have h2 : eigVec eigh A j = 0 := by
        obtain ⟨C, hC⟩ := hu.exists_left_inv
        have := congrArg C.mulVec h1
        rwa [Matrix.mulVec_mulVec, hC, Matrix.one_mulVec, Matrix.mulVec_zero] at this
      have := eigVec_norm eigh A j
      rw [h2, zero_dotProduct] at this
      exact zero_ne_one this
    have hs : readValue eigh A B j = (∑ i, if Matched eigh A B i j then (1 : ℝ) else 0) * readValue eigh A B j := by
      conv_lhs => rw [readValue_eq]
      rw [Finset.sum_mul]
      refine Finset.sum_congr rfl fun i _ => ?_
      by_cases hm : Matched eigh A B i j
      · rw [if_pos hm, if_pos hm, one_mul]
        exact_mod_cast matched_value eigh hB hm (hv j)
      · rw [if_neg hm, if_neg hm, zero_mul]
    exact mul_right_cancel₀ hne (by rw [one_mul, ← hs])
  · rintro ⟨h1, h2⟩
    refine eq_of_eigVec eigh A fun j => ?_
    obtain ⟨l, hl⟩ := h1 j
    obtain ⟨i, hi, hi'⟩ := h2 j
    rw [readOp_mulVec, hl, readValue_matched eigh (k := i) fun k => ⟨hi' k, fun h => h ▸ hi⟩, matched_value eigh hB hi hl]

/-- **C96** (exactly which half of the check is right): for two observables, the second invertible, and the circuit
`[I(0)]`, the mean of the estimate of the second is its expectation value in every normalised state exactly when every
eigenvector of the first that `eigh` returned is an eigenvector of the second, and is matched to exactly one of the
eigenvectors of the second that `eigh` returned.  The check demands the latter, does not see the former, and demands also
that no eigenvector of the second is matched twice. -/
theorem C96_right_iff (hn : 0 < n) {o o' : Observable} {O O' : Matrix (Lab n) (Lab n) ℂ}
    (ho : Op.ListedSum (StdLeaf n values) values o.ops O) (ho' : Op.ListedSum (StdLeaf n values) values o'.ops O')
    (hO' : O'.IsHermitian) (hu : IsUnit O') :
    (∀ (a : NDArray ℂ) (f f' : ℝ → ℝ), IsKet n a → normSq n a = 1 →
      (∀ (draw : Draw) (k : ℤ) (mode : DiffMode), 1 ≤ k → mode = .ad ∨ mode = .gpsr →
        expectation so eigh draw (.vec a) circuitI [o, o'] values mode k
          = .ok [(∑ j, f (draw k.toNat j)) / k.toNat, (∑ j, f' (draw k.toNat j)) / k.toNat]) →
      ∫ u in Set.Ico (0 : ℝ) 1, f' u = expVal O' ((State.vec a).mat n))
      ↔ (∀ j, ∃ l : ℂ, O'.mulVec (eigVec eigh O j) = l • eigVec eigh O j) ∧ ∀ j, ∃! i, Matched eigh O O' i j :=
  (C54_right_iff so eigh hn ho ho' hO').trans (readOp_eq_iff eigh hO' hu)

/-- If the first observable has no repeated eigenvalue, its eigenvectors are eigenvectors of all that commute with it. -/
theorem eigVec_commute {A B : Matrix (Lab n) (Lab n) ℂ} (hA : A.IsHermitian) (hs : Function.Injective (eigh.vals (numMat A)))
    (hAB : A * B = B * A) (j : Fin (2 ^ n)) : ∃ l : ℂ, B.mulVec (eigVec eigh A j) = l • eigVec eigh A j := by
  have hn : (numMat A).IsHermitian := by rw [Matrix.IsHermitian, numMat_conjTranspose, hA.eq]
  -- `Vᴴ B V` is diagonal
  have hD : ∀ i, i ≠ j → star (eigVec eigh A i) ⬝ᵥ B.mulVec (eigVec eigh A j) = 0 := by
    intro i hij
    have h1 : Matrix.vecMul (star (eigVec eigh A i)) A = (eigh.vals (numMat A) i : ℂ) • star (eigVec eigh A i) := by
      have := congrArg star (eigVec_eigen eigh hA i)
      rwa [Matrix.star_mulVec, hA.eq, star_smul, Complex.star_def, Complex.conj_ofReal] at this
    have h2 : star (eigVec eigh A i) ⬝ᵥ (A * B).mulVec (eigVec eigh A j)
        = (eigh.vals (numMat A) i : ℂ) * (star (eigVec eigh A i) ⬝ᵥ B.mulVec (eigVec eigh A j)) := by
      rw [← Matrix.mulVec_mulVec, Matrix.dotProduct_mulVec _ A, h1, smul_dotProduct, smul_eq_mul]
    rw [hAB, ← Matrix.mulVec_mulVec, eigVec_eigen eigh hA, Matrix.mulVec_smul, dotProduct_smul, smul_eq_mul] at h2
    have h3 : ((eigh.vals (numMat A) j : ℂ) - eigh.vals (numMat A) i)
        * (star (eigVec eigh A i) ⬝ᵥ B.mulVec (eigVec eigh A j)) = 0 := by rw [sub_mul, h2, sub_self]
    refine (mul_eq_zero.1 h3).resolve_left fun h => hij (hs ?_)
    exact_mod_cast (sub_eq_zero.1 h).symm
  refine ⟨star (eigVec eigh A j) ⬝ᵥ B.mulVec (eigVec eigh A j), ?_⟩
  -- expand in the eigenvectors
  have hexp : ∀ v : Lab n → ℂ, v = ∑ i, (star (eigVec eigh A i) ⬝ᵥ v) • eigVec eigh A i := by
    intro v
    funext x
    have h := congrFun (congrFun (eigh.mul_conj (numMat A)) (numEquiv n x))
    rw [Finset.sum_apply]
    simp only [Pi.smul_apply, smul_eq_mul, dotProduct, Finset.sum_mul]
    rw [Finset.sum_comm]
    have hy : ∀ y : Lab n, ∑ i, star (eigVec eigh A i) y * v y * eigVec eigh A i x = if x = y then v y else 0 := by
      intro y
      have := h (numEquiv n y)
      rw [Matrix.mul_apply, Matrix.one_apply] at this
      simp only [(numEquiv n).injective.eq_iff] at this
      have h2 : ∑ i, star (eigVec eigh A i) y * v y * eigVec eigh A i x
          = v y * ∑ i, eigh.vecs (numMat A) (numEquiv n x) i * (eigh.vecs (numMat A)).conjTranspose i (numEquiv n y) := by
        rw [Finset.mul_sum]
        refine Finset.sum_congr rfl fun i _ => ?_
        simp only [eigVec, Pi.star_apply, Matrix.conjTranspose_apply]
        ring
      rw [h2, this]; split <;> simp
    simp only [hy]
    simp
  conv_lhs => rw [hexp (B.mulVec (eigVec eigh A j))]
  rw [Finset.sum_eq_single j]
  · intro i _ hi
    rw [hD i hi, zero_smul]
  · simp

/-- **C96, restricted to observables that commute with a first observable without repeated eigenvalues**: if the check is
passed, the mean of the estimate of each observable is its expectation value.  Without the restriction the check says
nothing about the estimates: `C96_passes_wrong`, `C96_refuses_right`. -/
theorem C96_sound_partial {circuit : Op} {nss : List (List StdNoise)} (hc : circuit.Circuit n values nss) {st : State} (hst : st.On n)
    {obs : List Observable} {O : Matrix (Lab n) (Lab n) ℂ} {Os : List (Matrix (Lab n) (Lab n) ℂ)}
    (ho : List.Forall₂ (fun o O => Op.ListedSum (StdLeaf n values) values o.ops O) obs (O :: Os))
    (hO : O.IsHermitian) (hs : Function.Injective (eigh.vals (numMat O)))
    (hpass : alignmentCheck so eigh obs values n = .ok true) :
    ∃ r, run so circuit st values = .ok (some r) ∧ r.On n ∧ ((r.mat n).PosSemidef → (r.mat n).trace = 1 →
      ∃ f : Matrix (Lab n) (Lab n) ℂ → ℝ → ℝ,
        (∀ (draw : Draw) (k : ℤ) (mode : DiffMode), 1 ≤ k → mode = .ad ∨ mode = .gpsr →
          expectation so eigh draw st circuit obs values mode k
            = .ok ((O :: Os).map fun O' => (∑ j, f O' (draw k.toNat j)) / k.toNat)) ∧
        ∀ O' ∈ O :: Os, O'.IsHermitian → O * O' = O' * O →
          ∫ u in Set.Ico (0 : ℝ) 1, f O' u = expVal O' (r.mat n)) := by
  obtain ⟨r, h1, h2, h3⟩ := circuit_run so hc hst
  refine ⟨r, h1, h3.on, fun hp ht => ⟨fun O' => _,
    fun draw k mode hk hm => expectation_shots so eigh h2 h3.on ho draw hk hm, fun O' hO' hH hcomm => ?_⟩⟩
  obtain ⟨σ, hσ⟩ := (alignmentCheck_true so eigh ho).1 hpass O' hO'
  have : readOp eigh O O' = O' := by
    refine eq_of_eigVec eigh O fun j => ?_
    obtain ⟨l, hl⟩ := eigVec_commute eigh hO hs hcomm j
    rw [readOp_mulVec, hl, readValue_matched eigh fun i => hσ i j, matched_value eigh hH ((hσ _ _).2 rfl) hl]
  rw [(pick_mean_read eigh hp ht).2, this]

/-! ### Decompositions of one-qubit observables -/

theorem lab1_surj (x : Lab 1) : ∃ i, x = lab1 i := ⟨x 0, funext fun q => by rw [Subsingleton.elim q 0]; rfl⟩

theorem numEquiv_lab1 (i : Fin 2) : (numEquiv 1 (lab1 i)).val = i.val := by
  rw [numEquiv_val, lab1_bits]; simp [binVal]

/-- An `eigh` can return any orthonormal eigenvectors `M` (its columns) of a one-qubit observable `A`, the eigenvalues in
increasing order. -/
theorem Eigh.override (e : Eigh) {A M : Matrix (Lab 1) (Lab 1) ℂ} (hA : A.IsHermitian) {l : Fin 2 → ℝ} (hl : l 0 ≤ l 1)
    (hM : M.conjTranspose * M = 1) (hAM : ∀ i j, (A * M) (lab1 i) (lab1 j) = M (lab1 i) (lab1 j) * l j) :
    ∃ e' : Eigh, (∀ i x, eigVec e' A (numEquiv 1 (lab1 i)) x = M x (lab1 i)) ∧
      (∀ i, e'.vals (numMat A) (numEquiv 1 (lab1 i)) = l i) ∧
      ∀ B, B ≠ A → e'.vecs (numMat B) = e.vecs (numMat B) ∧ e'.vals (numMat B) = e.vals (numMat B) := by
  classical
  let w : Fin (2 ^ 1) → ℝ := fun i => l ((numEquiv 1).symm i 0)
  have hsym : ∀ i : Fin (2 ^ 1), ((numEquiv 1).symm i 0).val = i.val := by
    intro i
    obtain ⟨x, rfl⟩ := (numEquiv 1).surjective i
    obtain ⟨k, rfl⟩ := lab1_surj x
    rw [Equiv.symm_apply_apply, numEquiv_lab1]; rfl
  have hw : Monotone w := by
    intro i j hij
    have h : (numEquiv 1).symm i 0 ≤ (numEquiv 1).symm j 0 := by rw [Fin.le_def, hsym, hsym]; exact hij
    have : ∀ a b : Fin 2, a ≤ b → l a ≤ l b := by
      intro a b hab
      fin_cases a <;> fin_cases b <;> simp at hab ⊢
      exact hl
    exact this _ _ h
  have hV : (numMat M).conjTranspose * numMat M = 1 := by
    rw [numMat_conjTranspose, ← numMat_mul, hM, numMat, Matrix.submatrix_one_equiv]
  have hE : ((1 / 2 : ℂ) • (numMat A + (numMat A).conjTranspose)) * numMat M
      = numMat M * Matrix.diagonal fun i => (w i : ℂ) := by
    rw [numMat_conjTranspose, hA.eq, ← two_smul ℂ (numMat A), smul_smul]
    norm_num
    rw [← numMat_mul]
    ext i j
    obtain ⟨x, rfl⟩ := (numEquiv 1).surjective i
    obtain ⟨y, rfl⟩ := (numEquiv 1).surjective j
    obtain ⟨a, rfl⟩ := lab1_surj x
    obtain ⟨b, rfl⟩ := lab1_surj y
    rw [Matrix.mul_diagonal, numMat_apply, numMat_apply, hAM]
    simp [w, lab1]
  have key : ∀ (d : ℕ) (B : Matrix (Fin d) (Fin d) ℂ), ∃ (v : Fin d → ℝ) (W : Matrix (Fin d) (Fin d) ℂ), Monotone v ∧
      W.conjTranspose * W = 1 ∧ ((1 / 2 : ℂ) • (B + B.conjTranspose)) * W = W * (Matrix.diagonal fun i => (v i : ℂ)) ∧
      (d = 2 ^ 1 → HEq B (numMat A) → HEq v w ∧ HEq W (numMat M)) ∧
      (¬ (d = 2 ^ 1 ∧ HEq B (numMat A)) → v = e.vals B ∧ W = e.vecs B) := by
    intro d B
    by_cases h : d = 2 ^ 1 ∧ HEq B (numMat A)
    · obtain ⟨h1, h2⟩ := h
      subst h1
      obtain rfl := eq_of_heq h2
      exact ⟨w, numMat M, hw, hV, hE, fun _ _ => ⟨HEq.rfl, HEq.rfl⟩, fun h => absurd ⟨rfl, HEq.rfl⟩ h⟩
    · exact ⟨e.vals B, e.vecs B, e.sorted B, e.unitary B, e.eigen B, fun h1 h2 => absurd ⟨h1, h2⟩ h, fun _ => ⟨rfl, rfl⟩⟩
  choose v W h1 h2 h3 h4 h5 using key
  refine ⟨⟨fun {d} B => v d B, fun {d} B => W d B, fun {d} B => h1 d B, fun {d} B => h2 d B, fun {d} B => h3 d B⟩, ?_, ?_, ?_⟩
  · intro i x
    have := eq_of_heq (h4 _ (numMat A) rfl HEq.rfl).2
    simp only [eigVec]
    rw [this, numMat_apply]
  · intro i
    have := eq_of_heq (h4 _ (numMat A) rfl HEq.rfl).1
    simp only [this]
    simp [w, lab1]
  · intro B hB
    have : ¬ ((2 : ℕ) ^ 1 = 2 ^ 1 ∧ HEq (numMat B) (numMat A)) := by
      rintro ⟨-, h⟩
      refine hB (mat1_ext fun i j => ?_)
      rw [← numMat_apply B, eq_of_heq h, numMat_apply]
    exact ⟨(h5 _ _ this).2, (h5 _ _ this).1⟩

/-- The `eigh` that returns the columns of `M` for `Z(0)`, in the order `|1⟩, |0⟩` of increasing eigenvalue, and the columns
of `M` for another observable. -/
theorem eigh_pair {A M : Matrix (Lab 1) (Lab 1) ℂ} (hA : A.IsHermitian) {l : Fin 2 → ℝ} (hl : l 0 ≤ l 1)
    (hM : M.conjTranspose * M = 1) (hAM : ∀ i j, (A * M) (lab1 i) (lab1 j) = M (lab1 i) (lab1 j) * l j)
    (hne : gateMat 1 StdGate.Z.mat [0] [] ≠ A) :
    ∃ e : Eigh, Function.Injective (e.vals (numMat (gateMat 1 StdGate.Z.mat [0] []))) ∧
      ∀ i j, star (eigVec e A (numEquiv 1 (lab1 i))) ⬝ᵥ eigVec e (gateMat 1 StdGate.Z.mat [0] []) (numEquiv 1 (lab1 j))
        = star (M (lab1 (1 - j)) (lab1 i)) := by
  obtain ⟨e0⟩ := eigh_exists
  have hZM : (gateMat 1 StdGate.X.mat [0] [] : Matrix (Lab 1) (Lab 1) ℂ).conjTranspose * gateMat 1 StdGate.X.mat [0] [] = 1 := by
    refine mat1_ext fun i j => ?_
    rw [Matrix.mul_apply, sum_lab1]
    simp only [Matrix.conjTranspose_apply, gateMat_lab1, Matrix.one_apply, lab1_inj]
    fin_cases i <;> fin_cases j <;> simp [StdGate.mat, matE]
  obtain ⟨e1, a1, b1, -⟩ := e0.override (A := gateMat 1 StdGate.Z.mat [0] []) (M := gateMat 1 StdGate.X.mat [0] [])
    gateZ_hermitian (l := ![-1, 1]) (by simp) hZM (by
      intro i j
      rw [Matrix.mul_apply, sum_lab1]
      simp only [gateMat_lab1]
      fin_cases i <;> fin_cases j <;> simp [StdGate.mat, matE])
  obtain ⟨e2, a2, -, c2⟩ := e1.override hA hl hM hAM
  obtain ⟨c3, c4⟩ := c2 _ hne
  refine ⟨e2, ?_, fun i j => ?_⟩
  · rw [c4]
    intro i j hij
    obtain ⟨x, rfl⟩ := (numEquiv 1).surjective i
    obtain ⟨y, rfl⟩ := (numEquiv 1).surjective j
    obtain ⟨a, rfl⟩ := lab1_surj x
    obtain ⟨b, rfl⟩ := lab1_surj y
    rw [b1, b1] at hij
    fin_cases a <;> fin_cases b <;> simp at hij ⊢ <;> norm_num at hij
  · have hz : ∀ x, eigVec e2 (gateMat 1 StdGate.Z.mat [0] []) (numEquiv 1 (lab1 j)) x
        = gateMat 1 StdGate.X.mat [0] [] x (lab1 j) := fun x => by rw [← a1, eigVec, eigVec, c3]
    rw [dotProduct, sum_lab1]
    simp only [Pi.star_apply, a2, hz, gateMat_lab1]
    fin_cases j <;> simp [StdGate.mat, matE]

/-- The observable `H(0)`. -/
def obsH : Observable := Observable.new (.list [.prim (Gate.H (.int 0))])

theorem obsH_listed : Op.ListedSum (StdLeaf 1 values) values obsH.ops (gateMat 1 StdGate.H.mat [0] []) :=
  .one (.gate ⟨.H, ⟨.H _ _ _, rfl, ⟨.inr (.inl rfl), by decide⟩⟩, rfl, rfl⟩)

theorem obsI_listed : Op.ListedSum (StdLeaf 1 values) values obsI.ops 1 := .one (.gate leafI)

/-- For two observables of one qubit. -/
theorem alignmentCheck_two {o o' : Observable} {O O' : Matrix (Lab 1) (Lab 1) ℂ}
    (ho : Op.ListedSum (StdLeaf 1 values) values o.ops O) (ho' : Op.ListedSum (StdLeaf 1 values) values o'.ops O')
    (h : ∀ i j : Fin 2, Matched eigh O O' (numEquiv 1 (lab1 i)) (numEquiv 1 (lab1 j)) ↔ i = j) :
    alignmentCheck so eigh [o, o'] values 1 = .ok true := by
  rw [alignmentCheck_true so eigh (.cons ho (.cons ho' .nil))]
  simp only [List.mem_cons, List.not_mem_nil, or_false, forall_eq_or_imp, forall_eq]
  refine ⟨⟨Equiv.refl _, fun i j => ?_⟩, Equiv.refl _, fun i j => ?_⟩
  · rw [Matched, eigVec_orth, Equiv.refl_apply]
    by_cases hij : i = j
    · rw [if_pos hij]; norm_num [hij]
    · rw [if_neg hij]; norm_num [hij]
  · obtain ⟨x, rfl⟩ := (numEquiv 1).surjective i
    obtain ⟨y, rfl⟩ := (numEquiv 1).surjective j
    obtain ⟨a, rfl⟩ := lab1_surj x
    obtain ⟨b, rfl⟩ := lab1_surj y
    rw [h, Equiv.refl_apply, (numEquiv 1).injective.eq_iff, lab1_inj]

/-- **The check does not detect wrong estimates**: `Z(0)` and `H(0)` do not commute, but their eigenvectors are close
enough to pass the check, for a decomposition that `eigh` may return; there is a normalised state in which the mean of the
estimate of `H(0)` is not its expectation value. -/
theorem C96_passes_wrong : ∃ eigh : Eigh, alignmentCheck so eigh [obsZ, obsH] [] 1 = .ok true ∧
    ∃ a, IsKet 1 a ∧ normSq 1 a = 1 ∧ ∃ f f' : ℝ → ℝ,
      (∀ (draw : Draw) (k : ℤ) (mode : DiffMode), 1 ≤ k → mode = .ad ∨ mode = .gpsr →
        expectation so eigh draw (.vec a) circuitI [obsZ, obsH] [] mode k
          = .ok [(∑ j, f (draw k.toNat j)) / k.toNat, (∑ j, f' (draw k.toNat j)) / k.toNat]) ∧
      ∫ u in Set.Ico (0 : ℝ) 1, f' u ≠ expVal (gateMat 1 StdGate.H.mat [0] []) ((State.vec a).mat 1) := by
  obtain ⟨q, hq⟩ : ∃ q : ℝ, q = √2 := ⟨_, rfl⟩
  have hq2 : q ^ 2 = 2 := by rw [hq]; exact Real.sq_sqrt (by norm_num)
  have hq0 : 0 < q := by rw [hq]; positivity
  have hq1 : 4 / 3 < q := by nlinarith
  have hq3 : q < 3 / 2 := by nlinarith
  obtain ⟨c, hc⟩ : ∃ c : ℝ, c = 1 / √(4 - 2 * q) := ⟨_, rfl⟩
  have hpos : 0 < 4 - 2 * q := by linarith
  have hc0 : 0 < c := by rw [hc]; positivity
  have hc2 : c ^ 2 * (4 - 2 * q) = 1 := by
    rw [hc, div_pow, Real.sq_sqrt hpos.le]; field_simp
  obtain ⟨s, hs⟩ : ∃ s : ℝ, s = (q - 1) * c := ⟨_, rfl⟩
  have hs0 : 0 < s := by rw [hs]; exact mul_pos (by linarith) hc0
  have hcs : c ^ 2 + s ^ 2 = 1 := by rw [hs]; linear_combination hc2 + c ^ 2 * hq2
  have hc3 : 3 / 4 < c ^ 2 := by nlinarith
  have hcb : 1 / 2 < c := by nlinarith
  have hsb : s < 1 / 2 := by nlinarith
  have hinv : 1 / q = q / 2 := by field_simp; linarith
  have hHent : ∀ i j : Fin 2, gateMat 1 StdGate.H.mat [0] [] (lab1 i) (lab1 j)
      = (((if i = 1 ∧ j = 1 then -(q / 2) else q / 2 : ℝ)) : ℂ) := by
    intro i j
    have : ((1 : ℂ) / ((√2 : ℝ) : ℂ)) = ((q / 2 : ℝ) : ℂ) := by rw [← hq, ← hinv]; push_cast; rfl
    rw [gateMat_lab1]
    fin_cases i <;> fin_cases j <;> simp [StdGate.mat, matE] <;> simpa using this
  have hH : (gateMat 1 StdGate.H.mat [0] [] : Matrix (Lab 1) (Lab 1) ℂ).IsHermitian := by
    refine mat1_ext fun i j => ?_
    rw [Matrix.conjTranspose_apply, hHent, hHent, Complex.star_def, Complex.conj_ofReal]
    fin_cases i <;> fin_cases j <;> rfl
  have hne : (gateMat 1 StdGate.Z.mat [0] [] : Matrix (Lab 1) (Lab 1) ℂ) ≠ gateMat 1 StdGate.H.mat [0] [] := by
    intro h
    have := congrFun (congrFun h (lab1 0)) (lab1 1)
    rw [hHent, gateMat_lab1] at this
    simp [StdGate.mat, matE] at this
    have h2 : ((q / 2 : ℝ) : ℂ) = ((0 : ℝ) : ℂ) := by push_cast; exact this.symm
    have h3 := Complex.ofReal_injective h2
    linarith
  let M : Matrix (Lab 1) (Lab 1) ℂ := fun x y => ((if x 0 = 0 ∧ y 0 = 0 then -s else if x 0 = 1 ∧ y 0 = 1 then s else c : ℝ) : ℂ)
  have hMe : ∀ i j, M (lab1 i) (lab1 j) = ((if i = 0 ∧ j = 0 then -s else if i = 1 ∧ j = 1 then s else c : ℝ) : ℂ) := fun _ _ => rfl
  obtain ⟨e, -, he⟩ := eigh_pair (M := M) hH (l := ![-1, 1]) (by simp)
    (by
      refine mat1_ext fun i j => ?_
      rw [Matrix.mul_apply, sum_lab1]
      simp only [Matrix.conjTranspose_apply, Matrix.one_apply, lab1_inj, hMe, Complex.star_def, Complex.conj_ofReal]
      fin_cases i <;> fin_cases j <;> norm_cast <;> simp <;> nlinarith)
    (by
      intro i j
      rw [Matrix.mul_apply, sum_lab1]
      simp only [hMe, hHent]
      fin_cases i <;> fin_cases j <;> norm_cast <;> simp <;> rw [hs] <;> nlinarith) hne
  refine ⟨e, alignmentCheck_two so e (obsZ_simple so).listed obsH_listed fun i j => ?_,
    C54_noncommuting_biased so e one_pos (obsZ_simple so).listed obsH_listed gateZ_hermitian hH fun h => ?_⟩
  · rw [Matched, he, hMe, Complex.star_def, Complex.conj_ofReal, Complex.ofReal_re]
    fin_cases i <;> fin_cases j <;> simp <;> linarith
  · have := congrFun (congrFun h (lab1 0)) (lab1 1)
    simp only [Matrix.mul_apply, sum_lab1, hHent, gateMat_lab1] at this
    simp [StdGate.mat, matE] at this
    have h2 : ((q / 2 : ℝ) : ℂ) = ((-(q / 2) : ℝ) : ℂ) := by push_cast; simpa using this
    have h3 := Complex.ofReal_injective h2
    linarith

theorem gateZ_ne_one : (gateMat 1 StdGate.Z.mat [0] [] : Matrix (Lab 1) (Lab 1) ℂ) ≠ 1 := by
  intro h
  have := congrFun (congrFun h (lab1 1)) (lab1 1)
  rw [gateMat_lab1, Matrix.one_apply_eq] at this
  simp [StdGate.mat, matE] at this
  norm_num [Complex.ext_iff] at this

/-- **The check refuses estimates that are right**: for `Z(0)` and `I(0)` and a decomposition that `eigh` may return, with
the eigenvectors `(|0⟩ + |1⟩)/√2` and `i (|0⟩ - |1⟩)/√2` of the identity, the check is not passed, but the mean of the
estimate of `I(0)` is its expectation value in every normalised state. -/
theorem C96_refuses_right : ∃ eigh : Eigh, alignmentCheck so eigh [obsZ, obsI] [] 1 = .ok false ∧
    ∀ (a : NDArray ℂ) (f f' : ℝ → ℝ), IsKet 1 a → normSq 1 a = 1 →
      (∀ (draw : Draw) (k : ℤ) (mode : DiffMode), 1 ≤ k → mode = .ad ∨ mode = .gpsr →
        expectation so eigh draw (.vec a) circuitI [obsZ, obsI] [] mode k
          = .ok [(∑ j, f (draw k.toNat j)) / k.toNat, (∑ j, f' (draw k.toNat j)) / k.toNat]) →
      ∫ u in Set.Ico (0 : ℝ) 1, f' u = expVal 1 ((State.vec a).mat 1) := by
  obtain ⟨q, hq⟩ : ∃ q : ℝ, q = √2 := ⟨_, rfl⟩
  have hq2 : q ^ 2 = 2 := by rw [hq]; exact Real.sq_sqrt (by norm_num)
  have hq0 : 0 < q := by rw [hq]; positivity
  have hq1 : 1 < q := by nlinarith
  have hqc : ((q : ℂ) / 2) * (q / 2) = 1 / 2 := by
    have : (q : ℂ) ^ 2 = 2 := by exact_mod_cast hq2
    linear_combination this / 4
  let M : Matrix (Lab 1) (Lab 1) ℂ := fun x y =>
    if y 0 = 0 then (q : ℂ) / 2 else if x 0 = 0 then Complex.I * (q / 2) else -(Complex.I * (q / 2))
  have hMe : ∀ i j, M (lab1 i) (lab1 j)
      = if j = 0 then (q : ℂ) / 2 else if i = 0 then Complex.I * (q / 2) else -(Complex.I * (q / 2)) := fun _ _ => rfl
  obtain ⟨e, -, he⟩ := eigh_pair (A := 1) (M := M) Matrix.isHermitian_one (l := ![1, 1]) (by simp)
    (by
      refine mat1_ext fun i j => ?_
      rw [Matrix.mul_apply, sum_lab1]
      simp only [Matrix.conjTranspose_apply, Matrix.one_apply, lab1_inj, hMe]
      have hI := Complex.I_mul_I
      fin_cases i <;> fin_cases j <;> simp <;>
        first | linear_combination 2 * hqc | linear_combination 2 * hqc - (q : ℂ) ^ 2 / 2 * hI)
    (by
      intro i j
      rw [Matrix.one_mul]
      fin_cases j <;> simp) gateZ_ne_one
  have hm : ∀ i j : Fin 2, Matched e (gateMat 1 StdGate.Z.mat [0] []) 1 (numEquiv 1 (lab1 i)) (numEquiv 1 (lab1 j)) ↔ i = 0 := by
    intro i j
    rw [Matched, he, hMe]
    fin_cases i
    · simp
      linarith
    · fin_cases j <;> simp
  refine ⟨e, ?_, ?_⟩
  · obtain ⟨b, h1, h2⟩ := C96_passes_iff so e (values := []) (.cons (obsZ_simple so).listed (.cons obsI_listed .nil))
    rw [h1]
    cases b with
    | false => rfl
    | true =>
      obtain ⟨σ, hσ⟩ := h2.1 rfl 1 (by simp)
      have h3 := (hσ _ _).1 ((hm 0 0).2 rfl)
      have h4 := (hσ _ _).1 ((hm 0 1).2 rfl)
      have := σ.injective (h3.symm.trans h4)
      rw [(numEquiv 1).injective.eq_iff, lab1_inj] at this
      exact absurd this (by decide)
  · refine (C96_right_iff so e one_pos (obsZ_simple so).listed obsI_listed Matrix.isHermitian_one isUnit_one).2
      ⟨fun j => ⟨1, by rw [Matrix.one_mulVec, one_smul]⟩, fun j => ?_⟩
    obtain ⟨y, rfl⟩ := (numEquiv 1).surjective j
    obtain ⟨b, rfl⟩ := lab1_surj y
    refine ⟨numEquiv 1 (lab1 0), (hm 0 b).2 rfl, fun i hi => ?_⟩
    obtain ⟨x, rfl⟩ := (numEquiv 1).surjective i
    obtain ⟨a, rfl⟩ := lab1_surj x
    rw [(hm a b).1 hi]

/-- Non-vacuity of `C96_eigenvalues` and `C96_sound_partial`: `Z(0)` and `I(0)`, with the same eigenvectors. -/
example : ∃ eigh : Eigh, Function.Injective (eigh.vals (numMat (gateMat 1 StdGate.Z.mat [0] []))) ∧
    alignmentCheck so eigh [obsZ, obsI] [] 1 = .ok true ∧
    List.Forall₂ (fun o O => Op.ListedSum (StdLeaf 1 []) [] o.ops O) [obsZ, obsI] [gateMat 1 StdGate.Z.mat [0] [], 1] ∧
    circuitI.Circuit 1 [] [[]] ∧ (State.vec psi1).On 1 ∧
    gateMat 1 StdGate.Z.mat [0] [] * (1 : Matrix (Lab 1) (Lab 1) ℂ) = 1 * gateMat 1 StdGate.Z.mat [0] [] := by
  obtain ⟨e, h1, he⟩ := eigh_pair (A := 1) (M := gateMat 1 StdGate.X.mat [0] []) Matrix.isHermitian_one (l := ![1, 1])
    (by simp)
    (by
      refine mat1_ext fun i j => ?_
      rw [Matrix.mul_apply, sum_lab1]
      simp only [Matrix.conjTranspose_apply, gateMat_lab1, Matrix.one_apply, lab1_inj]
      fin_cases i <;> fin_cases j <;> simp [StdGate.mat, matE])
    (by
      intro i j
      rw [Matrix.one_mul]
      fin_cases j <;> simp) gateZ_ne_one
  refine ⟨e, h1, alignmentCheck_two so e (obsZ_simple so).listed obsI_listed fun i j => ?_,
    .cons (obsZ_simple so).listed (.cons obsI_listed .nil), circuitI_circuit one_pos, psi1_isKet, by simp⟩
  rw [Matched, he, gateMat_lab1]
  fin_cases i <;> fin_cases j <;> simp [StdGate.mat, matE] <;> norm_num

end Verif
