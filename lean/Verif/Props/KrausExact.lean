import Verif.Lemmas.KrausExact
import Verif.Props.Noise
import Verif.Props.NoiseLaws

/-!
# C53: what `apply_kraus_operator` computes

For targets other than the first qubits in order the function returns `G ρ G'†` with two *different* matrices: the
column side always acts on the first qubits, and the row side acts on qubits that depend on the targets in a peculiar
way.
-/

set_option autoImplicit false

namespace Verif
open NDArray
variable {n : ℕ}

/-- The qubit on which the `j`-th factor of the row side acts: the position of `j` among the targets if `j` is a target,
and otherwise the number of targets plus the number of non-targets below `j`. -/
def krausRow (ts : List ℕ) (j : ℕ) : ℕ :=
  if j ∈ ts then ts.idxOf j else ts.length + ((List.range j).filter fun p => p ∉ ts).length

/-- **C53** (exactly what is returned): for every list of distinct targets of the register, `apply_kraus_operator`
returns `K` on the qubits `krausRow`, times `ρ`, times the adjoint of `K` on the first qubits. -/
theorem C53_kraus_exact {K : Type} [CommRing K] [StarRing K] {k : NDArray K} {ρ : DensityMatrix K} {ts : List ℕ}
    (hk : IsOp ts.length k) (hρ : IsDM n ρ) (hv : ValidDims n ts) :
    ∃ r, applyKrausOperator k ρ.array ts = .ok r ∧
      dmMat n r = gateMat n (entries k) ((List.range ts.length).map (krausRow ts)) [] * dmMat n ρ.array *
        (gateMat n (entries k) (List.range ts.length) []).conjTranspose := by
  obtain ⟨r, h1, -, -, h2⟩ := applyKrausOperator_exact hk hρ hv
  refine ⟨r, h1, ?_⟩
  have hlen : (ts ++ freeAxes n ts).length = n := by simpa using (perm_append_freeAxes hv.nodup hv.lt).length_eq
  have hm : ts.length ≤ n := by rw [← hlen]; simp
  have : (List.range ts.length).map (ts ++ freeAxes n ts).idxOf = (List.range ts.length).map (krausRow ts) := by
    apply List.map_congr_left
    intro j hj
    have hjn : j < n := by have := List.mem_range.1 hj; omega
    rw [krausRow]
    split_ifs with h
    · exact List.idxOf_append_of_mem h
    · rw [List.idxOf_append_of_notMem h, idxOf_freeAxes hjn h]
  rw [h2, this]

/-- Non-vacuity: two targets out of order on three qubits; the row side then acts on qubits 2 and 1. -/
example : IsOp [2, 1].length matSWAP ∧ ValidDims 3 [2, 1] ∧ (List.range 2).map (krausRow [2, 1]) = [2, 1] ∧
    (List.range 2).map (krausRow [0, 2]) = [0, 2] ∧ (List.range 2).map (krausRow [1, 0]) = [1, 0] ∧
    (List.range 1).map (krausRow [5]) = [1] :=
  ⟨⟨rfl, rfl⟩, by decide, by decide, by decide, by decide, by decide⟩

/-- **C53** (one target): a target other than qubit 0 is treated as qubit 1 on the row side and as qubit 0 on the
column side, whatever it is. -/
theorem C53_single_target {K : Type} [CommRing K] [StarRing K] {k : NDArray K} {ρ : DensityMatrix K} {t : ℕ} (ht : t ≠ 0)
    (hk : IsOp 1 k) (hρ : IsDM n ρ) (hv : t < n) :
    ∃ r, applyKrausOperator k ρ.array [t] = .ok r ∧
      dmMat n r = gateMat n (entries k) [1] [] * dmMat n ρ.array * (gateMat n (entries k) [0] []).conjTranspose := by
  obtain ⟨r, h1, h2⟩ := C53_kraus_exact (ts := [t]) hk hρ ⟨by simp, by simpa using hv⟩
  refine ⟨r, h1, ?_⟩
  have h0 : (0 : ℕ) ∉ [t] := by simpa using ht.symm
  have : (List.range [t].length).map (krausRow [t]) = [1] := by
    simp [krausRow, ht.symm]
  rw [h2, this]
  rfl

example : IsOp 1 matX ∧ (2 : ℕ) ≠ 0 ∧ (2 : ℕ) < 3 := ⟨isOp_mat2 _ _ _ _, by decide, by decide⟩

theorem gateMat_diag {K : Type} [CommRing K] (d : ℕ → K) (ts : List ℕ) :
    gateMat n (fun i j => if i = j then d i else 0) ts [] = Matrix.diagonal fun x => d (x.idx ts) := by
  funext x y
  rw [gateMat_nil_apply, Matrix.diagonal_apply]
  by_cases h : x = y
  · subst h
    simp [Lab.AgreeOff]
  · rw [if_neg h]
    split_ifs with h1 h2
    · exact absurd (Lab.ext_bit fun q hq => by
        by_cases hm : q ∈ ts
        · exact Lab.idx_inj h2 q hm
        · have := h1 ⟨q, hq⟩ hm
          simp [Lab.bit, hq, this]) h
    · rfl
    · rfl

/-- **C53** (when the documented formula holds): the function returns `K ρ K†` on the targets for every Kraus operator
and every density matrix exactly when the targets are the first qubits in order. -/
theorem C53_kraus_iff {ts : List ℕ} (hv : ValidDims n ts) :
    (∀ (k : NDArray ℂ) (ρ : DensityMatrix ℂ), IsOp ts.length k → IsDM n ρ → ∃ r, applyKrausOperator k ρ.array ts = .ok r ∧
      dmMat n r = gateMat n (entries k) ts [] * dmMat n ρ.array * (gateMat n (entries k) ts []).conjTranspose) ↔
      ts = List.range ts.length := by
  have hlen : (ts ++ freeAxes n ts).length = n := by simpa using (perm_append_freeAxes hv.nodup hv.lt).length_eq
  have hm : ts.length ≤ n := by rw [← hlen]; simp
  constructor
  · intro H
    -- a diagonal Kraus operator that tells all basis states apart
    set d : ℕ → ℂ := fun i => (i : ℂ) + 1 with hd
    set k : NDArray ℂ := NDArray.ofFn [2 ^ ts.length, 2 ^ ts.length] fun idx =>
      if idx.getD 0 0 = idx.getD 1 0 then d (idx.getD 0 0) else 0 with hk
    have hop : IsOp ts.length k := ⟨rfl, NDArray.wf_ofFn _ _⟩
    have hG : ∀ S : List ℕ, S.length = ts.length → gateMat n (entries k) S [] = Matrix.diagonal fun x : Lab n => d (x.idx S) := by
      intro S hS
      rw [← gateMat_diag]
      refine gateMat_congr fun i j hi hj => ?_
      rw [hS] at hi hj
      rw [hk, entries_ofFn_two (f := fun i j => if i = j then d i else 0) hi hj]
    obtain ⟨ρ, hρ, hM⟩ := exists_dm (n := n) (Matrix.of fun _ _ => 1)
    obtain ⟨r, h1, h2⟩ := H k ρ hop hρ
    obtain ⟨r', h1', h2'⟩ := C53_kraus_exact hop hρ hv
    rw [h1] at h1'; cases h1'
    rw [h2', hM, hG _ (by simp), hG _ (by simp), hG _ rfl, Matrix.diagonal_conjTranspose, Matrix.diagonal_conjTranspose] at h2
    have key : ∀ y : Lab n, y.idx (List.range ts.length) = y.idx ts := by
      intro y
      have h3 := congrFun (congrFun h2 (0 : Lab n)) y
      rw [Matrix.mul_diagonal, Matrix.mul_diagonal, Matrix.diagonal_mul, Matrix.diagonal_mul] at h3
      have hz : ∀ S : List ℕ, (0 : Lab n).idx S = 0 := by
        intro S
        have : S.map (0 : Lab n).bit = S.map fun _ => 0 := by
          apply List.map_congr_left
          intro q _
          simp [Lab.bit]
        rw [Lab.idx, this]
        clear this h3
        induction S with
        | nil => rfl
        | cons q S ih => rw [List.map_cons, binVal_cons, ih]; simp
      simp only [hz, hd, Pi.star_apply, Matrix.of_apply, Nat.cast_zero, zero_add, one_mul, star_add, star_one,
        RCLike.star_def, Complex.conj_natCast, add_left_inj, Nat.cast_inj] at h3
      exact h3
    apply List.ext_getElem (by simp)
    intro i hi1 hi2
    rw [List.getElem_range]
    have hin : i < n := by omega
    have htn : ts[i] < n := hv.lt _ (List.getElem_mem hi1)
    have hbits := binVal_inj (Lab.isBits_map_bit (Pi.single ⟨i, hin⟩ 1 : Lab n) (List.range ts.length)).2
      (Lab.isBits_map_bit (Pi.single ⟨i, hin⟩ 1 : Lab n) ts).2 (by simp) (key _)
    have h4 := congrArg (fun l => l[i]?) hbits
    simp only [List.getElem?_map, List.getElem?_range hi1, List.getElem?_eq_getElem hi1, Option.map_some, Option.some.injEq] at h4
    by_contra hne
    have e1 : Lab.bit (Pi.single ⟨i, hin⟩ 1 : Lab n) i = 1 := by simp [Lab.bit, hin]
    have e2 : Lab.bit (Pi.single ⟨i, hin⟩ 1 : Lab n) ts[i] = 0 := by
      have : (⟨ts[i], htn⟩ : Fin n) ≠ ⟨i, hin⟩ := fun h => hne (Fin.mk.inj_iff.1 h)
      simp [Lab.bit, htn, Pi.single_apply, this]
    rw [e1, e2] at h4
    exact absurd h4 (by decide)
  · intro h k ρ hk hρ
    rw [h]
    exact C53_kraus_partial hk hρ hm

/-- Non-vacuity: both sides occur for targets of a two-qubit register. -/
example : ValidDims 2 [0] ∧ [0] = List.range 1 ∧ ValidDims 2 [1] ∧ [1] ≠ List.range 1 ∧ ValidDims 2 [1, 0] ∧
    [1, 0] ≠ List.range 2 := by decide

end Verif
