import Verif.Lemmas.StdGates

/-! # Small lemmas used by the property files -/

namespace Verif
open NDArray
variable {K : Type} [CommRing K] {n : ℕ}

/-- `gateMat` applied to a vector, written out. -/
theorem mulVec_gateMat (U : ℕ → ℕ → K) {ts cs : List ℕ} (ψ : Lab n → K) (b : Lab n) :
    (gateMat n U ts cs).mulVec ψ b = if ∀ c ∈ cs, b.bit c = 1 then
      ∑ b' with Lab.AgreeOff ts b b', U (b.idx ts) (b'.idx ts) * ψ b' else ψ b := by
  rw [Matrix.mulVec, dotProduct]
  split_ifs with h
  · rw [Finset.sum_filter]
    apply Finset.sum_congr rfl
    intro b' _
    simp only [gateMat, if_pos h, ite_mul, zero_mul]
  · simp [gateMat, if_neg h]

theorem gateMat_control_perm (U : ℕ → ℕ → K) (ts : List ℕ) {cs cs' : List ℕ} (h : cs.Perm cs') :
    gateMat n U ts cs = gateMat n U ts cs' := by
  funext b b'
  simp only [gateMat, h.mem_iff]

theorem isKet_add {a b : NDArray K} (ha : IsKet n a) (hb : IsKet n b) :
    ∃ r, a.add b = .ok r ∧ IsKet n r ∧ ket n r = ket n a + ket n b := by
  have hl : a.data.length = b.data.length := by rw [ha.wf, hb.wf, ha.shape, hb.shape]
  refine ⟨⟨a.shape, List.zipWith (· + ·) a.data b.data⟩, by rw [NDArray.add, if_pos (by rw [ha.shape, hb.shape])],
    ⟨ha.shape, ?_⟩, ?_⟩
  · simp only [WF, List.length_zipWith, ← hl, min_self]; exact ha.wf
  · funext l
    simp only [ket, NDArray.get, Pi.add_apply, ha.shape, hb.shape, List.getD_eq_getElem?_getD, List.getElem?_zipWith]
    rcases h : a.data[ravel (List.replicate n 2) l.bits]? with _ | x
    · have : b.data[ravel (List.replicate n 2) l.bits]? = none := by
        rw [List.getElem?_eq_none_iff] at h ⊢; omega
      simp [this]
    · have : ∃ y, b.data[ravel (List.replicate n 2) l.bits]? = some y := by
        obtain ⟨hi, -⟩ := List.getElem?_eq_some_iff.1 h
        exact ⟨_, List.getElem?_eq_getElem (hl ▸ hi)⟩
      obtain ⟨y, hy⟩ := this
      simp [hy]

theorem isKet_smul (c : K) {a : NDArray K} (ha : IsKet n a) :
    IsKet n (smul c a) ∧ ket n (smul c a) = c • ket n a := by
  refine ⟨⟨ha.shape, ?_⟩, ?_⟩
  · simp only [WF, smul, List.length_map]; exact ha.wf
  · funext l
    simp only [ket, NDArray.get, smul, List.getD_eq_getElem?_getD, List.getElem?_map, Pi.smul_apply, smul_eq_mul]
    cases a.data[ravel a.shape l.bits]? <;> simp

/-- `apply_operator` raises when the operator size does not match the targets or the qubits are not distinct
qubits of the register. -/
theorem applyOperator_error {k : ℕ} {op st : NDArray K} (hop : IsOp k op) (hst : IsKet n st) {ts cs : List ℕ}
    (h : ¬ (ts.length = k ∧ ValidDims n (cs ++ ts))) : ∃ e, applyOperator st op ts (ctlOf cs) = .error e := by
  obtain ⟨op', hs', hw', hprep, _⟩ := prepareOperator_eq hop.shape hop.wf ts cs
  refine ⟨.typeError, ?_⟩
  rw [applyOperator, hprep]
  simp only [bind, Except.bind, tensordot]
  rw [if_neg]
  rintro ⟨h1, -, h3, -, h5, -⟩
  apply h
  constructor
  · simp [two_mul] at h1; omega
  · exact ⟨h3, by simpa [ndim, hst.shape] using h5⟩

end Verif
