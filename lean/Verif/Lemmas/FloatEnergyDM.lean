import Verif.Lemmas.FloatDM
import Verif.Lemmas.Expect

/-! # Computed expectation values on density matrices -/

set_option autoImplicit false

namespace Verif
open NDArray
open scoped Matrix.Norms.L2Operator
variable {F : Flops} {u δ : ℝ} {n : ℕ}

theorem traceError_nonneg (hu : 0 ≤ u) (hδ : 0 ≤ δ) (k n : ℕ) : 0 ≤ traceError u δ k n := by
  have h1 := dotError_nonneg hu hδ (2 ^ k)
  have h2 : (1 : ℝ) ≤ (1 + u) ^ (2 ^ n - 1) := one_le_pow₀ (by linarith)
  rw [traceError]
  nlinarith

theorem dmMat_abs (a : NDArray ℂ) : absMat (dmMat n a) = dmMat n (a.mapArr absC) := by
  funext b c
  simp only [absMat, dmMat, get_abs, absC]

/-- The computed product of an observable and a density matrix, against the exact one. -/
theorem applyLeft_enc (hu : 0 ≤ u) (hδ : 0 ≤ δ) (hF : F.Accurate u δ) {ρ : DensityMatrix ℂ} (hρ : IsDM n ρ) {S : List ℕ}
    (hS : ValidDims n S) {op : NDArray ℂ} (hop : IsOp S.length op) :
    ∃ a e m, F.applyOperator ρ.array op S none = .ok a ∧ Enc (dotError u δ (2 ^ S.length)) a e m ∧
      e.shape = List.replicate (n + n) 2 ∧
      dmMat n e = gateMat n (entries op) S [] * dmMat n ρ.array ∧
      dmMat n m = absMat (gateMat n (entries op) S []) * absMat (dmMat n ρ.array) := by
  obtain ⟨e, h1, h2, h3, h4⟩ := applyOperator_left hop hρ rfl hS
  obtain ⟨m, k1, k2, k3, k4⟩ := applyOperator_left (n := n) (ρ := ⟨ρ.array.mapArr absC⟩) (op := op.mapArr absC) (k := S.length)
    ⟨hop.shape, by simpa [WF, mapArr] using hop.wf⟩ ⟨hρ.shape, by simpa [WF, mapArr] using hρ.wf⟩ rfl hS
  obtain ⟨op', hs', hw', hprep, -⟩ := prepareOperator_eq hop.shape hop.wf S []
  rw [show prepareOperator op S (ctlOf []) = prepareOperator op S none from
    (prepareOperator_ctl op S (c := none) (.inl rfl)).symm] at hprep
  simp only [List.length_nil, Nat.zero_add, List.nil_append] at hprep hs'
  generalize hq : S.length = q at hprep hs'
  have hPw : (⟨List.replicate (2 * q) 2, op'.data⟩ : NDArray ℂ).WF := by
    have := hw'
    simp only [WF, hs'] at this ⊢
    rw [this]
    simp [List.prod_replicate, two_mul, pow_add]
  generalize hP : (⟨List.replicate (2 * q) 2, op'.data⟩ : NDArray ℂ) = P at hprep hPw
  have hPs : P.shape = List.replicate (2 * q) 2 := by rw [← hP]
  rw [applyOperator, hprep] at h1
  rw [applyOperator, prepareOperator_abs, hprep] at k1
  rw [Flops.applyOperator, hprep]
  obtain ⟨_, h0, h1⟩ := bind_ok_iff.1 h1
  obtain rfl := Except.ok.inj h0
  obtain ⟨e1, g1, g2⟩ := bind_ok_iff.1 h1
  obtain ⟨_, k0, k1⟩ := bind_ok_iff.1 k1
  obtain rfl := Except.ok.inj k0
  obtain ⟨m1, l1, l2⟩ := bind_ok_iff.1 k1
  obtain ⟨a1, n1, b1, c1, E1⟩ := Enc.tensordot hu hδ hF le_rfl le_rfl (Enc.self hPw) (Enc.self hρ.wf) g1 (prod_half hPs)
  obtain rfl := Except.ok.inj (c1.symm.trans l1)
  obtain ⟨a2, n2, b2, c2, E2⟩ := E1.moveaxis g2
  obtain rfl := Except.ok.inj (c2.symm.trans l2)
  refine ⟨a2, e, n2, bind_ok_iff.2 ⟨_, rfl, bind_ok_iff.2 ⟨a1, b1, b2⟩⟩, ?_, h2, h4, ?_⟩
  · simpa using E2
  · rw [k4, absMat_gateMat, dmMat_abs]

/-- The computed expectation value, against the exact value of the same matrix. -/
theorem expectDM_near (hu : 0 ≤ u) (hδ : 0 ≤ δ) (hF : F.Accurate u δ) {ρ : DensityMatrix ℂ} (hρ : IsDM n ρ) {S : List ℕ}
    (hS : ValidDims n S) {op : NDArray ℂ} (hop : IsOp S.length op) :
    ∃ x, F.expectDM op S ρ = .ok x ∧
      |x - expVal (gateMat n (entries op) S []) (dmMat n ρ.array)|
        ≤ traceError u δ S.length n * (frob (gateMat n (entries op) S []) * frob (dmMat n ρ.array)) := by
  obtain ⟨a, e, m, h1, h2, h3, h4, h5⟩ := applyLeft_enc hu hδ hF hρ hS hop
  have hnq : numQubitsDM ρ = n := by simp [numQubitsDM, hρ.shape]; omega
  have hres : e.reshape [2 ^ n, 2 ^ n] = .ok ⟨[2 ^ n, 2 ^ n], e.data⟩ := by
    rw [reshape, if_pos]; simp [h3, pow_add]
  have hm : m.shape = List.replicate (n + n) 2 := h2.shape'.trans h3
  have hresm : m.reshape [2 ^ n, 2 ^ n] = .ok ⟨[2 ^ n, 2 ^ n], m.data⟩ := by
    rw [reshape, if_pos]; simp [hm, pow_add]
  obtain ⟨a', m', r1, r2, E⟩ := h2.reshape hres
  obtain rfl := Except.ok.inj (hresm.symm.trans r2)
  have he := trace_reshape (n := n) h3
  have hm' := trace_reshape (n := n) hm
  simp only [NDArray.trace, min_self] at he hm'
  have he := Except.ok.inj he
  have hm' := Except.ok.inj hm'
  have hs := EncC.fsum (F := F) hu hF (γ := dotError u δ (2 ^ S.length)) (ι := ℕ) (l := List.range (2 ^ n))
    (e := fun i => (⟨[2 ^ n, 2 ^ n], e.data⟩ : NDArray ℂ).get [i, i])
    (m := fun i => (⟨[2 ^ n, 2 ^ n], m.data⟩ : NDArray ℂ).get [i, i])
    (a := (List.range (2 ^ n)).map fun i => a'.get [i, i]) (by
      rw [List.forall₂_map_right_iff]
      exact List.forall₂_same.2 fun i _ => E.get [i, i])
  rw [he, hm', List.length_range] at hs
  have htr : F.trace a' = .ok (F.sum ((List.range (2 ^ n)).map fun i => a'.get [i, i])) := by
    simp only [Flops.trace, E.shape, min_self]
  refine ⟨(F.sum ((List.range (2 ^ n)).map fun i => a'.get [i, i])).re, by
    simp only [Flops.expectDM, h1, hnq, r1, htr, bind, Except.bind, pure, Except.pure], ?_⟩
  rw [expVal, ← h4, ← Complex.sub_re]
  refine (Complex.abs_re_le_norm _).trans (hs.data.trans ?_)
  rw [add_sub_cancel]
  refine mul_le_mul_of_nonneg_left ?_ (traceError_nonneg hu hδ _ _)
  rw [h5]
  refine (Complex.re_le_norm _).trans ((trace_mul_le_frob _ _).trans ?_)
  rw [frob_absMat, frob_absMat]

end Verif
