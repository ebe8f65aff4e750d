import Verif.Lemmas.Unitary

/-! # `apply_gates` computes the product of the gate matrices -/

namespace Verif
open NDArray

variable {n : ℕ} {ot : OpType} {values : Values}

theorem Gate.Ok.mat_eq {g : Gate} {U : NDArray ℂ} (hU : g.operator ot values = .ok U) :
    g.mat n ot values = opMat n (U, g.target, g.control) := by
  simp [Gate.mat, hU, opMat]

theorem gatesMat_append (gs hs : List Gate) :
    gatesMat n ot values (gs ++ hs) = gatesMat n ot values hs * gatesMat n ot values gs := by
  induction gs with
  | nil => simp [gatesMat]
  | cons g gs ih => rw [List.cons_append, gatesMat, ih, gatesMat, mul_assoc]

/-- The triples that `prepare_sequence_reduce` builds before merging. -/
theorem triples_ok {gs : List Gate} (h : ∀ g ∈ gs, g.Ok n ot values) :
    ∃ ops, gs.mapM (fun g => g.operator ot values) = .ok ops ∧ ops.length = gs.length ∧
      (∀ o ∈ List.zipWith (fun o (g : Gate) => (o, g.target, g.control)) ops gs, WfOp n o) ∧
      circMat n (List.zipWith (fun o (g : Gate) => (o, g.target, g.control)) ops gs) = gatesMat n ot values gs := by
  induction gs with
  | nil => exact ⟨[], rfl, rfl, by simp, rfl⟩
  | cons g gs ih =>
    obtain ⟨⟨U, hU, hop⟩, hv⟩ := h g (by simp)
    obtain ⟨ops, h1, h2, h3, h4⟩ := ih fun g' hg' => h g' (by simp [hg'])
    refine ⟨U :: ops, ?_, by simp [h2], ?_, ?_⟩
    · rw [List.mapM_cons, hU, h1]; rfl
    · intro o ho
      rw [List.zipWith_cons_cons, List.mem_cons] at ho
      rcases ho with rfl | ho
      · exact ⟨hop, hv.ctl, hv.dims⟩
      · exact h3 o ho
    · rw [List.zipWith_cons_cons, circMat, h4, gatesMat, Gate.Ok.mat_eq hU]

theorem allNoiseless_map {gs : List Gate} (h : ∀ g ∈ gs, g.noise = none) : allNoiseless (gs.map Gate.noise) = true := by
  simp only [allNoiseless, List.all_eq_true, List.mem_map]
  rintro x ⟨g, hg, rfl⟩
  rw [h g hg]; rfl

theorem prepare_noiseless {gs : List Gate} (hne : gs ≠ []) (h : ∀ g ∈ gs, g.Ok n ot values)
    (hnz : ∀ g ∈ gs, g.noise = none) (merge : Bool) :
    ∃ ops, prepareSequenceReduce (fun g => g.operator ot values) NDArray.matmul (.list gs) false merge
        = .ok (ops, gs.map Gate.noise) ∧ (∀ o ∈ ops, WfOp n o) ∧ circMat n ops = gatesMat n ot values gs := by
  obtain ⟨ops, h1, h2, h3, h4⟩ := triples_ok h
  have hemp : gs.isEmpty = false := by cases gs <;> simp_all
  cases merge with
  | false =>
    refine ⟨_, ?_, h3, h4⟩
    simp only [prepareSequenceReduce, Bool.false_eq_true, if_false, h1, Bool.and_false]
    simp [hemp, bind, Except.bind]
  | true =>
    obtain ⟨res, e1, e2, e3⟩ := mergeOperators_circMat h3
    refine ⟨res, ?_, e2, by rw [e3, h4]⟩
    simp only [prepareSequenceReduce, Bool.false_eq_true, if_false, h1, Bool.and_true, allNoiseless_map hnz]
    simp only [bind, Except.bind, hemp, Bool.false_eq_true, if_false, if_true, e1]

/-- `apply_gates` on a state vector with noiseless gates. -/
theorem applyGates_vec (so : SetOrder) {gs : List Gate} (hne : gs ≠ []) (h : ∀ g ∈ gs, g.Ok n ot values)
    (hnz : ∀ g ∈ gs, g.noise = none) {st : NDArray ℂ} (hst : IsKet n st) (merge : Bool) :
    ∃ r, applyGates so (.vec st) (.list gs) values ot false merge = .ok (.vec r) ∧ IsKet n r ∧
      ket n r = (gatesMat n ot values gs).mulVec (ket n st) := by
  obtain ⟨ops, h1, h2, h3⟩ := prepare_noiseless hne h hnz merge
  obtain ⟨r, e1, e2, e3⟩ := reduceApply_ket ops hst h2
  refine ⟨r, ?_, e2, by rw [e3, h3]⟩
  simp only [applyGates, h1]
  simp only [bind, Except.bind, allNoiseless_map hnz, Bool.not_true, Bool.false_eq_true, if_false, e1]

/-- `apply_gates` on a state vector with one noiseless gate object (not in a list). -/
theorem applyGates_single (so : SetOrder) {g : Gate} (h : g.Ok n ot values) (hnz : g.noise = none)
    {st : NDArray ℂ} (hst : IsKet n st) (group merge : Bool) :
    ∃ r, applyGates so (.vec st) (.single g) values ot group merge = .ok (.vec r) ∧ IsKet n r ∧
      ket n r = (g.mat n ot values).mulVec (ket n st) := by
  obtain ⟨⟨U, hU, hop⟩, hv⟩ := h
  obtain ⟨r, e1, e2, e3⟩ := applyOperator_opMat (o := (U, g.target, g.control)) hst ⟨hop, hv.ctl, hv.dims⟩
  refine ⟨r, ?_, e2, by rw [e3, Gate.Ok.mat_eq hU]⟩
  simp only [applyGates, prepareSequenceReduce, hU]
  simp only [bind, Except.bind, hnz, allNoiseless, List.all_cons, List.all_nil, Option.isNone_none, Bool.and_self,
    Bool.not_true, Bool.false_eq_true, if_false, reduceApply, List.foldlM_cons, List.foldlM_nil, e1]
  rfl

theorem applyOperatorDM_opMat {K : Type} [CommRing K] [StarRing K] (so : SetOrder) {n : ℕ}
    {o : NDArray K × List ℕ × Ctl} {ρ : DensityMatrix K} (hρ : IsDM n ρ) (ho : WfOp n o) :
    ∃ r, applyOperatorDM so ρ o.1 o.2.1 o.2.2 = .ok r ∧ IsDM n r ∧
      dmMat n r.array = opMat n o * dmMat n ρ.array * (opMat n o).conjTranspose := by
  obtain ⟨r, h1, h2, h3⟩ := applyOperatorDM_mat so ho.op hρ rfl ho.dims
  exact ⟨r, by rw [applyOperatorDM_ctl so ρ o.1 o.2.1 ho.ctl]; exact h1, h2, h3⟩

theorem reduceApplyNoise_none (so : SetOrder) (ops : List (NDArray ℂ × List ℕ × Ctl))
    (noise : List (Option (List NoiseInstance))) (hn : ∀ x ∈ noise, x = none) (hlen : ops.length ≤ noise.length)
    {ρ : DensityMatrix ℂ} (hρ : IsDM n ρ) (ho : ∀ o ∈ ops, WfOp n o) :
    ∃ r, reduceApplyNoise so ops noise ρ = .ok r ∧ IsDM n r ∧
      dmMat n r.array = circMat n ops * dmMat n ρ.array * (circMat n ops).conjTranspose := by
  induction ops generalizing noise ρ with
  | nil => exact ⟨ρ, rfl, hρ, by simp [circMat]⟩
  | cons o os ih =>
    cases noise with
    | nil => simp at hlen
    | cons x xs =>
      obtain ⟨r, h1, h2, h3⟩ := applyOperatorDM_opMat so hρ (ho o (by simp))
      obtain ⟨r', h1', h2', h3'⟩ := ih xs (fun y hy => hn y (by simp [hy])) (by simpa using hlen) h2
        (fun o' h => ho o' (by simp [h]))
      refine ⟨r', ?_, h2', ?_⟩
      · rw [reduceApplyNoise, List.zip_cons_cons, List.foldlM_cons, hn x (by simp)]
        simp only [applyOperatorWithNoise, h1, noiseKraus, Option.map_none]
        exact h1'
      · rw [h3', h3, circMat, Matrix.conjTranspose_mul]; simp only [mul_assoc]

theorem mergeLoop_length {M : Type} (mul : M → M → Py M) (rest : List (M × List ℕ × Ctl)) (m : M × List ℕ × Ctl)
    (acc res : List (M × List ℕ × Ctl)) (h : mergeLoop mul rest m acc = .ok res) :
    res.length ≤ acc.length + 1 + rest.length := by
  induction rest generalizing m acc with
  | nil => simp only [mergeLoop, Except.ok.injEq] at h; subst h; simp
  | cons o rest ih =>
    obtain ⟨o, t, c⟩ := o
    obtain ⟨mo, mt, mc⟩ := m
    simp only [mergeLoop] at h
    split at h
    · rcases hm : mul mo o with e | x
      · rw [hm] at h; simp [bind, Except.bind] at h
      · rw [hm] at h
        have := ih _ _ h
        simp; omega
    · have := ih _ _ h
      simp at this ⊢; omega

theorem mergeOperators_length {M : Type} {mul : M → M → Py M} {ops res : List (M × List ℕ × Ctl)}
    (h : mergeOperators mul ops = .ok res) : res.length ≤ ops.length := by
  rw [mergeOperators] at h
  split at h
  · cases h; simp
  · rcases hrev : ops.reverse with _ | ⟨m, rest⟩
    · rw [hrev] at h; cases h; simp
    · rw [hrev] at h
      rcases hm : mergeLoop mul rest m [] with e | x
      · simp only [hm, bind, Except.bind] at h; cases h
      · simp only [hm, bind, Except.bind, Except.ok.injEq] at h
        have := mergeLoop_length mul rest m [] x hm
        have hl : ops.length = rest.length + 1 := by rw [← List.length_reverse, hrev]; simp
        subst h; simp at this ⊢; omega

theorem prepare_length {M : Type} {opOf : Gate → Py M} {mul : M → M → Py M} {gs : List Gate} {merge : Bool}
    {ops : List (M × List ℕ × Ctl)} {noise : List (Option (List NoiseInstance))}
    (h : prepareSequenceReduce opOf mul (.list gs) false merge = .ok (ops, noise)) : ops.length ≤ gs.length := by
  simp only [prepareSequenceReduce, Bool.false_eq_true, if_false] at h
  rcases hm : gs.mapM opOf with e | os
  · rw [hm] at h; cases h
  · rw [hm] at h
    simp only [bind, Except.bind] at h
    split at h
    · cases h
    · split at h
      · rcases hx : mergeOperators mul (List.zipWith (fun o (g : Gate) => (o, g.target, g.control)) os gs) with e | x
        · rw [hx] at h; cases h
        · rw [hx] at h
          simp only [Except.ok.injEq, Prod.mk.injEq] at h
          have := mergeOperators_length hx
          rw [h.1] at this; simp at this; omega
      · simp only [Except.ok.injEq, Prod.mk.injEq] at h
        rw [← h.1]; simp

/-- `apply_gates` on a density matrix with noiseless gates. -/
theorem applyGates_dm (so : SetOrder) {gs : List Gate} (hne : gs ≠ []) (h : ∀ g ∈ gs, g.Ok n ot values)
    (hnz : ∀ g ∈ gs, g.noise = none) {ρ : DensityMatrix ℂ} (hρ : IsDM n ρ) (merge : Bool) :
    ∃ r, applyGates so (.dm ρ) (.list gs) values ot false merge = .ok (.dm r) ∧ IsDM n r ∧
      dmMat n r.array = gatesMat n ot values gs * dmMat n ρ.array * (gatesMat n ot values gs).conjTranspose := by
  obtain ⟨ops, h1, h2, h3⟩ := prepare_noiseless hne h hnz merge
  have hl := prepare_length h1
  obtain ⟨r, e1, e2, e3⟩ := reduceApplyNoise_none so ops (gs.map Gate.noise)
    (by intro x hx; obtain ⟨g, hg, rfl⟩ := List.mem_map.1 hx; exact hnz g hg) (by simpa using hl) hρ h2
  refine ⟨r, ?_, e2, by rw [e3, h3]⟩
  simp only [applyGates, h1]
  simp only [bind, Except.bind, e1]

/-- The array returned by `density_mat` is the projector on the state. -/
theorem densityMat_isDM {K : Type} [CommRing K] [StarRing K] {n : ℕ} {st : NDArray K} (hst : IsKet n st) :
    IsDM n (densityMat st) ∧ dmMat n (densityMat st).array = Matrix.vecMulVec (ket n st) (star (ket n st)) := by
  have hs : st.shape ++ st.shape = List.replicate (n + n) 2 := by rw [hst.shape]; simp
  refine ⟨⟨hs, wf_ofFn _ _⟩, ?_⟩
  funext x y
  have hx : x.bits.length = n := by simp [Lab.bits]
  have hnd : st.ndim = n := by simp [ndim, hst.shape]
  rw [dmMat, densityMat]
  simp only [hs]
  rw [get_ofFn]
  · rw [hnd, List.take_left' hx, List.drop_left' hx]; rfl
  · exact forall₂_replicate.2 (by simpa [two_mul] using x.isBits_bits.append y.isBits_bits)

end Verif
