import Verif.Lemmas.Misc

/-! # Noise channels -/

namespace Verif
open NDArray

section spec
variable {n t : ℕ}

theorem gateMat_smul (c : ℂ) (U : ℕ → ℕ → ℂ) (ts : List ℕ) :
    gateMat n (fun i j => c * U i j) ts [] = c • gateMat n U ts [] := by
  funext x y
  simp only [Matrix.smul_apply, gateMat_nil_apply, smul_eq_mul, mul_ite, mul_zero]

theorem gateMat_add (U V : ℕ → ℕ → ℂ) (ts : List ℕ) :
    gateMat n (fun i j => U i j + V i j) ts [] = gateMat n U ts [] + gateMat n V ts [] := by
  funext x y
  simp only [Matrix.add_apply, gateMat_nil_apply]
  split_ifs <;> simp

theorem conjBy_smul (c : ℂ) (M ρ : Matrix (Lab n) (Lab n) ℂ) : conjBy (c • M) ρ = (c * star c) • conjBy M ρ := by
  simp [conjBy, Matrix.conjTranspose_smul, smul_smul, mul_comm]

theorem csqrt_mul_star {p : ℝ} (h : 0 ≤ p) : csqrt p * star (csqrt p) = (p : ℂ) := by
  simp only [csqrt, RCLike.star_def, Complex.conj_ofReal]
  rw [← Complex.ofReal_mul, Real.mul_self_sqrt h]

theorem star_csqrt_mul {p : ℝ} (h : 0 ≤ p) : (starRingEnd ℂ) (csqrt p) * csqrt p = (p : ℂ) := by
  rw [mul_comm]; exact csqrt_mul_star h

theorem csqrt_sq {p : ℝ} (h : 0 ≤ p) : csqrt p * csqrt p = (p : ℂ) := by
  simp only [csqrt]
  rw [← Complex.ofReal_mul, Real.mul_self_sqrt h]

theorem star_csqrt (p : ℝ) : (starRingEnd ℂ) (csqrt p) = csqrt p := Complex.conj_ofReal _

theorem smul_mat2 (x a b c d : ℂ) : smul x (mat2 a b c d) = mat2 (x * a) (x * b) (x * c) (x * d) := rfl

/-- The register matrix of a 2×2 array. -/
theorem gateMat_mat2 (a b c d : ℂ) : gateMat n (entries (mat2 a b c d)) [t] [] = onQubit n !![a, b; c, d] t :=
  gateMat_congr fun _ _ hi hj => entries_mat2 a b c d (by simpa using hi) (by simpa using hj)

theorem onQubit_smul (x a b c d : ℂ) :
    onQubit n !![x * a, x * b; x * c, x * d] t = x • onQubit n !![a, b; c, d] t := by
  rw [onQubit, onQubit, ← gateMat_smul]
  apply gateMat_congr
  intro i j hi hj
  simp at hi hj
  obtain rfl | rfl : i = 0 ∨ i = 1 := by omega
  all_goals obtain rfl | rfl : j = 0 ∨ j = 1 := by omega
  all_goals simp [matE]

theorem onQubit_one : onQubit n !![1, 0; 0, 1] t = 1 := by
  rw [onQubit, ← gateMat_one (ts := [t]) (cs := [])]
  apply gateMat_congr
  intro i j hi hj
  simp at hi hj
  obtain rfl | rfl : i = 0 ∨ i = 1 := by omega
  all_goals obtain rfl | rfl : j = 0 ∨ j = 1 := by omega
  all_goals simp [matE, oneE]

/-- A scaled Kraus operator contributes with the weight of its probability. -/
theorem conj_weight {p : ℝ} (h : 0 ≤ p) (a b c d : ℂ) (ρ : Matrix (Lab n) (Lab n) ℂ) :
    conjBy (gateMat n (entries (smul (csqrt p) (mat2 a b c d))) [t] []) ρ
      = (p : ℂ) • conjBy (onQubit n !![a, b; c, d] t) ρ := by
  rw [smul_mat2, gateMat_mat2, onQubit_smul, conjBy_smul, csqrt_mul_star h]

theorem conjBy_one (ρ : Matrix (Lab n) (Lab n) ℂ) : conjBy 1 ρ = ρ := by simp [conjBy]

end spec

/-- The Kraus operators of a textbook channel: they exist, are one-qubit operators, satisfy `Σ K†K = 1` and sum up to
the documented channel. -/
structure GoodKraus (s : StdNoise) (ks : List (NDArray ℂ)) : Prop where
  ne : ks ≠ []
  isOp : ∀ k ∈ ks, IsOp 1 k
  tp : ∀ i j, i < 2 → j < 2 → (ks.map fun k => mulE 2 (conjT (entries k)) (entries k) i j).sum = oneE i j
  chan : ∀ (n t : ℕ) (ρ : Matrix (Lab n) (Lab n) ℂ),
    (ks.map fun k => conjBy (gateMat n (entries k) [t] []) ρ).sum = s.chan n t ρ

theorem not_badProb {p : ℝ} (h : 0 ≤ p ∧ p ≤ 1) : ¬ badProb p := by
  rintro (h' | h') <;> linarith [h.1, h.2]

theorem mulE_mat2 (a b c d : ℂ) {i j : ℕ} (hi : i < 2) (hj : j < 2) :
    mulE 2 (conjT (entries (mat2 a b c d))) (entries (mat2 a b c d)) i j
      = matE !![star a * a + star c * c, star a * b + star c * d; star b * a + star d * c, star b * b + star d * d] i j := by
  obtain rfl | rfl : i = 0 ∨ i = 1 := by omega
  all_goals obtain rfl | rfl : j = 0 ∨ j = 1 := by omega
  all_goals simp [mulE, conjT, entries, mat2, NDArray.get, ravel, matE, Finset.sum_range_succ]

theorem tp_of {i j : ℕ} (hi : i < 2) (hj : j < 2) {a b c d : ℂ} (ha : a = 1) (hb : b = 0) (hc : c = 0) (hd : d = 1) :
    matE !![a, b; c, d] i j = oneE i j := by
  subst ha hb hc hd
  obtain rfl | rfl : i = 0 ∨ i = 1 := by omega
  all_goals obtain rfl | rfl : j = 0 ∨ j = 1 := by omega
  all_goals simp [matE, oneE]

theorem NoiseInstance.Is.kraus {ni : NoiseInstance} {s : StdNoise} (h : ni.Is s) :
    ∃ ks, ni.kraus = .ok ks ∧ GoodKraus s ks := by
  cases h with
  | @bitFlip p h =>
    have h1 : 0 ≤ 1 - p := by linarith [h.2]
    refine ⟨_, by simp only [NoiseInstance.kraus, Verif.bitFlip, if_neg (not_badProb h)]; rfl, by simp, ?_, ?_, ?_⟩
    · simp only [matId, matX, smul_mat2]; simp [isOp_mat2]
    · intro i j hi hj
      simp only [matId, matX, smul_mat2, List.map_cons, List.map_nil, List.sum_cons, List.sum_nil, mulE_mat2 _ _ _ _ hi hj]
      obtain rfl | rfl : i = 0 ∨ i = 1 := by omega
      all_goals obtain rfl | rfl : j = 0 ∨ j = 1 := by omega
      all_goals simp [matE, oneE, star_csqrt_mul h1, star_csqrt_mul h.1]
    · intro n t ρ
      simp only [matId, matX, List.map_cons, List.map_nil, List.sum_cons, List.sum_nil, conj_weight h1, conj_weight h.1,
        onQubit_one, conjBy_one, StdNoise.chan, add_zero]
  | @phaseFlip p h =>
    have h1 : 0 ≤ 1 - p := by linarith [h.2]
    refine ⟨_, by simp only [NoiseInstance.kraus, Verif.phaseFlip, if_neg (not_badProb h)]; rfl, by simp, ?_, ?_, ?_⟩
    · simp only [matId, matZ, smul_mat2]; simp [isOp_mat2]
    · intro i j hi hj
      simp only [matId, matZ, smul_mat2, List.map_cons, List.map_nil, List.sum_cons, List.sum_nil, mulE_mat2 _ _ _ _ hi hj]
      obtain rfl | rfl : i = 0 ∨ i = 1 := by omega
      all_goals obtain rfl | rfl : j = 0 ∨ j = 1 := by omega
      all_goals simp [matE, oneE, star_csqrt_mul h1, star_csqrt_mul h.1]
    · intro n t ρ
      simp only [matId, matZ, List.map_cons, List.map_nil, List.sum_cons, List.sum_nil, conj_weight h1, conj_weight h.1,
        onQubit_one, conjBy_one, StdNoise.chan, add_zero]
  | @depolarizing p h =>
    have h1 : 0 ≤ 1 - p := by linarith [h.2]
    have h3 : 0 ≤ p / 3 := by linarith [h.1]
    refine ⟨_, by simp only [NoiseInstance.kraus, Verif.depolarizing, if_neg (not_badProb h)]; rfl, by simp, ?_, ?_, ?_⟩
    · simp only [matId, matX, matY, matZ, smul_mat2]; simp [isOp_mat2]
    · intro i j hi hj
      simp only [matId, matX, matY, matZ, smul_mat2, List.map_cons, List.map_nil, List.sum_cons, List.sum_nil,
        mulE_mat2 _ _ _ _ hi hj]
      have e1 := csqrt_sq h1
      have e3 := csqrt_sq h3
      push_cast at e1 e3
      obtain rfl | rfl : i = 0 ∨ i = 1 := by omega
      all_goals obtain rfl | rfl : j = 0 ∨ j = 1 := by omega
      all_goals simp [matE, oneE, star_csqrt]
      · linear_combination e1 + (2 - Complex.I * Complex.I) * e3 - (p : ℂ) / 3 * Complex.I_mul_I
      · linear_combination e1 + (2 - Complex.I * Complex.I) * e3 - (p : ℂ) / 3 * Complex.I_mul_I
    · intro n t ρ
      simp only [matId, matX, matY, matZ, List.map_cons, List.map_nil, List.sum_cons, List.sum_nil, conj_weight h1,
        conj_weight h3, onQubit_one, conjBy_one, StdNoise.chan, add_zero, add_assoc]
  | @pauli px py pz ps h hs =>
    have hx := h px (by simp)
    have hy := h py (by simp)
    have hz := h pz (by simp)
    have hps : 0 ≤ ps.sum := List.sum_nonneg fun p hp => (h p (by simp [hp])).1
    simp only [List.sum_cons] at hs
    have h1 : 0 ≤ 1 - (px + py + pz) := by linarith
    have hk : NoiseInstance.kraus ⟨.pauliChannel, .tuple (px :: py :: pz :: ps)⟩
        = .ok [smul (csqrt (1 - (px + py + pz))) matId, smul (csqrt px) matX, smul (csqrt py) matY,
          smul (csqrt pz) matZ] := by
      simp only [NoiseInstance.kraus, pauliChannel, List.sum_cons]
      rw [if_neg (not_lt.2 hs), if_neg]
      rintro ⟨p, hp, hb⟩
      exact not_badProb (h p hp) hb
    refine ⟨_, hk, by simp, ?_, ?_, ?_⟩
    · simp only [matId, matX, matY, matZ, smul_mat2]; simp [isOp_mat2]
    · intro i j hi hj
      simp only [matId, matX, matY, matZ, smul_mat2, List.map_cons, List.map_nil, List.sum_cons, List.sum_nil,
        mulE_mat2 _ _ _ _ hi hj]
      have e1 := csqrt_sq h1
      push_cast at e1
      obtain rfl | rfl : i = 0 ∨ i = 1 := by omega
      all_goals obtain rfl | rfl : j = 0 ∨ j = 1 := by omega
      all_goals simp [matE, oneE, star_csqrt]
      · linear_combination e1 + csqrt_sq hx.1 - Complex.I * Complex.I * csqrt_sq hy.1 + csqrt_sq hz.1 - (py : ℂ) * Complex.I_mul_I
      · linear_combination e1 + csqrt_sq hx.1 - Complex.I * Complex.I * csqrt_sq hy.1 + csqrt_sq hz.1 - (py : ℂ) * Complex.I_mul_I
    · intro n t ρ
      simp only [matId, matX, matY, matZ, List.map_cons, List.map_nil, List.sum_cons, List.sum_nil, conj_weight h1,
        conj_weight hx.1, conj_weight hy.1, conj_weight hz.1, onQubit_one, conjBy_one, StdNoise.chan, add_zero]
      rw [show 1 - (px + py + pz) = 1 - px - py - pz by ring]
      simp only [add_assoc]
  | @amplitudeDamping p h =>
    have h1 : 0 ≤ 1 - p := by linarith [h.2]
    refine ⟨_, by simp only [NoiseInstance.kraus, Verif.amplitudeDamping, if_neg (not_badProb h)]; rfl, by simp, ?_, ?_, ?_⟩
    · simp [isOp_mat2]
    · intro i j hi hj
      simp only [List.map_cons, List.map_nil, List.sum_cons, List.sum_nil, mulE_mat2 _ _ _ _ hi hj]
      obtain rfl | rfl : i = 0 ∨ i = 1 := by omega
      all_goals obtain rfl | rfl : j = 0 ∨ j = 1 := by omega
      all_goals simp [matE, oneE, star_csqrt_mul h1, star_csqrt_mul h.1]
    · intro n t ρ
      simp only [List.map_cons, List.map_nil, List.sum_cons, List.sum_nil, gateMat_mat2, StdNoise.chan, add_zero, csqrt]
  | @phaseDamping p h =>
    have h1 : 0 ≤ 1 - p := by linarith [h.2]
    refine ⟨_, by simp only [NoiseInstance.kraus, Verif.phaseDamping, if_neg (not_badProb h)]; rfl, by simp, ?_, ?_, ?_⟩
    · simp [isOp_mat2]
    · intro i j hi hj
      simp only [List.map_cons, List.map_nil, List.sum_cons, List.sum_nil, mulE_mat2 _ _ _ _ hi hj]
      obtain rfl | rfl : i = 0 ∨ i = 1 := by omega
      all_goals obtain rfl | rfl : j = 0 ∨ j = 1 := by omega
      all_goals simp [matE, oneE, star_csqrt_mul h1, star_csqrt_mul h.1]
    · intro n t ρ
      simp only [List.map_cons, List.map_nil, List.sum_cons, List.sum_nil, gateMat_mat2, StdNoise.chan, add_zero, csqrt]
  | @generalizedAmplitudeDamping p γ ps h hγ =>
    have h1 : 0 ≤ 1 - p := by linarith [h.2]
    have h2 : 0 ≤ 1 - γ := by linarith [hγ.2]
    refine ⟨_, by
      simp only [NoiseInstance.kraus, Verif.generalizedAmplitudeDamping, if_neg (not_badProb h), if_neg (not_badProb hγ)]
      rfl, by simp, ?_, ?_, ?_⟩
    · simp [isOp_mat2, smul_mat2]
    · intro i j hi hj
      simp only [smul_mat2, List.map_cons, List.map_nil, List.sum_cons, List.sum_nil, mulE_mat2 _ _ _ _ hi hj]
      have e1 := csqrt_sq h1
      have e2 := csqrt_sq h2
      push_cast at e1 e2
      obtain rfl | rfl : i = 0 ∨ i = 1 := by omega
      all_goals obtain rfl | rfl : j = 0 ∨ j = 1 := by omega
      all_goals simp [matE, oneE, star_csqrt]
      · linear_combination csqrt_sq h.1 + csqrt (1 - p) * csqrt (1 - p) * (e2 + csqrt_sq hγ.1) + e1
      · linear_combination e1 + csqrt p * csqrt p * (e2 + csqrt_sq hγ.1) + csqrt_sq h.1
    · intro n t ρ
      simp only [List.map_cons, List.map_nil, List.sum_cons, List.sum_nil, conj_weight h1, conj_weight h.1,
        StdNoise.chan, add_zero, smul_add, add_assoc]
      rfl

/-! ## Noisy gates on density matrices -/

section apply
variable {n : ℕ}

theorem pySorted_singleton (t : ℕ) : pySorted [t] = [t] := rfl

/-- One noise channel: expanding the Kraus operators to the register and summing. -/
theorem krausStep {s : StdNoise} {ks : List (NDArray ℂ)} (h : GoodKraus s ks) {t : ℕ} (ht : t < n)
    {ρ : DensityMatrix ℂ} (hρ : IsDM n ρ) :
    ∃ r, (do let ks ← ks.mapM fun k => expandOperator k [t] (List.range n)
             applyKrausSum ks ρ.array (List.range n)) = .ok r ∧ IsDM n r ∧
      dmMat n r.array = s.chan n t (dmMat n ρ.array) := by
  have hv : ValidDims n [t] := ⟨by simp, by simpa using ht⟩
  obtain ⟨bs, hbs, hF⟩ := mapM_ok (f := fun k => expandOperator k [t] (List.range n))
    (P := fun k r => IsOp n r ∧ gateMat n (entries r) (List.range n) [] = gateMat n (entries k) [t] []) (l := ks)
    (fun k hk => by
      obtain ⟨r, h1, h2, h3⟩ := expandOperator_register (h.isOp k hk) hv rfl
      refine ⟨r, h1, h2, ?_⟩
      funext x y
      rw [gateMat_range_apply, h3, pySorted_singleton])
  have hbsne : bs ≠ [] := by
    rintro rfl
    exact h.ne (List.forall₂_nil_right_iff.1 hF)
  have hop : ∀ k ∈ bs, IsOp n k := by
    clear hbs hbsne h
    induction hF with
    | nil => simp
    | cons h _ ih => simpa using ⟨h.1, ih⟩
  obtain ⟨r, h1, h2, h3⟩ := applyKrausSum_full hbsne hop hρ.shape hρ.wf
  refine ⟨r, by rw [hbs]; exact h1, h2, ?_⟩
  rw [h3, ← h.chan]
  congr 1
  clear hbs hbsne hop h1 h3 h
  induction hF with
  | nil => rfl
  | cons h _ ih => simp only [List.map_cons, ih, h.2, conjBy]

/-- The loop over the noise tuple. -/
theorem noiseLoop {nis : List NoiseInstance} {ns : List StdNoise} (h : List.Forall₂ NoiseInstance.Is nis ns) {t : ℕ}
    (ht : t < n) {ρ : DensityMatrix ℂ} (hρ : IsDM n ρ) :
    ∃ r, (nis.map NoiseInstance.kraus).foldlM (fun dm kraus => do
        let ks ← (← kraus).mapM fun k => expandOperator k [t] (List.range n)
        applyKrausSum ks dm.array (List.range n)) ρ = .ok r ∧ IsDM n r ∧
      dmMat n r.array = ns.foldl (fun ρ s => s.chan n t ρ) (dmMat n ρ.array) := by
  induction h generalizing ρ with
  | nil => exact ⟨ρ, rfl, hρ, rfl⟩
  | @cons ni s nis ns h _ ih =>
    obtain ⟨ks, hk, hg⟩ := h.kraus
    obtain ⟨r, h1, h2, h3⟩ := krausStep hg ht hρ
    obtain ⟨r', h1', h2', h3'⟩ := ih h2
    refine ⟨r', ?_, h2', by rw [h3', h3]; rfl⟩
    rw [List.map_cons, List.foldlM_cons, hk]
    change (do let r ← (do let ks ← ks.mapM fun k => expandOperator k [t] (List.range n)
                           applyKrausSum ks ρ.array (List.range n)); _) = _
    rw [h1]; exact h1'

theorem numQubitsDM_eq {ρ : DensityMatrix ℂ} (h : IsDM n ρ) : numQubitsDM ρ = n := by
  simp only [numQubitsDM, h.shape, List.length_replicate]; omega

/-- A noisy gate on a density matrix. -/
theorem applyOperatorWithNoise_chan (so : SetOrder) {g : Gate} {ns : List StdNoise} (hn : g.NoiseIs ns) {U : NDArray ℂ}
    (hU : WfOp n (U, g.target, g.control)) {ρ : DensityMatrix ℂ} (hρ : IsDM n ρ) :
    ∃ r, applyOperatorWithNoise so ρ U g.target g.control (noiseKraus g.noise) = .ok r ∧ IsDM n r ∧
      dmMat n r.array = noisyStep n (opMat n (U, g.target, g.control)) (g.target.headD 0) ns (dmMat n ρ.array) := by
  obtain ⟨r, h1, h2, h3⟩ := applyOperatorDM_opMat so hρ hU
  cases hn with
  | none h =>
    refine ⟨r, ?_, h2, h3⟩
    simp only [applyOperatorWithNoise, h1, h, noiseKraus, Option.map_none]; rfl
  | @some nis _ h hn ht =>
    rcases ht with rfl | ⟨t, ht⟩
    · cases hn
      refine ⟨r, ?_, h2, h3⟩
      simp only [applyOperatorWithNoise, h1, h, noiseKraus, Option.map_some]; rfl
    · have htn : t < n := hU.dims.lt t (by simp [ht])
      obtain ⟨r', h1', h2', h3'⟩ := noiseLoop hn htn h2
      refine ⟨r', ?_, h2', by rw [h3', h3, ht]; rfl⟩
      simp only [applyOperatorWithNoise, h1, h, noiseKraus, Option.map_some, numQubitsDM_eq h2, ht]
      rw [ht] at h1
      simp only [h1, bind, Except.bind, numQubitsDM_eq h2]
      exact h1'

theorem reduceApplyNoise_chan (so : SetOrder) {ot : OpType} {values : Values} {gs : List Gate} {nss : List (List StdNoise)}
    (hn : List.Forall₂ Gate.NoiseIs gs nss) (hok : ∀ g ∈ gs, g.Ok n ot values)
    {ops : List (NDArray ℂ)} (hops : gs.mapM (fun g => g.operator ot values) = .ok ops)
    {ρ : DensityMatrix ℂ} (hρ : IsDM n ρ) :
    ∃ r, reduceApplyNoise so (List.zipWith (fun o (g : Gate) => (o, g.target, g.control)) ops gs) (gs.map Gate.noise) ρ
        = .ok r ∧ IsDM n r ∧ dmMat n r.array = noisyRun n ot values (gs.zip nss) (dmMat n ρ.array) := by
  induction hn generalizing ops ρ with
  | nil => cases hops; exact ⟨ρ, rfl, hρ, rfl⟩
  | @cons g ns gs nss hg hgs ih =>
    obtain ⟨⟨U, hU, hop⟩, hv⟩ := hok g (by simp)
    obtain ⟨os, hos, -⟩ := triples_ok (n := n) (ot := ot) (values := values) (gs := gs) fun g' h' => hok g' (by simp [h'])
    obtain rfl : ops = U :: os := by
      rw [List.mapM_cons, hU, hos] at hops
      exact (Except.ok.inj hops).symm
    obtain ⟨r, h1, h2, h3⟩ := applyOperatorWithNoise_chan so hg (n := n) ⟨hop, hv.ctl, hv.dims⟩ hρ
    obtain ⟨r', h1', h2', h3'⟩ := ih (fun g' h' => hok g' (by simp [h'])) hos h2
    refine ⟨r', ?_, h2', ?_⟩
    · rw [reduceApplyNoise, List.zipWith_cons_cons, List.map_cons, List.zip_cons_cons, List.foldlM_cons]
      simp only [h1]
      exact h1'
    · rw [h3', h3, List.zip_cons_cons, noisyRun, Gate.Ok.mat_eq hU]

theorem noisyRun_noiseless {ot : OpType} {values : Values} {gs : List Gate} {nss : List (List StdNoise)}
    (hn : List.Forall₂ Gate.NoiseIs gs nss) (hz : ∀ g ∈ gs, g.noise = none) (ρ : Matrix (Lab n) (Lab n) ℂ) :
    noisyRun n ot values (gs.zip nss) ρ
      = gatesMat n ot values gs * ρ * (gatesMat n ot values gs).conjTranspose := by
  induction hn generalizing ρ with
  | nil => simp [noisyRun, gatesMat]
  | @cons g ns gs nss hg _ ih =>
    have : ns = [] := by
      cases hg with
      | none => rfl
      | some h => rw [hz g (by simp)] at h; cases h
    subst this
    rw [List.zip_cons_cons, noisyRun, ih fun g' h' => hz g' (by simp [h'])]
    simp only [noisyStep, List.foldl_nil, conjBy, gatesMat, Matrix.conjTranspose_mul, mul_assoc]

/-- `apply_gates` with noisy (or noiseless) gates on a density matrix. -/
theorem applyGates_noisy_dm (so : SetOrder) {ot : OpType} {values : Values} {gs : List Gate}
    {nss : List (List StdNoise)} (hne : gs ≠ []) (hok : ∀ g ∈ gs, g.Ok n ot values)
    (hn : List.Forall₂ Gate.NoiseIs gs nss) {ρ : DensityMatrix ℂ} (hρ : IsDM n ρ) (merge : Bool) :
    ∃ r, applyGates so (.dm ρ) (.list gs) values ot false merge = .ok (.dm r) ∧ IsDM n r ∧
      dmMat n r.array = noisyRun n ot values (gs.zip nss) (dmMat n ρ.array) := by
  by_cases hz : ∀ g ∈ gs, g.noise = none
  · obtain ⟨r, h1, h2, h3⟩ := applyGates_dm so hne hok hz hρ merge
    exact ⟨r, h1, h2, by rw [h3, noisyRun_noiseless hn hz]⟩
  · have hz' : allNoiseless (gs.map Gate.noise) = false := by
      push Not at hz
      obtain ⟨g, hg, hn⟩ := hz
      rw [allNoiseless, List.all_eq_false]
      exact ⟨g.noise, List.mem_map_of_mem hg, by simpa using hn⟩
    obtain ⟨ops, h1, -⟩ := triples_ok hok
    obtain ⟨r, e1, e2, e3⟩ := reduceApplyNoise_chan so hn hok h1 hρ
    refine ⟨r, ?_, e2, e3⟩
    have hemp : gs.isEmpty = false := by cases gs <;> simp_all
    simp only [applyGates, prepareSequenceReduce, Bool.false_eq_true, if_false, h1, hz', Bool.false_and, bind,
      Except.bind, hemp, e1]

/-- A noisy list of gates on a state vector is simulated on its density matrix. -/
theorem applyGates_vec_noisy (so : SetOrder) {ot : OpType} {values : Values} {gs : List Gate}
    (hz : ¬ ∀ g ∈ gs, g.noise = none) (st : NDArray ℂ) (merge : Bool) :
    applyGates so (.vec st) (.list gs) values ot false merge
      = applyGates so (.dm (densityMat st)) (.list gs) values ot false merge := by
  have hz' : allNoiseless (gs.map Gate.noise) = false := by
    push Not at hz
    obtain ⟨g, hg, hn⟩ := hz
    rw [allNoiseless, List.all_eq_false]
    exact ⟨g.noise, List.mem_map_of_mem hg, by simpa using hn⟩
  have hemp : gs.isEmpty = false := by cases gs <;> simp_all
  simp only [applyGates, prepareSequenceReduce, Bool.false_eq_true, if_false, hz', Bool.false_and, hemp]
  rcases hm : gs.mapM (fun g => g.operator ot values) with e | ops
  · simp only [hm]; rfl
  · simp [hm, bind, Except.bind, hz']

end apply
end Verif
