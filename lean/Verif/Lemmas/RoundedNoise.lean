import Verif.SpecRoundedNoise
import Verif.Lemmas.RoundedEnergy
import Verif.Lemmas.Channel

/-! # Lemmas about runs on density matrices with rounded arithmetic -/

set_option autoImplicit false

namespace Verif
open NDArray
open scoped Matrix.Norms.L2Operator
variable {n : ℕ} {values : Values} {gs : List Gate} {A : ArithDM} {ε : ℝ}

instance : Nonempty (Lab n) := ⟨fun _ => 0⟩

theorem TraceNormLe.nonneg {X : Matrix (Lab n) (Lab n) ℂ} {c : ℝ} (h : TraceNormLe X c) : 0 ≤ c := by
  have := h 1
  rw [norm_one, mul_one] at this
  exact (norm_nonneg _).trans this

theorem TraceNormLe.mono {X : Matrix (Lab n) (Lab n) ℂ} {c d : ℝ} (h : TraceNormLe X c) (hcd : c ≤ d) : TraceNormLe X d :=
  fun O => (h O).trans (mul_le_mul_of_nonneg_right hcd (norm_nonneg _))

theorem TraceNormLe.add {X Y : Matrix (Lab n) (Lab n) ℂ} {c d : ℝ} (h : TraceNormLe X c) (h' : TraceNormLe Y d) :
    TraceNormLe (X + Y) (c + d) := fun O => by
  rw [mul_add, Matrix.trace_add, add_mul]
  exact (norm_add_le _ _).trans (add_le_add (h O) (h' O))

theorem TraceNormLe.zero : TraceNormLe (0 : Matrix (Lab n) (Lab n) ℂ) 0 := fun O => by simp

theorem trace_conjBy (O M X : Matrix (Lab n) (Lab n) ℂ) : (O * conjBy M X).trace = (M.conjTranspose * O * M * X).trace := by
  rw [conjBy, ← mul_assoc, Matrix.trace_mul_comm, ← mul_assoc, ← mul_assoc]

/-- A unitary step does not enlarge errors. -/
theorem TraceNormLe.conj {X M : Matrix (Lab n) (Lab n) ℂ} {c : ℝ} (h : TraceNormLe X c) (hM : ‖M‖ ≤ 1) :
    TraceNormLe (conjBy M X) c := fun O => by
  rw [trace_conjBy]
  refine (h _).trans (mul_le_mul_of_nonneg_left ?_ h.nonneg)
  have h1 : ‖M.conjTranspose‖ ≤ 1 := by rwa [Matrix.l2_opNorm_conjTranspose]
  calc ‖M.conjTranspose * O * M‖ ≤ ‖M.conjTranspose‖ * ‖O‖ * ‖M‖ :=
        (norm_mul_le _ _).trans (mul_le_mul_of_nonneg_right (norm_mul_le _ _) (norm_nonneg _))
    _ ≤ 1 * ‖O‖ * 1 := by gcongr
    _ = ‖O‖ := by ring

/-- Replacing a unitary matrix by a computed one. -/
theorem TraceNormLe.conj_sub {X M P : Matrix (Lab n) (Lab n) ℂ} {c a : ℝ} (h : TraceNormLe X c) (hM : ‖M‖ ≤ 1)
    (hP : ‖P - M‖ ≤ a - 1) : TraceNormLe (conjBy P X - conjBy M X) ((a ^ 2 - 1) * c) := fun O => by
  have ha : 1 ≤ a := by linarith [norm_nonneg (P - M)]
  have hPa : ‖P‖ ≤ a := by
    have := norm_add_le (P - M) M
    rw [sub_add_cancel] at this; linarith
  rw [mul_sub, Matrix.trace_sub, trace_conjBy, trace_conjBy, ← Matrix.trace_sub, ← sub_mul]
  have e : P.conjTranspose * O * P - M.conjTranspose * O * M
      = (P - M).conjTranspose * O * P + M.conjTranspose * O * (P - M) := by
    rw [Matrix.conjTranspose_sub]; noncomm_ring
  have h1 : ‖M.conjTranspose‖ ≤ 1 := by rwa [Matrix.l2_opNorm_conjTranspose]
  have h2 : ‖(P - M).conjTranspose‖ ≤ a - 1 := by rwa [Matrix.l2_opNorm_conjTranspose]
  have h3 : ‖P.conjTranspose * O * P - M.conjTranspose * O * M‖ ≤ (a ^ 2 - 1) * ‖O‖ := by
    rw [e]
    calc _ ≤ ‖(P - M).conjTranspose‖ * ‖O‖ * ‖P‖ + ‖M.conjTranspose‖ * ‖O‖ * ‖P - M‖ :=
          (norm_add_le _ _).trans (add_le_add
            ((norm_mul_le _ _).trans (mul_le_mul_of_nonneg_right (norm_mul_le _ _) (norm_nonneg _)))
            ((norm_mul_le _ _).trans (mul_le_mul_of_nonneg_right (norm_mul_le _ _) (norm_nonneg _))))
      _ ≤ (a - 1) * ‖O‖ * a + 1 * ‖O‖ * (a - 1) := by
          have : 0 ≤ a - 1 := by linarith
          gcongr
      _ = _ := by ring
  calc _ ≤ _ := h _
    _ ≤ c * ((a ^ 2 - 1) * ‖O‖) := mul_le_mul_of_nonneg_left h3 h.nonneg
    _ = _ := by ring

theorem ketNorm_sq (v : Lab n → ℂ) : ((ketNorm v ^ 2 : ℝ) : ℂ) = ∑ x, star (v x) * v x := by
  rw [ketNorm, Real.sq_sqrt (Finset.sum_nonneg fun _ _ => sq_nonneg _)]
  push_cast
  refine Finset.sum_congr rfl fun x _ => ?_
  rw [← Complex.conj_mul']
  rfl

theorem inner_mulVec (M : Matrix (Lab n) (Lab n) ℂ) (v w : Lab n → ℂ) :
    ∑ x, star (v x) * (M.conjTranspose.mulVec w) x = ∑ x, star (M.mulVec v x) * w x := by
  have := Matrix.dotProduct_mulVec (star v) M.conjTranspose w
  rw [← Matrix.star_mulVec] at this
  exact this

theorem norm_le_of_ketNorm {M : Matrix (Lab n) (Lab n) ℂ} {c : ℝ} (hc : 0 ≤ c) (h : ∀ v, ketNorm (M.mulVec v) ≤ c * ketNorm v) :
    ‖M‖ ≤ c := by
  refine Matrix.l2_opNorm_def M ▸ ContinuousLinearMap.opNorm_le_bound _ hc fun x => ?_
  have := h x.ofLp
  rw [ketNorm_eq, ketNorm_eq] at this
  exact this

/-- The adjoint of a channel does not enlarge observables. -/
theorem kraus_contract {As : List (Matrix (Lab n) (Lab n) ℂ)} (h : (As.map fun A => A.conjTranspose * A).sum = 1)
    (O : Matrix (Lab n) (Lab n) ℂ) : ‖(As.map fun A => A.conjTranspose * O * A).sum‖ ≤ ‖O‖ := by
  rw [← Fin.sum_univ_fun_getElem] at h ⊢
  have hsq : ∀ v : Lab n → ℂ, ∑ i : Fin As.length, ketNorm (As[i.1].mulVec v) ^ 2 = ketNorm v ^ 2 := by
    intro v
    have : ((∑ i : Fin As.length, ketNorm (As[i.1].mulVec v) ^ 2 : ℝ) : ℂ) = ((ketNorm v ^ 2 : ℝ) : ℂ) := by
      rw [Complex.ofReal_sum]
      simp only [ketNorm_sq, ← inner_mulVec]
      rw [Finset.sum_comm]
      refine Finset.sum_congr rfl fun x _ => ?_
      rw [← Finset.mul_sum]
      congr 1
      have e : ∑ i : Fin As.length, As[i.1].conjTranspose.mulVec (As[i.1].mulVec v) = v := by
        simp only [Matrix.mulVec_mulVec]
        rw [← Matrix.sum_mulVec, h, Matrix.one_mulVec]
      have := congrFun e x
      rwa [Finset.sum_apply] at this
    exact_mod_cast this
  refine norm_le_of_ketNorm (norm_nonneg _) fun v => ?_
  set y := (∑ i : Fin As.length, As[i.1].conjTranspose * O * As[i.1]).mulVec v with hy
  have key : ketNorm y ^ 2 ≤ ‖O‖ * (ketNorm y * ketNorm v) := by
    have e : ((ketNorm y ^ 2 : ℝ) : ℂ)
        = ∑ i : Fin As.length, ∑ x, star (As[i.1].mulVec y x) * (O.mulVec (As[i.1].mulVec v)) x := by
      have ey : ∀ x, y x = ∑ i : Fin As.length, (As[i.1].conjTranspose.mulVec (O.mulVec (As[i.1].mulVec v))) x := fun x => by
        rw [hy, Matrix.sum_mulVec, Finset.sum_apply]
        simp only [Matrix.mulVec_mulVec, mul_assoc]
      rw [ketNorm_sq]
      simp only [← inner_mulVec]
      rw [Finset.sum_comm]
      refine Finset.sum_congr rfl fun x _ => ?_
      rw [← Finset.mul_sum, ← ey]
    have e2 : ketNorm y ^ 2 = ‖((ketNorm y ^ 2 : ℝ) : ℂ)‖ := by
      rw [Complex.norm_real, Real.norm_of_nonneg (sq_nonneg _)]
    rw [e2, e]
    calc _ ≤ ∑ i : Fin As.length, ketNorm (As[i.1].mulVec y) * (‖O‖ * ketNorm (As[i.1].mulVec v)) := by
          refine (norm_sum_le _ _).trans (Finset.sum_le_sum fun i _ => (norm_inner_le _ _).trans ?_)
          exact mul_le_mul_of_nonneg_left (ketNorm_mulVec _ _) (ketNorm_nonneg _)
      _ = ‖O‖ * ∑ i : Fin As.length, ketNorm (As[i.1].mulVec y) * ketNorm (As[i.1].mulVec v) := by
          rw [Finset.mul_sum]; exact Finset.sum_congr rfl fun i _ => by ring
      _ ≤ ‖O‖ * (ketNorm y * ketNorm v) := by
          refine mul_le_mul_of_nonneg_left ?_ (norm_nonneg _)
          refine (Real.sum_mul_le_sqrt_mul_sqrt _ _ _).trans (le_of_eq ?_)
          rw [hsq, hsq, Real.sqrt_sq (ketNorm_nonneg _), Real.sqrt_sq (ketNorm_nonneg _)]
  rcases (ketNorm_nonneg y).eq_or_lt with h0 | h0
  · rw [← h0]; exact mul_nonneg (norm_nonneg _) (ketNorm_nonneg _)
  · have : ketNorm y * ketNorm y ≤ ketNorm y * (‖O‖ * ketNorm v) := by nlinarith
    exact le_of_mul_le_mul_left this h0

/-- A channel does not enlarge errors. -/
theorem TraceNormLe.kraus {S : List ℕ} {f : Matrix (Lab n) (Lab n) ℂ → Matrix (Lab n) (Lab n) ℂ} (hf : KrausOn n S f)
    {X : Matrix (Lab n) (Lab n) ℂ} {c : ℝ} (h : TraceNormLe X c) : TraceNormLe (f X) c := fun O => by
  obtain ⟨As, -, h2, h3⟩ := hf
  have e : ∀ l : List (Matrix (Lab n) (Lab n) ℂ), (O * (l.map fun A => conjBy A X).sum).trace
      = ((l.map fun A => A.conjTranspose * O * A).sum * X).trace := by
    intro l
    induction l with
    | nil => simp
    | cons A l ih =>
      simp only [List.map_cons, List.sum_cons, mul_add, add_mul, Matrix.trace_add, ih, trace_conjBy]
  rw [h3, e]
  exact (h _).trans (mul_le_mul_of_nonneg_left (kraus_contract h2 O) h.nonneg)

theorem KrausOn.sub {S : List ℕ} {f : Matrix (Lab n) (Lab n) ℂ → Matrix (Lab n) (Lab n) ℂ} (hf : KrausOn n S f)
    (X Y : Matrix (Lab n) (Lab n) ℂ) : f (X - Y) = f X - f Y := by
  obtain ⟨As, -, -, h3⟩ := hf
  rw [h3, h3, h3]
  clear h3
  induction As with
  | nil => simp
  | cons A l ih =>
    have : conjBy A (X - Y) = conjBy A X - conjBy A Y := by simp only [conjBy, mul_sub, sub_mul]
    rw [List.map_cons, List.map_cons, List.map_cons, List.sum_cons, List.sum_cons, List.sum_cons, ih, this]
    exact sub_add_sub_comm _ _ _ _

theorem TraceNormLe.of_near {X Y : Matrix (Lab n) (Lab n) ℂ} {T a : ℝ} (h : TraceNormLe Y T)
    (hd : TraceNormLe (X - Y) ((a - 1) * T)) : TraceNormLe X (a * T) := by
  have := hd.add h
  rw [sub_add_cancel] at this
  exact this.mono (le_of_eq (by ring))

/-- The loop over the noise of a gate, exact and computed. -/
theorem noiseLoop_near (hε : 0 ≤ ε) (hA : A.Accurate n ε values gs) {g : Gate} (hg : g ∈ gs) {all : List NoiseInstance}
    (hall : g.noise = some all) {t : ℕ} (ht : g.target = [t]) (htn : t < n) {T : ℝ} {nis : List NoiseInstance}
    {ns : List StdNoise} (h : List.Forall₂ NoiseInstance.Is nis ns) (hsub : ∀ ni ∈ nis, ni ∈ all) :
    ∀ {ρ ρ' : DensityMatrix ℂ} {m : ℕ}, IsDM n ρ → IsDM n ρ' → TraceNormLe (dmMat n ρ.array) T →
      TraceNormLe (dmMat n ρ'.array - dmMat n ρ.array) (((1 + ε) ^ m - 1) * T) →
    ∃ r r', (nis.map NoiseInstance.kraus).foldlM (fun dm kraus => do
        let ks ← (← kraus).mapM fun k => expandOperator k [t] (List.range n)
        applyKrausSum ks dm.array (List.range n)) ρ = .ok r ∧
      nis.foldlM (fun dm ni => A.noise dm ni [t] (List.range n)) ρ' = .ok r' ∧ IsDM n r ∧ IsDM n r' ∧
      TraceNormLe (dmMat n r.array) T ∧
      TraceNormLe (dmMat n r'.array - dmMat n r.array) (((1 + ε) ^ (m + nis.length) - 1) * T) := by
  induction h with
  | nil => intro ρ ρ' m h1 h2 h3 h4; exact ⟨ρ, ρ', rfl, rfl, h1, h2, h3, h4⟩
  | @cons ni s nis ns h _ ih =>
    intro ρ ρ' m h1 h2 h3 h4
    obtain ⟨ks, hk, hgood⟩ := h.kraus
    obtain ⟨r, a1, a2, a3⟩ := krausStep hgood htn h1
    obtain ⟨r', b1, b2, b3⟩ := hA.noise g hg all hall ni (hsub ni (by simp)) s h t ht ρ' _ h2 (h3.of_near h4)
    have hK := krausOn_chan (n := n) h htn (S := [t]) (by simp)
    have hr : TraceNormLe (dmMat n r.array) T := by rw [a3]; exact h3.kraus hK
    have hd : TraceNormLe (dmMat n r'.array - dmMat n r.array) (((1 + ε) ^ (m + 1) - 1) * T) := by
      have := b3.add (h4.kraus hK)
      rw [hK.sub, ← a3] at this
      simp only [sub_add_sub_cancel] at this
      exact this.mono (le_of_eq (by ring))
    obtain ⟨q, q', c1, c2, c3, c4, c5, c6⟩ := ih (fun x hx => hsub x (by simp [hx])) a2 b2 hr hd
    refine ⟨q, q', ?_, ?_, c3, c4, c5, ?_⟩
    · rw [List.map_cons, List.foldlM_cons, hk]
      change (do let r ← (do let ks ← ks.mapM fun k => expandOperator k [t] (List.range n)
                             applyKrausSum ks ρ.array (List.range n)); _) = _
      rw [a1]; exact c1
    · rw [List.foldlM_cons, b1]; exact c2
    · rw [List.length_cons, show m + (nis.length + 1) = m + 1 + nis.length by omega]; exact c6

/-- The noise paired with an operation: none, or that of a gate of the circuit on the same qubits. -/
def NoisyOk (gs : List Gate) (o : NDArray ℂ × List ℕ × Ctl) (z : Option (List NoiseInstance)) : Prop :=
  z = none ∨ ∃ g ∈ gs, g.noise = z ∧ o.2 = (g.target, g.control) ∧ ∃ ns, g.NoiseIs ns

/-- A gate and its noise, exact and computed. -/
theorem step_near (so : SetOrder) (hε : 0 ≤ ε) (hA : A.Accurate n ε values gs) {T : ℝ} {j m : ℕ}
    {o p : NDArray ℂ × List ℕ × Ctl} (ho : NearOp n gs ε j o p) {z : Option (List NoiseInstance)} (hz : NoisyOk gs o z)
    {ρ ρ' : DensityMatrix ℂ} (h1 : IsDM n ρ) (h2 : IsDM n ρ') (h3 : TraceNormLe (dmMat n ρ.array) T)
    (h4 : TraceNormLe (dmMat n ρ'.array - dmMat n ρ.array) (((1 + ε) ^ m - 1) * T)) :
    ∃ r r', applyOperatorWithNoise so ρ o.1 o.2.1 o.2.2 (noiseKraus z) = .ok r ∧ A.step ρ' p z = .ok r' ∧
      IsDM n r ∧ IsDM n r' ∧ TraceNormLe (dmMat n r.array) T ∧
      TraceNormLe (dmMat n r'.array - dmMat n r.array) (((1 + ε) ^ (m + 2 * j + 1 + (z.getD []).length) - 1) * T) := by
  obtain ⟨r, a1, a2, a3⟩ := applyOperatorDM_opMat so h1 ho.wf
  have h3' := h3.of_near h4
  obtain ⟨r', b1, b2, b3⟩ : ∃ r', A.app ρ' p.1 p.2.1 p.2.2 = .ok r' ∧ IsDM n r' ∧
      TraceNormLe (dmMat n r'.array - conjBy (opMat n p) (dmMat n ρ'.array))
        (ε * (‖opMat n p‖ ^ 2 * ((1 + ε) ^ m * T))) := by
    obtain ⟨g, hg, hgt⟩ := ho.gate
    obtain ⟨p, tc⟩ := p
    obtain rfl : tc = (g.target, g.control) := ho.same.symm.trans hgt
    exact hA.app g hg ρ' p _ h2 ho.wf' h3'
  have hT := h3.nonneg
  have hM : ‖opMat n o‖ ≤ 1 := norm_le_one_of_star_mul (gateMat_unitary ho.wf.dims ho.unitary).1
  have hd : ‖opMat n p - opMat n o‖ ≤ (1 + ε) ^ j - 1 := by
    refine le_trans ?_ ho.near
    rw [opMat, opMat, ← ho.same]
    exact gateMat_dist _ _ ho.wf.dims
  have hP : ‖opMat n p‖ ≤ (1 + ε) ^ j := by
    calc ‖opMat n p‖ = ‖(opMat n p - opMat n o) + opMat n o‖ := by rw [sub_add_cancel]
      _ ≤ ‖opMat n p - opMat n o‖ + ‖opMat n o‖ := norm_add_le _ _
      _ ≤ _ := by linarith
  change dmMat n r.array = conjBy (opMat n o) (dmMat n ρ.array) at a3
  have hr : TraceNormLe (dmMat n r.array) T := by rw [a3]; exact h3.conj hM
  have hrr : TraceNormLe (dmMat n r'.array - dmMat n r.array) (((1 + ε) ^ (m + 2 * j + 1) - 1) * T) := by
    have e : dmMat n r'.array - dmMat n r.array = (dmMat n r'.array - conjBy (opMat n p) (dmMat n ρ'.array))
        + ((conjBy (opMat n p) (dmMat n ρ'.array) - conjBy (opMat n o) (dmMat n ρ'.array))
          + conjBy (opMat n o) (dmMat n ρ'.array - dmMat n ρ.array)) := by
      rw [a3]; simp only [conjBy, mul_sub, sub_mul]; abel
    rw [e]
    have b3' : ε * (‖opMat n p‖ ^ 2 * ((1 + ε) ^ m * T)) ≤ ε * (((1 + ε) ^ j) ^ 2 * ((1 + ε) ^ m * T)) := by
      have : 0 ≤ (1 + ε) ^ m * T := h3'.nonneg
      gcongr
    refine ((b3.mono b3').add ((h3'.conj_sub hM hd).add (h4.conj hM))).mono (le_of_eq ?_)
    ring
  rcases hz with rfl | ⟨g, hg, hgz, hgt, ns, hns⟩
  · refine ⟨r, r', ?_, ?_, a2, b2, hr, by simpa using hrr⟩
    · simp only [applyOperatorWithNoise, a1, noiseKraus, Option.map_none]; rfl
    · simp only [ArithDM.step, b1]; rfl
  · cases hns with
    | none h =>
      obtain rfl : z = none := hgz.symm.trans h
      refine ⟨r, r', ?_, ?_, a2, b2, hr, by simpa using hrr⟩
      · simp only [applyOperatorWithNoise, a1, noiseKraus, Option.map_none]; rfl
      · simp only [ArithDM.step, b1]; rfl
    | @some nis _ h hn ht =>
      obtain rfl : z = some nis := hgz.symm.trans h
      rcases ht with rfl | ⟨t, ht⟩
      · refine ⟨r, r', ?_, ?_, a2, b2, hr, by simpa using hrr⟩
        · simp only [applyOperatorWithNoise, a1, noiseKraus, Option.map_some]; rfl
        · simp only [ArithDM.step, b1]; rfl
      · have hot : o.2.1 = [t] := by rw [hgt]; exact ht
        have hpt : p.2.1 = [t] := by rw [← ho.same]; exact hot
        have htn : t < n := ho.wf.dims.lt t (by simp [hot])
        obtain ⟨q, q', c1, c2, c3, c4, c5, c6⟩ := noiseLoop_near hε hA hg h ht htn hn (fun _ hx => hx) a2 b2 hr hrr
        refine ⟨q, q', ?_, ?_, c3, c4, c5, by simpa using c6⟩
        · simp only [applyOperatorWithNoise, a1, noiseKraus, Option.map_some, bind, Except.bind, numQubitsDM_eq a2]
          rw [hot]; exact c1
        · simp only [ArithDM.step, b1, bind, Except.bind, numQubitsDM_eq b2]
          rw [hpt]; exact c2

/-- The number of noise channels of a list of noise tuples. -/
def noiseCount (zs : List (Option (List NoiseInstance))) : ℕ := (zs.map fun z => (z.getD []).length).sum

theorem dm_foldlM_near (so : SetOrder) (hε : 0 ≤ ε) (hA : A.Accurate n ε values gs) {T : ℝ} {J : ℕ}
    {ops ops' : List (NDArray ℂ × List ℕ × Ctl)} (h : NearOps n gs ε J ops ops') :
    ∀ {zs : List (Option (List NoiseInstance))} (_ : ∀ x ∈ ops.zip zs, NoisyOk gs x.1 x.2)
      {ρ ρ' : DensityMatrix ℂ} {m : ℕ}, IsDM n ρ → IsDM n ρ' → TraceNormLe (dmMat n ρ.array) T →
      TraceNormLe (dmMat n ρ'.array - dmMat n ρ.array) (((1 + ε) ^ m - 1) * T) →
    ∃ r r', reduceApplyNoise so ops zs ρ = .ok r ∧ (ops'.zip zs).foldlM (fun st o => A.step st o.1 o.2) ρ' = .ok r' ∧
      IsDM n r ∧ IsDM n r' ∧ TraceNormLe (dmMat n r.array) T ∧
      TraceNormLe (dmMat n r'.array - dmMat n r.array)
        (((1 + ε) ^ (m + 2 * J + ops.length + noiseCount zs) - 1) * T) := by
  have grow : ∀ {X : Matrix (Lab n) (Lab n) ℂ} {a b : ℕ}, 0 ≤ T → a ≤ b →
      TraceNormLe X (((1 + ε) ^ a - 1) * T) → TraceNormLe X (((1 + ε) ^ b - 1) * T) := by
    intro X a b hT hab hX
    refine hX.mono ?_
    gcongr
    linarith
  induction h with
  | nil =>
    intro zs _ ρ ρ' m h1 h2 h3 h4
    exact ⟨ρ, ρ', rfl, rfl, h1, h2, h3, grow h3.nonneg (by omega) h4⟩
  | @cons j K o p os ps ho hos ih =>
    intro zs hz ρ ρ' m h1 h2 h3 h4
    cases zs with
    | nil => exact ⟨ρ, ρ', rfl, rfl, h1, h2, h3, grow h3.nonneg (by omega) h4⟩
    | cons z zs =>
      obtain ⟨r, r', a1, a2, a3, a4, a5, a6⟩ := step_near so hε hA ho (hz (o, z) (by simp)) h1 h2 h3 h4
      obtain ⟨q, q', c1, c2, c3, c4, c5, c6⟩ := ih (zs := zs) (fun x hx => hz x (by simp [hx])) a3 a4 a5 a6
      refine ⟨q, q', ?_, ?_, c3, c4, c5, grow h3.nonneg (le_of_eq ?_) c6⟩
      · rw [reduceApplyNoise, List.zip_cons_cons, List.foldlM_cons, a1]; exact c1
      · rw [List.zip_cons_cons, List.foldlM_cons, a2]; exact c2
      · simp only [noiseCount, List.map_cons, List.sum_cons, List.length_cons]; omega

/-- The part of the arithmetic that does not concern states. -/
noncomputable def ArithDM.toArith (A : ArithDM) : Arith := ⟨A.op, A.mul, applyOperator⟩

theorem ArithDM.Accurate.toArith (hε : 0 ≤ ε) (hA : A.Accurate n ε values gs) : A.toArith.Accurate n ε values gs where
  op := hA.op
  mul := hA.mul
  app := fun g _ st u hst hu => by
    obtain ⟨r, h1, h2, h3⟩ := applyOperator_opMat hst hu
    refine ⟨r, h1, h2, ?_⟩
    rw [h3, sub_self]
    have h0 : ketNorm (0 : Lab n → ℂ) = 0 := by simp [ketNorm]
    rw [h0]
    exact mul_nonneg hε (mul_nonneg (norm_nonneg _) (ketNorm_nonneg _))

theorem zipWith_noisyOk : ∀ {hs : List Gate} (_ : ∀ g ∈ hs, g ∈ gs) (_ : ∀ g ∈ hs, ∃ ns, g.NoiseIs ns)
    (ops : List (NDArray ℂ)), ∀ x ∈ (List.zipWith (fun o (g : Gate) => (o, g.target, g.control)) ops hs).zip
      (hs.map Gate.noise), NoisyOk gs x.1 x.2
  | [], _, _, ops => by simp
  | g :: hs, h1, h2, [] => by simp
  | g :: hs, h1, h2, u :: ops => by
    intro x hx
    rw [List.zipWith_cons_cons, List.map_cons, List.zip_cons_cons, List.mem_cons] at hx
    rcases hx with rfl | hx
    · exact .inr ⟨g, h1 g (by simp), rfl, rfl, h2 g (by simp)⟩
    · exact zipWith_noisyOk (fun g hg => h1 g (by simp [hg])) (fun g hg => h2 g (by simp [hg])) ops x hx

theorem noiseCount_perm {hs : List Gate} (h : hs.Perm gs) : noiseCount (hs.map Gate.noise) = noiseSteps gs := by
  rw [noiseCount, noiseSteps, List.map_map]
  exact (h.map _).sum_eq

/-- The exact and computed operations of a list of noisy gates. -/
theorem prepare_near_dm (hε : 0 ≤ ε) (hA : A.Accurate n ε values gs) (h : ∀ g ∈ gs, g.UnitaryOn n values) (hne : gs ≠ [])
    (hns : ∀ g ∈ gs, ∃ ns, g.NoiseIs ns) (group merge : Bool) :
    ∃ ops ops' zs J, prepareSequenceReduce (fun g => g.operator .unitary values) NDArray.matmul (.list gs) group merge
        = .ok (ops, zs) ∧
      prepareSequenceReduce A.op A.mul (.list gs) group merge = .ok (ops', zs) ∧
      NearOps n gs ε J ops ops' ∧ (∀ x ∈ ops.zip zs, NoisyOk gs x.1 x.2) ∧
      2 * J + ops.length + noiseCount zs ≤ 4 * gs.length + noiseSteps gs := by
  obtain ⟨hs, hhs, hperm⟩ : ∃ hs, (if group then groupByIndex gs else gs) = hs ∧ hs.Perm gs := by
    cases group with
    | false => exact ⟨gs, rfl, .refl _⟩
    | true => exact ⟨_, rfl, groupByIndex_perm gs⟩
  have hA' := hA.toArith hε
  obtain ⟨ops, ops', e1, e2, e3, e4⟩ := triples_near hA' (fun g hg => hperm.mem_iff.1 hg)
    (fun g hg => h g (hperm.mem_iff.1 hg))
  have hemp : hs.isEmpty = false := by
    cases hs with
    | nil => exact absurd hperm.symm.eq_nil hne
    | cons _ _ => rfl
  have hl := hperm.length_eq
  have hc := noiseCount_perm hperm
  change hs.mapM A.op = .ok ops' at e2
  by_cases hm : (allNoiseless (hs.map Gate.noise) && merge) = true
  · obtain ⟨res, res', Q, f1, f2, f3, f4⟩ := mergeOperators_near hε hA' e3
    change mergeOperators A.mul _ = .ok res' at f2
    refine ⟨res, res', hs.map Gate.noise, Q, ?_, ?_, f3, ?_, by rw [e4] at f4; omega⟩
    · simp only [prepareSequenceReduce, hhs, e1, hm]
      simp only [bind, Except.bind, hemp, Bool.false_eq_true, if_false, if_true, f1]
    · simp only [prepareSequenceReduce, hhs, e2, hm]
      simp only [bind, Except.bind, hemp, Bool.false_eq_true, if_false, if_true, f2]
    · intro x hx
      have h1 := (List.of_mem_zip (a := x.1) (b := x.2) hx).2
      have h2 := List.all_eq_true.1 (Bool.and_eq_true_iff.1 hm).1 _ h1
      exact .inl (by simpa using h2)
  · rw [Bool.not_eq_true] at hm
    refine ⟨_, _, hs.map Gate.noise, _, ?_, ?_, e3,
      zipWith_noisyOk (fun g hg => hperm.mem_iff.1 hg) (fun g hg => hns g (hperm.mem_iff.1 hg)) ops, by rw [e4]; omega⟩
    · simp only [prepareSequenceReduce, hhs, e1, hm]
      simp [hemp, bind, Except.bind]
    · simp only [prepareSequenceReduce, hhs, e2, hm]
      simp [hemp, bind, Except.bind]

/-- The trace norm of a positive matrix is its trace. -/
theorem TraceNormLe.of_conj (B : Matrix (Lab n) (Lab n) ℂ) : TraceNormLe (B.conjTranspose * B) (B.conjTranspose * B).trace.re := by
  intro O
  have hcol : ∀ M : Matrix (Lab n) (Lab n) ℂ, ∀ i, M.mulVec (fun x => B.conjTranspose x i) = fun x => (M * B.conjTranspose) x i :=
    fun M i => by funext x; rfl
  have e : (O * (B.conjTranspose * B)).trace
      = ∑ i, ∑ x, star (B.conjTranspose x i) * O.mulVec (fun x => B.conjTranspose x i) x := by
    rw [← mul_assoc, Matrix.trace_mul_comm, Matrix.trace]
    refine Finset.sum_congr rfl fun i _ => ?_
    rw [Matrix.diag_apply, Matrix.mul_apply]
    refine Finset.sum_congr rfl fun x _ => ?_
    rw [hcol, Matrix.conjTranspose_apply, star_star]
  have e' : (B.conjTranspose * B).trace.re = ∑ i, ketNorm (fun x => B.conjTranspose x i) ^ 2 := by
    have : (B.conjTranspose * B).trace = ((∑ i, ketNorm (fun x => B.conjTranspose x i) ^ 2 : ℝ) : ℂ) := by
      rw [Complex.ofReal_sum, Matrix.trace_mul_comm, Matrix.trace]
      refine Finset.sum_congr rfl fun i _ => ?_
      rw [ketNorm_sq, Matrix.diag_apply, Matrix.mul_apply]
      exact Finset.sum_congr rfl fun x _ => by rw [Matrix.conjTranspose_apply, star_star]
    rw [this, Complex.ofReal_re]
  rw [e, e', Finset.sum_mul]
  refine (norm_sum_le _ _).trans (Finset.sum_le_sum fun i _ => (norm_inner_le _ _).trans ?_)
  calc _ ≤ ketNorm (fun x => B.conjTranspose x i) * (‖O‖ * ketNorm (fun x => B.conjTranspose x i)) :=
        mul_le_mul_of_nonneg_left (ketNorm_mulVec _ _) (ketNorm_nonneg _)
    _ = _ := by ring

theorem frob_nonneg (X : Matrix (Lab n) (Lab n) ℂ) : 0 ≤ frob X := Real.sqrt_nonneg _

theorem frob_sq (X : Matrix (Lab n) (Lab n) ℂ) : frob X ^ 2 = ∑ i, ∑ j, ‖X i j‖ ^ 2 :=
  Real.sq_sqrt (Finset.sum_nonneg fun _ _ => Finset.sum_nonneg fun _ _ => sq_nonneg _)

theorem ketNorm_sq' (v : Lab n → ℂ) : ketNorm v ^ 2 = ∑ b, ‖v b‖ ^ 2 :=
  Real.sq_sqrt (Finset.sum_nonneg fun _ _ => sq_nonneg _)

/-- The operator norm is at most the root of the sum of squares. -/
theorem norm_le_frob (X : Matrix (Lab n) (Lab n) ℂ) : ‖X‖ ≤ frob X := by
  refine norm_le_of_ketNorm (frob_nonneg X) fun v => ?_
  refine (sq_le_sq₀ (ketNorm_nonneg _) (mul_nonneg (frob_nonneg _) (ketNorm_nonneg _))).1 ?_
  rw [mul_pow, frob_sq, ketNorm_sq', ketNorm_sq', Finset.sum_mul]
  refine Finset.sum_le_sum fun i _ => ?_
  calc ‖X.mulVec v i‖ ^ 2 ≤ (∑ j, ‖X i j‖ * ‖v j‖) ^ 2 := by
        gcongr
        refine (norm_sum_le _ _).trans (le_of_eq (Finset.sum_congr rfl fun j _ => norm_mul _ _))
    _ ≤ _ := Finset.sum_mul_sq_le_sq_mul_sq _ _ _

/-- The root of the sum of squares is at most `√(2^n)` times the operator norm. -/
theorem frob_le_norm (X : Matrix (Lab n) (Lab n) ℂ) : frob X ≤ Real.sqrt (2 ^ n) * ‖X‖ := by
  refine (sq_le_sq₀ (frob_nonneg X) (mul_nonneg (Real.sqrt_nonneg _) (norm_nonneg _))).1 ?_
  rw [mul_pow, Real.sq_sqrt (by positivity), frob_sq, Finset.sum_comm]
  have hcol : ∀ j, ∑ i, ‖X i j‖ ^ 2 ≤ ‖X‖ ^ 2 := by
    intro j
    have h1 := ketNorm_mulVec X (Pi.single j 1)
    have h2 : ketNorm (Pi.single j 1 : Lab n → ℂ) = 1 := by
      rw [ketNorm, Real.sqrt_eq_one]
      rw [Finset.sum_eq_single j (fun b _ hb => by simp [Pi.single_eq_of_ne hb]) (by simp)]
      simp
    rw [h2, mul_one] at h1
    have h3 : X.mulVec (Pi.single j 1) = fun i => X i j := by
      funext i; simp [Matrix.mulVec_single]
    rw [h3] at h1
    calc ∑ i, ‖X i j‖ ^ 2 = ketNorm (fun i => X i j) ^ 2 := (ketNorm_sq' _).symm
      _ ≤ ‖X‖ ^ 2 := by have := ketNorm_nonneg (fun i => X i j); gcongr
  calc _ ≤ ∑ _j : Lab n, ‖X‖ ^ 2 := Finset.sum_le_sum fun j _ => hcol j
    _ = 2 ^ n * ‖X‖ ^ 2 := by
        rw [Finset.sum_const, Finset.card_univ, nsmul_eq_mul]
        simp [Lab]

theorem trace_mul_le_frob (O X : Matrix (Lab n) (Lab n) ℂ) : ‖(O * X).trace‖ ≤ frob O * frob X := by
  have h : (O * X).trace = ∑ p : Lab n × Lab n, O p.1 p.2 * X p.2 p.1 := by
    rw [Fintype.sum_prod_type, Matrix.trace]
    rfl
  rw [h]
  have h1 : frob O = Real.sqrt (∑ p : Lab n × Lab n, ‖O p.1 p.2‖ ^ 2) := by
    rw [frob, Fintype.sum_prod_type]
  have h2 : frob X = Real.sqrt (∑ p : Lab n × Lab n, ‖X p.2 p.1‖ ^ 2) := by
    rw [frob, Fintype.sum_prod_type, Finset.sum_comm]
  rw [h1, h2]
  refine (norm_sum_le _ _).trans (le_trans (le_of_eq (Finset.sum_congr rfl fun p _ => norm_mul _ _)) ?_)
  exact Real.sum_mul_le_sqrt_mul_sqrt _ _ _

/-- Bounds entry by entry are bounds in the trace norm. -/
theorem TraceNormLe.of_frob (X : Matrix (Lab n) (Lab n) ℂ) : TraceNormLe X (Real.sqrt (2 ^ n) * frob X) := fun O => by
  calc _ ≤ frob O * frob X := trace_mul_le_frob O X
    _ ≤ (Real.sqrt (2 ^ n) * ‖O‖) * frob X := mul_le_mul_of_nonneg_right (frob_le_norm O) (frob_nonneg X)
    _ = _ := by ring

/-- The root of the sum of squares is at most the trace norm. -/
theorem TraceNormLe.frob_le {X : Matrix (Lab n) (Lab n) ℂ} {c : ℝ} (h : TraceNormLe X c) : frob X ≤ c := by
  have h1 : (X.conjTranspose * X).trace = ((frob X ^ 2 : ℝ) : ℂ) := by
    rw [frob_sq, Finset.sum_comm, Matrix.trace]
    push_cast
    refine Finset.sum_congr rfl fun j _ => ?_
    rw [Matrix.diag_apply, Matrix.mul_apply]
    exact Finset.sum_congr rfl fun i _ => by rw [Matrix.conjTranspose_apply]; exact Complex.conj_mul' _
  have h2 := h X.conjTranspose
  rw [h1, Complex.norm_real, Real.norm_of_nonneg (sq_nonneg _), Matrix.l2_opNorm_conjTranspose] at h2
  have h3 : frob X ^ 2 ≤ c * frob X := h2.trans (mul_le_mul_of_nonneg_left (norm_le_frob X) h.nonneg)
  rcases (frob_nonneg X).eq_or_lt with h0 | h0
  · rw [← h0]; exact h.nonneg
  · exact le_of_mul_le_mul_right (by rw [← sq]; exact h3) h0

end Verif
