import Verif.SpecFloat
import Verif.NpMap
import Verif.Lemmas.Rounding
import Verif.Lemmas.Circuit

/-! # Computed contractions against exact ones -/

set_option autoImplicit false

namespace Verif
open NDArray
open scoped Matrix.Norms.L2Operator

/-! ## Sums -/

theorem sum_norm_perm {l l' : List ℂ} (h : l.Perm l') : (l.map (‖·‖)).sum = (l'.map (‖·‖)).sum := (h.map _).sum_eq

theorem norm_list_sum_le (l : List ℂ) : ‖l.sum‖ ≤ (l.map (‖·‖)).sum := by
  induction l with
  | nil => simp
  | cons x l ih => simpa using (norm_add_le _ _).trans (add_le_add le_rfl ih)

theorem SumsTo.err {plus : ℂ → ℂ → ℂ} {u : ℝ} (hu : 0 ≤ u) (hp : ∀ x y, ‖plus x y - (x + y)‖ ≤ u * ‖x + y‖) {l : List ℂ} {s : ℂ}
    (h : SumsTo plus l s) : ‖s - l.sum‖ ≤ ((1 + u) ^ (l.length - 1) - 1) * (l.map (‖·‖)).sum := by
  induction h with
  | nil => simp
  | one x => simp
  | @add l l' xs a b hl hl' hperm h1 h2 ih1 ih2 =>
    rw [hperm.sum_eq, hperm.length_eq, sum_norm_perm hperm, List.map_append, List.sum_append, List.sum_append, List.length_append]
    have n1 := List.length_pos_iff.2 hl
    have n2 := List.length_pos_iff.2 hl'
    have b1 : ‖l.sum‖ ≤ (l.map (‖·‖)).sum := norm_list_sum_le l
    have b2 : ‖l'.sum‖ ≤ (l'.map (‖·‖)).sum := norm_list_sum_le l'
    have p1 : (1 + u) * (1 + u) ^ (l.length - 1) ≤ (1 + u) ^ (l.length + l'.length - 1) := by
      rw [← pow_succ']; exact pow_le_pow_right₀ (by linarith) (by omega)
    have p2 : (1 + u) * (1 + u) ^ (l'.length - 1) ≤ (1 + u) ^ (l.length + l'.length - 1) := by
      rw [← pow_succ']; exact pow_le_pow_right₀ (by linarith) (by omega)
    generalize (1 + u) ^ (l.length - 1) = P at *
    generalize (1 + u) ^ (l'.length - 1) = Q at *
    generalize (1 + u) ^ (l.length + l'.length - 1) = R at *
    have s1 : 0 ≤ (l.map (‖·‖)).sum := (norm_nonneg _).trans b1
    have s2 : 0 ≤ (l'.map (‖·‖)).sum := (norm_nonneg _).trans b2
    generalize (l.map (‖·‖)).sum = S at *
    generalize (l'.map (‖·‖)).sum = T at *
    have ha : ‖a‖ ≤ P * S := by
      calc ‖a‖ = ‖(a - l.sum) + l.sum‖ := by rw [sub_add_cancel]
        _ ≤ ‖a - l.sum‖ + ‖l.sum‖ := norm_add_le _ _
        _ ≤ (P - 1) * S + S := add_le_add ih1 b1
        _ = P * S := by ring
    have hb : ‖b‖ ≤ Q * T := by
      calc ‖b‖ = ‖(b - l'.sum) + l'.sum‖ := by rw [sub_add_cancel]
        _ ≤ ‖b - l'.sum‖ + ‖l'.sum‖ := norm_add_le _ _
        _ ≤ (Q - 1) * T + T := add_le_add ih2 b2
        _ = Q * T := by ring
    calc ‖plus a b - (l.sum + l'.sum)‖ = ‖(plus a b - (a + b)) + ((a - l.sum) + (b - l'.sum))‖ := by congr 1; ring
      _ ≤ ‖plus a b - (a + b)‖ + (‖a - l.sum‖ + ‖b - l'.sum‖) := (norm_add_le _ _).trans (by gcongr; exact norm_add_le _ _)
      _ ≤ u * (P * S + Q * T) + ((P - 1) * S + (Q - 1) * T) := by
          gcongr
          exact (hp a b).trans (by gcongr; exact (norm_add_le _ _).trans (add_le_add ha hb))
      _ = ((1 + u) * P - 1) * S + ((1 + u) * Q - 1) * T := by ring
      _ ≤ (R - 1) * S + (R - 1) * T := by gcongr
      _ = (R - 1) * (S + T) := by ring

variable {F : Flops} {u δ : ℝ}

theorem dotError_nonneg (hu : 0 ≤ u) (hδ : 0 ≤ δ) (N : ℕ) : 0 ≤ dotError u δ N := by
  have : (1 : ℝ) ≤ (1 + u) ^ (N - 1) := one_le_pow₀ (by linarith)
  rw [dotError]; nlinarith

theorem dotError_mono (hu : 0 ≤ u) (hδ : 0 ≤ δ) {N M : ℕ} (h : N ≤ M) : dotError u δ N ≤ dotError u δ M := by
  have : (1 + u) ^ (N - 1) ≤ (1 + u) ^ (M - 1) := pow_le_pow_right₀ (by linarith) (by omega)
  rw [dotError, dotError]; nlinarith

/-- A computed inner product. -/
theorem dot_err (hu : 0 ≤ u) (hδ : 0 ≤ δ) (hF : F.Accurate u δ) {ι : Type} (l : List ι) (x y : ι → ℂ) :
    ‖F.sum (l.map fun i => F.mul (x i) (y i)) - (l.map fun i => x i * y i).sum‖
      ≤ dotError u δ l.length * (l.map fun i => ‖x i‖ * ‖y i‖).sum := by
  have h1 := (F.sums (l.map fun i => F.mul (x i) (y i))).err hu hF.add
  rw [List.length_map, List.map_map] at h1
  have h2 : ‖(l.map fun i => F.mul (x i) (y i)).sum - (l.map fun i => x i * y i).sum‖ ≤ δ * (l.map fun i => ‖x i‖ * ‖y i‖).sum := by
    clear h1
    induction l with
    | nil => simp
    | cons i l ih =>
      simp only [List.map_cons, List.sum_cons]
      calc _ = ‖(F.mul (x i) (y i) - x i * y i) + ((l.map fun i => F.mul (x i) (y i)).sum - (l.map fun i => x i * y i).sum)‖ := by
            congr 1; ring
        _ ≤ δ * (‖x i‖ * ‖y i‖) + δ * (l.map fun i => ‖x i‖ * ‖y i‖).sum := by
            refine (norm_add_le _ _).trans (add_le_add ?_ ih)
            rw [← norm_mul]; exact hF.mul _ _
        _ = _ := by ring
  have h3 : (l.map ((‖·‖) ∘ fun i => F.mul (x i) (y i))).sum ≤ (1 + δ) * (l.map fun i => ‖x i‖ * ‖y i‖).sum := by
    clear h1 h2
    induction l with
    | nil => simp
    | cons i l ih =>
      simp only [List.map_cons, List.sum_cons, Function.comp_apply] at ih ⊢
      have : ‖F.mul (x i) (y i)‖ ≤ (1 + δ) * (‖x i‖ * ‖y i‖) := by
        calc ‖F.mul (x i) (y i)‖ = ‖(F.mul (x i) (y i) - x i * y i) + x i * y i‖ := by rw [sub_add_cancel]
          _ ≤ ‖F.mul (x i) (y i) - x i * y i‖ + ‖x i * y i‖ := norm_add_le _ _
          _ ≤ δ * ‖x i * y i‖ + ‖x i * y i‖ := by gcongr; exact hF.mul _ _
          _ = _ := by rw [norm_mul]; ring
      linarith
  have p : (1 : ℝ) ≤ (1 + u) ^ (l.length - 1) := one_le_pow₀ (by linarith)
  rw [dotError]
  generalize (1 + u) ^ (l.length - 1) = P at *
  generalize (l.map fun i => ‖x i‖ * ‖y i‖).sum = S at *
  generalize (l.map ((‖·‖) ∘ fun i => F.mul (x i) (y i))).sum = S' at *
  calc _ = ‖(F.sum (l.map fun i => F.mul (x i) (y i)) - (l.map fun i => F.mul (x i) (y i)).sum)
        + ((l.map fun i => F.mul (x i) (y i)).sum - (l.map fun i => x i * y i).sum)‖ := by congr 1; ring
    _ ≤ (P - 1) * S' + δ * S := (norm_add_le _ _).trans (add_le_add h1 h2)
    _ ≤ (P - 1) * ((1 + δ) * S) + δ * S := by gcongr
    _ = _ := by ring

/-! ## Arrays -/

/-- The modulus as a complex number. -/
noncomputable def absC (z : ℂ) : ℂ := (‖z‖ : ℂ)

@[simp] theorem absC_zero : absC 0 = 0 := by simp [absC]
@[simp] theorem absC_one : absC 1 = 1 := by simp [absC]

theorem get_abs (a : NDArray ℂ) (idx : List ℕ) : (a.mapArr absC).get idx = absC (a.get idx) := by
  rw [NDArray.get, NDArray.get, mapArr]
  simp only [List.getD_eq_getElem?_getD, List.getElem?_map]
  cases a.data[ravel a.shape idx]? <;> simp

/-- `a` is a computed version of `e`, with errors of at most the fraction `γ` of the entries of `m`. -/
structure NearArr (γ : ℝ) (a e m : NDArray ℂ) : Prop where
  shape : a.shape = e.shape
  shape' : m.shape = e.shape
  data : ∀ i, ‖a.data.getD i 0 - e.data.getD i 0‖ ≤ γ * (m.data.getD i 0).re

theorem NearArr.get {γ : ℝ} {a e m : NDArray ℂ} (h : NearArr γ a e m) (idx : List ℕ) :
    ‖a.get idx - e.get idx‖ ≤ γ * (m.get idx).re := by
  rw [NDArray.get, NDArray.get, NDArray.get, h.shape, h.shape']; exact h.data _

theorem NearArr.ofFn {γ : ℝ} (s : List ℕ) {f g k : List ℕ → ℂ} (h : ∀ idx, ‖f idx - g idx‖ ≤ γ * (k idx).re) :
    NearArr γ (ofFn s f) (ofFn s g) (ofFn s k) := by
  refine ⟨rfl, rfl, fun i => ?_⟩
  simp only [NDArray.ofFn, List.getD_eq_getElem?_getD, List.getElem?_map]
  rcases (allIdx s)[i]? with _ | idx
  · simp
  · simpa using h idx

theorem NearArr.transpose {γ : ℝ} {a e m : NDArray ℂ} (h : NearArr γ a e m) {p : List ℕ} {e' : NDArray ℂ}
    (he : e.transpose p = .ok e') :
    ∃ a' m', a.transpose p = .ok a' ∧ m.transpose p = .ok m' ∧ NearArr γ a' e' m' ∧ a'.WF := by
  have h1 : a.ndim = e.ndim := by rw [NDArray.ndim, NDArray.ndim, h.shape]
  have h2 : m.ndim = e.ndim := by rw [NDArray.ndim, NDArray.ndim, h.shape']
  simp only [NDArray.transpose] at he ⊢
  rw [h1, h2, h.shape, h.shape']
  split_ifs at he ⊢ with hp
  obtain rfl := Except.ok.inj he
  exact ⟨_, _, rfl, rfl, .ofFn _ fun idx => h.get _, wf_ofFn _ _⟩

theorem NearArr.moveaxis {γ : ℝ} {a e m : NDArray ℂ} (h : NearArr γ a e m) {s d : List ℕ} {e' : NDArray ℂ}
    (he : e.moveaxis s d = .ok e') :
    ∃ a' m', a.moveaxis s d = .ok a' ∧ m.moveaxis s d = .ok m' ∧ NearArr γ a' e' m' ∧ a'.WF := by
  have h1 : a.ndim = e.ndim := by rw [NDArray.ndim, NDArray.ndim, h.shape]
  have h2 : m.ndim = e.ndim := by rw [NDArray.ndim, NDArray.ndim, h.shape']
  simp only [NDArray.moveaxis] at he ⊢
  rw [h1, h2]
  split_ifs at he ⊢ with hp
  exact h.transpose he

theorem tensordot_near (hu : 0 ≤ u) (hδ : 0 ≤ δ) (hF : F.Accurate u δ) {op st e : NDArray ℂ} {A B : List ℕ}
    (he : NDArray.tensordot op st A B = .ok e) {N : ℕ} (hN : (A.map fun q => op.shape.getD q 0).prod = N) :
    ∃ a m, F.tensordot op st A B = .ok a ∧ NDArray.tensordot (op.mapArr absC) (st.mapArr absC) A B = .ok m ∧
      NearArr (dotError u δ N) a e m := by
  simp only [NDArray.tensordot, Flops.tensordot, get_abs, show (op.mapArr absC).ndim = op.ndim from rfl,
    show (op.mapArr absC).shape = op.shape from rfl, show (st.mapArr absC).ndim = st.ndim from rfl,
    show (st.mapArr absC).shape = st.shape from rfl] at he ⊢
  split_ifs at he ⊢ with hp
  obtain rfl := Except.ok.inj he
  refine ⟨_, _, rfl, rfl, .ofFn _ fun idx => ?_⟩
  have := dot_err hu hδ hF (allIdx (A.map fun q => op.shape.getD q 0))
    (fun s => op.get (assemble op.ndim A s (idx.take (freeAxes op.ndim A).length)))
    (fun s => st.get (assemble st.ndim B s (idx.drop (freeAxes op.ndim A).length)))
  rw [length_allIdx, hN] at this
  refine this.trans (le_of_eq ?_)
  congr 1
  generalize allIdx (A.map fun q => op.shape.getD q 0) = l
  induction l with
  | nil => simp
  | cons i l ih => simp [absC, ih]

theorem reshape_abs (a : NDArray ℂ) (s : List ℕ) : (a.mapArr absC).reshape s = (a.reshape s).map (mapArr absC) := by
  simp only [reshape, show (a.mapArr absC).shape = a.shape from rfl]
  split_ifs <;> rfl

theorem controlledBlock_abs (a : NDArray ℂ) (m : ℕ) :
    controlledBlock (a.mapArr absC) m = (controlledBlock a m).map (mapArr absC) := by
  simp only [controlledBlock, get_abs, show (a.mapArr absC).shape = a.shape from rfl]
  split_ifs
  · simp only [Except.map, mapArr, NDArray.ofFn, List.map_map, Function.comp_def, apply_ite absC, absC_zero, absC_one]
  · rfl

theorem bind_eq {α β : Type} (x : Py α) (g : α → Py β) : (x >>= g) = match x with
    | .ok v => g v
    | .error e => .error e := by
  cases x <;> rfl

theorem prepareOperator_abs (o : NDArray ℂ) (ts : List ℕ) (c : Ctl) :
    prepareOperator (o.mapArr absC) ts c = (prepareOperator o ts c).map fun x => (x.1.mapArr absC, x.2) := by
  simp only [prepareOperator]
  cases isControlled c
  · simp only [Bool.false_eq_true, if_false, bind_eq, pure, Except.pure, reshape_abs,
      show (o.mapArr absC).shape = o.shape from rfl]
    cases o.reshape _ <;> rfl
  · simp only [if_true, bind_eq, controlledBlock_abs]
    cases controlledBlock o _ with
    | error e => rfl
    | ok b =>
      simp only [Except.map]
      cases ctlQubits c with
      | error e => rfl
      | ok cs =>
        simp only [pure, Except.pure, reshape_abs, show (b.mapArr absC).shape = b.shape from rfl]
        cases b.reshape _ <;> rfl

variable {n : ℕ}

/-- The computed application of an operator, entry by entry. -/
theorem app_near (hu : 0 ≤ u) (hδ : 0 ≤ δ) (hF : F.Accurate u δ) {st : NDArray ℂ} {o : NDArray ℂ × List ℕ × Ctl}
    (hst : IsKet n st) (ho : WfOp n o) :
    ∃ r, F.applyOperator st o.1 o.2.1 o.2.2 = .ok r ∧ IsKet n r ∧
      ∀ b, ‖ket n r b - (opMat n o).mulVec (ket n st) b‖
        ≤ dotError u δ (2 ^ ((ctlInts o.2.2).length + o.2.1.length)) * ∑ c, ‖opMat n o b c‖ * ‖ket n st c‖ := by
  obtain ⟨e, h1, h2, h3⟩ := applyOperator_opMat hst ho
  obtain ⟨m, k1, k2, k3⟩ := applyOperator_opMat (n := n) (st := st.mapArr absC) (o := (o.1.mapArr absC, o.2))
    ⟨hst.shape, by simpa [WF, mapArr] using hst.wf⟩
    ⟨⟨ho.op.shape, by simpa [WF, mapArr] using ho.op.wf⟩, ho.ctl, ho.dims⟩
  obtain ⟨op', hs', hw', hprep, -⟩ := prepareOperator_eq ho.op.shape ho.op.wf o.2.1 (ctlInts o.2.2)
  rw [← prepareOperator_ctl _ _ ho.ctl] at hprep
  generalize hq : (ctlInts o.2.2).length + o.2.1.length = q at hprep
  generalize hP : (⟨List.replicate (2 * q) 2, op'.data⟩ : NDArray ℂ) = P at hprep
  have hPs : P.shape = List.replicate (2 * q) 2 := by rw [← hP]
  rw [applyOperator, hprep] at h1
  rw [applyOperator, prepareOperator_abs, hprep] at k1
  rw [Flops.applyOperator, hprep]
  simp only [bind, Except.bind, Except.map] at h1 k1 ⊢
  rcases ht : NDArray.tensordot P st ((List.range (2 * q)).drop q) (ctlInts o.2.2 ++ o.2.1) with err | t
  · rw [ht] at h1; simp at h1
  rw [ht] at h1
  obtain ⟨a, m', a1, a2, a3⟩ := tensordot_near hu hδ hF ht (N := 2 ^ q) (by
    have : ∀ x ∈ (List.range (2 * q)).drop q, P.shape.getD x 0 = 2 := by
      intro x hx
      have := List.mem_range.1 (List.mem_of_mem_drop hx)
      rw [hPs, List.getD_eq_getElem?_getD, List.getElem?_replicate]
      simp [this]
    rw [List.map_congr_left this, List.map_const', List.prod_replicate]
    congr 1
    simp; omega)
  rw [a2] at k1
  simp only at h1 k1
  obtain ⟨r, m'', b1, b2, b3, b4⟩ := a3.moveaxis h1
  rw [b2] at k1
  obtain rfl := Except.ok.inj k1
  refine ⟨r, by rw [a1]; exact b1, ⟨b3.shape.trans h2.shape, b4⟩, fun b => ?_⟩
  have hb := b3.get b.bits
  have hm : (m''.get b.bits).re = ∑ c, ‖opMat n o b c‖ * ‖ket n st c‖ := by
    have := congrFun k3 b
    rw [ket] at this
    rw [this, Matrix.mulVec, dotProduct, Complex.re_sum]
    refine Finset.sum_congr rfl fun c _ => ?_
    have e1 : opMat n (o.1.mapArr absC, o.2) b c = (‖opMat n o b c‖ : ℂ) := by
      simp only [opMat, gateMat, entries, get_abs, absC]
      split_ifs <;> simp
    have e2 : ket n (st.mapArr absC) c = (‖ket n st c‖ : ℂ) := get_abs _ _
    rw [e1, e2, ← Complex.ofReal_mul, Complex.ofReal_re]
  rw [hm] at hb
  rw [← h3]
  exact hb

/-! ## From entries to lengths -/

theorem row_sq_le {ι : Type} [Fintype ι] [DecidableEq ι] (M : Matrix ι ι ℂ) (b : ι) : ∑ c, ‖M b c‖ ^ 2 ≤ ‖M‖ ^ 2 := by
  have h := Matrix.l2_opNorm_mulVec M.conjTranspose (WithLp.toLp 2 (Pi.single b 1) : EuclideanSpace ℂ ι)
  rw [Matrix.l2_opNorm_conjTranspose, EuclideanSpace.norm_eq, EuclideanSpace.norm_eq] at h
  have e1 : ∑ c, ‖(Pi.single b (1 : ℂ) : ι → ℂ) c‖ ^ 2 = 1 := by
    rw [Finset.sum_eq_single b]
    · simp
    · intro c _ hc; simp [hc]
    · simp
  have e2 : ∀ c, ‖(M.conjTranspose.mulVec (Pi.single b 1)) c‖ = ‖M b c‖ := by
    intro c
    simp [Matrix.mulVec_single, Matrix.conjTranspose_apply]
  simp only [e1, Real.sqrt_one, mul_one] at h
  have h' : Real.sqrt (∑ c, ‖M b c‖ ^ 2) ≤ ‖M‖ := by
    refine le_trans (le_of_eq ?_) h
    congr 1
    exact Finset.sum_congr rfl fun c _ => by rw [← e2]; rfl
  have := Real.sqrt_le_left (norm_nonneg M) |>.1 h'
  exact this

theorem card_agreeOff {ts : List ℕ} (hts : ValidDims n ts) (c : Lab n) :
    ∑ b : Lab n, (if Lab.AgreeOff ts c b then (1 : ℝ) else 0) = 2 ^ ts.length := by
  rw [sum_agreeOff hts.nodup hts.lt]
  simp [length_allIdx, List.prod_replicate]

/-- Taking the modulus of the entries of a gate on `k` qubits costs at most a factor `√(2^k)`. -/
theorem abs_mulVec_le (U : ℕ → ℕ → ℂ) {ts cs : List ℕ} (hv : ValidDims n (cs ++ ts)) (v : Lab n → ℂ) :
    Real.sqrt (∑ b, (∑ c, ‖gateMat n U ts cs b c‖ * ‖v c‖) ^ 2)
      ≤ Real.sqrt (2 ^ ts.length) * (‖gateMat n U ts cs‖ * ketNorm v) := by
  have hts : ValidDims n ts := ⟨(List.nodup_append.1 hv.nodup).2.1, fun q hq => hv.lt q (by simp [hq])⟩
  have hz : ∀ b c, ¬ Lab.AgreeOff ts b c → gateMat n U ts cs b c = 0 := by
    intro b c h
    rw [gateMat]
    split_ifs with h1 h2
    · rfl
    · subst h2; exact absurd (Lab.AgreeOff.refl _ _) h
    · rfl
  have hrow : ∀ b, (∑ c, ‖gateMat n U ts cs b c‖ * ‖v c‖) ^ 2
      ≤ ‖gateMat n U ts cs‖ ^ 2 * ∑ c, if Lab.AgreeOff ts b c then ‖v c‖ ^ 2 else 0 := by
    intro b
    have e : ∑ c, ‖gateMat n U ts cs b c‖ * ‖v c‖
        = ∑ c, ‖gateMat n U ts cs b c‖ * (if Lab.AgreeOff ts b c then ‖v c‖ else 0) := by
      refine Finset.sum_congr rfl fun c _ => ?_
      split_ifs with h
      · rfl
      · rw [hz b c h]; simp
    rw [e]
    refine (Finset.sum_mul_sq_le_sq_mul_sq _ _ _).trans ?_
    have e2 : ∑ c, (if Lab.AgreeOff ts b c then ‖v c‖ else 0) ^ 2 = ∑ c, if Lab.AgreeOff ts b c then ‖v c‖ ^ 2 else 0 :=
      Finset.sum_congr rfl fun c _ => by split_ifs <;> simp
    rw [e2]
    refine mul_le_mul_of_nonneg_right (row_sq_le _ b) (Finset.sum_nonneg fun c _ => ?_)
    split_ifs <;> positivity
  have htot : ∑ b, (∑ c, ‖gateMat n U ts cs b c‖ * ‖v c‖) ^ 2 ≤ 2 ^ ts.length * (‖gateMat n U ts cs‖ ^ 2 * ∑ c, ‖v c‖ ^ 2) := by
    calc _ ≤ ∑ b, ‖gateMat n U ts cs‖ ^ 2 * ∑ c, (if Lab.AgreeOff ts b c then ‖v c‖ ^ 2 else 0) :=
          Finset.sum_le_sum fun b _ => hrow b
      _ = ‖gateMat n U ts cs‖ ^ 2 * ∑ c, ∑ b, (if Lab.AgreeOff ts b c then ‖v c‖ ^ 2 else 0) := by
          rw [← Finset.mul_sum, Finset.sum_comm]
      _ = ‖gateMat n U ts cs‖ ^ 2 * ∑ c, 2 ^ ts.length * ‖v c‖ ^ 2 := by
          congr 1
          refine Finset.sum_congr rfl fun c _ => ?_
          rw [← card_agreeOff hts c, Finset.sum_mul]
          refine Finset.sum_congr rfl fun b _ => ?_
          by_cases h : Lab.AgreeOff ts c b
          · rw [if_pos h, if_pos h.symm, one_mul]
          · rw [if_neg h, if_neg (fun h' => h h'.symm), zero_mul]
      _ = _ := by rw [← Finset.mul_sum]; ring
  refine (Real.sqrt_le_sqrt htot).trans (le_of_eq ?_)
  rw [Real.sqrt_mul (by positivity), Real.sqrt_mul (by positivity), Real.sqrt_sq (norm_nonneg _), ketNorm]

/-- The computed application of an operator, in length. -/
theorem app_norm (hu : 0 ≤ u) (hδ : 0 ≤ δ) (hF : F.Accurate u δ) {st : NDArray ℂ} {o : NDArray ℂ × List ℕ × Ctl}
    (hst : IsKet n st) (ho : WfOp n o) :
    ∃ r, F.applyOperator st o.1 o.2.1 o.2.2 = .ok r ∧ IsKet n r ∧
      ketNorm (ket n r - (opMat n o).mulVec (ket n st))
        ≤ dotError u δ (2 ^ ((ctlInts o.2.2).length + o.2.1.length)) * Real.sqrt (2 ^ o.2.1.length)
          * (‖opMat n o‖ * ketNorm (ket n st)) := by
  obtain ⟨r, h1, h2, h3⟩ := app_near hu hδ hF hst ho
  refine ⟨r, h1, h2, ?_⟩
  have hγ := dotError_nonneg hu hδ (2 ^ ((ctlInts o.2.2).length + o.2.1.length))
  generalize dotError u δ (2 ^ ((ctlInts o.2.2).length + o.2.1.length)) = γ at h3 hγ ⊢
  have := abs_mulVec_le (entries o.1) ho.dims (ket n st)
  rw [mul_assoc]
  calc ketNorm (ket n r - (opMat n o).mulVec (ket n st))
      ≤ Real.sqrt (∑ b, (γ * ∑ c, ‖opMat n o b c‖ * ‖ket n st c‖) ^ 2) := by
        rw [ketNorm]
        refine Real.sqrt_le_sqrt (Finset.sum_le_sum fun b _ => ?_)
        exact pow_le_pow_left₀ (norm_nonneg _) (h3 b) 2
    _ = γ * Real.sqrt (∑ b, (∑ c, ‖opMat n o b c‖ * ‖ket n st c‖) ^ 2) := by
        simp only [mul_pow]
        rw [← Finset.mul_sum, Real.sqrt_mul (by positivity), Real.sqrt_sq hγ]
    _ ≤ _ := by gcongr; exact this

/-- The length of all entries of a matrix. -/
theorem norm_le_of_entries {d : ℕ} (M : Matrix (Fin d) (Fin d) ℂ) {B : Fin d → Fin d → ℝ} (hB : ∀ i j, ‖M i j‖ ≤ B i j) :
    ‖M‖ ≤ Real.sqrt (∑ i, ∑ j, B i j ^ 2) := by
  refine Matrix.l2_opNorm_def M ▸ ContinuousLinearMap.opNorm_le_bound _ (Real.sqrt_nonneg _) fun x => ?_
  change ‖(WithLp.toLp 2 (M.mulVec x.ofLp) : EuclideanSpace ℂ (Fin d))‖ ≤ _
  rw [EuclideanSpace.norm_eq, EuclideanSpace.norm_eq, ← Real.sqrt_mul (Finset.sum_nonneg fun i _ => Finset.sum_nonneg fun j _ => sq_nonneg _)]
  refine Real.sqrt_le_sqrt ?_
  rw [Finset.sum_mul]
  refine Finset.sum_le_sum fun i _ => ?_
  calc ‖(M.mulVec x.ofLp) i‖ ^ 2 ≤ (∑ j, B i j * ‖x j‖) ^ 2 := by
        refine pow_le_pow_left₀ (norm_nonneg _) ?_ 2
        rw [Matrix.mulVec, dotProduct]
        refine (norm_sum_le _ _).trans (Finset.sum_le_sum fun j _ => ?_)
        rw [norm_mul]; exact mul_le_mul_of_nonneg_right (hB i j) (norm_nonneg _)
    _ ≤ _ := Finset.sum_mul_sq_le_sq_mul_sq _ _ _

/-- The computed product of two matrices. -/
theorem matmul_norm (hu : 0 ≤ u) (hδ : 0 ≤ δ) (hF : F.Accurate u δ) {k : ℕ} {a b : NDArray ℂ} (ha : IsOp k a) (hb : IsOp k b) :
    ∃ r, F.matmul a b = .ok r ∧ IsOp k r ∧
      ‖matOf (2 ^ k) (entries r) - matOf (2 ^ k) (entries a) * matOf (2 ^ k) (entries b)‖
        ≤ dotError u δ (2 ^ k) * 2 ^ k * (‖matOf (2 ^ k) (entries a)‖ * ‖matOf (2 ^ k) (entries b)‖) := by
  refine ⟨ofFn [2 ^ k, 2 ^ k] fun idx =>
      F.sum ((List.range (2 ^ k)).map fun l => F.mul (a.get [idx.getD 0 0, l]) (b.get [l, idx.getD 1 0])),
    by rw [Flops.matmul, ha.shape, hb.shape]; simp, ⟨rfl, wf_ofFn _ _⟩, ?_⟩
  have hγ := dotError_nonneg hu hδ (2 ^ k)
  set X := matOf (2 ^ k) (entries a) with hX
  set Y := matOf (2 ^ k) (entries b) with hY
  have hent : ∀ i j : Fin (2 ^ k), ‖(matOf (2 ^ k) (entries (ofFn [2 ^ k, 2 ^ k] fun idx =>
      F.sum ((List.range (2 ^ k)).map fun l => F.mul (a.get [idx.getD 0 0, l]) (b.get [l, idx.getD 1 0])))) - X * Y) i j‖
      ≤ dotError u δ (2 ^ k) * ∑ l, ‖X i l‖ * ‖Y l j‖ := by
    intro i j
    have hg : entries (ofFn [2 ^ k, 2 ^ k] fun idx =>
        F.sum ((List.range (2 ^ k)).map fun l => F.mul (a.get [idx.getD 0 0, l]) (b.get [l, idx.getD 1 0]))) i j
        = F.sum ((List.range (2 ^ k)).map fun l => F.mul (a.get [i, l]) (b.get [l, j])) := by
      rw [entries, get_ofFn (by simp [i.2, j.2])]
      rfl
    have := dot_err hu hδ hF (List.range (2 ^ k)) (fun l => a.get [(i : ℕ), l]) (fun l => b.get [l, (j : ℕ)])
    rw [List.length_range] at this
    rw [Matrix.sub_apply, matOf, hg, Matrix.mul_apply]
    simp only [hX, hY, matOf, entries]
    rw [← List.sum_toFinset _ List.nodup_range, ← List.sum_toFinset _ List.nodup_range, List.toFinset_range,
      Finset.sum_range, Finset.sum_range] at this
    exact this
  refine (norm_le_of_entries _ hent).trans ?_
  have hsq : ∑ i, ∑ j, (dotError u δ (2 ^ k) * ∑ l, ‖X i l‖ * ‖Y l j‖) ^ 2
      ≤ (dotError u δ (2 ^ k) * 2 ^ k * (‖X‖ * ‖Y‖)) ^ 2 := by
    have hcol : ∀ j, ∑ l, ‖Y l j‖ ^ 2 ≤ ‖Y‖ ^ 2 := by
      intro j
      have := row_sq_le Y.conjTranspose j
      rw [Matrix.l2_opNorm_conjTranspose] at this
      simpa [Matrix.conjTranspose_apply] using this
    have hij : ∀ i j, (dotError u δ (2 ^ k) * ∑ l, ‖X i l‖ * ‖Y l j‖) ^ 2
        ≤ dotError u δ (2 ^ k) ^ 2 * (‖X‖ ^ 2 * ‖Y‖ ^ 2) := by
      intro i j
      rw [mul_pow]
      refine mul_le_mul_of_nonneg_left ((Finset.sum_mul_sq_le_sq_mul_sq _ _ _).trans ?_) (sq_nonneg _)
      exact mul_le_mul (row_sq_le X i) (hcol j) (Finset.sum_nonneg fun _ _ => sq_nonneg _) (sq_nonneg _)
    calc _ ≤ ∑ _i : Fin (2 ^ k), ∑ _j : Fin (2 ^ k), dotError u δ (2 ^ k) ^ 2 * (‖X‖ ^ 2 * ‖Y‖ ^ 2) :=
          Finset.sum_le_sum fun i _ => Finset.sum_le_sum fun j _ => hij i j
      _ = _ := by simp; ring
  refine (Real.sqrt_le_sqrt hsq).trans (le_of_eq ?_)
  exact Real.sqrt_sq (by positivity)

/-- Matrices that agree up to `τ` in every entry. -/
theorem within_norm {d : ℕ} {U V : ℕ → ℕ → ℂ} {τ : ℝ} (hτ : 0 ≤ τ) (h : ∀ i j, i < d → j < d → ‖U i j - V i j‖ ≤ τ) :
    ‖matOf d U - matOf d V‖ ≤ d * τ := by
  refine (norm_le_of_entries _ (B := fun _ _ => τ) fun i j => h i j i.2 j.2).trans (le_of_eq ?_)
  have : ∑ _i : Fin d, ∑ _j : Fin d, τ ^ 2 = (d * τ) ^ 2 := by simp; ring
  rw [this, Real.sqrt_sq (by positivity)]

end Verif
