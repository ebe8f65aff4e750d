import Verif.Lemmas.Float
import Verif.Lemmas.RoundedNoise

/-! # Computed conjugations `ρ ↦ O ρ O†` against exact ones -/

set_option autoImplicit false

namespace Verif
open NDArray
open scoped Matrix.Norms.L2Operator
variable {F : Flops} {u δ : ℝ} {n : ℕ}

/-- `a` is a computed version of `e`, with errors of at most the fraction `γ` of the entries of `m`, which bound those of `e`. -/
structure Enc (γ : ℝ) (a e m : NDArray ℂ) : Prop where
  shape : a.shape = e.shape
  shape' : m.shape = e.shape
  wf : a.WF
  data : ∀ i, ‖a.data.getD i 0 - e.data.getD i 0‖ ≤ γ * (m.data.getD i 0).re
  le : ∀ i, ‖e.data.getD i 0‖ ≤ (m.data.getD i 0).re
  real : ∀ i, (m.data.getD i 0).im = 0

/-- The relation for single numbers. -/
structure EncC (γ : ℝ) (a e m : ℂ) : Prop where
  data : ‖a - e‖ ≤ γ * m.re
  le : ‖e‖ ≤ m.re
  real : m.im = 0

theorem EncC.zero (γ : ℝ) : EncC γ 0 0 0 := ⟨by simp, by simp, rfl⟩

theorem EncC.nonneg {γ : ℝ} {a e m : ℂ} (h : EncC γ a e m) : 0 ≤ m.re := (norm_nonneg _).trans h.le

theorem EncC.norm_le {γ : ℝ} {a e m : ℂ} (h : EncC γ a e m) : ‖a‖ ≤ (1 + γ) * m.re := by
  calc ‖a‖ = ‖(a - e) + e‖ := by congr 1; ring
    _ ≤ γ * m.re + m.re := (norm_add_le _ _).trans (add_le_add h.data h.le)
    _ = _ := by ring

theorem EncC.conj {γ : ℝ} {a e m : ℂ} (h : EncC γ a e m) : EncC γ (star a) (star e) (star m) :=
  ⟨by rw [← star_sub, norm_star]; exact h.data, by rw [norm_star]; exact h.le, by
    have := h.real
    simp [this]⟩

theorem EncC.mul {γ γ' : ℝ} (hγ : 0 ≤ γ) (hγ' : 0 ≤ γ') {a e m a' e' m' : ℂ} (h : EncC γ a e m) (h' : EncC γ' a' e' m') :
    EncC ((1 + γ) * (1 + γ') - 1) (a * a') (e * e') (m * m') := by
  have hm : (m * m').re = m.re * m'.re := by rw [Complex.mul_re, h.real, zero_mul, sub_zero]
  refine ⟨?_, ?_, ?_⟩
  · rw [hm]
    have e1 : a * a' - e * e' = (a - e) * a' + e * (a' - e') := by ring
    rw [e1]
    refine (norm_add_le _ _).trans ?_
    rw [norm_mul, norm_mul]
    have n1 := h.nonneg
    have n2 := h'.nonneg
    calc _ ≤ (γ * m.re) * ((1 + γ') * m'.re) + m.re * (γ' * m'.re) := by
          refine add_le_add (mul_le_mul h.data h'.norm_le (norm_nonneg _) (by positivity))
            (mul_le_mul h.le h'.data (norm_nonneg _) n1)
      _ = _ := by ring
  · rw [hm, norm_mul]
    exact mul_le_mul h.le h'.le (norm_nonneg _) h.nonneg
  · rw [Complex.mul_im, h.real, h'.real]; ring

theorem EncC.add {γ : ℝ} {a e m a' e' m' : ℂ} (h : EncC γ a e m) (h' : EncC γ a' e' m') :
    EncC γ (a + a') (e + e') (m + m') := by
  refine ⟨?_, ?_, ?_⟩
  · have e1 : a + a' - (e + e') = (a - e) + (a' - e') := by ring
    rw [e1, Complex.add_re, mul_add]
    exact (norm_add_le _ _).trans (add_le_add h.data h'.data)
  · rw [Complex.add_re]; exact (norm_add_le _ _).trans (add_le_add h.le h'.le)
  · rw [Complex.add_im, h.real, h'.real]; simp

theorem EncC.sum {γ : ℝ} {ι : Type} {a e m : ι → ℂ} (h : ∀ i, EncC γ (a i) (e i) (m i)) (l : List ι) :
    EncC γ (l.map a).sum (l.map e).sum (l.map m).sum := by
  induction l with
  | nil => exact .zero _
  | cons i l ih => simpa using (h i).add ih

/-- A computed number in place of another computed number. -/
theorem EncC.round {γ γ' : ℝ} {a e m b : ℂ} (h : EncC γ a e m) (hγ' : 0 ≤ γ') {S : ℝ} (hb : ‖b - a‖ ≤ γ' * S)
    (hS : S ≤ (1 + γ) * m.re) : EncC ((1 + γ) * (1 + γ') - 1) b e m := by
  refine ⟨?_, h.le, h.real⟩
  calc ‖b - e‖ = ‖(b - a) + (a - e)‖ := by congr 1; ring
    _ ≤ γ' * ((1 + γ) * m.re) + γ * m.re :=
        (norm_add_le _ _).trans (add_le_add (hb.trans (mul_le_mul_of_nonneg_left hS hγ')) h.data)
    _ = _ := by ring

/-- Computed inner products. -/
theorem EncC.dot (hu : 0 ≤ u) (hδ : 0 ≤ δ) (hF : F.Accurate u δ) {γ γ' : ℝ} (hγ : 0 ≤ γ) (hγ' : 0 ≤ γ') {ι : Type}
    {x X Mx y Y My : ι → ℂ} (hx : ∀ i, EncC γ (x i) (X i) (Mx i)) (hy : ∀ i, EncC γ' (y i) (Y i) (My i)) (l : List ι) :
    EncC ((1 + γ) * (1 + γ') * (1 + dotError u δ l.length) - 1) (F.sum (l.map fun i => F.mul (x i) (y i)))
      (l.map fun i => X i * Y i).sum (l.map fun i => Mx i * My i).sum := by
  have h1 := EncC.sum (fun i => (hx i).mul hγ hγ' (hy i)) l
  have h2 := dot_err hu hδ hF l x y
  have h3 := h1.round (dotError_nonneg hu hδ l.length) h2 (by
    clear h1 h2
    induction l with
    | nil => simp
    | cons i l ih =>
      simp only [List.map_cons, List.sum_cons, Complex.add_re]
      rw [mul_add (1 + ((1 + γ) * (1 + γ') - 1))]
      refine add_le_add ?_ ih
      have hm : (Mx i * My i).re = (Mx i).re * (My i).re := by rw [Complex.mul_re, (hx i).real, zero_mul, sub_zero]
      rw [hm]
      have n1 := (hx i).nonneg
      have n2 := (hy i).nonneg
      calc _ ≤ ((1 + γ) * (Mx i).re) * ((1 + γ') * (My i).re) :=
            mul_le_mul (hx i).norm_le (hy i).norm_le (norm_nonneg _) (by positivity)
        _ = _ := by ring)
  convert h3 using 1
  ring

theorem Enc.at {γ : ℝ} {a e m : NDArray ℂ} (h : Enc γ a e m) (i : ℕ) :
    EncC γ (a.data.getD i 0) (e.data.getD i 0) (m.data.getD i 0) := ⟨h.data i, h.le i, h.real i⟩

theorem Enc.get {γ : ℝ} {a e m : NDArray ℂ} (h : Enc γ a e m) (idx : List ℕ) :
    EncC γ (a.get idx) (e.get idx) (m.get idx) := by
  rw [NDArray.get, NDArray.get, NDArray.get, h.shape, h.shape']; exact h.at _

theorem Enc.mk' {γ : ℝ} {a e m : NDArray ℂ} (h1 : a.shape = e.shape) (h2 : m.shape = e.shape) (hw : a.WF)
    (h : ∀ i, EncC γ (a.data.getD i 0) (e.data.getD i 0) (m.data.getD i 0)) : Enc γ a e m :=
  ⟨h1, h2, hw, fun i => (h i).data, fun i => (h i).le, fun i => (h i).real⟩

theorem Enc.ofFn {γ : ℝ} (s : List ℕ) {f g k : List ℕ → ℂ} (h : ∀ idx, EncC γ (f idx) (g idx) (k idx)) :
    Enc γ (ofFn s f) (ofFn s g) (ofFn s k) := by
  refine .mk' rfl rfl (wf_ofFn _ _) fun i => ?_
  simp only [NDArray.ofFn, List.getD_eq_getElem?_getD, List.getElem?_map]
  rcases (allIdx s)[i]? with _ | idx
  · exact .zero _
  · exact h idx

/-- An exact array. -/
theorem Enc.self {a : NDArray ℂ} (h : a.WF) : Enc 0 a a (a.mapArr absC) := by
  refine .mk' rfl rfl h fun i => ?_
  have : (a.mapArr absC).data.getD i 0 = absC (a.data.getD i 0) := by
    simp only [mapArr, List.getD_eq_getElem?_getD, List.getElem?_map]
    cases a.data[i]? <;> simp
  rw [this]
  exact ⟨by simp, by simp [absC], by simp [absC]⟩

theorem getD_star (l : List ℂ) (i : ℕ) : (l.map star).getD i 0 = star (l.getD i 0) := by
  simp only [List.getD_eq_getElem?_getD, List.getElem?_map]
  cases l[i]? <;> simp

theorem Enc.conj {γ : ℝ} {a e m : NDArray ℂ} (h : Enc γ a e m) : Enc γ a.conj e.conj m.conj := by
  refine .mk' h.shape h.shape' (by simpa [WF, NDArray.conj] using h.wf) fun i => ?_
  simp only [NDArray.conj, getD_star]
  exact (h.at i).conj

theorem Enc.ndim {γ : ℝ} {a e m : NDArray ℂ} (h : Enc γ a e m) : a.ndim = e.ndim ∧ m.ndim = e.ndim := by
  rw [NDArray.ndim, NDArray.ndim, NDArray.ndim, h.shape, h.shape']; exact ⟨rfl, rfl⟩

theorem Enc.transpose {γ : ℝ} {a e m : NDArray ℂ} (h : Enc γ a e m) {p : List ℕ} {e' : NDArray ℂ}
    (he : e.transpose p = .ok e') : ∃ a' m', a.transpose p = .ok a' ∧ m.transpose p = .ok m' ∧ Enc γ a' e' m' := by
  simp only [NDArray.transpose] at he ⊢
  rw [h.ndim.1, h.ndim.2, h.shape, h.shape']
  split_ifs at he ⊢ with hp
  obtain rfl := Except.ok.inj he
  exact ⟨_, _, rfl, rfl, .ofFn _ fun idx => h.get _⟩

theorem Enc.moveaxis {γ : ℝ} {a e m : NDArray ℂ} (h : Enc γ a e m) {s d : List ℕ} {e' : NDArray ℂ}
    (he : e.moveaxis s d = .ok e') : ∃ a' m', a.moveaxis s d = .ok a' ∧ m.moveaxis s d = .ok m' ∧ Enc γ a' e' m' := by
  simp only [NDArray.moveaxis] at he ⊢
  rw [h.ndim.1, h.ndim.2]
  split_ifs at he ⊢ with hp
  exact h.transpose he

theorem Enc.permuteBasis {γ : ℝ} {a e m : NDArray ℂ} (h : Enc γ a e m) {s : List ℕ} {inv : Bool} {e' : NDArray ℂ}
    (he : Verif.permuteBasis e s inv = .ok e') :
    ∃ a' m', Verif.permuteBasis a s inv = .ok a' ∧ Verif.permuteBasis m s inv = .ok m' ∧ Enc γ a' e' m' := by
  simp only [Verif.permuteBasis] at he ⊢
  by_cases hp : argsort (argsort s) = List.range s.length
  · rw [if_pos hp] at he
    rw [if_pos hp, if_pos hp]
    obtain rfl := Except.ok.inj he
    exact ⟨_, _, rfl, rfl, h⟩
  · rw [if_neg hp] at he
    rw [if_neg hp, if_neg hp]
    exact h.transpose he

theorem Enc.dagger {γ : ℝ} {a e m : NDArray ℂ} (h : Enc γ a e m) {e' : NDArray ℂ} (he : Verif.dagger e = .ok e') :
    ∃ a' m', Verif.dagger a = .ok a' ∧ Verif.dagger m = .ok m' ∧ Enc γ a' e' m' := by
  simp only [Verif.dagger] at he ⊢
  rw [h.ndim.1, h.ndim.2]
  split_ifs at he ⊢ with hp
  · exact h.conj.transpose he
  · rcases ht : e.transpose (List.range e.ndim).reverse with err | t
    · rw [ht] at he; simp [Except.map] at he
    · rw [ht] at he
      obtain rfl := Except.ok.inj he
      obtain ⟨a', m', h1, h2, h3⟩ := h.transpose ht
      exact ⟨_, _, by rw [h1]; rfl, by rw [h2]; rfl, h3.conj⟩

theorem Enc.tensordot (hu : 0 ≤ u) (hδ : 0 ≤ δ) (hF : F.Accurate u δ) {γ γ' : ℝ} (hγ : 0 ≤ γ) (hγ' : 0 ≤ γ')
    {o o' om a e m : NDArray ℂ} (ho : Enc γ o o' om) (h : Enc γ' a e m) {A B : List ℕ} {e' : NDArray ℂ}
    (he : NDArray.tensordot o' e A B = .ok e') {N : ℕ} (hN : (A.map fun q => o'.shape.getD q 0).prod = N) :
    ∃ a' m', F.tensordot o a A B = .ok a' ∧ NDArray.tensordot om m A B = .ok m' ∧
      Enc ((1 + γ) * (1 + γ') * (1 + dotError u δ N) - 1) a' e' m' := by
  simp only [NDArray.tensordot, Flops.tensordot] at he ⊢
  rw [h.ndim.1, h.ndim.2, h.shape, h.shape', ho.ndim.1, ho.ndim.2, ho.shape, ho.shape']
  split_ifs at he ⊢ with hp
  obtain rfl := Except.ok.inj he
  refine ⟨_, _, rfl, rfl, .ofFn _ fun idx => ?_⟩
  have := EncC.dot hu hδ hF hγ hγ' (fun s => ho.get (assemble o'.ndim A s (idx.take (freeAxes o'.ndim A).length)))
    (fun s => h.get (assemble e.ndim B s (idx.drop (freeAxes o'.ndim A).length)))
    (allIdx (A.map fun q => o'.shape.getD q 0))
  rwa [length_allIdx, hN] at this

theorem bind_ok_iff {α β : Type} {x : Py α} {f : α → Py β} {y : β} :
    (x >>= f) = .ok y ↔ ∃ a, x = .ok a ∧ f a = .ok y := by
  cases x with
  | error e => exact ⟨fun h => (by cases h), fun ⟨_, h, _⟩ => (by cases h)⟩
  | ok v => exact ⟨fun h => ⟨v, rfl, h⟩, fun ⟨_, h, h'⟩ => by cases h; exact h'⟩

theorem prod_half {P : NDArray ℂ} {q : ℕ} (hP : P.shape = List.replicate (2 * q) 2) :
    (((List.range (2 * q)).drop q).map fun x => P.shape.getD x 0).prod = 2 ^ q := by
  have : ∀ x ∈ (List.range (2 * q)).drop q, P.shape.getD x 0 = 2 := by
    intro x hx
    have := List.mem_range.1 (List.mem_of_mem_drop hx)
    rw [hP, List.getD_eq_getElem?_getD, List.getElem?_replicate]
    simp [this]
  rw [List.map_congr_left this, List.map_const', List.prod_replicate]
  congr 1
  simp; omega

/-- The moduli of the entries of a matrix. -/
noncomputable def absMat (X : Matrix (Lab n) (Lab n) ℂ) : Matrix (Lab n) (Lab n) ℂ := fun i j => (‖X i j‖ : ℂ)

/-- The computed conjugation, entry by entry. -/
theorem appDM_near (so : SetOrder) (hu : 0 ≤ u) (hδ : 0 ≤ δ) (hF : F.Accurate u δ) {ρ : DensityMatrix ℂ}
    {o : NDArray ℂ × List ℕ × Ctl} (hρ : IsDM n ρ) (ho : WfOp n o) :
    ∃ r, F.applyOperatorDM so ρ o.1 o.2.1 o.2.2 = .ok r ∧ IsDM n r ∧
      ∀ x y, ‖(dmMat n r.array - conjBy (opMat n o) (dmMat n ρ.array)) x y‖
        ≤ ((1 + dotError u δ (2 ^ ((ctlInts o.2.2).length + o.2.1.length))) ^ 2 - 1)
          * (conjBy (absMat (opMat n o)) (absMat (dmMat n ρ.array)) x y).re := by
  obtain ⟨e, h1, h2, h3⟩ := applyOperatorDM_opMat so hρ ho
  obtain ⟨m, k1, k2, k3⟩ := applyOperatorDM_opMat so (n := n) (ρ := ⟨ρ.array.mapArr absC⟩) (o := (o.1.mapArr absC, o.2))
    ⟨hρ.shape, by simpa [WF, mapArr] using hρ.wf⟩
    ⟨⟨ho.op.shape, by simpa [WF, mapArr] using ho.op.wf⟩, ho.ctl, ho.dims⟩
  obtain ⟨op', hs', hw', hprep, -⟩ := prepareOperator_eq ho.op.shape ho.op.wf o.2.1 (ctlInts o.2.2)
  rw [← prepareOperator_ctl _ _ ho.ctl] at hprep
  generalize hq : (ctlInts o.2.2).length + o.2.1.length = q at hprep
  have hPw : (⟨List.replicate (2 * q) 2, op'.data⟩ : NDArray ℂ).WF := by
    have := hw'
    simp only [WF, hs', hq] at this ⊢
    rw [this]
    simp [List.prod_replicate, two_mul, pow_add]
  generalize hP : (⟨List.replicate (2 * q) 2, op'.data⟩ : NDArray ℂ) = P at hprep hPw
  have hPs : P.shape = List.replicate (2 * q) 2 := by rw [← hP]
  have hd := dotError_nonneg hu hδ (2 ^ q)
  rw [applyOperatorDM, hprep] at h1
  rw [applyOperatorDM, prepareOperator_abs, hprep] at k1
  rw [Flops.applyOperatorDM, hprep]
  replace h1 := bind_ok_iff.1 h1
  obtain ⟨_, h0, h1⟩ := h1
  obtain rfl := Except.ok.inj h0
  obtain ⟨e1, g1, h1⟩ := bind_ok_iff.1 h1
  obtain ⟨e2, g2, h1⟩ := bind_ok_iff.1 h1
  obtain ⟨e3, g3, h1⟩ := bind_ok_iff.1 h1
  obtain ⟨e4, g4, h1⟩ := bind_ok_iff.1 h1
  obtain ⟨e5, g5, h1⟩ := bind_ok_iff.1 h1
  obtain ⟨e6, g6, h1⟩ := bind_ok_iff.1 h1
  obtain rfl := Except.ok.inj h1
  obtain ⟨_, k0, k1⟩ := bind_ok_iff.1 k1
  obtain rfl := Except.ok.inj k0
  obtain ⟨m1, l1, k1⟩ := bind_ok_iff.1 k1
  obtain ⟨m2, l2, k1⟩ := bind_ok_iff.1 k1
  obtain ⟨m3, l3, k1⟩ := bind_ok_iff.1 k1
  obtain ⟨m4, l4, k1⟩ := bind_ok_iff.1 k1
  obtain ⟨m5, l5, k1⟩ := bind_ok_iff.1 k1
  obtain ⟨m6, l6, k1⟩ := bind_ok_iff.1 k1
  obtain rfl := Except.ok.inj k1
  obtain ⟨a1, n1, b1, c1, E1⟩ := (Enc.self hρ.wf).permuteBasis g1
  obtain rfl := Except.ok.inj (c1.symm.trans l1)
  obtain ⟨a2, n2, b2, c2, E2⟩ := Enc.tensordot hu hδ hF le_rfl le_rfl (Enc.self hPw) E1 g2 (prod_half hPs)
  obtain rfl := Except.ok.inj (c2.symm.trans l2)
  obtain ⟨a3, n3, b3, c3, E3⟩ := E2.dagger g3
  obtain rfl := Except.ok.inj (c3.symm.trans l3)
  obtain ⟨a4, n4, b4, c4, E4⟩ := Enc.tensordot hu hδ hF le_rfl (by linarith) (Enc.self hPw) E3 g4 (prod_half hPs)
  obtain rfl := Except.ok.inj (c4.symm.trans l4)
  obtain ⟨a5, n5, b5, c5, E5⟩ := E4.dagger g5
  obtain rfl := Except.ok.inj (c5.symm.trans l5)
  obtain ⟨a6, n6, b6, c6, E6⟩ := E5.permuteBasis g6
  obtain rfl := Except.ok.inj (c6.symm.trans l6)
  refine ⟨⟨a6⟩, ?_, ⟨E6.shape.trans h2.shape, E6.wf⟩, fun x y => ?_⟩
  · exact bind_ok_iff.2 ⟨_, rfl, bind_ok_iff.2 ⟨a1, b1, bind_ok_iff.2 ⟨a2, b2, bind_ok_iff.2 ⟨a3, b3, bind_ok_iff.2
      ⟨a4, b4, bind_ok_iff.2 ⟨a5, b5, bind_ok_iff.2 ⟨a6, b6, rfl⟩⟩⟩⟩⟩⟩⟩
  · have hb := (E6.get (x.bits ++ y.bits)).data
    have ha : absMat (opMat n o) = opMat n (o.1.mapArr absC, o.2) := by
      funext b c
      simp only [absMat, opMat, gateMat, entries, get_abs, absC]
      split_ifs <;> simp
    have hr : absMat (dmMat n ρ.array) = dmMat n (ρ.array.mapArr absC) := by
      funext b c
      simp only [absMat, dmMat, get_abs, absC]
    rw [ha, hr, conjBy, conjBy, ← k3, ← h3]
    refine hb.trans (le_of_eq ?_)
    simp only [dmMat]
    ring

/-! ## From entries to the root of the sum of squares -/

theorem frob_mono {X Y : Matrix (Lab n) (Lab n) ℂ} {c : ℝ} (hc : 0 ≤ c) (h : ∀ x y, ‖X x y‖ ≤ c * ‖Y x y‖) :
    frob X ≤ c * frob Y := by
  refine (sq_le_sq₀ (frob_nonneg X) (mul_nonneg hc (frob_nonneg Y))).1 ?_
  rw [mul_pow, frob_sq, frob_sq, Finset.mul_sum]
  refine Finset.sum_le_sum fun i _ => ?_
  rw [Finset.mul_sum]
  refine Finset.sum_le_sum fun j _ => ?_
  rw [← mul_pow]
  exact pow_le_pow_left₀ (norm_nonneg _) (h i j) 2

theorem frob_conjTranspose (X : Matrix (Lab n) (Lab n) ℂ) : frob X.conjTranspose = frob X := by
  rw [frob, frob, Finset.sum_comm]
  simp [Matrix.conjTranspose_apply]

theorem frob_absMat (X : Matrix (Lab n) (Lab n) ℂ) : frob (absMat X) = frob X := by simp [frob, absMat]

theorem frob_abs_mul (U : ℕ → ℕ → ℂ) {ts cs : List ℕ} (hv : ValidDims n (cs ++ ts)) (X : Matrix (Lab n) (Lab n) ℂ) :
    frob (absMat (gateMat n U ts cs) * X) ≤ Real.sqrt (2 ^ ts.length) * ‖gateMat n U ts cs‖ * frob X := by
  refine (sq_le_sq₀ (frob_nonneg _) (by have := frob_nonneg X; positivity)).1 ?_
  rw [mul_pow, frob_sq, frob_sq, Finset.sum_comm, Finset.sum_comm (γ := Lab n) (f := fun i j => ‖X i j‖ ^ 2), Finset.mul_sum]
  refine Finset.sum_le_sum fun j _ => ?_
  have h := abs_mulVec_le U hv fun i => X i j
  have h0 : 0 ≤ ∑ b, (∑ c, ‖gateMat n U ts cs b c‖ * ‖X c j‖) ^ 2 := Finset.sum_nonneg fun _ _ => sq_nonneg _
  have h2 := pow_le_pow_left₀ (Real.sqrt_nonneg _) h 2
  rw [Real.sq_sqrt h0, ← mul_assoc, mul_pow, ketNorm_sq'] at h2
  refine le_trans (Finset.sum_le_sum fun i _ => pow_le_pow_left₀ (norm_nonneg _) ?_ 2) h2
  rw [Matrix.mul_apply]
  refine (norm_sum_le _ _).trans (le_of_eq (Finset.sum_congr rfl fun c _ => ?_))
  rw [norm_mul]
  simp [absMat]

/-- Taking moduli in `ρ ↦ O ρ O†` costs at most a factor `2^k`. -/
theorem frob_conj_abs (U : ℕ → ℕ → ℂ) {ts cs : List ℕ} (hv : ValidDims n (cs ++ ts)) (X : Matrix (Lab n) (Lab n) ℂ) :
    frob (conjBy (absMat (gateMat n U ts cs)) (absMat X)) ≤ 2 ^ ts.length * (‖gateMat n U ts cs‖ ^ 2 * frob X) := by
  have e : (conjBy (absMat (gateMat n U ts cs)) (absMat X)).conjTranspose
      = absMat (gateMat n U ts cs) * (absMat (gateMat n U ts cs) * absMat X).conjTranspose := by
    rw [conjBy, Matrix.conjTranspose_mul, Matrix.conjTranspose_conjTranspose]
  rw [← frob_conjTranspose, e]
  have h1 := frob_abs_mul U hv (absMat (gateMat n U ts cs) * absMat X).conjTranspose
  rw [frob_conjTranspose] at h1
  have h2 := frob_abs_mul U hv (absMat X)
  rw [frob_absMat] at h2
  refine h1.trans ?_
  calc _ ≤ Real.sqrt (2 ^ ts.length) * ‖gateMat n U ts cs‖ * (Real.sqrt (2 ^ ts.length) * ‖gateMat n U ts cs‖ * frob X) :=
        mul_le_mul_of_nonneg_left h2 (by positivity)
    _ = (Real.sqrt (2 ^ ts.length) * Real.sqrt (2 ^ ts.length)) * (‖gateMat n U ts cs‖ ^ 2 * frob X) := by ring
    _ = _ := by rw [Real.mul_self_sqrt (by positivity)]

/-- The computed conjugation, in the root of the sum of squares. -/
theorem appDM_frob (so : SetOrder) (hu : 0 ≤ u) (hδ : 0 ≤ δ) (hF : F.Accurate u δ) {ρ : DensityMatrix ℂ}
    {o : NDArray ℂ × List ℕ × Ctl} (hρ : IsDM n ρ) (ho : WfOp n o) :
    ∃ r, F.applyOperatorDM so ρ o.1 o.2.1 o.2.2 = .ok r ∧ IsDM n r ∧
      frob (dmMat n r.array - conjBy (opMat n o) (dmMat n ρ.array))
        ≤ ((1 + dotError u δ (2 ^ ((ctlInts o.2.2).length + o.2.1.length))) ^ 2 - 1) * 2 ^ o.2.1.length
          * (‖opMat n o‖ ^ 2 * frob (dmMat n ρ.array)) := by
  obtain ⟨r, h1, h2, h3⟩ := appDM_near so hu hδ hF hρ ho
  have hd := dotError_nonneg hu hδ (2 ^ ((ctlInts o.2.2).length + o.2.1.length))
  have hγ : 0 ≤ (1 + dotError u δ (2 ^ ((ctlInts o.2.2).length + o.2.1.length))) ^ 2 - 1 :=
    sub_nonneg.2 (one_le_pow₀ (by linarith))
  refine ⟨r, h1, h2, ?_⟩
  rw [mul_assoc]
  refine (frob_mono hγ fun x y => (h3 x y).trans (mul_le_mul_of_nonneg_left (Complex.re_le_norm _) hγ)).trans ?_
  exact mul_le_mul_of_nonneg_left (frob_conj_abs (entries o.1) ho.dims _) hγ

/-! ## Noise -/

theorem EncC.fmul (hδ : 0 ≤ δ) (hF : F.Accurate u δ) {γ γ' : ℝ} (hγ : 0 ≤ γ) (hγ' : 0 ≤ γ') {a e m a' e' m' : ℂ}
    (h : EncC γ a e m) (h' : EncC γ' a' e' m') :
    EncC ((1 + γ) * (1 + γ') * (1 + δ) - 1) (F.mul a a') (e * e') (m * m') := by
  have h1 := h.mul hγ hγ' h'
  have h2 := h1.round hδ (hF.mul a a') h1.norm_le
  convert h2 using 1
  ring

theorem Enc.kron (hδ : 0 ≤ δ) (hF : F.Accurate u δ) {γ γ' : ℝ} (hγ : 0 ≤ γ) (hγ' : 0 ≤ γ') {a e m a' e' m' : NDArray ℂ}
    (h : Enc γ a e m) (h' : Enc γ' a' e' m') {r : NDArray ℂ} (he : NDArray.kron e e' = .ok r) :
    ∃ x y, F.kron a a' = .ok x ∧ NDArray.kron m m' = .ok y ∧ Enc ((1 + γ) * (1 + γ') * (1 + δ) - 1) x r y := by
  simp only [NDArray.kron, Flops.kron] at he ⊢
  rw [h.shape, h.shape', h'.shape, h'.shape']
  generalize e.shape = s at he ⊢
  generalize e'.shape = s' at he ⊢
  split at he
  · obtain rfl := Except.ok.inj he
    exact ⟨_, _, rfl, rfl, .ofFn _ fun idx => EncC.fmul hδ hF hγ hγ' (h.get _) (h'.get _)⟩
  · cases he

theorem Enc.matI : Enc 0 (Verif.matI : NDArray ℂ) Verif.matI Verif.matI := by
  refine .ofFn _ fun idx => ?_
  split_ifs
  · exact ⟨by simp, by simp, by simp⟩
  · exact .zero _

theorem Enc.kronI (hδ : 0 ≤ δ) (hF : F.Accurate u δ) : ∀ (j : ℕ) {γ : ℝ} (_ : 0 ≤ γ) {a e m r : NDArray ℂ} (_ : Enc γ a e m)
    (_ : (List.replicate j Verif.matI).foldlM (fun acc m => NDArray.kron acc m) e = .ok r),
    ∃ x y, (List.replicate j Verif.matI).foldlM (fun acc m => F.kron acc m) a = .ok x ∧
      (List.replicate j Verif.matI).foldlM (fun acc m => NDArray.kron acc m) m = .ok y ∧
      Enc ((1 + γ) * (1 + δ) ^ j - 1) x r y
  | 0, γ, _, a, e, m, r, h, he => by
    obtain rfl := Except.ok.inj he
    refine ⟨a, m, rfl, rfl, ?_⟩
    convert h using 1
    ring
  | j + 1, γ, hγ, a, e, m, r, h, he => by
    rw [List.replicate_succ, List.foldlM_cons] at he ⊢
    rw [List.foldlM_cons]
    obtain ⟨e1, g1, he⟩ := bind_ok_iff.1 he
    obtain ⟨x, y, b1, c1, E1⟩ := h.kron hδ hF hγ le_rfl Enc.matI g1
    have hγ1 : 0 ≤ (1 + γ) * (1 + 0) * (1 + δ) - 1 := by nlinarith
    obtain ⟨x', y', b2, c2, E2⟩ := Enc.kronI hδ hF j hγ1 E1 he
    refine ⟨x', y', bind_ok_iff.2 ⟨x, b1, b2⟩, bind_ok_iff.2 ⟨y, c1, c2⟩, ?_⟩
    convert E2 using 1
    ring

theorem Enc.reshape {γ : ℝ} {a e m : NDArray ℂ} (h : Enc γ a e m) {s : List ℕ} {r : NDArray ℂ} (he : e.reshape s = .ok r) :
    ∃ x y, a.reshape s = .ok x ∧ m.reshape s = .ok y ∧ Enc γ x r y := by
  simp only [NDArray.reshape] at he ⊢
  rw [h.shape, h.shape']
  split_ifs at he ⊢ with hp
  obtain rfl := Except.ok.inj he
  refine ⟨_, _, rfl, rfl, .mk' rfl rfl ?_ h.at⟩
  have := h.wf
  simp only [WF, h.shape] at this ⊢
  rw [this, hp]

theorem Enc.expandOperator (hδ : 0 ≤ δ) (hF : F.Accurate u δ) {γ : ℝ} (hγ : 0 ≤ γ) {a e m r : NDArray ℂ} (h : Enc γ a e m)
    {t : ℕ} (ht : t < n) (he : Verif.expandOperator e [t] (List.range n) = .ok r) :
    ∃ x y, F.expandOperator a [t] (List.range n) = .ok x ∧ Verif.expandOperator m [t] (List.range n) = .ok y ∧
      Enc ((1 + γ) * (1 + δ) ^ (n - 1) - 1) x r y := by
  simp only [Verif.expandOperator, Flops.expandOperator] at he ⊢
  split_ifs at he ⊢ with hp
  obtain ⟨e1, g1, he⟩ := bind_ok_iff.1 he
  obtain ⟨e2, g2, he⟩ := bind_ok_iff.1 he
  obtain ⟨e3, g3, he⟩ := bind_ok_iff.1 he
  obtain ⟨a1, m1, b1, c1, E1⟩ := h.kronI hδ hF _ hγ g1
  have hs : a1.size = e1.size ∧ m1.size = e1.size := by
    rw [NDArray.size, NDArray.size, NDArray.size, E1.shape, E1.shape']; exact ⟨rfl, rfl⟩
  obtain ⟨a2, m2, b2, c2, E2⟩ := E1.reshape g2
  obtain ⟨a3, m3, b3, c3, E3⟩ := E2.permuteBasis g3
  obtain ⟨a4, m4, b4, c4, E4⟩ := E3.reshape he
  refine ⟨a4, m4, bind_ok_iff.2 ⟨a1, b1, bind_ok_iff.2 ⟨a2, by rw [hilbertReshape, hs.1]; exact b2,
    bind_ok_iff.2 ⟨a3, b3, b4⟩⟩⟩, bind_ok_iff.2 ⟨m1, c1, bind_ok_iff.2 ⟨m2, by rw [hilbertReshape, hs.2]; exact c2,
    bind_ok_iff.2 ⟨m3, c3, c4⟩⟩⟩, ?_⟩
  have hl : (pySorted (((pySorted (List.range n)).filter (· ∉ pySorted [t])).dedup)).length = n - 1 := by
    rw [pySorted_range, pySorted_singleton]
    have : (pySorted (((List.range n).filter (· ∉ [t])).dedup)).length = (((List.range n).filter (· ∉ [t])).dedup).length :=
      (perm_pySorted _).length_eq
    rw [this, List.Nodup.dedup (List.nodup_range.filter _)]
    have h2 : (List.range n).filter (· ∉ [t]) = (List.range n).erase t := by
      rw [List.nodup_range.erase_eq_filter]
      refine List.filter_congr fun x _ => ?_
      by_cases hx : x = t <;> simp [hx]
    rw [h2, List.length_erase_of_mem (by simpa using ht), List.length_range]
  rw [hl] at E4
  exact E4

theorem Enc.applyKrausOperator (hu : 0 ≤ u) (hδ : 0 ≤ δ) (hF : F.Accurate u δ) {γ : ℝ} (hγ : 0 ≤ γ) {k' k km a r : NDArray ℂ}
    (h : Enc γ k' k km) (hk : IsOp n k) (ha : a.WF)
    (he : Verif.applyKrausOperator k a (List.range n) = .ok r) :
    ∃ x y, F.applyKrausOperator k' a (List.range n) = .ok x ∧
      Verif.applyKrausOperator km (a.mapArr absC) (List.range n) = .ok y ∧
      Enc ((1 + γ) ^ 2 * (1 + dotError u δ (2 ^ n)) ^ 2 - 1) x r y := by
  have hsz : k.size = 2 ^ (2 * n) := by rw [size, hk.shape]; simp [two_mul, pow_add]
  have hsz1 : k'.size = 2 ^ (2 * n) := by rw [size, h.shape, ← size, hsz]
  have hsz2 : km.size = 2 ^ (2 * n) := by rw [size, h.shape', ← size, hsz]
  have hd := dotError_nonneg hu hδ (2 ^ n)
  rw [Verif.applyKrausOperator] at he ⊢
  rw [Flops.applyKrausOperator]
  simp only [hsz, hsz1, hsz2, intLog2_pow, show 2 * n / 2 = n by omega] at he ⊢
  obtain ⟨e0, g0, he⟩ := bind_ok_iff.1 he
  obtain ⟨e1, g1, he⟩ := bind_ok_iff.1 he
  obtain ⟨e2, g2, he⟩ := bind_ok_iff.1 he
  obtain ⟨e3, g3, he⟩ := bind_ok_iff.1 he
  obtain ⟨e4, g4, he⟩ := bind_ok_iff.1 he
  obtain ⟨e5, g5, he⟩ := bind_ok_iff.1 he
  have hs0 : e0.shape = List.replicate (2 * n) 2 := by
    rw [NDArray.reshape] at g0
    split_ifs at g0
    rw [← Except.ok.inj g0]
  obtain ⟨a0, m0, b0, c0, E0⟩ := h.reshape g0
  obtain ⟨a1, m1, b1, c1, E1⟩ := (Enc.self ha).moveaxis g1
  obtain ⟨a2, m2, b2, c2, E2⟩ := Enc.tensordot hu hδ hF hγ le_rfl E0 E1 g2 (prod_half hs0)
  obtain ⟨a3, m3, b3, c3, E3⟩ := E2.dagger g3
  obtain ⟨a4, m4, b4, c4, E4⟩ := Enc.tensordot hu hδ hF hγ (by nlinarith [mul_nonneg hγ hd]) E0 E3 g4 (prod_half hs0)
  obtain ⟨a5, m5, b5, c5, E5⟩ := E4.dagger g5
  obtain ⟨a6, m6, b6, c6, E6⟩ := E5.moveaxis he
  refine ⟨a6, m6, bind_ok_iff.2 ⟨a0, b0, bind_ok_iff.2 ⟨a1, b1, bind_ok_iff.2 ⟨a2, b2, bind_ok_iff.2 ⟨a3, b3, bind_ok_iff.2
      ⟨a4, b4, bind_ok_iff.2 ⟨a5, b5, b6⟩⟩⟩⟩⟩⟩, bind_ok_iff.2 ⟨m0, c0, bind_ok_iff.2 ⟨m1, c1, bind_ok_iff.2 ⟨m2, c2, bind_ok_iff.2
      ⟨m3, c3, bind_ok_iff.2 ⟨m4, c4, bind_ok_iff.2 ⟨m5, c5, c6⟩⟩⟩⟩⟩⟩, ?_⟩
  convert E6 using 1
  ring

theorem mapM_rel {α β γ : Type} {f : β → Py γ} {R : α → β → Prop} {S : α → γ → Prop} {as : List α} {bs : List β}
    (h : List.Forall₂ R as bs) (hf : ∀ a ∈ as, ∀ b, R a b → ∃ c, f b = .ok c ∧ S a c) :
    ∃ cs, bs.mapM f = .ok cs ∧ List.Forall₂ S as cs := by
  induction h with
  | nil => exact ⟨[], rfl, .nil⟩
  | cons h _ ih =>
    obtain ⟨c, hc, hS⟩ := hf _ (by simp) _ h
    obtain ⟨cs, hcs, hF⟩ := ih fun a ha => hf a (by simp [ha])
    refine ⟨c :: cs, ?_, .cons hS hF⟩
    rw [List.mapM_cons, hc, hcs]; rfl

/-- From entries of one-qubit operators to stored numbers. -/
theorem Enc.ofEntries {τ : ℝ} {k k' : NDArray ℂ} (hk : IsOp 1 k) (hk' : IsOp 1 k')
    (h : ∀ i j, i < 2 → j < 2 → ‖entries k' i j - entries k i j‖ ≤ τ * ‖entries k i j‖) : Enc τ k' k (k.mapArr absC) := by
  have hl : k.data.length = 4 := by have := hk.wf; simpa [WF, hk.shape] using this
  have hl' : k'.data.length = 4 := by have := hk'.wf; simpa [WF, hk'.shape] using this
  have ha : ∀ i, (k.mapArr absC).data.getD i 0 = absC (k.data.getD i 0) := fun i => by
    simp only [mapArr, List.getD_eq_getElem?_getD, List.getElem?_map]
    cases k.data[i]? <;> simp [absC]
  refine .mk' (hk'.shape.trans hk.shape.symm) rfl hk'.wf fun i => ?_
  rw [ha]
  refine ⟨?_, by simp [absC], by simp [absC]⟩
  by_cases hi : i < 4
  · have := h (i / 2) (i % 2) (by omega) (by omega)
    simp only [entries, NDArray.get, hk.shape, hk'.shape] at this
    have e : ravel [2 ^ 1, 2 ^ 1] [i / 2, i % 2] = i := by simp [ravel]; omega
    rw [e] at this
    simpa [absC] using this
  · simp [List.getD_eq_getElem?_getD, List.getElem?_eq_none (show k.data.length ≤ i by omega),
      List.getElem?_eq_none (show k'.data.length ≤ i by omega), absC]

theorem absMat_gateMat (k : NDArray ℂ) (ts cs : List ℕ) :
    absMat (gateMat n (entries k) ts cs) = gateMat n (entries (k.mapArr absC)) ts cs := by
  funext b c
  simp only [absMat, gateMat, entries, get_abs, absC]
  split_ifs <;> simp

/-- A computed term of the Kraus sum. -/
theorem krausTerm_near (hu : 0 ≤ u) (hδ : 0 ≤ δ) (hF : F.Accurate u δ) {τ : ℝ} (hτ : 0 ≤ τ) {k x : NDArray ℂ} {t : ℕ}
    {ρ : DensityMatrix ℂ} (hρ : IsDM n ρ)
    (h : ∃ e m, IsOp n e ∧ IsOp n m ∧ gateMat n (entries e) (List.range n) [] = gateMat n (entries k) [t] [] ∧
      gateMat n (entries m) (List.range n) [] = absMat (gateMat n (entries k) [t] []) ∧ Enc τ x e m) :
    ∃ r, F.applyKrausOperator x ρ.array (List.range n) = .ok r ∧ (r.shape = List.replicate (n + n) 2 ∧ r.WF ∧
      ∀ b c, EncC ((1 + τ) ^ 2 * (1 + dotError u δ (2 ^ n)) ^ 2 - 1) (dmMat n r b c)
        (conjBy (gateMat n (entries k) [t] []) (dmMat n ρ.array) b c)
        (conjBy (absMat (gateMat n (entries k) [t] [])) (absMat (dmMat n ρ.array)) b c)) := by
  obtain ⟨e, m, he, hm, h1, h2, E⟩ := h
  obtain ⟨r, r1, r2, -, r4⟩ := applyKrausOperator_full he hρ.shape hρ.wf
  obtain ⟨s, s1, -, -, s4⟩ := applyKrausOperator_full (n := n) (a := ρ.array.mapArr absC) hm hρ.shape
    (by simpa [WF, mapArr] using hρ.wf)
  obtain ⟨a, y, b1, c1, E1⟩ := E.applyKrausOperator hu hδ hF hτ he hρ.wf r1
  obtain rfl := Except.ok.inj (c1.symm.trans s1)
  refine ⟨a, b1, E1.shape.trans r2, E1.wf, fun b c => ?_⟩
  have hr : absMat (dmMat n ρ.array) = dmMat n (ρ.array.mapArr absC) := by
    funext b c
    simp only [absMat, dmMat, get_abs, absC]
  rw [hr, conjBy, conjBy, ← h2, ← h1, ← r4, ← s4]
  exact E1.get _

theorem EncC.fsum (hu : 0 ≤ u) (hF : F.Accurate u δ) {γ : ℝ} {ι : Type} {e m : ι → ℂ} {l : List ι} {a : List ℂ}
    (h : List.Forall₂ (fun i a => EncC γ a (e i) (m i)) l a) :
    EncC ((1 + γ) * (1 + ((1 + u) ^ (l.length - 1) - 1)) - 1) (F.sum a) (l.map e).sum (l.map m).sum := by
  have h1 : EncC γ a.sum (l.map e).sum (l.map m).sum ∧ (a.map (‖·‖)).sum ≤ (1 + γ) * ((l.map m).sum).re := by
    induction h with
    | nil => exact ⟨.zero _, by simp⟩
    | cons h _ ih =>
      simp only [List.map_cons, List.sum_cons, Complex.add_re]
      refine ⟨h.add ih.1, ?_⟩
      rw [mul_add (1 + γ)]
      exact add_le_add h.norm_le ih.2
  have h2 := (F.sums a).err hu hF.add
  rw [← h.length_eq] at h2
  exact h1.1.round (sub_nonneg.2 (one_le_pow₀ (by linarith))) h2 h1.2

theorem Flops.sumArrays_dm {l : List (NDArray ℂ)} (hne : l ≠ [])
    (hl : ∀ a ∈ l, a.shape = List.replicate (n + n) 2) :
    ∃ r, F.sumArrays l = .ok r ∧ r.shape = List.replicate (n + n) 2 ∧ r.WF ∧
      ∀ b c, dmMat n r b c = F.sum (l.map fun a => dmMat n a b c) := by
  cases l with
  | nil => exact absurd rfl hne
  | cons a l =>
    have ha := hl a (by simp)
    rw [Flops.sumArrays, if_pos fun b hb => (hl b (by simp [hb])).trans ha.symm, ha]
    refine ⟨_, rfl, rfl, wf_ofFn _ _, fun b c => ?_⟩
    rw [dmMat, get_ofFn (forall₂_append b c)]
    rfl

/-! ## Norms of Kraus operators -/

theorem kraus_norm_le {As : List (Matrix (Lab n) (Lab n) ℂ)} (h : (As.map fun A => A.conjTranspose * A).sum = 1)
    {A : Matrix (Lab n) (Lab n) ℂ} (hA : A ∈ As) : ‖A‖ ≤ 1 := by
  have key : ∀ (l : List (Matrix (Lab n) (Lab n) ℂ)) (v : Lab n → ℂ),
      (∑ x, star (v x) * ((l.map fun A : Matrix (Lab n) (Lab n) ℂ => A.conjTranspose * A).sum).mulVec v x)
        = (((l.map fun A : Matrix (Lab n) (Lab n) ℂ => ketNorm (A.mulVec v) ^ 2).sum : ℝ) : ℂ) := by
    intro l v
    induction l with
    | nil => simp
    | cons B l ih =>
      simp only [List.map_cons, List.sum_cons, Matrix.add_mulVec, Pi.add_apply, mul_add, Finset.sum_add_distrib, ih]
      rw [Complex.ofReal_add, ketNorm_sq, ← inner_mulVec, Matrix.mulVec_mulVec]
  refine norm_le_of_ketNorm zero_le_one fun v => ?_
  have h1 := key As v
  rw [h, Matrix.one_mulVec, ← ketNorm_sq] at h1
  have h2 : ketNorm v ^ 2 = (As.map fun A => ketNorm (A.mulVec v) ^ 2).sum := by exact_mod_cast h1
  have h3 : ketNorm (A.mulVec v) ^ 2 ≤ ketNorm v ^ 2 := by
    rw [h2]
    exact List.single_le_sum (by simp only [List.mem_map]; rintro _ ⟨B, -, rfl⟩; positivity) _ (List.mem_map_of_mem hA)
  rw [one_mul]
  exact (sq_le_sq₀ (ketNorm_nonneg _) (ketNorm_nonneg _)).1 h3

theorem GoodKraus.norm_le {s : StdNoise} {ks : List (NDArray ℂ)} (hg : GoodKraus s ks) {t : ℕ} (ht : t < n) {k : NDArray ℂ}
    (hk : k ∈ ks) : ‖gateMat n (entries k) [t] []‖ ≤ 1 := by
  have hv : ValidDims n ([] ++ [t]) := ⟨by simp, by simpa using ht⟩
  refine kraus_norm_le (As := ks.map fun k => gateMat n (entries k) [t] []) ?_ (List.mem_map_of_mem hk)
  rw [List.map_map]
  have : (fun A => A.conjTranspose * A) ∘ (fun k => gateMat n (entries k) [t] [])
      = fun k : NDArray ℂ => gateMat n (mulE 2 (conjT (entries k)) (entries k)) [t] [] := by
    funext k
    simp only [Function.comp_apply]
    rw [gateMat_conjTranspose _ hv, gateMat_mul _ _ hv]; rfl
  rw [this]
  have hsum : ∀ l : List (NDArray ℂ), (l.map fun k => gateMat n (mulE 2 (conjT (entries k)) (entries k)) [t] []).sum
      = gateMat n (fun i j => (l.map fun k => mulE 2 (conjT (entries k)) (entries k) i j).sum) [t] [] := by
    intro l
    induction l with
    | nil =>
      funext x y
      simp [gateMat_nil_apply]
    | cons k l ih => simp only [List.map_cons, List.sum_cons, ih, ← gateMat_add]
  rw [hsum, ← gateMat_one (ts := [t]) (cs := [])]
  apply gateMat_congr
  intro i j hi hj
  exact hg.tp i j (by simpa using hi) (by simpa using hj)

/-- The textbook channels have at most four Kraus operators. -/
theorem NoiseInstance.Is.length_le {ni : NoiseInstance} {s : StdNoise} (h : ni.Is s) {ks : List (NDArray ℂ)}
    (hk : ni.kraus = .ok ks) : ks.length ≤ 4 := by
  cases h <;> simp only [NoiseInstance.kraus, Verif.bitFlip, Verif.phaseFlip, Verif.depolarizing, Verif.pauliChannel,
    Verif.amplitudeDamping, Verif.phaseDamping, Verif.generalizedAmplitudeDamping] at hk <;> split_ifs at hk <;>
    (obtain rfl := Except.ok.inj hk; simp)

theorem frob_eq_norm (X : Matrix (Lab n) (Lab n) ℂ) :
    frob X = ‖(WithLp.toLp 2 (fun p : Lab n × Lab n => X p.1 p.2) : EuclideanSpace ℂ (Lab n × Lab n))‖ := by
  rw [EuclideanSpace.norm_eq, frob, Fintype.sum_prod_type]

theorem frob_add (X Y : Matrix (Lab n) (Lab n) ℂ) : frob (X + Y) ≤ frob X + frob Y := by
  rw [frob_eq_norm, frob_eq_norm, frob_eq_norm]
  exact norm_add_le (WithLp.toLp 2 (fun p : Lab n × Lab n => X p.1 p.2) : EuclideanSpace ℂ (Lab n × Lab n))
    (WithLp.toLp 2 (fun p : Lab n × Lab n => Y p.1 p.2))

theorem frob_sum_le {ι : Type} (f : ι → Matrix (Lab n) (Lab n) ℂ) {c : ℝ} {l : List ι} (h : ∀ i ∈ l, frob (f i) ≤ c) :
    frob (l.map f).sum ≤ l.length * c := by
  induction l with
  | nil => simp [frob]
  | cons i l ih =>
    rw [List.map_cons, List.sum_cons, List.length_cons]
    push_cast
    have h1 := h i (by simp)
    have h2 := ih fun j hj => h j (by simp [hj])
    have h3 := frob_add (f i) (l.map f).sum
    linarith

theorem listSum_apply {ι : Type} (f : ι → Matrix (Lab n) (Lab n) ℂ) (l : List ι) (b c : Lab n) :
    (l.map f).sum b c = (l.map fun i => f i b c).sum := by
  induction l with
  | nil => rfl
  | cons i l ih => simp only [List.map_cons, List.sum_cons, Matrix.add_apply, ih]

theorem noiseError_nonneg (hu : 0 ≤ u) (hδ : 0 ≤ δ) {τ : ℝ} (hτ : 0 ≤ τ) (n : ℕ) : 0 ≤ noiseError u δ τ n := by
  have hd := dotError_nonneg hu hδ (2 ^ n)
  have h0 : 1 ≤ (1 + δ) ^ (n - 1) := one_le_pow₀ (by linarith)
  have h1 : 1 ≤ (1 + τ) * (1 + δ) ^ (n - 1) := one_le_mul_of_one_le_of_one_le (by linarith) h0
  have h2 : 1 ≤ ((1 + τ) * (1 + δ) ^ (n - 1)) ^ 2 := one_le_pow₀ h1
  have h3 : 1 ≤ (1 + dotError u δ (2 ^ n)) ^ 2 := one_le_pow₀ (by linarith)
  have h4 : 1 ≤ (1 + u) ^ 3 := one_le_pow₀ (by linarith)
  exact sub_nonneg.2 (one_le_mul_of_one_le_of_one_le (one_le_mul_of_one_le_of_one_le h2 h3) h4)

/-- Computed noise. -/
theorem noise_frob (hu : 0 ≤ u) (hδ : 0 ≤ δ) (hF : F.Accurate u δ) {τ : ℝ} (hτ : 0 ≤ τ)
    {kraus : NoiseInstance → Py (List (NDArray ℂ))} {ni : NoiseInstance} {s : StdNoise} (hs : ni.Is s)
    (hkr : ∀ ks, ni.kraus = .ok ks → (∀ k ∈ ks, IsOp 1 k) →
      ∃ ks', kraus ni = .ok ks' ∧ List.Forall₂ (fun k k' => IsOp 1 k' ∧
        ∀ i j, i < 2 → j < 2 → ‖entries k' i j - entries k i j‖ ≤ τ * ‖entries k i j‖) ks ks')
    {t : ℕ} (ht : t < n) {ρ : DensityMatrix ℂ} (hρ : IsDM n ρ) :
    ∃ r, F.noise kraus ρ ni [t] (List.range n) = .ok r ∧ IsDM n r ∧
      frob (dmMat n r.array - s.chan n t (dmMat n ρ.array)) ≤ 8 * noiseError u δ τ n * frob (dmMat n ρ.array) := by
  have hv : ValidDims n [t] := ⟨by simp, by simpa using ht⟩
  have hd := dotError_nonneg hu hδ (2 ^ n)
  obtain ⟨ks, hks, hg⟩ := hs.kraus
  obtain ⟨ks', hks', hw⟩ := hkr ks hks hg.isOp
  obtain ⟨xs, hxs, hX⟩ := mapM_rel (f := fun k => F.expandOperator k [t] (List.range n))
    (S := fun k x => ∃ e m, IsOp n e ∧ IsOp n m ∧ gateMat n (entries e) (List.range n) [] = gateMat n (entries k) [t] [] ∧
      gateMat n (entries m) (List.range n) [] = absMat (gateMat n (entries k) [t] []) ∧
      Enc ((1 + τ) * (1 + δ) ^ (n - 1) - 1) x e m) hw fun k hk k' hkk => by
    have hop := hg.isOp k hk
    obtain ⟨e, e1, e2, e3⟩ := expandOperator_register hop hv rfl
    obtain ⟨m, m1, m2, m3⟩ := expandOperator_register (op := k.mapArr absC) (k := 1) (n := n)
      ⟨hop.shape, by simpa [WF, mapArr] using hop.wf⟩ hv rfl
    obtain ⟨x, y, x1, y1, E⟩ := (Enc.ofEntries hop hkk.1 hkk.2).expandOperator hδ hF hτ ht e1
    obtain rfl := Except.ok.inj (y1.symm.trans m1)
    refine ⟨x, x1, e, y, e2, m2, ?_, ?_, E⟩
    · funext b c; rw [gateMat_range_apply, e3, pySorted_singleton]
    · rw [absMat_gateMat]; funext b c; rw [gateMat_range_apply, m3, pySorted_singleton]
  have hγ : 0 ≤ (1 + τ) * (1 + δ) ^ (n - 1) - 1 := by
    have : 1 ≤ (1 + δ) ^ (n - 1) := one_le_pow₀ (by linarith)
    nlinarith
  obtain ⟨rs, hrs, hR⟩ := mapM_rel (f := fun k => F.applyKrausOperator k ρ.array (List.range n)) hX
    fun k hk x hx => krausTerm_near hu hδ hF hγ hρ hx
  have hne : rs ≠ [] := by
    rintro rfl
    exact hg.ne (List.forall₂_nil_right_iff.1 hR)
  have hsh : ∀ r ∈ rs, r.shape = List.replicate (n + n) 2 := by
    clear hrs hne hX hw hks hks' hg
    induction hR with
    | nil => simp
    | cons h _ ih => simpa using ⟨h.1, ih⟩
  obtain ⟨r, r1, r2, r3, r4⟩ := Flops.sumArrays_dm (F := F) hne hsh
  refine ⟨⟨r⟩, ?_, ⟨r2, r3⟩, ?_⟩
  · exact bind_ok_iff.2 ⟨ks', hks', bind_ok_iff.2 ⟨xs, hxs, bind_ok_iff.2 ⟨rs, hrs, bind_ok_iff.2 ⟨r, r1, rfl⟩⟩⟩⟩
  have hL := hs.length_le hks
  have hc : 0 ≤ noiseError u δ τ n := noiseError_nonneg hu hδ hτ n
  have hent : ∀ b c, ‖(dmMat n r - s.chan n t (dmMat n ρ.array)) b c‖ ≤ noiseError u δ τ n
      * ‖(ks.map fun k => conjBy (absMat (gateMat n (entries k) [t] [])) (absMat (dmMat n ρ.array))).sum b c‖ := by
    intro b c
    have hf : List.Forall₂ (fun k a => EncC ((1 + ((1 + τ) * (1 + δ) ^ (n - 1) - 1)) ^ 2 * (1 + dotError u δ (2 ^ n)) ^ 2 - 1) a
        (conjBy (gateMat n (entries k) [t] []) (dmMat n ρ.array) b c)
        (conjBy (absMat (gateMat n (entries k) [t] [])) (absMat (dmMat n ρ.array)) b c)) ks (rs.map fun a => dmMat n a b c) := by
      rw [List.forall₂_map_right_iff]
      exact hR.imp fun k a h => h.2.2 b c
    have h1 := EncC.fsum hu hF hf
    rw [← r4, ← listSum_apply, ← listSum_apply, hg.chan] at h1
    rw [Matrix.sub_apply]
    refine h1.data.trans ((mul_le_mul_of_nonneg_right ?_ h1.nonneg).trans
      (mul_le_mul_of_nonneg_left (Complex.re_le_norm _) hc))
    rw [noiseError]
    have hp : (1 + u) ^ (ks.length - 1) ≤ (1 + u) ^ 3 := pow_le_pow_right₀ (by linarith) (by omega)
    have hq : 0 ≤ ((1 + τ) * (1 + δ) ^ (n - 1)) ^ 2 * (1 + dotError u δ (2 ^ n)) ^ 2 := by positivity
    have := mul_le_mul_of_nonneg_left hp hq
    calc _ = ((1 + τ) * (1 + δ) ^ (n - 1)) ^ 2 * (1 + dotError u δ (2 ^ n)) ^ 2 * (1 + u) ^ (ks.length - 1) - 1 := by ring
      _ ≤ _ := by linarith
  refine (frob_mono hc hent).trans ?_
  have hsum := frob_sum_le (fun k => conjBy (absMat (gateMat n (entries k) [t] [])) (absMat (dmMat n ρ.array)))
    (c := 2 * frob (dmMat n ρ.array)) (l := ks) fun k hk => by
      have h1 := frob_conj_abs (n := n) (entries k) (ts := [t]) (cs := []) hv (dmMat n ρ.array)
      have h2 : ‖gateMat n (entries k) [t] []‖ ^ 2 ≤ 1 := pow_le_one₀ (norm_nonneg _) (hg.norm_le ht hk)
      have h3 := frob_nonneg (dmMat n ρ.array)
      refine h1.trans ?_
      simp only [List.length_cons, List.length_nil, zero_add, pow_one]
      nlinarith
  have h3 := frob_nonneg (dmMat n ρ.array)
  have hL' : (ks.length : ℝ) ≤ 4 := by exact_mod_cast hL
  calc _ ≤ noiseError u δ τ n * (ks.length * (2 * frob (dmMat n ρ.array))) := mul_le_mul_of_nonneg_left hsum hc
    _ ≤ noiseError u δ τ n * (4 * (2 * frob (dmMat n ρ.array))) := by gcongr
    _ = _ := by ring

end Verif
