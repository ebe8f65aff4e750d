import Verif.Model.RoundedEnergy
import Verif.Props.Float

/-! # Lemmas about expectation values with rounded arithmetic -/

set_option autoImplicit false

namespace Verif
open NDArray
open scoped Matrix.Norms.L2Operator
variable {n : ℕ} {values : Values} {gs : List Gate} {F : Flops} {u δ ε : ℝ} {op : Gate → Py (NDArray ℂ)}

theorem ketNorm_mono {v w : Lab n → ℂ} {c : ℝ} (hc : 0 ≤ c) (h : ∀ b, ‖v b‖ ≤ c * ‖w b‖) : ketNorm v ≤ c * ketNorm w := by
  rw [ketNorm, ketNorm, ← Real.sqrt_sq hc, ← Real.sqrt_mul (sq_nonneg c), Finset.mul_sum]
  refine Real.sqrt_le_sqrt (Finset.sum_le_sum fun b _ => ?_)
  rw [← mul_pow]
  exact pow_le_pow_left₀ (norm_nonneg _) (h b) 2

theorem ketNorm_tri (v w : Lab n → ℂ) : ketNorm v ≤ ketNorm (v - w) + ketNorm w := by
  have := ketNorm_add (v - w) w
  rwa [sub_add_cancel] at this

theorem scale_ket (c : ℝ) (hδ : 0 ≤ δ) (hF : F.Accurate u δ) {a : NDArray ℂ} (ha : IsKet n a) :
    IsKet n (F.scale c a) ∧ ketNorm (ket n (F.scale c a) - (c : ℂ) • ket n a) ≤ δ * (|c| * ketNorm (ket n a)) := by
  refine ⟨⟨ha.shape, by simpa [WF, Flops.scale] using ha.wf⟩, ?_⟩
  have h0 : F.mul (c : ℂ) 0 = 0 := by simpa using hF.mul (c : ℂ) 0
  have h : ∀ b, ket n (F.scale c a) b = F.mul (c : ℂ) (ket n a b) := by
    intro b
    simp only [ket, NDArray.get, Flops.scale, List.getD_eq_getElem?_getD, List.getElem?_map]
    rcases a.data[ravel a.shape b.bits]? with _ | x <;> simp [h0]
  have := ketNorm_mono (v := ket n (F.scale c a) - (c : ℂ) • ket n a) (w := (c : ℂ) • ket n a) hδ fun b => by
    simp only [Pi.sub_apply, Pi.smul_apply, smul_eq_mul, h b]
    exact hF.mul _ _
  rwa [ketNorm_smul, Complex.norm_real, Real.norm_eq_abs] at this

theorem plus_ket (hu : 0 ≤ u) (hF : F.Accurate u δ) {a b : NDArray ℂ} (ha : IsKet n a) (hb : IsKet n b) :
    ∃ r, F.plus a b = .ok r ∧ IsKet n r ∧
      ketNorm (ket n r - (ket n a + ket n b)) ≤ u * ketNorm (ket n a + ket n b) := by
  have hw : a.data.length = b.data.length := by rw [ha.wf, hb.wf, ha.shape, hb.shape]
  refine ⟨⟨a.shape, List.zipWith F.add a.data b.data⟩, by rw [Flops.plus, if_pos (by rw [ha.shape, hb.shape])],
    ⟨ha.shape, ?_⟩, ketNorm_mono hu fun l => ?_⟩
  · simp only [WF, List.length_zipWith, ← hw, min_self]; exact ha.wf
  · simp only [ket, NDArray.get, Pi.add_apply, Pi.sub_apply, List.getD_eq_getElem?_getD, ha.shape, hb.shape,
      List.getElem?_zipWith]
    by_cases hi : ravel (List.replicate n 2) l.bits < a.data.length
    · rw [List.getElem?_eq_getElem hi, List.getElem?_eq_getElem (hw ▸ hi)]; simpa using hF.add _ _
    · rw [List.getElem?_eq_none (by omega), List.getElem?_eq_none (by omega)]; simp

theorem gatesMat_unitaryOn (h : ∀ g ∈ gs, g.UnitaryOn n values) :
    (gatesMat n .unitary values gs).conjTranspose * gatesMat n .unitary values gs = 1 := by
  induction gs with
  | nil => simp [gatesMat]
  | cons g gs ih =>
    obtain ⟨⟨U, hU, -, huni⟩, hv⟩ := h g (by simp)
    rw [gatesMat, Matrix.conjTranspose_mul, mul_assoc, ← mul_assoc _ (gatesMat n .unitary values gs),
      ih (fun x hx => h x (by simp [hx])), one_mul, Gate.Ok.mat_eq hU]
    exact (gateMat_unitary hv.dims huni).1

theorem Gate.UnitaryOn.ok {g : Gate} (h : g.UnitaryOn n values) : g.Ok n .unitary values :=
  ⟨h.op.imp fun _ hu => ⟨hu.1, hu.2.1⟩, h.valid⟩

theorem gatesMat_contract (h : ∀ g ∈ gs, g.UnitaryOn n values) (v : Lab n → ℂ) :
    ketNorm ((gatesMat n .unitary values gs).mulVec v) ≤ ketNorm v := by
  refine (ketNorm_mulVec _ _).trans ?_
  have := norm_le_one_of_star_mul (gatesMat_unitaryOn h)
  have hN := ketNorm_nonneg v
  nlinarith

theorem Arith.Accurate.mono {A : Arith} {hs : List Gate} (hA : A.Accurate n ε values gs) (h : ∀ g ∈ hs, g ∈ gs) :
    A.Accurate n ε values hs :=
  ⟨fun g hg => hA.op g (h g hg), fun g hg => hA.mul g (h g hg), fun g hg => hA.app g (h g hg)⟩

theorem Arith.run_single (A : Arith) (st : NDArray ℂ) (g : Gate) :
    A.run st (.single g) false true = A.run st (.list [g]) false false := by
  simp only [Arith.run, prepareSequenceReduce, Bool.false_eq_true, if_false, Bool.and_false]
  rcases h : A.op g with e | o <;> simp [h, bind, Except.bind, List.mapM_cons, List.mapM_nil, pure, Except.pure]

/-- One gate of a string. -/
theorem single_near (hε : 0 ≤ ε) {A : Arith} {g : Gate} (hA : A.Accurate n ε values [g]) (h : g.UnitaryOn n values)
    (hnz : g.noise = none) {a : NDArray ℂ} (ha : IsKet n a) :
    ∃ r, A.run a (.single g) false true = .ok r ∧ IsKet n r ∧
      ketNorm (ket n r - (g.mat n .unitary values).mulVec (ket n a)) ≤ ((1 + ε) ^ 3 - 1) * ketNorm (ket n a) := by
  let so : SetOrder := ⟨List.dedup, List.nodup_dedup, fun _ _ => List.mem_dedup⟩
  obtain ⟨r, e, h1, h2, h3, -, -, h6⟩ := C103_run so hε hA (by simpa using h) (by simp) (by simpa using hnz) ha false false
  obtain ⟨e', k1, -, k3⟩ := applyGates_vec so (gs := [g]) (by simp) (by simpa using h.ok) (by simpa using hnz) ha false
  rw [h3] at k1
  obtain rfl : e = e' := by injection k1 with k1; injection k1
  refine ⟨r, by rw [A.run_single, h1], h2, ?_⟩
  rw [k3, gatesMat, gatesMat, one_mul] at h6
  simpa using h6

/-- A string of gates. -/
theorem string_near (hε : 0 ≤ ε) : ∀ {gs : List Gate}, (F.arith op).Accurate n ε values gs →
    (∀ g ∈ gs, g.UnitaryOn n values) → (∀ g ∈ gs, g.noise = none) → ∀ {a : NDArray ℂ}, IsKet n a →
    ∃ r, F.string op gs a = .ok r ∧ IsKet n r ∧
      ketNorm (ket n r - (gatesMat n .unitary values gs).mulVec (ket n a))
        ≤ ((1 + ε) ^ (3 * gs.length) - 1) * ketNorm (ket n a) := by
  intro gs
  induction gs with
  | nil => intro _ _ _ a ha; exact ⟨a, rfl, ha, by simp [gatesMat, ketNorm]⟩
  | cons g gs ih =>
    intro hA h hnz a ha
    obtain ⟨r, h1, h2, h3⟩ := single_near hε (hA.mono (by simp)) (h g (by simp)) (hnz g (by simp)) ha
    obtain ⟨q, k1, k2, k3⟩ := ih (hA.mono (by simp_all)) (fun x hx => h x (by simp [hx])) (fun x hx => hnz x (by simp [hx])) h2
    refine ⟨q, ?_, k2, ?_⟩
    · rw [Flops.string, List.foldlM_cons, h1]; exact k1
    · have p1 : (1 : ℝ) ≤ (1 + ε) ^ 3 := one_le_pow₀ (by linarith)
      have p2 : (1 : ℝ) ≤ (1 + ε) ^ (3 * gs.length) := one_le_pow₀ (by linarith)
      rw [gatesMat, ← Matrix.mulVec_mulVec, List.length_cons, mul_add, mul_one, pow_add]
      have hs : ∀ g' ∈ gs, g'.UnitaryOn n values := fun x hx => h x (by simp [hx])
      have hg : ketNorm ((g.mat n .unitary values).mulVec (ket n a)) ≤ ketNorm (ket n a) := by
        have := gatesMat_contract (gs := [g]) (by simpa using h g (by simp)) (ket n a)
        rwa [gatesMat, gatesMat, one_mul] at this
      have hr := ketNorm_tri (ket n r) ((g.mat n .unitary values).mulVec (ket n a))
      have hc := gatesMat_contract hs (ket n r - (g.mat n .unitary values).mulVec (ket n a))
      have ht := ketNorm_add (ket n q - (gatesMat n .unitary values gs).mulVec (ket n r))
        ((gatesMat n .unitary values gs).mulVec (ket n r - (g.mat n .unitary values).mulVec (ket n a)))
      rw [Matrix.mulVec_sub, sub_add_sub_cancel] at ht
      rw [Matrix.mulVec_sub] at hc
      have hN := ketNorm_nonneg (ket n a)
      generalize (1 + ε) ^ (3 * gs.length) = P at *
      generalize (1 + ε) ^ 3 = p at *
      have hrN : ketNorm (ket n r) ≤ p * ketNorm (ket n a) := by linarith
      have := mul_le_mul_of_nonneg_left hrN (by linarith : 0 ≤ P - 1)
      linarith [ht, hc, k3, h3]

/-- One scaled string. -/
theorem term_near (hε : 0 ≤ ε) (hδ : 0 ≤ δ) (hF : F.Accurate u δ) {t : ℝ × List Gate} {L : ℕ}
    (hA : (F.arith op).Accurate n ε values t.2) (h : ∀ g ∈ t.2, g.UnitaryOn n values) (hnz : ∀ g ∈ t.2, g.noise = none)
    (hL : t.2.length ≤ L) {a : NDArray ℂ} (ha : IsKet n a) :
    ∃ r, F.term op a t = .ok r ∧ IsKet n r ∧
      ketNorm (ket n r - ((t.1 : ℂ) • gatesMat n .unitary values t.2).mulVec (ket n a))
        ≤ ((1 + δ) * (1 + ε) ^ (3 * L) - 1) * (|t.1| * ketNorm (ket n a)) := by
  obtain ⟨r, h1, h2, h3⟩ := string_near hε hA h hnz ha
  obtain ⟨k1, k2⟩ := scale_ket t.1 hδ hF h2
  refine ⟨_, by rw [Flops.term, h1]; rfl, k1, ?_⟩
  have hP : (1 + ε) ^ (3 * t.2.length) ≤ (1 + ε) ^ (3 * L) := pow_le_pow_right₀ (by linarith) (by omega)
  have hN := ketNorm_nonneg (ket n a)
  have h3' : ketNorm (ket n r - (gatesMat n .unitary values t.2).mulVec (ket n a))
      ≤ ((1 + ε) ^ (3 * L) - 1) * ketNorm (ket n a) :=
    h3.trans (mul_le_mul_of_nonneg_right (by linarith) hN)
  have hc := gatesMat_contract h (ket n a)
  have hr := ketNorm_tri (ket n r) ((gatesMat n .unitary values t.2).mulVec (ket n a))
  have ht := ketNorm_add (ket n (F.scale t.1 r) - (t.1 : ℂ) • ket n r)
    ((t.1 : ℂ) • (ket n r - (gatesMat n .unitary values t.2).mulVec (ket n a)))
  rw [ketNorm_smul, Complex.norm_real, Real.norm_eq_abs, smul_sub, sub_add_sub_cancel] at ht
  rw [Matrix.smul_mulVec]
  generalize (1 + ε) ^ (3 * L) = P at *
  have hrN : ketNorm (ket n r) ≤ P * ketNorm (ket n a) := by linarith
  have e1 := mul_le_mul_of_nonneg_left (mul_le_mul_of_nonneg_left hrN (abs_nonneg t.1)) hδ
  have e2 := mul_le_mul_of_nonneg_left h3' (abs_nonneg t.1)
  calc _ ≤ _ := ht
    _ ≤ δ * (|t.1| * (P * ketNorm (ket n a))) + |t.1| * ((P - 1) * ketNorm (ket n a)) := add_le_add (k2.trans e1) e2
    _ = _ := by ring

/-- The operator `Σ c U` of a list of scaled strings. -/
noncomputable def stringSum (n : ℕ) (values : Values) (ts : List (ℝ × List Gate)) : Matrix (Lab n) (Lab n) ℂ :=
  (ts.map fun t => (t.1 : ℂ) • gatesMat n .unitary values t.2).sum

theorem stringSum_bound {ts : List (ℝ × List Gate)} (h : ∀ t ∈ ts, ∀ g ∈ t.2, g.UnitaryOn n values) :
    ‖stringSum n values ts‖ ≤ (ts.map fun t => |t.1|).sum := by
  induction ts with
  | nil => simp [stringSum]
  | cons t ts ih =>
    have h1 := norm_le_one_of_star_mul (gatesMat_unitaryOn (h t (by simp)))
    have h2 := ih fun t ht => h t (by simp [ht])
    simp only [stringSum, List.map_cons, List.sum_cons] at h2 ⊢
    refine (norm_add_le _ _).trans (add_le_add ?_ h2)
    rw [norm_smul, Complex.norm_real, Real.norm_eq_abs]
    exact mul_le_of_le_one_right (abs_nonneg _) h1

/-- The sum of the terms, from left to right. -/
theorem fold_near (hu : 0 ≤ u) (hF : F.Accurate u δ) {R N : ℝ} (hR : 1 ≤ R) (hN : 0 ≤ N) {a : NDArray ℂ} (hket : ketNorm (ket n a) ≤ N) :
    ∀ {ts : List (ℝ × List Gate)},
    (∀ t ∈ ts, (∀ g ∈ t.2, g.UnitaryOn n values) ∧ ∃ r, F.term op a t = .ok r ∧ IsKet n r ∧
      ketNorm (ket n r - ((t.1 : ℂ) • gatesMat n .unitary values t.2).mulVec (ket n a)) ≤ (R - 1) * (|t.1| * N)) →
    ∀ {acc : NDArray ℂ} {w : Lab n → ℂ} {Q C : ℝ}, R ≤ Q → 0 ≤ C → IsKet n acc → ketNorm w ≤ C * N →
      ketNorm (ket n acc - w) ≤ (Q - 1) * (C * N) →
    ∃ r, (ts.map (F.term op a)).foldlM (fun acc y => do F.plus acc (← y)) acc = .ok r ∧ IsKet n r ∧
      ketNorm (ket n r - (w + (stringSum n values ts).mulVec (ket n a)))
        ≤ (Q * (1 + u) ^ ts.length - 1) * ((C + (ts.map fun t => |t.1|).sum) * N) := by
  intro ts
  induction ts with
  | nil =>
    intro _ acc w Q C _ _ hacc _ hd
    exact ⟨acc, rfl, hacc, by simpa [stringSum] using hd⟩
  | cons t ts ih =>
    intro h acc w Q C hQ hC hacc hw hd
    obtain ⟨hU, r, h1, h2, h3⟩ := h t (by simp)
    obtain ⟨s, k1, k2, k3⟩ := plus_ket hu hF hacc h2
    set y := ((t.1 : ℂ) • gatesMat n .unitary values t.2).mulVec (ket n a) with hy
    have hyN : ketNorm y ≤ |t.1| * N := by
      rw [hy, Matrix.smul_mulVec, ketNorm_smul, Complex.norm_real, Real.norm_eq_abs]
      exact mul_le_mul_of_nonneg_left ((gatesMat_contract hU _).trans hket) (abs_nonneg _)
    have hcN : 0 ≤ |t.1| * N := mul_nonneg (abs_nonneg _) hN
    have hCN : 0 ≤ C * N := mul_nonneg hC hN
    have hw' : ketNorm (w + y) ≤ (C + |t.1|) * N := (ketNorm_add _ _).trans (by linarith)
    have hd' : ketNorm (ket n s - (w + y)) ≤ ((1 + u) * Q - 1) * ((C + |t.1|) * N) := by
      have a1 := ketNorm_tri (ket n acc) w
      have a2 := ketNorm_tri (ket n r) y
      have a3 := ketNorm_add (ket n acc) (ket n r)
      have a4 := ketNorm_add (ket n s - (ket n acc + ket n r)) ((ket n acc - w) + (ket n r - y))
      have a5 := ketNorm_add (ket n acc - w) (ket n r - y)
      have e : ket n s - (ket n acc + ket n r) + (ket n acc - w + (ket n r - y)) = ket n s - (w + y) := by abel
      rw [e] at a4
      have b1 : (R - 1) * (|t.1| * N) ≤ (Q - 1) * (|t.1| * N) := mul_le_mul_of_nonneg_right (by linarith) hcN
      have b2 : ketNorm (ket n acc + ket n r) ≤ Q * ((C + |t.1|) * N) := by linarith
      have b3 := mul_le_mul_of_nonneg_left b2 hu
      linarith
    have hu1 : Q ≤ (1 + u) * Q := by nlinarith
    obtain ⟨q, c1, c2, c3⟩ := ih (fun t ht => h t (by simp [ht])) (hQ.trans hu1) (by positivity) k2 hw' hd'
    refine ⟨q, ?_, c2, ?_⟩
    · rw [List.map_cons, List.foldlM_cons, h1]
      change (F.plus acc r >>= fun s => _) = _
      rw [k1]; exact c1
    · have e1 : w + (stringSum n values (t :: ts)).mulVec (ket n a) = w + y + (stringSum n values ts).mulVec (ket n a) := by
        rw [stringSum, List.map_cons, List.sum_cons, Matrix.add_mulVec, ← add_assoc]; rfl
      rw [e1, List.length_cons, pow_succ, List.map_cons, List.sum_cons, ← add_assoc]
      refine c3.trans (le_of_eq ?_)
      ring

/-- The rounded `Observable.forward`. -/
theorem project_near (hε : 0 ≤ ε) (hu : 0 ≤ u) (hδ : 0 ≤ δ) (hF : F.Accurate u δ) {ts : List (ℝ × List Gate)} {L : ℕ}
    (hne : ts ≠ []) (hA : ∀ t ∈ ts, (F.arith op).Accurate n ε values t.2)
    (h : ∀ t ∈ ts, ∀ g ∈ t.2, g.UnitaryOn n values ∧ g.noise = none) (hL : ∀ t ∈ ts, t.2.length ≤ L)
    {a : NDArray ℂ} (ha : IsKet n a) :
    ∃ r, pyReduce F.plus (ts.map (F.term op a)) = .ok r ∧ IsKet n r ∧
      ketNorm (ket n r - (stringSum n values ts).mulVec (ket n a))
        ≤ ((1 + δ) * (1 + ε) ^ (3 * L) * (1 + u) ^ (ts.length - 1) - 1)
          * ((ts.map fun t => |t.1|).sum * ketNorm (ket n a)) := by
  have hterm := fun t ht => term_near hε hδ hF (hA t ht) (fun g hg => (h t ht g hg).1) (fun g hg => (h t ht g hg).2) (hL t ht) ha
  rcases ts with _ | ⟨t, ts⟩
  · exact absurd rfl hne
  have p : (1 : ℝ) ≤ (1 + ε) ^ (3 * L) := one_le_pow₀ (by linarith)
  have hR : (1 : ℝ) ≤ (1 + δ) * (1 + ε) ^ (3 * L) := by nlinarith
  have hN := ketNorm_nonneg (ket n a)
  obtain ⟨r, h1, h2, h3⟩ := hterm t (by simp)
  have hy : ketNorm (((t.1 : ℂ) • gatesMat n .unitary values t.2).mulVec (ket n a)) ≤ |t.1| * ketNorm (ket n a) := by
    rw [Matrix.smul_mulVec, ketNorm_smul, Complex.norm_real, Real.norm_eq_abs]
    exact mul_le_mul_of_nonneg_left (gatesMat_contract (fun g hg => (h t (by simp) g hg).1) _) (abs_nonneg _)
  obtain ⟨q, c1, c2, c3⟩ := fold_near hu hF hR hN (le_refl (ketNorm (ket n a))) (ts := ts) (op := op)
    (fun t ht => ⟨fun g hg => (h t (by simp [ht]) g hg).1, hterm t (by simp [ht])⟩) (le_refl _) (abs_nonneg t.1) h2 hy h3
  refine ⟨q, ?_, c2, ?_⟩
  · rw [List.map_cons, pyReduce, h1]; exact c1
  · have e1 : (stringSum n values (t :: ts)).mulVec (ket n a)
        = ((t.1 : ℂ) • gatesMat n .unitary values t.2).mulVec (ket n a) + (stringSum n values ts).mulVec (ket n a) := by
      rw [stringSum, List.map_cons, List.sum_cons, Matrix.add_mulVec]; rfl
    rw [e1, List.map_cons, List.sum_cons, List.length_cons, Nat.add_sub_cancel]
    exact c3

/-- The rounded inner product. -/
theorem inner_near (hu : 0 ≤ u) (hδ : 0 ≤ δ) (hF : F.Accurate u δ) {a b : NDArray ℂ} (ha : IsKet n a) (hb : IsKet n b) :
    ∃ z, F.inner a b = .ok z ∧ ‖z - ∑ x : Lab n, star (ket n a x) * ket n b x‖
      ≤ dotError u δ (2 ^ n) * (ketNorm (ket n a) * ketNorm (ket n b)) := by
  refine ⟨_, by rw [Flops.inner, if_pos (by rw [ha.shape, hb.shape])], ?_⟩
  rw [data_eq_map ha, data_eq_map hb, List.map_map, List.zipWith_map, List.zipWith_self]
  have h := dot_err hu hδ hF (allIdx (List.replicate n 2)) (fun i => star (a.get i)) b.get
  rw [sum_allIdx_two, sum_allIdx_two, length_allIdx, List.prod_replicate] at h
  refine h.trans (mul_le_mul_of_nonneg_left ?_ (dotError_nonneg hu hδ _))
  simp only [norm_star]
  exact Real.sum_mul_le_sqrt_mul_sqrt _ (fun b => ‖ket n a b‖) (fun x => ‖ket n b x‖)

theorem norm_inner_le (v w : Lab n → ℂ) : ‖∑ x, star (v x) * w x‖ ≤ ketNorm v * ketNorm w := by
  refine (norm_sum_le _ _).trans ?_
  simp only [norm_mul, norm_star]
  exact Real.sum_mul_le_sqrt_mul_sqrt _ (fun b => ‖v b‖) (fun x => ‖w x‖)

/-- The rounded expectation value in a given state. -/
theorem energy_near (hε : 0 ≤ ε) (hu : 0 ≤ u) (hδ : 0 ≤ δ) (hF : F.Accurate u δ) {ts : List (ℝ × List Gate)} {L : ℕ}
    (hne : ts ≠ []) (hA : ∀ t ∈ ts, (F.arith op).Accurate n ε values t.2)
    (h : ∀ t ∈ ts, ∀ g ∈ t.2, g.UnitaryOn n values ∧ g.noise = none) (hL : ∀ t ∈ ts, t.2.length ≤ L)
    {a : NDArray ℂ} (ha : IsKet n a) :
    ∃ x, F.energy op ts a = .ok x ∧
      |x - (∑ b, star (ket n a b) * (stringSum n values ts).mulVec (ket n a) b).re|
        ≤ ((1 + δ) ^ 2 * (1 + ε) ^ (3 * L) * (1 + u) ^ (ts.length - 1 + (2 ^ n - 1)) - 1)
          * ((ts.map fun t => |t.1|).sum * ketNorm (ket n a) ^ 2) := by
  obtain ⟨r, h1, h2, h3⟩ := project_near hε hu hδ hF hne hA h hL ha
  obtain ⟨z, k1, k2⟩ := inner_near hu hδ hF ha h2
  refine ⟨z.re, by rw [Flops.energy, h1]; change (F.inner a r >>= fun z => _) = _; rw [k1]; rfl, ?_⟩
  rw [← Complex.sub_re]
  refine (Complex.abs_re_le_norm _).trans ?_
  set w := (stringSum n values ts).mulVec (ket n a) with hw
  set C := (ts.map fun t => |t.1|).sum with hC
  have hC0 : 0 ≤ C := List.sum_nonneg (by simp only [List.mem_map]; rintro _ ⟨t, -, rfl⟩; exact abs_nonneg _)
  have hN := ketNorm_nonneg (ket n a)
  have hwN : ketNorm w ≤ C * ketNorm (ket n a) :=
    (ketNorm_mulVec _ _).trans (mul_le_mul_of_nonneg_right (stringSum_bound fun t ht g hg => (h t ht g hg).1) hN)
  have e : z - ∑ b, star (ket n a b) * w b
      = (z - ∑ b, star (ket n a b) * ket n r b) + ∑ b, star (ket n a b) * (ket n r - w) b := by
    rw [sub_add, ← Finset.sum_sub_distrib]
    congr 1
    refine Finset.sum_congr rfl fun b _ => ?_
    rw [Pi.sub_apply]; ring
  rw [e]
  have hr := ketNorm_tri (ket n r) w
  have hd := norm_inner_le (ket n a) (ket n r - w)
  have hE := dotError_nonneg hu hδ (2 ^ n)
  have hT : (1 + δ) ^ 2 * (1 + ε) ^ (3 * L) * (1 + u) ^ (ts.length - 1 + (2 ^ n - 1))
      = (1 + dotError u δ (2 ^ n)) * ((1 + δ) * (1 + ε) ^ (3 * L) * (1 + u) ^ (ts.length - 1)) := by
    rw [dotError, pow_add]; ring
  rw [hT]
  generalize (1 + δ) * (1 + ε) ^ (3 * L) * (1 + u) ^ (ts.length - 1) = Q at *
  generalize dotError u δ (2 ^ n) = E at *
  generalize ketNorm (ket n a) = N at *
  have hrN : ketNorm (ket n r) ≤ Q * (C * N) := by linarith
  calc _ ≤ _ := norm_add_le _ _
    _ ≤ E * (N * (Q * (C * N))) + N * ((Q - 1) * (C * N)) := by
        refine add_le_add (k2.trans ?_) (hd.trans ?_)
        · gcongr
        · gcongr
    _ = _ := by ring

end Verif
