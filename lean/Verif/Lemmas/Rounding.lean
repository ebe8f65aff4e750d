import Verif.SpecRounding
import Verif.Lemmas.ApplyGates
import Verif.Lemmas.Grouping
import Mathlib.Analysis.CStarAlgebra.Spectrum

/-! # How rounding errors travel through a run -/

set_option autoImplicit false

namespace Verif
open NDArray
open scoped Matrix.Norms.L2Operator
variable {n : ℕ}

theorem ketNorm_eq (v : Lab n → ℂ) : ketNorm v = ‖(WithLp.toLp 2 v : EuclideanSpace ℂ (Lab n))‖ := by
  rw [EuclideanSpace.norm_eq, ketNorm]

theorem ketNorm_nonneg (v : Lab n → ℂ) : 0 ≤ ketNorm v := Real.sqrt_nonneg _

theorem ketNorm_add (v w : Lab n → ℂ) : ketNorm (v + w) ≤ ketNorm v + ketNorm w := by
  simp only [ketNorm_eq, WithLp.toLp_add]
  exact norm_add_le _ _

theorem ketNorm_sub_comm (v w : Lab n → ℂ) : ketNorm (v - w) = ketNorm (w - v) := by
  simp only [ketNorm_eq, WithLp.toLp_sub]
  exact norm_sub_rev _ _

theorem ketNorm_mulVec (A : Matrix (Lab n) (Lab n) ℂ) (v : Lab n → ℂ) :
    ketNorm (A.mulVec v) ≤ ‖A‖ * ketNorm v := by
  simp only [ketNorm_eq]
  exact Matrix.l2_opNorm_mulVec A (WithLp.toLp 2 v)

/-- Extension of a finite matrix to all indices. -/
def extE {d : ℕ} (A : Matrix (Fin d) (Fin d) ℂ) : ℕ → ℕ → ℂ :=
  fun i j => if h : i < d ∧ j < d then A ⟨i, h.1⟩ ⟨j, h.2⟩ else 0

theorem matOf_extE {d : ℕ} (A : Matrix (Fin d) (Fin d) ℂ) : matOf d (extE A) = A := by
  funext i j; simp [matOf, extE]

theorem extE_matOf {d : ℕ} (U : ℕ → ℕ → ℂ) {i j : ℕ} (hi : i < d) (hj : j < d) : extE (matOf d U) i j = U i j := by
  simp [matOf, extE, hi, hj]

theorem matOf_mulE (d : ℕ) (U V : ℕ → ℕ → ℂ) : matOf d (mulE d U V) = matOf d U * matOf d V := by
  funext i j
  rw [Matrix.mul_apply]
  simp only [matOf, mulE]
  rw [Finset.sum_range]

theorem mulE_extE {d : ℕ} (A B : Matrix (Fin d) (Fin d) ℂ) {i j : ℕ} (hi : i < d) (hj : j < d) :
    mulE d (extE A) (extE B) i j = extE (A * B) i j := by
  have := congrFun (congrFun (matOf_mulE d (extE A) (extE B)) ⟨i, hi⟩) ⟨j, hj⟩
  rw [matOf_extE, matOf_extE] at this
  rw [extE, dif_pos ⟨hi, hj⟩, ← this]; rfl

/-- A matrix on the target qubits as an operator that vanishes where the controls are off. -/
noncomputable def liftOn (n : ℕ) (ts cs : List ℕ) (A : Matrix (Fin (2 ^ ts.length)) (Fin (2 ^ ts.length)) ℂ) :
    Matrix (Lab n) (Lab n) ℂ := gateMat n (extE A) ts cs - gateMat n (fun _ _ => 0) ts cs

theorem liftOn_apply (ts cs : List ℕ) (A : Matrix (Fin (2 ^ ts.length)) (Fin (2 ^ ts.length)) ℂ) (b b' : Lab n) :
    liftOn n ts cs A b b' = if (∀ c ∈ cs, b.bit c = 1) ∧ Lab.AgreeOff ts b b' then extE A (b.idx ts) (b'.idx ts) else 0 := by
  simp only [liftOn, Matrix.sub_apply, gateMat]
  by_cases h1 : ∀ c ∈ cs, b.bit c = 1
  · simp only [if_pos h1]
    by_cases h2 : Lab.AgreeOff ts b b'
    · simp only [if_pos h2, if_pos (And.intro h1 h2), sub_zero]
    · simp only [if_neg h2, if_neg (fun h : _ ∧ _ => h2 h.2), sub_zero]
  · simp only [if_neg h1, if_neg (fun h : _ ∧ _ => h1 h.1), sub_self]

theorem liftOn_mul {ts cs : List ℕ} (hv : ValidDims n (cs ++ ts))
    (A B : Matrix (Fin (2 ^ ts.length)) (Fin (2 ^ ts.length)) ℂ) :
    liftOn n ts cs (A * B) = liftOn n ts cs A * liftOn n ts cs B := by
  have h0 : ∀ U V : ℕ → ℕ → ℂ, (∀ i j, i < 2 ^ ts.length → j < 2 ^ ts.length → mulE (2 ^ ts.length) U V i j = 0) →
      gateMat n U ts cs * gateMat n V ts cs = gateMat n (fun _ _ => 0) ts cs := by
    intro U V h
    rw [gateMat_mul _ _ hv]
    exact gateMat_congr h
  simp only [liftOn]
  rw [sub_mul, mul_sub, mul_sub, h0 (extE A) (fun _ _ => 0) (by intros; simp [mulE]),
    h0 (fun _ _ => 0) (extE B) (by intros; simp [mulE]), h0 (fun _ _ => 0) (fun _ _ => 0) (by intros; simp [mulE]),
    gateMat_mul _ _ hv, gateMat_congr (V := extE (A * B)) fun i j hi hj => mulE_extE A B hi hj]
  abel

/-- Placing a matrix on qubits, as a homomorphism of C*-algebras. -/
noncomputable def liftHom {ts cs : List ℕ} (hv : ValidDims n (cs ++ ts)) :
    Matrix (Fin (2 ^ ts.length)) (Fin (2 ^ ts.length)) ℂ →⋆ₙₐ[ℂ] Matrix (Lab n) (Lab n) ℂ where
  toFun := liftOn n ts cs
  map_smul' z A := by
    funext b b'
    simp only [Matrix.smul_apply, liftOn_apply, extE, MonoidHom.id_apply, smul_eq_mul]
    split_ifs <;> simp
  map_zero' := by
    funext b b'
    simp only [liftOn_apply, extE, Matrix.zero_apply]
    split_ifs <;> rfl
  map_add' A B := by
    funext b b'
    simp only [Matrix.add_apply, liftOn_apply, extE]
    split_ifs <;> simp
  map_mul' := liftOn_mul hv
  map_star' A := by
    have h0 : ∀ (U V : ℕ → ℕ → ℂ), (∀ i j, i < 2 ^ ts.length → j < 2 ^ ts.length → conjT U i j = V i j) →
        star (gateMat n U ts cs) = gateMat n V ts cs := by
      intro U V h
      rw [Matrix.star_eq_conjTranspose, gateMat_conjTranspose _ hv]
      exact gateMat_congr h
    simp only [liftOn]
    rw [star_sub, h0 (extE A) (extE (star A)), h0 (fun _ _ => 0) (fun _ _ => 0)]
    · intros; simp [conjT]
    · intro i j hi hj
      simp [conjT, extE, hi, hj, Matrix.star_apply]

/-- Placing matrices on qubits does not move them apart. -/
theorem gateMat_dist (U V : ℕ → ℕ → ℂ) {ts cs : List ℕ} (hv : ValidDims n (cs ++ ts)) :
    ‖gateMat n U ts cs - gateMat n V ts cs‖ ≤ ‖matOf (2 ^ ts.length) U - matOf (2 ^ ts.length) V‖ := by
  have h : gateMat n U ts cs - gateMat n V ts cs
      = liftHom hv (matOf (2 ^ ts.length) U - matOf (2 ^ ts.length) V) := by
    rw [map_sub]
    change _ = liftOn n ts cs _ - liftOn n ts cs _
    simp only [liftOn]
    rw [gateMat_congr (U := extE (matOf _ U)) (V := U) fun i j hi hj => extE_matOf U hi hj,
      gateMat_congr (U := extE (matOf _ V)) (V := V) fun i j hi hj => extE_matOf V hi hj]
    abel
  rw [h]
  exact NonUnitalStarAlgHom.norm_apply_le _ _

theorem norm_le_one_of_star_mul {ι : Type} [Fintype ι] [DecidableEq ι] {M : Matrix ι ι ℂ}
    (h : M.conjTranspose * M = 1) : ‖M‖ ≤ 1 := by
  rcases isEmpty_or_nonempty ι with hι | hι
  · have : M = 0 := Subsingleton.elim _ _
    rw [this, norm_zero]; exact zero_le_one
  · have h1 := Matrix.l2_opNorm_conjTranspose_mul_self M
    rw [h, norm_one] at h1
    nlinarith [norm_nonneg M]

theorem matOf_unitary {d : ℕ} {U : ℕ → ℕ → ℂ} (h : IsUnitaryE d U) : (matOf d U).conjTranspose * matOf d U = 1 := by
  have h1 : (matOf d U).conjTranspose = matOf d (conjT U) := by
    funext i j; rfl
  rw [h1, ← matOf_mulE]
  funext i j
  have := (h i j i.2 j.2).1
  simp only [matOf]
  rw [this, oneE, Matrix.one_apply]
  simp [Fin.ext_iff]

theorem mulE_unitary {d : ℕ} {U V W : ℕ → ℕ → ℂ} (hU : IsUnitaryE d U) (hV : IsUnitaryE d V)
    (hW : ∀ i j, i < d → j < d → W i j = mulE d U V i j) : IsUnitaryE d W := by
  have key : ∀ {X : ℕ → ℕ → ℂ}, IsUnitaryE d X ↔ (matOf d X).conjTranspose * matOf d X = 1 := by
    intro X
    refine ⟨matOf_unitary, fun h => ?_⟩
    have h' : matOf d X * (matOf d X).conjTranspose = 1 := mul_eq_one_comm.1 h
    have h1 : (matOf d X).conjTranspose = matOf d (conjT X) := by
      funext i j; rfl
    rw [h1, ← matOf_mulE] at h h'
    intro i j hi hj
    have e := congrFun (congrFun h ⟨i, hi⟩) ⟨j, hj⟩
    have e' := congrFun (congrFun h' ⟨i, hi⟩) ⟨j, hj⟩
    simp only [matOf, Matrix.one_apply, Fin.mk.injEq] at e e'
    exact ⟨e, e'⟩
  rw [key] at hU hV ⊢
  have : matOf d W = matOf d U * matOf d V := by
    rw [← matOf_mulE]
    funext i j
    exact hW i j i.2 j.2
  rw [this, Matrix.conjTranspose_mul, mul_assoc, ← mul_assoc _ (matOf d U), hU, one_mul, hV]

variable {gs : List Gate}

/-- `p` is a computed version of the exact, unitary operation `o`, `j` roundings separate them, and they are
on the qubits of a gate of the circuit. -/
structure NearOp (n : ℕ) (gs : List Gate) (ε : ℝ) (j : ℕ) (o p : NDArray ℂ × List ℕ × Ctl) : Prop where
  same : o.2 = p.2
  gate : ∃ g ∈ gs, o.2 = (g.target, g.control)
  wf : WfOp n o
  wf' : WfOp n p
  unitary : IsUnitaryE (2 ^ o.2.1.length) (entries o.1)
  near : ‖matOf (2 ^ o.2.1.length) (entries p.1) - matOf (2 ^ o.2.1.length) (entries o.1)‖ ≤ (1 + ε) ^ j - 1

inductive NearOps (n : ℕ) (gs : List Gate) (ε : ℝ) : ℕ → List (NDArray ℂ × List ℕ × Ctl) → List (NDArray ℂ × List ℕ × Ctl) → Prop
  | nil : NearOps n gs ε 0 [] []
  | cons {j J o p os ps} : NearOp n gs ε j o p → NearOps n gs ε J os ps → NearOps n gs ε (j + J) (o :: os) (p :: ps)

theorem NearOps.append {ε : ℝ} {J J' : ℕ} {os ps os' ps' : List (NDArray ℂ × List ℕ × Ctl)} (h : NearOps n gs ε J os ps)
    (h' : NearOps n gs ε J' os' ps') : NearOps n gs ε (J + J') (os ++ os') (ps ++ ps') := by
  induction h with
  | nil => simpa using h'
  | cons h1 h2 ih => rw [add_assoc]; exact .cons h1 ih

theorem NearOps.reverse {ε : ℝ} {J : ℕ} {os ps : List (NDArray ℂ × List ℕ × Ctl)} (h : NearOps n gs ε J os ps) :
    NearOps n gs ε J os.reverse ps.reverse := by
  induction h with
  | nil => exact .nil
  | cons h1 h2 ih =>
    rw [List.reverse_cons, List.reverse_cons, add_comm]
    exact ih.append (.cons h1 .nil)

theorem NearOps.length {ε : ℝ} {J : ℕ} {os ps : List (NDArray ℂ × List ℕ × Ctl)} (h : NearOps n gs ε J os ps) :
    os.length = ps.length := by
  induction h with
  | nil => rfl
  | cons h1 h2 ih => simp [ih]

variable {A : Arith} {ε : ℝ} {values : Values}

/-- Exact and computed product of near operations. -/
theorem NearOp.mul (hε : 0 ≤ ε) (hA : A.Accurate n ε values gs) {j l : ℕ} {a a' b b' : NDArray ℂ} {t : List ℕ} {c : Ctl}
    (h : NearOp n gs ε j (a, t, c) (a', t, c)) (h' : NearOp n gs ε l (b, t, c) (b', t, c)) :
    ∃ r r', NDArray.matmul a b = .ok r ∧ A.mul a' b' = .ok r' ∧ NearOp n gs ε (j + l + 1) (r, t, c) (r', t, c) := by
  obtain ⟨r, h1, h2, h3⟩ := matmul_isOp h.wf.op h'.wf.op
  obtain ⟨g, hg, hgt⟩ := h.gate
  have ht : g.target = t := by simpa using (congrArg Prod.fst hgt).symm
  obtain ⟨r', e1, e2, e3⟩ := hA.mul g hg a' b' (ht ▸ h.wf'.op) (ht ▸ h'.wf'.op)
  rw [ht] at e2 e3
  refine ⟨r, r', h1, e1, rfl, ⟨g, hg, hgt⟩, ⟨h2, h.wf.ctl, h.wf.dims⟩, ⟨e2, h.wf.ctl, h.wf.dims⟩, ?_, ?_⟩
  · exact mulE_unitary h.unitary h'.unitary h3
  · have hr : matOf (2 ^ t.length) (entries r) = matOf (2 ^ t.length) (entries a) * matOf (2 ^ t.length) (entries b) := by
      rw [← matOf_mulE]; funext i k; exact h3 i k i.2 k.2
    have ha := norm_le_one_of_star_mul (matOf_unitary h.unitary)
    have hb := norm_le_one_of_star_mul (matOf_unitary h'.unitary)
    have na := h.near
    have nb := h'.near
    simp only at e3 ha hb na nb ⊢
    rw [hr]
    generalize matOf (2 ^ t.length) (entries a) = X at *
    generalize matOf (2 ^ t.length) (entries b) = Y at *
    generalize matOf (2 ^ t.length) (entries a') = X' at *
    generalize matOf (2 ^ t.length) (entries b') = Y' at *
    generalize matOf (2 ^ t.length) (entries r') = R at *
    have p : (1 : ℝ) ≤ (1 + ε) ^ j := one_le_pow₀ (by linarith)
    have q : (1 : ℝ) ≤ (1 + ε) ^ l := one_le_pow₀ (by linarith)
    have hX' : ‖X'‖ ≤ (1 + ε) ^ j := by
      calc ‖X'‖ = ‖(X' - X) + X‖ := by rw [sub_add_cancel]
        _ ≤ ‖X' - X‖ + ‖X‖ := norm_add_le _ _
        _ ≤ _ := by linarith
    have hY' : ‖Y'‖ ≤ (1 + ε) ^ l := by
      calc ‖Y'‖ = ‖(Y' - Y) + Y‖ := by rw [sub_add_cancel]
        _ ≤ ‖Y' - Y‖ + ‖Y‖ := norm_add_le _ _
        _ ≤ _ := by linarith
    have s1 : ‖X'‖ * ‖Y'‖ ≤ (1 + ε) ^ j * (1 + ε) ^ l := by gcongr
    have s2 : ‖(X' - X) * Y'‖ ≤ ((1 + ε) ^ j - 1) * (1 + ε) ^ l :=
      (norm_mul_le _ _).trans (by gcongr)
    have s3 : ‖X * (Y' - Y)‖ ≤ 1 * ((1 + ε) ^ l - 1) :=
      (norm_mul_le _ _).trans (by gcongr)
    calc ‖R - X * Y‖ = ‖(R - X' * Y') + ((X' - X) * Y' + X * (Y' - Y))‖ := by congr 1; noncomm_ring
      _ ≤ ‖R - X' * Y'‖ + (‖(X' - X) * Y'‖ + ‖X * (Y' - Y)‖) :=
          (norm_add_le _ _).trans (by gcongr; exact norm_add_le _ _)
      _ ≤ ε * ((1 + ε) ^ j * (1 + ε) ^ l) + (((1 + ε) ^ j - 1) * (1 + ε) ^ l + 1 * ((1 + ε) ^ l - 1)) := by
          gcongr; exact e3.trans (by gcongr)
      _ = (1 + ε) ^ (j + l + 1) - 1 := by ring

theorem mergeLoop_near (hε : 0 ≤ ε) (hA : A.Accurate n ε values gs) {J : ℕ} {rest rest' : List (NDArray ℂ × List ℕ × Ctl)}
    (hr : NearOps n gs ε J rest rest') : ∀ {j : ℕ} {m m' : NDArray ℂ × List ℕ × Ctl} {J' : ℕ}
    {acc acc' : List (NDArray ℂ × List ℕ × Ctl)}, NearOp n gs ε j m m' → NearOps n gs ε J' acc acc' →
    ∃ res res' Q, mergeLoop NDArray.matmul rest m acc = .ok res ∧ mergeLoop A.mul rest' m' acc' = .ok res' ∧
      NearOps n gs ε Q res res' ∧ Q + res.length = J' + acc.length + j + J + rest.length + 1 := by
  induction hr with
  | nil =>
    intro j m m' J' acc acc' hm ha
    exact ⟨_, _, J' + (j + 0), rfl, rfl, ha.append (.cons hm .nil), by simp; omega⟩
  | @cons k K o p os ps ho hos ih =>
    intro j m m' J' acc acc' hm ha
    obtain ⟨o, t, c⟩ := o
    obtain ⟨p, t1, c1⟩ := p
    obtain ⟨mo, mt, mc⟩ := m
    obtain ⟨mp, mt1, mc1⟩ := m'
    obtain ⟨rfl, rfl⟩ : t = t1 ∧ c = c1 := by simpa using ho.same
    obtain ⟨rfl, rfl⟩ : mt = mt1 ∧ mc = mc1 := by simpa using hm.same
    by_cases h : t = mt ∧ Ctl.Same c mc
    · obtain ⟨rfl, h⟩ := h
      obtain rfl := (Ctl.same_iff ho.wf.ctl hm.wf.ctl).1 h
      obtain ⟨r, r', h1, h2, h3⟩ := hm.mul hε hA ho
      obtain ⟨res, res', Q, e1, e2, e3, e4⟩ := ih h3 ha
      refine ⟨res, res', Q, ?_, ?_, e3, ?_⟩
      · simp only [mergeLoop, Ctl.same_refl, and_self, if_true]
        rw [h1]; exact e1
      · simp only [mergeLoop, Ctl.same_refl, and_self, if_true]
        rw [h2]; exact e2
      · rw [e4, List.length_cons]; omega
    · obtain ⟨res, res', Q, e1, e2, e3, e4⟩ := ih ho (ha.append (.cons hm .nil))
      refine ⟨res, res', Q, ?_, ?_, e3, ?_⟩
      · simp only [mergeLoop, h, if_false]; exact e1
      · simp only [mergeLoop, h, if_false]; exact e2
      · rw [e4, List.length_cons, List.length_append, List.length_singleton]; omega

theorem mergeOperators_near (hε : 0 ≤ ε) (hA : A.Accurate n ε values gs) {J : ℕ}
    {ops ops' : List (NDArray ℂ × List ℕ × Ctl)} (h : NearOps n gs ε J ops ops') :
    ∃ res res' Q, mergeOperators NDArray.matmul ops = .ok res ∧ mergeOperators A.mul ops' = .ok res' ∧
      NearOps n gs ε Q res res' ∧ Q + res.length = J + ops.length := by
  have hlen := h.length
  by_cases hl : ops.length < 2
  · exact ⟨ops, ops', J, by simp [mergeOperators, hl], by simp [mergeOperators, ← hlen, hl], h, rfl⟩
  · have hrev := h.reverse
    rcases e : ops.reverse with _ | ⟨m, rest⟩
    · simp at e; subst e; simp at hl
    rcases e' : ops'.reverse with _ | ⟨m', rest'⟩
    · simp at e'; subst e'; rw [hlen] at hl; simp at hl
    rw [e, e'] at hrev
    cases hrev with
    | @cons j K _ _ _ _ h1 h2 =>
      obtain ⟨res, res', Q, e1, e2, e3, e4⟩ := mergeLoop_near hε hA h2 h1 .nil
      refine ⟨res.reverse, res'.reverse, Q, ?_, ?_, e3.reverse, ?_⟩
      · simp only [mergeOperators, hl, if_false, e, e1]; rfl
      · rw [hlen] at hl
        simp only [mergeOperators, hl, if_false, e', e2]; rfl
      · have : ops.length = rest.length + 1 := by rw [← List.length_reverse, e, List.length_cons]
        rw [List.length_reverse, e4, this]; simp; omega

/-- Applying near operations to near states. -/
theorem foldlM_near (hε : 0 ≤ ε) (hA : A.Accurate n ε values gs) {N : ℝ} (hN : 0 ≤ N) {J : ℕ}
    {ops ops' : List (NDArray ℂ × List ℕ × Ctl)} (h : NearOps n gs ε J ops ops') :
    ∀ {st st' : NDArray ℂ} {m : ℕ}, IsKet n st → IsKet n st' → ketNorm (ket n st) ≤ N →
      ketNorm (ket n st' - ket n st) ≤ ((1 + ε) ^ m - 1) * N →
    ∃ r r', reduceApply ops st = .ok r ∧ ops'.foldlM (fun st o => A.app st o.1 o.2.1 o.2.2) st' = .ok r' ∧
      IsKet n r ∧ IsKet n r' ∧ ketNorm (ket n r) ≤ N ∧
      ketNorm (ket n r' - ket n r) ≤ ((1 + ε) ^ (m + J + ops.length) - 1) * N := by
  induction h with
  | nil =>
    intro st st' m h1 h2 h3 h4
    exact ⟨st, st', rfl, rfl, h1, h2, h3, by simpa using h4⟩
  | @cons j K o p os ps ho hos ih =>
    intro st st' m h1 h2 h3 h4
    obtain ⟨r, a1, a2, a3⟩ := applyOperator_opMat h1 ho.wf
    obtain ⟨r', b1, b2, b3⟩ : ∃ r', A.app st' p.1 p.2.1 p.2.2 = .ok r' ∧ IsKet n r' ∧
        ketNorm (ket n r' - (opMat n p).mulVec (ket n st')) ≤ ε * (‖opMat n p‖ * ketNorm (ket n st')) := by
      obtain ⟨g, hg, hgt⟩ := ho.gate
      obtain ⟨p, tc⟩ := p
      obtain rfl : tc = (g.target, g.control) := ho.same.symm.trans hgt
      exact hA.app g hg st' p h2 ho.wf'
    have hM : ‖opMat n o‖ ≤ 1 := norm_le_one_of_star_mul (gateMat_unitary ho.wf.dims ho.unitary).1
    have hd : ‖opMat n p - opMat n o‖ ≤ (1 + ε) ^ j - 1 := by
      refine le_trans ?_ ho.near
      rw [opMat, opMat, ← ho.same]
      exact gateMat_dist _ _ ho.wf.dims
    have p1 : (1 : ℝ) ≤ (1 + ε) ^ j := one_le_pow₀ (by linarith)
    have p2 : (1 : ℝ) ≤ (1 + ε) ^ m := one_le_pow₀ (by linarith)
    have hP : ‖opMat n p‖ ≤ (1 + ε) ^ j := by
      calc ‖opMat n p‖ = ‖(opMat n p - opMat n o) + opMat n o‖ := by rw [sub_add_cancel]
        _ ≤ ‖opMat n p - opMat n o‖ + ‖opMat n o‖ := norm_add_le _ _
        _ ≤ _ := by linarith
    have hs' : ketNorm (ket n st') ≤ (1 + ε) ^ m * N := by
      calc ketNorm (ket n st') = ketNorm ((ket n st' - ket n st) + ket n st) := by rw [sub_add_cancel]
        _ ≤ ketNorm (ket n st' - ket n st) + ketNorm (ket n st) := ketNorm_add _ _
        _ ≤ ((1 + ε) ^ m - 1) * N + N := by gcongr
        _ = _ := by ring
    have hr : ketNorm (ket n r) ≤ N := by
      rw [a3]
      calc _ ≤ ‖opMat n o‖ * ketNorm (ket n st) := ketNorm_mulVec _ _
        _ ≤ 1 * N := by gcongr; exact ketNorm_nonneg _
        _ = N := one_mul N
    have hrr : ketNorm (ket n r' - ket n r) ≤ ((1 + ε) ^ (m + j + 1) - 1) * N := by
      have split : ket n r' - ket n r = (ket n r' - (opMat n p).mulVec (ket n st'))
          + ((opMat n p - opMat n o).mulVec (ket n st') + (opMat n o).mulVec (ket n st' - ket n st)) := by
        rw [a3, Matrix.sub_mulVec, Matrix.mulVec_sub]; abel
      rw [split]
      calc _ ≤ ketNorm (ket n r' - (opMat n p).mulVec (ket n st'))
            + (ketNorm ((opMat n p - opMat n o).mulVec (ket n st'))
              + ketNorm ((opMat n o).mulVec (ket n st' - ket n st))) :=
            (ketNorm_add _ _).trans (by gcongr; exact ketNorm_add _ _)
        _ ≤ ε * ((1 + ε) ^ j * ((1 + ε) ^ m * N)) + (((1 + ε) ^ j - 1) * ((1 + ε) ^ m * N)
              + 1 * (((1 + ε) ^ m - 1) * N)) := by
            gcongr
            · exact b3.trans (by gcongr; exact ketNorm_nonneg _)
            · exact (ketNorm_mulVec _ _).trans (by gcongr; exact ketNorm_nonneg _)
            · exact (ketNorm_mulVec _ _).trans (by gcongr; exact ketNorm_nonneg _)
        _ = _ := by ring
    obtain ⟨q, q', c1, c2, c3, c4, c5, c6⟩ := ih a2 b2 hr hrr
    refine ⟨q, q', ?_, ?_, c3, c4, c5, ?_⟩
    · rw [reduceApply, List.foldlM_cons, a1]; exact c1
    · rw [List.foldlM_cons, b1]; exact c2
    · rw [List.length_cons, show m + (j + K) + (os.length + 1) = m + j + 1 + K + os.length by omega]; exact c6

/-- The exact and computed operations of a list of gates, before merging. -/
theorem triples_near (hA : A.Accurate n ε values gs) {hs : List Gate} (hsub : ∀ g ∈ hs, g ∈ gs)
    (h : ∀ g ∈ hs, g.UnitaryOn n values) :
    ∃ ops ops', hs.mapM (fun g => g.operator .unitary values) = .ok ops ∧ hs.mapM A.op = .ok ops' ∧
      NearOps n gs ε hs.length (List.zipWith (fun o (g : Gate) => (o, g.target, g.control)) ops hs)
        (List.zipWith (fun o (g : Gate) => (o, g.target, g.control)) ops' hs) ∧
      (List.zipWith (fun o (g : Gate) => (o, g.target, g.control)) ops hs).length = hs.length := by
  induction hs with
  | nil => exact ⟨[], [], rfl, rfl, .nil, rfl⟩
  | cons g hs ih =>
    obtain ⟨⟨U, hU, hop, huni⟩, hv⟩ := h g (by simp)
    obtain ⟨r, h1, h2, h3⟩ := hA.op g (hsub g (by simp)) U hU hop
    obtain ⟨ops, ops', e1, e2, e3, e4⟩ := ih (fun x hx => hsub x (by simp [hx])) (fun x hx => h x (by simp [hx]))
    refine ⟨U :: ops, r :: ops', ?_, ?_, ?_, ?_⟩
    · rw [List.mapM_cons, hU, e1]; rfl
    · rw [List.mapM_cons, h1, e2]; rfl
    · rw [List.zipWith_cons_cons, List.zipWith_cons_cons, List.length_cons, add_comm]
      exact .cons ⟨rfl, ⟨g, hsub g (by simp), rfl⟩, ⟨hop, hv.ctl, hv.dims⟩, ⟨h2, hv.ctl, hv.dims⟩, huni, by simpa using h3⟩ e3
    · rw [List.zipWith_cons_cons, List.length_cons, e4, List.length_cons]

theorem prepare_near (hε : 0 ≤ ε) (hA : A.Accurate n ε values gs) (h : ∀ g ∈ gs, g.UnitaryOn n values) (hne : gs ≠ [])
    (hnz : ∀ g ∈ gs, g.noise = none) (group merge : Bool) :
    ∃ ops ops' noise J, prepareSequenceReduce (fun g => g.operator .unitary values) NDArray.matmul (.list gs) group merge
        = .ok (ops, noise) ∧ allNoiseless noise = true ∧
      prepareSequenceReduce A.op A.mul (.list gs) group merge = .ok (ops', noise) ∧
      NearOps n gs ε J ops ops' ∧ J + ops.length = 2 * gs.length := by
  obtain ⟨hs, hhs, hperm⟩ : ∃ hs, (if group then groupByIndex gs else gs) = hs ∧ hs.Perm gs := by
    cases group with
    | false => exact ⟨gs, rfl, .refl _⟩
    | true => exact ⟨_, rfl, groupByIndex_perm gs⟩
  obtain ⟨ops, ops', e1, e2, e3, e4⟩ := triples_near hA (fun g hg => hperm.mem_iff.1 hg)
    (fun g hg => h g (hperm.mem_iff.1 hg))
  have hemp : hs.isEmpty = false := by
    cases hs with
    | nil => exact absurd hperm.symm.eq_nil hne
    | cons _ _ => rfl
  have hn : allNoiseless (hs.map Gate.noise) = true := allNoiseless_map fun g hg => hnz g (hperm.mem_iff.1 hg)
  have hl := hperm.length_eq
  cases merge with
  | false =>
    refine ⟨_, _, hs.map Gate.noise, _, ?_, hn, ?_, e3, by rw [e4]; omega⟩
    · simp only [prepareSequenceReduce, hhs, e1, Bool.and_false]
      simp [hemp, bind, Except.bind]
    · simp only [prepareSequenceReduce, hhs, e2, Bool.and_false]
      simp [hemp, bind, Except.bind]
  | true =>
    obtain ⟨res, res', Q, f1, f2, f3, f4⟩ := mergeOperators_near hε hA e3
    refine ⟨res, res', hs.map Gate.noise, Q, ?_, hn, ?_, f3, by rw [f4, e4]; omega⟩
    · simp only [prepareSequenceReduce, hhs, e1, Bool.and_true, hn]
      simp only [bind, Except.bind, hemp, Bool.false_eq_true, if_false, if_true, f1]
    · simp only [prepareSequenceReduce, hhs, e2, Bool.and_true, hn]
      simp only [bind, Except.bind, hemp, Bool.false_eq_true, if_false, if_true, f2]

theorem one_add_pow_le (hε : 0 ≤ ε) {m : ℕ} (hm : m * ε ≤ 1) : (1 + ε) ^ m - 1 ≤ 2 * (m * ε) := by
  have h1 : (1 + ε) ^ m ≤ Real.exp (m * ε) := by
    rw [Real.exp_nat_mul]
    exact pow_le_pow_left₀ (by linarith) (by linarith [Real.add_one_le_exp ε]) m
  have h0 : 0 ≤ m * ε := by positivity
  have h2 := Real.abs_exp_sub_one_sub_id_le (x := m * ε) (by rw [abs_of_nonneg h0]; exact hm)
  have h3 := (abs_le.1 h2).2
  nlinarith

end Verif
