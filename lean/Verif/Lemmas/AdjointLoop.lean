import Verif.Props.Adjoint
import Verif.Props.Jacobian
import Mathlib.Analysis.Calculus.Deriv.Star

/-! # The body of the loop of the adjoint method, run from the last gate to the first -/

set_option autoImplicit false

namespace Verif
open NDArray
variable {n : ℕ} {values : Values}

/-! ## Derivatives of products of gate matrices -/

/-- The Leibniz rule for the product of the gates `gs`, with the `jacobian` operators of the gates that have the parameter
`p` in place of their derivatives. -/
noncomputable def jacobianSum (n : ℕ) (values : Values) (p : String) : List Gate → Matrix (Lab n) (Lab n) ℂ
  | [] => 0
  | g :: gs => jacobianSum n values p gs * g.mat n .unitary values +
      gatesMat n .unitary values gs * (if g.trainable = some p then g.mat n .jacobian values else 0)

theorem jacobianSum_append_one (p : String) (gs : List Gate) (g : Gate) :
    jacobianSum n values p (gs ++ [g]) = g.mat n .unitary values * jacobianSum n values p gs +
      (if g.trainable = some p then g.mat n .jacobian values else 0) * gatesMat n .unitary values gs := by
  induction gs with
  | nil => simp [jacobianSum, gatesMat]
  | cons a gs ih =>
    rw [List.cons_append, jacobianSum, ih, jacobianSum, gatesMat, gatesMat_append]
    simp only [gatesMat, one_mul, Matrix.mul_add, Matrix.add_mul, Matrix.mul_assoc]
    abel

/-- The entries of `M t` have the derivatives `D` at `x`. -/
def EntryDeriv (M : ℝ → Matrix (Lab n) (Lab n) ℂ) (D : Matrix (Lab n) (Lab n) ℂ) (x : ℝ) : Prop :=
  ∀ i j, HasDerivAt (fun t => M t i j) (D i j) x

theorem EntryDeriv.mul {A B : ℝ → Matrix (Lab n) (Lab n) ℂ} {A' B' : Matrix (Lab n) (Lab n) ℂ} {x : ℝ}
    (hA : EntryDeriv A A' x) (hB : EntryDeriv B B' x) : EntryDeriv (fun t => A t * B t) (A' * B x + A x * B') x := by
  intro i j
  have h : HasDerivAt (fun t => ∑ k, A t i k * B t k j) (∑ k, (A' i k * B x k j + A x i k * B' k j)) x :=
    HasDerivAt.fun_sum fun k _ => (hA i k).mul (hB k j)
  simp only [Matrix.mul_apply, Matrix.add_apply]
  rwa [Finset.sum_add_distrib] at h

theorem EntryDeriv.const (A : Matrix (Lab n) (Lab n) ℂ) (x : ℝ) : EntryDeriv (fun _ => A) 0 x :=
  fun i j => hasDerivAt_const x (A i j)

theorem gatesMat_entryDeriv {p : String} {x : ℝ} (hx : values.upd p x = values) :
    ∀ gs : List Gate, (∀ g ∈ gs, EntryDeriv (fun t => g.mat n .unitary (values.upd p t))
      (if g.trainable = some p then g.mat n .jacobian values else 0) x) →
    EntryDeriv (fun t => gatesMat n .unitary (values.upd p t) gs) (jacobianSum n values p gs) x
  | [], _ => EntryDeriv.const 1 x
  | g :: gs, h => by
    have h1 := gatesMat_entryDeriv hx gs fun g' hg' => h g' (by simp [hg'])
    have h2 := h1.mul (h g (by simp))
    simp only [hx] at h2
    exact h2

/-- The derivative of `Re ⟨U(t)v|O U(t)v⟩` for Hermitian `O`. -/
theorem quad_deriv {U : ℝ → Matrix (Lab n) (Lab n) ℂ} {D O : Matrix (Lab n) (Lab n) ℂ} {x : ℝ} (h : EntryDeriv U D x)
    (hO : O.IsHermitian) (v : Lab n → ℂ) :
    HasDerivAt (fun t => (∑ a, star ((U t).mulVec v a) * O.mulVec ((U t).mulVec v) a).re)
      (2 * (∑ a, star (D.mulVec v a) * O.mulVec ((U x).mulVec v) a).re) x := by
  have hv : ∀ a, HasDerivAt (fun t => (U t).mulVec v a) (D.mulVec v a) x := fun a =>
    HasDerivAt.fun_sum fun b _ => (h a b).mul_const (v b)
  have hOv : ∀ a, HasDerivAt (fun t => O.mulVec ((U t).mulVec v) a) (O.mulVec (D.mulVec v) a) x := fun a =>
    HasDerivAt.fun_sum fun b _ => (hv b).const_mul (O a b)
  have hs : HasDerivAt (fun t => ∑ a, star ((U t).mulVec v a) * O.mulVec ((U t).mulVec v) a)
      (∑ a, (star (D.mulVec v a) * O.mulVec ((U x).mulVec v) a + star ((U x).mulVec v a) * O.mulVec (D.mulVec v) a)) x :=
    HasDerivAt.fun_sum fun a _ => (HasDerivAt.star (hv a)).mul (hOv a)
  have hre : HasDerivAt (fun t => (∑ a, star ((U t).mulVec v a) * O.mulVec ((U t).mulVec v) a).re)
      ((∑ a, (star (D.mulVec v a) * O.mulVec ((U x).mulVec v) a + star ((U x).mulVec v a) * O.mulVec (D.mulVec v) a)).re) x :=
    (Complex.reCLM.hasFDerivAt.comp_hasDerivAt x hs)
  refine hre.congr_deriv ?_
  have hsym : (∑ a, star ((U x).mulVec v a) * O.mulVec (D.mulVec v) a)
      = star (∑ a, star (D.mulVec v a) * O.mulVec ((U x).mulVec v) a) := by
    have e1 : (∑ a, star ((U x).mulVec v a) * O.mulVec (D.mulVec v) a) = star ((U x).mulVec v) ⬝ᵥ O.mulVec (D.mulVec v) := rfl
    have e2 : (∑ a, star (D.mulVec v a) * O.mulVec ((U x).mulVec v) a) = star (D.mulVec v) ⬝ᵥ O.mulVec ((U x).mulVec v) := rfl
    rw [e1, e2]
    generalize (U x).mulVec v = u
    rw [← Matrix.star_dotProduct, Matrix.star_mulVec, hO.eq, ← Matrix.dotProduct_mulVec]
  rw [Finset.sum_add_distrib, hsym, Complex.add_re]
  have : (star (∑ a, star (D.mulVec v a) * O.mulVec ((U x).mulVec v) a)).re
      = (∑ a, star (D.mulVec v a) * O.mulVec ((U x).mulVec v) a).re := Complex.conj_re _
  rw [this]; ring

/-! ## Gates with a named parameter -/

theorem Gate.trainable_iff (g : Gate) (p : String) : g.trainable = some p ↔ g.Uses p := by
  obtain ⟨cls, _⟩ := g
  rcases cls with _ | ⟨p, _⟩ | ⟨p, _⟩ | _ <;> [simp [Gate.Uses, Gate.trainable]; skip; skip; simp [Gate.Uses, Gate.trainable]]
  all_goals cases p <;> simp [Gate.Uses, Gate.trainable]

theorem NamedRot.jacobian_ok {g : Gate} {p : String} {sh : ℝ} {R : ℝ → StdGate} (h : NamedRot g p sh R) (hv : g.ValidOn n)
    {x : ℝ} (hx : values.lookup p = some (.num x)) : g.Ok n .jacobian values := by
  have hp : ∀ s, parseValues (.str p) s values = .ok (x + s) := fun s => parseValues_ok (.str hx)
  have hr : List.range 2 = [0, 1] := rfl
  have hj : ∀ (a b c d : ℂ) (θ : ℝ), ∃ J, rotJacobian (mat2 a b c d) θ = .ok J ∧ IsOp 1 J := fun a b c d θ =>
    ⟨_, by rw [rotJacobian, mulEntry]; exact if_pos rfl, ⟨rfl, by simp [NDArray.WF, ofFn, mat2, allIdx, hr]⟩⟩
  cases h with
  | RX _ sh t c nz =>
    obtain ⟨J, h1, h2⟩ := hj 0 1 1 0 (x + sh)
    exact ⟨⟨J, by rw [← h1]; simp [Gate.operator, Gate.jacobian, Gate.generator, operationsDict, hp, bind, Except.bind, matX], h2⟩, hv⟩
  | RY _ sh t c nz =>
    obtain ⟨J, h1, h2⟩ := hj 0 (-Complex.I) Complex.I 0 (x + sh)
    exact ⟨⟨J, by rw [← h1]; simp [Gate.operator, Gate.jacobian, Gate.generator, operationsDict, hp, bind, Except.bind, matY], h2⟩, hv⟩
  | RZ _ sh t c nz =>
    obtain ⟨J, h1, h2⟩ := hj 1 0 0 (-1) (x + sh)
    exact ⟨⟨J, by rw [← h1]; simp [Gate.operator, Gate.jacobian, Gate.generator, operationsDict, hp, bind, Except.bind, matZ], h2⟩, hv⟩
  | PHASE _ sh t c nz =>
    exact ⟨⟨mat2 0 0 0 (Complex.I * Complex.exp (Complex.I * ((x + sh : ℝ) : ℂ))),
      by simp [Gate.operator, Gate.jacobian, hp, bind, Except.bind], ⟨rfl, rfl⟩⟩, hv⟩

theorem Gate.Std.jacobian_ok {g : Gate} {s : StdGate} (h : g.Std n values s) {p : String} (ht : g.trainable = some p) :
    g.Ok n .jacobian values := by
  have hu := (g.trainable_iff p).1 ht
  obtain ⟨sh, R, hR⟩ := h.named hu
  obtain ⟨x, hx⟩ := h.lookup hu
  exact hR.jacobian_ok h.valid hx

/-! ## The dictionary of gradients -/

/-- Adding to an entry that is a number. -/
theorem GradDict.accumulate_num {grads : GradDict} {p : String} {y : ℝ} (h : grads.lookup p = some (some y)) (d : ℝ) :
    ∃ grads', grads.accumulate p d = .ok grads' ∧ grads'.lookup p = some (some (y + d)) ∧
      ∀ q, q ≠ p → grads'.lookup q = grads.lookup q := by
  refine ⟨_, by rw [GradDict.accumulate, h], ?_, ?_⟩
  · induction grads with
    | nil => simp at h
    | cons e grads ih =>
      obtain ⟨k, v⟩ := e
      by_cases hk : p = k
      · subst hk
        simp only [List.lookup, beq_self_eq_true, Option.some.injEq] at h
        subst h
        simp [List.lookup]
      · have hb : (p == k) = false := by simpa using hk
        have hk' : k ≠ p := fun e => hk e.symm
        simp only [List.lookup, hb] at h
        simp only [List.map_cons, if_neg hk', List.lookup, hb]
        exact ih h
  · intro q hq
    clear h
    induction grads with
    | nil => rfl
    | cons e grads ih =>
      obtain ⟨k, v⟩ := e
      by_cases hk : k = p
      · have hb : (q == p) = false := by simpa using hq
        simp only [List.map_cons, hk, if_true, List.lookup, hb]
        exact ih
      · simp only [List.map_cons, if_neg hk, List.lookup]
        rcases (q == k) with _ | _
        · exact ih
        · rfl

/-! ## One step and the loop -/

theorem pyIndex_append {α : Type} (l l' : List α) (x : α) : pyIndex (l ++ x :: l') (l.length : ℤ) = .ok x := by
  simp [pyIndex]

/-- `adjointBody` with the gates `l` before, and `l'` after the gate of the step. -/
theorem adjointBody_step (so : SetOrder) {l l' : List Gate} {g : Gate} {s : StdGate} (hg : g.Std n values s)
    (hz : g.noise = none) (tangent : ℝ) {a b : NDArray ℂ} (ha : IsKet n a) (hb : IsKet n b) {v : Lab n → ℂ}
    (hav : ket n a = (g.mat n .unitary values).mulVec v) {grads : GradDict}
    (hd : ∀ p, g.trainable = some p → ∃ y, grads.lookup p = some (some y)) :
    ∃ a' b' grads', adjointBody so ((l ++ g :: l').map .prim) values tangent l.length (.vec a, some (.vec b), grads)
        = .ok (.vec a', some (.vec b'), grads') ∧ IsKet n a' ∧ IsKet n b' ∧ ket n a' = v ∧
      ket n b' = ((g.mat n .unitary values).conjTranspose).mulVec (ket n b) ∧
      ∀ p, grads'.lookup p = (grads.lookup p).map fun o => o.map fun y => y + if g.trainable = some p then
        tangent * 2 * (∑ x, star ((g.mat n .jacobian values).mulVec v x) * ket n b x).re else 0 := by
  obtain ⟨hdok, hdm⟩ := hg.ok.dagger
  have hunit : (g.mat n .unitary values).conjTranspose * g.mat n .unitary values = 1 := by
    have := gatesMat_std_unitary (gs := [g]) (ss := [s]) (n := n) (values := values) (.cons hg .nil)
    simp only [gatesMat, one_mul] at this
    exact this
  obtain ⟨a', e1, e2, e3⟩ := applyGates_single so hdok hz ha false true
  obtain ⟨b', f1, f2, f3⟩ := applyGates_single so hdok hz hb false true
  have hav' : ket n a' = v := by rw [e3, hdm, hav, Matrix.mulVec_mulVec, hunit, Matrix.one_mulVec]
  have hidx : pyIndex ((l ++ g :: l').map Op.prim) (l.length : ℤ) = .ok (.prim g) := by
    have := pyIndex_append (l.map Op.prim) (l'.map Op.prim) (Op.prim g)
    simpa using this
  rcases ht : g.trainable with _ | p
  · refine ⟨a', b', grads, ?_, e2, f2, hav', by rw [f3, hdm], fun q => ?_⟩
    · simp only [adjointBody, hidx, ht, except_bind]
      rw [e1]; simp only
      rw [f1]; rfl
    · simp only [reduceCtorEq, if_false, add_zero]
      rcases grads.lookup q with _ | _ | y <;> rfl
  · obtain ⟨mu, m1, m2, m3⟩ := applyGates_single so (hg.jacobian_ok ht) hz e2 false true
    obtain ⟨y, hy⟩ := hd p ht
    obtain ⟨grads', k1, k2, k3⟩ := GradDict.accumulate_num hy (tangent * 2 * (∑ x, star (ket n mu x) * ket n b x).re)
    refine ⟨a', b', grads', ?_, e2, f2, hav', by rw [f3, hdm], fun q => ?_⟩
    · simp only [adjointBody, hidx, ht, except_bind]
      rw [e1]; simp only
      rw [m1]; simp only [Op.innerReal, inner_ket m2 hb, except_bind, pure, Except.pure]
      rw [k1]; simp only
      rw [f1]
    · by_cases hq : q = p
      · subst hq
        rw [k2, hy, m3, hav']
        simp
      · have hne : some p ≠ some q := fun e => hq (Option.some.inj e).symm
        rw [k3 q hq, if_neg hne]
        simp only [add_zero]
        rcases grads.lookup q with _ | _ | y <;> rfl

theorem star_mulVec_sum (A : Matrix (Lab n) (Lab n) ℂ) (v w : Lab n → ℂ) :
    ∑ x, star (A.mulVec v x) * w x = ∑ x, star (v x) * A.conjTranspose.mulVec w x := by
  have e1 : ∑ x, star (A.mulVec v x) * w x = star (A.mulVec v) ⬝ᵥ w := rfl
  have e2 : ∑ x, star (v x) * A.conjTranspose.mulVec w x = star v ⬝ᵥ A.conjTranspose.mulVec w := rfl
  rw [e1, e2, Matrix.star_mulVec, ← Matrix.dotProduct_mulVec]

theorem adjointBody_loop (so : SetOrder) (tangent : ℝ) (v : Lab n → ℂ) : ∀ (l l' : List Gate),
    (∀ g ∈ l, ∃ s, g.Std n values s) → (∀ g ∈ l, g.noise = none) → ∀ {a b : NDArray ℂ}, IsKet n a → IsKet n b →
    ket n a = (gatesMat n .unitary values l).mulVec v → ∀ {grads : GradDict},
    (∀ g ∈ l, ∀ p, g.trainable = some p → ∃ y, grads.lookup p = some (some y)) →
    ∃ (st' : State × Option State) (grads' : GradDict), ((List.range l.length).reverse).foldlM
        (fun st (i : ℕ) => adjointBody so ((l ++ l').map .prim) values tangent i st) (State.vec a, some (State.vec b), grads)
        = .ok (st'.1, st'.2, grads') ∧
      ∀ p, grads'.lookup p = (grads.lookup p).map fun o => o.map fun y => y +
        tangent * 2 * (∑ x, star ((jacobianSum n values p l).mulVec v x) * ket n b x).re := by
  intro l
  induction l using List.reverseRecOn with
  | nil =>
    intro l' _ _ a b ha hb _ grads _
    refine ⟨(.vec a, some (.vec b)), grads, rfl, fun p => ?_⟩
    simp only [jacobianSum, Matrix.zero_mulVec, Pi.zero_apply, star_zero, zero_mul, Finset.sum_const_zero, Complex.zero_re,
      mul_zero, add_zero]
    rcases grads.lookup p with _ | _ | y <;> rfl
  | append_singleton k g ih =>
    intro l' hs hz a b ha hb hav grads hd
    obtain ⟨s, hgs⟩ := hs g (by simp)
    have hav' : ket n a = (g.mat n .unitary values).mulVec ((gatesMat n .unitary values k).mulVec v) := by
      rw [hav, gatesMat_append, Matrix.mulVec_mulVec]; simp [gatesMat]
    obtain ⟨a', b', gr, e1, e2, e3, e4, e5, e6⟩ := adjointBody_step so (l := k) (l' := l') hgs (hz g (by simp)) tangent ha hb hav'
      (grads := grads) (hd g (by simp))
    obtain ⟨st', gr', f1, f2⟩ := ih (g :: l') (fun g' h => hs g' (by simp [h])) (fun g' h => hz g' (by simp [h])) e2 e3 e4
      (grads := gr) (by
        intro g' hg' p hp
        obtain ⟨y, hy⟩ := hd g' (by simp [hg']) p hp
        exact ⟨_, by rw [e6, hy]; rfl⟩)
    have hl : k ++ [g] ++ l' = k ++ g :: l' := by simp
    refine ⟨st', gr', ?_, fun p => ?_⟩
    · rw [hl, List.length_append, List.length_singleton, List.range_succ, List.reverse_append, List.reverse_singleton,
        List.singleton_append, List.foldlM_cons, e1]
      exact f1
    · rw [f2, e6]
      rcases grads.lookup p with _ | _ | y
      · rfl
      · rfl
      · simp only [Option.map_some, Option.some.injEq]
        rw [jacobianSum_append_one, e5, ← star_mulVec_sum]
        by_cases hp : g.trainable = some p
        · simp only [if_pos hp, Matrix.add_mulVec, Pi.add_apply, star_add, add_mul, Finset.sum_add_distrib, Complex.add_re,
            Matrix.mulVec_mulVec]
          ring
        · simp only [if_neg hp, Matrix.zero_mul, add_zero, Matrix.mulVec_mulVec]

/-! ## The derivative of an uncontrolled `PHASE` gate -/

theorem phase_entryDeriv {g : Gate} {p : String} {sh : ℝ} (h : g.cls = .phase (.str p) sh) (hs : g.sparse = false) {t : ℕ} (ht : g.target = [t])
    (hc : ctlInts g.control = []) {x : ℝ} (hx : values.lookup p = some (.num x)) :
    EntryDeriv (n := n) (fun y => g.mat n .unitary (values.upd p y)) (g.mat n .jacobian values) x := by
  have hp : ∀ y, parseValues (.str p) sh (values.upd p y) = .ok (y + sh) := fun y =>
    parseValues_ok (.str (Values.lookup_set_self hx y))
  have hp' : parseValues (.str p) sh values = .ok (x + sh) := parseValues_ok (.str hx)
  have hU : ∀ y, g.operator .unitary (values.upd p y) = .ok (mat2 1 0 0 (Complex.exp (Complex.I * ((y + sh : ℝ) : ℂ)))) := by
    intro y
    simp [Gate.operator, Gate.unitary, hs, h, hp, bind, Except.bind]
  have hJ : g.operator .jacobian values = .ok (mat2 0 0 0 (Complex.I * Complex.exp (Complex.I * ((x + sh : ℝ) : ℂ)))) := by
    simp [Gate.operator, Gate.jacobian, hs, h, hp', bind, Except.bind]
  have hd : HasDerivAt (fun y : ℝ => Complex.exp (Complex.I * ((y + sh : ℝ) : ℂ)))
      (Complex.I * Complex.exp (Complex.I * ((x + sh : ℝ) : ℂ))) x := by
    have h0 : HasDerivAt (fun y : ℝ => y + sh) 1 x := (hasDerivAt_id x).add_const sh
    have h1 : HasDerivAt (fun y : ℝ => Complex.I * ((y + sh : ℝ) : ℂ)) (Complex.I * ((1 : ℝ) : ℂ)) x :=
      h0.ofReal_comp.const_mul Complex.I
    have := h1.cexp
    simpa [mul_comm] using this
  intro i j
  have hbit : ∀ b : Lab n, b.idx [t] < 2 := fun b => by simpa using b.idx_lt [t]
  simp only [Gate.mat, hU, hJ, ht, hc, gateMat, List.not_mem_nil, false_imp_iff, implies_true, if_true]
  split_ifs
  · have hi := hbit i
    have hj := hbit j
    generalize i.idx [t] = a at hi
    generalize j.idx [t] = b at hj
    obtain rfl | rfl : a = 0 ∨ a = 1 := by omega
    · obtain rfl | rfl : b = 0 ∨ b = 1 := by omega
      · exact hasDerivAt_const x (1 : ℂ)
      · exact hasDerivAt_const x (0 : ℂ)
    · obtain rfl | rfl : b = 0 ∨ b = 1 := by omega
      · exact hasDerivAt_const x (0 : ℂ)
      · exact hd
  · exact hasDerivAt_const x (0 : ℂ)

theorem Values.upd_self {values : Values} (hn : values.Numeric) {p : String} {x : ℝ} (hx : values.lookup p = some (.num x)) :
    values.upd p x = values := by
  have : ∀ e ∈ values, e.1 = p → e = (p, .num x) := by
    intro e he hp
    obtain ⟨y, hy⟩ := hn.num e he
    have hl : values.lookup p = some e.2 := by
      clear hx hy
      have hnd := hn.nodup
      clear hn
      induction values with
      | nil => cases he
      | cons f values ih =>
        obtain ⟨k, w⟩ := f
        rcases List.mem_cons.1 he with rfl | he'
        · simp only at hp; subst hp; simp [List.lookup]
        · have hk : p ≠ k := by
            rintro rfl
            exact (List.nodup_cons.1 hnd).1 (List.mem_map.2 ⟨e, he', hp⟩)
          have hb : (p == k) = false := by simpa using hk
          simp only [List.lookup, hb]
          exact ih he' (List.nodup_cons.1 hnd).2
    rw [hx] at hl
    obtain ⟨k, w⟩ := e
    simp only at hp hl
    cases hl; subst hp; rfl
  rw [Values.upd]
  conv_rhs => rw [← List.map_id values]
  refine List.map_congr_left fun e he => ?_
  by_cases hp : e.1 = p
  · rw [if_pos hp, this e he hp]; rfl
  · rw [if_neg hp]; rfl

end Verif
