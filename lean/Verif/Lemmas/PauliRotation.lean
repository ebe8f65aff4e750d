import Verif.Lemmas.Algorithms
import Verif.Lemmas.Trotter
import Verif.Props.Measure
import Verif.SpecTrotter

/-! # Lemmas: the circuit of a rotation about a Pauli string -/

set_option autoImplicit false

namespace Verif
open NDArray
variable {n : ℕ}

/-- The exponential of a matrix whose square is the identity. -/
theorem exp_involution {m : Type} [Fintype m] [DecidableEq m] {P : Matrix m m ℂ} (hP : P * P = 1) (s : ℝ) :
    NormedSpace.exp ((-Complex.I * (s : ℂ)) • P) = (Real.cos s : ℂ) • (1 : Matrix m m ℂ) - (Complex.I * (Real.sin s : ℂ)) • P := by
  open scoped Matrix.Norms.L2Operator in
  have e : ∀ s : ℝ, NormedSpace.exp ((-Complex.I * (s : ℂ)) • P) = mexp ((-Complex.I) • P) s := by
    intro s
    rw [mexp]
    congr 1
    ext i j
    simp only [Matrix.smul_apply, smul_eq_mul, Complex.real_smul]
    ring
  rw [e]
  -- `exp (isP) (cos s - i sin s P)` is constant
  let R : ℝ → Matrix m m ℂ := fun s => (Real.cos s : ℂ) • (1 : Matrix m m ℂ) - (Complex.I * (Real.sin s : ℂ)) • P
  have hR : ∀ x, HasDerivAt R (((-Complex.I) • P) * R x) x := by
    intro x
    have h1 := ((Real.hasDerivAt_cos x).ofReal_comp).smul_const (1 : Matrix m m ℂ)
    have h2 := (((Real.hasDerivAt_sin x).ofReal_comp).const_mul Complex.I).smul_const P
    refine (h1.sub h2).congr_deriv ?_
    simp only [R, Matrix.mul_sub, Matrix.smul_mul, Matrix.mul_smul, hP, Matrix.mul_one, smul_smul]
    ext i j
    simp only [Matrix.sub_apply, Matrix.smul_apply, smul_eq_mul, Complex.ofReal_neg]
    generalize (1 : Matrix m m ℂ) i j = z
    linear_combination (-(Real.sin x : ℂ) * z) * Complex.I_mul_I
  have hd : ∀ x, HasDerivAt (fun s => mexp (-((-Complex.I) • P)) s * R s) 0 x := by
    intro x
    refine ((mexp_deriv (-((-Complex.I) • P)) x).fun_mul (hR x)).congr_deriv ?_
    noncomm_ring
  have hc := is_const_of_deriv_eq_zero (fun x => (hd x).differentiableAt) (fun x => (hd x).deriv) s 0
  simp only [R, mexp_zero, Real.cos_zero, Real.sin_zero, Complex.ofReal_one, Complex.ofReal_zero, mul_zero, zero_smul, sub_zero,
    one_smul, mul_one] at hc
  have : mexp ((-Complex.I) • P) s * (mexp (-((-Complex.I) • P)) s * R s) = R s := by
    rw [← mul_assoc, mexp_neg, mexp_mul_neg, one_mul]
  change _ = R s
  rw [← this]
  simp only [R]
  rw [hc, mul_one]

/-- A rotation about the `z` axis. -/
theorem gateMat_RZ (θ : ℝ) {q : ℕ} : gateMat n (StdGate.RZ θ).mat [q] []
    = (Real.cos (θ / 2) : ℂ) • (1 : Matrix (Lab n) (Lab n) ℂ)
      - (Complex.I * (Real.sin (θ / 2) : ℂ)) • gateMat n (matE Pauli.Z.mat) [q] [] := by
  have e1 : Complex.exp (-Complex.I * θ / 2) = Real.cos (θ / 2) - Complex.I * Real.sin (θ / 2) := by
    rw [show -Complex.I * θ / 2 = (((-(θ / 2) : ℝ)) : ℂ) * Complex.I by push_cast; ring, Complex.exp_mul_I, ← Complex.ofReal_cos,
      ← Complex.ofReal_sin, Real.cos_neg, Real.sin_neg]
    push_cast; ring
  have e2 : Complex.exp (Complex.I * θ / 2) = Real.cos (θ / 2) + Complex.I * Real.sin (θ / 2) := by
    rw [show Complex.I * θ / 2 = ((θ / 2 : ℝ) : ℂ) * Complex.I by push_cast; ring, Complex.exp_mul_I, ← Complex.ofReal_cos,
      ← Complex.ofReal_sin]
    ring
  rw [← gateMat_one (n := n) (ts := [q]) (cs := []), sub_eq_add_neg, ← neg_smul, ← gateMat_smul, ← gateMat_smul, ← gateMat_add]
  refine gateMat_congr fun i j hi hj => ?_
  have hi' : i < 2 := by simpa using hi
  have hj' : j < 2 := by simpa using hj
  rw [StdGate.mat, matE_lt _ hi' hj', matE_lt _ hi' hj', e1, e2, oneE]
  generalize Real.cos (θ / 2) = c
  generalize Real.sin (θ / 2) = d
  obtain rfl | rfl : i = 0 ∨ i = 1 := by omega
  · obtain rfl | rfl : j = 0 ∨ j = 1 := by omega
    · simp [Pauli.mat]; ring
    · simp [Pauli.mat]
  · obtain rfl | rfl : j = 0 ∨ j = 1 := by omega
    · simp [Pauli.mat]
    · simp [Pauli.mat]

/-! ## The change of basis -/

theorem placed_one_qubit (U : Matrix (Fin 2) (Fin 2) ℂ) (f : ℕ → Matrix (Fin 2) (Fin 2) ℂ) {q : ℕ} (hq : q < n) :
    tensorProd n f * gateMat n (matE U) [q] [] = tensorProd n fun i => f i * if i = q then U else 1 := by
  rw [gateMat_single _ hq, tensorProd_mul]

theorem Pauli.toZ_mat (P : Pauli) {q : ℕ} (hq : q < n) : placedMat n (Pauli.toZ (P, q)) = gateMat n (matE P.basis) [q] [] := by
  have hone : gateMat n (matE (1 : Matrix (Fin 2) (Fin 2) ℂ)) [q] [] = 1 := by
    rw [gateMat_single _ hq]; simp [tensorProd_one]
  cases P
  · simp only [Pauli.toZ, placedMat, Pauli.basis, hone]
  · rw [Pauli.toZ, placedMat, placedMat, one_mul, Placed.mat, Pauli.basis, StdGate.mat]
    congr 2
    simp
  · rw [Pauli.toZ, placedMat, placedMat, one_mul, Placed.mat, StdGate.mat]
    rw [Pauli.basis, show Real.pi / 2 / 2 = Real.pi / 4 by ring, Real.cos_pi_div_four, Real.sin_pi_div_four,
      show Real.sqrt 2 / 2 = 1 / Real.sqrt 2 by rw [div_eq_div_iff (by norm_num) (by positivity), Real.mul_self_sqrt (by norm_num), one_mul]]
  · simp only [Pauli.toZ, placedMat, Pauli.basis, hone]

theorem Pauli.fromZ_mat (P : Pauli) {q : ℕ} (hq : q < n) :
    placedMat n (Pauli.fromZ (P, q)) = gateMat n (matE P.basis.conjTranspose) [q] [] := by
  have hone : gateMat n (matE (1 : Matrix (Fin 2) (Fin 2) ℂ)) [q] [] = 1 := by
    rw [gateMat_single _ hq]; simp [tensorProd_one]
  cases P
  · simp only [Pauli.fromZ, placedMat, Pauli.basis, Matrix.conjTranspose_one, hone]
  · rw [Pauli.fromZ, placedMat, placedMat, one_mul, Placed.mat, Pauli.basis, StdGate.mat]
    congr 2
    generalize Real.sqrt 2 = r
    ext i j
    fin_cases i <;> fin_cases j <;> simp [Matrix.conjTranspose_apply]
  · rw [Pauli.fromZ, placedMat, placedMat, one_mul, Placed.mat, StdGate.mat]
    rw [Pauli.basis, show -(Real.pi / 2) / 2 = -(Real.pi / 4) by ring, Real.cos_neg, Real.sin_neg, Real.cos_pi_div_four,
      Real.sin_pi_div_four,
      show Real.sqrt 2 / 2 = 1 / Real.sqrt 2 by rw [div_eq_div_iff (by norm_num) (by positivity), Real.mul_self_sqrt (by norm_num), one_mul]]
    congr 2
    generalize Real.sqrt 2 = r
    ext i j
    fin_cases i <;> fin_cases j <;> simp [Matrix.conjTranspose_apply]
  · simp only [Pauli.fromZ, placedMat, Pauli.basis, Matrix.conjTranspose_one, hone]

theorem basisAt_cons (P : Pauli) (k : ℕ) {l : List (Pauli × ℕ)} (h : k ∉ l.map Prod.snd) (q : ℕ) :
    basisAt ((P, k) :: l) q = basisAt l q * (if q = k then P.basis else 1) := by
  by_cases hq : k = q
  · subst hq
    have h1 : basisAt l k = 1 := by
      rw [basisAt, List.find?_eq_none.2]
      intro e he
      simp only [decide_eq_true_eq]
      exact fun h' => h (List.mem_map.2 ⟨e, he, h'⟩)
    rw [h1]
    simp [basisAt]
  · rw [if_neg fun e => hq e.symm, mul_one]
    simp [basisAt, List.find?_cons, hq]

theorem basisAt_one {k : ℕ} {l : List (Pauli × ℕ)} (h : k ∉ l.map Prod.snd) : basisAt l k = 1 := by
  rw [basisAt, List.find?_eq_none.2]
  intro e he
  simp only [decide_eq_true_eq]
  exact fun h' => h (List.mem_map.2 ⟨e, he, h'⟩)

theorem toZ_mat {l : List (Pauli × ℕ)} (hnd : (l.map Prod.snd).Nodup) (hl : ∀ e ∈ l, e.2 < n) :
    placedMat n (l.flatMap Pauli.toZ) = tensorProd n (basisAt l) := by
  induction l with
  | nil => exact tensorProd_one.symm
  | cons e l ih =>
    rcases e with ⟨P, k⟩
    rw [List.map_cons, List.nodup_cons] at hnd
    have hk : k < n := hl (P, k) (by simp)
    rw [List.flatMap_cons, placedMat_append, ih hnd.2 fun e he => hl e (List.mem_cons_of_mem _ he), P.toZ_mat hk,
      placed_one_qubit _ _ hk]
    exact congrArg _ (funext fun q => (basisAt_cons P k hnd.1 q).symm)

theorem fromZ_mat {l : List (Pauli × ℕ)} (hnd : (l.map Prod.snd).Nodup) (hl : ∀ e ∈ l, e.2 < n) :
    placedMat n (l.flatMap Pauli.fromZ) = (tensorProd n (basisAt l)).conjTranspose := by
  rw [tensorProd_conjTranspose]
  induction l with
  | nil =>
    have : (fun q => (basisAt [] q).conjTranspose) = fun _ => 1 := by funext q; simp [basisAt]
    rw [this]; exact tensorProd_one.symm
  | cons e l ih =>
    rcases e with ⟨P, k⟩
    rw [List.map_cons, List.nodup_cons] at hnd
    have hk : k < n := hl (P, k) (by simp)
    rw [List.flatMap_cons, placedMat_append, ih hnd.2 fun e he => hl e (List.mem_cons_of_mem _ he), P.fromZ_mat hk,
      placed_one_qubit _ _ hk]
    refine congrArg _ (funext fun q => ?_)
    rw [basisAt_cons P k hnd.1 q]
    by_cases hq : q = k
    · subst hq
      rw [basisAt_one hnd.1]
      simp
    · simp [hq]

theorem Pauli.basis_unitary (P : Pauli) : P.basis.conjTranspose * P.basis = 1 := by
  have h := inv_sqrt_two_sq
  cases P
  · simp [Pauli.basis]
  · rw [Pauli.basis]
    generalize hr : (1 / Real.sqrt 2 : ℝ) = r at h ⊢
    ext i j
    fin_cases i <;> fin_cases j <;>
      simp [Matrix.mul_apply, Fin.sum_univ_two, Matrix.conjTranspose_apply, h] <;> norm_num
  · rw [Pauli.basis]
    generalize hr : (1 / Real.sqrt 2 : ℝ) = r at h ⊢
    ext i j
    fin_cases i <;> fin_cases j <;>
      simp [Matrix.mul_apply, Fin.sum_univ_two, Matrix.conjTranspose_apply]
    · linear_combination (1 - Complex.I * Complex.I) * h - 1 / 2 * Complex.I_mul_I
    · ring
    · ring
    · linear_combination (1 - Complex.I * Complex.I) * h - 1 / 2 * Complex.I_mul_I
  · simp [Pauli.basis]

theorem basis_unitary (l : List (Pauli × ℕ)) : (tensorProd n (basisAt l)).conjTranspose * tensorProd n (basisAt l) = 1 := by
  rw [tensorProd_conjTranspose, tensorProd_mul, ← tensorProd_one]
  refine congrArg _ (funext fun q => ?_)
  rw [basisAt]
  generalize l.find? (fun e => decide (e.2 = q)) = o
  rcases o with _ | e
  · simp
  · exact e.1.basis_unitary

/-! ## The parity of the bits -/

/-- The string of `Z` on the listed qubits. -/
noncomputable def zOn (n : ℕ) (L : List ℕ) : Matrix (Lab n) (Lab n) ℂ := pauliString n (L.map fun q => (.Z, q))

theorem zOn_cons {q : ℕ} (hq : q < n) {L : List ℕ} (h : q ∉ L) :
    zOn n (q :: L) = gateMat n (matE Pauli.Z.mat) [q] [] * zOn n L := by
  rw [zOn, List.map_cons]
  refine (pauliString_cons .Z hq ?_).1
  intro e he
  obtain ⟨p, hp, rfl⟩ := List.mem_map.1 he
  exact fun h' => h (h' ▸ hp)

theorem zOn_comm {a b : ℕ} {L : List ℕ} (hnd : (a :: b :: L).Nodup) (hl : ∀ q ∈ a :: b :: L, q < n) :
    gateMat n StdGate.X.mat [b] [a] * zOn n L = zOn n L * gateMat n StdGate.X.mat [b] [a] := by
  induction L with
  | nil => rw [zOn, List.map_nil, pauliString_nil, mul_one, one_mul]
  | cons q L ih =>
    simp only [List.nodup_cons, List.mem_cons, not_or] at hnd
    have hv : ValidDims n ([a] ++ [b] ++ ([] ++ [q])) := by
      refine ⟨by simp; exact ⟨⟨hnd.1.1, hnd.1.2.1⟩, hnd.2.1.1⟩, ?_⟩
      simp only [List.nil_append, List.append_assoc, List.cons_append, List.mem_cons, List.not_mem_nil, or_false, forall_eq_or_imp,
        forall_eq]
      exact ⟨hl a (by simp), hl b (by simp), hl q (by simp)⟩
    rw [zOn_cons (hl q (by simp)) hnd.2.2.1, ← Matrix.mul_assoc, gateMat_comm_disjoint _ _ hv, Matrix.mul_assoc,
      ih (by simp only [List.nodup_cons, List.mem_cons, not_or]; exact ⟨⟨hnd.1.1, hnd.1.2.2⟩, hnd.2.1.2, hnd.2.2.2⟩)
        (fun p hp => hl p (by simp only [List.mem_cons] at hp ⊢; tauto)), Matrix.mul_assoc]

theorem cnot_z {a b : ℕ} (hab : a ≠ b) (ha : a < n) (hb : b < n) :
    gateMat n StdGate.X.mat [b] [a] * gateMat n (matE Pauli.Z.mat) [b] [] =
      gateMat n (matE Pauli.Z.mat) [a] [] * gateMat n (matE Pauli.Z.mat) [b] [] * gateMat n StdGate.X.mat [b] [a] := by
  have h := (SameGates.copyZ a b []).mat_eq (n := n) (by
    intro x hx
    have h1 : ValidDims n [a] := ⟨by simp, by simpa using ha⟩
    have h2 : ValidDims n [b] := ⟨by simp, by simpa using hb⟩
    have h3 : ValidDims n [a, b] := ⟨by simp [hab], by simp [ha, hb]⟩
    simp only [List.cons_append, List.nil_append, List.mem_cons, List.not_mem_nil, or_false] at hx
    rcases hx with rfl | rfl | rfl | rfl | rfl
    exacts [h2, h3, h3, h1, h2])
  simp only [placedMat, Placed.mat, one_mul] at h
  have hz : StdGate.Z.mat = matE Pauli.Z.mat := rfl
  rw [hz] at h
  rw [h]
  have hv : ValidDims n (([] ++ [a]) ++ ([] ++ [b])) := ⟨by simp [hab], by simp [ha, hb]⟩
  rw [gateMat_comm_disjoint _ _ hv]

theorem cnot_sq {a b : ℕ} (hab : a ≠ b) (ha : a < n) (hb : b < n) :
    gateMat n StdGate.X.mat [b] [a] * gateMat n StdGate.X.mat [b] [a] = 1 := by
  have h3 : ValidDims n [a, b] := ⟨by simp [hab], by simp [ha, hb]⟩
  have h := (SameGates.square (P := .X) (.inl rfl) b [a]).mat_eq (n := n) (by
    intro x hx
    simp only [List.cons_append, List.nil_append, List.mem_cons, List.not_mem_nil, or_false] at hx
    rcases hx with rfl | rfl | rfl
    all_goals exact h3)
  simp only [placedMat, Placed.mat, one_mul] at h
  rw [h, ← gateMat_one (n := n) (ts := [b]) (cs := [a])]
  refine gateMat_congr fun i j hi hj => ?_
  have hi' : i < 2 := by simpa using hi
  have hj' : j < 2 := by simpa using hj
  rw [StdGate.mat, matE_lt _ hi' hj', oneE]
  obtain rfl | rfl : i = 0 ∨ i = 1 := by omega
  all_goals obtain rfl | rfl : j = 0 ∨ j = 1 := by omega
  all_goals simp

theorem parityChain_inv {L : List ℕ} (hnd : L.Nodup) (hl : ∀ q ∈ L, q < n) :
    placedMat n (parityChain L).reverse * placedMat n (parityChain L) = 1 := by
  induction L with
  | nil => simp [parityChain, placedMat]
  | cons a L ih =>
    rcases L with _ | ⟨b, L⟩
    · simp [parityChain, placedMat]
    · have ih := ih hnd.of_cons fun q hq => hl q (List.mem_cons_of_mem _ hq)
      have hab : a ≠ b := by rintro rfl; simp at hnd
      rw [parityChain, List.reverse_cons, placedMat_append, placedMat, placedMat, placedMat, one_mul, Placed.mat, Matrix.mul_assoc,
        ← Matrix.mul_assoc (placedMat n (parityChain (b :: L)).reverse), ih, one_mul]
      exact cnot_sq hab (hl a (by simp)) (hl b (by simp))

theorem parityChain_conj {L : List ℕ} (hne : L ≠ []) (hnd : L.Nodup) (hl : ∀ q ∈ L, q < n) :
    placedMat n (parityChain L).reverse * gateMat n (matE Pauli.Z.mat) [L.getLastD 0] [] * placedMat n (parityChain L) = zOn n L := by
  induction L with
  | nil => exact absurd rfl hne
  | cons a L ih =>
    rcases L with _ | ⟨b, L⟩
    · simp only [parityChain, List.reverse_nil, placedMat, one_mul, mul_one, List.getLastD_cons, List.getLastD_nil]
      rw [zOn_cons (hl a (by simp)) (by simp), zOn, List.map_nil, pauliString_nil, mul_one]
    · have ih := ih (by simp) hnd.of_cons fun q hq => hl q (List.mem_cons_of_mem _ hq)
      have hab : a ≠ b := by rintro rfl; simp at hnd
      have ha := hl a (by simp)
      have hb := hl b (by simp)
      have haL : a ∉ b :: L := (List.nodup_cons.1 hnd).1
      have hbL : b ∉ L := (List.nodup_cons.1 hnd.of_cons).1
      have hlast : (a :: b :: L).getLastD 0 = (b :: L).getLastD 0 := by simp [List.getLastD_cons]
      rw [hlast, parityChain, List.reverse_cons, placedMat_append, placedMat, placedMat, placedMat, one_mul, Placed.mat]
      have e : ∀ C W' Z W : Matrix (Lab n) (Lab n) ℂ, C * W' * Z * (W * C) = C * (W' * Z * W) * C := by
        intros; noncomm_ring
      rw [e, ih, zOn_cons hb hbL, ← Matrix.mul_assoc, cnot_z hab ha hb, Matrix.mul_assoc, Matrix.mul_assoc, Matrix.mul_assoc,
        ← Matrix.mul_assoc (gateMat n StdGate.X.mat [b] [a]) (zOn n L), zOn_comm hnd hl, Matrix.mul_assoc,
        cnot_sq hab ha hb, mul_one, zOn_cons ha haL, zOn_cons hb hbL]

/-! ## The rotation -/

theorem zString_eq {l : List (Pauli × ℕ)} (hI : ∀ e ∈ l, e.1 ≠ .I) : pauliString n (zString l) = zOn n (l.map Prod.snd) := by
  rw [zOn, List.map_map]
  congr 1
  rw [zString]
  refine List.map_congr_left fun e he => ?_
  rcases e with ⟨P, q⟩
  cases P
  · exact absurd rfl (hI _ he)
  all_goals rfl

theorem pauliString_sq (l : List (Pauli × ℕ)) : pauliString n l * pauliString n l = 1 := by
  rw [pauliString, tensorProd_mul, ← tensorProd_one]
  refine congrArg _ (funext fun q => ?_)
  rw [pauliAt]
  generalize l.find? (fun e => decide (e.2 = q)) = o
  rcases o with _ | ⟨P, k⟩
  · simp
  · cases P
    · simp [Pauli.mat]
    all_goals
      ext i j
      fin_cases i <;> fin_cases j <;> simp [Pauli.mat, Matrix.mul_apply, Fin.sum_univ_two]

theorem pauliRotation_mat (θ : ℝ) {l : List (Pauli × ℕ)} (hne : l ≠ []) (hI : ∀ e ∈ l, e.1 ≠ .I) (hnd : (l.map Prod.snd).Nodup)
    (hl : ∀ e ∈ l, e.2 < n) : placedMat n (pauliRotation θ l) = evolve (pauliString n l) (θ / 2) := by
  have hl' : ∀ q ∈ l.map Prod.snd, q < n := by
    intro q hq
    obtain ⟨e, he, rfl⟩ := List.mem_map.1 hq
    exact hl e he
  have hne' : l.map Prod.snd ≠ [] := by simpa using hne
  rw [evolve, exp_involution (pauliString_sq l), pauliRotation, placedMat_append, placedMat_append, placedMat_append, placedMat_append,
    toZ_mat hnd hl, fromZ_mat hnd hl]
  simp only [placedMat, one_mul, Placed.mat]
  rw [gateMat_RZ, ← basis_string, zString_eq hI, ← parityChain_conj hne' hnd hl']
  have hb := basis_unitary (n := n) l
  have hc := parityChain_inv hnd hl'
  generalize tensorProd n (basisAt l) = B at hb ⊢
  generalize placedMat n (parityChain (l.map Prod.snd)) = W at hc ⊢
  generalize placedMat n (parityChain (l.map Prod.snd)).reverse = W' at hc ⊢
  generalize gateMat n (matE Pauli.Z.mat) [(l.map Prod.snd).getLastD 0] [] = Z
  have e1 : B.conjTranspose * (W' * ((1 : Matrix (Lab n) (Lab n) ℂ) * (W * B))) = 1 := by
    rw [one_mul, ← Matrix.mul_assoc W', hc, one_mul, hb]
  have e2 : B.conjTranspose * (W' * (Z * (W * B))) = B.conjTranspose * (W' * Z * W) * B := by
    simp only [Matrix.mul_assoc]
  rw [Matrix.sub_mul, Matrix.mul_sub, Matrix.mul_sub, Matrix.smul_mul, Matrix.mul_smul, Matrix.mul_smul, Matrix.smul_mul,
    Matrix.mul_smul, Matrix.mul_smul, e1, e2]

/-! ## Commutators of Pauli strings -/

theorem pauliAt_eq (l : List (Pauli × ℕ)) (q : ℕ) : pauliAt l q = (pauliOf l q).mat := by
  rw [pauliAt, pauliOf]
  generalize l.find? (fun e => decide (e.2 = q)) = o
  rcases o with _ | e
  · rfl
  · rfl

theorem Pauli.mul_comm_sign (P Q : Pauli) : P.mat * Q.mat = (if P.clash Q then (-1 : ℂ) else 1) • (Q.mat * P.mat) := by
  cases P <;> cases Q
  all_goals
    ext i j
    fin_cases i <;> fin_cases j <;> simp [Pauli.mat, Pauli.clash, Matrix.mul_apply, Fin.sum_univ_two]

theorem pauliString_comm_sign (l l' : List (Pauli × ℕ)) :
    pauliString n l * pauliString n l' = ((-1 : ℂ) ^ clashes n l l') • (pauliString n l' * pauliString n l) := by
  have hprod : ((-1 : ℂ) ^ clashes n l l') = ∏ i : Fin n, if (pauliOf l i).clash (pauliOf l' i) then (-1 : ℂ) else 1 := by
    have h1 : (∏ i : Fin n, if (pauliOf l i).clash (pauliOf l' i) then (-1 : ℂ) else 1)
        = ∏ q ∈ Finset.range n, if (pauliOf l q).clash (pauliOf l' q) then (-1 : ℂ) else 1 :=
      Fin.prod_univ_eq_prod_range (fun q => if (pauliOf l q).clash (pauliOf l' q) then (-1 : ℂ) else 1) n
    rw [h1, Finset.prod_ite, Finset.prod_const, Finset.prod_const_one, mul_one, clashes]
    congr 1
    change _ = Multiset.card (Multiset.filter (fun q => (pauliOf l q).clash (pauliOf l' q) = true) (↑(List.range n)))
    rw [Multiset.filter_coe, Multiset.coe_card]
    simp
  rw [pauliString, pauliString, tensorProd_mul, tensorProd_mul, hprod]
  ext x y
  rw [Matrix.smul_apply, smul_eq_mul, tensorProd, tensorProd, ← Finset.prod_mul_distrib]
  refine Finset.prod_congr rfl fun i _ => ?_
  rw [pauliAt_eq, pauliAt_eq, Pauli.mul_comm_sign, Matrix.smul_apply, smul_eq_mul]

theorem pauliString_hermitian (l : List (Pauli × ℕ)) : (pauliString n l).conjTranspose = pauliString n l :=
  tensorProd_hermitian fun q => pauliAt_hermitian l q

open scoped Matrix.Norms.L2Operator in
theorem pauliString_norm (l : List (Pauli × ℕ)) : ‖pauliString n l‖ ≤ 1 :=
  norm_le_one_of_star_mul (by rw [pauliString_hermitian, pauliString_sq])

open scoped Matrix.Norms.L2Operator in
theorem pauliString_commutator (l l' : List (Pauli × ℕ)) :
    ‖pauliString n l * pauliString n l' - pauliString n l' * pauliString n l‖ ≤ if clashes n l l' % 2 = 1 then 2 else 0 := by
  rw [pauliString_comm_sign]
  split_ifs with h
  · have : (-1 : ℂ) ^ clashes n l l' = -1 := Odd.neg_one_pow (Nat.odd_iff.2 h)
    rw [this, show (-1 : ℂ) • (pauliString n l' * pauliString n l) - pauliString n l' * pauliString n l
      = (-2 : ℂ) • (pauliString n l' * pauliString n l) by module, norm_smul]
    have h1 := norm_mul_le_right (A := pauliString n l') (pauliString_norm (n := n) l)
    have h2 := pauliString_norm (n := n) l'
    simp only [norm_neg, Complex.norm_ofNat]
    linarith
  · have : (-1 : ℂ) ^ clashes n l l' = 1 := Even.neg_one_pow (Nat.even_iff.2 (by omega))
    rw [this, one_smul, sub_self, norm_zero]

end Verif
