import Verif.Props.Logic

/-! # Lemmas: Hadamard transforms, Fourier transforms and sign changes on amplitudes -/

set_option autoImplicit false

namespace Verif
open NDArray
variable {n : ℕ}

theorem mulVec_basis {m : Type*} [Fintype m] [DecidableEq m] (M : Matrix m m ℂ) (y x : m) : M.mulVec (fun z => if z = y then 1 else 0) x = M x y := by
  simp [Matrix.mulVec, dotProduct]

/-- The entries of a matrix from its action on basis states. -/
theorem mulVec_of_basis (M : Matrix (Lab n) (Lab n) ℂ) (f : Lab n → Lab n → ℂ)
    (h : ∀ y x, M.mulVec (prodKet fun q i => if i = y q then (1 : ℂ) else 0) x = f x y) (v : Lab n → ℂ) (x : Lab n) :
    M.mulVec v x = ∑ y, f x y * v y := by
  rw [Matrix.mulVec, dotProduct]
  refine Finset.sum_congr rfl fun y _ => ?_
  rw [← h y x, prodKet_basis, mulVec_basis]

/-! ## Hadamard gates -/

theorem hadamards_succ (k : ℕ) : hadamards (k + 1) = hadamards k ++ [⟨.H, [k], []⟩] := by
  simp [hadamards, List.range_succ]

theorem hadamards_prodKet {k : ℕ} (hk : k ≤ n) (φ : Fin n → Fin 2 → ℂ) :
    (placedMat n (hadamards k)).mulVec (prodKet φ) = prodKet fun q => if q.val < k then act1 StdGate.H.mat (φ q) else φ q := by
  induction k with
  | zero => simp [hadamards, placedMat]
  | succ k ih =>
    rw [hadamards_succ, placedMat_mulVec_append, ih (by omega), placedMat_mulVec_cons]
    have := mulVec_prodKet StdGate.H.mat (⟨k, by omega⟩ : Fin n) fun q => if q.val < k then act1 StdGate.H.mat (φ q) else φ q
    rw [Placed.mat]
    simp only at this ⊢
    rw [this, placedMat, Matrix.one_mulVec]
    congr 1
    funext q
    by_cases hq : q = ⟨k, by omega⟩
    · subst hq
      rw [Function.update_self, if_neg (by simp), if_pos (by simp)]
    · rw [Function.update_of_ne hq]
      have : q.val ≠ k := fun e => hq (Fin.ext e)
      refine if_congr ?_ rfl rfl
      omega

theorem sqrt2_sq : ((√2 : ℝ) : ℂ) * ((√2 : ℝ) : ℂ) = 2 := by
  rw [← Complex.ofReal_mul, Real.mul_self_sqrt (by norm_num)]; norm_num

theorem sqrt2_ne : ((√2 : ℝ) : ℂ) ≠ 0 := by
  rw [Complex.ofReal_ne_zero]; positivity

theorem act1_H (f : Fin 2 → ℂ) (i : Fin 2) :
    act1 StdGate.H.mat f i = 1 / (√2 : ℝ) * (f 0 + (-1) ^ i.val * f 1) := by
  rcases Fin.exists_fin_two.1 ⟨i, rfl⟩ with e | e <;> rw [e] <;> simp [act1, StdGate.mat, matE] <;> ring

theorem act1_H_basis (b i : Fin 2) :
    act1 StdGate.H.mat (fun j => if j = b then 1 else 0) i = 1 / (√2 : ℝ) * (-1) ^ (i.val * b.val) := by
  rw [act1_H]
  rcases Fin.exists_fin_two.1 ⟨b, rfl⟩ with e | e <;> rw [e] <;> simp

theorem act1_HH (f : Fin 2 → ℂ) : act1 StdGate.H.mat (act1 StdGate.H.mat f) = f := by
  have h2 := sqrt2_sq
  have h0 := sqrt2_ne
  have hh : (1 / ((√2 : ℝ) : ℂ)) * (1 / ((√2 : ℝ) : ℂ)) = 1 / 2 := by
    rw [div_mul_div_comm, h2, one_mul]
  funext i
  simp only [act1_H]
  generalize (1 / ((√2 : ℝ) : ℂ)) = s at hh
  rcases Fin.exists_fin_two.1 ⟨i, rfl⟩ with e | e <;> rw [e] <;> simp
  · linear_combination 2 * f 0 * hh
  · linear_combination 2 * f 1 * hh

/-- The Hadamard transform of a state. -/
theorem hadamards_mulVec (v : Lab n → ℂ) (x : Lab n) :
    (placedMat n (hadamards n)).mulVec v x = ∑ y, (1 / (√2 : ℝ)) ^ n * (-1) ^ (x.dot y) * v y := by
  refine mulVec_of_basis _ (fun x y => (1 / (√2 : ℝ)) ^ n * (-1) ^ (x.dot y)) (fun y x => ?_) v x
  rw [hadamards_prodKet le_rfl]
  simp only [prodKet, Fin.is_lt, if_true, act1_H_basis]
  rw [Finset.prod_mul_distrib, Finset.prod_const, Finset.card_univ, Fintype.card_fin, Finset.prod_pow_eq_pow_sum, Lab.dot]

theorem hadamards_twice (v : Lab n → ℂ) :
    (placedMat n (hadamards n)).mulVec ((placedMat n (hadamards n)).mulVec v) = v := by
  rw [Matrix.mulVec_mulVec]
  funext x
  rw [mulVec_of_basis _ (fun x y => if x = y then 1 else 0) (fun y x => ?_)]
  · simp
  · rw [← Matrix.mulVec_mulVec, hadamards_prodKet le_rfl, hadamards_prodKet le_rfl]
    simp only [Fin.is_lt, if_true, act1_HH]
    rw [prodKet_basis]

/-! ## Controlled gates on product states -/

/-- A controlled gate of which the target is an eigenvector: the phase goes to the control. -/
theorem mulVec_kickback (U : ℕ → ℕ → ℂ) {t c : Fin n} (htc : t ≠ c) (φ : Fin n → Fin 2 → ℂ) {ω : ℂ}
    (hω : act1 U (φ t) = fun i => ω * φ t i) :
    (gateMat n U [t.val] [c.val]).mulVec (prodKet φ) = prodKet (Function.update φ c fun i => if i = 1 then ω * φ c i else φ c i) := by
  funext x
  have hbit : (∀ q ∈ [c.val], x.bit q = 1) ↔ x c = 1 := by
    simp only [List.mem_singleton, forall_eq, Lab.bit_fin]
    exact ⟨fun h => Fin.ext h, fun h => by rw [h]; rfl⟩
  have hx : prodKet φ x = φ c (x c) * ∏ q ∈ Finset.univ.erase c, φ q (x q) := by
    have := prodKet_update' φ c (φ c) x
    rwa [Function.update_eq_self] at this
  rw [mulVec_single, if_congr hbit rfl rfl, prodKet_update', prodKet_update, prodKet_update]
  by_cases h1 : x c = 1
  · rw [if_pos h1, if_pos h1, mul_assoc, ← hx]
    have hx' : prodKet φ x = φ t (x t) * ∏ q ∈ Finset.univ.erase t, φ q (x q) := by
      have := prodKet_update' φ t (φ t) x
      rwa [Function.update_eq_self] at this
    have := congrFun hω (x t)
    rw [act1] at this
    rw [hx', ← mul_assoc ω, ← this]
    ring
  · rw [if_neg h1, if_neg h1, hx]

/-! ## The chain of CNOT gates -/

/-- The first `k` CNOT gates of the chain, as logic. -/
def cnotChain (k : ℕ) : List Logic := (List.range k).map fun i => .not (i + 1) [i]

theorem cnotChain_succ (k : ℕ) (x : Lab n) : logicRun (cnotChain (k + 1)) x = (Logic.not (k + 1) [k]).act (logicRun (cnotChain k) x) := by
  simp [cnotChain, logicRun, List.range_succ]

/-- The chain copies qubit `0` to the others, if those are zero. -/
theorem cnotChain_copy {k : ℕ} (hk : k < n) (x : Lab n) (hx : ∀ q, 0 < q → q < n → x.bit q = 0) (q : ℕ) (hq : q < n) :
    (logicRun (cnotChain k) x).bit q = if q ≤ k then x.bit 0 else 0 := by
  induction k generalizing q with
  | zero =>
    show x.bit q = _
    by_cases h : q ≤ 0
    · rw [if_pos h, Nat.le_zero.1 h]
    · rw [if_neg h, hx q (by omega) hq]
  | succ k ih =>
    rw [cnotChain_succ, Logic.act_bit_not _ _ _ hq]
    simp only [List.mem_singleton, forall_eq]
    rw [ih (by omega) q hq, ih (by omega) k (by omega), if_pos le_rfl]
    have := Lab.bit_lt_two x 0
    split_ifs <;> omega

/-! ## Reversing the order of the qubits -/

/-- The first `k` swaps. -/
def reversal (n k : ℕ) : List Logic := (List.range k).map fun i => .swap i (n - 1 - i) []

theorem reversal_succ (k : ℕ) (x : Lab n) : logicRun (reversal n (k + 1)) x = (Logic.swap k (n - 1 - k) []).act (logicRun (reversal n k) x) := by
  simp [reversal, logicRun, List.range_succ]

theorem reversal_bit {k : ℕ} (hk : k ≤ n / 2) (x : Lab n) (q : ℕ) (hq : q < n) :
    (logicRun (reversal n k) x).bit q = if q < k ∨ n ≤ q + k then x.bit (n - 1 - q) else x.bit q := by
  induction k generalizing q with
  | zero => rw [if_neg (by omega)]; rfl
  | succ k ih =>
    rw [reversal_succ, Logic.act_bit_swap _ _ _ _ hq, if_pos (by simp), ih (by omega) q hq, ih (by omega) k (by omega),
      ih (by omega) (n - 1 - k) (by omega)]
    by_cases h1 : q = k
    · subst h1
      rw [if_pos rfl, if_neg (by omega), if_pos (by omega)]
    · rw [if_neg h1]
      by_cases h2 : q = n - 1 - k
      · rw [if_pos h2, if_neg (by omega), if_pos (by omega)]
        congr 1; omega
      · rw [if_neg h2]
        refine if_congr (by omega) rfl rfl

theorem reversal_eq (x : Lab n) : logicRun (reversal n (n / 2)) x = fun q => x q.rev := by
  refine Lab.ext_bit fun q hq => ?_
  rw [reversal_bit le_rfl x q hq]
  have e : Lab.bit (fun q : Fin n => x q.rev) q = x.bit (n - 1 - q) := by
    rw [Lab.bit, dif_pos hq, Lab.bit, dif_pos (by omega)]
    congr 2
    ext; simp; omega
  rw [e]
  by_cases h : q < n / 2 ∨ n ≤ q + n / 2
  · rw [if_pos h]
  · rw [if_neg h]; congr 1; omega

theorem reversal_fits {k : ℕ} (hk : k ≤ n / 2) : ∀ l ∈ reversal n k, l.Fits n := by
  intro l hl
  obtain ⟨i, hi, rfl⟩ := List.mem_map.1 hl
  have := List.mem_range.1 hi
  refine ⟨?_, ?_⟩
  all_goals simp only [Logic.placed, List.nil_append]
  · simp; omega
  · simp; omega

/-! ## The quantum Fourier transform -/

/-- The controlled phases on qubit `j` from the next `m` qubits. -/
noncomputable def qftPhases (j m : ℕ) : List Placed :=
  (List.range m).map fun d => ⟨.PHASE (Real.pi / 2 ^ (d + 1)), [j], [j + 1 + d]⟩

theorem qftPhases_succ (j m : ℕ) : qftPhases j (m + 1) = qftPhases j m ++ [⟨.PHASE (Real.pi / 2 ^ (m + 1)), [j], [j + 1 + m]⟩] := by
  simp [qftPhases, List.range_succ]

theorem act1_PHASE (θ : ℝ) (f : Fin 2 → ℂ) (i : Fin 2) :
    act1 (StdGate.PHASE θ).mat f i = if i = 1 then Complex.exp (Complex.I * θ) * f i else f i := by
  rcases Fin.exists_fin_two.1 ⟨i, rfl⟩ with e | e <;> rw [e] <;> simp [act1, StdGate.mat, matE]

theorem qftPhases_prodKet (b : Lab n) {j : ℕ} (hj : j < n) {m : ℕ} (hm : j + m < n) (φ : Fin n → Fin 2 → ℂ)
    (hφ : ∀ q : Fin n, j < q.val → φ q = fun i => if i = b q then 1 else 0) :
    (placedMat n (qftPhases j m)).mulVec (prodKet φ) = prodKet (Function.update φ ⟨j, hj⟩ fun i => if i = 1 then
      Complex.exp (Complex.I * Real.pi * ∑ d ∈ Finset.range m, (b.bit (j + 1 + d) : ℂ) / 2 ^ (d + 1)) * φ ⟨j, hj⟩ i else φ ⟨j, hj⟩ i) := by
  induction m with
  | zero => simp [qftPhases, placedMat]
  | succ m ih =>
    rw [qftPhases_succ, placedMat_mulVec_append, ih (by omega), placedMat_mulVec_cons, placedMat, Matrix.one_mulVec, Placed.mat]
    have hc : j + 1 + m < n := by omega
    have hne : (⟨j, hj⟩ : Fin n) ≠ ⟨j + 1 + m, hc⟩ := fun e => by have := congrArg Fin.val e; simp only at this; omega
    have h := mulVec_prodKet_ctl (StdGate.PHASE (Real.pi / 2 ^ (m + 1))).mat hne (Function.update φ ⟨j, hj⟩ fun i => if i = 1 then
      Complex.exp (Complex.I * Real.pi * ∑ d ∈ Finset.range m, (b.bit (j + 1 + d) : ℂ) / 2 ^ (d + 1)) * φ ⟨j, hj⟩ i else φ ⟨j, hj⟩ i)
      (b ⟨j + 1 + m, hc⟩) (by rw [Function.update_of_ne hne.symm]; exact hφ _ (by simp; omega))
    simp only at h ⊢
    have hb : b.bit (j + 1 + m) = (b ⟨j + 1 + m, hc⟩).val := by rw [Lab.bit, dif_pos hc]
    rw [h, Function.update_self, Function.update_idem, Finset.sum_range_succ, hb, mul_add, Complex.exp_add]
    rcases Fin.exists_fin_two.1 ⟨b ⟨j + 1 + m, hc⟩, rfl⟩ with e | e
    · rw [e]; simp
    · rw [e, if_pos rfl]
      congr 1
      congr 1
      funext i
      rw [act1_PHASE]
      split
      · rw [← mul_assoc]
        congr 1
        rw [mul_comm]
        congr 1
        congr 1
        push_cast
        simp
        ring
      · rfl

theorem Lab.value_eq_sum (b : Lab n) : b.value = ∑ q ∈ Finset.range n, b.bit q * 2 ^ (n - 1 - q) := by
  rw [Lab.value, Finset.sum_range]
  exact Finset.sum_congr rfl fun q _ => by rw [Lab.bit_fin]

/-- The binary fraction that the phases on qubit `j` add up to. -/
theorem value_split (b : Lab n) {j : ℕ} (hj : j < n) : ∃ K : ℕ, (b.value : ℂ) / 2 ^ (n - j)
    = K + (b.bit j : ℂ) / 2 + (∑ d ∈ Finset.range (n - 1 - j), (b.bit (j + 1 + d) : ℂ) / 2 ^ (d + 1)) / 2 := by
  refine ⟨∑ q ∈ Finset.range j, b.bit q * 2 ^ (j - 1 - q), ?_⟩
  have h2 : ∀ k : ℕ, (2 : ℂ) ^ k ≠ 0 := fun k => pow_ne_zero _ two_ne_zero
  rw [Lab.value_eq_sum]
  have hn : n = j + 1 + (n - 1 - j) := by omega
  rw [div_eq_iff (h2 _)]
  have hs : ∑ q ∈ Finset.range n, b.bit q * 2 ^ (n - 1 - q) = ∑ q ∈ Finset.range (j + 1 + (n - 1 - j)), b.bit q * 2 ^ (n - 1 - q) := by
    rw [← hn]
  rw [hs, Finset.sum_range_add, Finset.sum_range_succ]
  push_cast
  rw [add_mul, add_mul, Finset.sum_mul, div_mul_eq_mul_div, div_mul_eq_mul_div, Finset.sum_mul, Finset.sum_div]
  congr 1
  · congr 1
    · refine Finset.sum_congr rfl fun q hq => ?_
      have := Finset.mem_range.1 hq
      rw [mul_assoc, ← pow_add]
      congr 2; omega
    · rw [eq_div_iff two_ne_zero, mul_assoc, ← pow_succ]
      congr 2; omega
  · refine Finset.sum_congr rfl fun d hd => ?_
    have := Finset.mem_range.1 hd
    rw [eq_div_iff two_ne_zero, div_mul_eq_mul_div, eq_div_iff (h2 _), mul_assoc, mul_assoc, ← pow_succ', ← pow_add]
    congr 2; omega

/-- The amplitudes of qubit `q` after its block. -/
noncomputable def qftQubit (b : Lab n) (q : ℕ) (i : Fin 2) : ℂ :=
  1 / (√2 : ℝ) * (if i = 1 then Complex.exp (2 * Real.pi * Complex.I * (b.value / 2 ^ (n - q))) else 1)

theorem qftBlocks_prodKet (b : Lab n) {k : ℕ} (hk : k ≤ n) :
    (placedMat n ((List.range k).flatMap fun j => ⟨.H, [j], []⟩ :: qftPhases j (n - 1 - j))).mulVec
      (prodKet fun q i => if i = b q then 1 else 0)
    = prodKet fun q => if q.val < k then qftQubit b q.val else fun i => if i = b q then 1 else 0 := by
  induction k with
  | zero => simp [placedMat]
  | succ k ih =>
    rw [List.range_succ, List.flatMap_append, placedMat_mulVec_append, ih (by omega)]
    have hkn : k < n := by omega
    simp only [List.flatMap_cons, List.flatMap_nil, List.append_nil]
    rw [placedMat_mulVec_cons, Placed.mat]
    have h := mulVec_prodKet StdGate.H.mat (⟨k, hkn⟩ : Fin n)
      fun q => if q.val < k then qftQubit b q.val else fun i => if i = b q then 1 else 0
    simp only at h ⊢
    rw [h, if_neg (lt_irrefl k), qftPhases_prodKet b hkn (by omega), Function.update_self, Function.update_idem]
    · congr 1
      funext q
      by_cases hq : q = ⟨k, hkn⟩
      · subst hq
        rw [Function.update_self, if_pos (by simp)]
        funext i
        rw [act1_H_basis, qftQubit]
        rcases Fin.exists_fin_two.1 ⟨i, rfl⟩ with e | e
        · rw [e]; simp
        · rw [e, if_pos rfl, if_pos rfl, mul_left_comm]
          congr 1
          obtain ⟨K, hK⟩ := value_split b hkn
          have hb : b.bit k = (b ⟨k, hkn⟩).val := by rw [Lab.bit, dif_pos hkn]
          rw [hK, hb]
          have e1 : ((-1 : ℂ)) ^ ((1 : Fin 2).val * (b ⟨k, hkn⟩).val) = Complex.exp (Complex.I * Real.pi * (b ⟨k, hkn⟩).val) := by
            rw [show ((1 : Fin 2).val * (b ⟨k, hkn⟩).val) = (b ⟨k, hkn⟩).val by simp, mul_comm, Complex.exp_nat_mul, mul_comm Complex.I,
              Complex.exp_pi_mul_I]
          have e2 : Complex.exp (K * (2 * Real.pi * Complex.I)) = 1 := by
            rw [Complex.exp_nat_mul, Complex.exp_two_pi_mul_I, one_pow]
          rw [e1, ← Complex.exp_add, ← mul_one (Complex.exp _), ← e2, ← Complex.exp_add]
          congr 1
          ring
      · rw [Function.update_of_ne hq]
        have : q.val ≠ k := fun e => hq (Fin.ext e)
        exact if_congr (by omega) rfl rfl
    · intro q hq
      rw [Function.update_of_ne (fun e => by simp [e] at hq), if_neg (by omega)]

/-- The quantum Fourier transform of a state. -/
theorem qft_mulVec (v : Lab n → ℂ) (x : Lab n) : (placedMat n (qftCircuit n)).mulVec v x
    = ∑ y : Lab n, (1 / (√2 : ℝ)) ^ n * Complex.exp (2 * Real.pi * Complex.I * (x.value * y.value / 2 ^ n)) * v y := by
  refine mulVec_of_basis _ (fun x y => (1 / (√2 : ℝ)) ^ n * Complex.exp (2 * Real.pi * Complex.I * (x.value * y.value / 2 ^ n)))
    (fun b x => ?_) v x
  have hrev : (List.range (n / 2)).map (fun i => (⟨.SWAP, [i, n - 1 - i], []⟩ : Placed)) = (reversal n (n / 2)).map Logic.placed := by
    simp [reversal, Logic.placed]
  rw [qftCircuit, placedMat_mulVec_append]
  have hb := qftBlocks_prodKet b le_rfl
  simp only [qftPhases] at hb
  rw [hb, hrev]
  have hl := logic_mulVec (reversal_fits (n := n) le_rfl) (prodKet fun q => if q.val < n then qftQubit b q.val else fun i => if i = b q then 1 else 0)
    fun q => x q.rev
  rw [reversal_eq] at hl
  simp only [Fin.rev_rev] at hl
  rw [hl]
  simp only [prodKet, Fin.is_lt, if_true, qftQubit]
  rw [Finset.prod_mul_distrib, Finset.prod_const, Finset.card_univ, Fintype.card_fin]
  congr 1
  rw [← Equiv.prod_comp (Fin.revPerm (n := n))]
  simp only [Fin.revPerm_apply, Fin.rev_rev]
  have hq : ∀ q : Fin n, (if x q = 1 then Complex.exp (2 * Real.pi * Complex.I * (b.value / 2 ^ (n - q.rev.val))) else 1 : ℂ)
      = Complex.exp (2 * Real.pi * Complex.I * ((x q).val * 2 ^ (n - 1 - q.val) * b.value / 2 ^ n)) := by
    intro q
    rcases Fin.exists_fin_two.1 ⟨x q, rfl⟩ with e | e
    · rw [e]; simp
    · rw [e, if_pos rfl]
      congr 2
      rw [div_eq_div_iff (pow_ne_zero _ two_ne_zero) (pow_ne_zero _ two_ne_zero)]
      have : (2 : ℂ) ^ n = 2 ^ (n - 1 - q.val) * 2 ^ (n - q.rev.val) := by
        rw [← pow_add]; congr 1; simp [Fin.val_rev]; omega
      rw [this]
      simp
      ring
  simp only [hq]
  rw [← Complex.exp_sum]
  congr 1
  rw [← Finset.mul_sum, ← Finset.sum_div, ← Finset.sum_mul]
  congr 3
  rw [Lab.value]
  push_cast
  rfl

/-! ## Grover's search -/

theorem nots_run {L : List (Fin n)} (hL : L.Nodup) (x : Lab n) :
    logicRun (L.map fun q => Logic.not q.val []) x = fun q => if q ∈ L then 1 - x q else x q := by
  induction L generalizing x with
  | nil => simp [logicRun]
  | cons a L ih =>
    rw [List.map_cons, logicRun, List.foldl_cons, ← logicRun, ih (List.nodup_cons.1 hL).2]
    have ha := (List.nodup_cons.1 hL).1
    funext q
    simp only [Logic.act, List.not_mem_nil, false_imp_iff, implies_true, if_true, List.mem_cons, Fin.val_inj]
    by_cases hq : q = a
    · subst hq; simp [ha]
    · simp [hq]

theorem nots_mulVec (w : Lab n) (v : Lab n → ℂ) (x : Lab n) :
    (placedMat n (((List.finRange n).filter fun q => w q = 0).map fun q => ⟨.X, [q.val], []⟩)).mulVec v x
      = v fun q => if w q = 0 then 1 - x q else x q := by
  have h := logic_mulVec (n := n) (ls := ((List.finRange n).filter fun q => w q = 0).map fun q => Logic.not q.val []) (by
    intro l hl
    obtain ⟨q, -, rfl⟩ := List.mem_map.1 hl
    exact ⟨by simp [Logic.placed], by simp [Logic.placed]⟩) v fun q => if w q = 0 then 1 - x q else x q
  rw [nots_run ((List.nodup_finRange n).filter _)] at h
  rw [← h, List.map_map]
  have e : (fun q => if q ∈ (List.finRange n).filter (fun q => decide (w q = 0)) then 1 - (if w q = 0 then 1 - x q else x q)
      else if w q = 0 then 1 - x q else x q) = x := by
    funext q
    by_cases hq : w q = 0
    · simp [hq]
    · simp [hq]
  rw [e]
  rfl

theorem ctlZ_mulVec (hn : 1 ≤ n) (v : Lab n → ℂ) (x : Lab n) :
    ((⟨.Z, [n - 1], List.range (n - 1)⟩ : Placed).mat n).mulVec v x = if x = 1 then -v x else v x := by
  have hl : n - 1 < n := by omega
  have h := mulVec_single StdGate.Z.mat (⟨n - 1, hl⟩ : Fin n) (List.range (n - 1)) v x
  rw [Placed.mat]
  simp only at h ⊢
  rw [h]
  have hone : x = 1 ↔ (∀ c ∈ List.range (n - 1), x.bit c = 1) ∧ x ⟨n - 1, hl⟩ = 1 := by
    constructor
    · rintro rfl
      refine ⟨fun c hc => ?_, rfl⟩
      have := List.mem_range.1 hc
      rw [Lab.bit, dif_pos (by omega)]; rfl
    · rintro ⟨h1, h2⟩
      refine Lab.ext_bit fun q hq => ?_
      have e : Lab.bit (1 : Lab n) q = 1 := by rw [Lab.bit, dif_pos hq]; rfl
      rw [e]
      by_cases hq' : q < n - 1
      · exact h1 q (List.mem_range.2 hq')
      · have : q = n - 1 := by omega
        subst this
        rw [Lab.bit, dif_pos hq, h2]; rfl
  by_cases hc : ∀ c ∈ List.range (n - 1), x.bit c = 1
  · rw [if_pos hc]
    rcases Fin.exists_fin_two.1 ⟨x ⟨n - 1, hl⟩, rfl⟩ with e | e
    · rw [if_neg (fun h => by rw [(hone.1 h).2] at e; exact absurd e (by decide)), e]
      have : Function.update x ⟨n - 1, hl⟩ 0 = x := by rw [← e, Function.update_eq_self]
      simp [StdGate.mat, matE, this]
    · rw [if_pos (hone.2 ⟨hc, e⟩), e]
      have : Function.update x ⟨n - 1, hl⟩ 1 = x := by rw [← e, Function.update_eq_self]
      simp [StdGate.mat, matE, this]
  · rw [if_neg hc, if_neg fun h => hc (hone.1 h).1]

theorem signFlip_mulVec (hn : 1 ≤ n) (w : Lab n) (v : Lab n → ℂ) (x : Lab n) :
    (placedMat n (signFlip w)).mulVec v x = if x = w then -v x else v x := by
  rw [signFlip, placedMat_mulVec_append, placedMat_mulVec_append, nots_mulVec, placedMat_mulVec_cons, placedMat, Matrix.one_mulVec,
    ctlZ_mulVec hn, nots_mulVec]
  have e : (fun q => if w q = 0 then 1 - (if w q = 0 then 1 - x q else x q) else if w q = 0 then 1 - x q else x q) = x := by
    funext q
    by_cases hq : w q = 0
    · simp [hq]
    · simp [hq]
  simp only [e]
  refine if_congr ?_ rfl rfl
  constructor
  · intro h
    funext q
    have := congrFun h q
    rcases Fin.exists_fin_two.1 ⟨w q, rfl⟩ with e | e
    · rw [e]
      simp only [e, if_true, Pi.one_apply] at this
      generalize x q = y at this
      revert y; decide
    · rw [e]
      simpa [e] using this
  · rintro rfl
    funext q
    rcases Fin.exists_fin_two.1 ⟨x q, rfl⟩ with e | e <;> simp [e]

/-- The reflection about the uniform state, up to a sign. -/
theorem diffusion_mulVec (hn : 1 ≤ n) (v : Lab n → ℂ) (x : Lab n) :
    (placedMat n (hadamards n ++ signFlip (0 : Lab n) ++ hadamards n)).mulVec v x = v x - 2 / 2 ^ n * ∑ y, v y := by
  rw [placedMat_mulVec_append, placedMat_mulVec_append]
  set u := (placedMat n (hadamards n)).mulVec v with hu
  have hs : (placedMat n (signFlip (0 : Lab n))).mulVec u = u - (2 * u 0) • fun z : Lab n => if z = 0 then (1 : ℂ) else 0 := by
    funext z
    rw [signFlip_mulVec hn]
    by_cases hz : z = 0
    · subst hz; simp; ring
    · simp [hz]
  rw [hs, Matrix.mulVec_sub, Matrix.mulVec_smul, hu, hadamards_twice, ← hu]
  have h0 : ∀ z : Lab n, Lab.dot 0 z = 0 ∧ Lab.dot z 0 = 0 := fun z => by simp [Lab.dot]
  have hpow : (1 / ((√2 : ℝ) : ℂ)) ^ n * (1 / ((√2 : ℝ) : ℂ)) ^ n = 1 / 2 ^ n := by
    rw [← mul_pow, div_mul_div_comm, sqrt2_sq, one_mul, div_pow, one_pow]
  simp only [Pi.sub_apply, Pi.smul_apply, smul_eq_mul, mulVec_basis]
  have hM : placedMat n (hadamards n) x 0 = (1 / ((√2 : ℝ) : ℂ)) ^ n := by
    have := hadamards_mulVec (fun z : Lab n => if z = 0 then (1 : ℂ) else 0) x
    rw [mulVec_basis] at this
    rw [this]
    simp [h0]
  have hu0 : u 0 = (1 / ((√2 : ℝ) : ℂ)) ^ n * ∑ y, v y := by
    rw [hu, hadamards_mulVec]
    simp [h0, Finset.mul_sum]
  rw [hM, hu0]
  linear_combination -2 * (∑ y, v y) * hpow

/-- The two amplitudes of Grover's search. -/
theorem grover_mulVec (hn : 1 ≤ n) (w : Lab n) (k : ℕ) {θ : ℝ} (hθ : Real.sin θ * √(2 ^ n) = 1) (hc : Real.cos θ * √(2 ^ n) = √(2 ^ n - 1))
    (x : Lab n) :
    (placedMat n (groverCircuit w k)).mulVec (fun z => if z = 0 then 1 else 0) x
      = (-1) ^ k * if x = w then (Real.sin ((2 * k + 1) * θ) : ℂ) else (Real.cos ((2 * k + 1) * θ) / √(2 ^ n - 1) : ℝ) := by
  have hN : (2 : ℝ) ≤ 2 ^ n := by
    calc (2 : ℝ) = 2 ^ 1 := by norm_num
      _ ≤ 2 ^ n := pow_le_pow_right₀ (by norm_num) hn
  have hS : √((2 : ℝ) ^ n) * √(2 ^ n) = 2 ^ n := Real.mul_self_sqrt (by positivity)
  have hR : √((2 : ℝ) ^ n - 1) * √(2 ^ n - 1) = 2 ^ n - 1 := Real.mul_self_sqrt (by linarith)
  have hS0 : √((2 : ℝ) ^ n) ≠ 0 := by positivity
  have hR0 : √((2 : ℝ) ^ n - 1) ≠ 0 := (Real.sqrt_pos.2 (by linarith)).ne'
  induction k generalizing x with
  | zero =>
    have h1 : groverCircuit w 0 = hadamards n := by simp [groverCircuit]
    rw [h1, hadamards_mulVec]
    have h0 : Lab.dot x 0 = 0 := by simp [Lab.dot]
    have hp : (1 / (√2 : ℝ)) ^ n = Real.sin θ := by
      have h2 : √((2 : ℝ) ^ n) = √2 ^ n := by
        rw [Real.sqrt_eq_iff_mul_self_eq (by positivity) (by positivity), ← mul_pow, Real.mul_self_sqrt (by norm_num)]
      rw [← mul_left_inj' hS0, hθ, div_pow, one_pow, ← h2, div_mul_cancel₀ _ hS0]
    have hq : Real.cos θ / √(2 ^ n - 1) = Real.sin θ := by
      rw [div_eq_iff hR0, ← mul_left_inj' hS0, hc, mul_right_comm, hθ, one_mul]
    simp only [mul_ite, mul_one, mul_zero, Finset.sum_ite_eq', Finset.mem_univ, if_true, h0, pow_zero, one_mul, Nat.cast_zero, zero_add, hq]
    rw [ite_self, ← hp]
    push_cast
    rfl
  | succ k ih =>
    have h1 : groverCircuit w (k + 1) = groverCircuit w k ++ (signFlip w ++ (hadamards n ++ signFlip (0 : Lab n) ++ hadamards n)) := by
      simp [groverCircuit, List.replicate_succ', groverStep]
    rw [h1, placedMat_mulVec_append, placedMat_mulVec_append, diffusion_mulVec hn]
    set v := (placedMat n (groverCircuit w k)).mulVec (fun z => if z = 0 then 1 else 0)
    have hf : ∀ y, (placedMat n (signFlip w)).mulVec v y = (-1) ^ k * if y = w then (-Real.sin ((2 * k + 1) * θ) : ℂ)
        else (Real.cos ((2 * k + 1) * θ) / √(2 ^ n - 1) : ℝ) := fun y => by
      rw [signFlip_mulVec hn, ih]
      split <;> ring
    have hsum : ∑ y, (placedMat n (signFlip w)).mulVec v y = (-1) ^ k * (((2 ^ n - 1) * (Real.cos ((2 * k + 1) * θ) / √(2 ^ n - 1))
        - Real.sin ((2 * k + 1) * θ) : ℝ) : ℂ) := by
      simp only [hf]
      rw [← Finset.mul_sum, Finset.sum_ite, Finset.sum_const, Finset.sum_const]
      have c1 : (Finset.univ.filter fun y : Lab n => y = w).card = 1 := by simp [Finset.filter_eq']
      have c2 : (Finset.univ.filter fun y : Lab n => ¬ y = w).card = 2 ^ n - 1 := by
        rw [Finset.filter_not, Finset.card_sdiff_of_subset (Finset.filter_subset _ _), c1, Finset.card_univ]
        simp
      rw [c1, c2]
      have : ((2 ^ n - 1 : ℕ) : ℂ) = 2 ^ n - 1 := by
        rw [Nat.cast_sub Nat.one_le_two_pow]; push_cast; rfl
      simp only [nsmul_eq_mul, this]
      push_cast
      ring
    rw [hsum, hf]
    have hang : (2 * ((k + 1 : ℕ) : ℝ) + 1) * θ = (2 * k + 1) * θ + 2 * θ := by push_cast; ring
    rw [hang, Real.sin_add, Real.cos_add, Real.sin_two_mul, Real.cos_two_mul]
    generalize Real.sin ((2 * k + 1) * θ) = A
    generalize Real.cos ((2 * k + 1) * θ) = B
    have hs : Real.sin θ = 1 / √(2 ^ n) := by rw [eq_div_iff hS0, hθ]
    have hco : Real.cos θ = √(2 ^ n - 1) / √(2 ^ n) := by rw [eq_div_iff hS0, hc]
    rw [hs, hco]
    have e1 : 2 * (1 / √((2 : ℝ) ^ n)) * (√(2 ^ n - 1) / √(2 ^ n)) = 2 * √(2 ^ n - 1) / 2 ^ n := by
      rw [mul_assoc, div_mul_div_comm, hS]; ring
    have e2 : 2 * (√((2 : ℝ) ^ n - 1) / √(2 ^ n)) ^ 2 - 1 = 1 - 2 / 2 ^ n := by
      rw [div_pow, pow_two, pow_two, hS, hR]; field_simp; ring
    rw [e1, e2]
    set R := √((2 : ℝ) ^ n - 1) with hRdef
    set N := (2 : ℝ) ^ n with hNdef
    have hN0 : N ≠ 0 := by positivity
    have hNC : (2 : ℂ) ^ n = (N : ℂ) := by rw [hNdef]; push_cast; rfl
    rw [hNC, pow_succ]
    by_cases hx : x = w
    · simp only [hx, if_true]
      have key : -A - 2 / N * ((N - 1) * (B / R) - A) = -(A * (1 - 2 / N) + B * (2 * R / N)) := by
        field_simp
        linear_combination (2 * B) * hR
      have := congrArg (fun r : ℝ => (-1 : ℂ) ^ k * (r : ℂ)) key
      push_cast at this ⊢
      linear_combination this
    · simp only [hx, if_false]
      have key : B / R - 2 / N * ((N - 1) * (B / R) - A) = -((B * (1 - 2 / N) - A * (2 * R / N)) / R) := by
        field_simp
        ring
      have := congrArg (fun r : ℝ => (-1 : ℂ) ^ k * (r : ℂ)) key
      push_cast at this ⊢
      linear_combination this

end Verif
