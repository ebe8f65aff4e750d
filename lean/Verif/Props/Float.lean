import Verif.Lemmas.Float
import Verif.Props.Rounding

/-!
# C103: rounding errors of runs in floating-point arithmetic

The accuracy that the theorems of `Verif/Props/Rounding.lean` ask of matrix products and applications follows from the
accuracy of additions and multiplications of single numbers, in whatever order a contraction adds up its terms.
-/

set_option autoImplicit false

namespace Verif
open NDArray
open scoped Matrix.Norms.L2Operator
variable {n : ℕ} {values : Values} {gs : List Gate} {F : Flops} {u δ τ : ℝ} {op : Gate → Py (NDArray ℂ)}

/-- **C103** (from numbers to arrays): if additions are accurate up to the fraction `u`, multiplications up to the fraction
`δ`, entries of gate matrices up to `τ`, and no gate acts on more than `m` qubits (targets and controls), then the
matrix operations are accurate up to `2^m · max(τ, (1 + δ)(1 + u)^(2^m - 1) - 1)`.  The size of the register does not enter. -/
theorem C103_flops (hu : 0 ≤ u) (hδ : 0 ≤ δ) (hτ : 0 ≤ τ) (hF : F.Accurate u δ) (hop : OpsWithin τ values gs op) {m : ℕ}
    (hm : ∀ g ∈ gs, g.target.length + (ctlInts g.control).length ≤ m) :
    (F.arith op).Accurate n (2 ^ m * max τ (dotError u δ (2 ^ m))) values gs := by
  have hγ := dotError_nonneg hu hδ (2 ^ m)
  have hmax : 0 ≤ max τ (dotError u δ (2 ^ m)) := hτ.trans (le_max_left _ _)
  refine ⟨fun g hg U h1 h2 => ?_, fun g hg a b ha hb => ?_, fun g hg st U hst ho => ?_⟩
  · obtain ⟨r, e1, e2, e3⟩ := hop g hg U h1 h2
    refine ⟨r, e1, e2, (within_norm hτ e3).trans ?_⟩
    push_cast
    refine mul_le_mul (pow_le_pow_right₀ one_le_two (by have := hm g hg; omega)) (le_max_left _ _) hτ (by positivity)
  · obtain ⟨r, e1, e2, e3⟩ := matmul_norm hu hδ hF ha hb
    refine ⟨r, e1, e2, e3.trans (mul_le_mul_of_nonneg_right ?_ (by positivity))⟩
    rw [mul_comm]
    refine mul_le_mul (pow_le_pow_right₀ one_le_two (by have := hm g hg; omega)) ?_ (dotError_nonneg hu hδ _) (by positivity)
    exact (dotError_mono hu hδ (Nat.pow_le_pow_right two_pos (by have := hm g hg; omega))).trans (le_max_right _ _)
  · obtain ⟨r, e1, e2, e3⟩ := app_norm hu hδ hF hst ho
    refine ⟨r, e1, e2, e3.trans (mul_le_mul_of_nonneg_right ?_ (mul_nonneg (norm_nonneg _) (ketNorm_nonneg _)))⟩
    rw [mul_comm]
    refine mul_le_mul ?_ ?_ (dotError_nonneg hu hδ _) (by positivity)
    · refine (Real.sqrt_le_sqrt (pow_le_pow_right₀ one_le_two (show g.target.length ≤ 2 * m by have := hm g hg; omega))).trans ?_
      rw [mul_comm 2 m, pow_mul, Real.sqrt_sq (by positivity)]
    · exact (dotError_mono hu hδ (Nat.pow_le_pow_right two_pos (by have := hm g hg; simp only; omega))).trans (le_max_right _ _)

/-- **C103** (from real to complex numbers): complex operations built from real operations that are accurate up to the fraction `u`
are accurate up to the fraction `u` (sums) and `√2 (2u + u²)` (products). -/
theorem C103_complex {rnd : ℝ → ℝ} (hu : 0 ≤ u) (hr : RoundsTo rnd u) (ha : F.add = addC rnd) (hm : F.mul = mulC rnd) :
    F.Accurate u (Real.sqrt 2 * (2 * u + u ^ 2)) := by
  constructor
  · intro x y
    rw [ha]
    have h1 := hr (x.re + y.re)
    have h2 := hr (x.im + y.im)
    have hre : (addC rnd x y - (x + y)).re = rnd (x.re + y.re) - (x.re + y.re) := by simp [addC]
    have him : (addC rnd x y - (x + y)).im = rnd (x.im + y.im) - (x.im + y.im) := by simp [addC]
    rw [Complex.norm_eq_sqrt_sq_add_sq, Complex.norm_eq_sqrt_sq_add_sq, hre, him, ← Real.sqrt_sq hu,
      ← Real.sqrt_mul (by positivity), Complex.add_re, Complex.add_im]
    refine Real.sqrt_le_sqrt ?_
    have s1 := pow_le_pow_left₀ (abs_nonneg _) h1 2
    have s2 := pow_le_pow_left₀ (abs_nonneg _) h2 2
    rw [mul_pow, sq_abs, sq_abs] at s1 s2
    rw [mul_add]
    exact add_le_add s1 s2
  · intro x y
    rw [hm]
    have key : ∀ p q s : ℝ, (s = 1 ∨ s = -1) → |rnd (rnd p + s * rnd q) - (p + s * q)| ≤ (2 * u + u ^ 2) * (|p| + |q|) := by
      intro p q s hs
      have hp := hr p
      have hq := hr q
      have hs1 : |s| = 1 := by rcases hs with rfl | rfl <;> simp
      have hpq := hr (rnd p + s * rnd q)
      have bp : |rnd p| ≤ (1 + u) * |p| := by
        calc |rnd p| = |(rnd p - p) + p| := by rw [sub_add_cancel]
          _ ≤ |rnd p - p| + |p| := abs_add_le _ _
          _ ≤ _ := by linarith
      have bq : |rnd q| ≤ (1 + u) * |q| := by
        calc |rnd q| = |(rnd q - q) + q| := by rw [sub_add_cancel]
          _ ≤ |rnd q - q| + |q| := abs_add_le _ _
          _ ≤ _ := by linarith
      have b3 : |rnd p + s * rnd q| ≤ (1 + u) * (|p| + |q|) := by
        refine (abs_add_le _ _).trans ?_
        rw [abs_mul, hs1, one_mul]; linarith
      have b4 : |(rnd p - p) + s * (rnd q - q)| ≤ u * (|p| + |q|) := by
        refine (abs_add_le _ _).trans ?_
        rw [abs_mul, hs1, one_mul]; linarith
      calc |rnd (rnd p + s * rnd q) - (p + s * q)|
          = |(rnd (rnd p + s * rnd q) - (rnd p + s * rnd q)) + ((rnd p - p) + s * (rnd q - q))| := by congr 1; ring
        _ ≤ u * ((1 + u) * (|p| + |q|)) + u * (|p| + |q|) :=
            (abs_add_le _ _).trans (add_le_add (hpq.trans (mul_le_mul_of_nonneg_left b3 hu)) b4)
        _ = _ := by ring
    have h1 := key (x.re * y.re) (x.im * y.im) (-1) (.inr rfl)
    have h2 := key (x.re * y.im) (x.im * y.re) 1 (.inl rfl)
    have hre : (mulC rnd x y - x * y).re
        = rnd (rnd (x.re * y.re) + -1 * rnd (x.im * y.im)) - (x.re * y.re + -1 * (x.im * y.im)) := by
      simp [mulC, sub_eq_add_neg]
    have him : (mulC rnd x y - x * y).im
        = rnd (rnd (x.re * y.im) + 1 * rnd (x.im * y.re)) - (x.re * y.im + 1 * (x.im * y.re)) := by
      simp [mulC]
    have hk : 0 ≤ 2 * u + u ^ 2 := by positivity
    rw [Complex.norm_eq_sqrt_sq_add_sq, hre, him]
    refine Real.sqrt_le_iff.2 ⟨by positivity, ?_⟩
    have s1 := pow_le_pow_left₀ (abs_nonneg _) h1 2
    have s2 := pow_le_pow_left₀ (abs_nonneg _) h2 2
    rw [sq_abs] at s1 s2
    refine (add_le_add s1 s2).trans ?_
    have hn : ‖x * y‖ ^ 2 = (x.re ^ 2 + x.im ^ 2) * (y.re ^ 2 + y.im ^ 2) := by
      rw [norm_mul, mul_pow, Complex.sq_norm, Complex.sq_norm, Complex.normSq_apply, Complex.normSq_apply]; ring
    rw [mul_pow _ ‖x * y‖, mul_pow (Real.sqrt 2), Real.sq_sqrt (by norm_num), hn, mul_pow, mul_pow, ← mul_add]
    have hin : (|x.re * y.re| + |x.im * y.im|) ^ 2 + (|x.re * y.im| + |x.im * y.re|) ^ 2
        ≤ 2 * ((x.re ^ 2 + x.im ^ 2) * (y.re ^ 2 + y.im ^ 2)) := by
      have t : ∀ p q : ℝ, (|p| + |q|) ^ 2 ≤ 2 * (p ^ 2 + q ^ 2) := fun p q => by
        nlinarith [sq_nonneg (|p| - |q|), sq_abs p, sq_abs q]
      have := add_le_add (t (x.re * y.re) (x.im * y.im)) (t (x.re * y.im) (x.im * y.re))
      refine this.trans (le_of_eq (by ring))
    calc _ ≤ (2 * u + u ^ 2) ^ 2 * (2 * ((x.re ^ 2 + x.im ^ 2) * (y.re ^ 2 + y.im ^ 2))) := by gcongr
      _ = _ := by ring

/-- **C103** (rounding to `p` bits): rounding to the nearest number with `p` significant bits changes a number by at most the fraction
`2^(-p)`. -/
theorem C103_bits (p : ℕ) : RoundsTo (roundBits p) ((2 : ℝ) ^ (-(p : ℤ))) := by
  intro x
  rcases eq_or_ne x 0 with rfl | hx
  · simp [roundBits]
  have hs : (0 : ℝ) < (2 : ℝ) ^ (Int.log 2 |x| + 1 - p) := by positivity
  have hlog : (2 : ℝ) ^ Int.log 2 |x| ≤ |x| := by
    have := Int.zpow_log_le_self (b := 2) (r := |x|) one_lt_two (abs_pos.2 hx)
    exact_mod_cast this
  rw [roundBits]
  have he : (2 : ℝ) ^ (Int.log 2 |x| + 1 - p) = 2 * ((2 : ℝ) ^ (-(p : ℤ)) * (2 : ℝ) ^ Int.log 2 |x|) := by
    rw [← zpow_add₀ two_ne_zero, ← zpow_one_add₀ two_ne_zero]; congr 1; ring
  generalize (2 : ℝ) ^ (Int.log 2 |x| + 1 - p) = s at hs he ⊢
  calc |(round (x / s) : ℝ) * s - x| = |x / s - round (x / s)| * s := by
        rw [abs_sub_comm, ← abs_of_pos hs, ← abs_mul, abs_of_pos hs, sub_mul, div_mul_cancel₀ _ hs.ne']
    _ ≤ 1 / 2 * s := by gcongr; exact abs_sub_round _
    _ = (2 : ℝ) ^ (-(p : ℤ)) * (2 : ℝ) ^ Int.log 2 |x| := by rw [he]; ring
    _ ≤ _ := by gcongr

/-- The bound of `C103_flops` for gates on at most two qubits. -/
theorem dotError_four (hu : 0 ≤ u) (hs : u ≤ 1 / 256) : dotError u (Real.sqrt 2 * (2 * u + u ^ 2)) 4 ≤ 6 * u := by
  have h2 : Real.sqrt 2 ≤ 1415 / 1000 := Real.sqrt_le_left (by norm_num) |>.2 (by norm_num)
  have h0 := Real.sqrt_nonneg 2
  have hk : Real.sqrt 2 * (2 * u + u ^ 2) ≤ 1415 / 1000 * (2 * u + u ^ 2) := by gcongr
  have hP : (1 + u) ^ 3 ≤ 1 + 303 / 100 * u := by nlinarith [mul_nonneg hu hu, mul_nonneg hu (mul_nonneg hu hu)]
  have hQ : 1 + 1415 / 1000 * (2 * u + u ^ 2) ≤ 1 + 284 / 100 * u := by nlinarith [mul_nonneg hu hu]
  rw [dotError]
  have : (1 + Real.sqrt 2 * (2 * u + u ^ 2)) * (1 + u) ^ 3 ≤ (1 + 284 / 100 * u) * (1 + 303 / 100 * u) :=
    mul_le_mul (by linarith) hP (by positivity) (by positivity)
  change (1 + Real.sqrt 2 * (2 * u + u ^ 2)) * (1 + u) ^ 3 - 1 ≤ 6 * u
  nlinarith [mul_nonneg hu hu]

/-- **C103** (numbers of `p` bits): run a circuit of gates on at most two qubits (targets and controls) with real operations rounded to
`p ≥ 8` significant bits, in any order of summation, from gate matrices whose entries are right up to `6 · 2^(-p)`.  After `k` gates
the state is off by at most `144 k 2^(-p)` of its length, whatever the number of qubits, with and without grouping and merging.
(`p = 24` for `complex64`, `p = 53` for `complex128`.) -/
theorem C103_precision (so : SetOrder) {p : ℕ} (hp : 8 ≤ p) (ha : F.add = addC (roundBits p)) (hm : F.mul = mulC (roundBits p))
    (hop : OpsWithin (6 * (2 : ℝ) ^ (-(p : ℤ))) values gs op) (h : ∀ g ∈ gs, g.UnitaryOn n values)
    (h2 : ∀ g ∈ gs, g.target.length + (ctlInts g.control).length ≤ 2) (hne : gs ≠ []) (hnz : ∀ g ∈ gs, g.noise = none)
    {a : NDArray ℂ} (hket : IsKet n a) (group merge : Bool) (hk : 72 * gs.length * (2 : ℝ) ^ (-(p : ℤ)) ≤ 1) :
    ∃ r e, (F.arith op).run a (.list gs) group merge = .ok r ∧
      applyGates so (.vec a) (.list gs) values .unitary group merge = .ok (.vec e) ∧
      ketNorm (ket n r - ket n e) ≤ 144 * gs.length * (2 : ℝ) ^ (-(p : ℤ)) * ketNorm (ket n a) := by
  have hu : (0 : ℝ) ≤ (2 : ℝ) ^ (-(p : ℤ)) := by positivity
  have hs : (2 : ℝ) ^ (-(p : ℤ)) ≤ 1 / 256 := by
    have : (2 : ℝ) ^ (-(p : ℤ)) ≤ (2 : ℝ) ^ (-(8 : ℤ)) := zpow_le_zpow_right₀ one_le_two (by omega)
    refine this.trans (le_of_eq (by norm_num [zpow_neg]))
  have hF := C103_complex hu (C103_bits p) ha hm
  generalize (2 : ℝ) ^ (-(p : ℤ)) = v at *
  have hA := C103_flops (n := n) hu (by positivity) (by positivity) hF hop h2
  have hε : (2 : ℝ) ^ 2 * max (6 * v) (dotError v (Real.sqrt 2 * (2 * v + v ^ 2)) (2 ^ 2)) = 24 * v := by
    rw [show (2 ^ 2 : ℕ) = 4 from rfl]
    rw [max_eq_left (dotError_four hu hs)]; ring
  rw [hε] at hA
  obtain ⟨r, e, h1, h3, h4⟩ := C103_linear so (by positivity) hA h hne hnz hket group merge (by linarith)
  exact ⟨r, e, h1, h3, h4.trans (le_of_eq (by ring))⟩

/-- Sums from left to right. -/
noncomputable def Flops.leftToRight (add mul : ℂ → ℂ → ℂ) : Flops where
  add := add
  mul := mul
  sum := fun
    | [] => 0
    | x :: l => l.foldl add x
  sums := by
    have h : ∀ (l : List ℂ) (pre : List ℂ) (a : ℂ), pre ≠ [] → SumsTo add pre a → SumsTo add (pre ++ l) (l.foldl add a) := by
      intro l
      induction l with
      | nil => intro pre a _ h; simpa using h
      | cons x l ih =>
        intro pre a hp h
        have := ih (pre ++ [x]) (add a x) (by simp) (.add hp (by simp) (.refl _) h (.one x))
        simpa using this
    intro l
    cases l with
    | nil => exact .nil
    | cons x l => exact h l [x] x (by simp) (.one x)

/-- **C103** (the model is the one of exact runs): with exact operations on numbers the contractions are those of the other model files. -/
theorem C103_exact_flops (hadd : F.add = (· + ·)) (hmul : F.mul = (· * ·)) :
    F.matmul = NDArray.matmul ∧ F.applyOperator = applyOperator := by
  have hsum : F.sum = List.sum := by
    funext l
    have h : ∀ (l : List ℂ) (s : ℂ), SumsTo (· + ·) l s → s = l.sum := by
      intro l s h
      induction h with
      | nil => rfl
      | one => simp
      | add _ _ hp _ _ h1 h2 => rw [hp.sum_eq, List.sum_append, h1, h2]
    exact h l _ (hadd ▸ F.sums l)
  constructor
  · funext a b
    rw [Flops.matmul.eq_def, NDArray.matmul.eq_def, hsum, hmul]
    rfl
  · funext st o t c
    rw [Flops.applyOperator, applyOperator]
    have : F.tensordot = NDArray.tensordot := by
      funext a b A B
      rw [Flops.tensordot, NDArray.tensordot, hsum, hmul]
    rw [this]

/-- Non-vacuity: single precision, sums from left to right, and three gates on three qubits. -/
example : (Flops.leftToRight (addC (roundBits 24)) (mulC (roundBits 24))).add = addC (roundBits 24) ∧
    (Flops.leftToRight (addC (roundBits 24)) (mulC (roundBits 24))).mul = mulC (roundBits 24) ∧
    OpsWithin (6 * (2 : ℝ) ^ (-(24 : ℤ))) [("θ", .num 1)] [Gate.H (.int 0), Gate.X (.int 1) (.int 0), Gate.RX (.str "θ") (.int 2)]
      (fun g => g.operator .unitary [("θ", .num 1)]) ∧
    (∀ g ∈ [Gate.H (.int 0), Gate.X (.int 1) (.int 0), Gate.RX (.str "θ") (.int 2)],
      g.UnitaryOn 3 [("θ", .num 1)] ∧ g.target.length + (ctlInts g.control).length ≤ 2 ∧ g.noise = none) ∧
    72 * ([Gate.H (.int 0), Gate.X (.int 1) (.int 0), Gate.RX (.str "θ") (.int 2)] : List Gate).length * (2 : ℝ) ^ (-(24 : ℤ)) ≤ 1 := by
  refine ⟨rfl, rfl, fun g _ U h1 h2 => ⟨U, h1, h2, fun i j _ _ => ?_⟩, ?_, ?_⟩
  · rw [sub_self, norm_zero]; positivity
  · simp only [List.mem_cons, List.not_mem_nil, or_false, forall_eq_or_imp, forall_eq]
    refine ⟨⟨Gate.Std.unitaryOn (s := .H) ⟨.H _ _ _, rfl, ⟨.inr (.inl rfl), by decide⟩⟩, by decide, rfl⟩,
      ⟨Gate.Std.unitaryOn (s := .X) ⟨.X _ _ _, rfl, ⟨.inr (.inr ⟨[0], rfl⟩), by decide⟩⟩, by decide, rfl⟩,
      ⟨Gate.Std.unitaryOn (s := .RX 1) ⟨.RX _ _ _ (.str rfl) (by norm_num), rfl, ⟨.inr (.inl rfl), by decide⟩⟩, ?_, rfl⟩⟩
    show 1 + 0 ≤ 2
    omega
  · norm_num [zpow_neg]

end Verif
