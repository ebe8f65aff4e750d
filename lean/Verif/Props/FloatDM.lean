import Verif.Props.RoundedNoise
import Verif.Props.Float
import Verif.Lemmas.FloatDM

/-!
# Runs on density matrices with rounded numbers

The accuracy assumed in `C113_entries` follows from the accuracy of additions and multiplications of numbers.
-/

set_option autoImplicit false

namespace Verif
open NDArray
open scoped Matrix.Norms.L2Operator
variable {F : Flops} {u δ τ : ℝ} {n : ℕ} {values : Values} {gs : List Gate} {op : Gate → Py (NDArray ℂ)}
  {kraus : NoiseInstance → Py (List (NDArray ℂ))}

/-- **C113** (from numbers to arrays): let additions be accurate up to the fraction `u`, multiplications up to the fraction `δ`,
entries of gate matrices up to `τ` and entries of Kraus operators up to the fraction `τ`, and let no gate act on more than `m` qubits
(targets and controls).  Then gates have errors of at most `2^m max(τ, (1 + γ)² - 1)` with `γ = (1 + δ)(1 + u)^(2^m - 1) - 1`,
whatever the number of qubits, and noise channels, which the code expands to the whole register, have errors of at most
`8 · noiseError u δ τ n`. -/
theorem C113_flops (so : SetOrder) (hu : 0 ≤ u) (hδ : 0 ≤ δ) (hτ : 0 ≤ τ) (hF : F.Accurate u δ) (hop : OpsWithin τ values gs op)
    (hkr : KrausWithin τ gs kraus) {m : ℕ} (hm : ∀ g ∈ gs, g.target.length + (ctlInts g.control).length ≤ m)
    (ht : ∀ g ∈ gs, g.noise ≠ none → ∀ q ∈ g.target, q < n) :
    (F.arithDM so op kraus).EntryAccurate n
      (max (2 ^ m * max τ ((1 + dotError u δ (2 ^ m)) ^ 2 - 1)) (8 * noiseError u δ τ n)) values gs := by
  have hγ := dotError_nonneg hu hδ (2 ^ m)
  have hγ2 : dotError u δ (2 ^ m) ≤ (1 + dotError u δ (2 ^ m)) ^ 2 - 1 := by nlinarith
  have hmax : 0 ≤ max τ ((1 + dotError u δ (2 ^ m)) ^ 2 - 1) := hτ.trans (le_max_left _ _)
  refine ⟨fun g hg U h1 h2 => ?_, fun g hg a b ha hb => ?_, fun g hg ρ U hρ ho => ?_,
    fun g hg nis hnis ni hni s hs t htt ρ hρ => ?_⟩
  · obtain ⟨r, e1, e2, e3⟩ := hop g hg U h1 h2
    refine ⟨r, e1, e2, (within_norm hτ e3).trans (le_trans ?_ (le_max_left _ _))⟩
    push_cast
    refine mul_le_mul (pow_le_pow_right₀ one_le_two (by have := hm g hg; omega)) (le_max_left _ _) hτ (by positivity)
  · obtain ⟨r, e1, e2, e3⟩ := matmul_norm hu hδ hF ha hb
    refine ⟨r, e1, e2, e3.trans (mul_le_mul_of_nonneg_right (le_trans ?_ (le_max_left _ _)) (by positivity))⟩
    rw [mul_comm]
    refine mul_le_mul (pow_le_pow_right₀ one_le_two (by have := hm g hg; omega)) ?_ (dotError_nonneg hu hδ _) (by positivity)
    exact (dotError_mono hu hδ (Nat.pow_le_pow_right two_pos (by have := hm g hg; omega))).trans (hγ2.trans (le_max_right _ _))
  · obtain ⟨r, e1, e2, e3⟩ := appDM_frob so hu hδ hF hρ ho
    refine ⟨r, e1, e2, e3.trans (mul_le_mul_of_nonneg_right (le_trans ?_ (le_max_left _ _))
      (mul_nonneg (sq_nonneg _) (frob_nonneg _)))⟩
    have hd := dotError_nonneg hu hδ (2 ^ ((ctlInts g.control).length + g.target.length))
    have hle : dotError u δ (2 ^ ((ctlInts g.control).length + g.target.length)) ≤ dotError u δ (2 ^ m) :=
      dotError_mono hu hδ (Nat.pow_le_pow_right two_pos (by have := hm g hg; omega))
    rw [mul_comm]
    refine mul_le_mul (pow_le_pow_right₀ one_le_two (show g.target.length ≤ m by have := hm g hg; omega)) ?_ ?_ (by positivity)
    · exact (sub_le_sub_right (pow_le_pow_left₀ (by linarith) (by linarith) 2) 1).trans (le_max_right _ _)
    · exact sub_nonneg.2 (one_le_pow₀ (by linarith))
  · obtain ⟨r, e1, e2, e3⟩ := noise_frob (n := n) hu hδ hF hτ hs (hkr g hg nis hnis ni hni)
      (ht g hg (by rw [hnis]; exact Option.some_ne_none _) t (by simp [htt])) hρ
    exact ⟨r, e1, e2, e3.trans (mul_le_mul_of_nonneg_right (le_max_right _ _) (frob_nonneg _))⟩

/-- **C113** (the model is the one of exact runs): with exact operations on numbers the contractions and the expansion of Kraus
operators are those of the other model files, and noise is the documented channel. -/
theorem C113_flops_exact (so : SetOrder) (hadd : F.add = (· + ·)) (hmul : F.mul = (· * ·)) :
    F.applyOperatorDM so = applyOperatorDM so ∧ F.expandOperator = expandOperator ∧
      F.applyKrausOperator = applyKrausOperator ∧
      ∀ (ni : NoiseInstance) (s : StdNoise), ni.Is s → ∀ t, t < n → ∀ ρ : DensityMatrix ℂ, IsDM n ρ →
        ∃ r, F.noise NoiseInstance.kraus ρ ni [t] (List.range n) = .ok r ∧ IsDM n r ∧
          dmMat n r.array = s.chan n t (dmMat n ρ.array) := by
  have hsum : F.sum = List.sum := by
    funext l
    have h : ∀ (l : List ℂ) (s : ℂ), SumsTo (· + ·) l s → s = l.sum := by
      intro l s h
      induction h with
      | nil => rfl
      | one => simp
      | add _ _ hp _ _ h1 h2 => rw [hp.sum_eq, List.sum_append, h1, h2]
    exact h l _ (hadd ▸ F.sums l)
  have hten : F.tensordot = NDArray.tensordot := by
    funext a b A B
    rw [Flops.tensordot, NDArray.tensordot, hsum, hmul]
  have hkron : F.kron = NDArray.kron := by
    funext a b
    rw [Flops.kron.eq_def, NDArray.kron.eq_def, hmul]
    rfl
  refine ⟨?_, ?_, ?_, fun ni s hs t ht ρ hρ => ?_⟩
  · funext ρ o t c
    rw [Flops.applyOperatorDM, applyOperatorDM, hten]
  · funext o s f
    rw [Flops.expandOperator, expandOperator, hkron]
  · funext k a t
    rw [Flops.applyKrausOperator, applyKrausOperator, hten]
  · have hF : F.Accurate 0 0 := ⟨fun x y => by simp [hadd], fun x y => by simp [hmul]⟩
    obtain ⟨r, h1, h2, h3⟩ := noise_frob (n := n) le_rfl le_rfl hF le_rfl (kraus := NoiseInstance.kraus) hs
      (fun ks hks hop => ⟨ks, hks, List.forall₂_same.2 fun k hk => ⟨hop k hk, by simp⟩⟩) ht hρ
    refine ⟨r, h1, h2, ?_⟩
    have h0 : noiseError 0 0 0 n = 0 := by simp [noiseError, dotError]
    rw [h0, mul_zero, zero_mul] at h3
    have h4 : frob (dmMat n r.array - s.chan n t (dmMat n ρ.array)) ^ 2 = 0 := by
      rw [le_antisymm h3 (frob_nonneg _)]; simp
    rw [frob_sq] at h4
    funext b c
    have h5 := (Finset.sum_eq_zero_iff_of_nonneg fun i _ => Finset.sum_nonneg fun j _ => sq_nonneg _).1 h4 b (by simp)
    have h6 := (Finset.sum_eq_zero_iff_of_nonneg fun j _ => sq_nonneg _).1 h5 c (by simp)
    exact sub_eq_zero.1 (norm_eq_zero.1 (pow_eq_zero_iff two_ne_zero |>.1 h6))

theorem noiseError_le {v : ℝ} (hv : 0 ≤ v) (hs : v ≤ 1 / 256) (hk : 21 * 2 ^ n * v ≤ 1) :
    noiseError v (Real.sqrt 2 * (2 * v + v ^ 2)) (6 * v) n ≤ 42 * 2 ^ n * v := by
  have h2 : Real.sqrt 2 ≤ 1415 / 1000 := Real.sqrt_le_left (by norm_num) |>.2 (by norm_num)
  have h0 := Real.sqrt_nonneg 2
  have hδ : 1 + Real.sqrt 2 * (2 * v + v ^ 2) ≤ (1 + v) ^ 3 := by
    have : Real.sqrt 2 * (2 * v + v ^ 2) ≤ 1415 / 1000 * (2 * v + v ^ 2) := by gcongr
    nlinarith [mul_nonneg hv hv, mul_nonneg hv (mul_nonneg hv hv)]
  have hτ : 1 + 6 * v ≤ (1 + v) ^ 6 := by
    have := one_add_mul_le_pow (show (-2 : ℝ) ≤ v by linarith) 6
    push_cast at this
    exact this
  have hd0 : 0 ≤ Real.sqrt 2 * (2 * v + v ^ 2) := by positivity
  generalize Real.sqrt 2 * (2 * v + v ^ 2) = d at hδ hd0 ⊢
  have hN : (1 : ℕ) ≤ 2 ^ n := Nat.one_le_two_pow
  have e1 : (1 + 6 * v) * (1 + d) ^ (n - 1) ≤ (1 + v) ^ 6 * ((1 + v) ^ 3) ^ n := by
    refine mul_le_mul hτ ?_ (by positivity) (by positivity)
    exact (pow_le_pow_left₀ (by linarith) hδ _).trans (pow_le_pow_right₀ (one_le_pow₀ (by linarith)) (by omega))
  have e2 : 1 + dotError v d (2 ^ n) ≤ (1 + v) ^ 3 * (1 + v) ^ (2 ^ n - 1) := by
    rw [dotError, add_sub_cancel]
    exact mul_le_mul_of_nonneg_right hδ (by positivity)
  have hd := dotError_nonneg hv hd0 (2 ^ n)
  have hexp : (((1 + v) ^ 6 * ((1 + v) ^ 3) ^ n) ^ 2 * ((1 + v) ^ 3 * (1 + v) ^ (2 ^ n - 1)) ^ 2 * (1 + v) ^ 3)
      ≤ (1 + v) ^ (21 * 2 ^ n) := by
    simp only [← pow_mul, ← pow_add]
    refine pow_le_pow_right₀ (by linarith) ?_
    have : n < 2 ^ n := Nat.lt_two_pow_self
    omega
  have hfin := one_add_pow_le hv (m := 21 * 2 ^ n) (by push_cast; exact hk)
  push_cast at hfin
  have hle : ((1 + 6 * v) * (1 + d) ^ (n - 1)) ^ 2 * (1 + dotError v d (2 ^ n)) ^ 2 * (1 + v) ^ 3
      ≤ ((1 + v) ^ 6 * ((1 + v) ^ 3) ^ n) ^ 2 * ((1 + v) ^ 3 * (1 + v) ^ (2 ^ n - 1)) ^ 2 * (1 + v) ^ 3 := by
    gcongr
  rw [noiseError]
  linarith

/-- Real operations rounded to `p` significant bits are accurate enough for `C113_run`. -/
theorem bits_accurate (so : SetOrder) {p : ℕ} (hp : 8 ≤ p) (ha : F.add = addC (roundBits p)) (hm : F.mul = mulC (roundBits p))
    (hop : OpsWithin (6 * (2 : ℝ) ^ (-(p : ℤ))) values gs op) (hkr : KrausWithin (6 * (2 : ℝ) ^ (-(p : ℤ))) gs kraus)
    (h : ∀ g ∈ gs, g.UnitaryOn n values) (h2 : ∀ g ∈ gs, g.target.length + (ctlInts g.control).length ≤ 2) (hne : gs ≠ [])
    (hk : 336 * (4 * gs.length + noiseSteps gs : ℕ) * (Real.sqrt (2 ^ n) * 2 ^ n) * (2 : ℝ) ^ (-(p : ℤ)) ≤ 1) :
    ∃ ε, 0 ≤ ε ∧ (F.arithDM so op kraus).Accurate n ε values gs ∧
      (4 * gs.length + noiseSteps gs : ℕ) * ε
        ≤ 336 * (4 * gs.length + noiseSteps gs : ℕ) * (Real.sqrt (2 ^ n) * 2 ^ n) * (2 : ℝ) ^ (-(p : ℤ)) := by
  have hu : (0 : ℝ) ≤ (2 : ℝ) ^ (-(p : ℤ)) := by positivity
  have hs : (2 : ℝ) ^ (-(p : ℤ)) ≤ 1 / 256 := by
    have : (2 : ℝ) ^ (-(p : ℤ)) ≤ (2 : ℝ) ^ (-(8 : ℤ)) := zpow_le_zpow_right₀ one_le_two (by omega)
    refine this.trans (le_of_eq (by norm_num [zpow_neg]))
  have hF := C103_complex hu (C103_bits p) ha hm
  generalize (2 : ℝ) ^ (-(p : ℤ)) = v at *
  have hA := C113_flops (n := n) so hu (by positivity) (by positivity) hF hop hkr h2 fun g hg _ q hq =>
    (h g hg).valid.dims.lt q (by simp [hq])
  have hs1 : (1 : ℝ) ≤ Real.sqrt (2 ^ n) := Real.one_le_sqrt.2 (one_le_pow₀ (by norm_num))
  have hn1 : (1 : ℝ) ≤ 2 ^ n := one_le_pow₀ (by norm_num)
  have hK : (1 : ℝ) ≤ (4 * gs.length + noiseSteps gs : ℕ) := by
    have := List.length_pos_iff.2 hne
    exact_mod_cast (by omega : 1 ≤ 4 * gs.length + noiseSteps gs)
  have hk1 : 21 * 2 ^ n * v ≤ 1 := by
    refine le_trans ?_ hk
    have : (1 : ℝ) * 1 ≤ (4 * gs.length + noiseSteps gs : ℕ) * Real.sqrt (2 ^ n) := mul_le_mul hK hs1 zero_le_one (by linarith)
    have h3 : 0 ≤ 2 ^ n * v := by positivity
    nlinarith [mul_le_mul_of_nonneg_right this h3]
  have hη : max (2 ^ 2 * max (6 * v) ((1 + dotError v (Real.sqrt 2 * (2 * v + v ^ 2)) (2 ^ 2)) ^ 2 - 1))
      (8 * noiseError v (Real.sqrt 2 * (2 * v + v ^ 2)) (6 * v) n) ≤ 336 * 2 ^ n * v := by
    have h4 := dotError_four hu hs
    have h5 := dotError_nonneg (u := v) (δ := Real.sqrt 2 * (2 * v + v ^ 2)) hu (by positivity) 4
    have h6 : v ≤ 2 ^ n * v := le_mul_of_one_le_left hu hn1
    refine max_le ?_ ?_
    · rw [show (2 ^ 2 : ℕ) = 4 from rfl]
      have h7 : max (6 * v) ((1 + dotError v (Real.sqrt 2 * (2 * v + v ^ 2)) 4) ^ 2 - 1) ≤ 13 * v :=
        max_le (by linarith) (by nlinarith)
      linarith
    · linarith [noiseError_le (n := n) hu hs hk1]
  have hη0 : 0 ≤ max (2 ^ 2 * max (6 * v) ((1 + dotError v (Real.sqrt 2 * (2 * v + v ^ 2)) (2 ^ 2)) ^ 2 - 1))
      (8 * noiseError v (Real.sqrt 2 * (2 * v + v ^ 2)) (6 * v) n) :=
    le_max_of_le_right (mul_nonneg (by norm_num) (noiseError_nonneg hu (by positivity) (by positivity) n))
  have hA' := C113_entries hη0 hA
  generalize max (2 ^ 2 * max (6 * v) ((1 + dotError v (Real.sqrt 2 * (2 * v + v ^ 2)) (2 ^ 2)) ^ 2 - 1))
      (8 * noiseError v (Real.sqrt 2 * (2 * v + v ^ 2)) (6 * v) n) = η at hη hη0 hA'
  have hb : (4 * gs.length + noiseSteps gs : ℕ) * (Real.sqrt (2 ^ n) * η)
      ≤ 336 * (4 * gs.length + noiseSteps gs : ℕ) * (Real.sqrt (2 ^ n) * 2 ^ n) * v := by
    calc _ ≤ (4 * gs.length + noiseSteps gs : ℕ) * (Real.sqrt (2 ^ n) * (336 * 2 ^ n * v)) := by gcongr
      _ = _ := by ring
  exact ⟨_, by positivity, hA', hb⟩

/-- **C113** (numbers of `p` bits): run a circuit of gates on at most two qubits (targets and controls), with any noise, on a density
matrix of trace norm `T` with real operations rounded to `p ≥ 8` significant bits, in any order of summation, from gate matrices
whose entries are right up to `6 · 2^(-p)` and Kraus operators whose entries are right up to this fraction.  After `k` gates with `m`
noise channels on `n` qubits the matrix is off by at most `672 (4k + m) 2^(3n/2) 2^(-p) T` in the trace norm, with and without grouping and merging. -/
theorem C113_precision (so : SetOrder) {p : ℕ} (hp : 8 ≤ p) (ha : F.add = addC (roundBits p)) (hm : F.mul = mulC (roundBits p))
    (hop : OpsWithin (6 * (2 : ℝ) ^ (-(p : ℤ))) values gs op) (hkr : KrausWithin (6 * (2 : ℝ) ^ (-(p : ℤ))) gs kraus)
    (h : ∀ g ∈ gs, g.UnitaryOn n values) (h2 : ∀ g ∈ gs, g.target.length + (ctlInts g.control).length ≤ 2) (hne : gs ≠ [])
    (hns : ∀ g ∈ gs, ∃ ns, g.NoiseIs ns) {ρ : DensityMatrix ℂ} (hρ : IsDM n ρ) {T : ℝ}
    (hT : TraceNormLe (dmMat n ρ.array) T) (group merge : Bool)
    (hk : 336 * (4 * gs.length + noiseSteps gs : ℕ) * (Real.sqrt (2 ^ n) * 2 ^ n) * (2 : ℝ) ^ (-(p : ℤ)) ≤ 1) :
    ∃ r e, (F.arithDM so op kraus).run ρ (.list gs) group merge = .ok r ∧
      applyGates so (.dm ρ) (.list gs) values .unitary group merge = .ok (.dm e) ∧
      TraceNormLe (dmMat n r.array - dmMat n e.array)
        (672 * (4 * gs.length + noiseSteps gs : ℕ) * (Real.sqrt (2 ^ n) * 2 ^ n) * (2 : ℝ) ^ (-(p : ℤ)) * T) := by
  obtain ⟨ε, hε, hA, hb⟩ := bits_accurate (n := n) so hp ha hm hop hkr h h2 hne hk
  obtain ⟨r, e, e1, e2, e3⟩ := C113_linear so hε hA h hne hns hρ hT group merge (hb.trans hk)
  refine ⟨r, e, e1, e2, e3.mono (mul_le_mul_of_nonneg_right ?_ hT.nonneg)⟩
  linarith

/-- Non-vacuity: double precision, sums from left to right, and three gates with three noise channels on three qubits. -/
example : ∃ gs : List Gate,
    gs = [Gate.H (.int 0) .none (some [⟨.bitFlip, .float (1 / 10)⟩]), Gate.X (.int 1) (.int 0),
      Gate.RX (.str "θ") (.int 2) .none (some [⟨.amplitudeDamping, .float (1 / 5)⟩, ⟨.phaseDamping, .float (1 / 4)⟩])] ∧
    (Flops.leftToRight (addC (roundBits 53)) (mulC (roundBits 53))).add = addC (roundBits 53) ∧
    (Flops.leftToRight (addC (roundBits 53)) (mulC (roundBits 53))).mul = mulC (roundBits 53) ∧
    OpsWithin (6 * (2 : ℝ) ^ (-(53 : ℤ))) [("θ", .num 1)] gs (fun g => g.operator .unitary [("θ", .num 1)]) ∧
    KrausWithin (6 * (2 : ℝ) ^ (-(53 : ℤ))) gs NoiseInstance.kraus ∧
    (∀ g ∈ gs, g.UnitaryOn 3 [("θ", .num 1)]) ∧ (∀ g ∈ gs, g.target.length + (ctlInts g.control).length ≤ 2) ∧
    (∀ g ∈ gs, ∃ ns, g.NoiseIs ns) ∧ (∃ g ∈ gs, g.noise ≠ none) ∧
    336 * (4 * gs.length + noiseSteps gs : ℕ) * (Real.sqrt (2 ^ 3) * 2 ^ 3) * (2 : ℝ) ^ (-(53 : ℤ)) ≤ 1 := by
  refine ⟨_, rfl, rfl, rfl, fun g _ U h1 h2 => ⟨U, h1, h2, fun i j _ _ => ?_⟩, fun g _ nis _ ni _ ks h1 h2 =>
    ⟨ks, h1, List.forall₂_same.2 fun k hk => ⟨h2 k hk, fun i j _ _ => ?_⟩⟩, ?_, ?_, ?_,
    ⟨Gate.H (.int 0) .none (some [⟨.bitFlip, .float (1 / 10)⟩]), by simp, Option.some_ne_none _⟩, ?_⟩
  · rw [sub_self, norm_zero]; positivity
  · rw [sub_self, norm_zero]; positivity
  · simp only [List.mem_cons, List.not_mem_nil, or_false, forall_eq_or_imp, forall_eq]
    exact ⟨Gate.Std.unitaryOn (s := .H) ⟨.H _ _ _, rfl, ⟨.inl rfl, by decide⟩⟩,
      Gate.Std.unitaryOn (s := .X) ⟨.X _ _ _, rfl, ⟨.inr (.inr ⟨[0], rfl⟩), by decide⟩⟩,
      Gate.Std.unitaryOn (s := .RX 1) ⟨.RX _ _ _ (.str rfl) (by norm_num), rfl, ⟨.inl rfl, by decide⟩⟩⟩
  · simp only [List.mem_cons, List.not_mem_nil, or_false, forall_eq_or_imp, forall_eq]
    refine ⟨?_, ?_, ?_⟩
    · show 1 + 0 ≤ 2
      omega
    · show 1 + 1 ≤ 2
      omega
    · show 1 + 0 ≤ 2
      omega
  · simp only [List.mem_cons, List.not_mem_nil, or_false, forall_eq_or_imp, forall_eq]
    refine ⟨⟨_, .some rfl (.cons (.bitFlip (by norm_num)) .nil) (.inr ⟨0, rfl⟩)⟩, ⟨_, .none rfl⟩,
      ⟨_, .some rfl (.cons (.amplitudeDamping (by norm_num)) (.cons (.phaseDamping (by norm_num)) .nil)) (.inr ⟨2, rfl⟩)⟩⟩
  · change 336 * ((15 : ℕ) : ℝ) * (Real.sqrt (2 ^ 3) * 2 ^ 3) * (2 : ℝ) ^ (-(53 : ℤ)) ≤ 1
    have h8 : Real.sqrt (2 ^ 3) ≤ 3 := Real.sqrt_le_left (by norm_num) |>.2 (by norm_num)
    have h0 := Real.sqrt_nonneg ((2 : ℝ) ^ 3)
    rw [zpow_neg]
    norm_num
    norm_num at h8 h0
    linarith

end Verif
