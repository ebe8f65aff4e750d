import Mathlib.Tactic.Module
import Verif.SpecNoiseBound
import Verif.Props.Smooth
import Verif.Props.NoiseLaws

/-!
# C87: noise of a given strength changes no expectation value by more than that strength
-/

set_option autoImplicit false

namespace Verif
open NDArray
open scoped ComplexOrder
variable {n : ℕ} (so : SetOrder) (eigh : Eigh) (draw : Draw) {values : Values}
  {nss : List (List StdNoise)} {st : State}

/-- The gate without its noise. -/
def Gate.noiseless (g : Gate) : Gate := { g with noise := none }

abbrev LMat (n : ℕ) := Matrix (Lab n) (Lab n) ℂ

theorem smul_nonneg_psd {A : LMat n} (hA : A.PosSemidef) {c : ℝ} (hc : 0 ≤ c) : ((c : ℂ) • A).PosSemidef :=
  hA.smul (by exact_mod_cast hc)

theorem conjBy_psd {A : LMat n} (hA : A.PosSemidef) (U : LMat n) : (conjBy U A).PosSemidef := hA.mul_mul_conjTranspose_same U

theorem chan_psd {s : StdNoise} {ni : NoiseInstance} (h : ni.Is s) {t : ℕ} (ht : t < n) {A : LMat n} (hA : A.PosSemidef) :
    (s.chan n t A).PosSemidef := (krausOn_chan h ht (S := [t]) (by simp)).posSemidef hA

theorem chan_trace {s : StdNoise} {ni : NoiseInstance} (h : ni.Is s) {t : ℕ} (ht : t < n) (A : LMat n) :
    (s.chan n t A).trace = A.trace := (krausOn_chan h ht (S := [t]) (by simp)).trace A

/-- The gate does not change the length of vectors, and its targets are qubits of the register. -/
def Gate.Isometric (n : ℕ) (values : Values) (g : Gate) : Prop :=
  (g.mat n .unitary values).conjTranspose * g.mat n .unitary values = 1 ∧ ∀ q ∈ g.target, q < n

theorem Gate.Std.isometric {g : Gate} {s : StdGate} (h : g.Std n values s) : g.Isometric n values :=
  ⟨by rw [h.mat]; exact h.unitary.1, fun q hq => h.valid.dims.lt q (by simp [hq])⟩

/-- A run with noise beside the run without. -/
theorem noisyRun_beside {P : LMat n → LMat n → ℝ → Prop} {ok : StdNoise → Prop} {f : ℝ → StdNoise → ℝ}
    (hu : ∀ (U ρ₀ ρ : LMat n) (w : ℝ), U.conjTranspose * U = 1 → P ρ₀ ρ w → P (conjBy U ρ₀) (conjBy U ρ) w)
    (hc : ∀ (s : StdNoise) (ni : NoiseInstance) (t : ℕ) (ρ₀ ρ : LMat n) (w : ℝ), ni.Is s → ok s → t < n → P ρ₀ ρ w → P ρ₀ (s.chan n t ρ) (f w s))
    {gs : List Gate} (hs : ∀ g ∈ gs, g.Isometric n values) (hn : List.Forall₂ Gate.NoiseIs gs nss)
    (hok : ∀ ns ∈ nss, ∀ s ∈ ns, ok s) {ρ₀ ρ : LMat n} {w : ℝ} (h : P ρ₀ ρ w) :
    P (noisyRun n .unitary values ((gs.map Gate.noiseless).zip (nss.map fun _ => [])) ρ₀)
      (noisyRun n .unitary values (gs.zip nss) ρ) (nss.flatten.foldl f w) := by
  induction hn generalizing ρ₀ ρ w with
  | nil => exact h
  | @cons g ns gs nss hg _ ih =>
    obtain ⟨hU, hlt⟩ := hs g (by simp)
    rw [List.flatten_cons, List.foldl_append]
    refine ih (fun g hg => hs g (by simp [hg])) (fun ns hns => hok ns (by simp [hns])) ?_
    have hm : (g.noiseless).mat n .unitary values = g.mat n .unitary values := rfl
    have h0 := hu _ _ _ _ hU h
    show P (conjBy (g.noiseless.mat n .unitary values) ρ₀) (noisyStep n (g.mat n .unitary values) (g.target.headD 0) ns ρ) _
    rw [hm]
    have hokn := hok ns (by simp)
    cases hg with
    | none => exact h0
    | @some nis _ hnz hnn ht =>
      rcases ht with rfl | ⟨t, ht⟩
      · cases hnn; exact h0
      · have htn : t < n := hlt t (by simp [ht])
        rw [ht]
        show P _ (ns.foldl (fun ρ s => s.chan n t ρ) (conjBy (g.mat n .unitary values) ρ)) _
        generalize conjBy (g.mat n .unitary values) ρ = σ at h0
        generalize conjBy (g.mat n .unitary values) ρ₀ = σ₀ at h0
        clear hnz ih hok h
        induction hnn generalizing σ w with
        | nil => exact h0
        | @cons ni s nis ns h1 _ ih' =>
          exact ih' (fun s hs => hokn s (by simp [hs])) _ (hc _ _ _ _ _ _ h1 (hokn s (by simp)) htn h0)

/-- The states differ by two positive parts of trace at most `δ`. -/
def Near (ρ₀ ρ : LMat n) (δ : ℝ) : Prop :=
  ∃ A B : LMat n, A.PosSemidef ∧ B.PosSemidef ∧ B.trace.re ≤ δ ∧ ρ = ρ₀ + A - B

theorem psd_conj_smul {A : LMat n} (hA : A.PosSemidef) (c : ℂ) (U : LMat n) : (conjBy (c • U) A).PosSemidef := conjBy_psd hA _

theorem damp_eq (W K ρ : LMat n) {a b : ℝ} (hab : a + b = 1) :
    conjBy ((a : ℂ) • 1 + (b : ℂ) • W) ρ + conjBy K ρ
      = ρ + (((4 * a * b : ℝ) : ℂ) • conjBy ((1 / 2 : ℂ) • (1 + W)) ρ + conjBy K ρ)
        - (((1 - a * (a - b) : ℝ) : ℂ) • ρ + ((b * (a - b) : ℝ) : ℂ) • conjBy W ρ) := by
  simp only [conjBy, Matrix.conjTranspose_add, Matrix.conjTranspose_smul, Matrix.conjTranspose_one, Matrix.add_mul, Matrix.mul_add,
    Matrix.smul_mul, Matrix.mul_smul, Matrix.one_mul, Matrix.mul_one, Complex.star_def, Complex.conj_ofReal, smul_smul, smul_add]
  push_cast
  simp only [map_div₀, map_one, Complex.conj_ofNat]
  match_scalars <;> ring

/-- Damping towards one of the two states. -/
theorem damp_near (W K ρ : LMat n) (hW : W.conjTranspose * W = 1) {a b : ℝ} (hab : a + b = 1) (hb : 0 ≤ b) (hba : b ≤ a)
    (hρ : ρ.PosSemidef) :
    ∃ A B : LMat n, A.PosSemidef ∧ B.PosSemidef ∧ B.trace.re = 4 * a * b * ρ.trace.re ∧
      conjBy ((a : ℂ) • 1 + (b : ℂ) • W) ρ + conjBy K ρ = ρ + A - B := by
  have hWt : (conjBy W ρ).trace = ρ.trace := by
    rw [conjBy, Matrix.trace_mul_comm, ← Matrix.mul_assoc, hW, Matrix.one_mul]
  refine ⟨_, _, ?_, ?_, ?_, damp_eq W K ρ hab⟩
  · exact (smul_nonneg_psd (conjBy_psd hρ _) (by nlinarith)).add (conjBy_psd hρ _)
  · refine (smul_nonneg_psd hρ ?_).add (smul_nonneg_psd (conjBy_psd hρ _) (mul_nonneg hb (by linarith)))
    nlinarith
  · rw [Matrix.trace_add, Matrix.trace_smul, Matrix.trace_smul, hWt]
    simp only [smul_eq_mul, Complex.add_re, Complex.re_ofReal_mul]
    have : b = 1 - a := by linarith
    subst this
    ring

theorem onQubit_comb (t : ℕ) (a b : ℝ) (M : Matrix (Fin 2) (Fin 2) ℂ) :
    onQubit n ((a : ℂ) • 1 + (b : ℂ) • M) t = (a : ℂ) • 1 + (b : ℂ) • onQubit n M t := by
  have h : ∀ i j, i < 2 ^ [t].length → j < 2 ^ [t].length → matE ((a : ℂ) • (1 : Matrix (Fin 2) (Fin 2) ℂ) + (b : ℂ) • M) i j
      = (a : ℂ) * oneE i j + (b : ℂ) * matE M i j := by
    intro i j hi hj
    have hi : i < 2 := hi
    have hj : j < 2 := hj
    simp [matE, oneE, hi, hj, Matrix.one_apply]
  rw [onQubit, gateMat_congr h, gateMat_add, gateMat_smul, gateMat_smul, gateMat_one, onQubit]

theorem pauliZ_unitary {t : ℕ} (ht : t < n) : (onQubit n !![1, 0; 0, -1] t).conjTranspose * onQubit n !![1, 0; 0, -1] t = 1 :=
  (gateMat_unitary (n := n) (ts := [t]) (cs := []) ⟨by simp, by simpa using ht⟩ StdGate.Z.isUnitary).1

/-- Amplitude damping towards `|0⟩`. -/
theorem damping_parts {t : ℕ} (ht : t < n) {γ : ℝ} (h0 : 0 ≤ γ) (h1 : γ ≤ 1) (K : LMat n) {ρ : LMat n} (hρ : ρ.PosSemidef) :
    ∃ A B : LMat n, A.PosSemidef ∧ B.PosSemidef ∧ B.trace.re = γ * ρ.trace.re ∧
      conjBy (onQubit n !![1, 0; 0, (√(1 - γ) : ℝ)] t) ρ + conjBy K ρ = ρ + A - B := by
  have hs := Real.mul_self_sqrt (show 0 ≤ 1 - γ by linarith)
  have hs0 := Real.sqrt_nonneg (1 - γ)
  have hs1 : √(1 - γ) ≤ 1 := Real.sqrt_le_one.2 (by linarith)
  generalize √(1 - γ) = s at hs hs0 hs1
  obtain ⟨A, B, hA, hB, h2, h3⟩ := damp_near (onQubit n !![1, 0; 0, -1] t) K ρ (pauliZ_unitary ht) (a := (1 + s) / 2) (b := (1 - s) / 2)
    (by ring) (by linarith) (by linarith) hρ
  refine ⟨A, B, hA, hB, ?_, ?_⟩
  · rw [h2]
    have : γ = 1 - s * s := by linarith
    rw [this]
    ring
  · rw [← h3, ← onQubit_comb]
    congr 3
    ext i j
    fin_cases i <;> fin_cases j <;> simp <;> ring

/-- Amplitude damping towards `|1⟩`. -/
theorem damping_parts' {t : ℕ} (ht : t < n) {γ : ℝ} (h0 : 0 ≤ γ) (h1 : γ ≤ 1) (K : LMat n) {ρ : LMat n} (hρ : ρ.PosSemidef) :
    ∃ A B : LMat n, A.PosSemidef ∧ B.PosSemidef ∧ B.trace.re = γ * ρ.trace.re ∧
      conjBy (onQubit n !![(√(1 - γ) : ℝ), 0; 0, 1] t) ρ + conjBy K ρ = ρ + A - B := by
  have hs := Real.mul_self_sqrt (show 0 ≤ 1 - γ by linarith)
  have hs0 := Real.sqrt_nonneg (1 - γ)
  have hs1 : √(1 - γ) ≤ 1 := Real.sqrt_le_one.2 (by linarith)
  generalize √(1 - γ) = s at hs hs0 hs1
  obtain ⟨A, B, hA, hB, h2, h3⟩ := damp_near (-onQubit n !![1, 0; 0, -1] t) K ρ (by
      rw [Matrix.conjTranspose_neg, neg_mul_neg, pauliZ_unitary ht]) (a := (1 + s) / 2) (b := (1 - s) / 2)
    (by ring) (by linarith) (by linarith) hρ
  refine ⟨A, B, hA, hB, ?_, ?_⟩
  · rw [h2]
    have : γ = 1 - s * s := by linarith
    rw [this]
    ring
  · rw [← h3, smul_neg, ← neg_smul, ← Complex.ofReal_neg, ← onQubit_comb]
    congr 3
    ext i j
    fin_cases i <;> fin_cases j <;> simp <;> ring

theorem three_parts {ρ : LMat n} (hρ : ρ.PosSemidef) {a b c : ℝ} (ha : 0 ≤ a) (hb : 0 ≤ b) (hc : 0 ≤ c) (q : ℂ) (U V W : LMat n) :
    ∃ A : LMat n, A.PosSemidef ∧ q • ρ + (a : ℂ) • conjBy U ρ + (b : ℂ) • conjBy V ρ + (c : ℂ) • conjBy W ρ = q • ρ + A :=
  ⟨(a : ℂ) • conjBy U ρ + (b : ℂ) • conjBy V ρ + (c : ℂ) • conjBy W ρ,
    ((smul_nonneg_psd (conjBy_psd hρ _) ha).add (smul_nonneg_psd (conjBy_psd hρ _) hb)).add (smul_nonneg_psd (conjBy_psd hρ _) hc),
    by simp only [add_assoc]⟩

/-- Mixtures: with probability `1 - strength` nothing happens. -/
theorem mixture_parts {s : StdNoise} {ni : NoiseInstance} (h : ni.Is s) (hm : s.IsMixture) {t : ℕ} (ht : t < n) {ρ : LMat n}
    (hρ : ρ.PosSemidef) : ∃ A : LMat n, A.PosSemidef ∧ s.chan n t ρ = ((1 - s.strength : ℝ) : ℂ) • ρ + A := by
  have hv := h.valid
  cases s with
  | bitFlip p => exact ⟨_, smul_nonneg_psd (conjBy_psd hρ _) hv.1, rfl⟩
  | phaseFlip p => exact ⟨_, smul_nonneg_psd (conjBy_psd hρ _) hv.1, rfl⟩
  | depolarizing p =>
    have hp : 0 ≤ p / 3 := by linarith [hv.1]
    exact three_parts hρ hp hp hp _ _ _ _
  | pauli px py pz =>
    obtain ⟨h1, h2, h3, -⟩ := hv
    have e : (1 - (StdNoise.pauli px py pz).strength) = 1 - px - py - pz := by rw [StdNoise.strength]; ring
    rw [e]
    exact three_parts hρ h1 h2 h3 _ _ _ _
  | amplitudeDamping γ => exact absurd hm id
  | phaseDamping γ =>
    have h1 := (SameNoise.phaseDamping_flip γ).fold (n := n) (by simpa using hv) ht ρ
    simp only [List.foldl_cons, List.foldl_nil] at h1
    rw [h1]
    have hs1 : √(1 - γ) ≤ 1 := Real.sqrt_le_one.2 (by linarith [hv.1])
    exact ⟨_, smul_nonneg_psd (conjBy_psd hρ _) (by linarith), rfl⟩
  | generalizedAmplitudeDamping p γ => exact absurd hm id

/-- What a channel does to a state: two positive parts of trace at most the strength times the trace. -/
theorem chan_parts {s : StdNoise} {ni : NoiseInstance} (h : ni.Is s) {t : ℕ} (ht : t < n) {ρ : LMat n} (hρ : ρ.PosSemidef) :
    ∃ A B : LMat n, A.PosSemidef ∧ B.PosSemidef ∧ B.trace.re = s.strength * ρ.trace.re ∧ s.chan n t ρ = ρ + A - B := by
  have hv := h.valid
  by_cases hm : s.IsMixture
  · obtain ⟨A, hA, e⟩ := mixture_parts h hm ht hρ
    have h0 : 0 ≤ s.strength := by
      cases s with
      | bitFlip p => exact hv.1
      | phaseFlip p => exact hv.1
      | depolarizing p => exact hv.1
      | pauli px py pz => exact add_nonneg (add_nonneg hv.1 hv.2.1) hv.2.2.1
      | phaseDamping γ =>
        have hs1 : √(1 - γ) ≤ 1 := Real.sqrt_le_one.2 (by linarith [hv.1])
        rw [StdNoise.strength]; linarith
      | amplitudeDamping γ => exact absurd hm id
      | generalizedAmplitudeDamping p γ => exact absurd hm id
    refine ⟨A, (s.strength : ℂ) • ρ, hA, smul_nonneg_psd hρ h0, by simp [Matrix.trace_smul], ?_⟩
    rw [e]
    push_cast
    module
  · cases s with
    | amplitudeDamping γ => exact damping_parts ht hv.1 hv.2 _ hρ
    | generalizedAmplitudeDamping p γ =>
      obtain ⟨⟨p0, p1⟩, g0, g1⟩ := hv
      obtain ⟨A, B, hA, hB, h2, h3⟩ := damping_parts ht g0 g1 (onQubit n !![0, (√γ : ℝ); 0, 0] t) hρ
      obtain ⟨A', B', hA', hB', h2', h3'⟩ := damping_parts' ht g0 g1 (onQubit n !![0, 0; (√γ : ℝ), 0] t) hρ
      refine ⟨(p : ℂ) • A + ((1 - p : ℝ) : ℂ) • A', (p : ℂ) • B + ((1 - p : ℝ) : ℂ) • B',
        (smul_nonneg_psd hA p0).add (smul_nonneg_psd hA' (by linarith)), (smul_nonneg_psd hB p0).add (smul_nonneg_psd hB' (by linarith)), ?_, ?_⟩
      · rw [Matrix.trace_add, Matrix.trace_smul, Matrix.trace_smul]
        simp only [smul_eq_mul, Complex.add_re, Complex.re_ofReal_mul, h2, h2', StdNoise.strength]
        ring
      · rw [StdNoise.chan, h3, h3']
        push_cast
        module
    | _ => exact absurd trivial hm

theorem StdNoise.strength_le_one {s : StdNoise} (hv : s.Valid) : s.strength ≤ 1 := by
  cases s with
  | bitFlip p => exact hv.2
  | phaseFlip p => exact hv.2
  | depolarizing p => exact hv.2
  | pauli px py pz => obtain ⟨-, -, -, h⟩ := hv; exact h
  | phaseDamping γ => have := Real.sqrt_nonneg (1 - γ); rw [StdNoise.strength]; linarith
  | amplitudeDamping γ => exact hv.2
  | generalizedAmplitudeDamping p γ => exact hv.2.2

/-- Both are states. -/
def States (ρ₀ ρ : LMat n) : Prop := ρ₀.PosSemidef ∧ ρ.PosSemidef ∧ ρ₀.trace = 1 ∧ ρ.trace = 1

theorem conjBy_trace {U : LMat n} (hU : U.conjTranspose * U = 1) (ρ : LMat n) : (conjBy U ρ).trace = ρ.trace := by
  rw [conjBy, Matrix.trace_mul_comm, ← mul_assoc, hU, one_mul]

theorem States.conj {U ρ₀ ρ : LMat n} (hU : U.conjTranspose * U = 1) (h : States ρ₀ ρ) : States (conjBy U ρ₀) (conjBy U ρ) :=
  ⟨conjBy_psd h.1 _, conjBy_psd h.2.1 _, (conjBy_trace hU _).trans h.2.2.1, (conjBy_trace hU _).trans h.2.2.2⟩

theorem States.chan {ρ₀ ρ : LMat n} {s : StdNoise} {ni : NoiseInstance} (hs : ni.Is s) {t : ℕ} (ht : t < n) (h : States ρ₀ ρ) :
    States ρ₀ (s.chan n t ρ) := ⟨h.1, chan_psd hs ht h.2.1, h.2.2.1, (chan_trace hs ht _).trans h.2.2.2⟩

theorem run_near {gs : List Gate} (hs : ∀ g ∈ gs, g.Isometric n values) (hn : List.Forall₂ Gate.NoiseIs gs nss)
    {ρ : LMat n} (hρ : ρ.PosSemidef) (ht : ρ.trace = 1) :
    let ρ₀ := noisyRun n .unitary values ((gs.map Gate.noiseless).zip (nss.map fun _ => [])) ρ
    let ρ₁ := noisyRun n .unitary values (gs.zip nss) ρ
    States ρ₀ ρ₁ ∧ Near ρ₀ ρ₁ (nss.flatten.map StdNoise.strength).sum := by
  have h := noisyRun_beside (P := fun ρ₀ ρ w => States ρ₀ ρ ∧ Near ρ₀ ρ w) (ok := fun _ => True) (f := fun w s => w + s.strength) (n := n)
    ?_ ?_ hs hn (fun _ _ _ _ => trivial) (w := 0) (ρ₀ := ρ) (ρ := ρ) ⟨⟨hρ, hρ, ht, ht⟩, 0, 0, .zero, .zero, by simp, by simp⟩
  · have e : ∀ (l : List StdNoise) (w : ℝ), l.foldl (fun w s => w + s.strength) w = w + (l.map StdNoise.strength).sum := by
      intro l
      induction l with
      | nil => simp
      | cons a l ih => intro w; simp [ih, add_assoc]
    rw [e, zero_add] at h
    exact h
  · rintro U ρ₀ ρ w hU ⟨h, A, B, hA, hB, h1, rfl⟩
    refine ⟨h.conj hU, conjBy U A, conjBy U B, conjBy_psd hA _, conjBy_psd hB _, ?_, ?_⟩
    · rw [conjBy_trace hU]; exact h1
    · simp only [conjBy, mul_sub, mul_add, sub_mul, add_mul]
  · rintro s ni t ρ₀ ρ w hni - ht ⟨h, A, B, hA, hB, h1, e⟩
    obtain ⟨A', B', hA', hB', h2, e'⟩ := chan_parts hni ht h.2.1
    refine ⟨h.chan hni ht, A + A', B + B', hA.add hA', hB.add hB', ?_, ?_⟩
    · rw [Matrix.trace_add, Complex.add_re, h2, h.2.2.2]
      simp only [Complex.one_re, mul_one]
      linarith
    · rw [e', e]
      abel

theorem run_mixture {gs : List Gate} (hs : ∀ g ∈ gs, g.Isometric n values) (hn : List.Forall₂ Gate.NoiseIs gs nss)
    (hm : ∀ ns ∈ nss, ∀ s ∈ ns, s.IsMixture) {ρ : LMat n} (hρ : ρ.PosSemidef) (ht : ρ.trace = 1) :
    let ρ₀ := noisyRun n .unitary values ((gs.map Gate.noiseless).zip (nss.map fun _ => [])) ρ
    let ρ₁ := noisyRun n .unitary values (gs.zip nss) ρ
    States ρ₀ ρ₁ ∧ ∃ A : LMat n, A.PosSemidef ∧ ρ₁ = (((nss.flatten.map fun s => 1 - s.strength).prod : ℝ) : ℂ) • ρ₀ + A := by
  have h := noisyRun_beside (P := fun ρ₀ ρ w => States ρ₀ ρ ∧ ∃ A : LMat n, A.PosSemidef ∧ ρ = (w : ℂ) • ρ₀ + A)
    (ok := StdNoise.IsMixture) (f := fun w s => w * (1 - s.strength)) (n := n)
    ?_ ?_ hs hn hm (w := 1) (ρ₀ := ρ) (ρ := ρ) ⟨⟨hρ, hρ, ht, ht⟩, 0, .zero, by simp⟩
  · have e : ∀ (l : List StdNoise) (w : ℝ), l.foldl (fun w s => w * (1 - s.strength)) w = w * (l.map fun s => 1 - s.strength).prod := by
      intro l
      induction l with
      | nil => simp
      | cons a l ih => intro w; simp [ih, mul_assoc]
    rw [e, one_mul] at h
    exact h
  · rintro U ρ₀ ρ w hU ⟨h, A, hA, rfl⟩
    refine ⟨h.conj hU, conjBy U A, conjBy_psd hA _, ?_⟩
    simp only [conjBy, mul_add, add_mul, Matrix.mul_smul, Matrix.smul_mul]
  · rintro s ni t ρ₀ ρ w hni hm ht ⟨h, A, hA, e⟩
    obtain ⟨A', hA', e'⟩ := mixture_parts hni hm ht h.2.1
    refine ⟨h.chan hni ht, ((1 - s.strength : ℝ) : ℂ) • A + A',
      (smul_nonneg_psd hA (by linarith [StdNoise.strength_le_one hni.valid])).add hA', ?_⟩
    rw [e', e]
    push_cast
    module

theorem expVal_smul_real (O R : LMat n) (c : ℝ) : expVal O ((c : ℂ) • R) = c * expVal O R := by
  rw [expVal, expVal, Matrix.mul_smul, Matrix.trace_smul, smul_eq_mul, Complex.re_ofReal_mul]

theorem expVal_psd {O R : LMat n} (hO : O.IsHermitian) {lo hi : ℝ} (hs : SpectrumIn O lo hi) (hR : R.PosSemidef) :
    lo * R.trace.re ≤ expVal O R ∧ expVal O R ≤ hi * R.trace.re := by
  have h0 := Complex.le_def.1 hR.trace_nonneg
  have hre : R.trace = (R.trace.re : ℂ) := Complex.ext rfl h0.2.symm
  rcases h0.1.eq_or_lt with h | h
  · have : R = 0 := hR.trace_eq_zero_iff.1 (by rw [hre, ← h]; rfl)
    subst this
    simp [expVal]
  · have h : 0 < R.trace.re := h
    generalize R.trace.re = τ at *
    have hp := smul_nonneg_psd hR (inv_nonneg.2 h.le)
    have ht : (((τ⁻¹ : ℝ) : ℂ) • R).trace = 1 := by
      rw [Matrix.trace_smul, hre, smul_eq_mul, ← Complex.ofReal_mul, inv_mul_cancel₀ h.ne', Complex.ofReal_one]
    have h1 := expVal_lower hO hp ht fun x v hv hx => (hs x v hv hx).1
    have h2 := expVal_upper hO hp ht fun x v hv hx => (hs x v hv hx).2
    rw [expVal_smul_real, inv_mul_eq_div] at h1 h2
    exact ⟨(le_div_iff₀ h).1 h1, (div_le_iff₀ h).1 h2⟩

theorem near_expVal {O ρ₀ ρ : LMat n} {lo hi δ : ℝ} (hO : O.IsHermitian) (hs : SpectrumIn O lo hi) (hst : States ρ₀ ρ)
    (h : Near ρ₀ ρ δ) : |expVal O ρ - expVal O ρ₀| ≤ δ * (hi - lo) := by
  obtain ⟨A, B, hA, hB, h1, rfl⟩ := h
  have ht := hst.2.2.2
  rw [Matrix.trace_sub, Matrix.trace_add, hst.2.2.1] at ht
  have hle := expVal_psd hO hs hst.1
  rw [hst.2.2.1, Complex.one_re, mul_one, mul_one] at hle
  replace hle := hle.1.trans hle.2
  have ht' : A.trace.re = B.trace.re := by
    have := congrArg Complex.re ht
    simp at this
    linarith
  have a := expVal_psd hO hs hA
  have b := expVal_psd hO hs hB
  have hB0 := (Complex.le_def.1 hB.trace_nonneg).1
  rw [expVal_sub, expVal_add]
  rw [ht'] at a
  have : B.trace.re * (hi - lo) ≤ δ * (hi - lo) := mul_le_mul_of_nonneg_right h1 (by linarith)
  rw [abs_le]
  constructor <;> nlinarith [a.1, a.2, b.1, b.2]

theorem mixture_expVal {O ρ₀ ρ A : LMat n} {lo hi w : ℝ} (hO : O.IsHermitian) (hs : SpectrumIn O lo hi) (hst : States ρ₀ ρ)
    (hA : A.PosSemidef) (h : ρ = (w : ℂ) • ρ₀ + A) : |expVal O ρ - expVal O ρ₀| ≤ (1 - w) * (hi - lo) := by
  subst h
  have ht := hst.2.2.2
  rw [Matrix.trace_add, Matrix.trace_smul, hst.2.2.1] at ht
  have ht' : A.trace.re = 1 - w := by
    have := congrArg Complex.re ht
    simp at this
    linarith
  have a := expVal_psd hO hs hA
  have b := expVal_psd hO hs hst.1
  have hA0 : 0 ≤ A.trace.re := (Complex.le_def.1 hA.trace_nonneg).1
  rw [hst.2.2.1, Complex.one_re, mul_one, mul_one] at b
  rw [expVal_add, expVal_smul_real]
  rw [ht'] at a hA0
  rw [abs_le]
  constructor <;> nlinarith [a.1, a.2, b.1, b.2, mul_le_mul_of_nonneg_left b.1 hA0, mul_le_mul_of_nonneg_left b.2 hA0]

theorem Gate.Std.noiseless {g : Gate} {s : StdGate} (h : g.Std n values s) : g.noiseless.Std n values s :=
  ⟨by cases h.is <;> constructor <;> assumption, h.arity, h.valid.1, h.valid.2⟩

theorem BaseSetting.noiseless {gs : List Gate} {obs : List Observable} {Os : List (LMat n)} (h : BaseSetting so n values gs nss st obs Os) :
    BaseSetting so n values (gs.map Gate.noiseless) (nss.map fun _ => []) st obs Os where
  ne := by simpa using h.ne
  std := by
    intro g hg
    obtain ⟨g', hg', rfl⟩ := List.mem_map.1 hg
    obtain ⟨s, hs⟩ := h.std g' hg'
    exact ⟨s, hs.noiseless⟩
  noise := by
    have := h.noise
    clear h
    induction this with
    | nil => exact .nil
    | cons _ _ ih => exact .cons (.none rfl) ih
  on := h.on
  numeric := h.numeric
  obs_ne := h.obs_ne
  fixed := h.fixed.imp fun o O hO values => ⟨(hO values).1, fun hm => (hO values).2 (by
    rcases hm with hm | hm
    · exact .inl hm
    · simp [Gate.noiseless] at hm)⟩

theorem ExactMode.noiseless {mode : DiffMode} {circuit ideal : Op} (hi : ideal.gates = circuit.gates.map Gate.noiseless)
    (hm : ExactMode mode values st circuit) : ExactMode mode values st ideal := by
  refine hm.imp_right (Or.imp_right fun ⟨h1, h2, h3⟩ => ⟨h1, h2, fun hm => h3 (hm.imp_right fun h => absurd ?_ h)⟩)
  rw [hi]
  simp [Gate.noiseless]

variable {obs : List Observable} {Os : List (LMat n)}

/-- **C87** (robustness to noise): let `ideal` be the circuit with all noise removed.  In every mode without shots, the
expectation value of an observable whose eigenvalues lie between `lo` and `hi` differs between the two circuits by at
most the sum of the strengths of all noise channels times `hi - lo`. -/
theorem C87_robust {mode : DiffMode} {circuit ideal : Op} (hp : circuit.Plain) (hp' : ideal.Plain)
    (hi : ideal.gates = circuit.gates.map Gate.noiseless) (hm : ExactMode mode values st circuit)
    (h : BaseSetting so n values circuit.gates nss st obs Os) (hρ : (st.mat n).PosSemidef) (ht : (st.mat n).trace = 1) :
    ∃ xs ys, expectation so eigh draw st circuit obs values mode 0 = .ok xs ∧
      expectation so eigh draw st ideal obs values mode 0 = .ok ys ∧ xs.length = Os.length ∧ ys.length = Os.length ∧
      ∀ i O lo hi, Os[i]? = some O → O.IsHermitian → SpectrumIn O lo hi →
        |xs.getD i 0 - ys.getD i 0| ≤ (nss.flatten.map StdNoise.strength).sum * (hi - lo) := by
  have h' : BaseSetting so n values ideal.gates (nss.map fun _ => []) st obs Os := hi ▸ h.noiseless
  refine ⟨_, _, expectation_exact so eigh draw hm hp h, expectation_exact so eigh draw (hm.noiseless hi) hp' h', by simp, by simp, ?_⟩
  intro i O lo hi' hO hH hs
  have := run_near (fun g hg => (h.std g hg).elim fun _ h => h.isometric) h.noise hρ ht
  simp only [List.getD_eq_getElem?_getD, List.getElem?_map, hO, Option.map_some, Option.getD_some, hi]
  exact near_expVal hH hs this.1 this.2

/-- **C87** (mixtures): if no channel damps, the factor is the probability that at least one of the errors occurs. -/
theorem C87_mixture {mode : DiffMode} {circuit ideal : Op} (hp : circuit.Plain) (hp' : ideal.Plain)
    (hi : ideal.gates = circuit.gates.map Gate.noiseless) (hm : ExactMode mode values st circuit)
    (h : BaseSetting so n values circuit.gates nss st obs Os) (hρ : (st.mat n).PosSemidef) (ht : (st.mat n).trace = 1)
    (hmix : ∀ ns ∈ nss, ∀ s ∈ ns, s.IsMixture) :
    ∃ xs ys, expectation so eigh draw st circuit obs values mode 0 = .ok xs ∧
      expectation so eigh draw st ideal obs values mode 0 = .ok ys ∧ xs.length = Os.length ∧ ys.length = Os.length ∧
      ∀ i O lo hi, Os[i]? = some O → O.IsHermitian → SpectrumIn O lo hi →
        |xs.getD i 0 - ys.getD i 0| ≤ (1 - (nss.flatten.map fun s => 1 - s.strength).prod) * (hi - lo) := by
  have h' : BaseSetting so n values ideal.gates (nss.map fun _ => []) st obs Os := hi ▸ h.noiseless
  refine ⟨_, _, expectation_exact so eigh draw hm hp h, expectation_exact so eigh draw (hm.noiseless hi) hp' h', by simp, by simp, ?_⟩
  intro i O lo hi' hO hH hs
  have := run_mixture (fun g hg => (h.std g hg).elim fun _ h => h.isometric) h.noise hmix hρ ht
  simp only [List.getD_eq_getElem?_getD, List.getElem?_map, hO, Option.map_some, Option.getD_some, hi]
  obtain ⟨h1, A, hA, e⟩ := this
  exact mixture_expVal hH hs h1 hA e

/-! ### The bounds are attained -/

/-- The circuit `[X(0)]` with noise. -/
noncomputable def noisyFlip (a : StdNoise) : Op := mkSeq [.prim (Gate.X (.int 0) (noise := some [a.inst]))]

/-- The circuit `[X(0)]`. -/
def plainFlip : Op := mkSeq [.prim (Gate.X (.int 0))]

theorem noisyFlip_gates (a : StdNoise) : (noisyFlip a).gates = [Gate.X (.int 0) (noise := some [a.inst])] := rfl

theorem noisyFlip_plain (a : StdNoise) : (noisyFlip a).Plain := .seq (.cons (.prim _) .nil)

theorem plainFlip_plain : plainFlip.Plain := .seq (.cons (.prim _) .nil)

theorem zero1_mat (i j : Fin 2) : (State.vec zero1).mat 1 (lab1 i) (lab1 j) = if i = 0 ∧ j = 0 then 1 else 0 := by
  fin_cases i <;> fin_cases j <;> simp [State.mat, ket, zero1_get, Matrix.vecMulVec]

theorem zero1_density : ((State.vec zero1).mat 1).PosSemidef ∧ ((State.vec zero1).mat 1).trace = 1 := by
  refine ⟨Matrix.posSemidef_vecMulVec_self_star _, ?_⟩
  rw [Matrix.trace, sum_lab1, Matrix.diag_apply, Matrix.diag_apply, zero1_mat, zero1_mat]
  simp

theorem flip_mean : (onQubit 1 !![1, 0; 0, -1] 0 * conjBy (gateMat 1 StdGate.X.mat [0] []) ((State.vec zero1).mat 1)).trace = -1 := by
  rw [Matrix.trace, sum_lab1]
  simp only [conjBy, Matrix.diag_apply, Matrix.mul_apply, sum_lab1, Matrix.conjTranspose_apply, zero1_mat, onQubit, gateMat_lab1,
    StdGate.mat, matE]
  simp

theorem noisyFlip_setting {a : StdNoise} (ha : a.Valid) : BaseSetting so 1 [] (noisyFlip a).gates [[a]] (.vec zero1) [obsZ]
    [gateMat 1 StdGate.Z.mat [0] []] where
  ne := by simp [noisyFlip_gates]
  std := by
    intro g hg
    rw [noisyFlip_gates, List.mem_singleton] at hg
    subst hg
    exact ⟨.X, .X _ _ _, rfl, ⟨.inr (.inl rfl), (by decide : ValidDims 1 [0])⟩⟩
  noise := .cons (.some rfl (.cons (StdNoise.inst_is ha) .nil) (.inr ⟨0, rfl⟩)) .nil
  on := zero1_isKet
  numeric := ⟨by simp, by simp⟩
  obs_ne := by simp
  fixed := .cons (obsZ_fixed so _) .nil

theorem flip_value {a : StdNoise} (ha : a.Valid) :
    expectation so eigh draw (.vec zero1) (noisyFlip a) [obsZ] [] .gpsr 0 = .ok [a.drift - a.shrink] := by
  rw [expectation_exact so eigh draw (.inl rfl) (noisyFlip_plain a) (noisyFlip_setting so ha)]
  refine congrArg Except.ok ?_
  have hx : (Gate.X (.int 0) (noise := some [a.inst])).Std 1 [] .X :=
    ⟨.X _ _ _, rfl, ⟨.inr (.inl rfl), (by decide : ValidDims 1 [0])⟩⟩
  have hm : (Gate.X (.int 0) (noise := some [a.inst])).mat 1 .unitary [] = gateMat 1 StdGate.X.mat [0] [] := hx.mat
  show [expVal (onQubit 1 !![1, 0; 0, -1] 0) (a.chan 1 0 (conjBy ((Gate.X (.int 0) (noise := some [a.inst])).mat 1 .unitary []) _))] = _
  have hU := hx.unitary.1
  rw [← hx.mat, hm] at hU
  rw [hm, expVal, chan_mean_z ha (by norm_num), flip_mean, conjBy_trace hU, zero1_density.2]
  simp
  ring

theorem flip_plain_value : expectation so eigh draw (.vec zero1) plainFlip [obsZ] [] .gpsr 0 = .ok [-1] := by
  have h : BaseSetting so 1 [] plainFlip.gates [[]] (.vec zero1) [obsZ] [gateMat 1 StdGate.Z.mat [0] []] :=
    (noisyFlip_setting so (a := .bitFlip 0) ⟨le_rfl, zero_le_one⟩).noiseless
  rw [expectation_exact so eigh draw (.inl rfl) plainFlip_plain h]
  refine congrArg Except.ok ?_
  have hx : (Gate.X (.int 0)).Std 1 [] .X := ⟨.X _ _ _, rfl, ⟨.inr (.inl rfl), (by decide : ValidDims 1 [0])⟩⟩
  have hm : (Gate.X (.int 0)).mat 1 .unitary [] = gateMat 1 StdGate.X.mat [0] [] := hx.mat
  show [expVal (onQubit 1 !![1, 0; 0, -1] 0) (conjBy ((Gate.X (.int 0)).mat 1 .unitary []) _)] = _
  rw [hm, expVal, flip_mean]
  simp

theorem flip_spectrum : (gateMat 1 StdGate.Z.mat [0] []).IsHermitian ∧ SpectrumIn (gateMat 1 StdGate.Z.mat [0] []) (-1) 1 := by
  constructor
  · ext i j
    have hl : ∀ i : Lab 1, i = lab1 (i 0) := fun i => funext fun k => by rw [Subsingleton.elim k 0]; rfl
    rw [hl i, hl j, Matrix.conjTranspose_apply, gateMat_lab1, gateMat_lab1]
    generalize i 0 = a
    generalize j 0 = b
    fin_cases a <;> fin_cases b <;> simp [StdGate.mat, matE]
  · intro x v hv hx
    have h0 := congrFun hx (lab1 0)
    have h1 := congrFun hx (lab1 1)
    rw [mulVec_lab1] at h0 h1
    simp [StdGate.mat, matE] at h0 h1
    by_cases hz : v (lab1 0) = 0
    · have hz' : v (lab1 1) ≠ 0 := fun h => hv (funext fun i => by
        have hl : i = lab1 (i 0) := funext fun k => by rw [Subsingleton.elim k 0]; rfl
        rw [hl]
        generalize i 0 = a
        fin_cases a
        exacts [hz, h])
      have : (x : ℂ) = (-1 : ℝ) := by
        apply mul_right_cancel₀ hz'
        rw [← h1]; simp
      have := Complex.ofReal_injective this
      constructor <;> linarith
    · have : (x : ℂ) = (1 : ℝ) := by
        apply mul_right_cancel₀ hz
        simpa using h0.symm
      have := Complex.ofReal_injective this
      constructor <;> linarith

/-- **C87** (the bound is attained): for `X(0)` with a bit flip of probability `p`, or with amplitude damping at rate `p`,
the two sides of the bound are equal, for every `p`. -/
theorem C87_attained {p : ℝ} (h0 : 0 ≤ p) (h1 : p ≤ 1) {a : StdNoise} (ha : a = .bitFlip p ∨ a = .amplitudeDamping p) :
    a.Valid ∧ plainFlip.gates = (noisyFlip a).gates.map Gate.noiseless ∧
    ∃ x y, expectation so eigh draw (.vec zero1) (noisyFlip a) [obsZ] [] .gpsr 0 = .ok [x] ∧
      expectation so eigh draw (.vec zero1) plainFlip [obsZ] [] .gpsr 0 = .ok [y] ∧
      SpectrumIn (gateMat 1 StdGate.Z.mat [0] []) (-1) 1 ∧ |x - y| = a.strength * (1 - (-1)) := by
  have hv : a.Valid := by rcases ha with rfl | rfl <;> exact ⟨h0, h1⟩
  refine ⟨hv, rfl, _, _, flip_value so eigh draw hv, flip_plain_value so eigh draw, flip_spectrum.2, ?_⟩
  rcases ha with rfl | rfl
  · rw [show (StdNoise.bitFlip p).drift - (StdNoise.bitFlip p).shrink - -1 = 2 * p by simp only [StdNoise.drift, StdNoise.shrink]; ring,
      abs_of_nonneg (by linarith), StdNoise.strength]
    ring
  · rw [show (StdNoise.amplitudeDamping p).drift - (StdNoise.amplitudeDamping p).shrink - -1 = 2 * p by
        simp only [StdNoise.drift, StdNoise.shrink]; ring,
      abs_of_nonneg (by linarith), StdNoise.strength]
    ring

/-- Non-vacuity of `C87_robust` and `C87_mixture`: the hypotheses hold for `X(0)` with a bit flip, and the noise matters. -/
example : (noisyFlip (.bitFlip (1 / 4))).Plain ∧ plainFlip.Plain ∧
    plainFlip.gates = (noisyFlip (.bitFlip (1 / 4))).gates.map Gate.noiseless ∧
    ExactMode .gpsr [] (.vec zero1) (noisyFlip (.bitFlip (1 / 4))) ∧
    BaseSetting so 1 [] (noisyFlip (.bitFlip (1 / 4))).gates [[.bitFlip (1 / 4)]] (.vec zero1) [obsZ] [gateMat 1 StdGate.Z.mat [0] []] ∧
    ((State.vec zero1).mat 1).PosSemidef ∧ ((State.vec zero1).mat 1).trace = 1 ∧
    (∀ ns ∈ [[StdNoise.bitFlip (1 / 4)]], ∀ s ∈ ns, s.IsMixture) ∧
    (gateMat 1 StdGate.Z.mat [0] []).IsHermitian ∧ SpectrumIn (gateMat 1 StdGate.Z.mat [0] []) (-1) 1 ∧
    expectation so eigh draw (.vec zero1) (noisyFlip (.bitFlip (1 / 4))) [obsZ] [] .gpsr 0
      ≠ expectation so eigh draw (.vec zero1) plainFlip [obsZ] [] .gpsr 0 := by
  have hv : (StdNoise.bitFlip (1 / 4)).Valid := by constructor <;> norm_num
  refine ⟨noisyFlip_plain _, plainFlip_plain, rfl, .inl rfl, noisyFlip_setting so hv, zero1_density.1, zero1_density.2, ?_,
    flip_spectrum.1, flip_spectrum.2, ?_⟩
  · simp [StdNoise.IsMixture]
  · rw [flip_value so eigh draw hv, flip_plain_value]
    norm_num [StdNoise.drift, StdNoise.shrink]

end Verif
