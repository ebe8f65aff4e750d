import Verif.Lemmas.Shift
import Verif.Lemmas.Shots
import Verif.Props.Shots
import Verif.Props.Spectrum
import Mathlib.Analysis.Normed.Algebra.MatrixExponential

/-!
# C82: the generalised parameter-shift rule of the documentation

docs/differentiation.md:30-62 states the rule for all generators.  The code uses one gap per parameter
(`initialize_gpsr_ingredients`), see C23 to C25.
-/

set_option autoImplicit false

namespace Verif
open NDArray
variable {n : ℕ} {values : Values} (so : SetOrder) (eigh : Eigh) (draw : Draw)
  {nss : List (List StdNoise)} {st : State} {obs : List Observable} {Os : List (Matrix (Lab n) (Lab n) ℂ)}

/-- `U(x) = exp(-i x G / 2)` (docs/differentiation.md:36). -/
noncomputable def generated {d : ℕ} (G : Matrix (Fin d) (Fin d) ℂ) (x : ℝ) : Matrix (Fin d) (Fin d) ℂ :=
  NormedSpace.exp ((-(Complex.I * (x / 2 : ℝ))) • G)

theorem generated_eigh {d : ℕ} {G : Matrix (Fin d) (Fin d) ℂ} (hG : G.IsHermitian) (x : ℝ) :
    generated G x = eigh.vecs G * Matrix.diagonal (fun i => Complex.exp (-(Complex.I * (x / 2 : ℝ)) * eigh.vals G i))
      * (eigh.vecs G).conjTranspose := by
  have hu : IsUnit (eigh.vecs G) := (Matrix.isUnit_iff_isUnit_det _).2 (by
    have := congrArg Matrix.det (eigh.unitary G)
    rw [Matrix.det_mul, Matrix.det_one] at this
    exact IsUnit.of_mul_eq_one_right _ this)
  have hinv : (eigh.vecs G)⁻¹ = (eigh.vecs G).conjTranspose := Matrix.inv_eq_left_inv (eigh.unitary G)
  have hGV : (-(Complex.I * (x / 2 : ℝ))) • G = eigh.vecs G
      * Matrix.diagonal (fun i => -(Complex.I * (x / 2 : ℝ)) * eigh.vals G i) * (eigh.vecs G)⁻¹ := by
    have h1 : G = eigh.vecs G * Matrix.diagonal (fun i => (eigh.vals G i : ℂ)) * (eigh.vecs G)⁻¹ := by
      rw [← eigh.eigen_hermitian hG, hinv, Matrix.mul_assoc, eigh.mul_conj, Matrix.mul_one]
    have h2 : Matrix.diagonal (fun i => -(Complex.I * (x / 2 : ℝ)) * (eigh.vals G i : ℂ))
        = (-(Complex.I * (x / 2 : ℝ))) • Matrix.diagonal (fun i => (eigh.vals G i : ℂ)) := by
      rw [← Matrix.diagonal_smul]; rfl
    rw [h2, Matrix.mul_smul, Matrix.smul_mul, ← h1]
  rw [generated, hGV, Matrix.exp_conj _ _ hu, Matrix.exp_diagonal, hinv]
  congr 3
  funext i
  rw [Pi.coe_exp, Complex.exp_eq_exp_ℂ]

/-- **C82** (the documentation's formula): let `f(x) = Re ⟨ψ|U†(x) C U(x)|ψ⟩` with `U(x) = exp(-i x G / 2)` for a Hermitian
generator `G`, and let the nonzero differences of eigenvalues of `G` be, up to sign, among the gaps `Δ_s`.  If the matrix
`sin(δ_j Δ_s / 2)` of the shifts is regular, the solution `R` of the system gives the derivative `Σ_s Δ_s R_s`. -/
theorem C82_formula {d S : ℕ} {G : Matrix (Fin d) (Fin d) ℂ} (hG : G.IsHermitian) (C : Matrix (Fin d) (Fin d) ℂ) (ψ : Fin d → ℂ)
    (Δ δ R : Fin S → ℝ)
    (hΔ : ∀ (v w : Fin d → ℂ) (a b : ℝ), v ≠ 0 → w ≠ 0 → G.mulVec v = (a : ℂ) • v → G.mulVec w = (b : ℂ) • w → a < b →
      ∃ s, b - a = Δ s)
    (hδ : (Matrix.of fun j s => Real.sin (δ j * Δ s / 2)).det ≠ 0) (x : ℝ)
    (hR : GapSystem (fun x => (star ((generated G x).mulVec ψ) ⬝ᵥ C.mulVec ((generated G x).mulVec ψ)).re) x Δ δ R) :
    HasDerivAt (fun x => (star ((generated G x).mulVec ψ) ⬝ᵥ C.mulVec ((generated G x).mulVec ψ)).re) (∑ s, Δ s * R s) x := by
  obtain ⟨eigh⟩ := eigh_exists
  set f : ℝ → ℝ := fun x => (star ((generated G x).mulVec ψ) ⬝ᵥ C.mulVec ((generated G x).mulVec ψ)).re with hfdef
  set V := eigh.vecs G with hV
  set φ : Fin d → ℂ := V.conjTranspose.mulVec ψ with hφ
  set K : Matrix (Fin d) (Fin d) ℂ := V.conjTranspose * C * V with hK
  have hf : ∀ x, f x = ∑ p : Fin d × Fin d, ((star (φ p.1) * K p.1 p.2 * φ p.2)
      * Complex.exp ((x * (eigh.vals G p.1 - eigh.vals G p.2) / 2 : ℝ) * Complex.I)).re := by
    intro x
    set e : Fin d → ℂ := fun i => Complex.exp (-(Complex.I * (x / 2 : ℝ)) * eigh.vals G i) with he
    have h1 : (generated G x).mulVec ψ = V.mulVec (fun i => e i * φ i) := by
      rw [generated_eigh eigh hG, ← Matrix.mulVec_mulVec, ← Matrix.mulVec_mulVec]
      congr 1
      funext i
      rw [Matrix.mulVec_diagonal]
    have h2 : star ((generated G x).mulVec ψ) ⬝ᵥ C.mulVec ((generated G x).mulVec ψ)
        = star (fun i => e i * φ i) ⬝ᵥ K.mulVec (fun i => e i * φ i) := by
      rw [h1, Matrix.star_mulVec, ← Matrix.dotProduct_mulVec, Matrix.mulVec_mulVec, Matrix.mulVec_mulVec, hK, Matrix.mul_assoc]
    rw [hfdef]
    simp only
    rw [h2, dotProduct, Complex.re_sum, Fintype.sum_prod_type]
    refine Finset.sum_congr rfl fun i _ => ?_
    rw [Matrix.mulVec, dotProduct, Finset.mul_sum, Complex.re_sum]
    refine Finset.sum_congr rfl fun j _ => ?_
    refine congrArg Complex.re ?_
    have h3 : star (e i) * e j = Complex.exp ((x * (eigh.vals G i - eigh.vals G j) / 2 : ℝ) * Complex.I) := by
      rw [he, Complex.star_def, ← Complex.exp_conj, ← Complex.exp_add]
      refine congrArg Complex.exp ?_
      simp only [map_mul, map_neg, Complex.conj_I, Complex.conj_ofReal]
      push_cast
      ring
    rw [← h3, Pi.star_apply, star_mul']
    ring
  have hg : ∀ p : Fin d × Fin d, eigh.vals G p.1 - eigh.vals G p.2 = 0 ∨
      ∃ s, eigh.vals G p.1 - eigh.vals G p.2 = Δ s ∨ eigh.vals G p.1 - eigh.vals G p.2 = -Δ s := by
    intro p
    obtain ⟨v, hv, hve⟩ := eigh.eigenvector hG p.1
    obtain ⟨w, hw, hwe⟩ := eigh.eigenvector hG p.2
    rcases lt_trichotomy (eigh.vals G p.1) (eigh.vals G p.2) with h | h | h
    · obtain ⟨s, hs⟩ := hΔ v w _ _ hv hw hve hwe h
      exact .inr ⟨s, .inr (by linarith)⟩
    · exact .inl (by rw [h, sub_self])
    · obtain ⟨s, hs⟩ := hΔ w v _ _ hw hv hwe hve h
      exact .inr ⟨s, .inl hs⟩
  obtain ⟨R', k1, k2⟩ := gap_rule _ _ hf Δ hg x
  have : R' = R := by
    have h0 : (Matrix.of fun j s => Real.sin (δ j * Δ s / 2)).mulVec (R' - R) = 0 := by
      funext j
      have e1 := k1 δ j
      have e2 := hR j
      rw [Matrix.mulVec, dotProduct]
      simp only [Matrix.of_apply, Pi.sub_apply, mul_sub, Finset.sum_sub_distrib, Pi.zero_apply]
      linarith
    have := Matrix.eq_zero_of_mulVec_eq_zero hδ h0
    exact sub_eq_zero.1 this
  rw [← this]; exact k2

/-- Non-vacuity: the generator `Z` has the gap `2`, and the shift `π/2` gives a regular system. -/
example : (Matrix.diagonal ![(1 : ℂ), -1]).IsHermitian ∧
    (∀ (v w : Fin 2 → ℂ) (a b : ℝ), v ≠ 0 → w ≠ 0 → (Matrix.diagonal ![(1 : ℂ), -1]).mulVec v = (a : ℂ) • v →
      (Matrix.diagonal ![(1 : ℂ), -1]).mulVec w = (b : ℂ) • w → a < b → ∃ s : Fin 1, b - a = (![2] : Fin 1 → ℝ) s) ∧
    (Matrix.of fun j s => Real.sin ((![Real.pi / 2] : Fin 1 → ℝ) j * (![2] : Fin 1 → ℝ) s / 2)).det ≠ 0 := by
  have key : ∀ (v : Fin 2 → ℂ) (a : ℝ), v ≠ 0 → (Matrix.diagonal ![(1 : ℂ), -1]).mulVec v = (a : ℂ) • v → a = 1 ∨ a = -1 := by
    intro v a hv h
    by_contra hc
    rw [not_or] at hc
    refine hv ?_
    funext i
    have := congrFun h i
    rw [Matrix.mulVec_diagonal, Pi.smul_apply, smul_eq_mul] at this
    fin_cases i
    · have h2 : (1 - (a : ℂ)) * v 0 = 0 := by simp at this; linear_combination this
      refine (mul_eq_zero.1 h2).resolve_left fun h3 => hc.1 ?_
      have : (a : ℂ) = 1 := by linear_combination -h3
      exact_mod_cast this
    · have h2 : (1 + (a : ℂ)) * v 1 = 0 := by simp at this; linear_combination -this
      refine (mul_eq_zero.1 h2).resolve_left fun h3 => hc.2 ?_
      have : (a : ℂ) = -1 := by linear_combination h3
      exact_mod_cast this
  refine ⟨?_, fun v w a b hv hw ha hb hab => ⟨0, ?_⟩, ?_⟩
  · rw [Matrix.IsHermitian, Matrix.diagonal_conjTranspose]
    refine congrArg _ (funext fun i => ?_)
    fin_cases i <;> simp
  · rcases key v a hv ha with rfl | rfl <;> rcases key w b hw hb with rfl | rfl <;> revert hab <;> norm_num
  · rw [Matrix.det_fin_one]
    simp

/-- **C82** (rotations without controls): in a parameter used by at most `m` gates, the documentation's rule with the gaps
`2, 4, …, 2m` and any `m` distinct shifts between `0` and `π`, applied to the values that the code returns, gives the exact
derivative.  For `m = 1` and the shift `π/2` this is the rule that the code uses. -/
theorem C82_uncontrolled {mode : DiffMode} {circuit : Op} (hm : ExactMode mode values st circuit) (hp : circuit.Plain)
    (h : Setting so n values circuit.gates nss st obs Os) (p : String) {m : ℕ} (hu : numUses circuit.gates p ≤ m) :
    ∃ f : ℝ → List ℝ, (∀ x, expectation so eigh draw st circuit obs (values.upd p x) mode 0 = .ok (f x)) ∧
      ∀ i x, (∃ R, ∀ δ : Fin m → ℝ, GapSystem (fun x => (f x).getD i 0) x (fun s : Fin m => 2 * (s + 1)) δ R) ∧
        ∀ δ R : Fin m → ℝ, Function.Injective δ → (∀ j, 0 < δ j ∧ δ j < Real.pi) →
          GapSystem (fun x => (f x).getD i 0) x (fun s : Fin m => 2 * (s + 1)) δ R →
          HasDerivAt (fun x => (f x).getD i 0) (∑ s : Fin m, 2 * (s + 1) * R s) x := by
  obtain ⟨f, h1, -, h3⟩ := C75_trig so eigh draw hm hp h p
  refine ⟨f, h1, fun i x => ?_⟩
  have hf : ∀ x, (f x).getD i 0 = (fun y => (f y).getD i 0) (1 * x) := fun x => by rw [one_mul]
  have e : ∀ s : Fin m, (2 * 1 * ((s : ℕ) + 1) : ℝ) = 2 * (s + 1) := fun s => by ring
  constructor
  · obtain ⟨R, hR, -⟩ := ((h3 i).mono hu).gap_rule (f := fun y => (f y).getD i 0) (c := 1) hf x
    simp only [e] at hR
    exact ⟨R, fun δ => hR δ⟩
  · intro δ R hi hr hR
    have := ((h3 i).mono hu).gap_solution (f := fun y => (f y).getD i 0) (c := 1) one_pos hf (δ := δ) (R := R) hi
      (fun j => by simpa using hr j) (by simpa only [e] using hR)
    simpa only [e] using this

/-- **C82** (rotations with controls): the rule with the gaps `1, 2, …, 2m` and any `2m` distinct shifts between `0` and
`2π` gives the exact derivative, also where the code's rule is wrong (`C25_controlled_wrong`). -/
theorem C82_controlled {mode : DiffMode} {circuit : Op} (hm : ExactMode mode values st circuit) (hp : circuit.Plain)
    (h : BaseSetting so n values circuit.gates nss st obs Os) (p : String) {m : ℕ} (hu : numUses circuit.gates p ≤ m) :
    ∃ f : ℝ → List ℝ, (∀ x, expectation so eigh draw st circuit obs (values.upd p x) mode 0 = .ok (f x)) ∧
      ∀ i x, (∃ R, ∀ δ : Fin (2 * m) → ℝ, GapSystem (fun x => (f x).getD i 0) x (fun s : Fin (2 * m) => s + 1) δ R) ∧
        ∀ δ R : Fin (2 * m) → ℝ, Function.Injective δ → (∀ j, 0 < δ j ∧ δ j < 2 * Real.pi) →
          GapSystem (fun x => (f x).getD i 0) x (fun s : Fin (2 * m) => s + 1) δ R →
          HasDerivAt (fun x => (f x).getD i 0) (∑ s : Fin (2 * m), (s + 1) * R s) x := by
  obtain ⟨f, h1, -, h3⟩ := C75_half so eigh draw hm hp h p
  refine ⟨f, h1, fun i x => ?_⟩
  have hf : ∀ x, (f x).getD i 0 = (fun y => (f (2 * y)).getD i 0) (1 / 2 * x) := fun x => by
    simp only; rw [show 2 * (1 / 2 * x) = x by ring]
  have e : ∀ s : Fin (2 * m), (2 * (1 / 2) * ((s : ℕ) + 1) : ℝ) = s + 1 := fun s => by ring
  have hmono : 2 * numUses circuit.gates p ≤ 2 * m := by omega
  constructor
  · obtain ⟨R, hR, -⟩ := ((h3 i).mono hmono).gap_rule (f := fun y => (f y).getD i 0) (c := 1 / 2) hf x
    simp only [e] at hR
    exact ⟨R, fun δ => hR δ⟩
  · intro δ R hi hr hR
    have := ((h3 i).mono hmono).gap_solution (f := fun y => (f y).getD i 0) (c := 1 / 2) (by norm_num) hf (δ := δ) (R := R) hi
      (fun j => ⟨(hr j).1, by have := (hr j).2; linarith⟩) (by simpa only [e] using hR)
    simpa only [e] using this

/-- **C82** (an explicit rule for one controlled rotation): four evaluations of the code give the exact derivative in a
parameter used by at most one gate, with or without controls. -/
theorem C82_four_term {mode : DiffMode} {circuit : Op} (hm : ExactMode mode values st circuit) (hp : circuit.Plain)
    (h : BaseSetting so n values circuit.gates nss st obs Os) (p : String) (hu : numUses circuit.gates p ≤ 1) :
    ∃ f : ℝ → List ℝ, (∀ x, expectation so eigh draw st circuit obs (values.upd p x) mode 0 = .ok (f x)) ∧
      ∀ i x, HasDerivAt (fun x => (f x).getD i 0)
        (((f (x + Real.pi / 2)).getD i 0 - (f (x - Real.pi / 2)).getD i 0) / 2
          - (Real.sqrt 2 - 1) / 4 * ((f (x + Real.pi)).getD i 0 - (f (x - Real.pi)).getD i 0)) x := by
  obtain ⟨f, h1, h2⟩ := C82_controlled so eigh draw hm hp h p (m := 1) hu
  refine ⟨f, h1, fun i x => ?_⟩
  obtain ⟨⟨R, hR⟩, h3⟩ := h2 i x
  have hpi := Real.pi_pos
  have := h3 ![Real.pi / 2, Real.pi] R (fun a b hab => by
      have hab : ![Real.pi / 2, Real.pi] a = ![Real.pi / 2, Real.pi] b := hab
      revert hab
      fin_cases a <;> fin_cases b <;> simp <;> linarith) (by
      intro j
      fin_cases j <;> simp <;> constructor <;> linarith) (hR _)
  refine this.congr_deriv ?_
  have e0 := hR ![Real.pi / 2, Real.pi] 0
  have e1 := hR ![Real.pi / 2, Real.pi] 1
  simp only [Nat.reduceMul, Fin.sum_univ_two, Matrix.cons_val_zero, Matrix.cons_val_one, Fin.val_zero, Fin.val_one, Nat.cast_zero, Nat.cast_one] at e0 e1 ⊢
  rw [show Real.pi / 2 * (0 + 1) / 2 = Real.pi / 4 by ring, show Real.pi / 2 * (1 + 1) / 2 = Real.pi / 2 by ring,
    Real.sin_pi_div_four, Real.sin_pi_div_two] at e0
  rw [show Real.pi * (0 + 1) / 2 = Real.pi / 2 by ring, show Real.pi * (1 + 1) / 2 = Real.pi by ring,
    Real.sin_pi_div_two, Real.sin_pi] at e1
  rw [e0, e1]
  have hs : Real.sqrt 2 * Real.sqrt 2 = 2 := Real.mul_self_sqrt (by norm_num)
  ring_nf

/-- Non-vacuity: the circuit with a controlled rotation for which the code's rule is wrong. -/
example : BaseSetting so 2 [("a", .num 0)] ctlRX.gates [[]] (.vec plusZero) [obsX0] [gateMat 2 StdGate.X.mat [0] []] ∧
    ctlRX.Plain ∧ ExactMode .gpsr [("a", .num 0)] (.vec plusZero) ctlRX ∧ numUses ctlRX.gates "a" ≤ 1 :=
  ⟨ctlSetting so ⟨by simp, by simp⟩ rfl, ctlRX_plain, .inl rfl, by
    rw [numUses]; exact List.countP_le_length.trans (by simp [ctlRX_gates])⟩

end Verif
