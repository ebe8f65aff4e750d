import Mathlib.Analysis.SpecialFunctions.Trigonometric.Deriv
import Mathlib.Analysis.SpecialFunctions.ExpDeriv
import Mathlib.Analysis.Calculus.ContDiff.Operations
import Verif.Lemmas.Gpsr
import Verif.Props.Vqe

/-! # Smoothness in all parameters -/

set_option autoImplicit false

namespace Verif
variable {n : ℕ} {E : Type} [NormedAddCommGroup E] [NormedSpace ℝ E] {k : WithTop ℕ∞}

/-- Every entry is `k` times continuously differentiable. -/
def EntrySmooth (k : WithTop ℕ∞) (M : E → Matrix (Lab n) (Lab n) ℂ) : Prop := ∀ i j, ContDiff ℝ k fun x => M x i j

namespace EntrySmooth
variable {M N : E → Matrix (Lab n) (Lab n) ℂ}

theorem const (A : Matrix (Lab n) (Lab n) ℂ) : EntrySmooth k fun _ : E => A := fun _ _ => contDiff_const

theorem add (h : EntrySmooth k M) (h' : EntrySmooth k N) : EntrySmooth k fun x => M x + N x := fun i j => (h i j).add (h' i j)

theorem smul (c : ℂ) (h : EntrySmooth k M) : EntrySmooth k fun x => c • M x := fun i j => contDiff_const.mul (h i j)

theorem mul (h : EntrySmooth k M) (h' : EntrySmooth k N) : EntrySmooth k fun x => M x * N x := fun i j => by
  simp only [Matrix.mul_apply]
  exact ContDiff.sum fun l _ => (h i l).mul (h' l j)

theorem conjTranspose (h : EntrySmooth k M) : EntrySmooth k fun x => (M x).conjTranspose := fun i j =>
  Complex.conjCLE.contDiff.comp (h j i)

theorem conjBy (h : EntrySmooth k M) (h' : EntrySmooth k N) : EntrySmooth k fun x => Verif.conjBy (M x) (N x) :=
  (h.mul h').mul h.conjTranspose

theorem gateMat {U : E → ℕ → ℕ → ℂ} (h : ∀ a b, ContDiff ℝ k fun x => U x a b) (ts cs : List ℕ) :
    EntrySmooth k fun x => Verif.gateMat n (U x) ts cs := fun i j => by
  simp only [Verif.gateMat]
  by_cases h1 : ∀ c ∈ cs, i.bit c = 1
  · simp only [if_pos h1]
    by_cases h2 : Lab.AgreeOff ts i j
    · simp only [if_pos h2]; exact h _ _
    · simp only [if_neg h2]; exact contDiff_const
  · simp only [if_neg h1]; exact contDiff_const

theorem chan (h : EntrySmooth k M) (t : ℕ) (s : StdNoise) : EntrySmooth k fun x => s.chan n t (M x) := by
  have hc : ∀ A : Matrix (Lab n) (Lab n) ℂ, EntrySmooth k fun x => Verif.conjBy A (M x) := fun A => (const A).conjBy h
  cases s with
  | bitFlip p => exact (h.smul _).add ((hc _).smul _)
  | phaseFlip p => exact (h.smul _).add ((hc _).smul _)
  | depolarizing p => exact (((h.smul _).add ((hc _).smul _)).add ((hc _).smul _)).add ((hc _).smul _)
  | pauli px py pz => exact (((h.smul _).add ((hc _).smul _)).add ((hc _).smul _)).add ((hc _).smul _)
  | amplitudeDamping γ => exact (hc _).add (hc _)
  | phaseDamping γ => exact (hc _).add (hc _)
  | generalizedAmplitudeDamping p γ => exact (((hc _).add (hc _)).smul _).add (((hc _).add (hc _)).smul _)

theorem noisyStep (h : EntrySmooth k M) (h' : EntrySmooth k N) (t : ℕ) (ns : List StdNoise) :
    EntrySmooth k fun x => Verif.noisyStep n (M x) t ns (N x) := by
  unfold Verif.noisyStep
  have key : ∀ (ns : List StdNoise) (A : E → Matrix (Lab n) (Lab n) ℂ), EntrySmooth k A →
      EntrySmooth k fun x => ns.foldl (fun ρ s => s.chan n t ρ) (A x) := by
    intro ns
    induction ns with
    | nil => exact fun A hA => hA
    | cons s ns ih => exact fun A hA => ih _ (hA.chan t s)
  exact key ns _ (h.conjBy h')

theorem expVal (h : EntrySmooth k M) (O : Matrix (Lab n) (Lab n) ℂ) : ContDiff ℝ k fun x => Verif.expVal O (M x) := by
  have key : ContDiff ℝ k fun x => (O * M x).trace := by
    simp only [Matrix.trace, Matrix.diag]
    exact ContDiff.sum fun i _ => (const O).mul h i i
  exact Complex.reCLM.contDiff.comp key

end EntrySmooth

theorem matE_smooth {d : ℕ} {M : E → Matrix (Fin d) (Fin d) ℂ} (h : ∀ i j, ContDiff ℝ k fun x => M x i j) (a b : ℕ) :
    ContDiff ℝ k fun x => matE (M x) a b := by
  unfold matE
  by_cases hab : a < d ∧ b < d
  · simp only [dif_pos hab]; exact h _ _
  · simp only [dif_neg hab]; exact contDiff_const

theorem rotFam_smooth {R : ℝ → StdGate} (h : RotFam R) {u : E → ℝ} (hu : ContDiff ℝ k u) (a b : ℕ) :
    ContDiff ℝ k fun x => (R (u x)).mat a b := by
  have huc : ContDiff ℝ k fun x => ((u x : ℝ) : ℂ) := Complex.ofRealCLM.contDiff.comp hu
  have h2 : ContDiff ℝ k fun x => u x / 2 := hu.div_const 2
  have hcos : ContDiff ℝ k fun x => ((Real.cos (u x / 2) : ℝ) : ℂ) := Complex.ofRealCLM.contDiff.comp (Real.contDiff_cos.comp h2)
  have hsin : ContDiff ℝ k fun x => ((Real.sin (u x / 2) : ℝ) : ℂ) := Complex.ofRealCLM.contDiff.comp (Real.contDiff_sin.comp h2)
  cases h with
  | RX =>
    refine matE_smooth (fun i j => ?_) a b
    fin_cases i <;> fin_cases j <;> [exact hcos; exact contDiff_const.mul hsin; exact contDiff_const.mul hsin; exact hcos]
  | RY =>
    refine matE_smooth (fun i j => ?_) a b
    fin_cases i <;> fin_cases j <;> [exact hcos; exact hsin.neg; exact hsin; exact hcos]
  | RZ =>
    refine matE_smooth (fun i j => ?_) a b
    fin_cases i <;> fin_cases j <;> [exact ((contDiff_const.mul huc).div_const 2).cexp; exact contDiff_const; exact contDiff_const;
      exact ((contDiff_const.mul huc).div_const 2).cexp]
  | PHASE =>
    refine matE_smooth (fun i j => ?_) a b
    fin_cases i <;> fin_cases j <;> [exact contDiff_const; exact contDiff_const; exact contDiff_const;
      exact (contDiff_const.mul huc).cexp]

/-- Values that depend on `x : E`: every name has a smooth number. -/
def SmoothValues (k : WithTop ℕ∞) (vals : E → Values) (names : List String) : Prop :=
  ∀ p ∈ names, ∃ u : E → ℝ, ContDiff ℝ k u ∧ ∀ x, (vals x).lookup p = some (.num (u x))

theorem Gate.Std.smooth {vals : E → Values} {names : List String} (hv : SmoothValues k vals names) {g : Gate} {x₀ : E} {s : StdGate}
    (h : g.Std n (vals x₀) s) (hu : ∀ p, g.Uses p → p ∈ names) :
    (∀ x, ∃ s, g.Std n (vals x) s) ∧ EntrySmooth k fun x => g.mat n .unitary (vals x) := by
  by_cases hp : ∃ p, g.Uses p
  · obtain ⟨p, hp⟩ := hp
    obtain ⟨sh, R, hR⟩ := h.named hp
    obtain ⟨u, hu, hx⟩ := hv p (hu p hp)
    obtain ⟨t, ht⟩ := hR.target
    refine ⟨fun x => ⟨_, hR.std h.valid (hx x)⟩, ?_⟩
    have e : (fun x => g.mat n .unitary (vals x)) = fun x => gateMat n (R (u x + sh)).mat [t] (ctlInts g.control) := by
      funext x
      rw [(hR.std h.valid (hx x)).mat, stdMat, ht]
    rw [e]
    exact EntrySmooth.gateMat (rotFam_smooth hR.fam (hu.add contDiff_const)) _ _
  · have hs : ∀ x, g.Std n (vals x) s := fun x => h.congr fun q hq => absurd ⟨q, hq⟩ hp
    refine ⟨fun x => ⟨s, hs x⟩, ?_⟩
    have e : (fun x => g.mat n .unitary (vals x)) = fun _ => stdMat n g s := funext fun x => (hs x).mat
    rw [e]
    exact EntrySmooth.const _

theorem noisyRun_smooth {vals : E → Values} (l : List (Gate × List StdNoise))
    (h : ∀ e ∈ l, EntrySmooth k fun x => e.1.mat n .unitary (vals x)) :
    ∀ {A : E → Matrix (Lab n) (Lab n) ℂ}, EntrySmooth k A → EntrySmooth k fun x => noisyRun n .unitary (vals x) l (A x) := by
  induction l with
  | nil => exact fun hA => hA
  | cons e l ih =>
    obtain ⟨g, ns⟩ := e
    intro A hA
    simp only [noisyRun]
    exact ih (fun e he => h e (by simp [he])) ((h (g, ns) (by simp)).noisyStep hA _ _)

end Verif
