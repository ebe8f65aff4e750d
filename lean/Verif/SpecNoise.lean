import Verif.SpecGates

/-!
# Textbook noise channels

The channels named in `horqrux.noise`, as maps on matrices, independent of the model of the code.
-/

namespace Verif

/-- `ρ ↦ M ρ M†`. -/
def conjBy {ι : Type} [Fintype ι] (M ρ : Matrix ι ι ℂ) : Matrix ι ι ℂ := M * ρ * M.conjTranspose

/-- A one-qubit matrix on qubit `t` of an `n`-qubit register. -/
def onQubit (n : ℕ) (M : Matrix (Fin 2) (Fin 2) ℂ) (t : ℕ) : Matrix (Lab n) (Lab n) ℂ := gateMat n (matE M) [t] []

/-- The noise channels with their parameters. -/
inductive StdNoise
  | bitFlip (p : ℝ) | phaseFlip (p : ℝ) | depolarizing (p : ℝ) | pauli (px py pz : ℝ)
  | amplitudeDamping (γ : ℝ) | phaseDamping (γ : ℝ) | generalizedAmplitudeDamping (p γ : ℝ)

/-- The accepted parameters. -/
def StdNoise.Valid : StdNoise → Prop
  | .bitFlip p | .phaseFlip p | .depolarizing p | .amplitudeDamping p | .phaseDamping p => 0 ≤ p ∧ p ≤ 1
  | .pauli px py pz => 0 ≤ px ∧ 0 ≤ py ∧ 0 ≤ pz ∧ px + py + pz ≤ 1
  | .generalizedAmplitudeDamping p γ => (0 ≤ p ∧ p ≤ 1) ∧ 0 ≤ γ ∧ γ ≤ 1

/-- The action of a noise channel on qubit `t` of an `n`-qubit density matrix: the formulas of the documentation. -/
noncomputable def StdNoise.chan (n t : ℕ) (ρ : Matrix (Lab n) (Lab n) ℂ) : StdNoise → Matrix (Lab n) (Lab n) ℂ
  | .bitFlip p => ((1 - p : ℝ) : ℂ) • ρ + (p : ℂ) • conjBy (onQubit n !![0, 1; 1, 0] t) ρ
  | .phaseFlip p => ((1 - p : ℝ) : ℂ) • ρ + (p : ℂ) • conjBy (onQubit n !![1, 0; 0, -1] t) ρ
  | .depolarizing p => ((1 - p : ℝ) : ℂ) • ρ + ((p / 3 : ℝ) : ℂ) • conjBy (onQubit n !![0, 1; 1, 0] t) ρ
      + ((p / 3 : ℝ) : ℂ) • conjBy (onQubit n !![0, -Complex.I; Complex.I, 0] t) ρ
      + ((p / 3 : ℝ) : ℂ) • conjBy (onQubit n !![1, 0; 0, -1] t) ρ
  | .pauli px py pz => ((1 - px - py - pz : ℝ) : ℂ) • ρ + (px : ℂ) • conjBy (onQubit n !![0, 1; 1, 0] t) ρ
      + (py : ℂ) • conjBy (onQubit n !![0, -Complex.I; Complex.I, 0] t) ρ
      + (pz : ℂ) • conjBy (onQubit n !![1, 0; 0, -1] t) ρ
  | .amplitudeDamping γ => conjBy (onQubit n !![1, 0; 0, (√(1 - γ) : ℝ)] t) ρ
      + conjBy (onQubit n !![0, (√γ : ℝ); 0, 0] t) ρ
  | .phaseDamping γ => conjBy (onQubit n !![1, 0; 0, (√(1 - γ) : ℝ)] t) ρ
      + conjBy (onQubit n !![0, 0; 0, (√γ : ℝ)] t) ρ
  | .generalizedAmplitudeDamping p γ =>
      (p : ℂ) • (conjBy (onQubit n !![1, 0; 0, (√(1 - γ) : ℝ)] t) ρ + conjBy (onQubit n !![0, (√γ : ℝ); 0, 0] t) ρ)
      + ((1 - p : ℝ) : ℂ) • (conjBy (onQubit n !![(√(1 - γ) : ℝ), 0; 0, 1] t) ρ
        + conjBy (onQubit n !![0, 0; (√γ : ℝ), 0] t) ρ)

/-- The error probability is zero (for generalized amplitude damping: the damping rate is zero). -/
def StdNoise.IsZero : StdNoise → Prop
  | .bitFlip p | .phaseFlip p | .depolarizing p | .amplitudeDamping p | .phaseDamping p => p = 0
  | .pauli px py pz => px = 0 ∧ py = 0 ∧ pz = 0
  | .generalizedAmplitudeDamping _ γ => γ = 0

end Verif
