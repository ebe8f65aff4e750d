import Verif.SpecNoise

/-!
# Laws of noise: specification

Pairs of noise tuples that should have the same effect, the action of a channel on the mean of `Z`, and the purity.
-/

set_option autoImplicit false

namespace Verif

/-- Mixtures of Pauli operations. -/
def StdNoise.IsPauli : StdNoise → Prop
  | .bitFlip _ | .phaseFlip _ | .depolarizing _ | .pauli _ _ _ => True
  | _ => False

/-- Pure loss of phase. -/
def StdNoise.IsPhase : StdNoise → Prop
  | .phaseFlip _ | .phaseDamping _ => True
  | _ => False

/-- Pairs of noise tuples with the same effect. -/
inductive SameNoise : List StdNoise → List StdNoise → Prop
  | bitFlip (p q : ℝ) : SameNoise [.bitFlip p, .bitFlip q] [.bitFlip (p + q - 2 * p * q)]
  | phaseFlip (p q : ℝ) : SameNoise [.phaseFlip p, .phaseFlip q] [.phaseFlip (p + q - 2 * p * q)]
  | depolarizing (p q : ℝ) : SameNoise [.depolarizing p, .depolarizing q] [.depolarizing (p + q - 4 / 3 * p * q)]
  | amplitudeDamping (p q : ℝ) : SameNoise [.amplitudeDamping p, .amplitudeDamping q] [.amplitudeDamping (p + q - p * q)]
  | phaseDamping (p q : ℝ) : SameNoise [.phaseDamping p, .phaseDamping q] [.phaseDamping (p + q - p * q)]
  | pauli (a b c x y z : ℝ) : SameNoise [.pauli a b c, .pauli x y z]
      [.pauli ((1 - a - b - c) * x + a * (1 - x - y - z) + b * z + c * y)
        ((1 - a - b - c) * y + b * (1 - x - y - z) + a * z + c * x)
        ((1 - a - b - c) * z + c * (1 - x - y - z) + a * y + b * x)]
  | generalizedAmplitudeDamping (p q γ δ : ℝ) : SameNoise
      [.generalizedAmplitudeDamping p γ, .generalizedAmplitudeDamping q δ]
      [.generalizedAmplitudeDamping ((p * γ * (1 - δ) + q * δ) / (γ + δ - γ * δ)) (γ + δ - γ * δ)]
  | bitFlip_pauli (p : ℝ) : SameNoise [.bitFlip p] [.pauli p 0 0]
  | phaseFlip_pauli (p : ℝ) : SameNoise [.phaseFlip p] [.pauli 0 0 p]
  | depolarizing_pauli (p : ℝ) : SameNoise [.depolarizing p] [.pauli (p / 3) (p / 3) (p / 3)]
  | damping_generalized (γ : ℝ) : SameNoise [.amplitudeDamping γ] [.generalizedAmplitudeDamping 1 γ]
  | phaseDamping_flip (γ : ℝ) : SameNoise [.phaseDamping γ] [.phaseFlip ((1 - √(1 - γ)) / 2)]
  | comm_pauli {s s' : StdNoise} (h : s.IsPauli) (h' : s'.IsPauli) : SameNoise [s, s'] [s', s]
  | comm_phase {s s' : StdNoise} (h : s.IsPhase) : SameNoise [s, s'] [s', s]

/-- The factor by which a channel multiplies the mean of `Z` on its qubit. -/
noncomputable def StdNoise.shrink : StdNoise → ℝ
  | .bitFlip p => 1 - 2 * p
  | .phaseFlip _ | .phaseDamping _ => 1
  | .depolarizing p => 1 - 4 / 3 * p
  | .pauli px py _ => 1 - 2 * px - 2 * py
  | .amplitudeDamping γ | .generalizedAmplitudeDamping _ γ => 1 - γ

/-- The amount that a channel adds to the mean of `Z` on its qubit. -/
noncomputable def StdNoise.drift : StdNoise → ℝ
  | .amplitudeDamping γ => γ
  | .generalizedAmplitudeDamping p γ => (2 * p - 1) * γ
  | _ => 0

/-- `Tr ρρ†`: for a density matrix the purity `Tr ρ²`. -/
noncomputable def purity {n : ℕ} (ρ : Matrix (Lab n) (Lab n) ℂ) : ℝ := (ρ * ρ.conjTranspose).trace.re

/-- The generalized amplitude damping channel as printed in `docs/noise.md`, with `√γ` at the bottom right of `K₁`. -/
noncomputable def docGAD (n t : ℕ) (p γ : ℝ) (ρ : Matrix (Lab n) (Lab n) ℂ) : Matrix (Lab n) (Lab n) ℂ :=
  (p : ℂ) • (conjBy (onQubit n !![1, 0; 0, (√(1 - γ) : ℝ)] t) ρ + conjBy (onQubit n !![0, 0; 0, (√γ : ℝ)] t) ρ)
    + ((1 - p : ℝ) : ℂ) • (conjBy (onQubit n !![(√(1 - γ) : ℝ), 0; 0, 1] t) ρ
      + conjBy (onQubit n !![0, 0; (√γ : ℝ), 0] t) ρ)

end Verif
