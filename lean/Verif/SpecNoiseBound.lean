import Verif.SpecNoise

/-!
# Specification: how much a noise channel can change
-/

set_option autoImplicit false

namespace Verif

/-- An upper bound of the distance between a state and its image under the channel: the probability of an error, the damping
rate, or, for phase damping, the probability of the phase flip that it amounts to. -/
noncomputable def StdNoise.strength : StdNoise → ℝ
  | .bitFlip p | .phaseFlip p | .depolarizing p => p
  | .pauli px py pz => px + py + pz
  | .amplitudeDamping γ | .generalizedAmplitudeDamping _ γ => γ
  | .phaseDamping γ => (1 - √(1 - γ)) / 2

/-- Channels that do nothing with probability `1 - strength`. -/
def StdNoise.IsMixture : StdNoise → Prop
  | .amplitudeDamping _ | .generalizedAmplitudeDamping _ _ => False
  | _ => True

/-- Every eigenvalue of the observable lies between `lo` and `hi`. -/
def SpectrumIn {n : ℕ} (O : Matrix (Lab n) (Lab n) ℂ) (lo hi : ℝ) : Prop :=
  ∀ (x : ℝ) (v : Lab n → ℂ), v ≠ 0 → O.mulVec v = (x : ℂ) • v → lo ≤ x ∧ x ≤ hi

end Verif
