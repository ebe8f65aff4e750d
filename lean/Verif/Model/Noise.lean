import Mathlib.Analysis.SpecialFunctions.Trigonometric.Basic
import Mathlib.Analysis.SpecialFunctions.Sqrt
import Verif.Np

/-! # Model of `/repo/horqrux/matrices.py` and `/repo/horqrux/noise/` -/

namespace Verif
open NDArray

/-- `jnp.array([[a, b], [c, d]])`. -/
def mat2 (a b c d : ℂ) : NDArray ℂ := ⟨[2, 2], [a, b, c, d]⟩

/-- `_X` (matrices.py:12). -/
def matX : NDArray ℂ := mat2 0 1 1 0
/-- `_Y` (matrices.py:13). -/
def matY : NDArray ℂ := mat2 0 (-Complex.I) Complex.I 0
/-- `_Z` (matrices.py:14). -/
def matZ : NDArray ℂ := mat2 1 0 0 (-1)
/-- `_H` (matrices.py:15): `array * 1 / sqrt(2)`. -/
noncomputable def matH : NDArray ℂ :=
  ⟨[2, 2], [1, 1, 1, -1].map fun x : ℂ => x * 1 / ((Real.sqrt 2 : ℝ) : ℂ)⟩
/-- `_S` (matrices.py:16). -/
def matS : NDArray ℂ := mat2 1 0 0 Complex.I
/-- `_T` (matrices.py:17). -/
noncomputable def matT : NDArray ℂ := mat2 1 0 0 (Complex.exp (Complex.I * (Real.pi : ℂ) / 4))
/-- `_I` (matrices.py:18). -/
def matId : NDArray ℂ := mat2 1 0 0 1
/-- `_SWAP` (matrices.py:20). -/
def matSWAP : NDArray ℂ := ⟨[4, 4], [1, 0, 0, 0, 0, 0, 1, 0, 0, 1, 0, 0, 0, 0, 0, 1]⟩

/-- Lookup in `OPERATIONS_DICT` (matrices.py:47-56).  `_SQSWAP`, `_ISWAP` and `_ISQSWAP` (matrices.py:23-45) are
defined in that file but not entered in the dictionary. -/
noncomputable def operationsDict (name : String) : Py (NDArray ℂ) :=
  if name = "X" then .ok matX
  else if name = "Y" then .ok matY
  else if name = "Z" then .ok matZ
  else if name = "H" then .ok matH
  else if name = "S" then .ok matS
  else if name = "T" then .ok matT
  else if name = "I" then .ok matId
  else if name = "SWAP" then .ok matSWAP
  else .error .keyError

/-- `DigitalNoiseType` (noise/noise.py:22-29). -/
inductive NoiseType
  | bitFlip | phaseFlip | depolarizing | pauliChannel | amplitudeDamping | phaseDamping
  | generalizedAmplitudeDamping
deriving DecidableEq, Repr

/-- `error_probability: tuple[float, ...] | float` (noise/noise.py:47). -/
inductive ErrProb
  | float (p : ℝ)
  | tuple (ps : List ℝ)

/-- `DigitalNoiseInstance` (noise/noise.py:43-47). -/
structure NoiseInstance where
  type : NoiseType
  errorProbability : ErrProb

/-- The range check `(p > 1.0) or (p < 0.0)` (noise/utils_noise.py:27 and the other channels). -/
def badProb (p : ℝ) : Prop := p > 1 ∨ p < 0
noncomputable instance (p : ℝ) : Decidable (badProb p) := inferInstanceAs (Decidable (_ ∨ _))

/-- `jnp.sqrt(p)` as a complex scalar. -/
noncomputable def csqrt (p : ℝ) : ℂ := ((Real.sqrt p : ℝ) : ℂ)

/-- `BitFlip` (noise/utils_noise.py:9-32).  Comparing a tuple with a float raises TypeError. -/
noncomputable def bitFlip : ErrProb → Py (List (NDArray ℂ))
  | .tuple _ => .error .typeError
  | .float p =>
    if badProb p then .error .valueError
    else .ok [smul (csqrt (1 - p)) matId, smul (csqrt p) matX]

/-- `PhaseFlip` (noise/utils_noise.py:35-59). -/
noncomputable def phaseFlip : ErrProb → Py (List (NDArray ℂ))
  | .tuple _ => .error .typeError
  | .float p =>
    if badProb p then .error .valueError
    else .ok [smul (csqrt (1 - p)) matId, smul (csqrt p) matZ]

/-- `Depolarizing` (noise/utils_noise.py:62-91). -/
noncomputable def depolarizing : ErrProb → Py (List (NDArray ℂ))
  | .tuple _ => .error .typeError
  | .float p =>
    if badProb p then .error .valueError
    else .ok [smul (csqrt (1 - p)) matId, smul (csqrt (p / 3)) matX, smul (csqrt (p / 3)) matY,
      smul (csqrt (p / 3)) matZ]

/-- `PauliChannel` (noise/utils_noise.py:94-133): `sum(float)` raises TypeError, fewer than three probabilities raise
IndexError after the checks, further ones are only checked. -/
noncomputable def pauliChannel : ErrProb → Py (List (NDArray ℂ))
  | .float _ => .error .typeError
  | .tuple ps =>
    if ps.sum > 1 then .error .valueError
    else if ∃ p ∈ ps, badProb p then .error .valueError
    else match ps with
      | px :: py :: pz :: _ =>
        .ok [smul (csqrt (1 - (px + py + pz))) matId, smul (csqrt px) matX, smul (csqrt py) matY,
          smul (csqrt pz) matZ]
      | _ => .error .indexError

/-- `AmplitudeDamping` (noise/utils_noise.py:136-167). -/
noncomputable def amplitudeDamping : ErrProb → Py (List (NDArray ℂ))
  | .tuple _ => .error .typeError
  | .float p =>
    if badProb p then .error .valueError
    else .ok [mat2 1 0 0 (csqrt (1 - p)), mat2 0 (csqrt p) 0 0]

/-- `PhaseDamping` (noise/utils_noise.py:170-201). -/
noncomputable def phaseDamping : ErrProb → Py (List (NDArray ℂ))
  | .tuple _ => .error .typeError
  | .float p =>
    if badProb p then .error .valueError
    else .ok [mat2 1 0 0 (csqrt (1 - p)), mat2 0 0 0 (csqrt p)]

/-- `GeneralizedAmplitudeDamping` (noise/utils_noise.py:204-257). -/
noncomputable def generalizedAmplitudeDamping : ErrProb → Py (List (NDArray ℂ))
  | .float _ => .error .typeError
  | .tuple (p :: rate :: _) =>
    if badProb p then .error .valueError
    else if badProb rate then .error .valueError
    else .ok [smul (csqrt p) (mat2 1 0 0 (csqrt (1 - rate))), smul (csqrt p) (mat2 0 (csqrt rate) 0 0),
      smul (csqrt (1 - p)) (mat2 (csqrt (1 - rate)) 0 0 1), smul (csqrt (1 - p)) (mat2 0 0 (csqrt rate) 0)]
  | .tuple _ => .error .indexError

/-- `DigitalNoiseInstance.kraus` with `PROTOCOL_TO_KRAUS_FN` (noise/noise.py:32-40, 60-63). -/
noncomputable def NoiseInstance.kraus (n : NoiseInstance) : Py (List (NDArray ℂ)) :=
  match n.type with
  | .bitFlip => bitFlip n.errorProbability
  | .phaseFlip => phaseFlip n.errorProbability
  | .depolarizing => depolarizing n.errorProbability
  | .pauliChannel => pauliChannel n.errorProbability
  | .amplitudeDamping => amplitudeDamping n.errorProbability
  | .phaseDamping => phaseDamping n.errorProbability
  | .generalizedAmplitudeDamping => generalizedAmplitudeDamping n.errorProbability

end Verif
