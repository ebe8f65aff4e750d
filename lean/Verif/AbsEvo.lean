import Verif.AbsGrad
import Verif.Props.Analog

/-! # Circuits with one Hamiltonian evolution -/

namespace Verif
set_option autoImplicit false

/-- The gates `l₁`, a Hamiltonian evolution on the targets `tg`, and the gates `l₂`. -/
noncomputable def evoGates (l₁ : List Gate) (tg : TArg) (l₂ : List Gate) : List Gate :=
  l₁ ++ Gate.HamiltonianEvolution tg :: l₂

/-- Standard gates (with noise) before and after one uncontrolled Hamiltonian evolution, a state on `n` qubits,
parameter values with the Hamiltonian `H`, the time `t` and otherwise numbers, and fixed observables. -/
structure EvoSetting (so : SetOrder) (n : ℕ) (values : Values) (H : NDArray ℂ) (t : ℝ) (l₁ : List Gate) (tg : TArg)
    (l₂ : List Gate) (ns₁ ns₂ : List (List StdNoise)) (st : State) (obs : List Observable)
    (Os : List (Matrix (Lab n) (Lab n) ℂ)) : Prop where
  std : ∀ g ∈ l₁ ++ l₂, ∃ s, g.Std n values s
  free : ∀ g ∈ l₁ ++ l₂, ¬ g.Uses "time_evolution"
  noise₁ : List.Forall₂ Gate.NoiseIs l₁ ns₁
  noise₂ : List.Forall₂ Gate.NoiseIs l₂ ns₂
  op : IsOp (parseTarget tg).length H
  place : ValidDims n (parseTarget tg)
  vals : EvolutionValues values H t
  nodup : (values.map Prod.fst).Nodup
  num : ∀ e ∈ values, e.1 ≠ "hamiltonian" → ∃ x, e.2 = .num x
  on : st.On n
  obs_ne : obs ≠ []
  fixed : List.Forall₂ (fun o O => o.Fixed so n (Mixed st (evoGates l₁ tg l₂)) O) obs Os

/-- The Hamiltonian has (at most) the two eigenvalues `c - d/2` and `c + d/2`: `(H - c)² = (d/2)²`. -/
def TwoLevel (k : ℕ) (H : NDArray ℂ) (c d : ℝ) : Prop :=
  (hamMat k H - (c : ℂ) • 1) * (hamMat k H - (c : ℂ) • 1) = ((d / 2 : ℝ) ^ 2 : ℂ) • 1

/-- The argument contains a Hamiltonian evolution (with any targets and controls). -/
def GateArg.Evolves : GateArg → Prop
  | .single g => ∃ tg c, g = Gate.HamiltonianEvolution tg c
  | .list gs => ∃ tg c, Gate.HamiltonianEvolution tg c ∈ gs

end Verif
