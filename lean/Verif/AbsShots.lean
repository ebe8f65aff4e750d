import Mathlib.MeasureTheory.Integral.Bochner.Basic
import Mathlib.MeasureTheory.Measure.Lebesgue.Basic
import Verif.AbsGrad
import Verif.Model.GpsrShots
import Verif.Lemmas.Shots

/-!
# Reading random estimates in the specification vocabulary
-/

namespace Verif
set_option autoImplicit false
open MeasureTheory
open scoped ComplexOrder

/-- Every number drawn, for every key and number of shots, is uniform on `[0, 1)`; nothing is assumed about their joint
distribution. -/
def UniformDraws {Ω κ : Type} [MeasurableSpace Ω] (μ : Measure Ω) (U : Ω → κ → Draw) : Prop :=
  ∀ key k (j : Fin k), MeasurePreserving (fun ω => U ω key k j) μ (volume.restrict (Set.Ico 0 1))

/-- The random list `e` of numbers has always as many entries as `v`, and the mean of each entry is that of `v`. -/
def Unbiased {Ω : Type} [MeasurableSpace Ω] (μ : Measure Ω) (e : Ω → List ℝ) (v : List ℝ) : Prop :=
  (∀ ω, (e ω).length = v.length) ∧
    ∀ i, Integrable (fun ω => (e ω).getD i 0) μ ∧ ∫ ω, (e ω).getD i 0 ∂μ = v.getD i 0

/-- What the finite-shot estimates need: a normalised state, observables that are the Hermitian operators `Os` when their
sequences are multiplied in listing order, and eigenvectors, as returned by `eigh`, that are those of the first observable
in another order. -/
structure ShotSetting (eigh : Eigh) (n : ℕ) (st : State) (obs : List Observable) (Os : List (Matrix (Lab n) (Lab n) ℂ)) :
    Prop where
  pos : (st.mat n).PosSemidef
  trace : (st.mat n).trace = 1
  listed : ∀ values, List.Forall₂ (fun o O => Op.ListedSum (StdLeaf n values) values o.ops O) obs Os
  hermitian : ∀ O ∈ Os, O.IsHermitian
  aligned : ∀ O ∈ Os, ∃ σ : Equiv.Perm (Fin (2 ^ n)), ∀ i j,
    eigh.vecs (numMat (Os.headD 0)) i j = eigh.vecs (numMat O) i (σ j)

end Verif
