import Verif.SpecRounding

/-! # How accurate operations on single numbers are -/

set_option autoImplicit false

namespace Verif

/-- The standard model of floating-point arithmetic: rounding changes a number by at most the fraction `u` of it (so
without overflow and underflow). -/
def RoundsTo (rnd : ℝ → ℝ) (u : ℝ) : Prop := ∀ x, |rnd x - x| ≤ u * |x|

/-- A computed sum is off by at most the fraction `u`, a computed product by at most the fraction `δ`. -/
structure Flops.Accurate (F : Flops) (u δ : ℝ) : Prop where
  add : ∀ x y, ‖F.add x y - (x + y)‖ ≤ u * ‖x + y‖
  mul : ∀ x y, ‖F.mul x y - x * y‖ ≤ δ * ‖x * y‖

/-- The error of a computed inner product of `N` terms, relative to the sum of the lengths of the terms. -/
noncomputable def dotError (u δ : ℝ) (N : ℕ) : ℝ := (1 + δ) * (1 + u) ^ (N - 1) - 1

/-- Gate matrices are computed up to `τ` in every entry. -/
def OpsWithin (τ : ℝ) (values : Values) (gs : List Gate) (op : Gate → Py (NDArray ℂ)) : Prop :=
  ∀ g ∈ gs, ∀ u, g.operator .unitary values = .ok u → IsOp g.target.length u →
    ∃ r, op g = .ok r ∧ IsOp g.target.length r ∧
      ∀ i j, i < 2 ^ g.target.length → j < 2 ^ g.target.length → ‖entries r i j - entries u i j‖ ≤ τ

/-- The error of a noise channel computed on `n` qubits (up to a factor) from Kraus operators right up to the fraction `τ`: they are
multiplied `n - 1` times with ones and zeros, enter twice, are contracted twice over `2^n` numbers, and at most four terms are summed. -/
noncomputable def noiseError (u δ τ : ℝ) (n : ℕ) : ℝ :=
  ((1 + τ) * (1 + δ) ^ (n - 1)) ^ 2 * (1 + dotError u δ (2 ^ n)) ^ 2 * (1 + u) ^ 3 - 1

/-- Kraus operators are computed up to the fraction `τ` of every entry. -/
def KrausWithin (τ : ℝ) (gs : List Gate) (kraus : NoiseInstance → Py (List (NDArray ℂ))) : Prop :=
  ∀ g ∈ gs, ∀ nis, g.noise = some nis → ∀ ni ∈ nis, ∀ ks, ni.kraus = .ok ks → (∀ k ∈ ks, IsOp 1 k) →
    ∃ ks', kraus ni = .ok ks' ∧ List.Forall₂ (fun k k' => IsOp 1 k' ∧
      ∀ i j, i < 2 → j < 2 → ‖entries k' i j - entries k i j‖ ≤ τ * ‖entries k i j‖) ks ks'

/-- The factor of the error of a computed expectation value on a density matrix of `n` qubits, for an observable on `k` qubits:
one dot product for each entry and one sum for the trace. -/
noncomputable def traceError (u δ : ℝ) (k n : ℕ) : ℝ := (1 + dotError u δ (2 ^ k)) * (1 + u) ^ (2 ^ n - 1) - 1

end Verif
