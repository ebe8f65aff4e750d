import Verif.Lemmas.Gates
import Verif.Model.Adjoint

/-! # C81: `is_parametric` says whether a gate reads the dictionary of values -/

set_option autoImplicit false

namespace Verif
open NDArray
variable {values : Values}

/-- **C81, for the standard gates**: `is_parametric` is true exactly if the gate's matrix depends on `values`, and then the
name it reads is the one that the gradient code differentiates by. -/
theorem C81_reads_partial {g : Gate} {s : StdGate} (h : g.Is values s) :
    (g.isParametric = true ↔ ∃ v, g.unitary v ≠ g.unitary values) ∧
    (g.isParametric = true ↔ ∃ name, g.trainable = some name ∧ ∀ v : Values, v.lookup name = none →
      g.unitary v = .error .keyError) := by
  obtain ⟨U, hU, -, -⟩ := h.unitary
  have key : (g.isParametric = false → ∀ v, g.unitary v = g.unitary values) ∧
      (g.isParametric = false → g.trainable = none) ∧
      (g.isParametric = true → ∃ name, g.trainable = some name ∧ ∀ v : Values, v.lookup name = none →
        g.unitary v = .error .keyError) := by
    have hx : operationsDict "X" = .ok matX ∧ operationsDict "Y" = .ok matY ∧ operationsDict "Z" = .ok matZ := ⟨rfl, rfl, rfl⟩
    cases h
    case RX p x s θ ts c nz hp h =>
      cases p <;> simp [Gate.isParametric, Gate.trainable, Gate.unitary, parseValues, -List.lookup_eq_none_iff]
      intro v hv
      simp [Gate.generator, hx.1, Values.get, hv, bind, Except.bind]
    case RY p x s θ ts c nz hp h =>
      cases p <;> simp [Gate.isParametric, Gate.trainable, Gate.unitary, parseValues, -List.lookup_eq_none_iff]
      intro v hv
      simp [Gate.generator, hx.2.1, Values.get, hv, bind, Except.bind]
    case RZ p x s θ ts c nz hp h =>
      cases p <;> simp [Gate.isParametric, Gate.trainable, Gate.unitary, parseValues, -List.lookup_eq_none_iff]
      intro v hv
      simp [Gate.generator, hx.2.2, Values.get, hv, bind, Except.bind]
    case PHASE p x s θ ts c nz hp h =>
      cases p <;> simp [Gate.isParametric, Gate.trainable, Gate.unitary, parseValues, -List.lookup_eq_none_iff]
      intro v hv
      simp [Values.get, hv, bind, Except.bind]
    all_goals simp [Gate.isParametric, Gate.trainable, Gate.unitary]
  constructor
  · refine ⟨fun hp => ?_, fun ⟨v, hv⟩ => ?_⟩
    · obtain ⟨name, -, h2⟩ := key.2.2 hp
      refine ⟨[], fun he => ?_⟩
      rw [h2 [] rfl, hU] at he
      cases he
    · by_contra hf
      exact hv (key.1 (by simpa using hf) v)
  · refine ⟨key.2.2, fun ⟨name, h1, _⟩ => ?_⟩
    by_contra hf
    rw [key.2.1 (by simpa using hf)] at h1
    cases h1

/-- Non-vacuity: a named and a numeric angle. -/
example : (Gate.RX (.str "x") (.int 0)).Is [("x", .num 1)] (.RX 1) ∧ (Gate.RX (.str "x") (.int 0)).isParametric = true ∧
    (Gate.RX (.num 1) (.int 0)).Is [] (.RX 1) ∧ (Gate.RX (.num 1) (.int 0)).isParametric = false :=
  ⟨.RX (x := 1) (s := 0) _ _ _ (.str rfl) (by norm_num), rfl, .RX (x := 1) (s := 0) _ _ _ (.num _) (by norm_num), rfl⟩

/-- **C81 is false of the code for `HamiltonianEvolution`**: it is never parametric, although its matrix depends on the two
entries of `values` that it reads. -/
theorem C81_evolution_false (t : TArg) (c : CArg) :
    (Gate.HamiltonianEvolution t c).isParametric = false ∧ (Gate.HamiltonianEvolution t c).trainable = none ∧
    (Gate.HamiltonianEvolution t c).unitary [] = .error .keyError ∧
    ∃ U, (Gate.HamiltonianEvolution t c).unitary [("time_evolution", .num 1), ("hamiltonian", .arr matX)] = .ok U := by
  refine ⟨rfl, rfl, rfl, _, rfl⟩

end Verif
