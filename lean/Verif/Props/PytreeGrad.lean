import Verif.Props.Pytree
import Verif.Props.TraceState

/-!
# C98: `jax.grad` with respect to the objects of horqrux

`jax.grad` differentiates with respect to the leaves of its argument.  Operations and density matrices have no leaves: their
attributes are auxiliary data.
-/

set_option autoImplicit false

namespace Verif
open NDArray Pytree
open scoped Classical

theorem Pytree.Goes.grad {x y : Obj} (h : Goes x [] y) {grads : List Obj → List Obj} (hg : grads [] = []) : jaxGrad grads x = .ok y := by
  obtain ⟨td, h1, h2⟩ := h _ le_rfl
  have h3 := h2 []
  simp only [jaxGrad, treeFlatten, h1, bind, Except.bind, hg, List.all_nil, if_true]
  rw [List.append_nil] at h3
  rw [h3]
  rfl

theorem Pytree.Goes.grad_refused {x y : Obj} {lv : List Obj} (h : Goes x lv y) (hl : lv.all Obj.isInexact = false)
    (grads : List Obj → List Obj) : jaxGrad grads x = .error .typeError := by
  obtain ⟨td, h1, -⟩ := h _ le_rfl
  simp only [jaxGrad, treeFlatten, h1, bind, Except.bind, hl]
  rfl

theorem gateLeaves_nil {g : Gate} (h : ¬ g.IsPhase) : gateLeaves g = [] := by
  obtain ⟨cls, nm, ts, c, nz, sp⟩ := g
  cases cls with
  | phase p s => exact absurd ⟨p, s, rfl⟩ h
  | _ => rfl

theorem gateLeaves_inexact {g : Gate} : ∀ x ∈ gateLeaves g, x.isInexact = false := by
  obtain ⟨cls, nm, ts, c, nz, sp⟩ := g
  cases cls with
  | phase p s =>
    intro x hx
    obtain rfl := List.mem_singleton.1 hx
    rfl
  | _ => intro x hx; cases hx

mutual
theorem leaves_nil (o : Op) (h : ∀ g ∈ o.gates, ¬ g.IsPhase) : leaves o = [] := by
  cases o with
  | prim g => exact gateLeaves_nil (h g (by simp [Op.gates]))
  | comp k ops => exact leavesList_nil ops (by simpa only [Op.gates] using h)
theorem leavesList_nil (os : List Op) (h : ∀ g ∈ Op.gatesList os, ¬ g.IsPhase) : leavesList os = [] := by
  cases os with
  | nil => rfl
  | cons o os =>
    simp only [Op.gatesList, List.mem_append] at h
    rw [leavesList, leaves_nil o fun g hg => h g (.inl hg), leavesList_nil os fun g hg => h g (.inr hg)]
    rfl
end

mutual
theorem leaves_inexact (o : Op) : ∀ x ∈ leaves o, x.isInexact = false := by
  cases o with
  | prim g => exact gateLeaves_inexact
  | comp k ops => exact leavesList_inexact ops
theorem leavesList_inexact (os : List Op) : ∀ x ∈ leavesList os, x.isInexact = false := by
  cases os with
  | nil => intro x hx; cases hx
  | cons o os =>
    intro x hx
    rcases List.mem_append.1 hx with hx | hx
    · exact leaves_inexact o x hx
    · exact leavesList_inexact os x hx
end

/-- **C98 (operations).** `jax.grad` with respect to an operation without `QuantumCircuit` and `PHASE` returns the operation itself (with
the shifts of Hamiltonian evolutions lost), whatever function is differentiated; with a `PHASE` gate it raises TypeError. -/
theorem C98_op (grads : List Obj → List Obj) (hg : grads [] = []) (o : Op) (hc : ¬ o.HasKind CompKind.IsCircuit) :
    jaxGrad grads o.toObj
      = if ∃ g ∈ o.gates, g.IsPhase then .error .typeError else .ok (o.mapGates Gate.resetShift).toObj := by
  have h := goes_op o hc
  by_cases hp : ∃ g ∈ o.gates, g.IsPhase
  · rw [if_pos hp]
    refine h.grad_refused ?_ grads
    have hne : leaves o ≠ [] := by
      intro h0
      obtain ⟨g, hg, hp⟩ := hp
      have := (leaves_all o).1 (by rw [h0]; rfl)
      exact this g hg hp
    obtain ⟨x, l, hl⟩ := List.exists_cons_of_ne_nil hne
    have := leaves_inexact o x (by rw [hl]; exact List.mem_cons_self)
    rw [hl, List.all_cons, this, Bool.false_and]
  · rw [if_neg hp]
    simp only [not_exists, not_and] at hp
    rw [leaves_nil o hp] at h
    exact h.grad hg

/-- **C98 (circuits).** `jax.grad` with respect to a `QuantumCircuit` raises TypeError: its leaf is the number of qubits. -/
theorem C98_circuit (grads : List Obj → List Obj) (n : ℕ) (fs : List String) (ops : List Op) :
    jaxGrad grads (Op.comp (.circ n fs) ops).toObj = .error .typeError := by
  have h : treeFlatten (Op.comp (.circ n fs) ops).toObj
      = .ok ([.int n], .node .quantumCircuit [.list (Op.toObjs ops), .list (fs.map .str)] [.leaf]) := by
    obtain ⟨d, hd⟩ : ∃ e, (Op.comp (.circ n fs) ops).toObj.depth = e + 2 :=
      ⟨(Op.comp (.circ n fs) ops).toObj.depth - 2, by simp only [Op.toObj, Obj.depth, Obj.depthList]; omega⟩
    rw [treeFlatten, hd, Op.toObj]
    rfl
  simp only [jaxGrad, h, bind, Except.bind]
  rfl

/-- **C98 (arrays).** With respect to an array (a state vector, a parameter array) `jax.grad` returns the gradient. -/
theorem C98_array (grads : List Obj → List Obj) (a : NDArray ℂ) {G : Obj} (h : grads [.arr a] = [G]) : jaxGrad grads (.arr a) = .ok G := by
  have : treeFlatten (.arr a) = .ok ([.arr a], .leaf) := rfl
  simp only [jaxGrad, this, bind, Except.bind, h]
  rfl

/-- **C98 (density matrices).** `jax.grad` with respect to a density matrix returns the density matrix itself, whatever function is
differentiated. -/
theorem C98_density (grads : List Obj → List Obj) (hg : grads [] = []) (ρ : DensityMatrix ℂ) : jaxGrad grads ρ.toObj = .ok ρ.toObj :=
  (Goes.childless rfl rfl rfl).grad hg

/-- The derivative that belongs to the gradient `G` of a real function, in direction `D`: `Re ∑ Gᵢ Dᵢ`. -/
noncomputable def pairing (G D : NDArray ℂ) : ℝ := ((G.data.zip D.data).map fun p : ℂ × ℂ => p.1 * p.2).sum.re

/-- The density matrix `|0⟩⟨0|` with the tangent `|1⟩⟨1|`. -/
def zeroTangent : DensityMatrix (DualNumber ℂ) := ⟨⟨[2, 2], [jet 1 0, 0, 0, jet 0 1]⟩⟩

/-- **C98 is false for density matrices**: what `jax.grad` returns is not the gradient of `expectation`. For the circuit `X(0)` and the
observable Z at the state `|0⟩⟨0|`, the derivative in direction `|1⟩⟨1|` is 1, the returned gradient gives 0. -/
theorem C98_density_false (so : SetOrder) (grads : List Obj → List Obj) (hg : grads [] = []) :
    ∃ G : DensityMatrix ℂ, jaxGrad grads (DensityMatrix.toObj ⟨zeroTangent.array.mapArr TrivSqZeroExt.fst⟩) = .ok G.toObj ∧
      pairing G.array (zeroTangent.array.mapArr TrivSqZeroExt.snd) = 0 ∧
      ∃ l, jvpExpectation so (.dm zeroTangent) justX [obsZ] (.flat (TDict.still [])) = .ok l ∧ l.map TrivSqZeroExt.snd = [1] := by
  refine ⟨⟨zeroTangent.array.mapArr TrivSqZeroExt.fst⟩, C98_density grads hg _, ?_, ?_⟩
  · simp [pairing, zeroTangent, mapArr]
  · refine ⟨_, C97_state (n := 1) so (d := []) (.inl rfl) justX_circuit (state := .dm zeroTangent) ⟨rfl, rfl⟩ (obs := [obsZ]) (by simp)
      (.cons (obsZ_fixed so _) .nil), ?_⟩
    have e : noisyRun 1 .unitary (TDict.toValues []) (justX.gates.zip [[]]) ((TState.dm zeroTangent).tangentMat 1)
        = conjBy (gateMat 1 StdGate.X.mat [0] []) (dmMat 1 (zeroTangent.array.mapArr TrivSqZeroExt.snd)) := by
      have h : justX.gates = [Gate.X (.int 0)] := rfl
      rw [h, List.zip_cons_cons, List.zip_nil_left, noisyRun, noisyRun, TDict.toValues, List.map_nil, justX_std.mat]
      rfl
    simp only [List.map_cons, List.map_nil]
    change [expVal _ _] = _
    rw [e]
    congr 1
    simp only [expVal, conjBy, Matrix.trace, Matrix.diag, Matrix.mul_apply, sum_lab1, gateMat_lab1, Matrix.conjTranspose_apply, dmMat]
    simp [zeroTangent, mapArr, NDArray.get, ravel, StdGate.mat, matE, lab1, Lab.bits]

/-- Non-vacuity of `C98_op`: a parametric gate with a numeric parameter has no gradient, one with `PHASE` is refused. -/
example : ¬ (Op.prim (Gate.RX (.num 1) (.int 0))).HasKind CompKind.IsCircuit ∧
    (¬ ∃ g ∈ (Op.prim (Gate.RX (.num 1) (.int 0))).gates, g.IsPhase) ∧ ¬ pytreeExample.HasKind CompKind.IsCircuit ∧
    (∃ g ∈ pytreeExample.gates, g.IsPhase) := by
  simp [pytreeExample, mkObservable, mkScale, mkAdd, OpArg.toList, Op.HasKind, Op.AnyKind, CompKind.IsCircuit, Op.gates,
    Op.gatesList, Gate.X, Gate.RX, Gate.RZ, Gate.PHASE, mkGate, Gate.IsPhase]

end Verif
