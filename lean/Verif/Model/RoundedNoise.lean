import Verif.Model.Rounding

/-!
# Runs on density matrices whose arithmetic is not exact

As `Verif/Model/Rounding.lean`, for `apply_gates` on a density matrix: the gate matrices, their products, the map
`ρ ↦ O ρ O†` and each noise channel are parameters.
-/

set_option autoImplicit false

namespace Verif

/-- An implementation of the four numerical operations that `apply_gates` performs on a density matrix:
`gate.unitary(values)` (apply.py:370, 375), `@` of two operators (apply.py:320), `apply_operator` (apply.py:137-179)
and one pass through the loop over the noise of a gate (apply.py:273-275), with the target of the gate and all qubits. -/
structure ArithDM where
  op : Gate → Py (NDArray ℂ)
  mul : NDArray ℂ → NDArray ℂ → Py (NDArray ℂ)
  app : DensityMatrix ℂ → NDArray ℂ → List ℕ → Ctl → Py (DensityMatrix ℂ)
  noise : DensityMatrix ℂ → NoiseInstance → List ℕ → List ℕ → Py (DensityMatrix ℂ)

/-- Arithmetic without rounding. -/
noncomputable def ArithDM.exact (so : SetOrder) (values : Values) : ArithDM where
  op := fun g => g.operator .unitary values
  mul := NDArray.matmul
  app := applyOperatorDM so
  noise := fun ρ ni target full => do
    let ks ← (← ni.kraus).mapM fun k => expandOperator k target full
    applyKrausSum ks ρ.array full

/-- `apply_operator_with_noise` (apply.py:243-276) with the given arithmetic. -/
noncomputable def ArithDM.step (A : ArithDM) (ρ : DensityMatrix ℂ) (o : NDArray ℂ × List ℕ × Ctl)
    (noise : Option (List NoiseInstance)) : Py (DensityMatrix ℂ) := do
  let g ← A.app ρ o.1 o.2.1 o.2.2
  match noise with
  | none => pure g
  | some ns => ns.foldlM (fun dm ni => A.noise dm ni o.2.1 (List.range (numQubitsDM g))) g

/-- `apply_gates` on a density matrix (apply.py:468-497) with the given arithmetic. -/
noncomputable def ArithDM.run (A : ArithDM) (ρ : DensityMatrix ℂ) (gate : GateArg) (groupGates mergeOps : Bool) :
    Py (DensityMatrix ℂ) := do
  let (ops, noise) ← prepareSequenceReduce A.op A.mul gate groupGates mergeOps
  (ops.zip noise).foldlM (fun st o => A.step st o.1 o.2) ρ

section
open NDArray

/-- `apply_operator` on a density matrix (apply.py:137-179), see `applyOperatorDM`, with the given operations on numbers: the two
contractions compute, everything else copies or conjugates numbers. -/
noncomputable def Flops.applyOperatorDM (F : Flops) (so : SetOrder) (state : DensityMatrix ℂ) (operator : NDArray ℂ)
    (target : List ℕ) (control : Ctl) : Py (DensityMatrix ℂ) := do
  let (op, nq, dims) ← prepareOperator operator target control
  let opOut := (List.range (2 * nq)).drop nq
  let opIn := List.range nq
  let rest := so.order ((List.range (state.array.ndim / 2)).filter (· ∉ dims))
  let perm := dims ++ rest
  let a ← permuteBasis state.array perm false
  let a ← F.tensordot op a opOut (List.range dims.length)
  let a ← dagger a
  let a ← F.tensordot op a opOut opIn
  let a ← dagger a
  let a ← permuteBasis a perm true
  pure ⟨a⟩

/-- `jnp.kron` of matrices (see `NDArray.kron`) with the given operations on numbers. -/
noncomputable def Flops.kron (F : Flops) (a b : NDArray ℂ) : Py (NDArray ℂ) :=
  match a.shape, b.shape with
  | [m, n], [p, q] =>
    .ok (ofFn [m * p, n * q] fun idx =>
      F.mul (a.get [idx.getD 0 0 / p, idx.getD 1 0 / q]) (b.get [idx.getD 0 0 % p, idx.getD 1 0 % q]))
  | _, _ => .error .unsupported

/-- `expand_operator` (operator_utils.py:339-378), see `expandOperator`, with the given operations on numbers. -/
noncomputable def Flops.expandOperator (F : Flops) (operator : NDArray ℂ) (qubitSupport fullSupport : List ℕ) :
    Py (NDArray ℂ) := do
  let full := pySorted fullSupport
  let supp := pySorted qubitSupport
  let nFull := 2 ^ full.length
  if supp.all (· ∈ full) then
    let kronQubits := pySorted ((full.filter (· ∉ supp)).dedup)
    let k ← (List.replicate kronQubits.length matI).foldlM (fun acc m => F.kron acc m) operator
    let k ← hilbertReshape k
    let k ← permuteBasis k (supp ++ kronQubits) true
    k.reshape [nFull, nFull]
  else .error .valueError

/-- `apply_kraus_operator` (apply.py:182-211), see `applyKrausOperator`, with the given operations on numbers. -/
noncomputable def Flops.applyKrausOperator (F : Flops) (kraus array : NDArray ℂ) (target : List ℕ) : Py (NDArray ℂ) := do
  let nAxes := intLog2 kraus.size
  let k ← kraus.reshape (List.replicate nAxes 2)
  let opOut := (List.range nAxes).drop (nAxes / 2)
  let opIn := List.range (nAxes / 2)
  let newDims := List.range target.length
  let a ← moveaxis array newDims target
  let a ← F.tensordot k a opOut newDims
  let a ← dagger a
  let a ← F.tensordot k a opOut opIn
  let a ← dagger a
  moveaxis a target newDims

/-- `jnp.sum(stack, 0)` (apply.py:240), see `sumArrays`, with the additions in the order that the library chooses. -/
noncomputable def Flops.sumArrays (F : Flops) : List (NDArray ℂ) → Py (NDArray ℂ)
  | [] => .error .valueError
  | a :: l =>
    if ∀ b ∈ l, b.shape = a.shape then .ok (ofFn a.shape fun idx => F.sum ((a :: l).map fun b => b.get idx))
    else .error .unsupported

/-- One pass through the loop over the noise of a gate (apply.py:273-275) with the given operations on numbers; `kraus` are the
computed Kraus operators. -/
noncomputable def Flops.noise (F : Flops) (kraus : NoiseInstance → Py (List (NDArray ℂ))) (ρ : DensityMatrix ℂ)
    (ni : NoiseInstance) (target full : List ℕ) : Py (DensityMatrix ℂ) := do
  let ks ← (← kraus ni).mapM fun k => F.expandOperator k target full
  let evol ← ks.mapM fun k => F.applyKrausOperator k ρ.array full
  let s ← F.sumArrays evol
  pure ⟨s⟩

/-- `density_mat` (operator_utils.py:52-66), see `densityMat`, with the given operations on numbers. -/
noncomputable def Flops.densityMat (F : Flops) (state : NDArray ℂ) : DensityMatrix ℂ :=
  ⟨ofFn (state.shape ++ state.shape) fun idx =>
    F.mul (state.get (idx.take state.ndim)) (star (state.get (idx.drop state.ndim)))⟩

/-- `jnp.trace`, see `NDArray.trace`, with the additions in the order that the library chooses. -/
noncomputable def Flops.trace (F : Flops) (a : NDArray ℂ) : Py ℂ :=
  match a.shape with
  | [m, n] => .ok (F.sum ((List.range (min m n)).map fun i => a.get [i, i]))
  | _ => .error .unsupported

/-- `_ad_expectation_single_observable` on a density matrix (differentiation/ad.py:58-68), see `Op.expectDM`, with the given
operations on numbers; `matObs` is the computed matrix of the observable and `support` its qubits. -/
noncomputable def Flops.expectDM (F : Flops) (matObs : NDArray ℂ) (support : List ℕ) (ρ : DensityMatrix ℂ) : Py ℝ := do
  let d := 2 ^ numQubitsDM ρ
  let prod ← (← F.applyOperator ρ.array matObs support none).reshape [d, d]
  pure (← F.trace prod).re

end

/-- The arithmetic of `apply_gates` on density matrices built from operations on single numbers, gate matrices `op` and Kraus
operators `kraus`. -/
noncomputable def Flops.arithDM (F : Flops) (so : SetOrder) (op : Gate → Py (NDArray ℂ))
    (kraus : NoiseInstance → Py (List (NDArray ℂ))) : ArithDM where
  op := op
  mul := F.matmul
  app := F.applyOperatorDM so
  noise := F.noise kraus

end Verif
