import Mathlib.Algebra.Star.Pi
import Mathlib.Analysis.SpecialFunctions.Trigonometric.Basic
import Verif.Model.Trace

/-!
# Model of `jax.vmap` and of the loss functions of the documentation

`jax.vmap` runs a program once on tracers that hold one number for every position of the batch.  `Tracer.batch` is this kind of
numbers; derivatives inside a batch are computed on `Tracer.dual` of it, derivatives of a batch on a batch of `Tracer.dual`.

`vmapExpectation` and `vmapRun` are `jax.vmap` of `expectation` (mode AD) and `run`, with `in_axes` `None` or 0 for the state and for every
entry of the dictionary, as in tests/test_analog.py:48-50.  `fitLossT` and `pdeLossT` are the loss functions of docs/dqc.md.

Simplifications: `in_axes` other than 0, values whose slices are arrays of size one (C91 treats them without `vmap`) and batches of size 0
are not modelled.
-/

set_option autoImplicit false

namespace Verif
open NDArray

/-- Numbers at every position of a batch.  All primitive operations act at every position; `jax.scipy.linalg.expm` of a stack of matrices
is the stack of their exponentials. -/
noncomputable abbrev Tracer.batch (A : Tracer) (ι : Type) : Tracer where
  R := ι → A.R
  K := ι → A.K
  constR := (Pi.constRingHom ι A.R).comp A.constR
  const := (Pi.constRingHom ι A.K).comp A.const
  real := RingHom.compLeft A.real ι
  re := AddMonoidHom.compLeft A.re ι
  cos := fun x b => A.cos (x b)
  sin := fun x b => A.sin (x b)
  exp := fun z b => A.exp (z b)
  expm := fun a =>
    match a.shape with
    | [d, d'] =>
      if d = d' then
        .ok (ofFn [d, d] fun idx b =>
          match A.expm (a.mapArr fun z => z b) with
          | .ok u => u.get idx
          | .error _ => 0)
      else .error .valueError
    | _ => .error .valueError

/-- The block `a[b]` of an array that consists of `n` blocks (row-major order). -/
def NDArray.block {K : Type} [Zero K] (n : ℕ) (a : NDArray K) (b : ℕ) : NDArray K :=
  ⟨a.shape.tail, (List.range (a.data.length / n)).map fun i => a.data.getD (b * (a.data.length / n) + i) 0⟩

/-- The blocks of an array as an array of batches. -/
def NDArray.unstack {K : Type} [Zero K] (n : ℕ) (a : NDArray K) : NDArray (Fin n → K) :=
  ⟨a.shape.tail, (List.range (a.data.length / n)).map fun i b => a.data.getD (b.val * (a.data.length / n) + i) 0⟩

/-- An array of batches as an array with a leading axis (`out_axes=0`). -/
def NDArray.stack {K : Type} [Zero K] {n : ℕ} (a : NDArray (Fin n → K)) : NDArray K :=
  ⟨n :: a.shape, (List.range (n * a.data.length)).map fun k =>
    if h : k / a.data.length < n then a.data.getD (k % a.data.length) 0 ⟨k / a.data.length, h⟩ else 0⟩

/-- An entry of the dictionary of a mapped function: with `in_axes` `None` a number or an array, with `in_axes` 0 an array of numbers or a
stack of arrays. -/
inductive BVal
  | num (x : ℝ)
  | arr (a : NDArray ℂ)
  | nums (a : NDArray ℝ)
  | arrs (a : NDArray ℂ)

/-- The state argument of a mapped function.  A density matrix has no leaves (utils/operator_utils.py:38-41), so that `vmap` passes it on
as it is. -/
inductive BState
  | vec (a : NDArray ℂ)
  | dm (ρ : DensityMatrix ℂ)
  | vecs (a : NDArray ℂ)

/-- The size of axis 0, if the argument is mapped; ValueError for an array without axes. -/
def axisSize {K : Type} (a : NDArray K) : Py (Option ℕ) :=
  match a.shape with
  | [] => .error .valueError
  | n :: _ => .ok (some n)

def BVal.size : BVal → Py (Option ℕ)
  | .num _ | .arr _ => .ok none
  | .nums a => axisSize a
  | .arrs a => axisSize a

def BState.size : BState → Py (Option ℕ)
  | .vec _ | .dm _ => .ok none
  | .vecs a => axisSize a

/-- The size of the batch: ValueError if no argument is mapped or if the sizes differ. -/
def batchSize (st : BState) (d : List (String × BVal)) : Py ℕ := do
  let sizes ← ((st.size) :: d.map fun e => e.2.size).mapM id
  match sizes.filterMap id with
  | [] => .error .valueError
  | n :: ns => if ns.all (· = n) then .ok n else .error .valueError

/-- The traced value of an entry. -/
def BVal.trace (n : ℕ) : BVal → Py (TVal (Fin n → ℝ) (Fin n → ℂ))
  | .num x => .ok (.num fun _ => x)
  | .arr a => .ok (.arr (a.mapArr fun z _ => z))
  | .nums a =>
    match a.shape with
    | [_] => .ok (.num fun b => a.data.getD b.val 0)
    | _ => .error .unsupported
  | .arrs a => .ok (.arr (a.unstack n))

/-- The traced state. -/
def BState.trace (n : ℕ) : BState → TState (Fin n → ℂ)
  | .vec a => .vec (a.mapArr fun z _ => z)
  | .dm ρ => .dm ⟨ρ.array.mapArr fun z _ => z⟩
  | .vecs a => .vec (a.unstack n)

/-- `jax.vmap(lambda state, values: expectation(state, circuit, observables, values, "ad"))`: one row for every position. -/
noncomputable def vmapExpectation (so : SetOrder) (st : BState) (circuit : Op) (obs : List Observable) (d : List (String × BVal)) :
    Py (List (List ℝ)) := do
  let n ← batchSize st d
  let d' ← d.mapM fun e => do pure (e.1, ← e.2.trace n)
  let outs ← expectationT (Tracer.base.batch (Fin n)) so (st.trace n) circuit obs (.flat d')
  .ok ((List.finRange n).map fun b => outs.map fun f => f b)

/-- What a mapped function returns: a stack of arrays, or a density matrix.  The array of a density matrix is no leaf, so that `vmap` does not
see it: the object that is returned holds the tracer of the inner call, and every later use of it raises. -/
inductive BOut
  | stack (a : NDArray ℂ)
  | leaked

/-- `jax.vmap(lambda state, values: run(circuit, state, values))`. -/
noncomputable def vmapRun (so : SetOrder) (circuit : Op) (st : BState) (d : List (String × BVal)) : Py (Option BOut) := do
  let n ← batchSize st d
  let d' ← d.mapM fun e => do pure (e.1, ← e.2.trace n)
  match ← runT (Tracer.base.batch (Fin n)) so circuit (st.trace n) d' with
  | some (.vec a) => .ok (some (.stack a.stack))
  | some (.dm _) => .ok (some .leaked)
  | none => .ok none

/-! ## The loss functions of docs/dqc.md -/

section loss
variable (A : Tracer)

/-- A dictionary that is not mapped. -/
def TDict.spread {R K : Type} (ι : Type) (d : TDict R K) : TDict (ι → R) (ι → K) := d.mapVals (fun x _ => x) fun z _ => z

/-- A dictionary with tangents 0. -/
def TDict.still2 {R K : Type} [Zero R] [Zero K] (d : TDict R K) : TDict (DualNumber (DualNumber R)) (DualNumber (DualNumber K)) :=
  d.mapVals (fun x => jet (jet x 0) (jet 0 0)) fun z => jet (jet z 0) (jet 0 0)

/-- `loss_fn` of the function fitter (docs/dqc.md:62-65, 85-87): the mean of `optax.l2_loss(y_pred, y) = 0.5 * (y_pred - y) ** 2`, where
`y_pred` is the mapped expectation value and `input` is the name of the parameter of the feature map.  In mode ADJOINT `expectation`
executes plain code without custom derivative rules (differentiation/adjoint.py:32-38).  Simplification: the name of the input is not among
those of the parameters. -/
noncomputable def fitLossT (so : SetOrder) {n : ℕ} (state : State) (circuit : Op) (obs : Observable) (input : String)
    (params : TDict A.R A.K) (xs ys : Fin n → ℝ) : Py A.R := do
  let d : TDict (Fin n → A.R) (Fin n → A.K) := params.spread (Fin n) ++ [(input, .num fun b => A.constR (xs b))]
  match ← expectationT (A.batch (Fin n)) so (state.const _) circuit [obs] (.flat d) with
  | [f] => .ok (A.constR (1 / n) * ∑ b, A.constR (1 / 2) * (f b - A.constR (ys b)) ^ 2)
  | _ => .error .unsupported

/-- `PDESolver.__call__` (docs/dqc.md:187-192) on traced numbers. -/
noncomputable def solverT (so : SetOrder) (state : State) (gates : List Gate) (obs : Observable) (params : TDict A.R A.K) (x y : A.R) :
    Py A.R := do
  match ← applyGatesT A so (state.const A) (.list gates) (params ++ [("f_x", .num x), ("f_y", .num y)]) with
  | .vec a => expectSingleT A so [] obs (.vec a)
  | .dm _ => .error .unsupported

/-- `loss_fn` of the PDE solver (docs/dqc.md:209-247).  The four boundary terms are one mapped call inside the mapped `pde_loss`; the
entries of `jax.hessian` are derivatives of derivatives inside the batch. -/
noncomputable def pdeLossT (so : SetOrder) {n : ℕ} (state : State) (gates : List Gate) (obs : Observable) (params : TDict A.R A.K)
    (xs ys : Fin n → ℝ) : Py A.R := do
  let x : Fin n → A.R := fun b => A.constR (xs b)
  let y : Fin n → A.R := fun b => A.constR (ys b)
  let bd ← solverT ((A.batch (Fin n)).batch (Fin 4)) so state gates obs ((params.spread (Fin n)).spread (Fin 4))
    ![0, 1, x, x] ![y, y, 1, 0]
  let uxx ← solverT (A.batch (Fin n)).dual.dual so state gates obs (params.spread (Fin n)).still2
    (jet (jet x 1) (jet 1 0)) (jet (jet y 0) (jet 0 0))
  let uyy ← solverT (A.batch (Fin n)).dual.dual so state gates obs (params.spread (Fin n)).still2
    (jet (jet x 0) (jet 0 0)) (jet (jet y 1) (jet 1 0))
  .ok (A.constR (1 / n) * ∑ b, (bd 0 b ^ 2 + bd 1 b ^ 2 + bd 2 b ^ 2 + (bd 3 b - A.sin (A.constR Real.pi * A.constR (xs b))) ^ 2
    + (uxx.snd.snd b + uyy.snd.snd b) ^ 2))

end loss

/-- `PDESolver.__call__` (docs/dqc.md:187-192). -/
noncomputable def solver (so : SetOrder) (state : State) (gates : List Gate) (obs : Observable) (params : TDict ℝ ℂ) (x y : ℝ) : Py ℝ := do
  match ← applyGates so state (.list gates) (TDict.toValues (params ++ [("f_x", .num x), ("f_y", .num y)])) with
  | .vec a => do Op.innerReal a (← obs.forward so [] (some (.vec a)))
  | .dm _ => .error .unsupported

end Verif
