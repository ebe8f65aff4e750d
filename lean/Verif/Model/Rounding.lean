import Verif.Model.ApplyGates
import Mathlib.Data.Int.Log
import Mathlib.Algebra.Order.Round

/-!
# Runs whose arithmetic is not exact

The other model files compute with exact real and complex numbers.  The code computes with floats: the matrix of a gate,
the product of two matrices and the tensor contraction of a matrix with a state each come out slightly wrong.  Here the
three operations are parameters, and the control flow of `apply_gates` (what is computed, from what, and in which order)
is the one of `Verif/Model/ApplyGates.lean`.  The real and complex numbers that an implementation represents are read as
the exact numbers they stand for.
-/

set_option autoImplicit false

namespace Verif

/-- An implementation of the three numerical operations that `apply_gates` performs on a state vector:
`gate.unitary(values)` (apply.py:370, 375), `@` of two operators (apply.py:320) and `apply_operator` (apply.py:423). -/
structure Arith where
  op : Gate → Py (NDArray ℂ)
  mul : NDArray ℂ → NDArray ℂ → Py (NDArray ℂ)
  app : NDArray ℂ → NDArray ℂ → List ℕ → Ctl → Py (NDArray ℂ)

/-- Arithmetic without rounding. -/
noncomputable def Arith.exact (values : Values) : Arith where
  op := fun g => g.operator .unitary values
  mul := NDArray.matmul
  app := applyOperator

/-- `apply_gates` on a state vector (apply.py:387-427) for gates without noise, with the given arithmetic. -/
noncomputable def Arith.run (A : Arith) (state : NDArray ℂ) (gate : GateArg) (groupGates mergeOps : Bool) :
    Py (NDArray ℂ) := do
  let (ops, _) ← prepareSequenceReduce A.op A.mul gate groupGates mergeOps
  ops.foldlM (fun st o => A.app st o.1 o.2.1 o.2.2) state

/-- `s` is a value that adding up the numbers of a list can give, in whatever order and grouping the additions are done. -/
inductive SumsTo (plus : ℂ → ℂ → ℂ) : List ℂ → ℂ → Prop
  | nil : SumsTo plus [] 0
  | one (x : ℂ) : SumsTo plus [x] x
  | add {l l' xs : List ℂ} {a b : ℂ} : l ≠ [] → l' ≠ [] → xs.Perm (l ++ l') → SumsTo plus l a → SumsTo plus l' b →
      SumsTo plus xs (plus a b)

/-- The operations on single complex numbers from which the array library builds its contractions.  `sum` is the sum of
a list in the order that the library chooses. -/
structure Flops where
  add : ℂ → ℂ → ℂ
  mul : ℂ → ℂ → ℂ
  sum : List ℂ → ℂ
  sums : ∀ l, SumsTo add l (sum l)

section
open NDArray

/-- `jnp.tensordot` (see `NDArray.tensordot`) with the given operations on numbers. -/
noncomputable def Flops.tensordot (F : Flops) (a b : NDArray ℂ) (axesA axesB : List ℕ) : Py (NDArray ℂ) :=
  if axesA.length = axesB.length ∧ axesA.Nodup ∧ axesB.Nodup ∧
      (∀ q ∈ axesA, q < a.ndim) ∧ (∀ q ∈ axesB, q < b.ndim) ∧
      axesA.map (fun q => a.shape.getD q 0) = axesB.map (fun q => b.shape.getD q 0) then
    let fa := freeAxes a.ndim axesA
    let fb := freeAxes b.ndim axesB
    .ok (ofFn (fa.map (fun q => a.shape.getD q 0) ++ fb.map (fun q => b.shape.getD q 0)) fun idx =>
      F.sum ((allIdx (axesA.map fun q => a.shape.getD q 0)).map fun s =>
        F.mul (a.get (assemble a.ndim axesA s (idx.take fa.length)))
          (b.get (assemble b.ndim axesB s (idx.drop fa.length)))))
  else .error .typeError

/-- `a @ b` (see `NDArray.matmul`) with the given operations on numbers. -/
noncomputable def Flops.matmul (F : Flops) (a b : NDArray ℂ) : Py (NDArray ℂ) :=
  match a.shape, b.shape with
  | [m, k], [k', n] =>
    if k = k' then
      .ok (ofFn [m, n] fun idx =>
        F.sum ((List.range k).map fun l => F.mul (a.get [idx.getD 0 0, l]) (b.get [l, idx.getD 1 0])))
    else .error .typeError
  | _, _ => .error .typeError

/-- `apply_operator` on a state vector (apply.py:53-90) with the given operations on numbers: building the controlled
operator, reshaping and moving axes copy numbers, the contraction computes. -/
noncomputable def Flops.applyOperator (F : Flops) (state operator : NDArray ℂ) (target : List ℕ) (control : Ctl) :
    Py (NDArray ℂ) := do
  let (op, nq, dims) ← prepareOperator operator target control
  let opOut := (List.range (2 * nq)).drop nq
  let st ← F.tensordot op state opOut dims
  moveaxis st (List.range dims.length) dims

end

/-- The arithmetic of `apply_gates` built from operations on single numbers, and gate matrices `op`. -/
noncomputable def Flops.arith (F : Flops) (op : Gate → Py (NDArray ℂ)) : Arith where
  op := op
  mul := F.matmul
  app := F.applyOperator

/-- Complex addition with rounded real operations. -/
noncomputable def addC (rnd : ℝ → ℝ) (x y : ℂ) : ℂ := ⟨rnd (x.re + y.re), rnd (x.im + y.im)⟩

/-- Complex multiplication with rounded real operations: four products, a difference and a sum. -/
noncomputable def mulC (rnd : ℝ → ℝ) (x y : ℂ) : ℂ :=
  ⟨rnd (rnd (x.re * y.re) - rnd (x.im * y.im)), rnd (rnd (x.re * y.im) + rnd (x.im * y.re))⟩

/-- Rounding to the nearest number with a significand of `p` bits (ties upwards; the exponent is not bounded). -/
noncomputable def roundBits (p : ℕ) (x : ℝ) : ℝ :=
  round (x / (2 : ℝ) ^ (Int.log 2 |x| + 1 - p)) * (2 : ℝ) ^ (Int.log 2 |x| + 1 - p)

end Verif
