import Verif.Model.ApplyGates

set_option autoImplicit false

/-!
# Model of gates whose parameter values are arrays

The dictionary `values` may contain arrays (tests/differentiation/test_gpsr.py:34-37 and tests/test_analog.py:45-50 pass arrays of shape
`(1,)`).  They enter the code only through `parse_values`, `_unitary` and numpy broadcasting, which are modelled here; the
rest of `apply_gates` is unchanged.  Not modelled (`unsupported`): operators with more than two axes.
-/

namespace Verif
open NDArray

/-- One axis of the numpy broadcasting rule. -/
def bcastDim (a b : ℕ) : Option ℕ := if a = b then some a else if a = 1 then some b else if b = 1 then some a else none

/-- Missing leading axes count as `1`. -/
def padShape (r : ℕ) (s : List ℕ) : List ℕ := List.replicate (r - s.length) 1 ++ s

/-- `numpy.broadcast_shapes(s, t)`. -/
def bcastShape (s t : List ℕ) : Option (List ℕ) :=
  let r := max s.length t.length
  (List.zip (padShape r s) (padShape r t)).mapM fun p => bcastDim p.1 p.2

/-- The index at which a broadcast array of shape `s` is read for the index `idx` of the result. -/
def bcastIdx (s idx : List ℕ) : List ℕ := List.zipWith (fun d i => if d = 1 then 0 else i) s (idx.drop (idx.length - s.length))

section
variable {K : Type} [Zero K]

/-- Entrywise binary operation with numpy broadcasting.  Incompatible shapes raise ValueError if the ranks differ and
TypeError otherwise (jax). -/
def bcast2 (f : K → K → K) (a b : NDArray K) : Py (NDArray K) :=
  match bcastShape a.shape b.shape with
  | some s => .ok (ofFn s fun idx => f (a.get (bcastIdx a.shape idx)) (b.get (bcastIdx b.shape idx)))
  | none => .error (if a.ndim = b.ndim then .typeError else .valueError)

/-- Entrywise function. -/
def NDArray.map1 (f : K → K) (a : NDArray K) : NDArray K := ⟨a.shape, a.data.map f⟩
end

/-- A number as an array without axes. -/
def arr0 (x : ℂ) : NDArray ℂ := ⟨[], [x]⟩

/-- `v + shift` for a dictionary value `v`. -/
noncomputable def PyVal.addShiftA (v : PyVal) (shift : ℝ) : Py (NDArray ℂ) :=
  match v with
  | .num x => .ok (arr0 ((x + shift : ℝ) : ℂ))
  | .arr a => .ok (a.map1 (· + (shift : ℂ)))
  | .dict _ => .error .typeError

/-- `Parametric.parse_values` (primitives/parametric.py:48-55). -/
noncomputable def parseValuesA (param : Param) (shift : ℝ) (values : Values) : Py (NDArray ℂ) :=
  match param with
  | .str s => do (← values.get s).addShiftA shift
  | .num x => .ok (arr0 ((x + shift : ℝ) : ℂ))

/-- `_unitary` for arrays (operator_utils.py:147-151): `cos(θ/2) * eye(2) - 1j * sin(θ/2) * generator`, every operation with
broadcasting. -/
noncomputable def rotUnitaryA (generator θ : NDArray ℂ) : Py (NDArray ℂ) := do
  let c ← bcast2 (· * ·) (θ.map1 fun z => Complex.cos (z / 2)) (eye 2)
  let s ← bcast2 (· * ·) (θ.map1 fun z => Complex.I * Complex.sin (z / 2)) generator
  bcast2 (· - ·) c s

namespace Gate

/-- `_unitary` of the gate classes, dense case: `Primitive` (primitives/primitive.py:85-94), `Parametric`
(primitives/parametric.py:76-77), `_PHASE` (primitives/parametric.py:202-207: jax does not broadcast an array with axes to the
entry `(1, 1)` and raises ValueError) and `_HamiltonianEvolution` (analog.py:28-31). -/
noncomputable def unitaryA (g : Gate) (values : Values) : Py (NDArray ℂ) :=
  if g.sparse then .error .unsupported
  else match g.cls with
    | .primitive => g.generator
    | .parametric p s => do
      let gen ← g.generator
      let θ ← parseValuesA p s values
      if 2 < θ.ndim then .error .unsupported else rotUnitaryA gen θ
    | .phase p s => do
      let θ ← parseValuesA p s values
      if θ.shape = [] then .ok (mat2 1 0 0 (Complex.exp (Complex.I * θ.get []))) else .error .valueError
    | .hamEvo s => do
      let t ← (← values.get "time_evolution").addShiftA s
      match ← values.get "hamiltonian" with
      | .arr h => do expm (← bcast2 (· * ·) h (t.map1 fun z => -Complex.I * z))
      | .num _ => .error .valueError
      | .dict _ => .error .typeError

/-- `getattr(gate, op_type)(values)` (apply.py:370-371, 376) for the operation types `_unitary` and `dagger`. -/
noncomputable def operatorA (g : Gate) (opType : OpType) (values : Values) : Py (NDArray ℂ) :=
  match opType with
  | .unitary => g.unitaryA values
  | .dagger => do dagger (← g.unitaryA values)
  | .jacobian => .error .unsupported

end Gate

/-- `apply_gates` for arrays (apply.py:387-427) and density matrices (apply.py:468-497), given `getattr(g, op_type)(values)`. -/
noncomputable def applyGatesOf (opOf : Gate → Py (NDArray ℂ)) (so : SetOrder) (state : State) (gate : GateArg)
    (groupGates mergeOps : Bool) : Py State := do
  let (ops, noise) ← prepareSequenceReduce opOf NDArray.matmul gate groupGates mergeOps
  match state with
  | .vec a =>
    if !allNoiseless noise then
      let r ← reduceApplyNoise so ops noise (densityMat a)
      .ok (.dm r)
    else
      let r ← reduceApply ops a
      .ok (.vec r)
  | .dm ρ =>
    let r ← reduceApplyNoise so ops noise ρ
    .ok (.dm r)

/-- `apply_gates(state, gate, values, …)` where entries of `values` may be arrays. -/
noncomputable def applyGatesA (so : SetOrder) (state : State) (gate : GateArg) (values : Values)
    (opType : OpType := .unitary) (groupGates : Bool := false) (mergeOps : Bool := true) : Py State :=
  applyGatesOf (fun g => g.operatorA opType values) so state gate groupGates mergeOps

theorem applyGates_eq_of (so : SetOrder) (state : State) (gate : GateArg) (values : Values) (opType : OpType)
    (groupGates mergeOps : Bool) : applyGates so state gate values opType groupGates mergeOps
      = applyGatesOf (fun g => g.operator opType values) so state gate groupGates mergeOps := rfl

end Verif
