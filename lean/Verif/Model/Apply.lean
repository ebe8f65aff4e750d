import Verif.Model.OperatorUtils

/-! # Model of `/repo/horqrux/apply.py`: `apply_operator` and Kraus channels -/

namespace Verif
open NDArray
variable {K : Type} [CommRing K]

/-- The common preamble of the three `apply_operator` implementations (apply.py:79-85, 119-125, 156-162): build the
controlled operator if needed, list the affected axes, and reshape the operator to `(2,)*2k`.  Returns the reshaped
operator, the number `k` of operator qubits and `state_dims`. -/
def prepareOperator (operator : NDArray K) (target : List ℕ) (control : Ctl) :
    Py (NDArray K × ℕ × List ℕ) := do
  let (operator, dims) ← (if isControlled control then do
      let op ← controlledBlock operator (control.getD []).length
      let cs ← ctlQubits control
      pure (op, cs ++ target)
    else pure (operator, target) : Py (NDArray K × List ℕ))
  let nq := intLog2 (operator.shape.getD 1 0)
  let op ← operator.reshape (List.replicate (2 * nq) 2)
  pure (op, nq, dims)

/-- `apply_operator` on a state vector (apply.py:53-90). -/
def applyOperator (state operator : NDArray K) (target : List ℕ) (control : Ctl) : Py (NDArray K) := do
  let (op, nq, dims) ← prepareOperator operator target control
  let opOut := (List.range (2 * nq)).drop nq
  let st ← tensordot op state opOut dims
  moveaxis st (List.range dims.length) dims

variable [StarRing K]

/-- `apply_operator` on a density matrix (apply.py:137-179): `ρ ↦ O ρ O†` by two tensor contractions. -/
def applyOperatorDM (so : SetOrder) (state : DensityMatrix K) (operator : NDArray K) (target : List ℕ)
    (control : Ctl) : Py (DensityMatrix K) := do
  let (op, nq, dims) ← prepareOperator operator target control
  let opOut := (List.range (2 * nq)).drop nq
  let opIn := List.range nq
  let rest := so.order ((List.range (state.array.ndim / 2)).filter (· ∉ dims))
  let perm := dims ++ rest
  let a ← permuteBasis state.array perm false
  let a ← tensordot op a opOut (List.range dims.length)
  let a ← dagger a
  let a ← tensordot op a opOut opIn
  let a ← dagger a
  let a ← permuteBasis a perm true
  pure ⟨a⟩

/-- `apply_kraus_operator` (apply.py:182-211). -/
def applyKrausOperator (kraus array : NDArray K) (target : List ℕ) : Py (NDArray K) := do
  let nAxes := intLog2 kraus.size
  let k ← kraus.reshape (List.replicate nAxes 2)
  let opOut := (List.range nAxes).drop (nAxes / 2)
  let opIn := List.range (nAxes / 2)
  let newDims := List.range target.length
  let a ← moveaxis array newDims target
  let a ← tensordot k a opOut newDims
  let a ← dagger a
  let a ← tensordot k a opOut opIn
  let a ← dagger a
  moveaxis a target newDims

/-- `jnp.sum(stack, 0)` of arrays of equal shape; an empty stack is an error (`jnp.stack` of an empty list raises
ValueError, apply.py:274). -/
def sumArrays : List (NDArray K) → Py (NDArray K)
  | [] => .error .valueError
  | a :: l => l.foldlM NDArray.add a

/-- `apply_kraus_sum` (apply.py:214-240). -/
def applyKrausSum (krausOps : List (NDArray K)) (array : NDArray K) (target : List ℕ) :
    Py (DensityMatrix K) := do
  let evol ← krausOps.mapM fun k => applyKrausOperator k array target
  let s ← sumArrays evol
  pure ⟨s⟩

/-- `apply_operator_with_noise` (apply.py:243-276).  `noise` is `None` or the list, over the noise instances `n` of the
gate, of the result of evaluating `n.kraus` (which may raise). -/
def applyOperatorWithNoise (so : SetOrder) (state : DensityMatrix K) (operator : NDArray K) (target : List ℕ)
    (control : Ctl) (noise : Option (List (Py (List (NDArray K))))) : Py (DensityMatrix K) := do
  let g ← applyOperatorDM so state operator target control
  match noise with
  | none => pure g
  | some ns =>
    let full := List.range (numQubitsDM g)
    ns.foldlM (fun dm kraus => do
      let ks ← (← kraus).mapM fun k => expandOperator k target full
      applyKrausSum ks dm.array full) g

end Verif
