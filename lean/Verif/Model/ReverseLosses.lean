import Verif.Model.Batch
import Verif.Model.Reverse

/-!
# Model of `value_and_grad` of the loss functions of the documentation

In docs/dqc.md:94 and docs/dqc.md:259 `value_and_grad(loss_fn)(param_vals)` differentiates the loss functions in reverse mode.  The loss
functions are those of Model/Batch, run on numbers with pullbacks (Model/Reverse): every mapped call acts on batches of such numbers, and
the second derivatives of the PDE solver are computed on dual numbers over such batches.

`circ` makes a dictionary from the array of parameters by `zip(self.vparams, param_values)` (docs/dqc.md:64, 188), so that the entry of
the gradient at a position of the array is the gradient at the name at this position.  Simplification: the array has one entry for every
name of `vparams`, as in the documentation, and the second derivatives are computed forward over forward, where `jax.hessian` computes
forward over reverse.

`trainLoop` is the training loop of docs/dqc.md:89-101 and 250-263 for an arbitrary optimizer of optax.
-/

set_option autoImplicit false

namespace Verif
open NDArray

/-- `{name: val for name, val in zip(self.vparams, param_values)}` (docs/dqc.md:64, 188). -/
def paramDict {R K : Type} {m : ℕ} (names : Fin m → String) (θ : Fin m → R) : TDict R K := List.ofFn fun i => (names i, TVal.num (θ i))

/-- `value_and_grad(loss_fn)(param_vals)` for a loss function that makes a dictionary from the array of parameters: the value, and the
gradient that the cotangent 1 of the value contributes to every entry of the array. -/
noncomputable def valueAndGrad (loss : TDict (RevR Grad) (RevC Grad) → Py (RevR Grad)) {m : ℕ} (names : Fin m → String) (θ : Fin m → ℝ) :
    Py (ℝ × (Fin m → ℝ)) := do
  let y ← loss (inputDict .flat (paramDict names θ))
  .ok (y.fst, fun i => (y.snd 1).1 (.flat, names i))

/-- `value_and_grad(loss_fn)(param_vals)` of the function fitter (docs/dqc.md:94, 85-87). -/
noncomputable def fitValueAndGrad (so : SetOrder) {n m : ℕ} (state : State) (circuit : Op) (obs : Observable) (input : String)
    (xs ys : Fin n → ℝ) (names : Fin m → String) (θ : Fin m → ℝ) : Py (ℝ × (Fin m → ℝ)) :=
  valueAndGrad (fun d => fitLossT (Tracer.rev Grad) so state circuit obs input d xs ys) names θ

/-- `value_and_grad(loss_fn)(param_vals)` of the PDE solver (docs/dqc.md:259, 209-247). -/
noncomputable def pdeValueAndGrad (so : SetOrder) {n m : ℕ} (state : State) (gates : List Gate) (obs : Observable)
    (xs ys : Fin n → ℝ) (names : Fin m → String) (θ : Fin m → ℝ) : Py (ℝ × (Fin m → ℝ)) :=
  valueAndGrad (fun d => pdeLossT (Tracer.rev Grad) so state gates obs d xs ys) names θ

/-- An optimizer of optax for arrays of `m` parameters, with states in `S`: `init` makes a state from the parameters, `update` makes the
changes of the parameters and the next state from the gradient, the state and the parameters. -/
structure Optimizer (m : ℕ) (S : Type) where
  init : (Fin m → ℝ) → S
  update : (Fin m → ℝ) → S → (Fin m → ℝ) → (Fin m → ℝ) × S

/-- `train_step` with `optimize_step` (docs/dqc.md:89-97, 250-260); `optax.apply_updates` adds the changes. -/
noncomputable def trainStep {m : ℕ} {S : Type} (opt : Optimizer m S) (vag : (Fin m → ℝ) → Py (ℝ × (Fin m → ℝ))) (s : (Fin m → ℝ) × S) :
    Py ((Fin m → ℝ) × S) := do
  let (_, grads) ← vag s.1
  let (updates, st) := opt.update grads s.2 s.1
  .ok (s.1 + updates, st)

/-- `jax.lax.fori_loop(0, k, body, s)` with a body that does not use the index.  JAX traces the body once before it runs the loop, also for
`k = 0`. -/
def foriLoopPy {α : Type} (k : ℕ) (body : α → Py α) (s : α) : Py α := do
  let _ ← body s
  (List.range k).foldlM (fun s _ => body s) s

/-- The training loop of docs/dqc.md:79-80, 101 and of docs/dqc.md:205-206, 263. -/
noncomputable def trainLoop {m : ℕ} {S : Type} (opt : Optimizer m S) (vag : (Fin m → ℝ) → Py (ℝ × (Fin m → ℝ))) (epochs : ℕ)
    (θ : Fin m → ℝ) : Py ((Fin m → ℝ) × S) :=
  foriLoopPy epochs (trainStep opt vag) (θ, opt.init θ)

end Verif
