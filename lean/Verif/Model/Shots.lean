import Mathlib.LinearAlgebra.Matrix.NonsingularInverse
import Mathlib.LinearAlgebra.UnitaryGroup
import Verif.Model.Composite

/-!
# Model of `/repo/horqrux/shots.py`

Random numbers are explicit inputs.  `jnp.linalg.eigh` is an arbitrary function with the documented contract.
-/

namespace Verif
open NDArray

/-- `jnp.linalg.eigh` (with its default `symmetrize_input=True`): for every square matrix, real eigenvalues in increasing
order and a unitary matrix whose columns are eigenvectors of the Hermitian part `(A + Aᴴ)/2`. -/
structure Eigh where
  vals : {d : ℕ} → Matrix (Fin d) (Fin d) ℂ → Fin d → ℝ
  vecs : {d : ℕ} → Matrix (Fin d) (Fin d) ℂ → Matrix (Fin d) (Fin d) ℂ
  sorted : ∀ {d : ℕ} (A : Matrix (Fin d) (Fin d) ℂ), Monotone (vals A)
  unitary : ∀ {d : ℕ} (A : Matrix (Fin d) (Fin d) ℂ), (vecs A).conjTranspose * vecs A = 1
  eigen : ∀ {d : ℕ} (A : Matrix (Fin d) (Fin d) ℂ),
    ((1 / 2 : ℂ) • (A + A.conjTranspose)) * vecs A = vecs A * Matrix.diagonal fun i => (vals A i : ℂ)

/-- The entries of a `d × d` array as a matrix. -/
def toMat (d : ℕ) (a : NDArray ℂ) : Matrix (Fin d) (Fin d) ℂ := fun i j => a.get [i.val, j.val]

/-- `[op for op in ops]` used as gates by `apply_gates`: a composite object has no attribute `unitary`
(apply.py:370-371). -/
def opsToGates : List Op → Py (List Gate)
  | [] => .ok []
  | .prim g :: os => do pure (g :: (← opsToGates os))
  | .comp _ _ :: _ => .error .attributeError

/-- `apply_gates(state, ops, values)` for a list of operations. -/
noncomputable def applyOps (so : SetOrder) (state : State) (ops : List Op) (values : Values) : Py State := do
  applyGates so state (.list (← opsToGates ops)) values

/-- `eigen_probabilities` (shots.py:17-65): `|V† ψ|²`, or the real diagonal of `V† ρ V`, where the density matrix has
been reshaped to `(d, d)` (shots.py:181-183). -/
noncomputable def eigenProbabilities (d : ℕ) (V : Matrix (Fin d) (Fin d) ℂ) : State → Py (List ℝ)
  | .vec a =>
    if a.shape.prod = d then
      .ok (List.ofFn fun i => ‖V.conjTranspose.mulVec (fun j : Fin d => a.flatten.get [j.val]) i‖ ^ 2)
    else .error .typeError
  | .dm ρ => do
    let r ← ρ.array.reshape [d, d]
    pure (List.ofFn fun i => ((V.conjTranspose * toMat d r * V) i i).re)

/-- `permutation_matrix` (shots.py:139-154): `(inv(mat) @ eigenvector_matrix).real > 0.5`. -/
noncomputable def permutationMatrix {d : ℕ} (mat ref : Matrix (Fin d) (Fin d) ℂ) (i j : Fin d) : ℝ :=
  if 1 / 2 < ((mat⁻¹ * ref) i j).re then 1 else 0

/-- One row of `aligned_eigenvalues` in `align_eigenvectors` (shots.py:121-136): `dot(eigenvalues, P)`.  The result of
`checkify.checkify(checkify_valid_permutation)(P)` is discarded by the code, so it has no effect. -/
noncomputable def alignedEigenvalues {d : ℕ} (w : Fin d → ℝ) (mat ref : Matrix (Fin d) (Fin d) ℂ) (j : Fin d) : ℝ :=
  ∑ i, w i * permutationMatrix mat ref i j

/-- The matrix of an observable on the whole register (shots.py:92-99). -/
noncomputable def observableMatrix (so : SetOrder) (values : Values) (n : ℕ) (o : Observable) : Py (NDArray ℂ) := do
  let t ← o.toOp.tensor so values none
  let e ← expandOperator t (← o.toOp.qubitSupport so) (List.range n)
  e.reshape [2 ^ n, 2 ^ n]

/-- `eigen_sample` (shots.py:68-103) for a state of `n` qubits; `us` are the uniform numbers drawn by
`jax.random.choice(key, a=eigvals, p=probs, shape=(n_shots,))`.  The mean of no samples (NaN) is not modelled. -/
noncomputable def eigenSample (so : SetOrder) (eigh : Eigh) (state : State) (observables : List Observable)
    (values : Values) (n : ℕ) (us : List ℝ) : Py (List ℝ) := do
  let mats ← observables.mapM (observableMatrix so values n)
  match mats with
  | [] => .error .valueError
  | m :: _ =>
    let V := eigh.vecs (toMat (2 ^ n) m)
    let probs ← eigenProbabilities (2 ^ n) V state
    if us = [] then .error .unsupported
    else
      let idx := us.map (choiceIndex probs)
      pure (mats.map fun m' =>
        let A := toMat (2 ^ n) m'
        let w := alignedEigenvalues (eigh.vals A) (eigh.vecs A) V
        (idx.map fun i => if h : i < 2 ^ n then w ⟨i, h⟩ else 0).sum / us.length)

/-- `finite_shots` (shots.py:157-184); the density-matrix reshape (shots.py:181-183) happens inside
`eigenProbabilities`. -/
noncomputable def finiteShots (so : SetOrder) (eigh : Eigh) (state : State) (ops : List Op)
    (observables : List Observable) (values : Values) (us : List ℝ) : Py (List ℝ) := do
  let out ← applyOps so state ops values
  eigenSample so eigh out observables values (numQubits out) us

end Verif
