import Verif.Model.Shots

/-!
# Model of the alignment check of `/repo/horqrux/shots.py`

`align_eigenvectors` computes this check and discards its result (shots.py:133), so `eigenSample` does not mention it.
-/

set_option autoImplicit false

namespace Verif
open NDArray

/-- `validate_permutation_matrix` (shots.py:106-111) for one matrix; `jax.vmap` applies it to each matrix of a stack:
`((ones == P.sum(axis=0)) & (ones == P.sum(axis=1))).min()`. -/
def validatePermutationMatrix {d : ℕ} (P : Fin d → Fin d → ℝ) : Prop :=
  ∀ j, 1 = ∑ i, P i j ∧ 1 = ∑ k, P j k

open Classical in
/-- The error value that `checkify.checkify(checkify_valid_permutation)(P)` (shots.py:114-118, 133) returns while
`eigen_sample` runs on these observables: `true` if it holds no error.  The observables are stacked
(shots.py:92-101), an empty list is refused by `jnp.stack`. -/
noncomputable def alignmentCheck (so : SetOrder) (eigh : Eigh) (observables : List Observable) (values : Values) (n : ℕ) :
    Py Bool := do
  let mats ← observables.mapM (observableMatrix so values n)
  match mats with
  | [] => .error .valueError
  | m :: _ =>
    pure (mats.all fun m' =>
      decide (validatePermutationMatrix (permutationMatrix (eigh.vecs (toMat (2 ^ n) m')) (eigh.vecs (toMat (2 ^ n) m)))))

end Verif
