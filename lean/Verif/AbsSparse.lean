import Verif.AbsTree
import Verif.Model.Sparse

/-! # Vocabulary for comparing sparse and dense runs -/

set_option autoImplicit false

namespace Verif

/-- A noiseless sparse gate other than a Hamiltonian evolution. -/
def Gate.SparseOk (g : Gate) : Prop := g.sparse = true ∧ g.noise = none ∧ ∀ s, g.cls ≠ .hamEvo s

/-- The gate in dense format. -/
def Gate.asDense (g : Gate) : Gate := { g with sparse := false }

/-- A sparse computation and a dense computation agree: whenever one returns, so does the other, the sparse one returns a
sparse array, and the dense one returns its dense content (wrapped by `emb`). -/
def SameDense {α : Type} (emb : NDArray ℂ → α) (x : Py Arr) (y : Py α) : Prop :=
  (∀ r, x = .ok r → ∃ b : Bcoo ℂ, r = .sparse b ∧ y = .ok (emb b.todense)) ∧ (∀ s, y = .ok s → ∃ r, x = .ok r)

mutual
/-- No matrix products: every sequence, circuit and scaled sequence in the tree has one operation only. -/
def Op.SingleProducts : Op → Prop
  | .prim _ => True
  | .comp k ops => (k ≠ .add → k ≠ .obs → ops.length ≤ 1) ∧ Op.AllSingleProducts ops
/-- The same for all operations of a list. -/
def Op.AllSingleProducts : List Op → Prop
  | [] => True
  | o :: os => o.SingleProducts ∧ Op.AllSingleProducts os
end

end Verif
