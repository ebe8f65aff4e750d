import Verif.AbsOp

/-!
# Which gates can influence which qubits
-/

set_option autoImplicit false

namespace Verif

/-- The backward light cone of the qubits `S` in a list of things that act on qubits, the first one acting first: a thing is in
the cone if it shares a qubit with `S` or with a later thing in the cone.  Returned with the qubits of the cone. -/
def coneOf {α : Type} (qubits : α → List ℕ) (S : List ℕ) : List α → List α × List ℕ
  | [] => ([], S)
  | g :: gs =>
    let c := coneOf qubits S gs
    if ∃ q ∈ qubits g, q ∈ c.2 then (g :: c.1, qubits g ++ c.2) else c

/-- The gates in the backward light cone of the qubits `S`. -/
def lightCone (S : List ℕ) (gs : List Gate) : List Gate := (coneOf Gate.qubits S gs).1

/-- The observable acts on the qubits of `S` only. -/
def Observable.ActsOn (o : Observable) (S : List ℕ) : Prop := ∀ g ∈ Op.gatesList o.ops, ∀ q ∈ g.qubits, q ∈ S

end Verif
