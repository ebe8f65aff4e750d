import Verif.AbsOp

/-! # Vocabulary for changing the gates of operation trees -/

set_option autoImplicit false

namespace Verif

mutual
/-- The operation with every gate `g` replaced by `f g`; everything else stays. -/
def Op.mapGates (f : Gate → Gate) : Op → Op
  | .prim g => .prim (f g)
  | .comp k ops => .comp k (Op.mapGatesList f ops)
/-- The same for a list of operations. -/
def Op.mapGatesList (f : Gate → Gate) : List Op → List Op
  | [] => []
  | o :: os => o.mapGates f :: Op.mapGatesList f os
end

mutual
/-- Some composite object in the operation has a kind with property `P`. -/
def Op.HasKind (P : CompKind → Prop) : Op → Prop
  | .prim _ => False
  | .comp k ops => P k ∨ Op.AnyKind P ops
/-- The same for a list of operations. -/
def Op.AnyKind (P : CompKind → Prop) : List Op → Prop
  | [] => False
  | o :: os => o.HasKind P ∨ Op.AnyKind P os
end

/-- The kind is `QuantumCircuit`. -/
def CompKind.IsCircuit (k : CompKind) : Prop := ∃ n fs, k = .circ n fs

/-- A gate of the class `_PHASE`. -/
def Gate.IsPhase (g : Gate) : Prop := ∃ p s, g.cls = .phase p s

/-- The gate with the shift of a Hamiltonian evolution set to zero. -/
noncomputable def Gate.resetShift (g : Gate) : Gate :=
  match g.cls with
  | .hamEvo _ => { g with cls := .hamEvo 0 }
  | _ => g

end Verif
