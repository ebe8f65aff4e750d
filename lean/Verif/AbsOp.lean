import Verif.AbsGate
import Verif.Model.Api

/-!
# Reading operation trees in the specification vocabulary
-/

namespace Verif
variable {n : ℕ}

/-- What a noiseless standard gate means on an `n`-qubit register. -/
def StdLeaf (n : ℕ) (values : Values) (g : Gate) (M : Matrix (Lab n) (Lab n) ℂ) : Prop :=
  ∃ s, g.Std n values s ∧ g.noise = none ∧ M = stdMat n g s

/-- What a noiseless gate of any class (including Hamiltonian evolution) means on an `n`-qubit register. -/
def AnyLeaf (n : ℕ) (values : Values) (g : Gate) (M : Matrix (Lab n) (Lab n) ℂ) : Prop :=
  g.Ok n .unitary values ∧ g.noise = none ∧ M = g.mat n .unitary values

mutual
/-- The textbook meaning of an operation tree as a matrix on the register, given the meaning `L` of its gates:
a sequence is the product of its operations, the first one acting first; `Scale` multiplies by its parameter; `Add` is
the sum of its operations (at least one). -/
inductive Op.Means (L : Gate → Matrix (Lab n) (Lab n) ℂ → Prop) (values : Values) :
    Op → Matrix (Lab n) (Lab n) ℂ → Prop
  | gate {g : Gate} {M : Matrix (Lab n) (Lab n) ℂ} (h : L g M) : Op.Means L values (.prim g) M
  | seq {ops : List Op} {M : Matrix (Lab n) (Lab n) ℂ} (h : Op.MeansSeq L values ops M) :
      Op.Means L values (.comp .seq ops) M
  | circ {ops : List Op} {M : Matrix (Lab n) (Lab n) ℂ} (k : ℕ) (fs : List String) (h : Op.MeansSeq L values ops M) :
      Op.Means L values (.comp (.circ k fs) ops) M
  | scale {ops : List Op} {M : Matrix (Lab n) (Lab n) ℂ} {p : Param} {x : ℝ} (hp : p.Resolves values x)
      (h : Op.MeansSeq L values ops M) : Op.Means L values (.comp (.scale p) ops) ((x : ℂ) • M)
  | add {ops : List Op} {M : Matrix (Lab n) (Lab n) ℂ} (h : Op.MeansSum L values ops M) :
      Op.Means L values (.comp .add ops) M
/-- The meaning of operations executed one after the other. -/
inductive Op.MeansSeq (L : Gate → Matrix (Lab n) (Lab n) ℂ → Prop) (values : Values) :
    List Op → Matrix (Lab n) (Lab n) ℂ → Prop
  | nil : Op.MeansSeq L values [] 1
  | cons {o : Op} {os : List Op} {A B : Matrix (Lab n) (Lab n) ℂ} (h : Op.Means L values o A)
      (hs : Op.MeansSeq L values os B) : Op.MeansSeq L values (o :: os) (B * A)
/-- The meaning of a sum of operations. -/
inductive Op.MeansSum (L : Gate → Matrix (Lab n) (Lab n) ℂ → Prop) (values : Values) :
    List Op → Matrix (Lab n) (Lab n) ℂ → Prop
  | one {o : Op} {A : Matrix (Lab n) (Lab n) ℂ} (h : Op.Means L values o A) : Op.MeansSum L values [o] A
  | cons {o : Op} {os : List Op} {A B : Matrix (Lab n) (Lab n) ℂ} (h : Op.Means L values o A)
      (hs : Op.MeansSum L values os B) : Op.MeansSum L values (o :: os) (A + B)
end

mutual
/-- As `Op.Means`, but with the operations of a (non-empty) sequence multiplied in the order in which they are listed,
i.e. with the first one on the left (acting last). -/
inductive Op.Listed (L : Gate → Matrix (Lab n) (Lab n) ℂ → Prop) (values : Values) :
    Op → Matrix (Lab n) (Lab n) ℂ → Prop
  | gate {g : Gate} {M : Matrix (Lab n) (Lab n) ℂ} (h : L g M) : Op.Listed L values (.prim g) M
  | seq {ops : List Op} {M : Matrix (Lab n) (Lab n) ℂ} (h : Op.ListedSeq L values ops M) :
      Op.Listed L values (.comp .seq ops) M
  | circ {ops : List Op} {M : Matrix (Lab n) (Lab n) ℂ} (k : ℕ) (fs : List String) (h : Op.ListedSeq L values ops M) :
      Op.Listed L values (.comp (.circ k fs) ops) M
  | scale {ops : List Op} {M : Matrix (Lab n) (Lab n) ℂ} {p : Param} {x : ℝ} (hp : p.Resolves values x)
      (h : Op.ListedSeq L values ops M) : Op.Listed L values (.comp (.scale p) ops) ((x : ℂ) • M)
  | add {ops : List Op} {M : Matrix (Lab n) (Lab n) ℂ} (h : Op.ListedSum L values ops M) :
      Op.Listed L values (.comp .add ops) M
/-- The product of the operations in listing order. -/
inductive Op.ListedSeq (L : Gate → Matrix (Lab n) (Lab n) ℂ → Prop) (values : Values) :
    List Op → Matrix (Lab n) (Lab n) ℂ → Prop
  | one {o : Op} {A : Matrix (Lab n) (Lab n) ℂ} (h : Op.Listed L values o A) : Op.ListedSeq L values [o] A
  | cons {o : Op} {os : List Op} {A B : Matrix (Lab n) (Lab n) ℂ} (h : Op.Listed L values o A)
      (hs : Op.ListedSeq L values os B) : Op.ListedSeq L values (o :: os) (A * B)
/-- The sum of the operations. -/
inductive Op.ListedSum (L : Gate → Matrix (Lab n) (Lab n) ℂ → Prop) (values : Values) :
    List Op → Matrix (Lab n) (Lab n) ℂ → Prop
  | one {o : Op} {A : Matrix (Lab n) (Lab n) ℂ} (h : Op.Listed L values o A) : Op.ListedSum L values [o] A
  | cons {o : Op} {os : List Op} {A B : Matrix (Lab n) (Lab n) ℂ} (h : Op.Listed L values o A)
      (hs : Op.ListedSum L values os B) : Op.ListedSum L values (o :: os) (A + B)
end

/-- The operator of an observable: the sum of its operations. -/
def Observable.Means (L : Gate → Matrix (Lab n) (Lab n) ℂ → Prop) (values : Values) (o : Observable)
    (M : Matrix (Lab n) (Lab n) ℂ) : Prop := Op.MeansSum L values o.ops M

mutual
/-- A tree of gates built with `OpSequence` and `QuantumCircuit` only. -/
inductive Op.Plain : Op → Prop
  | prim (g : Gate) : Op.Plain (.prim g)
  | seq {ops : List Op} (h : Op.PlainList ops) : Op.Plain (.comp .seq ops)
  | circ {ops : List Op} (k : ℕ) (fs : List String) (h : Op.PlainList ops) : Op.Plain (.comp (.circ k fs) ops)
/-- A list of such trees. -/
inductive Op.PlainList : List Op → Prop
  | nil : Op.PlainList []
  | cons {o : Op} {os : List Op} (h : Op.Plain o) (hs : Op.PlainList os) : Op.PlainList (o :: os)
end

mutual
/-- The gates of a tree, in the order in which they are listed. -/
def Op.gates : Op → List Gate
  | .prim g => [g]
  | .comp _ ops => Op.gatesList ops
/-- The gates of a list of trees. -/
def Op.gatesList : List Op → List Gate
  | [] => []
  | o :: os => o.gates ++ Op.gatesList os
end

/-- The qubits of a gate. -/
def Gate.qubits (g : Gate) : List ℕ := ctlInts g.control ++ g.target

/-- The expectation value `Re tr(O ρ)` of an operator in a state; for a state vector this is `Re ⟨ψ|O|ψ⟩`. -/
noncomputable def expVal (O ρ : Matrix (Lab n) (Lab n) ℂ) : ℝ := (O * ρ).trace.re

end Verif
