import Verif.Model.Equality
import Mathlib.Data.Set.Function

/-! # What the texts of operations show -/

set_option autoImplicit false

namespace Verif

/-- Two parameters that are shown alike: they are equal, or one is a number and the other a name spelled like it. -/
inductive Param.Alike (fl : ℝ → List Char) : Param → Param → Prop
  | same (p : Param) : Alike fl p p
  | left (x : ℝ) (s : String) : s.toList = fl x → Alike fl (.num x) (.str s)
  | right (x : ℝ) (s : String) : s.toList = fl x → Alike fl (.str s) (.num x)

/-- What the text of a gate shows of its class: all of `Primitive`; shift and spelling of the parameter of rotations and phase
gates; shift, noise and storage format of evolutions. -/
def Gate.ClassAlike (fl : ℝ → List Char) (g h : Gate) : Prop :=
  match g.cls, h.cls with
  | .primitive, .primitive => True
  | .parametric p s, .parametric p' s' => p.Alike fl p' ∧ s = s'
  | .phase p s, .phase p' s' => p.Alike fl p' ∧ s = s'
  | .hamEvo s, .hamEvo s' => s = s' ∧ g.noise = h.noise ∧ g.sparse = h.sparse
  | _, _ => False

/-- Two gates that are shown alike. -/
def Gate.Alike (fl : ℝ → List Char) (g h : Gate) : Prop :=
  g.generatorName = h.generatorName ∧ g.target = h.target ∧ g.control = h.control ∧ g.ClassAlike fl h

namespace Op
mutual
/-- Two operations that are shown alike: trees of the same classes with gates that are shown alike.  Factors of `Scale`, numbers of
qubits and feature parameters of circuits do not matter. -/
def Alike (fl : ℝ → List Char) : Op → Op → Prop
  | .prim g, .prim h => g.Alike fl h
  | .comp k ops, .comp k' ops' => k.SameClass k' ∧ Alikes fl ops ops'
  | _, _ => False
/-- Lists of operations that are shown alike one by one. -/
def Alikes (fl : ℝ → List Char) : List Op → List Op → Prop
  | [], [] => True
  | o :: os, o' :: os' => Alike fl o o' ∧ Alikes fl os os'
  | _, _ => False
end
end Op

/-- What is used about the texts of floats: different floats have different texts, made of digits, letters, points and signs.  `D` is
the set of all floats. -/
structure FloatText (D : Set ℝ) (fl : ℝ → List Char) : Prop where
  inj : Set.InjOn fl D
  ne : ∀ x, fl x ≠ []
  chars : ∀ x, ∀ c ∈ fl x, c.isAlphanum ∨ c = '.' ∨ c = '+' ∨ c = '-'

/-- The numbers in an error probability. -/
def ErrProb.numbers : ErrProb → List ℝ
  | .float p => [p]
  | .tuple ps => ps

/-- The numbers of a gate: parameter, shift and the error probabilities of the noise. -/
def Gate.numbers (g : Gate) : List ℝ :=
  (match g.cls with
    | .primitive => []
    | .parametric (.num x) s | .phase (.num x) s => [x, s]
    | .parametric _ s | .phase _ s | .hamEvo s => [s]) ++
  ((g.noise.getD []).flatMap fun i => i.errorProbability.numbers)

/-- Gates as the constructors make them: the generator is one of `OPERATIONS_DICT` (`matrices.py:47-56`), and `I` for phase gates.  The name
of a parameter contains no comma, no control is a numpy integer, all numbers are floats. -/
structure Gate.Printable (D : Set ℝ) (g : Gate) : Prop where
  gen : g.generatorName ∈ ["X", "Y", "Z", "H", "S", "T", "I", "SWAP"]
  unit : ∀ p s, g.cls = .phase p s → g.generatorName = "I"
  name : ∀ s x, g.cls = .parametric (.str s) x ∨ g.cls = .phase (.str s) x → ',' ∉ s.toList
  ctl : ∀ l, g.control = some l → ∀ q, CIdx.npInt q ∉ l
  nums : ∀ x ∈ g.numbers, x ∈ D

namespace Op
mutual
/-- All gates of an operation satisfy a condition. -/
def AllGates (P : Gate → Prop) : Op → Prop
  | .prim g => P g
  | .comp _ ops => AllGatesList P ops
def AllGatesList (P : Gate → Prop) : List Op → Prop
  | [] => True
  | o :: os => AllGates P o ∧ AllGatesList P os
end
end Op

end Verif
