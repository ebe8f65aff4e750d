import Verif.Model.Composite

/-! # Model of the `==` that `@dataclass` generates for the classes of horqrux

The generated `__eq__` returns `NotImplemented`, so that `==` is `False`, unless both objects have the very same class;
then it compares the tuples of the *dataclass fields*, those with annotations in the bodies of the decorated classes. -/

set_option autoImplicit false

namespace Verif

/-- `==` of gates: `Primitive` (primitives/primitive.py:27-36), `Parametric` (primitives/parametric.py:33-43), whose
method `_PHASE` (primitives/parametric.py:201) inherits, and `_HamiltonianEvolution` (analog.py:12-23): the fields are
generator_name, target, control, noise, sparse and those the class adds, here the contents of `cls`.  Numpy and Python
integers are equal (`Ctl.Same`); `DigitalNoiseInstance` (noise/noise.py:43-47) compares its two fields. -/
def Gate.PyEq (g h : Gate) : Prop :=
  g.cls = h.cls ∧ g.generatorName = h.generatorName ∧ g.target = h.target ∧ Ctl.Same g.control h.control ∧
    g.noise = h.noise ∧ g.sparse = h.sparse

/-- The two objects have the same class. -/
def CompKind.SameClass : CompKind → CompKind → Prop
  | .seq, .seq | .scale _, .scale _ | .add, .add | .obs, .obs | .circ _ _, .circ _ _ => True
  | _, _ => False

namespace Op
mutual
/-- `==` of operations.  `operations` is the only dataclass field of `OpSequence` (composite/sequence.py:15-17).  `Scale`,
`Add` and `Observable` (composite/compose.py:18-31, 68-77, 116-129) are no dataclasses and inherit the method of
`OpSequence`; `QuantumCircuit` (circuit.py:15-32) is one, but annotates no fields of its own. -/
def PyEq : Op → Op → Prop
  | .prim g, .prim h => g.PyEq h
  | .comp k ops, .comp k' ops' => k.SameClass k' ∧ PyEqs ops ops'
  | _, _ => False
/-- `==` of lists of operations. -/
def PyEqs : List Op → List Op → Prop
  | [], [] => True
  | o :: os, o' :: os' => PyEq o o' ∧ PyEqs os os'
  | _, _ => False
end
end Op

end Verif
