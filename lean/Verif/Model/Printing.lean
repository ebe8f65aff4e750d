import Verif.Model.Equality

/-! # Model of the texts of operations (`repr`)

Texts are lists of characters.  `fl` is the text that Python gives a float, `np` the one of a numpy integer (`3` or `np.int64(3)`,
depending on the version of numpy).  Simplifications: targets are Python integers, numbers are floats. -/

set_option autoImplicit false

namespace Verif

/-- The text of a tuple: `()`, `(a,)`, `(a, b)`. -/
def tupleText : List (List Char) → List Char
  | [] => "()".toList
  | [x] => '(' :: x ++ ",)".toList
  | xs => '(' :: (", ".toList.intercalate xs ++ ")".toList)

/-- The text of a list: `[a, b]`. -/
def listText (xs : List (List Char)) : List Char := '[' :: (", ".toList.intercalate xs ++ "]".toList)

/-- The text of an integer that is not negative. -/
def natText (n : ℕ) : List Char := Nat.toDigits 10 n

section
variable (fl : ℝ → List Char) (np : ℕ → List Char)

/-- `DigitalNoiseType.value` (noise/noise.py:22-29). -/
def NoiseType.text : NoiseType → List Char
  | .bitFlip => "BitFlip".toList
  | .phaseFlip => "PhaseFlip".toList
  | .depolarizing => "Depolarizing".toList
  | .pauliChannel => "PauliChannel".toList
  | .amplitudeDamping => "AmplitudeDamping".toList
  | .phaseDamping => "PhaseDamping".toList
  | .generalizedAmplitudeDamping => "GeneralizedAmplitudeDamping".toList

/-- `f"{self.error_probability}"`. -/
def ErrProb.text : ErrProb → List Char
  | .float p => fl p
  | .tuple ps => tupleText (ps.map fl)

/-- `DigitalNoiseInstance.__repr__` (noise/noise.py:65-66). -/
def NoiseInstance.text (i : NoiseInstance) : List Char :=
  i.type.text ++ "(p=".toList ++ i.errorProbability.text fl ++ ")".toList

/-- The text of a noise protocol: `None` or a tuple of instances. -/
def noiseText : Option (List NoiseInstance) → List Char
  | none => "None".toList
  | some l => tupleText (l.map (NoiseInstance.text fl))

/-- One entry of a control tuple. -/
def CIdx.text : CIdx → List Char
  | .none => "None".toList
  | .int q => natText q
  | .npInt q => np q

/-- `f"{self.control}"`: a tuple with one tuple in it, or `(None,)`. -/
def Ctl.text : Ctl → List Char
  | none => tupleText ["None".toList]
  | some l => tupleText [tupleText (l.map (CIdx.text np))]

/-- `f"{self.target}"`: a tuple with one tuple in it. -/
def targetText (ts : List ℕ) : List Char := tupleText [tupleText (ts.map natText)]

/-- `f"{self.param}"`: names are shown without quotes. -/
def Param.text : Param → List Char
  | .str s => s.toList
  | .num x => fl x

/-- `True` or `False`. -/
def boolText : Bool → List Char
  | true => "True".toList
  | false => "False".toList

/-- `Primitive.__repr__` (primitives/primitive.py:158-159), `Parametric.__repr__` (primitives/parametric.py:87-91), which `_PHASE`
inherits, and the method that `@dataclass` generates for `_HamiltonianEvolution` (analog.py:12-23).  The name of the generator
contains no quotes. -/
def Gate.text (g : Gate) : List Char :=
  match g.cls with
  | .primitive =>
    g.name.toList ++ "(target=".toList ++ targetText g.target ++ ", control=".toList ++ Ctl.text np g.control ++ ")".toList
  | .parametric p s | .phase p s =>
    g.name.toList ++ "(target=".toList ++ targetText g.target ++ ", control=".toList ++ Ctl.text np g.control ++
      ", param=".toList ++ p.text fl ++ ", shift=".toList ++ fl s ++ ")".toList
  | .hamEvo s =>
    "_HamiltonianEvolution".toList ++ "(generator_name='".toList ++ g.generatorName.toList ++ "', target=".toList ++
      targetText g.target ++ ", control=".toList ++ Ctl.text np g.control ++ ", noise=".toList ++ noiseText fl g.noise ++
      ", sparse=".toList ++ boolText g.sparse ++ ", shift=".toList ++ fl s ++ ")".toList

/-- `type(o).__qualname__`. -/
def CompKind.className : CompKind → List Char
  | .seq => "OpSequence".toList
  | .scale _ => "Scale".toList
  | .add => "Add".toList
  | .obs => "Observable".toList
  | .circ _ _ => "QuantumCircuit".toList

namespace Op
mutual
/-- The text of an operation.  `OpSequence` (composite/sequence.py:14-17) has the method that `@dataclass` generates, which shows the
class of the object and the only field, `operations`; `Scale`, `Add` and `Observable` (composite/compose.py) inherit it, and
`QuantumCircuit` (circuit.py:14-32) gets one of the same form. -/
def text : Op → List Char
  | .prim g => g.text fl np
  | .comp k ops => k.className ++ "(operations=".toList ++ listText (texts ops) ++ ")".toList
/-- The texts of the operations of a list. -/
def texts : List Op → List (List Char)
  | [] => []
  | o :: os => text o :: texts os
end
end Op

end

end Verif
