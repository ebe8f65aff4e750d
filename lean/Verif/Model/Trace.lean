import Mathlib.Algebra.DualNumber
import Verif.Model.Api
import Verif.NpMap

/-!
# Model of forward-mode automatic differentiation of `run` and `expectation`

JAX differentiates a program by running it on tracers: every number becomes a pair of a value and a tangent, and every primitive
operation has a rule for the tangent (`jax.jvp`).  Here the code of `horqrux` is written once for an arbitrary kind of numbers, a
`Tracer`: plain numbers (`Tracer.base`), or pairs of value and tangent over another kind (`Tracer.dual`); `jax.jvp` of `jax.jvp`
is `Tracer.dual` twice.  The rules of the primitive operations are those of JAX: sum, product, conjugation, real part, sine, cosine,
exponential, and the matrix exponential.

Modelled: the dense code that `expectation(…, diff_mode="ad")` and `run` execute, with parameters of gates and of `Scale` factors,
the entries of the Hamiltonian and the entries of the input state traced.  Not modelled: parameters that are arrays, sparse
operations, and other modes than AD (they have rules of their own, see Model/Gpsr and Model/Adjoint).  The reverse mode is modelled in
Model/Reverse.
-/

set_option autoImplicit false

namespace Verif
open NDArray

/-- A kind of numbers on which the program can run: real numbers `R`, complex numbers `K` and the primitive operations. -/
structure Tracer where
  R : Type
  K : Type
  [ringR : CommRing R]
  [ringK : CommRing K]
  [starK : StarRing K]
  /-- constants of the program -/
  constR : ℝ →+* R
  const : ℂ →+* K
  /-- a real number used as a complex one -/
  real : R →+* K
  /-- `z.real` -/
  re : K →+ R
  cos : R → R
  sin : R → R
  exp : K → K
  /-- `jax.scipy.linalg.expm` (analog.py:31) -/
  expm : NDArray K → Py (NDArray K)

attribute [instance] Tracer.ringR Tracer.ringK Tracer.starK

/-- Plain numbers. -/
noncomputable abbrev Tracer.base : Tracer where
  R := ℝ
  K := ℂ
  constR := RingHom.id ℝ
  const := RingHom.id ℂ
  real := Complex.ofRealHom
  re := Complex.reAddGroupHom
  cos := Real.cos
  sin := Real.sin
  exp := Complex.exp
  expm := Verif.expm

section dual
open TrivSqZeroExt
variable {K : Type} [CommRing K] [StarRing K]

/-- Conjugation of a pair of value and tangent. -/
instance : Star (DualNumber K) := ⟨fun z => inl (star z.fst) + inr (star z.snd)⟩

theorem DualNumber.fst_star' (z : DualNumber K) : (star z).fst = star z.fst := by
  change (inl (star z.fst) + inr (star z.snd) : DualNumber K).fst = _
  simp

theorem DualNumber.snd_star' (z : DualNumber K) : (star z).snd = star z.snd := by
  change (inl (star z.fst) + inr (star z.snd) : DualNumber K).snd = _
  simp

instance : StarRing (DualNumber K) where
  star_involutive z := by
    apply TrivSqZeroExt.ext
    · rw [DualNumber.fst_star', DualNumber.fst_star', star_star]
    · rw [DualNumber.snd_star', DualNumber.snd_star', star_star]
  star_mul a b := by
    apply TrivSqZeroExt.ext
    · simp [DualNumber.fst_star', mul_comm]
    · simp [DualNumber.fst_star', DualNumber.snd_star', mul_comm]
  star_add a b := by
    apply TrivSqZeroExt.ext
    · simp [DualNumber.fst_star']
    · simp [DualNumber.snd_star']

end dual

/-- The pair of a value and a tangent. -/
def jet {R : Type} (x dx : R) : DualNumber R := (x, dx)

@[simp] theorem jet_fst {R : Type} (x dx : R) : (jet x dx).fst = x := rfl
@[simp] theorem jet_snd {R : Type} (x dx : R) : (jet x dx).snd = dx := rfl

/-- The block matrix `[[a, da], [0, a]]` of values `a` and tangents `da`. -/
def tangentBlock {K : Type} [Zero K] (a : NDArray (DualNumber K)) (d : ℕ) : NDArray K :=
  ofFn [d + d, d + d] fun idx =>
    let i := idx.getD 0 0
    let j := idx.getD 1 0
    if i < d then
      if j < d then (a.get [i, j]).fst else (a.get [i, j - d]).snd
    else
      if j < d then 0 else (a.get [i - d, j - d]).fst

/-- Pairs of value and tangent, with the JVP rules of the primitive operations.  The tangent of `expm(a)` is the Fréchet derivative of
the matrix exponential at `a` in the direction of the tangent, which is the upper right block of the exponential of
`[[a, da], [0, a]]` (that this is the derivative is proved in Lemmas/ExpBlock). -/
noncomputable abbrev Tracer.dual (A : Tracer) : Tracer where
  R := DualNumber A.R
  K := DualNumber A.K
  constR := (TrivSqZeroExt.inlHom A.R A.R).comp A.constR
  const := (TrivSqZeroExt.inlHom A.K A.K).comp A.const
  real :=
    { toFun := fun x => jet (A.real x.fst) (A.real x.snd)
      map_one' := by apply TrivSqZeroExt.ext <;> simp
      map_mul' := fun x y => by apply TrivSqZeroExt.ext <;> simp
      map_zero' := by apply TrivSqZeroExt.ext <;> simp
      map_add' := fun x y => by apply TrivSqZeroExt.ext <;> simp }
  re :=
    { toFun := fun z => jet (A.re z.fst) (A.re z.snd)
      map_zero' := by apply TrivSqZeroExt.ext <;> simp
      map_add' := fun x y => by apply TrivSqZeroExt.ext <;> simp }
  cos := fun x => jet (A.cos x.fst) (-A.sin x.fst * x.snd)
  sin := fun x => jet (A.sin x.fst) (A.cos x.fst * x.snd)
  exp := fun z => jet (A.exp z.fst) (A.exp z.fst * z.snd)
  expm := fun a =>
    match a.shape with
    | [d, d'] =>
      if d = d' then do
        let u ← A.expm (tangentBlock a d)
        .ok (ofFn [d, d] fun idx => jet (u.get [idx.getD 0 0, idx.getD 1 0]) (u.get [idx.getD 0 0, d + idx.getD 1 0]))
      else .error .valueError
    | _ => .error .valueError

/-! ## The program -/

section program
variable (T : Tracer)

/-- A value of the dictionary: a traced number, or an array (a Hamiltonian) of traced numbers. -/
inductive TVal (R K : Type)
  | num (x : R)
  | arr (a : NDArray K)

/-- A dictionary with traced numbers. -/
abbrev TDict (R K : Type) := List (String × TVal R K)

variable {T} in
/-- `values[key]`. -/
def TDict.get {R K : Type} (d : TDict R K) (key : String) : Py (TVal R K) :=
  match d.lookup key with
  | some v => .ok v
  | none => .error .keyError

/-- `Parametric.parse_values` (primitives/parametric.py:48-55). -/
noncomputable def parseT (p : Param) (shift : ℝ) (d : TDict T.R T.K) : Py T.R :=
  match p with
  | .str s => do
    match ← d.get s with
    | .num x => .ok (x + T.constR shift)
    | .arr _ => .error .unsupported
  | .num x => .ok (T.constR (x + shift))

/-- `_unitary` for arrays (operator_utils.py:147-151). -/
noncomputable def rotUnitaryT (generator : NDArray ℂ) (θ : T.R) : Py (NDArray T.K) :=
  (smul (T.real (T.cos (θ * T.constR (1 / 2)))) (eye 2)).add
    (smul (-(T.const Complex.I * T.real (T.sin (θ * T.constR (1 / 2))))) (generator.mapArr T.const))

/-- `_unitary` of the gate classes (primitives/primitive.py:85-94, primitives/parametric.py:76-77, 202-207, analog.py:28-31). -/
noncomputable def Gate.unitaryT (g : Gate) (d : TDict T.R T.K) : Py (NDArray T.K) :=
  if g.sparse then .error .unsupported
  else match g.cls with
    | .primitive => g.generator.map (mapArr T.const)
    | .parametric p s => do
      let gen ← g.generator
      let θ ← parseT T p s d
      rotUnitaryT T gen θ
    | .phase p s => do
      let θ ← parseT T p s d
      .ok ⟨[2, 2], [1, 0, 0, T.exp (T.const Complex.I * T.real θ)]⟩
    | .hamEvo s => do
      let t ← parseT T (.str "time_evolution") s d
      match ← d.get "hamiltonian" with
      | .arr h => T.expm ⟨h.shape, h.data.map (· * (-T.const Complex.I * T.real t))⟩
      | .num _ => .error .valueError

/-- `Primitive.tensor` for dense gates (primitives/primitive.py:107-127). -/
noncomputable def Gate.tensorT (g : Gate) (d : TDict T.R T.K) (fullSupport : Option (List ℕ)) : Py (NDArray T.K) := do
  let u ← g.unitaryT T d
  let u ← if isControlled g.control then controlled u g.target g.control else .ok u
  match fullSupport with
  | none => pure u
  | some full => expandOperator u (← g.qubitSupport) full

/-- A traced state: a state vector or a density matrix. -/
inductive TState (K : Type)
  | vec (a : NDArray K)
  | dm (ρ : DensityMatrix K)

/-- The Kraus operators of a gate's noise, which are constants (apply.py:273-274). -/
noncomputable def noiseKrausT (noise : Option (List NoiseInstance)) : Option (List (Py (List (NDArray T.K)))) :=
  noise.map fun l => l.map fun i => i.kraus.map fun ks => ks.map (mapArr T.const)

/-- See `reduceApplyNoise` (apply.py:416-420, 492-496). -/
noncomputable def reduceApplyNoiseT (so : SetOrder) (ops : List (NDArray T.K × List ℕ × Ctl))
    (noise : List (Option (List NoiseInstance))) (state : DensityMatrix T.K) : Py (DensityMatrix T.K) :=
  (ops.zip noise).foldlM
    (fun st o => applyOperatorWithNoise so st o.1.1 o.1.2.1 o.1.2.2 (noiseKrausT T o.2)) state

/-- `apply_gates` (apply.py:387-427, 468-497). -/
noncomputable def applyGatesT (so : SetOrder) (state : TState T.K) (gate : GateArg) (d : TDict T.R T.K) : Py (TState T.K) := do
  let (ops, noise) ← prepareSequenceReduce (fun g => g.unitaryT T d) NDArray.matmul gate false true
  match state with
  | .vec a =>
    if !allNoiseless noise then
      let r ← reduceApplyNoiseT T so ops noise (densityMat a)
      .ok (.dm r)
    else
      let r ← reduceApply ops a
      .ok (.vec r)
  | .dm ρ =>
    let r ← reduceApplyNoiseT T so ops noise ρ
    .ok (.dm r)

/-- The factor of a `Scale` (composite/compose.py:34, 63). -/
noncomputable def scaleParamT (p : Param) (d : TDict T.R T.K) : Py T.R :=
  match p with
  | .num x => .ok (T.constR x)
  | .str s => do
    match ← d.get s with
    | .num x => .ok x
    | .arr _ => .error .unsupported

namespace Op

mutual
/-- `tensor` (composite/sequence.py:35-56, composite/compose.py:49-64, 91-112), see `Op.tensor`. -/
noncomputable def tensorT (so : SetOrder) (d : TDict T.R T.K) : Op → Option (List ℕ) → Py (NDArray T.K)
  | .prim g, full => g.tensorT T d full
  | .comp .seq ops, full => do
    pyReduce NDArray.matmul (tensorListT so d ops (← fullSupport (qubitSupport so (.comp .seq ops)) full))
  | .comp (.circ n fs) ops, full => do
    pyReduce NDArray.matmul (tensorListT so d ops (← fullSupport (qubitSupport so (.comp (.circ n fs) ops)) full))
  | .comp (.scale p) ops, full => do
    let x ← scaleParamT T p d
    let m ← do
      pyReduce NDArray.matmul (tensorListT so d ops (← fullSupport (qubitSupport so (.comp (.scale p) ops)) full))
    pure (smul (T.real x) m)
  | .comp .add ops, full => do
    pyReduce NDArray.add (tensorListT so d ops (← fullSupport (qubitSupport so (.comp .add ops)) full))
  | .comp .obs ops, full => do
    pyReduce NDArray.add (tensorListT so d ops (← fullSupport (qubitSupport so (.comp .obs ops)) full))
/-- `map(lambda op: op.tensor(values, full_support), self.operations)`. -/
noncomputable def tensorListT (so : SetOrder) (d : TDict T.R T.K) : List Op → List ℕ → List (Py (NDArray T.K))
  | [], _ => []
  | o :: os, full => tensorT so d o (some full) :: tensorListT so d os full
end

/-- `_ad_expectation_single_observable` on a density matrix (differentiation/ad.py:58-68). -/
noncomputable def expectDMT (so : SetOrder) (d : TDict T.R T.K) (ops : List Op) (ρ : DensityMatrix T.K) : Py T.R := do
  let matObs ← tensorT T so d (.comp .obs ops) none
  let dim := 2 ^ numQubitsDM ρ
  let prod ← (← applyOperator ρ.array matObs (← qubitSupport so (.comp .obs ops)) none).reshape [dim, dim]
  pure (T.re (← prod.trace))

/-- `inner(state, projected).real` (differentiation/ad.py:42). -/
noncomputable def innerRealT (state : NDArray T.K) : Option (TState T.K) → Py T.R
  | some (.vec a) => do pure (T.re (← NDArray.dot state.flatten.conj a.flatten))
  | _ => .error .attributeError

variable {T} in
/-- `a + b` for the results of two calls (composite/compose.py:89). -/
def addStatesT : Option (TState T.K) → Option (TState T.K) → Py (Option (TState T.K))
  | some (.vec a), some (.vec b) => do pure (some (.vec (← a.add b)))
  | _, _ => .error .typeError

/-- `jnp.array(param) * state` (composite/compose.py:35). -/
def scaleStateT (x : T.R) : Option (TState T.K) → Py (Option (TState T.K))
  | some (.vec a) => .ok (some (.vec (smul (T.real x) a)))
  | _ => .error .typeError

mutual
/-- `op(state, values)` (primitives/primitive.py:56-61, composite/sequence.py:32-33, composite/compose.py:33-35, 88-89,
134-146), see `Op.call`. -/
noncomputable def callT (so : SetOrder) (d : TDict T.R T.K) : Op → Option (TState T.K) → Py (Option (TState T.K))
  | .prim g, st => do
    let st ← match st with
      | some s => .ok s
      | none => do
        let z ← zeroState (← g.qubitSupport).length
        pure (TState.vec (z.mapArr T.const))
    some <$> applyGatesT T so st (.single g) d
  | .comp .seq ops, st => callSeqT so d ops st
  | .comp (.circ _ _) ops, st => callSeqT so d ops st
  | .comp (.scale p) ops, st => do
    let x ← scaleParamT T p d
    scaleStateT T x (← callSeqT so d ops st)
  | .comp .add ops, st => pyReduce addStatesT (callListT so d ops st)
  | .comp .obs ops, st =>
    match st with
    | none => .error .notImplemented
    | some (.vec a) => do
      let x ← innerRealT T a (← pyReduce addStatesT (callListT so d ops (some (.vec a))))
      pure (some (.vec ⟨[], [T.real x]⟩))
    | some (.dm ρ) => do
      let x ← expectDMT T so d ops ρ
      pure (some (.vec ⟨[], [T.real x]⟩))
/-- `reduce(lambda state, gate: gate.__call__(state, values), operations, state)` (composite/sequence.py:33). -/
noncomputable def callSeqT (so : SetOrder) (d : TDict T.R T.K) : List Op → Option (TState T.K) → Py (Option (TState T.K))
  | [], st => .ok st
  | o :: os, st => do callSeqT so d os (← callT so d o st)
/-- `map(lambda op: op(state, values), self.operations)` (composite/compose.py:89). -/
noncomputable def callListT (so : SetOrder) (d : TDict T.R T.K) :
    List Op → Option (TState T.K) → List (Py (Option (TState T.K)))
  | [], _ => []
  | o :: os, st => callT so d o st :: callListT so d os st
end

end Op

/-- `run` (api.py:25-30). -/
noncomputable def runT (so : SetOrder) (circuit : Op) (state : TState T.K) (d : TDict T.R T.K) : Py (Option (TState T.K)) :=
  circuit.callT T so d (some state)

/-- `_ad_expectation_single_observable` (differentiation/ad.py:23-68). -/
noncomputable def expectSingleT (so : SetOrder) (d : TDict T.R T.K) (o : Observable) : TState T.K → Py T.R
  | .vec a => do Op.innerRealT T a (← pyReduce Op.addStatesT (Op.callListT T so d o.ops (some (.vec a))))
  | .dm ρ => Op.expectDMT T so d o.ops ρ

/-- `ad_expectation` (differentiation/ad.py:71-105) with the dictionaries that `_values_processing` returns for the circuit and
for the observables. -/
noncomputable def adExpectationT (so : SetOrder) (state : TState T.K) (circuit : Op) (observables : List Observable)
    (dc do' : TDict T.R T.K) : Py (List T.R) := do
  let outs ← observables.mapM fun o => do
    let st ← applyGatesT T so state (.list (← opsToGates circuit.iter)) dc
    expectSingleT T so do' o st
  if outs.isEmpty then .error .valueError else .ok outs

end program

/-! ## `jax.jvp` -/

/-- A constant state. -/
noncomputable def State.const (T : Tracer) : State → TState T.K
  | .vec a => .vec (a.mapArr T.const)
  | .dm ρ => .dm ⟨ρ.array.mapArr T.const⟩

/-- The `values` argument: one dictionary, or one for the circuit and one for the observables. -/
inductive TArgs (R K : Type)
  | flat (d : TDict R K)
  | split (dc do' : TDict R K)

/-- `_values_processing` (utils/values_utils.py:4-13), see `valuesProcessing`. -/
def TArgs.process {R K : Type} : TArgs R K → Py (TDict R K × TDict R K)
  | .flat d =>
    match d.lookup "circuit", d.lookup "observables" with
    | some _, some _ => .error .unsupported
    | _, _ => .ok (d, d)
  | .split dc do' => .ok (dc, do')

/-- `expectation(state, circuit, observables, values, "ad")` (api.py:92-162) on traced values. -/
noncomputable def expectationT (T : Tracer) (so : SetOrder) (state : TState T.K) (circuit : Op)
    (observables : List Observable) (values : TArgs T.R T.K) : Py (List T.R) := do
  let (dc, do') ← values.process
  adExpectationT T so state circuit observables dc do'

/-- `jax.jvp` of `lambda state, values: expectation(state, circuit, observables, values, "ad")`: `state` and `values` hold pairs of
value and tangent; returned are the pairs of expectation value and tangent.  For a density matrix the tangents are those of its
array, as in `lambda array, values: expectation(DensityMatrix(array), …)`; for what JAX makes of a density matrix as an argument
see `C98_density_false`. -/
noncomputable def jvpExpectation (so : SetOrder) (state : TState (DualNumber ℂ)) (circuit : Op) (observables : List Observable)
    (values : TArgs (DualNumber ℝ) (DualNumber ℂ)) : Py (List (DualNumber ℝ)) :=
  expectationT Tracer.base.dual so state circuit observables values

/-- `jax.jvp` of `lambda state, values: run(circuit, state, values)`. -/
noncomputable def jvpRun (so : SetOrder) (circuit : Op) (state : TState (DualNumber ℂ))
    (values : TDict (DualNumber ℝ) (DualNumber ℂ)) : Py (Option (TState (DualNumber ℂ))) :=
  runT Tracer.base.dual so circuit state values

/-- `jax.jvp` of `jax.jvp`. -/
noncomputable def jvpExpectation2 (so : SetOrder) (state : TState (DualNumber (DualNumber ℂ))) (circuit : Op)
    (observables : List Observable) (values : TArgs (DualNumber (DualNumber ℝ)) (DualNumber (DualNumber ℂ))) :
    Py (List (DualNumber (DualNumber ℝ))) :=
  expectationT Tracer.base.dual.dual so state circuit observables values

/-- Tracers of `n` nested calls of `jax.jvp`: the innermost call works on pairs of the tracers of the others. -/
noncomputable def Tracer.nest (A : Tracer) : ℕ → Tracer
  | 0 => A
  | n + 1 => (Tracer.nest A n).dual

/-- `n` nested calls of `jax.jvp`. -/
noncomputable def jvpExpectationN (n : ℕ) (so : SetOrder) (state : TState (Tracer.base.nest n).K) (circuit : Op)
    (observables : List Observable) (values : TArgs (Tracer.base.nest n).R (Tracer.base.nest n).K) : Py (List (Tracer.base.nest n).R) :=
  expectationT (Tracer.base.nest n) so state circuit observables values

/-- The number that `n` nested calls of `jax.jvp` with the same tangent `v` pass to the program for the number `x`. -/
noncomputable def nestSeed (x v : ℝ) : (n : ℕ) → (Tracer.base.nest n).R
  | 0 => x
  | n + 1 => jet (nestSeed x v n) ((Tracer.base.nest n).constR v)

/-- The same for a complex number. -/
noncomputable def nestSeedC (x v : ℂ) : (n : ℕ) → (Tracer.base.nest n).K
  | 0 => x
  | n + 1 => jet (nestSeedC x v n) ((Tracer.base.nest n).const v)

/-- The tangent of the tangent … of a result of nested calls. -/
def nestTop : (n : ℕ) → (Tracer.base.nest n).R → ℝ
  | 0, x => x
  | n + 1, z => nestTop n (TrivSqZeroExt.snd (R := (Tracer.base.nest n).R) (M := (Tracer.base.nest n).R) z)

/-! ## Changing the numbers of a dictionary or state -/

/-- The image of a dictionary value. -/
def TVal.map {R S K L : Type} (f : R → S) (g : K → L) : TVal R K → TVal S L
  | .num x => .num (f x)
  | .arr a => .arr (a.mapArr g)

/-- The image of a dictionary. -/
def TDict.mapVals {R S K L : Type} (f : R → S) (g : K → L) (d : TDict R K) : TDict S L :=
  List.map (fun e : String × TVal R K => (e.1, e.2.map f g)) d

/-- The image of the `values` argument. -/
def TArgs.mapVals {R S K L : Type} (f : R → S) (g : K → L) : TArgs R K → TArgs S L
  | .flat d => .flat (d.mapVals f g)
  | .split dc do' => .split (dc.mapVals f g) (do'.mapVals f g)

/-- The image of a state. -/
def TState.map {R S : Type} (f : R → S) : TState R → TState S
  | .vec a => .vec (a.mapArr f)
  | .dm ρ => .dm ⟨ρ.array.mapArr f⟩

/-- A dictionary value of plain numbers as a Python object. -/
def TVal.toPy : TVal ℝ ℂ → PyVal
  | .num x => .num x
  | .arr a => .arr a

/-- A dictionary of plain numbers as a Python dictionary. -/
def TDict.toValues (d : TDict ℝ ℂ) : Values := List.map (fun e : String × TVal ℝ ℂ => (e.1, e.2.toPy)) d

/-- The `values` argument of plain numbers as a Python dictionary. -/
def TArgs.toValues : TArgs ℝ ℂ → Values
  | .flat d => d.toValues
  | .split dc do' => [("circuit", .dict dc.toValues), ("observables", .dict do'.toValues)]

/-- A state of plain numbers. -/
def State.toT : State → TState ℂ
  | .vec a => .vec a
  | .dm ρ => .dm ρ

/-- A state of plain numbers. -/
def TState.toState : TState ℂ → State
  | .vec a => .vec a
  | .dm ρ => .dm ρ

end Verif
