import Verif.Model.Composite

/-!
# Model of the pytree registrations of horqrux and of `jax.tree_util.tree_flatten`/`tree_unflatten`

Objects are untyped here (`Obj`), because one of the classes is rebuilt with arguments of the wrong types.
-/

set_option autoImplicit false

namespace Verif
open NDArray

/-- The classes of horqrux whose instances occur in operations and states. -/
inductive PyClass
  | primitive | parametric | phase | hamEvo | opSequence | scale | add | observable | quantumCircuit | noise
  | densityMatrix
deriving DecidableEq

/-- Python objects.  `inst c fields` is an instance of class `c`, with its attributes in the following order:
`Primitive`: generator_name, target, control, noise, sparse; `Parametric` and `_PHASE`: the same, then param, shift;
`_HamiltonianEvolution`: the same as `Primitive`, then shift; `OpSequence`, `Add`, `Observable`: operations;
`Scale`: operations, parameter; `QuantumCircuit`: operations, n_qubits, fparams; `DigitalNoiseInstance`: type,
error_probability; `DensityMatrix`: array. -/
inductive Obj
  | none
  | bool (b : Bool)
  | int (k : ℕ)
  | npInt (k : ℕ)
  | str (s : String)
  | num (x : ℝ)
  | arr (a : NDArray ℂ)
  | noiseType (t : NoiseType)
  | tuple (l : List Obj)
  | list (l : List Obj)
  | inst (c : PyClass) (fields : List Obj)

namespace Obj

/-- `Primitive.parse_idx` (primitives/primitive.py:38-47). -/
def parseIdx : Obj → Py Obj
  | .int k => .ok (.tuple [.tuple [.int k]])
  | .npInt k => .ok (.tuple [.tuple [.npInt k]])
  | .tuple l => .ok (.tuple [.tuple l])
  | .arr _ => .error .unsupported
  | _ => .error .attributeError

/-- `Primitive.__post_init__` (primitives/primitive.py:49-54): the new `target` and `control`. -/
def postInit (target control : Obj) : Py (Obj × Obj) := do
  let t ← parseIdx target
  match control with
  | .none => pure (t, .tuple [.none])
  | c => pure (t, ← parseIdx c)

/-- `list(x)`.  Simplification: iterating over instances is not needed here. -/
def pyList : Obj → Py (List Obj)
  | .list l => .ok l
  | .tuple l => .ok l
  | .inst _ _ => .error .unsupported
  | .str _ => .error .unsupported
  | .arr _ => .error .unsupported
  | _ => .error .typeError

/-- `cls(*args)`: the dataclass constructors of `Primitive` (primitives/primitive.py:28-54), `Parametric` and `_PHASE`
(primitives/parametric.py:33-55, 201), `_HamiltonianEvolution` (analog.py:12-26; the fields of the base class come first),
`OpSequence` (composite/sequence.py:14-17), `DigitalNoiseInstance` (noise/noise.py:43-47), `DensityMatrix`
(operator_utils.py:33-37) and the `__init__` of `Scale`, `Add`, `Observable` (composite/compose.py:27-31, 76-77, 128-129)
and `QuantumCircuit` (circuit.py:27-32). -/
noncomputable def construct : PyClass → List Obj → Py Obj
  | .primitive, g :: t :: c :: rest => do
    let (t, c) ← postInit t c
    match rest with
    | [] => pure (.inst .primitive [g, t, c, .none, .bool false])
    | [nz] => pure (.inst .primitive [g, t, c, nz, .bool false])
    | [nz, sp] => pure (.inst .primitive [g, t, c, nz, sp])
    | _ => .error .typeError
  | .hamEvo, g :: t :: c :: rest => do
    let (t, c) ← postInit t c
    match rest with
    | [] => pure (.inst .hamEvo [g, t, c, .none, .bool false, .num 0])
    | [nz] => pure (.inst .hamEvo [g, t, c, nz, .bool false, .num 0])
    | [nz, sp] => pure (.inst .hamEvo [g, t, c, nz, sp, .num 0])
    | [nz, sp, sh] => pure (.inst .hamEvo [g, t, c, nz, sp, sh])
    | _ => .error .typeError
  | .parametric, args => parametric .parametric args
  | .phase, args => parametric .phase args
  | .opSequence, [] => .ok (.inst .opSequence [.list []])
  | .opSequence, [ops] => .ok (.inst .opSequence [ops])
  | .scale, [ops, p] => do pure (.inst .scale [.list (← pyList ops), p])
  | .add, [ops] => do pure (.inst .add [.list (← pyList ops)])
  | .observable, [ops] => do pure (.inst .observable [.list (← pyList ops)])
  | .quantumCircuit, [n, ops] => do pure (.inst .quantumCircuit [.list (← pyList ops), n, .list []])
  | .quantumCircuit, [n, ops, fs] => do pure (.inst .quantumCircuit [.list (← pyList ops), n, fs])
  | .noise, [t, p] => .ok (.inst .noise [t, p])
  | .densityMatrix, [a] => .ok (.inst .densityMatrix [a])
  | _, _ => .error .typeError
where
  /-- `Parametric.__init__`. -/
  parametric (cls : PyClass) : List Obj → Py Obj
  | g :: t :: c :: rest => do
    let (t, c) ← postInit t c
    match rest with
    | [] => pure (.inst cls [g, t, c, .none, .bool false, .str "", .num 0])
    | [nz] => pure (.inst cls [g, t, c, nz, .bool false, .str "", .num 0])
    | [nz, sp] => pure (.inst cls [g, t, c, nz, sp, .str "", .num 0])
    | [nz, sp, p] => pure (.inst cls [g, t, c, nz, sp, p, .num 0])
    | [nz, sp, p, sh] => pure (.inst cls [g, t, c, nz, sp, p, sh])
    | _ => .error .typeError
  | _ => .error .typeError

/-- `x[0]`. -/
def first : Obj → Py Obj
  | .tuple (x :: _) => .ok x
  | .tuple [] => .error .indexError
  | _ => .error .typeError

/-- The result of `self.tree_flatten()`, in the order in which it is returned: the first component is what JAX takes as
the children and the second what it takes as the auxiliary data.  `Primitive` (primitives/primitive.py:66-71), inherited
by `_HamiltonianEvolution`; `Parametric` (primitives/parametric.py:57-70), inherited by `_PHASE`; `OpSequence`
(composite/sequence.py:19-22); `Scale` and `Add` (composite/compose.py:37-40, 79-82), the latter inherited by
`Observable`; `QuantumCircuit` (circuit.py:52-58, which returns `(aux_data, children)`); `DigitalNoiseInstance`
(noise/noise.py:49-54); `DensityMatrix` (operator_utils.py:39-42). -/
def treeFlatten : PyClass → List Obj → Py (List Obj × List Obj)
  | .primitive, [g, t, c, nz, sp] => do pure ([], [g, ← t.first, ← c.first, nz, sp])
  | .hamEvo, [g, t, c, nz, sp, _] => do pure ([], [g, ← t.first, ← c.first, nz, sp])
  | .parametric, [g, t, c, nz, sp, p, sh] => do pure ([], [g, ← t.first, ← c.first, nz, sp, p, sh])
  | .phase, [g, t, c, nz, sp, p, sh] => do pure ([], [g, ← t.first, ← c.first, nz, sp, p, sh])
  | .opSequence, [ops] => .ok ([ops], [])
  | .scale, [ops, p] => .ok ([ops], [p])
  | .add, [ops] => .ok ([ops], [])
  | .observable, [ops] => .ok ([ops], [])
  | .quantumCircuit, [ops, n, fs] => .ok ([n], [ops, fs])
  | .noise, [t, p] => .ok ([], [t, p])
  | .densityMatrix, [a] => .ok ([], [a])
  | _, _ => .error .attributeError

/-- `cls.tree_unflatten(aux_data, children)`: `cls(*children, *aux_data)` (primitives/primitive.py:73-75 and the other
classes), but `cls(*aux_data, *children)` for `QuantumCircuit` (circuit.py:60-62). -/
noncomputable def treeUnflatten (cls : PyClass) (aux children : List Obj) : Py Obj :=
  if cls = .quantumCircuit then construct cls (aux ++ children) else construct cls (children ++ aux)

/-- The classes decorated with `register_pytree_node_class`; the decorator registers the class itself, not its
subclasses, and `_PHASE` (primitives/parametric.py:201) is not decorated. -/
def registered (cls : PyClass) : Bool := cls ≠ .phase

end Obj

/-- The structure returned by `jax.tree_util.tree_flatten`. -/
inductive TreeDef
  | leaf
  | none
  | tuple (l : List TreeDef)
  | list (l : List TreeDef)
  | node (c : PyClass) (aux : List Obj) (children : List TreeDef)

/-- `jax.tree_util.tree_flatten(x)`: the leaves from left to right and the structure.  `None`, tuples, lists and
instances of registered classes are nodes, everything else is a leaf.  `depth` bounds the recursion (see `treeFlatten`). -/
def flattenTo : ℕ → Obj → Py (List Obj × TreeDef)
  | 0, _ => .error .unsupported
  | d + 1, x => match x with
    | .none => .ok ([], .none)
    | .tuple l => do
      let r ← l.mapM (flattenTo d)
      pure (r.flatMap Prod.fst, .tuple (r.map Prod.snd))
    | .list l => do
      let r ← l.mapM (flattenTo d)
      pure (r.flatMap Prod.fst, .list (r.map Prod.snd))
    | .inst c fields =>
      if Obj.registered c then do
        let (children, aux) ← Obj.treeFlatten c fields
        let r ← children.mapM (flattenTo d)
        pure (r.flatMap Prod.fst, .node c aux (r.map Prod.snd))
      else .ok ([x], .leaf)
    | x => .ok ([x], .leaf)

mutual
/-- The nesting depth of an object. -/
def Obj.depth : Obj → ℕ
  | .tuple l => 1 + Obj.depthList l
  | .list l => 1 + Obj.depthList l
  | .inst _ fields => 1 + Obj.depthList fields
  | _ => 1
/-- The largest depth in a list. -/
def Obj.depthList : List Obj → ℕ
  | [] => 0
  | x :: xs => max x.depth (Obj.depthList xs)
end

/-- `jax.tree_util.tree_flatten(x)`. -/
def treeFlatten (x : Obj) : Py (List Obj × TreeDef) := flattenTo x.depth x

mutual
/-- `jax.tree_util.tree_unflatten(treedef, leaves)`; returns the leaves that are left over. -/
noncomputable def treeUnflatten : TreeDef → List Obj → Py (Obj × List Obj)
  | .leaf, leaves =>
    match leaves with
    | [] => .error .valueError
    | x :: rest => .ok (x, rest)
  | .none, leaves => .ok (.none, leaves)
  | .tuple l, leaves => do
    let (xs, rest) ← treeUnflattenList l leaves
    pure (.tuple xs, rest)
  | .list l, leaves => do
    let (xs, rest) ← treeUnflattenList l leaves
    pure (.list xs, rest)
  | .node c aux l, leaves => do
    let (xs, rest) ← treeUnflattenList l leaves
    pure (← Obj.treeUnflatten c aux xs, rest)
/-- The same for several structures one after the other. -/
noncomputable def treeUnflattenList : List TreeDef → List Obj → Py (List Obj × List Obj)
  | [], leaves => .ok ([], leaves)
  | t :: ts, leaves => do
    let (x, rest) ← treeUnflatten t leaves
    let (xs, rest) ← treeUnflattenList ts rest
    pure (x :: xs, rest)
end

/-- Flattening followed by unflattening; surplus leaves are an error (ValueError). -/
noncomputable def roundTrip (x : Obj) : Py Obj := do
  let (leaves, t) ← treeFlatten x
  let (y, rest) ← treeUnflatten t leaves
  if rest.isEmpty then pure y else .error .valueError

/-- The leaves `jax.jit` accepts as arguments: numbers and arrays. -/
def Obj.isArrayLike : Obj → Bool
  | .bool _ | .int _ | .npInt _ | .num _ | .arr _ => true
  | _ => false

/-- What a function compiled by `jax.jit` receives for the argument `x`: TypeError if a leaf is no valid JAX type.
Simplification: the leaves are replaced by tracers, which are identified with the values they stand for. -/
noncomputable def jitRoundTrip (x : Obj) : Py Obj := do
  let (leaves, t) ← treeFlatten x
  if leaves.all Obj.isArrayLike then do
    let (y, rest) ← treeUnflatten t leaves
    if rest.isEmpty then pure y else .error .valueError
  else .error .typeError

/-- The leaves `jax.grad` accepts: floating-point numbers and arrays. -/
def Obj.isInexact : Obj → Bool
  | .num _ | .arr _ => true
  | _ => false

/-- `jax.grad(f)(x)`: TypeError if a leaf of `x` is not a floating-point number or array; otherwise the derivatives of `f` with respect
to the leaves (`grads`, whatever function `f` is) take the places of the leaves. -/
noncomputable def jaxGrad (grads : List Obj → List Obj) (x : Obj) : Py Obj := do
  let (leaves, t) ← treeFlatten x
  if leaves.all Obj.isInexact then do
    let (y, rest) ← treeUnflatten t (grads leaves)
    if rest.isEmpty then pure y else .error .valueError
  else .error .typeError

/-! ## The objects of the other parts of the model -/

/-- The error probability of a noise instance. -/
def ErrProb.toObj : ErrProb → Obj
  | .float x => .num x
  | .tuple l => .tuple (l.map .num)

/-- A noise instance. -/
def NoiseInstance.toObj (z : NoiseInstance) : Obj := .inst .noise [.noiseType z.type, z.errorProbability.toObj]

/-- An entry of a control tuple. -/
def CIdx.toObj : CIdx → Obj
  | .none => .none
  | .int k => .int k
  | .npInt k => .npInt k

/-- A control tuple or `None`. -/
def Ctl.toObj : Ctl → Obj
  | Option.none => .none
  | some l => .tuple (l.map CIdx.toObj)

/-- A parameter. -/
def Param.toObj : Param → Obj
  | .str s => .str s
  | .num x => .num x

/-- The noise of a gate. -/
def noiseObj : Option (List NoiseInstance) → Obj
  | Option.none => .none
  | some l => .tuple (l.map NoiseInstance.toObj)

/-- The five attributes of `Primitive`. -/
def Gate.baseFields (g : Gate) : List Obj :=
  [.str g.generatorName, .tuple [.tuple (g.target.map .int)], .tuple [Ctl.toObj g.control], noiseObj g.noise, .bool g.sparse]

/-- A gate object. -/
def Gate.toObj (g : Gate) : Obj :=
  match g.cls with
  | .primitive => .inst .primitive g.baseFields
  | .parametric p s => .inst .parametric (g.baseFields ++ [p.toObj, .num s])
  | .phase p s => .inst .phase (g.baseFields ++ [p.toObj, .num s])
  | .hamEvo s => .inst .hamEvo (g.baseFields ++ [.num s])

/-- The class of a composite object. -/
def CompKind.cls : CompKind → PyClass
  | .seq => .opSequence
  | .scale _ => .scale
  | .add => .add
  | .obs => .observable
  | .circ _ _ => .quantumCircuit

/-- The attributes of a composite object besides its operations. -/
def CompKind.fields : CompKind → List Obj
  | .scale p => [p.toObj]
  | .circ n fs => [.int n, .list (fs.map .str)]
  | _ => []

mutual
/-- An operation. -/
def Op.toObj : Op → Obj
  | .prim g => g.toObj
  | .comp k ops => .inst k.cls (.list (Op.toObjs ops) :: k.fields)
/-- The objects of a list of operations. -/
def Op.toObjs : List Op → List Obj
  | [] => []
  | o :: os => o.toObj :: Op.toObjs os
end

/-- A density matrix. -/
def DensityMatrix.toObj (ρ : DensityMatrix ℂ) : Obj := .inst .densityMatrix [.arr ρ.array]

end Verif
