import Verif.Model.Pytree

/-!
# Model of the compilation cache of `jax.jit`

A function compiled by `jax.jit` is traced once for every structure (`TreeDef`) of its arguments.  When it is called again with
arguments whose structure compares equal to a structure it was traced for, JAX runs the program traced then, on the leaves given
now.  Structures are compared with Python's `==` on their auxiliary data, so that the attributes that horqrux puts there
(all attributes of gates, the arrays of density matrices) are those of the first call.  The library compiles the expectation values
of its backward parameter-shift gradients in this way (differentiation/gpsr/analytical.py:57, differentiation/gpsr/shots.py:24).

Simplifications: hashes are not modelled (JAX hashes the shape of the tree, not the auxiliary data), and programs traced for leaves
of other dtypes or shapes are not distinguished.
-/

set_option autoImplicit false

namespace Verif
open NDArray
open scoped Classical

namespace Obj

/-- The number that Python compares: `True == 1 == 1.0 == numpy.int64(1)`. -/
noncomputable def number : Obj → Option ℝ
  | .bool b => some (if b then 1 else 0)
  | .int k => some k
  | .npInt k => some k
  | .num x => some x
  | _ => Option.none

/-- `operations` is the only dataclass field of `OpSequence` and its subclasses (see `Op.PyEq`). -/
def _root_.Verif.PyClass.comparesFirst : PyClass → Bool
  | .opSequence | .scale | .add | .observable | .quantumCircuit => true
  | _ => false

mutual
/-- The truth value of `a == b`.  Arrays are compared entry by entry, and the truth value of an array with several entries is an
error (ValueError); the two arrays are different objects (Python skips the comparison of an object with itself). -/
noncomputable def cmp : Obj → Obj → Py Bool
  | .none, y => match y with
    | .none => .ok true
    | _ => .ok false
  | .str s, y => match y with
    | .str s' => .ok (decide (s = s'))
    | _ => .ok false
  | .noiseType t, y => match y with
    | .noiseType t' => .ok (decide (t = t'))
    | _ => .ok false
  | .arr a, y => match y with
    | .arr b => if a.size = 1 ∧ b.size = 1 then .ok (decide (a.data = b.data)) else .error .valueError
    | _ => .error .unsupported
  | .tuple l, y => match y with
    | .tuple l' => cmpList l l'
    | _ => .ok false
  | .list l, y => match y with
    | .list l' => if l.length = l'.length then cmpList l l' else .ok false
    | _ => .ok false
  | .inst c fields, y => match y with
    | .inst c' fields' =>
      if c = c' then
        if c.comparesFirst then cmpFirst fields fields' else cmpList fields fields'
      else .ok false
    | _ => .ok false
  | .bool b, y => .ok (decide ((Obj.bool b).number = y.number))
  | .int k, y => .ok (decide ((Obj.int k).number = y.number))
  | .npInt k, y => .ok (decide ((Obj.npInt k).number = y.number))
  | .num x, y => .ok (decide ((Obj.num x).number = y.number))
/-- The comparison of the elements of two tuples, up to the first difference. -/
noncomputable def cmpList : List Obj → List Obj → Py Bool
  | [], [] => .ok true
  | x :: xs, y :: ys => do if ← cmp x y then cmpList xs ys else .ok false
  | _, _ => .ok false
/-- The comparison of the first elements. -/
noncomputable def cmpFirst : List Obj → List Obj → Py Bool
  | x :: _, y :: _ => cmp x y
  | _, _ => .error .unsupported
end

end Obj

namespace TreeDef

mutual
/-- `==` of structures: kinds and classes of nodes, numbers of children, and `==` of the auxiliary data.  Simplification: children
are compared before the auxiliary data of their parent; JAX may notice other differences first. -/
noncomputable def cmp : TreeDef → TreeDef → Py Bool
  | .leaf, t => match t with
    | .leaf => .ok true
    | _ => .ok false
  | .none, t => match t with
    | .none => .ok true
    | _ => .ok false
  | .tuple l, t => match t with
    | .tuple l' => cmpList l l'
    | _ => .ok false
  | .list l, t => match t with
    | .list l' => cmpList l l'
    | _ => .ok false
  | .node c aux l, t => match t with
    | .node c' aux' l' =>
      if c = c' then do
        if ← cmpList l l' then Obj.cmpList aux aux' else .ok false
      else .ok false
    | _ => .ok false
/-- The same for lists of structures. -/
noncomputable def cmpList : List TreeDef → List TreeDef → Py Bool
  | [], [] => .ok true
  | x :: xs, y :: ys => do if ← cmp x y then cmpList xs ys else .ok false
  | _, _ => .ok false
end

end TreeDef

/-- The structure whose program `jax.jit` runs for arguments of structure `t`: the first traced structure that compares equal, or
`t` itself, which is then traced. -/
noncomputable def jitLookup (t : TreeDef) : List TreeDef → Py TreeDef
  | [] => .ok t
  | t₀ :: traced => do if ← TreeDef.cmp t₀ t then .ok t₀ else jitLookup t traced

/-- The argument that the traced program computes with when the compiled function is called with `x` after calls with arguments of the
structures `traced`: TypeError if a leaf is no valid JAX type. -/
noncomputable def jitSees (traced : List TreeDef) (x : Obj) : Py Obj := do
  let (leaves, t) ← treeFlatten x
  if leaves.all Obj.isArrayLike then do
    let t₀ ← jitLookup t traced
    let (y, rest) ← treeUnflatten t₀ leaves
    if rest.isEmpty then pure y else .error .valueError
  else .error .typeError

/-- The structures traced after calls with the arguments `xs`, one after the other: a call with a structure that compares equal to a
traced one traces nothing, a call that fails neither. -/
noncomputable def jitTraced : List Obj → List TreeDef → List TreeDef
  | [], traced => traced
  | x :: xs, traced =>
    match (do
        let (leaves, t) ← treeFlatten x
        if leaves.all Obj.isArrayLike then do
          let t₀ ← jitLookup t traced
          pure (t, t₀)
        else .error .typeError : Py (TreeDef × TreeDef)) with
    | .ok (t, t₀) => jitTraced xs (if t₀ ∈ traced then traced else traced ++ [t])
    | .error _ => jitTraced xs traced

/-- A state as an object. -/
def State.toObj : State → Obj
  | .vec a => .arr a
  | .dm ρ => ρ.toObj

/-- The arguments `(state, gates, observables)` of `jitted_analytical_exp` (differentiation/gpsr/analytical.py:57).  The fourth
argument, the dictionary of values, has its names in the structure and its numbers in the leaves. -/
def expArgs (state : State) (gates observables : List Op) : Obj :=
  .tuple [state.toObj, .list (Op.toObjs gates), .list (Op.toObjs observables)]

end Verif
