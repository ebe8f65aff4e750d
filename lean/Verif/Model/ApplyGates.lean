import Verif.Model.Gates

/-! # Model of `/repo/horqrux/apply.py`: `group_by_index`, `merge_operators` and `apply_gates` -/

namespace Verif
open NDArray

/-- Python's `<=` on tuples of integers: lexicographic. -/
def tupleLe : List ℕ → List ℕ → Prop
  | [], _ => True
  | _ :: _, [] => False
  | a :: as, b :: bs => a < b ∨ (a = b ∧ tupleLe as bs)

instance : DecidableRel tupleLe := fun a b => by
  induction a generalizing b with
  | nil => exact isTrue trivial
  | cons x xs ih =>
    cases b with
    | nil => exact isFalse id
    | cons y ys =>
      have := ih ys
      exact inferInstanceAs (Decidable (x < y ∨ (x = y ∧ tupleLe xs ys)))

/-- `gate_batch.sort(key=lambda g: g.target)`: Python's sort is stable (apply.py:288, 293). -/
def sortBatch (batch : List Gate) : List Gate := batch.insertionSort fun g h => tupleLe g.target h.target

/-- The loop of `group_by_index` (apply.py:281-295); the second component is `gate_batch`. -/
def groupLoop : List Gate → List Gate → List Gate → List Gate
  | [], sorted, batch => if batch.length > 0 then sorted ++ sortBatch batch else sorted
  | g :: gs, sorted, batch =>
    if !isControlled g.control then groupLoop gs sorted (batch ++ [g])
    else
      let sorted := if batch.length > 0 then sorted ++ sortBatch batch else sorted
      groupLoop gs (sorted ++ [g]) []

/-- `group_by_index` (apply.py:279-295). -/
def groupByIndex (gates : List Gate) : List Gate := groupLoop gates [] []

section merge
variable {M : Type}

/-- The loop of `merge_operators` (apply.py:317-329) over the reversed operations, with the merged operation
`(mo, mt, mc)` carried along; returns the (still reversed) merged operations. -/
def mergeLoop (mul : M → M → Py M) : List (M × List ℕ × Ctl) → M × List ℕ × Ctl → List (M × List ℕ × Ctl) →
    Py (List (M × List ℕ × Ctl))
  | [], m, acc => .ok (acc ++ [m])
  | (o, t, c) :: rest, (mo, mt, mc), acc =>
    if t = mt ∧ Ctl.Same c mc then do
      let mo ← mul mo o
      mergeLoop mul rest (mo, mt, mc) acc
    else mergeLoop mul rest (o, t, c) (acc ++ [(mo, mt, mc)])

/-- `merge_operators` (apply.py:298-330).  The three parallel tuples are one list of triples. -/
def mergeOperators (mul : M → M → Py M) (ops : List (M × List ℕ × Ctl)) : Py (List (M × List ℕ × Ctl)) :=
  if ops.length < 2 then .ok ops
  else match ops.reverse with
    | [] => .ok ops
    | m :: rest => do
      let merged ← mergeLoop mul rest m []
      .ok merged.reverse

/-- The `gate` argument of `apply_gates`: one gate or a list of gates. -/
inductive GateArg
  | single (g : Gate)
  | list (gs : List Gate)

/-- `noise == [None] * len(noise)` (apply.py:381, 413). -/
def allNoiseless (noise : List (Option (List NoiseInstance))) : Bool := noise.all Option.isNone

/-- `prepare_sequence_reduce` (apply.py:345-384), generic in the operator type: `opOf` is `getattr(g, op_type)(values)`
and `mul` is `@`.  The tuples `operator`, `target`, `control` are returned as one list of triples. -/
def prepareSequenceReduce (opOf : Gate → Py M) (mul : M → M → Py M) (gate : GateArg) (groupGates mergeOps : Bool) :
    Py (List (M × List ℕ × Ctl) × List (Option (List NoiseInstance))) :=
  match gate with
  | .single g => do
    let o ← opOf g
    .ok ([(o, g.target, g.control)], [g.noise])
  | .list gs => do
    let gs := if groupGates then groupByIndex gs else gs
    let ops ← gs.mapM opOf
    -- `reduce(add, [g.target for g in gate])` of an empty list raises TypeError
    if gs.isEmpty then .error .typeError
    else
      let triples := List.zipWith (fun o (g : Gate) => (o, g.target, g.control)) ops gs
      let noise := gs.map Gate.noise
      if allNoiseless noise && mergeOps then
        let merged ← mergeOperators mul triples
        .ok (merged, noise)
      else .ok (triples, noise)
end merge

/-- A state: a state vector (`jax.Array`) or a density matrix.  Sparse states are in `Verif/Model/Sparse.lean`. -/
inductive State
  | vec (a : NDArray ℂ)
  | dm (ρ : DensityMatrix ℂ)

/-- Evaluation of the Kraus operators of a gate's noise (apply.py:273-274 `n.kraus for n in noise`). -/
noncomputable def noiseKraus (noise : Option (List NoiseInstance)) : Option (List (Py (List (NDArray ℂ)))) :=
  noise.map fun l => l.map NoiseInstance.kraus

/-- `reduce(lambda state, gate: apply_operator(state, *gate), zip(operator, target, control), state)`
(apply.py:422-426). -/
def reduceApply {K : Type} [CommRing K] (ops : List (NDArray K × List ℕ × Ctl)) (state : NDArray K) :
    Py (NDArray K) :=
  ops.foldlM (fun st o => applyOperator st o.1 o.2.1 o.2.2) state

/-- `reduce(lambda state, gate: apply_operator_with_noise(state, *gate), zip(operator, target, control, noise), state)`
(apply.py:416-420, 492-496); `zip` stops at the shorter list. -/
noncomputable def reduceApplyNoise (so : SetOrder) (ops : List (NDArray ℂ × List ℕ × Ctl))
    (noise : List (Option (List NoiseInstance))) (state : DensityMatrix ℂ) : Py (DensityMatrix ℂ) :=
  (ops.zip noise).foldlM
    (fun st o => applyOperatorWithNoise so st o.1.1 o.1.2.1 o.1.2.2 (noiseKraus o.2)) state

/-- `apply_gates` for arrays (apply.py:387-427) and density matrices (apply.py:468-497). -/
noncomputable def applyGates (so : SetOrder) (state : State) (gate : GateArg) (values : Values)
    (opType : OpType := .unitary) (groupGates : Bool := false) (mergeOps : Bool := true) : Py State := do
  let (ops, noise) ← prepareSequenceReduce (fun g => g.operator opType values) NDArray.matmul gate groupGates mergeOps
  match state with
  | .vec a =>
    if !allNoiseless noise then
      let r ← reduceApplyNoise so ops noise (densityMat a)
      .ok (.dm r)
    else
      let r ← reduceApply ops a
      .ok (.vec r)
  | .dm ρ =>
    let r ← reduceApplyNoise so ops noise ρ
    .ok (.dm r)

end Verif
