import Mathlib.Data.List.Sort
import Verif.Model.Batch
import Verif.Model.Gpsr

/-!
# Model of `jax.jit` applied to `expectation`, `run` and `analytical_gpsr_bwd`

A compiled function replaces the numbers of its arguments by tracers, executes the Python code once and keeps the operations that the code
performs on the tracers.  Later calls whose arguments have the same structure only execute these operations.  A program is identified with
the function that it computes, so that a tracer is a function of the arguments (`Tracer.batch`); derivatives inside the compiled
function are covered by taking pairs for the numbers.  Dictionaries are pytrees with sorted keys, and the dictionary that the Python code sees is
built from the sorted leaves.

The circuit and the observables are closed over, as in docs/vqe.md:109-118 and docs/dqc.md:91; `Model/JitCache.lean` models them as arguments.
The state is a state vector that is an argument, or any state that is closed over; a `DensityMatrix` as an argument has no leaves.
-/

set_option autoImplicit false

namespace Verif
open NDArray

/-- The structure of a leaf: a number, or an array of a given shape. -/
inductive Aval
  | num
  | arr (shape : List ℕ)
deriving DecidableEq

variable {R K : Type}

/-- The structure of a value. -/
def TVal.aval : TVal R K → Aval
  | .num _ => .num
  | .arr a => .arr a.shape

/-- The structure of a dictionary. -/
def TDict.avals (d : TDict R K) : List (String × Aval) := d.map fun e => (e.1, e.2.aval)

/-- A dictionary with sorted keys. -/
def TDict.sorted (d : TDict R K) : TDict R K := d.insertionSort fun e e' => e.1 ≤ e'.1

/-- The arguments of a compiled function: a state vector and the dictionary of values. -/
structure JArgs (R K : Type) where
  state : NDArray K
  values : TArgs R K

/-- The arguments that the Python code sees. -/
def TArgs.sorted : TArgs R K → TArgs R K
  | .flat d => .flat d.sorted
  | .split dc do' => .split dc.sorted do'.sorted

/-- The structure of the values. -/
def TArgs.avals : TArgs R K → List (String × Aval) × Option (List (String × Aval))
  | .flat d => (d.avals, none)
  | .split dc do' => (dc.avals, some do'.avals)

/-- What the cache of compiled functions compares. -/
def JArgs.avals (a : JArgs R K) : List ℕ × List (String × Aval) × Option (List (String × Aval)) :=
  (a.state.shape, a.values.sorted.avals)

/-- The dictionary of the circuit, or the only one. -/
def TArgs.fst : TArgs R K → TDict R K
  | .flat d => d
  | .split dc _ => dc

/-- The dictionary of the observables. -/
def TArgs.snd : TArgs R K → TDict R K
  | .flat d => d
  | .split _ do' => do'

/-- The number at position `i` of a dictionary. -/
def TDict.numAt [Zero R] (d : TDict R K) (i : ℕ) : R :=
  match d[i]? with
  | some (_, .num x) => x
  | _ => 0

/-- Entry `j` of the array at position `i` of a dictionary. -/
def TDict.arrAt [Zero K] (d : TDict R K) (i j : ℕ) : K :=
  match d[i]? with
  | some (_, .arr a) => a.data.getD j 0
  | _ => 0

/-- The tracers of a dictionary `leaf` of the arguments `V`. -/
def tracers [Zero R] [Zero K] {V : Type} (leaf : V → TDict R K) (s : List (String × Aval)) : TDict (V → R) (V → K) :=
  s.mapIdx fun i e => (e.1, match e.2 with
    | .num => .num fun v => (leaf v).numAt i
    | .arr sh => .arr ⟨sh, (List.range sh.prod).map fun j v => (leaf v).arrAt i j⟩)

/-- The tracers of the values. -/
def tracersOf [Zero R] [Zero K] (s : List (String × Aval) × Option (List (String × Aval))) :
    TArgs (JArgs R K → R) (JArgs R K → K) :=
  match s with
  | (s, none) => .flat (tracers (fun v => v.values.sorted.fst) s)
  | (s, some t) => .split (tracers (fun v => v.values.sorted.fst) s) (tracers (fun v => v.values.sorted.snd) t)

/-- The tracer of the state vector, or a state that is closed over. -/
noncomputable def traceState (A : Tracer) (closed : Option State) (shape : List ℕ) : TState (JArgs A.R A.K → A.K) :=
  match closed with
  | none => .vec ⟨shape, (List.range shape.prod).map fun j v => v.state.data.getD j 0⟩
  | some st => st.const (A.batch (JArgs A.R A.K))

section
variable (A : Tracer) (so : SetOrder) (closed : Option State) (circuit : Op)

/-- The arguments with which the program was traced that a call with `args` executes: the first earlier ones with the same structure, or
`args`. -/
def tracedWith (history : List (JArgs R K)) (args : JArgs R K) : JArgs R K :=
  (history.find? fun h => decide (h.avals = args.avals)).getD args

/-- The program of `expectation` in mode AD for arguments of a given structure. -/
noncomputable def programExpectation (obs : List Observable)
    (s : List ℕ × List (String × Aval) × Option (List (String × Aval))) : Py (List (JArgs A.R A.K → A.R)) :=
  expectationT (A.batch (JArgs A.R A.K)) so (traceState A closed s.1) circuit obs (tracersOf s.2)

/-- `jax.jit(lambda state, values: expectation(state, circuit, observables, values, "ad"))` after the calls `history`. -/
noncomputable def jitExpectation (obs : List Observable) (history : List (JArgs A.R A.K)) (args : JArgs A.R A.K) : Py (List A.R) := do
  let outs ← programExpectation A so closed circuit obs (tracedWith history args).avals
  .ok (outs.map fun f => f args)

/-- What a compiled function returns: an array, or a density matrix.  Its array is no leaf, and the object that is returned holds a
tracer. -/
inductive JOut (K : Type)
  | vec (a : NDArray K)
  | leaked

/-- `jax.jit(lambda state, values: run(circuit, state, values))` after the calls `history`. -/
noncomputable def jitRun (history : List (JArgs A.R A.K)) (args : JArgs A.R A.K) : Py (Option (JOut A.K)) := do
  let s := (tracedWith history args).avals
  match ← runT (A.batch (JArgs A.R A.K)) so circuit (traceState A closed s.1) (tracersOf (R := A.R) (K := A.K) s.2).fst with
  | some (.vec a) => .ok (some (.vec (a.mapArr fun f => f args)))
  | some (.dm _) => .ok (some .leaked)
  | none => .ok none

end

/-- `jax.jit(lambda values: analytical_gpsr_bwd(state, gates, observables, values))`: the code sees the sorted dictionary. -/
noncomputable def jitGpsrBwd (eigh : Eigh) (F : GateArg → Values → Py (List ℝ)) (gates : GateArg) (values : Values) : Py (List ℝ) :=
  gpsrBwd eigh F gates (values.insertionSort fun e e' => e.1 ≤ e'.1)

end Verif
