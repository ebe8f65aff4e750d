import Verif.Abs
import Verif.SpecNoise
import Verif.Model.ApplyGates

/-!
# Reading gate objects in the specification vocabulary
-/

namespace Verif

/-- A parameter has the angle `x` under `values`: it is the number `x` or a name with value `x`. -/
inductive Param.Resolves (values : Values) : Param → ℝ → Prop
  | num (x : ℝ) : Resolves values (.num x) x
  | str {s : String} {x : ℝ} (h : values.lookup s = some (.num x)) : Resolves values (.str s) x

/-- The (dense) gate object `g` is the standard gate `s` under the parameter values `values`.  Targets, controls and
noise are arbitrary. -/
inductive Gate.Is (values : Values) : Gate → StdGate → Prop
  | I (ts c nz) : Is values ⟨.primitive, "I", ts, c, nz, false⟩ .I
  | X (ts c nz) : Is values ⟨.primitive, "X", ts, c, nz, false⟩ .X
  | Y (ts c nz) : Is values ⟨.primitive, "Y", ts, c, nz, false⟩ .Y
  | Z (ts c nz) : Is values ⟨.primitive, "Z", ts, c, nz, false⟩ .Z
  | H (ts c nz) : Is values ⟨.primitive, "H", ts, c, nz, false⟩ .H
  | S (ts c nz) : Is values ⟨.primitive, "S", ts, c, nz, false⟩ .S
  | T (ts c nz) : Is values ⟨.primitive, "T", ts, c, nz, false⟩ .T
  | SWAP (ts c nz) : Is values ⟨.primitive, "SWAP", ts, c, nz, false⟩ .SWAP
  | RX {p : Param} {x s θ : ℝ} (ts c nz) (hp : p.Resolves values x) (h : θ = x + s) :
      Is values ⟨.parametric p s, "X", ts, c, nz, false⟩ (.RX θ)
  | RY {p : Param} {x s θ : ℝ} (ts c nz) (hp : p.Resolves values x) (h : θ = x + s) :
      Is values ⟨.parametric p s, "Y", ts, c, nz, false⟩ (.RY θ)
  | RZ {p : Param} {x s θ : ℝ} (ts c nz) (hp : p.Resolves values x) (h : θ = x + s) :
      Is values ⟨.parametric p s, "Z", ts, c, nz, false⟩ (.RZ θ)
  | PHASE {p : Param} {x s θ : ℝ} (ts c nz) (hp : p.Resolves values x) (h : θ = x + s) :
      Is values ⟨.phase p s, "I", ts, c, nz, false⟩ (.PHASE θ)

/-- The (dense) gate objects that the public constructors return, with the standard gate they stand for. -/
inductive Gate.Built (values : Values) : Gate → StdGate → Prop
  | I (t c nz) : Built values (Gate.I t c nz) .I
  | X (t c nz) : Built values (Gate.X t c nz) .X
  | Y (t c nz) : Built values (Gate.Y t c nz) .Y
  | Z (t c nz) : Built values (Gate.Z t c nz) .Z
  | H (t c nz) : Built values (Gate.H t c nz) .H
  | S (t c nz) : Built values (Gate.S t c nz) .S
  | T (t c nz) : Built values (Gate.T t c nz) .T
  | SWAP (t c nz) : Built values (Gate.SWAP t c nz) .SWAP
  | RX {p : Param} {θ : ℝ} (t c nz) (hp : p.Resolves values θ) : Built values (Gate.RX p t c nz) (.RX θ)
  | RY {p : Param} {θ : ℝ} (t c nz) (hp : p.Resolves values θ) : Built values (Gate.RY p t c nz) (.RY θ)
  | RZ {p : Param} {θ : ℝ} (t c nz) (hp : p.Resolves values θ) : Built values (Gate.RZ p t c nz) (.RZ θ)
  | PHASE {p : Param} {θ : ℝ} (t c nz) (hp : p.Resolves values θ) : Built values (Gate.PHASE p t c nz) (.PHASE θ)

/-- The targets and controls of `g` are distinct qubits of an `n`-qubit register, in one of the documented forms. -/
structure Gate.ValidOn (n : ℕ) (g : Gate) : Prop where
  ctl : WfCtl g.control
  dims : ValidDims n (ctlInts g.control ++ g.target)

/-- `g` is a standard gate with the right number of targets, placed on distinct qubits of an `n`-qubit register. -/
structure Gate.Std (n : ℕ) (values : Values) (g : Gate) (s : StdGate) : Prop where
  is : g.Is values s
  arity : g.target.length = s.arity
  valid : g.ValidOn n

/-- The matrix on the register of the standard gate `s` with the targets and controls of `g`. -/
noncomputable def stdMat (n : ℕ) (g : Gate) (s : StdGate) : Matrix (Lab n) (Lab n) ℂ :=
  gateMat n s.mat g.target (ctlInts g.control)

/-- The gate `g` (any class) has a `2^k × 2^k` operator of type `ot` for its `k` targets, which are valid qubits. -/
structure Gate.Ok (n : ℕ) (ot : OpType) (values : Values) (g : Gate) : Prop where
  op : ∃ U, g.operator ot values = .ok U ∧ IsOp g.target.length U
  valid : g.ValidOn n

/-- The operator that `getattr(g, op_type)(values)` returns, as a matrix on the register. -/
noncomputable def Gate.mat (n : ℕ) (ot : OpType) (values : Values) (g : Gate) : Matrix (Lab n) (Lab n) ℂ :=
  match g.operator ot values with
  | .ok U => gateMat n (entries U) g.target (ctlInts g.control)
  | .error _ => 0

/-- The matrix of executing gates one after the other (the first one acts first). -/
noncomputable def gatesMat (n : ℕ) (ot : OpType) (values : Values) : List Gate → Matrix (Lab n) (Lab n) ℂ
  | [] => 1
  | g :: gs => gatesMat n ot values gs * g.mat n ot values

/-- The noise instance `ni` is the textbook channel `s` (with accepted parameters). Further entries of the
probability tuple are ignored by the code; for `PauliChannel` they count towards the checked sum. -/
inductive NoiseInstance.Is : NoiseInstance → StdNoise → Prop
  | bitFlip {p : ℝ} (h : 0 ≤ p ∧ p ≤ 1) : Is ⟨.bitFlip, .float p⟩ (.bitFlip p)
  | phaseFlip {p : ℝ} (h : 0 ≤ p ∧ p ≤ 1) : Is ⟨.phaseFlip, .float p⟩ (.phaseFlip p)
  | depolarizing {p : ℝ} (h : 0 ≤ p ∧ p ≤ 1) : Is ⟨.depolarizing, .float p⟩ (.depolarizing p)
  | pauli {px py pz : ℝ} {ps : List ℝ} (h : ∀ p ∈ px :: py :: pz :: ps, 0 ≤ p ∧ p ≤ 1)
      (hs : (px :: py :: pz :: ps).sum ≤ 1) : Is ⟨.pauliChannel, .tuple (px :: py :: pz :: ps)⟩ (.pauli px py pz)
  | amplitudeDamping {p : ℝ} (h : 0 ≤ p ∧ p ≤ 1) : Is ⟨.amplitudeDamping, .float p⟩ (.amplitudeDamping p)
  | phaseDamping {p : ℝ} (h : 0 ≤ p ∧ p ≤ 1) : Is ⟨.phaseDamping, .float p⟩ (.phaseDamping p)
  | generalizedAmplitudeDamping {p γ : ℝ} {ps : List ℝ} (h : 0 ≤ p ∧ p ≤ 1) (hγ : 0 ≤ γ ∧ γ ≤ 1) :
      Is ⟨.generalizedAmplitudeDamping, .tuple (p :: γ :: ps)⟩ (.generalizedAmplitudeDamping p γ)

/-- The error probability has the documented type for its noise type: one number, or a tuple with enough entries. -/
def NoiseInstance.WellTyped : NoiseInstance → Prop
  | ⟨.pauliChannel, .tuple ps⟩ => 3 ≤ ps.length
  | ⟨.generalizedAmplitudeDamping, .tuple ps⟩ => 2 ≤ ps.length
  | ⟨.pauliChannel, .float _⟩ | ⟨.generalizedAmplitudeDamping, .float _⟩ => False
  | ⟨_, .float _⟩ => True
  | ⟨_, .tuple _⟩ => False

/-- All probabilities lie in `[0, 1]`; those of a Pauli channel do not add up to more than `1`. -/
def NoiseInstance.InRange : NoiseInstance → Prop
  | ⟨.pauliChannel, .tuple ps⟩ => (∀ p ∈ ps, 0 ≤ p ∧ p ≤ 1) ∧ ps.sum ≤ 1
  | ⟨.generalizedAmplitudeDamping, .tuple ps⟩ => ∀ p ∈ ps.take 2, 0 ≤ p ∧ p ≤ 1
  | ⟨_, .float p⟩ => 0 ≤ p ∧ p ≤ 1
  | ⟨_, .tuple ps⟩ => ∀ p ∈ ps, 0 ≤ p ∧ p ≤ 1

/-- The noise of gate `g` is the tuple of textbook channels `ns`; several targets are only allowed with an empty
tuple. -/
inductive Gate.NoiseIs (g : Gate) : List StdNoise → Prop
  | none (h : g.noise = none) : NoiseIs g []
  | some {nis : List NoiseInstance} {ns : List StdNoise} (h : g.noise = some nis)
      (hn : List.Forall₂ NoiseInstance.Is nis ns) (ht : nis = [] ∨ ∃ t, g.target = [t]) : NoiseIs g ns

/-- The documented effect of a noisy gate on a density matrix: the gate, then its noise channels in tuple order on
the target qubit. -/
noncomputable def noisyStep (n : ℕ) (M : Matrix (Lab n) (Lab n) ℂ) (t : ℕ) (ns : List StdNoise)
    (ρ : Matrix (Lab n) (Lab n) ℂ) : Matrix (Lab n) (Lab n) ℂ :=
  ns.foldl (fun ρ s => s.chan n t ρ) (conjBy M ρ)

/-- The documented effect of a list of noisy gates (with their channels) on a density matrix, first gate first. -/
noncomputable def noisyRun (n : ℕ) (ot : OpType) (values : Values) :
    List (Gate × List StdNoise) → Matrix (Lab n) (Lab n) ℂ → Matrix (Lab n) (Lab n) ℂ
  | [], ρ => ρ
  | (g, ns) :: rest, ρ => noisyRun n ot values rest (noisyStep n (g.mat n ot values) (g.target.headD 0) ns ρ)

/-- The documented effect of a list of standard noisy gates: first gate first. -/
noncomputable def stdRun (n : ℕ) (xs : List (Gate × StdGate × List StdNoise)) (ρ : Matrix (Lab n) (Lab n) ℂ) :
    Matrix (Lab n) (Lab n) ℂ :=
  xs.foldl (fun ρ x => noisyStep n (stdMat n x.1 x.2.1) (x.1.target.headD 0) x.2.2 ρ) ρ

/-- A density matrix or state vector on `n` qubits. -/
def State.On (n : ℕ) : State → Prop
  | .vec a => IsKet n a
  | .dm ρ => IsDM n ρ

/-- The density operator of a state. -/
noncomputable def State.mat (n : ℕ) : State → Matrix (Lab n) (Lab n) ℂ
  | .vec a => Matrix.of fun x y => a.get x.bits * star (a.get y.bits)
  | .dm ρ => dmMat n ρ.array

/-- `r` is the result of acting on a state with the register matrix `M`: `ψ ↦ M ψ`, `ρ ↦ M ρ M†`. -/
def State.Applied (n : ℕ) (M : Matrix (Lab n) (Lab n) ℂ) : State → State → Prop
  | .vec a, .vec r => IsKet n r ∧ ket n r = M.mulVec (ket n a)
  | .dm ρ, .dm r => IsDM n r ∧ dmMat n r.array = conjBy M (dmMat n ρ.array)
  | _, _ => False

end Verif
