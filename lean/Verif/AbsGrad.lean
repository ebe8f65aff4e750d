import Mathlib.Analysis.Calculus.Deriv.Basic
import Verif.AbsOp
import Verif.Model.Gpsr

/-!
# Reading gradients in the specification vocabulary
-/

namespace Verif
set_option autoImplicit false
variable {n : ℕ}

/-- The dictionary with the value of the existing key `p` replaced by the number `x`. -/
def Values.upd (values : Values) (p : String) (x : ℝ) : Values :=
  values.map fun e => if e.1 = p then (p, .num x) else e

/-- A Python dictionary with numbers as values: no key occurs twice. -/
structure Values.Numeric (values : Values) : Prop where
  nodup : (values.map Prod.fst).Nodup
  num : ∀ e ∈ values, ∃ x, e.2 = .num x

/-- `d` is the list of the partial derivatives with respect to the parameter `p`, at the current values, of the numbers
returned by `E`. -/
def IsPartial (E : Values → Py (List ℝ)) (values : Values) (p : String) (d : List ℝ) : Prop :=
  ∃ (x : ℝ) (f : ℝ → List ℝ), values.lookup p = some (.num x) ∧ (∀ t, E (values.upd p t) = .ok (f t)) ∧
    (∀ t, (f t).length = d.length) ∧ ∀ i, HasDerivAt (fun t => (f t).getD i 0) (d.getD i 0) x

/-- `E` returns the numbers `l` when the parameter `p` is changed by `δ`. -/
def ReturnsAt (E : Values → Py (List ℝ)) (values : Values) (p : String) (δ : ℝ) (l : List ℝ) : Prop :=
  ∃ x, values.lookup p = some (.num x) ∧ E (values.upd p (x + δ)) = .ok l

/-- The gate has the parameter name `p`. -/
def Gate.Uses (g : Gate) (p : String) : Prop :=
  match g.cls with
  | .parametric (.str s) _ => s = p
  | .phase (.str s) _ => s = p
  | _ => False

/-- A rotation with `δ` added to its angle. -/
noncomputable def Gate.turned (g : Gate) (δ : ℝ) : Gate :=
  match g.cls with
  | .parametric p s => { g with cls := .parametric p (s + δ) }
  | _ => g

/-- The gate is not of the class `_PHASE` and not a shifted Hamiltonian evolution: it survives the pytree round trip of
`jax.jit`. -/
def Gate.Registered (g : Gate) : Prop :=
  match g.cls with
  | .phase _ _ => False
  | .hamEvo s => s = 0
  | _ => True

mutual
/-- All gates of the operation survive `jax.jit`, and it contains no `QuantumCircuit`. -/
def Op.Registered : Op → Prop
  | .prim g => g.Registered
  | .comp k ops => (∀ n fs, k ≠ .circ n fs) ∧ Op.AllRegistered ops
/-- The same for all operations of a list. -/
def Op.AllRegistered : List Op → Prop
  | [] => True
  | o :: os => o.Registered ∧ Op.AllRegistered os
end

/-- The observable is the operator `O`, whatever the parameter values, for the outputs of the noiseless (`noisy = False`)
or noisy (or mixed-state) circuits. -/
def Observable.Fixed (so : SetOrder) (n : ℕ) (mixed : Prop) (o : Observable) (O : Matrix (Lab n) (Lab n) ℂ) : Prop :=
  ∀ values, o.Means (StdLeaf n values) values O ∧ (mixed → Op.ListedSum (StdLeaf n values) values o.ops O ∧
    ∀ S, o.toOp.qubitSupport so = .ok S → S.Pairwise (· < ·))

/-- The state or a gate makes the run a mixed-state simulation. -/
def Mixed (st : State) (gs : List Gate) : Prop := (∃ ρ, st = .dm ρ) ∨ ¬ ∀ g ∈ gs, g.noise = none

/-- A non-empty list of standard gates on `n` qubits with documented noise, a state on `n` qubits, numeric parameter
values, and observables that are fixed operators. -/
structure BaseSetting (so : SetOrder) (n : ℕ) (values : Values) (gs : List Gate) (nss : List (List StdNoise)) (st : State)
    (obs : List Observable) (Os : List (Matrix (Lab n) (Lab n) ℂ)) : Prop where
  ne : gs ≠ []
  std : ∀ g ∈ gs, ∃ s, g.Std n values s
  noise : List.Forall₂ Gate.NoiseIs gs nss
  on : st.On n
  numeric : values.Numeric
  obs_ne : obs ≠ []
  fixed : List.Forall₂ (fun o O => o.Fixed so n (Mixed st gs) O) obs Os

/-- The setting of the gradient theorems C23 and C24: in addition, no controls on the gates that have a parameter name,
except on `PHASE` gates. -/
structure Setting (so : SetOrder) (n : ℕ) (values : Values) (gs : List Gate) (nss : List (List StdNoise)) (st : State)
    (obs : List Observable) (Os : List (Matrix (Lab n) (Lab n) ℂ)) : Prop extends
    BaseSetting so n values gs nss st obs Os where
  uncontrolled : ∀ g ∈ gs, ∀ p, g.Uses p → ctlInts g.control = [] ∨ ∃ q s, g.cls = .phase q s

/-- Every parameter name is used by at most one gate. -/
def SingleUse (gs : List Gate) : Prop := gs.Pairwise fun g g' => ∀ p, g.Uses p → ¬ g'.Uses p

end Verif
