import Verif.Model.Gpsr

/-!
# Model of repeated differentiation of `analytical_gpsr_fwd` (`/repo/horqrux/differentiation/gpsr/analytical.py`)

`jax.jvp`, `jax.grad` and `jax.hessian` of a function that calls a `jax.custom_jvp` function use its rule, here
`analytical_gpsr_jvp` (analytical.py:161-248).  The rule itself calls `analytical_gpsr_fwd` (analytical.py:189, 226, 228) and is
otherwise made of sums and of products with constants and with the tangents, so that differentiating it once more applies the
rule to each of these calls.  The tangents of the arguments of these calls are those of `values`, or, with temporary names,
those of the parameters that the names stand for (analytical.py:205-207).
-/

namespace Verif
set_option autoImplicit false

/-- The names of the dictionaries that `analytical_gpsr_jvp` passes to `analytical_gpsr_fwd`, with the parameters that they
stand for (analytical.py:194-212). -/
def jvpNames (fresh : ℕ → String) (gates : GateArg) (keys : List String) : List (String × String) :=
  match gates with
  | .single _ => keys.map fun p => (p, p)
  | .list gs =>
    if (extractGateNames gs).length > keys.length ∧ hasRepeated gs keys = .ok true then
      keys.flatMap fun p => (paramIndices gs p).map fun i => (fresh i, p)
    else keys.map fun p => (p, p)

/-- The tangent of each entry of such a dictionary; `t` are the tangents of the entries of `values`. -/
def pullTangent (names : List (String × String)) (t : String → ℝ) : String → ℝ := fun s =>
  match names.lookup s with
  | some p => t p
  | none => t s

/-- The result of differentiating `F = analytical_gpsr_fwd` repeatedly, in the directions of the list (the first direction
first).  A direction gives the tangent of every parameter.  Each application of the rule makes new temporary names. -/
noncomputable def gpsrNested (eigh : Eigh) (fresh : ℕ → ℕ → String) (F : GateArg → Values → Py (List ℝ)) :
    List (String → ℝ) → GateArg → Values → Py (List ℝ)
  | [], gates, values => F gates values
  | t :: ts, gates, values => do
    let names := jvpNames (fresh ts.length) gates values.keys
    let r ← gpsrJvp eigh (fresh ts.length) (gpsrNested eigh fresh F (ts.map (pullTangent names))) gates values (values.keys.map t)
    pure r.2
termination_by dirs => dirs.length

end Verif
