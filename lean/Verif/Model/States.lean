import Mathlib.Analysis.SpecialFunctions.Log.Basic
import Mathlib.Analysis.SpecialFunctions.Trigonometric.Basic
import Verif.Model.ApplyGates

/-!
# Model of the state utilities of `/repo/horqrux/utils/operator_utils.py`

State constructors, inner products, probabilities and sampling (operator_utils.py:381-556), dense states.
Random numbers are explicit inputs: the uniform numbers that the PRNG delivers.
-/

namespace Verif
open NDArray

/-- `int(c)` for a one-character string.  Simplification: only ASCII digits are accepted. -/
def pyIntOfChar (c : Char) : Py ℕ := if c.isDigit then .ok (c.toNat - '0'.toNat) else .error .valueError

/-- `product_state(bitstring)` (operator_utils.py:381-400), dense.  `space.at[idx].set(1.0)` drops the update when
an index is out of bounds, so digits above `1` leave the zero array. -/
def productState (bitstring : String) : Py (NDArray ℂ) := do
  let n := bitstring.toList.length
  let ind ← bitstring.toList.mapM pyIntOfChar
  pure (ofFn (List.replicate n 2) fun idx => if idx = ind then 1 else 0)

/-- `zero_state(n_qubits)` (operator_utils.py:403-404). -/
def zeroState (n : ℕ) : Py (NDArray ℂ) := productState (String.ofList (List.replicate n '0'))

/-- `uniform_state(n_qubits)` (operator_utils.py:455-460). -/
noncomputable def uniformState (n : ℕ) : Py (NDArray ℂ) :=
  (⟨[2 ^ n], (List.replicate (2 ^ n) (1 : ℂ)).map (· / (Real.sqrt (2 ^ n : ℝ) : ℂ))⟩ : NDArray ℂ).reshape
    (List.replicate n 2)

/-- `random_state(n_qubits)` (operator_utils.py:471-485); `u` are the `2^n` uniform numbers of
`jax.random.uniform(key, shape=(N,))`.  Both calls use the same key, so the same numbers appear twice. -/
noncomputable def randomState (n : ℕ) (u : List ℝ) : Py (NDArray ℂ) := do
  let x := u.map fun v => -Real.log v
  let sumx := x.sum
  let phases := u.map fun v => v * 2 * Real.pi
  let wf : NDArray ℂ := ⟨[2 ^ n], List.zipWith (fun (a p : ℝ) => (Real.sqrt (a / sumx) : ℂ) * Complex.exp (Complex.I * (p : ℂ)))
    x phases⟩
  let wf ← wf.reshape (List.replicate n 2)
  let norm := Real.sqrt (wf.data.map fun z => ‖z‖ ^ 2).sum
  pure ⟨wf.shape, wf.data.map (· / (norm : ℂ))⟩

/-- `inner` (operator_utils.py:446-448). -/
def inner (state projection : NDArray ℂ) : Py ℂ := NDArray.dot state.flatten.conj projection.flatten

/-- `overlap` (operator_utils.py:451-452). -/
noncomputable def overlap (state projection : NDArray ℂ) : Py ℝ := do
  pure ((← inner state projection) ^ 2).re

/-- `jnp.allclose(a, b, atol=atol)` for two numbers, with the default `rtol = 1e-05`:
`|a - b| <= atol + rtol * |b|`. -/
def allclose (a b atol : ℝ) : Prop := |a - b| ≤ atol + 1e-5 * |b|

/-- `ATOL` (operator_utils.py:29). -/
noncomputable def ATOL : ℝ := 1e-14

/-- `equivalent_state` (operator_utils.py:433-443). -/
noncomputable def equivalentState (s0 s1 : NDArray ℂ) : Py Prop := do
  pure (allclose (← overlap s0 s1) 1 ATOL)

/-- `is_normalized` (operator_utils.py:488-489). -/
noncomputable def isNormalized (s : NDArray ℂ) : Py Prop := equivalentState s s

/-- `jnp.diagonal(a)` over the first two axes; the diagonal becomes the last axis. -/
def NDArray.diagonal {K : Type} [Zero K] (a : NDArray K) : Py (NDArray K) :=
  match a.shape with
  | m :: n :: rest =>
    .ok (ofFn (rest ++ [min m n]) fun idx =>
      let i := idx.getLastD 0
      a.get (i :: i :: idx.dropLast))
  | _ => .error .valueError

/-- `probabilities` (operator_utils.py:510-533): `|z ** 2|` of every amplitude, or the real diagonal of the stored
array of a density matrix. -/
noncomputable def probabilities : State → Py (NDArray ℝ)
  | .vec a => .ok ⟨[a.shape.prod], a.data.map fun z => ‖z ^ 2‖⟩
  | .dm ρ => do
    let d ← ρ.array.diagonal
    pure ⟨d.shape, d.data.map Complex.re⟩

/-- `num_qubits` (operator_utils.py:536-556). -/
def numQubits : State → ℕ
  | .vec a => numQubitsVec a
  | .dm ρ => numQubitsDM ρ

/-- `jnp.cumsum`. -/
def cumsum (l : List ℝ) : List ℝ := (List.range l.length).map fun i => (l.take (i + 1)).sum

/-- One draw of `jax.random.choice(key, a, p=p)` from the uniform number `u`:
`searchsorted(p_cuml, p_cuml[-1] * (1 - u))`, the number of partial sums below that threshold. -/
noncomputable def choiceIndex (p : List ℝ) (u : ℝ) : ℕ :=
  ((cumsum p).filter fun c => decide (c < p.sum * (1 - u))).length

/-- `format(k, f"0{n}b")`: binary digits of `k`, padded with zeros to at least `n` characters. -/
def formatBin (n k : ℕ) : String :=
  let digits := if k = 0 then ['0'] else (Nat.digits 2 k).reverse.map fun d => if d = 0 then '0' else '1'
  String.ofList (List.replicate (n - digits.length) '0' ++ digits)

/-- `jnp.bincount(samples)`: occurrences of `0, …, max(samples)`. -/
def bincount (samples : List ℕ) : List ℕ :=
  (List.range (samples.foldr max 0 + 1)).map fun k => samples.count k

/-- `sample_from_probs` (operator_utils.py:492-507); `us` are the uniform numbers drawn for the `n_shots` subkeys. -/
noncomputable def sampleFromProbs (probs : NDArray ℝ) (nQubits : ℕ) (us : List ℝ) : Py (List (String × ℕ)) :=
  if probs.shape = [2 ^ nQubits] then
    let samples := us.map (choiceIndex probs.data)
    let counts := bincount samples
    .ok ((counts.zipIdx.filter fun c => 0 < c.1).map fun c => (formatBin nQubits c.2, c.1))
  else .error .valueError

end Verif
