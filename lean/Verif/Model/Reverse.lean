import Mathlib.Algebra.TrivSqZeroExt.Basic
import Mathlib.Data.Finsupp.Basic
import Mathlib.Algebra.BigOperators.Finsupp.Basic
import Verif.Model.Trace

/-!
# Model of reverse-mode automatic differentiation of `expectation` (`jax.grad`, `jax.vjp`)

In reverse mode JAX runs the program forward and then pulls cotangents back through it: the cotangent of the result is passed to
the last operation, every primitive operation turns the cotangent of its result into cotangents of its arguments, and the
cotangents that reach an input are added up.  Here every number of the program is a value together with its pullback: the map from
a cotangent of the number to the gradient that it contributes to the inputs.  The rules of the primitive operations are the transpose
rules of JAX: a sum passes its cotangent to both summands, a product passes `ct * y` to `x` and `ct * x` to `y` (without
conjugation), conjugation conjugates the cotangent, `z.real` makes the real cotangent a complex one, a real number used as a complex
one receives the real part.

The program is the one of Model/Trace (differentiation/ad.py, api.py:92-162), run on these numbers.  Not modelled: the order in which
cotangents are added up, and parameters that are arrays.
-/

set_option autoImplicit false

namespace Verif
open NDArray

/-- Pullbacks: from cotangents of a number of kind `K` to gradients. -/
def Pull (K G : Type) [AddCommGroup K] [AddCommGroup G] : Type := K →+ G

section pull
variable {K G : Type} [CommRing K] [AddCommGroup G]

instance : AddCommGroup (Pull K G) := inferInstanceAs (AddCommGroup (K →+ G))

instance : FunLike (Pull K G) K G := inferInstanceAs (FunLike (K →+ G) K G)

instance : AddMonoidHomClass (Pull K G) K G := inferInstanceAs (AddMonoidHomClass (K →+ G) K G)

@[ext] theorem Pull.ext {p q : Pull K G} (h : ∀ ct, p ct = q ct) : p = q := DFunLike.ext p q h

@[simp] theorem Pull.add_apply (p q : Pull K G) (ct : K) : (p + q) ct = p ct + q ct := rfl
@[simp] theorem Pull.zero_apply (ct : K) : (0 : Pull K G) ct = 0 := rfl
@[simp] theorem Pull.neg_apply (p : Pull K G) (ct : K) : (-p) ct = -p ct := rfl

/-- The pullback through a multiplication by `z`: the cotangent is multiplied by `z`. -/
instance : Module K (Pull K G) where
  smul z p := AddMonoidHom.comp (M := K) (N := K) (P := G) p (AddMonoidHom.mulLeft z)
  one_smul p := Pull.ext fun ct => congrArg p (one_mul ct)
  mul_smul z w p := Pull.ext fun ct => congrArg p (show z * w * ct = w * (z * ct) by ring)
  smul_zero z := Pull.ext fun ct => rfl
  smul_add z p q := Pull.ext fun ct => rfl
  add_smul z w p := Pull.ext fun ct => by
    change p ((z + w) * ct) = p (z * ct) + p (w * ct)
    rw [add_mul, map_add]
  zero_smul p := Pull.ext fun ct => by
    change p (0 * ct) = 0
    rw [zero_mul, map_zero]

@[simp] theorem Pull.smul_apply (z : K) (p : Pull K G) (ct : K) : (z • p) ct = p (z * ct) := rfl

instance : Module Kᵐᵒᵖ (Pull K G) := Module.compHom _ ((RingEquiv.toOpposite K).symm.toRingHom)

instance : IsCentralScalar K (Pull K G) := ⟨fun _ _ => rfl⟩

end pull

/-- Real numbers of the program: value and pullback. -/
abbrev RevR (G : Type) [AddCommGroup G] := TrivSqZeroExt ℝ (Pull ℝ G)

/-- Complex numbers of the program: value and pullback. -/
abbrev RevC (G : Type) [AddCommGroup G] := TrivSqZeroExt ℂ (Pull ℂ G)

section rev
variable {G : Type} [AddCommGroup G]

/-- The number with value `x` and pullback `p`. -/
def revR (x : ℝ) (p : ℝ →+ G) : RevR G := (x, p)

/-- The number with value `z` and pullback `p`. -/
def revC (z : ℂ) (p : ℂ →+ G) : RevC G := (z, p)

@[simp] theorem revR_fst (x : ℝ) (p : ℝ →+ G) : (revR x p).fst = x := rfl
@[simp] theorem revR_snd (x : ℝ) (p : ℝ →+ G) (ct : ℝ) : (revR x p).snd ct = p ct := rfl
@[simp] theorem revC_fst (z : ℂ) (p : ℂ →+ G) : (revC z p).fst = z := rfl
@[simp] theorem revC_snd (z : ℂ) (p : ℂ →+ G) (ct : ℂ) : (revC z p).snd ct = p ct := rfl

theorem RevR.ext {x y : RevR G} (h1 : x.fst = y.fst) (h2 : ∀ ct, x.snd ct = y.snd ct) : x = y := TrivSqZeroExt.ext h1 (Pull.ext h2)

theorem RevC.ext {x y : RevC G} (h1 : x.fst = y.fst) (h2 : ∀ ct, x.snd ct = y.snd ct) : x = y := TrivSqZeroExt.ext h1 (Pull.ext h2)

/-- The pullback as an additive map. -/
def pullR (x : RevR G) : ℝ →+ G := x.snd

/-- The pullback as an additive map. -/
def pullC (z : RevC G) : ℂ →+ G := z.snd

@[simp] theorem pullR_apply (x : RevR G) (ct : ℝ) : pullR x ct = x.snd ct := rfl
@[simp] theorem pullC_apply (z : RevC G) (ct : ℂ) : pullC z ct = z.snd ct := rfl

/-- Conjugation: the cotangent is conjugated. -/
instance : Star (RevC G) := ⟨fun z => revC (star z.fst) ((pullC z).comp (starAddEquiv (R := ℂ)).toAddMonoidHom)⟩

@[simp] theorem RevC.fst_star (z : RevC G) : (star z).fst = star z.fst := rfl
@[simp] theorem RevC.snd_star (z : RevC G) (ct : ℂ) : (star z).snd ct = z.snd (star ct) := rfl

noncomputable instance : StarRing (RevC G) where
  star_involutive z := RevC.ext (star_star z.fst) fun ct => congrArg z.snd (star_star ct)
  star_mul a b := RevC.ext (by simp [mul_comm]) fun ct => by
    simp only [RevC.snd_star, TrivSqZeroExt.snd_mul, RevC.fst_star, Pull.add_apply, op_smul_eq_smul, Pull.smul_apply, star_mul', star_star]
    exact add_comm _ _
  star_add a b := RevC.ext (by simp) fun ct => by simp

/-- The derivative of entry `(i, j)` of `expm(a)` with respect to entry `(k, l)` of `a`: the tangent of the forward mode in the
direction of that entry. -/
noncomputable def expmEntry (a : NDArray ℂ) (d i j k l : ℕ) : ℂ :=
  match Tracer.base.dual.expm (ofFn [d, d] fun idx => jet (a.get [idx.getD 0 0, idx.getD 1 0]) (if idx = [k, l] then 1 else 0)) with
  | .ok u => (u.get [i, j]).snd
  | .error _ => 0

variable (G) in
/-- Numbers with pullbacks, with the transpose rules of the primitive operations.  `expm` passes to entry `(k, l)` of its argument the
sum of the cotangents of the entries of its result, multiplied by their derivatives with respect to entry `(k, l)`. -/
noncomputable abbrev Tracer.rev : Tracer where
  R := RevR G
  K := RevC G
  constR := TrivSqZeroExt.inlHom ℝ (Pull ℝ G)
  const := TrivSqZeroExt.inlHom ℂ (Pull ℂ G)
  real :=
    { toFun := fun x => revC (x.fst : ℂ) ((pullR x).comp Complex.reAddGroupHom)
      map_one' := RevC.ext (by simp) fun ct => by simp
      map_mul' := fun x y => RevC.ext (by simp) fun ct => by simp [-Complex.coe_smul]
      map_zero' := RevC.ext (by simp) fun ct => by simp
      map_add' := fun x y => RevC.ext (by simp) fun ct => by simp }
  re :=
    { toFun := fun z => revR z.fst.re ((pullC z).comp Complex.ofRealHom.toAddMonoidHom)
      map_zero' := RevR.ext (by simp) fun ct => by simp
      map_add' := fun x y => RevR.ext (by simp) fun ct => by simp }
  cos := fun x => revR (Real.cos x.fst) ((pullR x).comp (AddMonoidHom.mulRight (-Real.sin x.fst)))
  sin := fun x => revR (Real.sin x.fst) ((pullR x).comp (AddMonoidHom.mulRight (Real.cos x.fst)))
  exp := fun z => revC (Complex.exp z.fst) ((pullC z).comp (AddMonoidHom.mulRight (Complex.exp z.fst)))
  expm := fun a =>
    match a.shape with
    | [d, d'] =>
      if d = d' then do
        let u ← Verif.expm (a.mapArr TrivSqZeroExt.fst)
        .ok (ofFn [d, d] fun idx => revC (u.get [idx.getD 0 0, idx.getD 1 0])
          (∑ kl : Fin d × Fin d, (pullC (a.get [kl.1.val, kl.2.val])).comp
            (AddMonoidHom.mulRight (expmEntry (a.mapArr TrivSqZeroExt.fst) d (idx.getD 0 0) (idx.getD 1 0) kl.1.val kl.2.val))))
      else .error .valueError
    | _ => .error .valueError

end rev

/-! ## Inputs -/

/-- Where a dictionary comes from: it is the argument `values` itself or one of its two parts (utils/values_utils.py:4-13). -/
inductive Origin
  | flat | circuit | observables
deriving DecidableEq

/-- The real inputs: the numbers of the dictionaries. -/
abbrev RSlot := Origin × String

/-- The complex inputs: the entries (in row-major order) of the state and of the arrays of the dictionaries. -/
inductive CSlot
  | state (i : ℕ)
  | value (w : Origin) (k : String) (i : ℕ)
deriving DecidableEq

/-- Gradients: a number for every input. -/
abbrev Grad := (RSlot →₀ ℝ) × (CSlot →₀ ℂ)

/-- The gradient with the entry `ct` at a real input and zero elsewhere. -/
noncomputable def gradR (s : RSlot) : ℝ →+ Grad := (AddMonoidHom.inl _ _).comp (Finsupp.singleAddHom s)

/-- The gradient with the entry `ct` at a complex input and zero elsewhere. -/
noncomputable def gradC (s : CSlot) : ℂ →+ Grad := (AddMonoidHom.inr _ _).comp (Finsupp.singleAddHom s)

/-- An array of inputs. -/
noncomputable def inputArr (s : ℕ → CSlot) (a : NDArray ℂ) : NDArray (RevC Grad) :=
  ⟨a.shape, a.data.mapIdx fun i z => revC z (gradC (s i))⟩

/-- A dictionary of inputs. -/
noncomputable def inputDict (w : Origin) (d : TDict ℝ ℂ) : TDict (RevR Grad) (RevC Grad) :=
  List.map (fun e : String × TVal ℝ ℂ => (e.1, match e.2 with
    | .num x => TVal.num (revR x (gradR (w, e.1)))
    | .arr a => TVal.arr (inputArr (CSlot.value w e.1) a))) d

/-- The argument `values` as inputs. -/
noncomputable def inputArgs : TArgs ℝ ℂ → TArgs (RevR Grad) (RevC Grad)
  | .flat d => .flat (inputDict .flat d)
  | .split dc do' => .split (inputDict .circuit dc) (inputDict .observables do')

/-- A state as input.  For a density matrix the inputs are the entries of its array, as in `lambda array, values:
expectation(DensityMatrix(array), …)`; for what JAX makes of a density matrix as an argument see `C98_density_false`. -/
noncomputable def inputState : State → TState (RevC Grad)
  | .vec a => .vec (inputArr CSlot.state a)
  | .dm ρ => .dm ⟨inputArr CSlot.state ρ.array⟩

/-! ## `jax.vjp` and `jax.grad` -/

/-- `jax.vjp` of `lambda state, values: expectation(state, circuit, observables, values, "ad")` with the cotangents `cts` of the
expectation values: the values, and the gradient of the sum of the values with the factors `cts`.  Cotangents of another shape than
the values raise an error. -/
noncomputable def vjpExpectation (so : SetOrder) (state : State) (circuit : Op) (observables : List Observable)
    (values : TArgs ℝ ℂ) (cts : List ℝ) : Py (List ℝ × Grad) := do
  let l ← expectationT (Tracer.rev Grad) so (inputState state) circuit observables (inputArgs values)
  if l.length = cts.length then .ok (l.map TrivSqZeroExt.fst, (List.zipWith (fun y ct => y.snd ct) l cts).sum)
  else .error .valueError

/-- `jax.grad(lambda values: expectation(state, circuit, [observable], values, "ad")[0])`, the gradient at the names of `values`. -/
noncomputable def jaxGradValues (so : SetOrder) (state : State) (circuit : Op) (observable : Observable) (d : TDict ℝ ℂ) : Py (String → ℝ) := do
  let r ← vjpExpectation so state circuit [observable] (.flat d) [1]
  .ok fun p => r.2.1 (.flat, p)

/-- The entries of the state that `run` returns. -/
def stateEntries {K : Type} : Option (TState K) → List K
  | none => []
  | some (.vec a) => a.data
  | some (.dm ρ) => ρ.array.data

/-- `jax.vjp` of `lambda state, values: run(circuit, state, values)` with the cotangents `cts` of the entries of the state that `run`
returns: the state, and the gradient of the real part of the sum of its entries with the factors `cts`.  Cotangents of another shape
than the state raise an error. -/
noncomputable def vjpRun (so : SetOrder) (circuit : Op) (state : State) (d : TDict ℝ ℂ) (cts : List ℂ) : Py (Option (TState ℂ) × Grad) := do
  let s ← runT (Tracer.rev Grad) so circuit (inputState state) (inputDict .flat d)
  if (stateEntries s).length = cts.length then
    .ok (s.map (TState.map TrivSqZeroExt.fst), (List.zipWith (fun z ct => z.snd ct) (stateEntries s) cts).sum)
  else .error .valueError

end Verif
