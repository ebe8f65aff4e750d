import Verif.Model.Reverse

/-!
# Specification of gradients with respect to all inputs
-/

set_option autoImplicit false

namespace Verif

/-- A direction: a real number for every real input and a complex number for every complex input. -/
structure Direction where
  re : RSlot → ℝ
  cx : CSlot → ℂ

/-- The array whose entries are changed by `t` times the direction. -/
noncomputable def movedArr (v : Direction) (t : ℝ) (s : ℕ → CSlot) (a : NDArray ℂ) : NDArray ℂ :=
  ⟨a.shape, a.data.mapIdx fun i z => z + (t : ℂ) * v.cx (s i)⟩

/-- The dictionary whose numbers are changed by `t` times the direction. -/
noncomputable def movedDict (v : Direction) (t : ℝ) (w : Origin) (d : TDict ℝ ℂ) : TDict ℝ ℂ :=
  List.map (fun e : String × TVal ℝ ℂ => (e.1, match e.2 with
    | .num x => TVal.num (x + t * v.re (w, e.1))
    | .arr a => TVal.arr (movedArr v t (CSlot.value w e.1) a))) d

/-- The argument `values` changed by `t` times the direction. -/
noncomputable def movedArgs (v : Direction) (t : ℝ) : TArgs ℝ ℂ → TArgs ℝ ℂ
  | .flat d => .flat (movedDict v t .flat d)
  | .split dc do' => .split (movedDict v t .circuit dc) (movedDict v t .observables do')

/-- The state changed by `t` times the direction. -/
noncomputable def movedState (v : Direction) (t : ℝ) : State → State
  | .vec a => .vec (movedArr v t CSlot.state a)
  | .dm ρ => .dm ⟨movedArr v t CSlot.state ρ.array⟩

/-- The derivative in direction `v` that belongs to a gradient in the convention of JAX: the sum of `g * v` over the real inputs and of
the real part of `g * v` over the complex inputs. -/
noncomputable def pairGrad (g : Grad) (v : Direction) : ℝ :=
  (g.1.sum fun s c => c * v.re s) + g.2.sum fun s c => (c * v.cx s).re

end Verif
