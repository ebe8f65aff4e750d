import Verif.Lemmas.Subst
import Verif.Lemmas.Channel
import Verif.Lemmas.Misc

/-! # Acting on states with register matrices -/

namespace Verif
open NDArray
variable {n : ℕ} {values : Values}

theorem State.Applied.on {M : Matrix (Lab n) (Lab n) ℂ} {s r : State} (h : State.Applied n M s r) : r.On n := by
  cases s <;> cases r <;> first | exact h.1 | exact h.elim

theorem State.Applied.unique {M : Matrix (Lab n) (Lab n) ℂ} {s r r' : State} (h : State.Applied n M s r)
    (h' : State.Applied n M s r') : r = r' := by
  cases s <;> cases r <;> cases r' <;> try exact h.elim
  all_goals try exact h'.elim
  · rw [ket_ext h.1 h'.1 (h.2.trans h'.2.symm)]
  · rw [dm_ext h.1 h'.1 (h.2.trans h'.2.symm)]

theorem State.Applied.trans {M N : Matrix (Lab n) (Lab n) ℂ} {s r q : State} (h : State.Applied n M s r)
    (h' : State.Applied n N r q) : State.Applied n (N * M) s q := by
  cases s <;> cases r <;> cases q <;> try exact h.elim
  all_goals try exact h'.elim
  · exact ⟨h'.1, by rw [h'.2, h.2, Matrix.mulVec_mulVec]⟩
  · exact ⟨h'.1, by rw [h'.2, h.2, conjBy_conjBy]⟩

theorem State.Applied.refl {s : State} (h : s.On n) : State.Applied n 1 s s := by
  cases s with
  | vec a => exact ⟨h, by simp⟩
  | dm ρ => exact ⟨h, by simp [conjBy]⟩

/-- One noiseless gate. -/
theorem applyGates_applied (so : SetOrder) {g : Gate} {ot : OpType} (hg : g.Ok n ot values) (hz : g.noise = none) {state : State}
    (hst : state.On n) (group merge : Bool) :
    ∃ r, applyGates so state (.single g) values ot group merge = .ok r ∧ State.Applied n (g.mat n ot values) state r := by
  rw [applyGates_singleton so state g values ot group merge false merge]
  cases state with
  | vec a =>
    obtain ⟨r, h1, h2, h3⟩ := applyGates_vec so (gs := [g]) (by simp) (by simpa using hg) (by simpa using hz) hst merge
    exact ⟨_, h1, h2, by simpa [gatesMat] using h3⟩
  | dm ρ =>
    obtain ⟨r, h1, h2, h3⟩ := applyGates_dm so (gs := [g]) (by simp) (by simpa using hg) (by simpa using hz) hst merge
    exact ⟨_, h1, h2, by simpa [gatesMat, conjBy] using h3⟩

end Verif
