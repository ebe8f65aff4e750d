import Verif.Lemmas.TensorTree
import Verif.Lemmas.Channel

/-! # Running trees of gates, with or without noise -/

namespace Verif
open NDArray
variable {n : ℕ} {values : Values}

mutual
theorem Op.flatten_gates : ∀ o : Op, o.flatten = o.gates.map .prim
  | .prim g => by simp [Op.flatten, Op.gates]
  | .comp k ops => by simp only [Op.flatten, Op.gates]; exact Op.flattenList_gates ops
theorem Op.flattenList_gates : ∀ os : List Op, Op.flattenList os = (Op.gatesList os).map .prim
  | [] => by simp [Op.flattenList, Op.gatesList]
  | o :: os => by
    simp only [Op.flattenList, Op.gatesList, List.map_append, Op.flatten_gates o, Op.flattenList_gates os]
end

theorem callSeq_append (so : SetOrder) (as bs : List Op) (st : Option State) :
    Op.callSeq so values (as ++ bs) st = (do Op.callSeq so values bs (← Op.callSeq so values as st)) := by
  induction as generalizing st with
  | nil => simp only [List.nil_append, Op.callSeq]; rfl
  | cons a as ih =>
    simp only [List.cons_append, Op.callSeq, bind, Except.bind]
    rcases h : Op.call so values a st with e | r
    · rfl
    · exact ih r

mutual
theorem Op.Plain.call (so : SetOrder) {o : Op} (st : Option State) : o.Plain →
    o.call so values st = Op.callSeq so values (o.gates.map .prim) st
  | .prim g => by
    simp only [Op.gates, List.map_cons, List.map_nil, Op.callSeq]
    rcases Op.call so values (.prim g) st with e | r <;> rfl
  | .seq h => by simp only [Op.call, Op.gates]; exact Op.PlainList.callSeq so st h
  | .circ k fs h => by simp only [Op.call, Op.gates]; exact Op.PlainList.callSeq so st h
theorem Op.PlainList.callSeq (so : SetOrder) {os : List Op} (st : Option State) : Op.PlainList os →
    Op.callSeq so values os st = Op.callSeq so values ((Op.gatesList os).map .prim) st
  | .nil => by simp only [Op.gatesList, List.map_nil]
  | .cons h hs => by
    simp only [Op.gatesList, List.map_append, callSeq_append, Op.callSeq, Op.Plain.call so st h]
    refine congrArg _ (funext fun r => Op.PlainList.callSeq so r hs)
end

/-- `r` is the result of running noisy gates of any class on `s`. -/
def State.Evolved (n : ℕ) (values : Values) (gs : List Gate) (nss : List (List StdNoise)) : State → State → Prop
  | .vec a, .vec r => (∀ g ∈ gs, g.noise = none) ∧ IsKet n r ∧ ket n r = (gatesMat n .unitary values gs).mulVec (ket n a)
  | .vec a, .dm r => (¬ ∀ g ∈ gs, g.noise = none) ∧ IsDM n r ∧
      dmMat n r.array = noisyRun n .unitary values (gs.zip nss) ((State.vec a).mat n)
  | .dm ρ, .dm r => IsDM n r ∧ dmMat n r.array = noisyRun n .unitary values (gs.zip nss) (dmMat n ρ.array)
  | .dm _, .vec _ => False

variable {gs : List Gate} {nss : List (List StdNoise)}

theorem State.Evolved.unique {s r r' : State} (h : State.Evolved n values gs nss s r)
    (h' : State.Evolved n values gs nss s r') : r = r' := by
  cases s <;> cases r <;> cases r' <;> try exact h.elim
  all_goals try exact h'.elim
  · rw [ket_ext h.2.1 h'.2.1 (h.2.2.trans h'.2.2.symm)]
  · exact absurd h.1 h'.1
  · exact absurd h'.1 h.1
  · rw [dm_ext h.2.1 h'.2.1 (h.2.2.trans h'.2.2.symm)]
  · rw [dm_ext h.1 h'.1 (h.2.trans h'.2.symm)]

theorem State.Evolved.on {s r : State} (h : State.Evolved n values gs nss s r) : r.On n := by
  cases s <;> cases r <;> first | exact h.elim | exact h.2.1 | exact h.1

theorem vec_mat_conj {a r : NDArray ℂ} {M : Matrix (Lab n) (Lab n) ℂ} (h : ket n r = M.mulVec (ket n a)) :
    (State.vec r).mat n = conjBy M ((State.vec a).mat n) := by
  change Matrix.vecMulVec (ket n r) (star (ket n r)) = conjBy M (Matrix.vecMulVec (ket n a) (star (ket n a)))
  rw [conjBy, h, Matrix.mul_vecMulVec, Matrix.vecMulVec_mul, Matrix.star_mulVec]

theorem noiseIs_none {g : Gate} {ns : List StdNoise} (h : g.NoiseIs ns) (hz : g.noise = none) : ns = [] := by
  cases h with
  | none => rfl
  | some h => rw [hz] at h; cases h

theorem State.Evolved.cons {g : Gate} {ns : List StdNoise} (hg : g.NoiseIs ns) {s r q : State}
    (h : State.Evolved n values [g] [ns] s r)
    (h' : State.Evolved n values gs nss r q) : State.Evolved n values (g :: gs) (ns :: nss) s q := by
  cases s <;> cases r <;> cases q <;> try exact h.elim
  all_goals try exact h'.elim
  · refine ⟨by simpa using ⟨by simpa using h.1, h'.1⟩, h'.2.1, ?_⟩
    have := h.2.2
    simp only [gatesMat, one_mul] at this
    rw [h'.2.2, this, gatesMat, Matrix.mulVec_mulVec]
  · have hz : g.noise = none := by simpa using h.1
    refine ⟨fun hall => h'.1 fun x hx => hall x (by simp [hx]), h'.2.1, ?_⟩
    have hk := h.2.2
    simp only [gatesMat, one_mul] at hk
    rw [h'.2.2, List.zip_cons_cons, noisyRun, noiseIs_none hg hz, noisyStep, List.foldl_nil, vec_mat_conj hk]
  · refine ⟨fun hall => h.1 (by simpa using hall g (by simp)), h'.1, ?_⟩
    rw [h'.2, h.2.2]
    simp only [List.zip_cons_cons, noisyRun, List.zip_nil_right]
  · refine ⟨h'.1, ?_⟩
    rw [h'.2, h.2]
    simp only [List.zip_cons_cons, noisyRun, List.zip_nil_right]

theorem applyGates_evolved (so : SetOrder) (hne : gs ≠ []) (hok : ∀ g ∈ gs, g.Ok n .unitary values)
    (hn : List.Forall₂ Gate.NoiseIs gs nss) {s : State} (hs : s.On n) (merge : Bool) :
    ∃ r, applyGates so s (.list gs) values .unitary false merge = .ok r ∧ State.Evolved n values gs nss s r := by
  cases s with
  | dm ρ =>
    obtain ⟨r, h1, h2, h3⟩ := applyGates_noisy_dm so hne hok hn hs merge
    exact ⟨.dm r, h1, h2, h3⟩
  | vec a =>
    by_cases hz : ∀ g ∈ gs, g.noise = none
    · obtain ⟨r, h1, h2, h3⟩ := applyGates_vec so hne hok hz hs merge
      exact ⟨.vec r, h1, hz, h2, h3⟩
    · obtain ⟨hd, hd'⟩ := densityMat_isDM hs
      obtain ⟨r, h1, h2, h3⟩ := applyGates_noisy_dm so hne hok hn hd merge
      refine ⟨.dm r, by rw [applyGates_vec_noisy so hz]; exact h1, hz, h2, ?_⟩
      rw [h3, hd']; rfl

theorem callSeq_evolved (so : SetOrder) (hne : gs ≠ []) (hok : ∀ g ∈ gs, g.Ok n .unitary values)
    (hn : List.Forall₂ Gate.NoiseIs gs nss) {s : State} (hs : s.On n) :
    ∃ r, Op.callSeq so values (gs.map .prim) (some s) = .ok (some r) ∧ State.Evolved n values gs nss s r := by
  induction hn generalizing s with
  | nil => exact absurd rfl hne
  | @cons g ns gs nss hg hgs ih =>
    obtain ⟨r, h1, h2⟩ := applyGates_evolved so (gs := [g]) (nss := [ns]) (by simp) (by simpa using hok g (by simp))
      (.cons hg .nil) hs true
    have hc : Op.call so values (.prim g) (some s) = .ok (some r) := by
      simp only [Op.call, bind, Except.bind]
      rw [applyGates_singleton so s g values .unitary false true false true, h1]; rfl
    by_cases hnil : gs = []
    · subst hnil
      cases hgs
      exact ⟨r, by simp only [List.map_cons, List.map_nil, Op.callSeq, hc]; rfl, h2⟩
    · obtain ⟨q, k1, k2⟩ := ih hnil (fun x hx => hok x (by simp [hx])) h2.on
      refine ⟨q, ?_, h2.cons hg k2⟩
      simp only [List.map_cons, Op.callSeq, hc, bind, Except.bind]
      exact k1

end Verif
