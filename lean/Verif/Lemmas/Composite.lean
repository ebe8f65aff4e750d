import Verif.AbsOp
import Verif.Lemmas.Applied

/-! # Calling operation trees -/

namespace Verif
open NDArray
variable {n : ℕ} {values : Values}

theorem StdLeaf.any {g : Gate} {M : Matrix (Lab n) (Lab n) ℂ} (h : StdLeaf n values g M) : AnyLeaf n values g M := by
  obtain ⟨s, h1, h2, rfl⟩ := h
  exact ⟨h1.ok, h2, h1.mat.symm⟩

section mono
variable {L L' : Gate → Matrix (Lab n) (Lab n) ℂ → Prop} (hL : ∀ g M, L g M → L' g M)
include hL

mutual
theorem Op.Means.mono {o : Op} {M : Matrix (Lab n) (Lab n) ℂ} : Op.Means L values o M → Op.Means L' values o M
  | .gate h => .gate (hL _ _ h)
  | .seq h => .seq (Op.MeansSeq.mono h)
  | .circ k fs h => .circ k fs (Op.MeansSeq.mono h)
  | .scale hp h => .scale hp (Op.MeansSeq.mono h)
  | .add h => .add (Op.MeansSum.mono h)
theorem Op.MeansSeq.mono {o : List Op} {M : Matrix (Lab n) (Lab n) ℂ} : Op.MeansSeq L values o M → Op.MeansSeq L' values o M
  | .nil => .nil
  | .cons h hs => .cons (Op.Means.mono h) (Op.MeansSeq.mono hs)
theorem Op.MeansSum.mono {o : List Op} {M : Matrix (Lab n) (Lab n) ℂ} : Op.MeansSum L values o M → Op.MeansSum L' values o M
  | .one h => .one (Op.Means.mono h)
  | .cons h hs => .cons (Op.Means.mono h) (Op.MeansSum.mono hs)
end
end mono

theorem scaleParam_eq {p : Param} {x : ℝ} (h : p.Resolves values x) : scaleParam p values = .ok x := by
  cases h with
  | num => rfl
  | str h => simp [scaleParam, Values.get, h, bind, Except.bind]

theorem smul_ket {st : NDArray ℂ} (h : IsKet n st) (c : ℂ) :
    IsKet n (smul c st) ∧ ket n (smul c st) = c • ket n st := by
  refine ⟨⟨h.shape, by simpa [WF, smul] using h.wf⟩, ?_⟩
  funext b
  simp only [ket, NDArray.get, smul, List.getD_eq_getElem?_getD, List.getElem?_map, Pi.smul_apply, smul_eq_mul]
  rcases st.data[ravel st.shape b.bits]? with _ | x <;> simp

theorem add_ket {a b : NDArray ℂ} (ha : IsKet n a) (hb : IsKet n b) :
    ∃ r, NDArray.add a b = .ok r ∧ IsKet n r ∧ ket n r = ket n a + ket n b := by
  have hw : a.data.length = b.data.length := by rw [ha.wf, hb.wf, ha.shape, hb.shape]
  refine ⟨⟨a.shape, List.zipWith (· + ·) a.data b.data⟩, by rw [NDArray.add, if_pos (by rw [ha.shape, hb.shape])], ⟨ha.shape, ?_⟩, ?_⟩
  · simp only [WF, List.length_zipWith, ← hw, min_self]; exact ha.wf
  · funext l
    simp only [ket, NDArray.get, Pi.add_apply, List.getD_eq_getElem?_getD, ha.shape, hb.shape, List.getElem?_zipWith]
    by_cases hi : ravel (List.replicate n 2) l.bits < a.data.length
    · rw [List.getElem?_eq_getElem hi, List.getElem?_eq_getElem (hw ▸ hi)]; simp
    · rw [List.getElem?_eq_none (by omega), List.getElem?_eq_none (by omega)]; simp

/-- Left-to-right sum of states. -/
theorem reduce_addStates {rs : List (NDArray ℂ)} (hne : rs ≠ []) (hrs : ∀ r ∈ rs, IsKet n r) :
    ∃ r, pyReduce Op.addStates (rs.map fun r => .ok (some (State.vec r))) = .ok (some (.vec r)) ∧ IsKet n r ∧
      ket n r = (rs.map (ket n)).sum := by
  cases rs with
  | nil => exact absurd rfl hne
  | cons a rs =>
    have ha : IsKet n a := hrs a (by simp)
    have hr : ∀ r ∈ rs, IsKet n r := fun r h => hrs r (by simp [h])
    simp only [List.map_cons, pyReduce, bind, Except.bind, List.sum_cons]
    clear hrs hne
    induction rs generalizing a with
    | nil => exact ⟨a, rfl, ha, by simp⟩
    | cons b rs ih =>
      obtain ⟨c, h1, h2, h3⟩ := add_ket ha (hr b (by simp))
      obtain ⟨r, k1, k2, k3⟩ := ih c h2 fun r h => hr r (by simp [h])
      refine ⟨r, ?_, k2, by rw [k3, h3, List.map_cons, List.sum_cons, add_assoc]⟩
      rw [List.map_cons, List.foldlM_cons]
      simp only [Op.addStates, bind, Except.bind, h1]
      exact k1

mutual
theorem call_means (so : SetOrder) {o : Op} {M : Matrix (Lab n) (Lab n) ℂ} {st : NDArray ℂ} (hst : IsKet n st) :
    Op.Means (AnyLeaf n values) values o M →
    ∃ r, o.call so values (some (.vec st)) = .ok (some (.vec r)) ∧ IsKet n r ∧ ket n r = M.mulVec (ket n st)
  | .gate ⟨hok, hz, hM⟩ => by
    obtain ⟨r, h1, h2, h3⟩ := applyGates_single so hok hz hst false true
    refine ⟨r, ?_, h2, by rw [h3, hM]⟩
    simp only [Op.call, bind, Except.bind, h1]
    rfl
  | .seq h => by simpa only [Op.call] using callSeq_means so hst h
  | .circ _ _ h => by simpa only [Op.call] using callSeq_means so hst h
  | .scale (x := x) hp h => by
    obtain ⟨r, h1, h2, h3⟩ := callSeq_means so hst h
    refine ⟨smul (x : ℂ) r, ?_, (smul_ket h2 _).1, ?_⟩
    · simp only [Op.call, scaleParam_eq hp, bind, Except.bind, h1, Op.scaleState]
    · rw [(smul_ket h2 _).2, h3, Matrix.smul_mulVec]
  | .add h => by
    obtain ⟨rs, h1, h2, h3, h4⟩ := callList_means so hst h
    obtain ⟨r, k1, k2, k3⟩ := reduce_addStates h2 h3
    exact ⟨r, by rw [Op.call, h1, k1], k2, by rw [k3, h4]⟩
theorem callSeq_means (so : SetOrder) {os : List Op} {M : Matrix (Lab n) (Lab n) ℂ} {st : NDArray ℂ} (hst : IsKet n st) :
    Op.MeansSeq (AnyLeaf n values) values os M →
    ∃ r, Op.callSeq so values os (some (.vec st)) = .ok (some (.vec r)) ∧ IsKet n r ∧ ket n r = M.mulVec (ket n st)
  | .nil => ⟨st, by simp only [Op.callSeq], hst, by simp⟩
  | .cons h hs => by
    obtain ⟨r, h1, h2, h3⟩ := call_means so hst h
    obtain ⟨q, k1, k2, k3⟩ := callSeq_means so h2 hs
    refine ⟨q, ?_, k2, by rw [k3, h3, Matrix.mulVec_mulVec]⟩
    simp only [Op.callSeq, h1, bind, Except.bind]
    exact k1
theorem callList_means (so : SetOrder) {os : List Op} {M : Matrix (Lab n) (Lab n) ℂ} {st : NDArray ℂ} (hst : IsKet n st) :
    Op.MeansSum (AnyLeaf n values) values os M →
    ∃ rs : List (NDArray ℂ), Op.callList so values os (some (.vec st)) = rs.map (fun r => .ok (some (State.vec r))) ∧
      rs ≠ [] ∧ (∀ r ∈ rs, IsKet n r) ∧ (rs.map (ket n)).sum = M.mulVec (ket n st)
  | .one h => by
    obtain ⟨r, h1, h2, h3⟩ := call_means so hst h
    exact ⟨[r], by simp only [Op.callList, h1, List.map_cons, List.map_nil], by simp, by simpa using h2, by simpa using h3⟩
  | .cons h hs => by
    obtain ⟨r, h1, h2, h3⟩ := call_means so hst h
    obtain ⟨rs, k1, k2, k3, k4⟩ := callList_means so hst hs
    refine ⟨r :: rs, by simp only [Op.callList, h1, k1, List.map_cons], by simp, by simpa using ⟨h2, k3⟩, ?_⟩
    rw [List.map_cons, List.sum_cons, k4, h3, Matrix.add_mulVec]
end

theorem callSum_means (so : SetOrder) {os : List Op} {M : Matrix (Lab n) (Lab n) ℂ} {st : NDArray ℂ} (hst : IsKet n st)
    (h : Op.MeansSum (AnyLeaf n values) values os M) :
    ∃ r, pyReduce Op.addStates (Op.callList so values os (some (.vec st))) = .ok (some (.vec r)) ∧ IsKet n r ∧
      ket n r = M.mulVec (ket n st) := by
  obtain ⟨rs, h1, h2, h3, h4⟩ := callList_means so hst h
  obtain ⟨r, k1, k2, k3⟩ := reduce_addStates h2 h3
  exact ⟨r, by rw [h1, k1], k2, by rw [k3, h4]⟩

end Verif
