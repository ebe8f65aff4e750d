import Verif.Model.Apply
import Verif.NpMap
import Mathlib.Algebra.Star.SelfAdjoint
import Mathlib.Data.Complex.Basic

/-!
# Array operations commute with ring homomorphisms

Used to evaluate concrete witnesses over the integers, where the kernel can compute, and to transfer the result
to the complex numbers.
-/

namespace Verif
namespace NDArray
variable {R K : Type}

section
variable [CommRing R] [CommRing K] (f : R →+* K)

theorem get_mapArr (a : NDArray R) (idx : List ℕ) : (a.mapArr f).get idx = f (a.get idx) := by
  rw [NDArray.get, NDArray.get, mapArr]
  simp only [List.getD_eq_getElem?_getD, List.getElem?_map]
  cases a.data[ravel a.shape idx]? <;> simp

theorem ofFn_mapArr (s : List ℕ) (g : List ℕ → R) : (ofFn s g).mapArr f = ofFn s fun i => f (g i) := by
  simp [ofFn, mapArr, Function.comp_def]

theorem reshape_mapArr (a : NDArray R) (s : List ℕ) :
    (a.mapArr f).reshape s = (a.reshape s).map (mapArr f) := by
  simp only [reshape]
  split_ifs with h1 h2 h2
  · rfl
  · exact absurd h1 h2
  · exact absurd h2 h1
  · rfl

theorem transpose_mapArr (a : NDArray R) (p : List ℕ) :
    (a.mapArr f).transpose p = (a.transpose p).map (mapArr f) := by
  simp only [transpose, get_mapArr, show (a.mapArr f).ndim = a.ndim from rfl,
    show (a.mapArr f).shape = a.shape from rfl]
  split_ifs
  · simp only [Except.map, ofFn_mapArr]
  · rfl

theorem moveaxis_mapArr (a : NDArray R) (s d : List ℕ) :
    (a.mapArr f).moveaxis s d = (a.moveaxis s d).map (mapArr f) := by
  simp only [moveaxis, transpose_mapArr, show (a.mapArr f).ndim = a.ndim from rfl]
  split_ifs <;> rfl

theorem tensordot_mapArr (a b : NDArray R) (s d : List ℕ) :
    tensordot (a.mapArr f) (b.mapArr f) s d = (tensordot a b s d).map (mapArr f) := by
  simp only [tensordot, get_mapArr, show (a.mapArr f).ndim = a.ndim from rfl,
    show (a.mapArr f).shape = a.shape from rfl, show (b.mapArr f).ndim = b.ndim from rfl,
    show (b.mapArr f).shape = b.shape from rfl]
  split_ifs
  · simp only [Except.map, ofFn_mapArr, map_list_sum, List.map_map, Function.comp_def, map_mul]
  · rfl

theorem matmul_mapArr (a b : NDArray R) :
    matmul (a.mapArr f) (b.mapArr f) = (matmul a b).map (mapArr f) := by
  simp only [matmul, get_mapArr, show (a.mapArr f).shape = a.shape from rfl,
    show (b.mapArr f).shape = b.shape from rfl]
  split
  · split_ifs
    · simp only [Except.map, ofFn_mapArr, map_list_sum, List.map_map, Function.comp_def, map_mul]
    · rfl
  · rfl

theorem except_bind {α β : Type} (x : Py α) (g : α → Py β) : (x >>= g) = match x with
    | .ok v => g v
    | .error e => .error e := by
  cases x <;> rfl

theorem controlledBlock_mapArr (a : NDArray R) (m : ℕ) :
    controlledBlock (a.mapArr f) m = (controlledBlock a m).map (mapArr f) := by
  simp only [controlledBlock, get_mapArr, show (a.mapArr f).shape = a.shape from rfl]
  split_ifs
  · simp only [Except.map, ofFn_mapArr, apply_ite f, map_one, map_zero]
  · rfl

theorem prepareOperator_mapArr (o : NDArray R) (ts : List ℕ) (c : Ctl) :
    prepareOperator (o.mapArr f) ts c = (prepareOperator o ts c).map fun x => (x.1.mapArr f, x.2) := by
  simp only [prepareOperator]
  cases isControlled c
  · simp only [Bool.false_eq_true, if_false, except_bind, pure, Except.pure, reshape_mapArr,
      show (o.mapArr f).shape = o.shape from rfl]
    cases o.reshape _ <;> rfl
  · simp only [if_true, except_bind, controlledBlock_mapArr]
    cases controlledBlock o _ with
    | error e => rfl
    | ok b =>
      simp only [Except.map]
      cases ctlQubits c with
      | error e => rfl
      | ok cs =>
        simp only [pure, Except.pure, reshape_mapArr, show (b.mapArr f).shape = b.shape from rfl]
        cases b.reshape _ <;> rfl

theorem applyOperator_mapArr (st o : NDArray R) (ts : List ℕ) (c : Ctl) :
    applyOperator (st.mapArr f) (o.mapArr f) ts c = (applyOperator st o ts c).map (mapArr f) := by
  simp only [applyOperator, prepareOperator_mapArr, except_bind]
  rcases prepareOperator o ts c with e | ⟨op, nq, dims⟩
  · rfl
  · simp only [Except.map, tensordot_mapArr]
    cases tensordot op st _ _ with
    | error e => rfl
    | ok r => simp only [Except.map, moveaxis_mapArr]

theorem permuteBasis_mapArr (a : NDArray R) (S : List ℕ) (inv : Bool) :
    permuteBasis (a.mapArr f) S inv = (permuteBasis a S inv).map (mapArr f) := by
  simp only [permuteBasis, transpose_mapArr]
  split_ifs <;> rfl

variable [StarRing R] [StarRing K] (hf : ∀ x, f (star x) = star (f x))
include hf

theorem conj_mapArr (a : NDArray R) : (a.mapArr f).conj = a.conj.mapArr f := by
  simp [NDArray.conj, mapArr, hf]

theorem dagger_mapArr (a : NDArray R) : dagger (a.mapArr f) = (dagger a).map (mapArr f) := by
  simp only [dagger, conj_mapArr f hf, transpose_mapArr, show (a.mapArr f).ndim = a.ndim from rfl,
    show ∀ b : NDArray R, (b.mapArr f).ndim = b.ndim from fun _ => rfl]
  split_ifs
  · rfl
  · cases a.transpose (List.range a.ndim).reverse <;> simp [Except.map, conj_mapArr f hf]

theorem applyKrausOperator_mapArr (k a : NDArray R) (t : List ℕ) :
    applyKrausOperator (k.mapArr f) (a.mapArr f) t = (applyKrausOperator k a t).map (mapArr f) := by
  have hb : ∀ {α β : Type} (x : Py α) (g : α → Py β), (x >>= g) = match x with
      | .ok v => g v
      | .error e => .error e := by
    intro α β x g; cases x <;> rfl
  simp only [applyKrausOperator, reshape_mapArr, show (k.mapArr f).size = k.size from rfl, moveaxis_mapArr, hb]
  rcases k.reshape (List.replicate (intLog2 k.size) 2) with e | k1 <;> simp only [Except.map]
  rcases a.moveaxis (List.range t.length) t with e | a1 <;> simp only [tensordot_mapArr, Except.map]
  rcases tensordot k1 a1 _ _ with e | a2 <;> simp only [dagger_mapArr f hf, Except.map]
  rcases dagger a2 with e | a3 <;> simp only [tensordot_mapArr, Except.map]
  rcases tensordot k1 a3 _ _ with e | a4 <;> simp only [dagger_mapArr f hf, Except.map]
  rcases dagger a4 with e | a5 <;> simp only [moveaxis_mapArr, Except.map]

theorem densityMat_mapArr (a : NDArray R) : densityMat (a.mapArr f) = ⟨(densityMat a).array.mapArr f⟩ := by
  simp only [densityMat, get_mapArr, show (a.mapArr f).shape = a.shape from rfl, show (a.mapArr f).ndim = a.ndim from rfl,
    ofFn_mapArr, map_mul, hf]

theorem applyOperatorDM_mapArr (so : SetOrder) (st : DensityMatrix R) (o : NDArray R) (ts : List ℕ) (c : Ctl) :
    applyOperatorDM so ⟨st.array.mapArr f⟩ (o.mapArr f) ts c
      = (applyOperatorDM so st o ts c).map fun r => ⟨r.array.mapArr f⟩ := by
  simp only [applyOperatorDM, prepareOperator_mapArr, except_bind]
  rcases prepareOperator o ts c with e | ⟨op, nq, dims⟩
  · rfl
  simp only [Except.map, permuteBasis_mapArr, show (st.array.mapArr f).ndim = st.array.ndim from rfl]
  generalize so.order _ = rest
  rcases permuteBasis st.array _ _ with e | a1 <;> simp only [tensordot_mapArr, Except.map]
  rcases tensordot op a1 _ _ with e | a2 <;> simp only [dagger_mapArr f hf, Except.map]
  rcases dagger a2 with e | a3 <;> simp only [tensordot_mapArr, Except.map]
  rcases tensordot op a3 _ _ with e | a4 <;> simp only [dagger_mapArr f hf, Except.map]
  rcases dagger a4 with e | a5 <;> simp only [permuteBasis_mapArr, Except.map]
  rcases permuteBasis a5 _ _ with e | a6 <;> rfl
end

/-- Conjugation on the integers, used for evaluating witnesses only. -/
@[reducible] def intStar : StarRing ℤ := starRingOfComm

end NDArray
end Verif
