import Verif.Model.ArrayParams
import Verif.Lemmas.GpsrHamJvp
import Verif.Lemmas.Grouping
import Verif.Props.Composite
import Verif.SpecStates

/-!
# Property theorems about array-valued parameters

C77.  Arrays of size one act as numbers; longer arrays are not a batch of parameters: they are refused, or silently broadcast
into the entries of one matrix.
-/

set_option autoImplicit false

namespace Verif
open NDArray
variable {n : ℕ} (so : SetOrder)

/-- The angles of the four entries of a `2 × 2` matrix when the angle `θ` is an array with at most two axes. -/
inductive Angles : NDArray ℂ → Matrix (Fin 2) (Fin 2) ℝ → Prop
  | scalar (x : ℝ) : Angles ⟨[], [x]⟩ !![x, x; x, x]
  | one (x : ℝ) : Angles ⟨[1], [x]⟩ !![x, x; x, x]
  | two (x y : ℝ) : Angles ⟨[2], [x, y]⟩ !![x, y; x, y]
  | oneOne (x : ℝ) : Angles ⟨[1, 1], [x]⟩ !![x, x; x, x]
  | oneTwo (x y : ℝ) : Angles ⟨[1, 2], [x, y]⟩ !![x, y; x, y]
  | twoOne (x y : ℝ) : Angles ⟨[2, 1], [x, y]⟩ !![x, x; y, y]
  | twoTwo (x y z w : ℝ) : Angles ⟨[2, 2], [x, y, z, w]⟩ !![x, y; z, w]

/-- The generators of the rotations. -/
inductive RotGen : String → Matrix (Fin 2) (Fin 2) ℂ → Prop
  | X : RotGen "X" !![0, 1; 1, 0]
  | Y : RotGen "Y" !![0, -Complex.I; Complex.I, 0]
  | Z : RotGen "Z" !![1, 0; 0, -1]

/-- The matrix of a rotation whose angle at the entry `(i, j)` is `A i j`. -/
noncomputable def rotEntry (G : Matrix (Fin 2) (Fin 2) ℂ) (A : Matrix (Fin 2) (Fin 2) ℝ) : Matrix (Fin 2) (Fin 2) ℂ :=
  fun i j => (if i = j then (Real.cos (A i j / 2) : ℂ) else 0) - Complex.I * Real.sin (A i j / 2) * G i j

theorem ofFn_two (f : List ℕ → ℂ) : ofFn [2, 2] f = mat2 (f [0, 0]) (f [0, 1]) (f [1, 0]) (f [1, 1]) := by
  simp [ofFn, allIdx, mat2, List.range_succ]

theorem eye_two : (eye 2 : NDArray ℂ) = mat2 1 0 0 1 := by
  simp [eye, ofFn, allIdx, mat2, List.range_succ]

theorem bcast2_two (f : ℂ → ℂ → ℂ) {a : NDArray ℂ} (h : bcastShape a.shape [2, 2] = some [2, 2]) (p q r s : ℂ) :
    bcast2 f a (mat2 p q r s) = .ok (mat2 (f (a.get (bcastIdx a.shape [0, 0])) p) (f (a.get (bcastIdx a.shape [0, 1])) q)
      (f (a.get (bcastIdx a.shape [1, 0])) r) (f (a.get (bcastIdx a.shape [1, 1])) s)) := by
  simp only [bcast2, mat2]
  rw [h]
  simp [ofFn_two, mat2, bcastIdx, NDArray.get, ravel]

theorem rotUnitaryA_two {θ : NDArray ℂ} (h : bcastShape θ.shape [2, 2] = some [2, 2]) (p q r s : ℂ) :
    rotUnitaryA (mat2 p q r s) θ = .ok
      (mat2 ((θ.map1 fun z => Complex.cos (z / 2)).get (bcastIdx θ.shape [0, 0]) * 1
          - (θ.map1 fun z => Complex.I * Complex.sin (z / 2)).get (bcastIdx θ.shape [0, 0]) * p)
        ((θ.map1 fun z => Complex.cos (z / 2)).get (bcastIdx θ.shape [0, 1]) * 0
          - (θ.map1 fun z => Complex.I * Complex.sin (z / 2)).get (bcastIdx θ.shape [0, 1]) * q)
        ((θ.map1 fun z => Complex.cos (z / 2)).get (bcastIdx θ.shape [1, 0]) * 0
          - (θ.map1 fun z => Complex.I * Complex.sin (z / 2)).get (bcastIdx θ.shape [1, 0]) * r)
        ((θ.map1 fun z => Complex.cos (z / 2)).get (bcastIdx θ.shape [1, 1]) * 1
          - (θ.map1 fun z => Complex.I * Complex.sin (z / 2)).get (bcastIdx θ.shape [1, 1]) * s)) := by
  simp only [rotUnitaryA, eye_two, bcast2_two _ (a := θ.map1 _) h, bind, Except.bind]
  rw [bcast2_two _ rfl]
  simp [mat2, bcastIdx, NDArray.get, ravel, NDArray.map1]

theorem rotUnitaryA_angles {θ : NDArray ℂ} {A : Matrix (Fin 2) (Fin 2) ℝ} (h : Angles θ A) (p q r s : ℂ) :
    rotUnitaryA (mat2 p q r s) θ = .ok (mat2 (rotEntry !![p, q; r, s] A 0 0) (rotEntry !![p, q; r, s] A 0 1)
      (rotEntry !![p, q; r, s] A 1 0) (rotEntry !![p, q; r, s] A 1 1)) := by
  cases h <;> rw [rotUnitaryA_two rfl] <;>
    simp [rotEntry, NDArray.map1, bcastIdx, NDArray.get, ravel]

theorem Angles.shift {θ : NDArray ℂ} {A : Matrix (Fin 2) (Fin 2) ℝ} (h : Angles θ A) (s : ℝ) :
    Angles (θ.map1 (· + (s : ℂ))) (A.map (· + s)) := by
  have h4 : ∀ a b c d : ℝ, (!![a, b; c, d] : Matrix (Fin 2) (Fin 2) ℝ).map (· + s) = !![a + s, b + s; c + s, d + s] := by
    intro a b c d
    ext i j
    fin_cases i <;> fin_cases j <;> rfl
  cases h <;> rw [h4] <;> simp only [NDArray.map1, List.map_cons, List.map_nil, ← Complex.ofReal_add] <;> constructor

theorem Angles.ndim {θ : NDArray ℂ} {A : Matrix (Fin 2) (Fin 2) ℝ} (h : Angles θ A) : ¬ 2 < θ.ndim := by
  cases h <;> simp [NDArray.ndim]

theorem RotGen.generator {G : String} {M : Matrix (Fin 2) (Fin 2) ℂ} (h : RotGen G M) :
    operationsDict G = .ok (mat2 (M 0 0) (M 0 1) (M 1 0) (M 1 1)) := by
  cases h <;> rfl

/-- **C77** (what an array of angles means): for a rotation gate whose parameter is an array with at most two axes of
length 1 or 2, `_unitary` is the `2 × 2` matrix in which each *entry* is taken from the rotation by its own angle. -/
theorem C77_entries {g : Gate} {p : String} {s : ℝ} (hc : g.cls = .parametric (.str p) s) (hs : g.sparse = false)
    {M : Matrix (Fin 2) (Fin 2) ℂ} (hG : RotGen g.generatorName M) {values : Values} {θ : NDArray ℂ}
    (hp : values.lookup p = some (.arr θ)) {A : Matrix (Fin 2) (Fin 2) ℝ} (hA : Angles θ A) :
    ∃ U, g.unitaryA values = .ok U ∧ IsOp 1 U ∧
      ∀ i j : Fin 2, entries U i j = rotEntry M (A.map (· + s)) i j := by
  refine ⟨_, ?_, isOp_mat2 (rotEntry M (A.map (· + s)) 0 0) (rotEntry M (A.map (· + s)) 0 1) (rotEntry M (A.map (· + s)) 1 0)
    (rotEntry M (A.map (· + s)) 1 1), fun i j => ?_⟩
  · have hval : parseValuesA (.str p) s values = .ok (θ.map1 (· + (s : ℂ))) := by
      simp only [parseValuesA, Values.get, hp, bind, Except.bind, PyVal.addShiftA]
    have hM : M = !![M 0 0, M 0 1; M 1 0, M 1 1] := by ext i j; fin_cases i <;> fin_cases j <;> rfl
    simp only [Gate.unitaryA, hs, Bool.false_eq_true, if_false, hc, Gate.generator, hG.generator, hval, bind, Except.bind]
    rw [if_neg (hA.shift s).ndim, rotUnitaryA_angles (hA.shift s), ← hM]
  · rw [entries_mat2 _ _ _ _ i.isLt j.isLt]
    fin_cases i <;> fin_cases j <;> rfl

theorem bcastDim_two (d : ℕ) : bcastDim d 2 = if d = 1 ∨ d = 2 then some 2 else none := by
  unfold bcastDim
  split_ifs <;> first | rfl | omega | (simp_all)

theorem bcastShape_none {s : List ℕ} (hl : s.length ≤ 2) (h : ∃ d ∈ s, d ≠ 1 ∧ d ≠ 2) : bcastShape s [2, 2] = none := by
  obtain ⟨d, hd, hd'⟩ := h
  match s, hl with
  | [], _ => simp at hd
  | [a], _ =>
    rw [List.mem_singleton] at hd
    subst hd
    simp [bcastShape, padShape, bcastDim_two, hd'.1, hd'.2]
  | [a, b], _ =>
    simp only [bcastShape, padShape, List.length_cons, List.length_nil, max_self, Nat.sub_self, List.replicate_zero,
      List.nil_append, List.zip_cons_cons, List.zip_nil_right, List.mapM_cons, List.mapM_nil, bcastDim_two]
    rcases List.mem_cons.1 hd with rfl | hd
    · simp [hd'.1, hd'.2]
    · rw [List.mem_singleton] at hd
      subst hd
      by_cases ha : a = 1 ∨ a = 2 <;> simp [ha, hd'.1, hd'.2]

/-- **C77** (arrays of other lengths): a circuit that contains a rotation whose parameter is an array with at most two axes,
one of which is not of length 1 or 2, is refused. -/
theorem C77_refused {gs : List Gate} {g : Gate} (hg : g ∈ gs) {p : String} {s : ℝ} (hc : g.cls = .parametric (.str p) s)
    (hs : g.sparse = false) {M : Matrix (Fin 2) (Fin 2) ℂ} (hG : RotGen g.generatorName M) {values : Values} {θ : NDArray ℂ}
    (hp : values.lookup p = some (.arr θ)) (hl : θ.ndim ≤ 2) (hd : ∃ d ∈ θ.shape, d ≠ 1 ∧ d ≠ 2) :
    (∃ e, e ≠ .unsupported ∧ g.unitaryA values = .error e) ∧
    ∀ state group merge, ∃ e, applyGatesA so state (.list gs) values .unitary group merge = .error e := by
  have hu : ∃ e, e ≠ .unsupported ∧ g.unitaryA values = .error e := by
    have hval : parseValuesA (.str p) s values = .ok (θ.map1 (· + (s : ℂ))) := by
      simp only [parseValuesA, Values.get, hp, bind, Except.bind, PyVal.addShiftA]
    have hb : ∀ f : ℂ → ℂ, bcastShape ((θ.map1 (· + (s : ℂ))).map1 f).shape (mat2 1 0 0 1).shape = none := fun f =>
      bcastShape_none hl hd
    simp only [Gate.unitaryA, hs, Bool.false_eq_true, if_false, hc, Gate.generator, hG.generator, hval, bind, Except.bind]
    rw [if_neg (show ¬ 2 < (θ.map1 (· + (s : ℂ))).ndim from not_lt.2 hl)]
    simp only [rotUnitaryA, eye_two, bcast2, hb, bind, Except.bind]
    exact ⟨_, by split_ifs <;> simp, rfl⟩
  refine ⟨hu, fun state group merge => ?_⟩
  obtain ⟨e, -, he⟩ := hu
  have hm : ∀ l : List Gate, g ∈ l → ∃ e', l.mapM (fun g => g.operatorA .unitary values) = .error e' := by
    intro l hl
    rcases h : l.mapM (fun g => g.operatorA .unitary values) with e' | r
    · exact ⟨e', h⟩
    · exact absurd h (mapM_not_ok hl (fun u hu => by rw [show g.operatorA .unitary values = g.unitaryA values from rfl, he] at hu; cases hu) r)
  obtain ⟨e', he'⟩ := hm (if group = true then groupByIndex gs else gs) (by
    cases group
    · exact hg
    · exact (groupByIndex_perm gs).mem_iff.2 hg)
  exact ⟨e', by simp only [applyGatesA, applyGatesOf, prepareSequenceReduce, he', bind, Except.bind]⟩

/-! ## Arrays of size one -/

/-- `v'` is the value `v`, or `v` is a number and `v'` an array of size one with at most two axes that contains it. -/
inductive PyVal.SizeOne : PyVal → PyVal → Prop
  | refl (v : PyVal) : SizeOne v v
  | array (x : ℝ) {s : List ℕ} (hs : s = [] ∨ s = [1] ∨ s = [1, 1]) : SizeOne (.num x) (.arr ⟨s, [(x : ℂ)]⟩)

/-- `values'` is `values` with some numbers replaced by arrays of size one. -/
def Values.SizeOne (values values' : Values) : Prop :=
  List.Forall₂ (fun e e' => e.1 = e'.1 ∧ e.2.SizeOne e'.2) values values'

theorem Values.SizeOne.lookup {values values' : Values} (h : values.SizeOne values') (p : String) :
    (values.lookup p = none ∧ values'.lookup p = none) ∨
      ∃ v v', values.lookup p = some v ∧ values'.lookup p = some v' ∧ v.SizeOne v' := by
  induction h with
  | nil => exact .inl ⟨rfl, rfl⟩
  | @cons e e' l l' he _ ih =>
    obtain ⟨k, v⟩ := e
    obtain ⟨k', v'⟩ := e'
    obtain ⟨rfl, hv⟩ := he
    simp only [List.lookup_cons]
    cases hk : p == k with
    | true => exact .inr ⟨v, v', rfl, rfl, hv⟩
    | false => exact ih

/-- A gate of a circuit whose numbers may be replaced by arrays of size one: rotations about X, Y or Z, fixed gates, `PHASE`
gates whose parameter stays a number or an array without axes, and evolutions. -/
inductive Gate.ArrayOk (values values' : Values) (g : Gate) : Prop
  | primitive (h : g.cls = .primitive)
  | rotation {p : Param} {s : ℝ} {M : Matrix (Fin 2) (Fin 2) ℂ} (h : g.cls = .parametric p s) (hG : RotGen g.generatorName M)
      (hp : ∀ q a, p = .str q → values.lookup q ≠ some (.arr a))
  | phase {p : Param} {s : ℝ} (h : g.cls = .phase p s) (hp : ∀ q a, p = .str q → values.lookup q ≠ some (.arr a))
      (hp' : ∀ q a, p = .str q → values'.lookup q = some (.arr a) → a.shape = [])
  | hamEvo {s : ℝ} (h : g.cls = .hamEvo s) (ht : ∀ a, values.lookup "time_evolution" ≠ some (.arr a)) {H : NDArray ℂ} (hH : values.lookup "hamiltonian" = some (.arr H)) (hH2 : H.WF ∧ H.ndim = 2)

theorem parse_sizeOne {values values' : Values} (h : values.SizeOne values') {p : Param}
    (hp : ∀ q a, p = .str q → values.lookup q ≠ some (.arr a)) (s : ℝ) :
    (∃ e, e ≠ .unsupported ∧ parseValues p s values = .error e ∧ parseValuesA p s values' = .error e) ∨
      ∃ (x : ℝ) (t : List ℕ), parseValues p s values = .ok x ∧ parseValuesA p s values' = .ok ⟨t, [(x : ℂ)]⟩ ∧
        (t = [] ∨ t = [1] ∨ t = [1, 1]) ∧ (t ≠ [] → ∃ q a, p = .str q ∧ values'.lookup q = some (.arr a) ∧ a.shape = t) := by
  cases p with
  | num x => exact .inr ⟨x + s, [], rfl, rfl, .inl rfl, fun h => absurd rfl h⟩
  | str q =>
    rcases h.lookup q with ⟨h1, h2⟩ | ⟨v, v', h1, h2, hv⟩
    · exact .inl ⟨.keyError, by simp, by simp only [parseValues, Values.get, h1]; rfl, by
        simp only [parseValuesA, Values.get, h2]; rfl⟩
    · cases hv with
      | array x hs =>
        rename_i t
        refine .inr ⟨x + s, t, by simp only [parseValues, Values.get, h1]; rfl, ?_, hs, fun _ => ⟨q, _, rfl, h2, rfl⟩⟩
        simp only [parseValuesA, Values.get, h2, bind, Except.bind, PyVal.addShiftA, NDArray.map1, List.map_cons, List.map_nil,
          Complex.ofReal_add]
      | refl =>
        cases v with
        | num x => exact .inr ⟨x + s, [], by simp only [parseValues, Values.get, h1]; rfl, by
            simp only [parseValuesA, Values.get, h2]; rfl, .inl rfl, fun h => absurd rfl h⟩
        | arr a => exact absurd h1 (hp q a rfl)
        | dict d => exact .inl ⟨.typeError, by simp, by simp only [parseValues, Values.get, h1]; rfl, by
            simp only [parseValuesA, Values.get, h2]; rfl⟩

theorem angles_sizeOne (x : ℝ) {t : List ℕ} (ht : t = [] ∨ t = [1] ∨ t = [1, 1]) : Angles ⟨t, [(x : ℂ)]⟩ !![x, x; x, x] := by
  rcases ht with rfl | rfl | rfl <;> constructor

theorem rotUnitaryA_sizeOne (a b c d : ℂ) (x : ℝ) {t : List ℕ} (ht : t = [] ∨ t = [1] ∨ t = [1, 1]) :
    rotUnitaryA (mat2 a b c d) ⟨t, [(x : ℂ)]⟩ = rotUnitary (mat2 a b c d) x := by
  rw [rotUnitaryA_angles (angles_sizeOne x ht), rotUnitary_mat2]
  simp [rotEntry, mat2]

theorem bcastDim_one (d : ℕ) : bcastDim d 1 = some d := by
  unfold bcastDim
  split_ifs with h1 h2 <;> simp_all

theorem bcast2_sizeOne {H : NDArray ℂ} (hw : H.WF) (h2 : H.ndim = 2) (z : ℂ) {t : List ℕ}
    (ht : t = [] ∨ t = [1] ∨ t = [1, 1]) : bcast2 (· * ·) H ⟨t, [z]⟩ = .ok ⟨H.shape, H.data.map (· * z)⟩ := by
  obtain ⟨m, k, hs⟩ : ∃ m k, H.shape = [m, k] := List.length_eq_two.1 h2
  have hb : bcastShape H.shape t = some H.shape := by
    rw [hs]
    rcases ht with rfl | rfl | rfl <;> simp [bcastShape, padShape, bcastDim_one]
  simp only [bcast2, hb]
  have hz : ∀ idx, (⟨t, [z]⟩ : NDArray ℂ).get (bcastIdx t idx) = z := by
    intro idx
    rcases ht with rfl | rfl | rfl
    · simp [bcastIdx, NDArray.get, ravel]
    · simp only [bcastIdx]
      generalize idx.drop (idx.length - [1].length) = l
      rcases l with _ | ⟨a, l⟩ <;> simp [NDArray.get, ravel]
    · simp only [bcastIdx]
      generalize idx.drop (idx.length - [1, 1].length) = l
      rcases l with _ | ⟨a, _ | ⟨b, l⟩⟩ <;> simp [NDArray.get, ravel]
  have hi : ∀ idx, List.Forall₂ (· < ·) idx H.shape → bcastIdx H.shape idx = idx := by
    intro idx hidx
    rw [hs] at hidx ⊢
    cases hidx with
    | cons h1 h =>
      cases h with
      | cons h2 h =>
        cases h
        simp only [bcastIdx, List.length_cons, List.length_nil, Nat.sub_self, List.drop_zero, List.zipWith_cons_cons,
          List.zipWith_nil_right]
        congr 1
        · split_ifs <;> omega
        · congr 1
          split_ifs <;> omega
  rw [ofFn_congr (g := fun idx => H.get idx * z) fun idx hidx => by rw [hz, hi idx hidx]]
  have := eq_ofFn_get hw
  conv_rhs => rw [this]
  simp [ofFn, List.map_map, Function.comp_def]

theorem unitaryA_sizeOne {values values' : Values} (h : values.SizeOne values') {g : Gate} (hg : g.ArrayOk values values') :
    g.unitaryA values' = g.unitary values := by
  by_cases hsp : g.sparse = true
  · simp only [Gate.unitaryA, Gate.unitary, hsp, if_true]
  have hsp : g.sparse = false := by simpa using hsp
  simp only [Gate.unitaryA, Gate.unitary, hsp, Bool.false_eq_true, if_false]
  cases hg with
  | primitive hc => rw [hc]
  | rotation hc hG hp =>
    rename_i p s M
    simp only [hc, Gate.generator, hG.generator, bind, Except.bind]
    rcases parse_sizeOne h hp s with ⟨e, -, h1, h2⟩ | ⟨x, t, h1, h2, ht, -⟩
    · simp only [h1, h2]
    · simp only [h1, h2]
      rw [if_neg (angles_sizeOne x ht).ndim, rotUnitaryA_sizeOne _ _ _ _ _ ht]
  | phase hc hp hp' =>
    rename_i p s
    simp only [hc, bind, Except.bind]
    rcases parse_sizeOne h hp s with ⟨e, -, h1, h2⟩ | ⟨x, t, h1, h2, ht, hq⟩
    · simp only [h1, h2]
    · have : t = [] := by
        by_contra hne
        obtain ⟨q, a, rfl, h3, h4⟩ := hq hne
        exact hne (h4 ▸ hp' q a rfl h3)
      subst this
      simp only [h1, h2, if_true, NDArray.get, ravel, List.getD_cons_zero]
  | hamEvo hc ht hH hH2 =>
    rename_i s H
    have hH' : values'.lookup "hamiltonian" = some (.arr H) := by
      rcases h.lookup "hamiltonian" with ⟨h1, -⟩ | ⟨v, v', h1, h2, hv⟩
      · rw [h1] at hH; cases hH
      · rw [h1] at hH
        cases hH
        cases hv
        exact h2
    have hp := parse_sizeOne h (p := .str "time_evolution") (fun q a e => by cases e; exact ht a) s
    simp only [parseValues, parseValuesA] at hp
    simp only [hc]
    rcases hp with ⟨e, -, h1, h2⟩ | ⟨x, t, h1, h2, ht, -⟩
    · simp only [bind, Except.bind] at h1 h2 ⊢
      rcases h3 : values.get "time_evolution" with e1 | v <;> rcases h4 : values'.get "time_evolution" with e2 | v' <;>
        simp only [h3, h4] at h1 h2 ⊢ <;> simp_all
    · simp only [bind, Except.bind] at h1 h2 ⊢
      rcases h3 : values.get "time_evolution" with e1 | v <;> rcases h4 : values'.get "time_evolution" with e2 | v' <;>
        simp only [h3, h4] at h1 h2 ⊢ <;> try (first | cases h1; done | cases h2; done)
      simp only [h1, h2, Values.get, hH, hH', NDArray.map1, List.map_cons, List.map_nil]
      rw [bcast2_sizeOne hH2.1 hH2.2 _ ht]

theorem mapM_congr_mem {α β : Type} {f g : α → Py β} {l : List α} (h : ∀ a ∈ l, f a = g a) : l.mapM f = l.mapM g := by
  induction l with
  | nil => rfl
  | cons a l ih => rw [List.mapM_cons, List.mapM_cons, h a (by simp), ih fun b hb => h b (by simp [hb])]

/-- **C77** (arrays of size one are numbers): replacing numbers in `values` by arrays of size one with at most two axes changes
no result and no error of `apply_gates`, with noise, on state vectors and density matrices, for gates and their daggers and with
every option; except that `PHASE` gates need arrays without axes (`C77_phase`). -/
theorem C77_size_one {values values' : Values} (h : values.SizeOne values') {gs : List Gate}
    (hg : ∀ g ∈ gs, g.ArrayOk values values') (state : State) {ot : OpType} (hot : ot ≠ .jacobian) (group merge : Bool) :
    applyGatesA so state (.list gs) values' ot group merge = applyGates so state (.list gs) values ot group merge := by
  have hop : ∀ g ∈ gs, g.operatorA ot values' = g.operator ot values := by
    intro g hmem
    cases ot with
    | unitary => exact unitaryA_sizeOne h (hg g hmem)
    | dagger => simp only [Gate.operatorA, Gate.operator, Gate.daggerOp, unitaryA_sizeOne h (hg g hmem)]
    | jacobian => exact absurd rfl hot
  have hop' : ∀ g ∈ if group = true then groupByIndex gs else gs, g.operatorA ot values' = g.operator ot values := by
    intro g hmem
    refine hop g ?_
    cases group
    · exact hmem
    · exact (groupByIndex_perm gs).mem_iff.1 hmem
  rw [applyGates_eq_of, applyGatesA]
  simp only [applyGatesOf, prepareSequenceReduce]
  rw [mapM_congr_mem hop']

/-- **C77** (`PHASE`): a `PHASE` gate whose parameter is an array with axes raises ValueError, also when its size is one. -/
theorem C77_phase {g : Gate} {p : String} {s : ℝ} (hc : g.cls = .phase (.str p) s) (hs : g.sparse = false) {values : Values}
    {θ : NDArray ℂ} (hp : values.lookup p = some (.arr θ)) (hθ : θ.shape ≠ []) (state : State) (group merge : Bool) :
    applyGatesA so state (.single g) values .unitary group merge = .error .valueError := by
  have hval : parseValuesA (.str p) s values = .ok (θ.map1 (· + (s : ℂ))) := by
    simp only [parseValuesA, Values.get, hp, bind, Except.bind, PyVal.addShiftA]
  have : g.operatorA .unitary values = .error .valueError := by
    simp only [Gate.operatorA, Gate.unitaryA, hs, Bool.false_eq_true, if_false, hc, hval, bind, Except.bind]
    rw [if_neg (show ¬ (θ.map1 (· + (s : ℂ))).shape = [] from hθ)]
  simp only [applyGatesA, applyGatesOf, prepareSequenceReduce, this, bind, Except.bind]

/-! ## Arrays of length two -/

/-- **C77** (no batching): `apply_gates` with a rotation whose parameter is the array `[x, y]` returns one state: the rotation
by `x` of the part of the state with target bit 0 plus the rotation by `y` of the part with target bit 1 (where the controls
are 1). -/
theorem C77_two {g : Gate} {p : String} (hc : g.cls = .parametric (.str p) 0) (hs : g.sparse = false)
    (hz : g.noise = none) {M : Matrix (Fin 2) (Fin 2) ℂ} (hG : RotGen g.generatorName M) {t : ℕ} (ht : g.target = [t])
    (hv : g.ValidOn n) {values : Values} {x y : ℝ} (hp : values.lookup p = some (.arr ⟨[2], [(x : ℂ), (y : ℂ)]⟩))
    {st : NDArray ℂ} (hst : IsKet n st) (group merge : Bool) :
    ∃ r, applyGatesA so (.vec st) (.single g) values .unitary group merge = .ok (.vec r) ∧ IsKet n r ∧
      ket n r = (gateMat n (matE (rotEntry M !![x, y; x, y])) [t] (ctlInts g.control)).mulVec (ket n st) := by
  obtain ⟨U, hU, hop, hent⟩ := C77_entries hc hs hG hp (.two x y)
  obtain ⟨r, e1, e2, e3⟩ := applyOperator_opMat (o := (U, g.target, g.control)) hst ⟨by rw [ht]; exact hop, hv.ctl, hv.dims⟩
  refine ⟨r, ?_, e2, ?_⟩
  · simp only [applyGatesA, applyGatesOf, prepareSequenceReduce, Gate.operatorA, hU]
    simp only [bind, Except.bind, hz, allNoiseless, List.all_cons, List.all_nil, Option.isNone_none, Bool.and_self,
      Bool.not_true, Bool.false_eq_true, if_false, reduceApply, List.foldlM_cons, List.foldlM_nil, e1]
    rfl
  · rw [e3, opMat, ht]
    have : (!![x, y; x, y] : Matrix (Fin 2) (Fin 2) ℝ).map (· + 0) = !![x, y; x, y] := by
      ext i j; simp
    rw [this] at hent
    rw [gateMat_congr (V := matE (rotEntry M !![x, y; x, y])) fun i j hi hj => ?_]
    exact (hent ⟨i, hi⟩ ⟨j, hj⟩).trans (matE_lt _ (show i < 2 from hi) (show j < 2 from hj)).symm

/-- **C77** (the result is not a state): `RX("a", 0)` with `a = [x, y]` keeps the norm of every one-qubit state only if the two
angles give the same rotation up to a sign. -/
theorem C77_two_norm (x y : ℝ) :
    (∀ st r, IsKet 1 st → applyGatesA so (.vec st) (.single (Gate.RX (.str "a") (.int 0)))
        [("a", .arr ⟨[2], [(x : ℂ), (y : ℂ)]⟩)] = .ok (.vec r) → normSq 1 r = normSq 1 st) ↔
      Real.sin ((x - y) / 2) = 0 := by
  have key : ∀ st, IsKet 1 st → ∃ r, applyGatesA so (.vec st) (.single (Gate.RX (.str "a") (.int 0)))
        [("a", .arr ⟨[2], [(x : ℂ), (y : ℂ)]⟩)] = .ok (.vec r) ∧ normSq 1 r = normSq 1 st
          - 2 * ((ket 1 st (lab1 0)).re * (ket 1 st (lab1 1)).im - (ket 1 st (lab1 0)).im * (ket 1 st (lab1 1)).re)
            * Real.sin ((x - y) / 2) := by
    intro st hst
    obtain ⟨r, h1, -, h3⟩ := C77_two (n := 1) so (g := Gate.RX (.str "a") (.int 0)) (p := "a") rfl rfl rfl .X (t := 0) rfl
      ⟨.inr (.inl rfl), by decide⟩ (values := [("a", .arr ⟨[2], [(x : ℂ), (y : ℂ)]⟩)]) rfl hst false true
    refine ⟨r, h1, ?_⟩
    have hr : ∀ i : Fin 2, ket 1 r (lab1 i) = rotEntry !![0, 1; 1, 0] !![x, y; x, y] i 0 * ket 1 st (lab1 0)
        + rotEntry !![0, 1; 1, 0] !![x, y; x, y] i 1 * ket 1 st (lab1 1) := by
      intro i
      rw [h3]
      have := mulVec_lab1 (matE (rotEntry !![0, 1; 1, 0] !![x, y; x, y])) (ket 1 st) i
      rw [matE_lt _ i.isLt (by norm_num), matE_lt _ i.isLt (by norm_num)] at this
      exact this
    simp only [normSq, sum_lab1, hr]
    generalize ket 1 st (lab1 0) = a
    generalize ket 1 st (lab1 1) = b
    have hx := Real.sin_sq_add_cos_sq (x / 2)
    have hy := Real.sin_sq_add_cos_sq (y / 2)
    rw [show (x - y) / 2 = x / 2 - y / 2 by ring, Real.sin_sub]
    simp only [rotEntry, Matrix.cons_val', Matrix.cons_val_zero, Matrix.cons_val_one, Matrix.of_apply, Matrix.cons_val_fin_one]
    generalize Real.sin (x / 2) = s0 at *
    generalize Real.sin (y / 2) = s1 at *
    generalize Real.cos (x / 2) = c0 at *
    generalize Real.cos (y / 2) = c1 at *
    simp only [Complex.sq_norm, Complex.normSq_apply]
    simp
    linear_combination (a.re ^ 2 + a.im ^ 2) * hx + (b.re ^ 2 + b.im ^ 2) * hy
  constructor
  · intro h
    obtain ⟨r, h1, h2⟩ := key ⟨[2], [1, Complex.I]⟩ ⟨rfl, rfl⟩
    rw [h ⟨[2], [1, Complex.I]⟩ r ⟨rfl, rfl⟩ h1] at h2
    simp [ket, lab1_bits, NDArray.get, ravel] at h2
    linarith
  · intro h st r hst hr
    obtain ⟨r', h1, h2⟩ := key st hst
    rw [hr] at h1
    cases h1
    rw [h2, h, mul_zero, sub_zero]

/-- Non-vacuity of `C77_size_one`: the circuit of tests/differentiation/test_gpsr.py with an array of shape `(1,)`, an
evolution, and a `PHASE` gate with a number. -/
example (x φ t : ℝ) : ∃ values values' : Values, values.SizeOne values' ∧ values ≠ values' ∧
    ∀ g ∈ [Gate.RX (.str "theta") (.int 0), Gate.RX (.str "theta") (.int 1), Gate.PHASE (.str "phi") (.int 0),
      Gate.HamiltonianEvolution (.tuple [0, 1])], g.ArrayOk values values' := by
  refine ⟨[("theta", .num x), ("phi", .num φ), ("time_evolution", .num t), ("hamiltonian", .arr (eye 4))],
    [("theta", .arr ⟨[1], [(x : ℂ)]⟩), ("phi", .num φ), ("time_evolution", .arr ⟨[1], [(t : ℂ)]⟩), ("hamiltonian", .arr (eye 4))],
    .cons ⟨rfl, .array x (.inr (.inl rfl))⟩ (.cons ⟨rfl, .refl _⟩ (.cons ⟨rfl, .array t (.inr (.inl rfl))⟩
      (.cons ⟨rfl, .refl _⟩ .nil))), by simp, ?_⟩
  intro g hg
  simp only [List.mem_cons, List.not_mem_nil, or_false] at hg
  rcases hg with rfl | rfl | rfl | rfl
  · exact .rotation rfl .X (by rintro q a h; cases h; simp [List.lookup])
  · exact .rotation rfl .X (by rintro q a h; cases h; simp [List.lookup])
  · exact .phase rfl (by rintro q a h; cases h; simp [List.lookup]) (by rintro q a h; cases h; simp [List.lookup])
  · exact .hamEvo rfl (by intro a; simp [List.lookup]) (H := eye 4) (by simp [List.lookup]) ⟨NDArray.wf_ofFn _ _, rfl⟩

/-- Non-vacuity of `C77_refused`: three angles. -/
example (x y z : ℝ) : ∃ e, applyGatesA so (.vec zero1) (.list [Gate.RY (.str "a") (.int 0)])
    [("a", .arr ⟨[3], [(x : ℂ), (y : ℂ), (z : ℂ)]⟩)] = .error e :=
  (C77_refused so (g := Gate.RY (.str "a") (.int 0)) (by simp) rfl rfl .Y (values := [("a", .arr ⟨[3], [(x : ℂ), (y : ℂ), (z : ℂ)]⟩)])
    rfl (by simp [NDArray.ndim]) ⟨3, by simp, by norm_num, by norm_num⟩).2 _ _ _

/-- Non-vacuity of `C77_phase`. -/
example (x : ℝ) : applyGatesA so (.vec zero1) (.single (Gate.PHASE (.str "a") (.int 0))) [("a", .arr ⟨[1], [(x : ℂ)]⟩)]
    = .error .valueError := C77_phase so rfl rfl rfl (by simp) _ _ _

/-- Non-vacuity of `C77_two_norm`: the angles `0` and `π` change norms. -/
example : Real.sin ((Real.pi - 0) / 2) ≠ 0 := by rw [sub_zero, Real.sin_pi_div_two]; norm_num

end Verif
