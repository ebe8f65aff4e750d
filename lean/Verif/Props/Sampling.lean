import Verif.Lemmas.Choice
import Verif.Lemmas.Small
import Verif.Props.Expectation

/-!
# Property theorems about sampling

C26, C27, C28, C46 (`sample`), C47, C52.
-/

namespace Verif
open NDArray
variable {n : ℕ} {values : Values} (so : SetOrder) (draw : Draw)

/-! ## C52 -/

theorem probs_list (f : List ℕ → ℝ) : ((allIdx (List.replicate n 2)).map f).length = 2 ^ n ∧
    (∀ b : Lab n, ((allIdx (List.replicate n 2)).map f)[binVal b.bits]? = some (f b.bits)) ∧
    ((allIdx (List.replicate n 2)).map f).sum = ∑ b : Lab n, f b.bits := by
  have hlen : ((allIdx (List.replicate n 2)).map f).length = 2 ^ n := by simp [length_allIdx]
  refine ⟨hlen, fun b => ?_, ?_⟩
  · have h := probs_getD (f := f) b
    rw [List.getD_eq_getElem?_getD] at h
    rw [List.getElem?_eq_getElem (by rw [hlen]; exact b.isBits_bits.lt)] at h ⊢
    exact congrArg some h
  · rw [sum_allIdx_two]

/-- **C52** (state vectors): `probabilities(state)` has `2^n` entries, in label order the probabilities `|ψ_b|²` of
the labels `b`; they are non-negative and sum to the squared norm. -/
theorem C52_probabilities_vec {a : NDArray ℂ} (ha : IsKet n a) : ∃ P : List ℝ, probabilities (.vec a) = .ok ⟨[2 ^ n], P⟩ ∧
    P.length = 2 ^ n ∧ (∀ b : Lab n, P[binVal b.bits]? = some (‖ket n a b‖ ^ 2)) ∧ (∀ x ∈ P, 0 ≤ x) ∧ P.sum = normSq n a := by
  obtain ⟨h1, h2, h3⟩ := probs_list (n := n) fun i => ‖a.get i‖ ^ 2
  refine ⟨_, probabilities_vec ha, h1, h2, ?_, h3⟩
  simp only [List.mem_map]
  rintro x ⟨i, -, rfl⟩
  positivity

/-- **C52, restricted to density matrices stored as a `2^n × 2^n` array** (the form that `sample` passes): the
probabilities are the real parts of the diagonal entries in order, and sum to the trace.  In the form in which states
are created and returned it is false (`C52_probabilities_dm_false`). -/
theorem C52_probabilities_dm_partial {ρ : DensityMatrix ℂ} (hs : ρ.array.shape = [2 ^ n, 2 ^ n]) :
    ∃ P : List ℝ, probabilities (.dm ρ) = .ok ⟨[2 ^ n], P⟩ ∧ P.length = 2 ^ n ∧
      (∀ i, i < 2 ^ n → P[i]? = some (entries ρ.array i i).re) ∧
      P.sum = (∑ i ∈ Finset.range (2 ^ n), entries ρ.array i i).re := by
  refine ⟨(List.range (2 ^ n)).map fun i => (entries ρ.array i i).re, ?_, by simp, fun i hi => ?_, ?_⟩
  · simp only [probabilities, NDArray.diagonal, hs, bind, Except.bind, pure, Except.pure, List.nil_append, min_self, ofFn]
    refine congrArg _ (congrArg (NDArray.mk _) ?_)
    have h1 : allIdx [2 ^ n] = (List.range (2 ^ n)).map fun i => [i] := by
      simp [allIdx, List.map_eq_flatMap]
    rw [h1, List.map_map, List.map_map]
    refine List.map_congr_left fun i _ => ?_
    simp [entries]
  · rw [List.getElem?_map, List.getElem?_range hi]; rfl
  · rw [← List.sum_toFinset _ List.nodup_range, List.toFinset_range, Complex.re_sum]

/-- **C52 is false of the code for density matrices as they are stored**: for every density matrix on `n ≥ 2` qubits
(an array with `2n` axes), `probabilities` does not return `2^n` numbers but an array with `2n - 1` axes. -/
theorem C52_probabilities_dm_false {ρ : DensityMatrix ℂ} (hn : 2 ≤ n) (hρ : IsDM n ρ) :
    ∃ P, probabilities (.dm ρ) = .ok P ∧ P.shape = List.replicate (2 * n - 1) 2 ∧ P.shape ≠ [2 ^ n] := by
  obtain ⟨m, rfl⟩ : ∃ m, n = m + 2 := ⟨n - 2, by omega⟩
  have hs : ρ.array.shape = 2 :: 2 :: List.replicate (m + (m + 2)) 2 := by
    rw [hρ.shape, ← List.replicate_succ, ← List.replicate_succ]; congr 1; omega
  obtain ⟨P, hP, he⟩ : ∃ P, probabilities (.dm ρ) = .ok P ∧ P.shape = List.replicate (m + (m + 2)) 2 ++ [2] := by
    simp only [probabilities, NDArray.diagonal, hs, bind, Except.bind, pure, Except.pure, min_self]
    exact ⟨_, rfl, rfl⟩
  refine ⟨P, hP, ?_, ?_⟩
  · rw [he, ← List.replicate_succ']; congr 1; omega
  · intro h
    have := congrArg List.length (he.symm.trans h)
    simp at this

/-- Non-vacuity: the density matrix of a two-qubit state. -/
example : IsDM 2 (densityMat (⟨[2, 2], [1, 0, 0, 0]⟩ : NDArray ℂ)) :=
  (densityMat_isDM (n := 2) ⟨rfl, by simp [NDArray.WF]⟩).1

/-! ## What `sample` computes -/

/-- The samples of `sample`: indices drawn from the probabilities of the output state. -/
theorem sample_eq {circuit : Op} {st out : State} (hr : run so circuit st values = .ok (some out)) (ho : out.On n)
    {k : ℤ} (hk : 1 ≤ k) : ∃ (P : List ℝ) (r : SampleResult), P.length = 2 ^ n ∧
      (∀ b : Lab n, P[binVal b.bits]? = some (out.prob n b)) ∧ (∀ x ∈ P, ∃ b, x = out.prob n b) ∧
      P.sum = ∑ b : Lab n, out.prob n b ∧
      sample so draw st circuit values k = .ok r ∧
      r.counts = (((bincount ((List.ofFn (draw k.toNat)).map (choiceIndex P))).zipIdx.filter fun c => 0 < c.1).map
        fun c => (formatBin n c.2, c.1)) ∧
      (circuit.returnsInput = false ∨ (∃ a, out = .vec a ∧ r.stateAfter = out) ∨
        ∃ ρ, out = .dm ρ ∧ r.stateAfter = .dm ⟨⟨[2 ^ n, 2 ^ n], ρ.array.data⟩⟩) ∧
      (circuit.returnsInput = false → r.stateAfter = st) := by
  have hmem : ∀ f : List ℕ → ℝ, ∀ x ∈ (allIdx (List.replicate n 2)).map f, ∃ b : Lab n, x = f b.bits := by
    intro f x hx
    obtain ⟨i, hi, rfl⟩ := List.mem_map.1 hx
    obtain ⟨b, rfl⟩ := bits_exists (mem_allIdx_two.1 hi)
    exact ⟨b, rfl⟩
  have hk' : ¬ k < 1 := by omega
  rw [run] at hr
  cases out with
  | vec a =>
    obtain ⟨h1, h2, h3⟩ := probs_list (n := n) fun i => ‖a.get i‖ ^ 2
    have hp : ∀ b : Lab n, (State.vec a).prob n b = ‖a.get b.bits‖ ^ 2 := fun b => prob_vec a b
    refine ⟨_, ⟨_, if circuit.returnsInput then .vec a else st⟩, h1, fun b => by rw [h2, hp], fun x hx => ?_, by rw [h3]; simp only [hp], ?_, rfl, ?_, ?_⟩
    · obtain ⟨b, hb⟩ := hmem _ x hx
      exact ⟨b, by rw [hb, hp]⟩
    · have hnq : numQubits (.vec a) = n := by simp [numQubits, numQubitsVec, show a.shape = _ from ho.shape]
      simp only [sample, hk', if_false, hr, bind, Except.bind, hnq, probabilities_vec (show IsKet n a from ho), sampleFromProbs,
        if_true, pure, Except.pure]
    · by_cases hi : circuit.returnsInput = true
      · exact .inr (.inl ⟨a, rfl, by simp [hi]⟩)
      · exact .inl (by simpa using hi)
    · intro hi; simp [hi]
  | dm ρ =>
    have hρ : IsDM n ρ := ho
    obtain ⟨h1, h2, h3⟩ := probs_list (n := n) fun i => (ρ.array.get (i ++ i)).re
    have hp : ∀ b : Lab n, (State.dm ρ).prob n b = (ρ.array.get (b.bits ++ b.bits)).re := fun b => rfl
    refine ⟨_, ⟨_, if circuit.returnsInput then .dm ⟨⟨[2 ^ n, 2 ^ n], ρ.array.data⟩⟩ else st⟩, h1, fun b => by rw [h2, hp],
      fun x hx => ?_, by rw [h3]; simp only [hp], ?_, rfl, ?_, ?_⟩
    · obtain ⟨b, hb⟩ := hmem _ x hx
      exact ⟨b, by rw [hb, hp]⟩
    · have hnq : numQubits (.dm ρ) = n := by simp [numQubits, numQubitsDM, hρ.shape]; omega
      have hres : ρ.array.reshape [2 ^ n, 2 ^ n] = .ok ⟨[2 ^ n, 2 ^ n], ρ.array.data⟩ := by
        rw [reshape, if_pos]; simp [hρ.shape, pow_add]
      simp only [sample, hk', if_false, hr, bind, Except.bind, hnq, hres, pure, Except.pure, probabilities_dm hρ.shape,
        sampleFromProbs, if_true]
    · by_cases hi : circuit.returnsInput = true
      · exact .inr (.inr ⟨ρ, rfl, by simp [hi]⟩)
      · exact .inl (by simpa using hi)
    · intro hi; simp [hi]

/-! ## C26 -/

/-- **C26** (refusal): `sample` raises ValueError when `n_shots < 1`. -/
theorem C26_refused (st : State) (circuit : Op) {k : ℤ} (hk : k < 1) :
    sample so draw st circuit values k = .error .valueError := by
  simp only [sample, hk, if_true]

/-- **C26**: with at least one shot, and a circuit that runs, `sample` returns a histogram: distinct keys, each the
bit string of a label of the `n` qubits (so of length `n`), positive counts that sum to `n_shots`.  This holds for all
non-negative random numbers and all states of non-negative total probability. -/
theorem C26_histogram (hn : 1 ≤ n) {circuit : Op} {st out : State} (hr : run so circuit st values = .ok (some out)) (ho : out.On n)
    (htot : 0 ≤ ∑ b : Lab n, out.prob n b) (hd : ∀ m j, 0 ≤ draw m j) {k : ℤ} (hk : 1 ≤ k) :
    ∃ r, sample so draw st circuit values k = .ok r ∧ (r.counts.map Prod.fst).Nodup ∧
      (∀ s c, (s, c) ∈ r.counts → s.length = n ∧ (∃ b : Lab n, s = b.str) ∧ 0 < c) ∧
      ((r.counts.map Prod.snd).sum : ℤ) = k := by
  obtain ⟨P, r, h1, h2, h3, h4, h5, h6, -, -⟩ := sample_eq so draw hr ho hk
  have hP : P ≠ [] := by rintro rfl; exact absurd h1.symm (by simp)
  obtain ⟨c1, c2, c3⟩ := histogram hn (fun i hi => by
    obtain ⟨u, hu, rfl⟩ := List.mem_map.1 hi
    obtain ⟨j, rfl⟩ := (List.mem_ofFn' _ _).1 hu
    rw [← h1]
    exact choiceIndex_lt hP (h4 ▸ htot) (hd _ j)) h6
  refine ⟨r, h5, c1, fun s c hm => ?_, ?_⟩
  · obtain ⟨b, rfl, -, hc⟩ := (c3 s c).1 hm
    refine ⟨?_, ⟨b, rfl⟩, hc⟩
    rw [Lab.str, String.length_ofList, List.length_map, b.isBits_bits.1]
  · rw [c2, List.length_map, List.length_ofFn]; omega

/-! ## C27 -/

/-- **C27** (Born rule): for a normalised output state there is one partition of the interval `[0, 1)` into sets `B b`,
one per label `b`, of measure equal to the probability of `b`, such that for every number of shots and all uniform
random numbers in `[0, 1)` the count of bit string `b` is the number of shots whose random number lies in `B b`. -/
theorem C27_born (hn : 1 ≤ n) {circuit : Op} {st out : State} (hr : run so circuit st values = .ok (some out)) (ho : out.On n)
    (hnorm : out.Normalised n) : ∃ B : Lab n → Set ℝ,
      (∀ b, MeasurableSet (B b) ∧ MeasureTheory.volume (B b) = ENNReal.ofReal (out.prob n b)) ∧
      (∀ u, u ∈ Set.Ico (0 : ℝ) 1 ↔ ∃ b, u ∈ B b) ∧ (∀ b b' u, u ∈ B b → u ∈ B b' → b = b') ∧
      (∀ b u, u ∈ B b → 0 < out.prob n b) ∧
      ∀ (draw : Draw) (k : ℤ), 1 ≤ k → (∀ j, draw k.toNat j ∈ Set.Ico (0 : ℝ) 1) →
        ∃ r, sample so draw st circuit values k = .ok r ∧
          ∀ b c, (b.str, c) ∈ r.counts ↔ c = Nat.card {j // draw k.toNat j ∈ B b} ∧ 0 < c := by
  obtain ⟨P, r, h1, h2, h3, h4, -, -⟩ := sample_eq so (fun _ _ => 0) hr ho (le_refl 1)
  have hpos : ∀ x ∈ P, 0 ≤ x := fun x hx => by obtain ⟨b, rfl⟩ := h3 x hx; exact hnorm.1 b
  have hsum : P.sum = 1 := h4.trans hnorm.2
  have hs : 0 < P.sum := by rw [hsum]; exact one_pos
  have hP : P ≠ [] := by rintro rfl; simp at hs
  have hget : ∀ b : Lab n, P.getD (binVal b.bits) 0 = out.prob n b := fun b => by
    rw [List.getD_eq_getElem?_getD, h2]; rfl
  refine ⟨fun b => {u | u ∈ Set.Ico (0 : ℝ) 1 ∧ choiceIndex P u = binVal b.bits}, fun b => ?_, fun u => ?_, ?_, ?_, ?_⟩
  · refine ⟨choiceIndex_measurable hpos hs _, ?_⟩
    rw [choiceIndex_volume hpos hs (by rw [h1]; exact b.isBits_bits.lt), hget, hsum, div_one]
  · constructor
    · intro hu
      have hlt := choiceIndex_lt hP hs.le hu.1
      rw [h1] at hlt
      obtain ⟨l, hl, e⟩ := exists_bits hlt
      obtain ⟨b, hb⟩ := bits_exists hl
      exact ⟨b, hu, by rw [hb, e]⟩
    · rintro ⟨b, hu, -⟩; exact hu
  · rintro b b' u ⟨-, h⟩ ⟨-, h'⟩
    exact Lab.bits_injective (binVal_inj b.isBits_bits.2 b'.isBits_bits.2 (by rw [b.isBits_bits.1, b'.isBits_bits.1])
      (h.symm.trans h'))
  · rintro b u ⟨hu, h⟩
    rw [← hget, ← h]
    exact choiceIndex_pos hpos hs hu.1 hu.2
  · intro draw k hk hd
    obtain ⟨P', r, k1, k2, k3, k4, k5, k6, -⟩ := sample_eq so draw hr ho hk
    obtain rfl : P = P' := by
      refine List.ext_getElem? fun i => ?_
      by_cases hi : i < 2 ^ n
      · obtain ⟨l, hl, rfl⟩ := exists_bits hi
        obtain ⟨b, rfl⟩ := bits_exists hl
        rw [h2, k2]
      · rw [List.getElem?_eq_none (by omega), List.getElem?_eq_none (by omega)]
    obtain ⟨c1, c2, c3⟩ := histogram hn (fun i hi => by
      obtain ⟨u, hu, rfl⟩ := List.mem_map.1 hi
      obtain ⟨j, rfl⟩ := (List.mem_ofFn' _ _).1 hu
      rw [← h1]
      exact choiceIndex_lt hP hs.le (hd j).1) k6
    refine ⟨r, k5, fun b c => ?_⟩
    have hcard : ((List.ofFn (draw k.toNat)).map (choiceIndex P)).count (binVal b.bits)
        = Nat.card {j // draw k.toNat j ∈ {u | u ∈ Set.Ico (0 : ℝ) 1 ∧ choiceIndex P u = binVal b.bits}} := by
      have : ∀ j, (draw k.toNat j ∈ {u | u ∈ Set.Ico (0 : ℝ) 1 ∧ choiceIndex P u = binVal b.bits}) ↔
          choiceIndex P (draw k.toNat j) = binVal b.bits := fun j => ⟨fun h => h.2, fun h => ⟨hd j, h⟩⟩
      simp only [this]
      rw [Nat.card_eq_fintype_card, Fintype.card_subtype, List.ofFn_eq_map, List.map_map, List.count_eq_countP, List.countP_map,
        List.countP_eq_length_filter]
      change _ = Multiset.card (Multiset.filter _ (↑(List.finRange k.toNat) : Multiset (Fin k.toNat)))
      rw [Multiset.filter_coe, Multiset.coe_card]
      refine congrArg List.length (List.filter_congr fun j _ => ?_)
      simp [Bool.beq_eq_decide_eq]
    rw [c3]
    constructor
    · rintro ⟨b', hs', rfl, hc⟩
      obtain rfl := Lab.str_injective hs'
      exact ⟨hcard, hc⟩
    · rintro ⟨rfl, hc⟩
      exact ⟨b, rfl, hcard.symm, hc⟩

/-- Non-vacuity of C26 and C27: a circuit that runs, with a normalised output state; a partition into two sets of
measures `9/25` and `16/25` results. -/
example : (State.vec ⟨[2], [3 / 5, 4 / 5]⟩).Normalised 1 ∧ (State.vec ⟨[2], [3 / 5, 4 / 5]⟩).On 1 ∧
    run so (mkSeq []) (.vec ⟨[2], [3 / 5, 4 / 5]⟩) [] = .ok (some (.vec ⟨[2], [3 / 5, 4 / 5]⟩)) := by
  refine ⟨⟨fun b => by rw [prob_vec]; positivity, ?_⟩, ⟨rfl, rfl⟩, by simp [run, mkSeq, Op.call, Op.callSeq]⟩
  rw [sum_lab1, prob_vec, prob_vec, ket, ket, lab1_bits, lab1_bits]
  norm_num [NDArray.get, ravel]

/-! ## C28 -/

/-- **C28** (`product_state`): `product_state(s)` for a bit string `s` is the unit vector at the label `s`. -/
theorem C28_product_state (b : Lab n) : ∃ a, productState b.str = .ok a ∧ IsKet n a ∧
    ∀ x, ket n a x = if x = b then 1 else 0 := by
  have hm : (b.bits.map fun d => if d = 0 then '0' else '1').mapM pyIntOfChar = .ok b.bits := by
    have : ∀ l : List ℕ, (∀ x ∈ l, x < 2) → (l.map fun d => if d = 0 then '0' else '1').mapM pyIntOfChar = .ok l := by
      intro l
      induction l with
      | nil => intro _; rfl
      | cons x xs ih =>
        intro h
        have hx := h x (by simp)
        obtain rfl | rfl : x = 0 ∨ x = 1 := by omega
        · rw [List.map_cons, List.mapM_cons, ih fun y hy => h y (by simp [hy])]; rfl
        · rw [List.map_cons, List.mapM_cons, ih fun y hy => h y (by simp [hy])]; rfl
    exact this _ b.isBits_bits.2
  have hp : productState b.str = .ok (basisKet ℂ b) := by
    simp only [productState, Lab.str, String.toList_ofList, hm, bind, Except.bind, pure, Except.pure, List.length_map, b.isBits_bits.1]
    rfl
  refine ⟨_, hp, basisKet_isKet b, fun x => ?_⟩
  rw [ket_basisKet, Pi.single_apply]

theorem eq_basisKet {a : NDArray ℂ} {b : Lab n} (ha : IsKet n a) (h : ∀ x, ket n a x = if x = b then 1 else 0) : a = basisKet ℂ b :=
  ket_ext ha (basisKet_isKet b) (by funext x; rw [h, ket_basisKet, Pi.single_apply])

theorem Lab.flip_bit (b : Lab n) {q r : ℕ} (hr : r < n) : (b.flip q).bit r = if r = q then 1 - b.bit r else b.bit r := by
  simp only [Lab.bit, hr, dif_pos, Lab.flip]
  split
  · have : ∀ i : Fin 2, (1 - i : Fin 2).val = 1 - i.val := by decide
    exact this _
  · rfl

/-- **C28** (`X`): running `X(q)` on the unit vector of the label `b` gives the unit vector of the label with exactly
bit `q` flipped. -/
theorem C28_flip (b : Lab n) {q : ℕ} (hq : q < n) {a : NDArray ℂ} (ha : productState b.str = .ok a) :
    ∃ r, run so (mkSeq [.prim (Gate.X (.int q))]) (.vec a) values = .ok (some (.vec r)) ∧
      productState (b.flip q).str = .ok r := by
  obtain ⟨a', h1, h2, h3⟩ := C28_product_state b
  obtain rfl : a' = a := by rw [h1] at ha; cases ha; rfl
  obtain ⟨c, k1, k2, k3⟩ := C28_product_state (b.flip q)
  have hX : (Gate.X (.int q)).Std n values .X :=
    ⟨.X _ _ _, rfl, ⟨.inr (.inl rfl), ⟨by simp [Gate.X, mkGate, ctlInts, parseControl, parseTarget], by
      simp [Gate.X, mkGate, ctlInts, parseControl, parseTarget, hq]⟩⟩⟩
  obtain ⟨r, r1, r2, r3⟩ := callSeq_means so h2 (.cons (.gate (StdLeaf.any ⟨_, hX, rfl, rfl⟩)) .nil)
  refine ⟨r, r1, ?_⟩
  rw [k1, ket_ext k2 r2]
  funext x
  rw [r3, k3, one_mul]
  change _ = (gateMat n StdGate.X.mat [q] []).mulVec _ x
  rw [Matrix.mulVec, dotProduct]
  simp only [h3, mul_ite, mul_one, mul_zero, Finset.sum_ite_eq', Finset.mem_univ, if_true]
  rw [gateMat_nil_apply]
  have hidx : ∀ y : Lab n, y.idx [q] = y.bit q := fun y => by simp [Lab.idx, binVal]
  rw [hidx, hidx]
  by_cases hx : x = b.flip q
  · subst hx
    rw [if_pos rfl, if_pos, Lab.flip_bit b hq, if_pos rfl]
    · have := Lab.bit_lt_two b q
      obtain h | h : b.bit q = 0 ∨ b.bit q = 1 := by omega
      · rw [h]; simp [StdGate.mat, matE]
      · rw [h]; simp [StdGate.mat, matE]
    · rw [Lab.agreeOff_iff]
      intro r hr hrq
      rw [Lab.flip_bit b hr, if_neg (by simpa using hrq)]
  · rw [if_neg hx]
    by_cases ho : Lab.AgreeOff [q] x b
    · rw [if_pos ho]
      have hne : x.bit q ≠ 1 - b.bit q := by
        intro he
        apply hx
        refine Lab.ext_bit fun r hr => ?_
        rw [Lab.flip_bit b hr]
        split
        · next h => subst h; exact he
        · next h => exact (Lab.agreeOff_iff.1 ho) r hr (by simpa using h)
      have h1 := Lab.bit_lt_two x q
      have h2 := Lab.bit_lt_two b q
      obtain h | h : b.bit q = 0 ∨ b.bit q = 1 := by omega
      · have : x.bit q = 0 := by omega
        rw [h, this]; simp [StdGate.mat, matE]
      · have : x.bit q = 1 := by omega
        rw [h, this]; simp [StdGate.mat, matE]
    · rw [if_neg ho]

/-- **C28** (`sample`): when a circuit outputs `product_state(s)`, every shot returns the key `s`: the counter is
`{s: n_shots}`. -/
theorem C28_sample (hn : 1 ≤ n) (b : Lab n) {a : NDArray ℂ} (ha : productState b.str = .ok a) {circuit : Op} {st : State}
    (hr : run so circuit st values = .ok (some (.vec a))) {k : ℤ} (hk : 1 ≤ k)
    (hd : ∀ j, draw k.toNat j ∈ Set.Ico (0 : ℝ) 1) :
    ∃ r, sample so draw st circuit values k = .ok r ∧ r.counts = [(b.str, k.toNat)] := by
  obtain ⟨a', h1, h2, h3⟩ := C28_product_state b
  obtain rfl : a' = a := by rw [h1] at ha; cases ha; rfl
  have hprob : ∀ x, (State.vec a').prob n x = if x = b then 1 else 0 := by
    intro x; rw [prob_vec, h3]; split <;> simp
  have hnorm : (State.vec a').Normalised n :=
    ⟨fun x => by rw [hprob]; split <;> norm_num, by simp [hprob]⟩
  obtain ⟨B, b1, b2, b3, b4, b5⟩ := C27_born so hn hr (out := .vec a') h2 hnorm
  obtain ⟨r, r1, r2⟩ := b5 draw k hk hd
  obtain ⟨r', q1, q2, q3, q4⟩ := C26_histogram so (fun m j => max 0 (draw m j)) hn hr (out := .vec a') h2
    (by rw [hnorm.2]; exact zero_le_one) (fun m j => le_max_left _ _) hk
  have hsame : sample so (fun m j => max 0 (draw m j)) st circuit values k = sample so draw st circuit values k := by
    have : (fun j => max 0 (draw k.toNat j)) = draw k.toNat := by
      funext j; exact max_eq_right (hd j).1
    simp only [sample, this]
  rw [hsame] at q1
  obtain rfl : r = r' := by rw [r1] at q1; cases q1; rfl
  refine ⟨r, r1, ?_⟩
  have hall : ∀ x ∈ r.counts, x.1 = b.str := by
    rintro ⟨s, c⟩ hx
    obtain ⟨-, ⟨b', rfl⟩, hc⟩ := q3 s c hx
    obtain ⟨he, -⟩ := (r2 b' c).1 hx
    rw [he, Nat.card_pos_iff] at hc
    obtain ⟨⟨j, hj⟩⟩ := hc.1
    have := b4 _ _ hj
    rw [hprob] at this
    by_cases hb : b' = b
    · rw [hb]
    · rw [if_neg hb] at this; exact absurd this (lt_irrefl _)
  match hcnt : r.counts, hall, q2, q4 with
  | [], _, _, q4 => simp at q4; omega
  | [(s, c)], hall, _, q4 =>
    have h : s = b.str := hall (s, c) (by simp)
    subst h
    simp only [List.map_cons, List.map_nil, List.sum_cons, List.sum_nil, add_zero] at q4
    rw [← q4]; rfl
  | x :: y :: t, hall, q2, _ =>
    exfalso
    have hx := hall x (by simp)
    have hy := hall y (by simp)
    simp [hx, hy] at q2

/-- Non-vacuity of C28: a label of three qubits, and its bit string. -/
example : Lab.str (n := 3) ![0, 1, 1] = "011" := by decide

/-! ## C47 -/

mutual
theorem returnsInput_call (st : Option State) : ∀ (o : Op), o.returnsInput = true → ∀ r, o.call so values st = .ok r → r = st
  | .prim g, h => by simp [Op.returnsInput] at h
  | .comp .seq ops, h => by
    intro r hr
    simp only [Op.returnsInput] at h
    simp only [Op.call] at hr
    exact allReturnInput_call st ops h r hr
  | .comp (.circ k fs) ops, h => by
    intro r hr
    simp only [Op.returnsInput] at h
    simp only [Op.call] at hr
    exact allReturnInput_call st ops h r hr
  | .comp (.scale p) ops, h => by simp [Op.returnsInput] at h
  | .comp .add [o], h => by
    intro r hr
    simp only [Op.returnsInput] at h
    simp only [Op.call, Op.callList, pyReduce, List.foldlM_nil, bind, Except.bind] at hr
    refine returnsInput_call st o h r ?_
    rcases ho : o.call so values st with e | q
    · simp [ho] at hr
    · simpa [ho, pure, Except.pure] using hr
  | .comp .add [], h => by simp [Op.returnsInput] at h
  | .comp .add (_ :: _ :: _), h => by simp [Op.returnsInput] at h
  | .comp .obs ops, h => by simp [Op.returnsInput] at h
theorem allReturnInput_call (st : Option State) : ∀ (ops : List Op), Op.allReturnInput ops = true →
    ∀ r, Op.callSeq so values ops st = .ok r → r = st
  | [], _ => by intro r hr; simpa [Op.callSeq] using hr.symm
  | o :: os, h => by
    intro r hr
    simp only [Op.allReturnInput, Bool.and_eq_true] at h
    simp only [Op.callSeq, bind, Except.bind] at hr
    rcases ho : o.call so values st with e | q
    · simp [ho] at hr
    · simp only [ho] at hr
      obtain rfl := returnsInput_call st o h.1 q ho
      exact allReturnInput_call q os h.2 r hr
end

mutual
theorem plain_returnsInput {o : Op} : o.Plain → o.returnsInput = decide (o.gates = [])
  | .prim g => by simp [Op.returnsInput, Op.gates]
  | .seq h => by simp only [Op.returnsInput, Op.gates]; exact plainList_returnInput h
  | .circ k fs h => by simp only [Op.returnsInput, Op.gates]; exact plainList_returnInput h
theorem plainList_returnInput {os : List Op} : Op.PlainList os → Op.allReturnInput os = decide (Op.gatesList os = [])
  | .nil => by simp [Op.allReturnInput, Op.gatesList]
  | .cons h hs => by
    simp only [Op.allReturnInput, Op.gatesList, plain_returnsInput h, plainList_returnInput hs, List.append_eq_nil_iff,
      Bool.decide_and]
end

/-- **C47, restricted to state vectors**: whatever the circuit, `sample` leaves the caller's array unchanged. -/
theorem C47_vec_partial {a : NDArray ℂ} {circuit : Op} {k : ℤ} {r : SampleResult}
    (h : sample so draw (.vec a) circuit values k = .ok r) : r.stateAfter = .vec a := by
  simp only [sample] at h
  split at h
  · simp at h
  · simp only [bind, Except.bind] at h
    rcases hc : circuit.call so values (some (.vec a)) with e | out
    · simp [hc] at h
    · simp only [hc] at h
      by_cases hi : circuit.returnsInput = true
      · obtain rfl := returnsInput_call so (some (.vec a)) circuit hi out hc
        simp only [hi, if_true] at h
        split at h
        · simp at h
        · split at h
          · simp at h
          · simp only [pure, Except.pure, Except.ok.injEq] at h
            rw [← h]
      · cases out with
        | none => simp at h
        | some out =>
          simp only [hi, Bool.false_eq_true, if_false] at h
          have key : ∀ (x : Py State) (f : State → Py (NDArray ℝ)) (g : NDArray ℝ → Py (List (String × ℕ))),
              (x >>= fun s => f s >>= fun p => g p >>= fun c => (pure ⟨c, .vec a⟩ : Py SampleResult)) = .ok r →
                r.stateAfter = .vec a := by
            intro x f g hx
            rcases x with e | x
            · cases hx
            · simp only [bind, Except.bind] at hx
              rcases hf : f x with e | p
              · simp [hf] at hx
              · simp only [hf] at hx
                rcases hg : g p with e | c
                · simp [hg] at hx
                · simp only [hg, pure, Except.pure, Except.ok.injEq] at hx
                  rw [← hx]
          cases out with
          | vec o =>
            exact key (.ok (.vec o)) probabilities
              (fun p => sampleFromProbs p (numQubits (.vec o)) (List.ofFn (draw k.toNat))) h
          | dm ρ =>
            refine key (ρ.array.reshape [2 ^ numQubits (.dm ρ), 2 ^ numQubits (.dm ρ)] >>= fun r => pure (State.dm ⟨r⟩)) probabilities
              (fun p => sampleFromProbs p (numQubits (.dm ρ)) (List.ofFn (draw k.toNat))) ?_
            rw [← h]
            dsimp only
            rcases ρ.array.reshape [2 ^ numQubits (.dm ρ), 2 ^ numQubits (.dm ρ)] with e | x <;> rfl

/-- **C47, restricted to circuits with at least one gate**: `sample` leaves the caller's state unchanged, state vectors
and density matrices. -/
theorem C47_gates_partial {circuit : Op} (hp : circuit.Plain) (hg : circuit.gates ≠ []) {st out : State}
    (hr : run so circuit st values = .ok (some out)) (ho : out.On n) {k : ℤ} (hk : 1 ≤ k) :
    ∃ r, sample so draw st circuit values k = .ok r ∧ r.stateAfter = st := by
  obtain ⟨P, r, -, -, -, -, h5, -, -, h8⟩ := sample_eq so draw hr ho hk
  exact ⟨r, h5, h8 (by rw [plain_returnsInput hp]; simp [hg])⟩

/-- **C47 is false of the code**: sampling a density matrix on `n ≥ 2` qubits with a circuit without gates reshapes the
caller's object to `2^n × 2^n`, and a second call with the same object raises TypeError. -/
theorem C47_empty_circuit (hn : 2 ≤ n) {circuit : Op} (hp : circuit.Plain) (hg : circuit.gates = []) {ρ : DensityMatrix ℂ}
    (hρ : IsDM n ρ) {k : ℤ} (hk : 1 ≤ k) :
    ∃ r ρ', sample so draw (.dm ρ) circuit values k = .ok r ∧ r.stateAfter = .dm ρ' ∧ ρ'.array.shape = [2 ^ n, 2 ^ n] ∧
      ρ' ≠ ρ ∧ sample so draw r.stateAfter circuit values k = .error .typeError := by
  have hcall : ∀ s, circuit.call so values (some s) = .ok (some s) := fun s => by
    rw [hp.call so, hg]; simp [Op.callSeq]
  obtain ⟨P, r, -, -, -, -, h5, -, h7, -⟩ := sample_eq so draw (values := values) (st := .dm ρ) (out := .dm ρ) (hcall _) hρ hk
  have hi : circuit.returnsInput = true := by rw [plain_returnsInput hp]; simp [hg]
  rcases h7 with h | ⟨a, h, -⟩ | ⟨ρ', h, h'⟩
  · rw [hi] at h; cases h
  · cases h
  · cases h
    refine ⟨r, _, h5, h', rfl, ?_, ?_⟩
    · intro e
      have := congrArg (fun d : DensityMatrix ℂ => d.array.shape.length) e
      simp [hρ.shape] at this
      omega
    · rw [h']
      have hk' : ¬ k < 1 := by omega
      have h2n : 2 ^ n * 2 ^ n ≠ 2 * 2 := by
        have : 2 ^ 2 ≤ 2 ^ n := Nat.pow_le_pow_right (by norm_num) hn
        nlinarith
      simp only [sample, hk', if_false, hcall, bind, Except.bind, numQubits, numQubitsDM, List.length_cons, List.length_nil]
      norm_num
      rw [reshape, if_neg]
      intro e; apply h2n; simp at e; omega

/-- Non-vacuity: the empty circuit and a density matrix on two qubits. -/
example : (mkCircuit 2 (.list [])).Plain ∧ (mkCircuit 2 (.list [])).gates = [] ∧
    IsDM 2 (densityMat (⟨[2, 2], [1, 0, 0, 0]⟩ : NDArray ℂ)) :=
  ⟨.circ _ _ .nil, by simp [mkCircuit, OpArg.toList, Op.gates, Op.gatesList],
    (densityMat_isDM (n := 2) ⟨rfl, by simp [NDArray.WF]⟩).1⟩

/-! ## C46 (`sample`) -/

/-- **C46, restricted to `sample`**: a circuit without gates is sampled from the input state itself: the histogram is
drawn from the probabilities of the input state. -/
theorem C46_sample_partial (hn : 1 ≤ n) {circuit : Op} (h : circuit.Plain) (he : circuit.gates = []) {st : State} (hst : st.On n)
    (hnorm : st.Normalised n) : ∃ B : Lab n → Set ℝ,
      (∀ b, MeasurableSet (B b) ∧ MeasureTheory.volume (B b) = ENNReal.ofReal (st.prob n b)) ∧
      ∀ (draw : Draw) (k : ℤ), 1 ≤ k → (∀ j, draw k.toNat j ∈ Set.Ico (0 : ℝ) 1) →
        ∃ r, sample so draw st circuit values k = .ok r ∧
          ∀ b c, (b.str, c) ∈ r.counts ↔ c = Nat.card {j // draw k.toNat j ∈ B b} ∧ 0 < c := by
  have hr : run so circuit st values = .ok (some st) := by
    rw [run, h.call so, he]; simp [Op.callSeq]
  obtain ⟨B, b1, -, -, -, b5⟩ := C27_born so hn hr hst hnorm
  exact ⟨B, b1, b5⟩

end Verif
