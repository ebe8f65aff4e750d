import Verif.Props.Composite
import Verif.Props.States
import Verif.Props.Sampling
import Verif.Props.Sparse

/-! # Arguments that are refused: C17, C19, C26, C30, C50 -/

set_option autoImplicit false

namespace Verif
open NDArray

/-! ## C30: `product_state` on arbitrary strings -/

theorem mapM_pyInt (l : List Char) : l.mapM pyIntOfChar
    = if ∀ c ∈ l, c.isDigit then .ok (l.map fun c => c.toNat - '0'.toNat) else .error .valueError := by
  induction l with
  | nil => rfl
  | cons c l ih =>
    rw [List.mapM_cons, ih]
    rcases hc : c.isDigit with _ | _
    · simp [pyIntOfChar, hc]; rfl
    · by_cases hl : ∀ c ∈ l, c.isDigit
      · simp only [pyIntOfChar, hc, if_true, if_pos hl, List.forall_mem_cons, true_and]; rfl
      · simp only [pyIntOfChar, hc, if_true, if_neg hl, List.forall_mem_cons, true_and]; rfl

/-- **C30** (other characters): `product_state` refuses every string with a character that is not a digit, and only
those. -/
theorem C30_other_characters (s : String) :
    productState s = .error .valueError ↔ ∃ c ∈ s.toList, c.isDigit = false := by
  rw [productState]
  simp only [mapM_pyInt]
  by_cases h : ∀ c ∈ s.toList, c.isDigit
  · simp only [if_pos h, bind, Except.bind, pure, Except.pure, reduceCtorEq, false_iff, not_exists, not_and]
    intro c hc; simp [h c hc]
  · simp only [if_neg h, bind, Except.bind, true_iff]
    push_neg at h
    obtain ⟨c, hc, h⟩ := h
    exact ⟨c, hc, by simpa using h⟩

example : ∃ c ∈ "0a1".toList, c.isDigit = false := ⟨'a', by decide, by decide⟩

/-- **C30** (digits): on every string of digits, `product_state` returns an array on as many qubits as there are characters;
it is normalised if all digits are 0 or 1, and otherwise zero. -/
theorem C30_digits {s : String} (h : ∀ c ∈ s.toList, c.isDigit) :
    ∃ a, productState s = .ok a ∧ IsKet s.toList.length a ∧
      normSq s.toList.length a = if ∀ c ∈ s.toList, c = '0' ∨ c = '1' then 1 else 0 := by
  set n := s.toList.length with hn
  set ind := s.toList.map fun c => c.toNat - '0'.toNat with hind
  have hlen : ind.length = n := by simp [hind, hn]
  refine ⟨ofFn (List.replicate n 2) fun idx => if idx = ind then 1 else 0, ?_, ⟨rfl, wf_ofFn _ _⟩, ?_⟩
  · simp only [productState, mapM_pyInt, if_pos h, bind, Except.bind, pure, Except.pure]
    rfl
  · have hk : ∀ b : Lab n, ket n (ofFn (List.replicate n 2) fun idx => if idx = ind then (1 : ℂ) else 0) b
        = if b.bits = ind then 1 else 0 := by
      intro b
      rw [ket, get_ofFn (forall₂_replicate.2 b.isBits_bits)]
    simp only [normSq, hk]
    split_ifs with hd
    · have hb : IsBits n ind := ⟨hlen, by
        rw [hind]
        intro x hx
        obtain ⟨c, hc, rfl⟩ := List.mem_map.1 hx
        rcases hd c hc with rfl | rfl <;> decide⟩
      obtain ⟨b, hb⟩ : ∃ b : Lab n, b.bits = ind := ⟨Lab.ofBits n ind, Lab.bits_ofBits hb⟩
      rw [Finset.sum_eq_single b]
      · simp [hb]
      · intro x _ hx
        rw [if_neg fun e => hx (Lab.bits_injective (e.trans hb.symm))]
        simp
      · simp
    · refine Finset.sum_eq_zero fun b _ => ?_
      rw [if_neg]
      · simp
      · intro e
        apply hd
        intro c hc
        have : c.toNat - '0'.toNat ∈ b.bits := by rw [e, hind]; exact List.mem_map.2 ⟨c, hc, rfl⟩
        have h2 := b.isBits_bits.2 _ this
        have h3 := h c hc
        simp only [Char.isDigit, Bool.and_eq_true, decide_eq_true_eq, ge_iff_le, UInt32.le_iff_toNat_le] at h3
        have h4 : c.toNat = 48 ∨ c.toNat = 49 := by
          have e1 : '0'.toNat = 48 := rfl
          have e2 : c.val.toNat = c.toNat := rfl
          have e3 : '0'.val.toNat = 48 := rfl
          omega
        rcases h4 with h4 | h4
        · exact .inl (Char.toNat_inj.1 h4)
        · exact .inr (Char.toNat_inj.1 h4)

/-! ## C26: distributions of the wrong size -/

/-- **C26** (size of the distribution): `sample_from_probs` accepts a distribution on `n_qubits` qubits just when it has
`2 ** n_qubits` entries in one axis. -/
theorem C26_distribution_size (probs : NDArray ℝ) (n : ℕ) (us : List ℝ) :
    (∃ r, sampleFromProbs probs n us = .ok r) ↔ probs.shape = [2 ^ n] := by
  by_cases h : probs.shape = [2 ^ n]
  · simp [sampleFromProbs, h]
  · simp [sampleFromProbs, h]

/-! ## C17: operations whose result is no state vector -/

section
variable (so : SetOrder) {values : Values}

theorem fold_addStates {xs : List (Py (Option State))} {a r : Option State}
    (h : xs.foldlM (fun acc y => do Op.addStates acc (← y)) a = .ok r) :
    (∀ x ∈ xs, ∃ v, x = .ok (some (.vec v))) ∧ (xs ≠ [] → ∃ v, a = some (.vec v)) := by
  induction xs generalizing a with
  | nil => simp
  | cons x xs ih =>
    rw [List.foldlM_cons] at h
    rcases x with e | y
    · cases h
    · rcases a with _ | ⟨v⟩ | ρ
      · rcases y with _ | ⟨w⟩ | σ <;> cases h
      · rcases y with _ | ⟨w⟩ | σ
        · cases h
        · rcases hvw : v.add w with e | u
          · simp only [bind, Except.bind, Op.addStates, hvw] at h; cases h
          · simp only [bind, Except.bind, Op.addStates, hvw, pure, Except.pure] at h
            obtain ⟨h1, -⟩ := ih h
            exact ⟨by simpa using h1, fun _ => ⟨v, rfl⟩⟩
        · cases h
      · rcases y with _ | ⟨w⟩ | σ <;> cases h

/-- **C17** (density matrices in sums): a sum of two or more operations one of which does not return a state vector, but a
density matrix, nothing or an error, is refused. -/
theorem C17_add_refused {ops : List Op} (hl : 2 ≤ ops.length) {o : Op} (ho : o ∈ ops) {st : Option State}
    (h : ∀ v, o.call so values st ≠ .ok (some (.vec v))) :
    ∃ e, (mkAdd (.list ops)).call so values st = .error e := by
  rcases hc : (mkAdd (.list ops)).call so values st with e | r
  · exact ⟨e, rfl⟩
  · exfalso
    simp only [mkAdd, OpArg.toList, Op.call] at hc
    have hmap : ∀ os : List Op, Op.callList so values os st = os.map fun o => o.call so values st := by
      intro os
      induction os with
      | nil => simp [Op.callList]
      | cons o os ih => simp [Op.callList, ih]
    obtain ⟨p, q, rest, rfl⟩ : ∃ p q rest, ops = p :: q :: rest := by
      match ops, hl with
      | p :: q :: rest, _ => exact ⟨p, q, rest, rfl⟩
    rw [hmap, List.map_cons, pyReduce] at hc
    rcases hp : p.call so values st with e | a
    · rw [hp] at hc; cases hc
    · rw [hp] at hc
      obtain ⟨h1, h2⟩ := fold_addStates hc
      rcases List.mem_cons.1 ho with rfl | ho
      · obtain ⟨v, rfl⟩ := h2 (by simp)
        exact h v hp
      · obtain ⟨v, hv⟩ := h1 _ (List.mem_map.2 ⟨o, ho, rfl⟩)
        exact h v hv

/-- **C17** (density matrices in products with numbers): `Scale` refuses whatever does not return a state vector. -/
theorem C17_scale_refused {o : Op} {p : Param} {st : Option State} (h : ∀ v, o.call so values st ≠ .ok (some (.vec v))) :
    ∃ e, (mkScale (.list [o]) p).call so values st = .error e := by
  simp only [mkScale, OpArg.toList, Op.call, Op.callSeq]
  rcases scaleParam p values with e | x
  · exact ⟨e, rfl⟩
  · rcases hc : o.call so values st with e | r
    · exact ⟨e, rfl⟩
    · rcases r with _ | ⟨v⟩ | ρ
      · exact ⟨_, rfl⟩
      · exact absurd hc (h v)
      · exact ⟨_, rfl⟩

/-- **C17** (noisy observables): the expectation value of an observable in a state vector is refused if one of its operations
does not return a state vector, for instance because its gate is noisy. -/
theorem C17_observable_refused {ops : List Op} {o : Op} (ho : o ∈ ops) {a : NDArray ℂ}
    (h : ∀ v, o.call so values (some (.vec a)) ≠ .ok (some (.vec v))) :
    (∃ e, expectSingle so values ⟨ops⟩ (.vec a) = .error e) ∧
      ∃ e, (mkObservable (.list ops)).call so values (some (.vec a)) = .error e := by
  have key : ∃ e, (pyReduce Op.addStates (Op.callList so values ops (some (.vec a))) >>= fun r => Op.innerReal a r) = .error e := by
    rcases ops with _ | ⟨p, _ | ⟨q, rest⟩⟩
    · simp at ho
    · obtain rfl := List.mem_singleton.1 ho
      simp only [Op.callList, pyReduce, List.foldlM_nil]
      rcases hc : o.call so values (some (.vec a)) with e | r
      · exact ⟨e, rfl⟩
      · rcases r with _ | ⟨v⟩ | ρ
        · exact ⟨_, rfl⟩
        · exact absurd hc (h v)
        · exact ⟨_, rfl⟩
    · obtain ⟨e, he⟩ := C17_add_refused so (by simp) ho h
      simp only [mkAdd, OpArg.toList, Op.call] at he
      exact ⟨e, by rw [he]; rfl⟩
  obtain ⟨e, he⟩ := key
  refine ⟨⟨e, he⟩, e, ?_⟩
  simp only [mkObservable, OpArg.toList, Op.call]
  rcases hc : pyReduce Op.addStates (Op.callList so values ops (some (.vec a))) with e' | r
  · rw [hc] at he
    cases he; rfl
  · rw [hc] at he
    simp only [bind, Except.bind] at he ⊢
    rw [he]

/-- **C17** (missing factors): `Scale` refuses a parameter name that the dictionary does not list or that stands for a
nested dictionary, in calls and as a tensor. -/
theorem C17_factor_refused {o : Op} {s : String} (hs : values.lookup s = none ∨ ∃ d, values.lookup s = some (.dict d))
    (st : Option State) (full : Option (List ℕ)) :
    (∃ e, (mkScale (.list [o]) (.str s)).call so values st = .error e) ∧
      ∃ e, (mkScale (.list [o]) (.str s)).tensor so values full = .error e := by
  have h : ∃ e, scaleParam (.str s) values = .error e := by
    rcases hs with hs | ⟨d, hs⟩
    · exact ⟨_, by simp only [scaleParam, Values.get, hs]; rfl⟩
    · exact ⟨_, by simp only [scaleParam, Values.get, hs]; rfl⟩
  obtain ⟨e, h⟩ := h
  refine ⟨⟨e, ?_⟩, e, ?_⟩
  · simp only [mkScale, OpArg.toList, Op.call, h]; rfl
  · simp only [mkScale, OpArg.toList, Op.tensor, h]; rfl

example : ([("a", .dict [])] : Values).lookup "b" = none ∨ ∃ d, ([("a", .dict [])] : Values).lookup "b" = some (.dict d) :=
  .inl rfl

/-- **C19** (calls of observables): calling an observable on a state vector or density matrix returns the expectation value as
an array without axes. -/
theorem C19_observable_call (ops : List Op) (st : State) :
    (mkObservable (.list ops)).call so values (some st)
      = (expectSingle so values ⟨ops⟩ st).map fun x => some (.vec ⟨[], [(x : ℂ)]⟩) := by
  rcases st with a | ρ
  · simp only [mkObservable, OpArg.toList, Op.call, expectSingle, Observable.forward]
    rcases pyReduce Op.addStates (Op.callList so values ops (some (.vec a))) with e | r
    · rfl
    · simp only [bind, Except.bind, pure, Except.pure]
      rcases Op.innerReal a r with e | x <;> rfl
  · simp only [mkObservable, OpArg.toList, Op.call, expectSingle, Observable.forward]
    rcases Op.expectDM so values ops ρ with e | x <;> rfl

end

/-- Non-vacuity: a noisy `X` does not return a state vector. -/
example (so : SetOrder) : ∃ v : NDArray ℂ, ∀ w,
    (Op.prim (Gate.X (.int 0) (noise := some [⟨.bitFlip, .float 0.1⟩]))).call so [] (some (.vec v)) ≠ .ok (some (.vec w)) := by
  refine ⟨zero1, fun w h => ?_⟩
  simp only [Op.call, applyGates, prepareSequenceReduce, bind, Except.bind] at h
  rcases hU : (Gate.X (.int 0) (noise := some [⟨.bitFlip, .float 0.1⟩])).operator .unitary [] with e | U
  · simp only [hU] at h; cases h
  · simp only [hU] at h
    have : allNoiseless [(Gate.X (.int 0) (noise := some [⟨.bitFlip, .float 0.1⟩])).noise] = false := rfl
    simp only [this, Bool.not_false, if_true] at h
    rcases hr : reduceApplyNoise so [(U, (Gate.X (.int 0) (noise := some [⟨.bitFlip, .float 0.1⟩])).target,
      (Gate.X (.int 0) (noise := some [⟨.bitFlip, .float 0.1⟩])).control)]
      [(Gate.X (.int 0) (noise := some [⟨.bitFlip, .float 0.1⟩])).noise] (densityMat zero1) with e | ρ
    · simp only [hr] at h; cases h
    · simp only [hr] at h; cases h

/-! ## C50: noisy circuits in adjoint mode -/

theorem opsToGates_prim_mem {ops : List Op} {gs : List Gate} (h : opsToGates ops = .ok gs) {g : Gate} (hg : Op.prim g ∈ ops) :
    g ∈ gs := by
  induction ops generalizing gs with
  | nil => simp at hg
  | cons o os ih =>
    rcases o with g' | ⟨k, os'⟩
    · rw [opsToGates] at h
      rcases hr : opsToGates os with e | gs'
      · rw [hr] at h; cases h
      · rw [hr] at h
        cases h
        rcases List.mem_cons.1 hg with hg | hg
        · cases hg; simp
        · exact List.mem_cons_of_mem _ (ih hr hg)
    · cases h

theorem applyGates_noisy (so : SetOrder) (state : State) {gs : List Gate} {g : Gate} (hg : g ∈ gs) (hn : g.noise ≠ none)
    (values : Values) (ot : OpType) (group merge : Bool) (a : NDArray ℂ) :
    applyGates so state (.list gs) values ot group merge ≠ .ok (.vec a) := by
  set l := if group then groupByIndex gs else gs with hl
  have hmem : ∀ x, x ∈ l ↔ x ∈ gs := fun x => by
    rw [hl]
    split_ifs
    · exact (groupByIndex_perm gs).mem_iff
    · rfl
  have hnz : allNoiseless (l.map Gate.noise) = false := by
    rw [allNoiseless, List.all_eq_false]
    exact ⟨g.noise, List.mem_map.2 ⟨g, (hmem g).2 hg, rfl⟩, by simpa using hn⟩
  intro h
  rw [applyGates] at h
  simp only [prepareSequenceReduce, ← hl] at h
  rcases hm : l.mapM fun g => g.operator ot values with e | us
  · simp only [except_bind, hm] at h; cases h
  · by_cases he : l.isEmpty
    · simp only [except_bind, hm, he, if_true] at h; cases h
    · simp only [except_bind, hm, he, hnz, Bool.false_and, Bool.false_eq_true, if_false, Bool.not_false, if_true] at h
      rcases state with v | ρ
      · simp only at h
        generalize reduceApplyNoise so _ _ _ = r at h
        rcases r with e | r <;> cases h
      · simp only at h
        generalize reduceApplyNoise so _ _ _ = r at h
        rcases r with e | r <;> cases h

/-- **C50** (adjoint mode): a circuit with a noisy gate is refused in adjoint mode. -/
theorem C50_adjoint_refused (so : SetOrder) (eigh : Eigh) (draw : Draw) (state : State) {circuit : Op} {g : Gate}
    (hg : Op.prim g ∈ circuit.iter) (hn : g.noise ≠ none) (observables : List Observable) (values : Values) (nShots : ℤ) :
    ∃ e, expectation so eigh draw state circuit observables values .adjoint nShots = .error e := by
  rcases state with a | ρ
  · simp only [expectation, adjointExpectation]
    rcases observables with _ | ⟨o, os⟩
    · exact ⟨_, rfl⟩
    · have key : ∃ e, adjointSingle so (.vec a) circuit values o = .error e := by
        rw [adjointSingle, applyOps]
        rcases hgs : opsToGates circuit.iter with e | gs
        · exact ⟨e, rfl⟩
        · simp only [except_bind]
          have h := applyGates_noisy so (.vec a) (opsToGates_prim_mem hgs hg) hn values .unitary false true
          rcases ho : applyGates so (.vec a) (.list gs) values with e | v | ρ
          · exact ⟨e, rfl⟩
          · exact absurd ho (h v)
          · simp only [ho]
            rcases o.forward so values (some (.dm ρ)) with e | p
            · exact ⟨e, rfl⟩
            · exact ⟨_, rfl⟩
      obtain ⟨e, he⟩ := key
      exact ⟨e, by rw [List.mapM_cons, he]; rfl⟩
  · exact ⟨_, rfl⟩

example : Op.prim (Gate.X (.int 0) (noise := some [⟨.bitFlip, .float 0.1⟩]))
    ∈ (mkCircuit 1 (.list [.prim (Gate.X (.int 0) (noise := some [⟨.bitFlip, .float 0.1⟩]))]) []).iter := by
  simp [mkCircuit, OpArg.toList, Op.iter, Op.flattenList, Op.flatten]

end Verif
