import Verif.Lemmas.Batch
import Verif.Lemmas.GpsrPaths
import Verif.Props.Trace
import Verif.Props.ExpectModes

/-!
# C109: mapped functions (`jax.vmap`) compute what a loop computes

The specification is the loop: for every position `b` of the batch, the function is called with the slices `argument[b]` of the mapped
arguments and with the other arguments as they are.
-/

set_option autoImplicit false

namespace Verif
open NDArray

/-! ## Slices -/

/-- The entry of the dictionary that the call at position `b` of `n` gets. -/
def BVal.at (n b : ℕ) : BVal → TVal ℝ ℂ
  | .num x => .num x
  | .arr a => .arr a
  | .nums a => .num (a.data.getD b 0)
  | .arrs a => .arr (a.block n b)

/-- The dictionary that the call at position `b` of `n` gets. -/
def sliceValues (n b : ℕ) (d : List (String × BVal)) : Values := TDict.toValues (d.map fun e => (e.1, e.2.at n b))

/-- The state that the call at position `b` of `n` gets. -/
def BState.at (n b : ℕ) : BState → State
  | .vec a => .vec a
  | .dm ρ => .dm ρ
  | .vecs a => .vec (a.block n b)

/-- The shapes of the mapped arguments. -/
def mappedShapes (st : BState) (d : List (String × BVal)) : List (List ℕ) :=
  (match st with
    | .vecs a => [a.shape]
    | _ => []) ++
  d.flatMap fun e =>
    match e.2 with
    | .nums a => [a.shape]
    | .arrs a => [a.shape]
    | _ => []

/-- Mapped numbers are arrays with one axis. -/
def OneAxis (d : List (String × BVal)) : Prop := ∀ e ∈ d, ∀ a, e.2 = .nums a → ∃ m, a.shape = [m]

/-! ## Helper lemmas -/

/-- The shape of a mapped argument. -/
def BVal.shape? : BVal → Option (List ℕ)
  | .nums a => some a.shape
  | .arrs a => some a.shape
  | _ => none

/-- The shape of a mapped argument. -/
def BState.shape? : BState → Option (List ℕ)
  | .vecs a => some a.shape
  | _ => none

/-- The size of the first axis. -/
def axisOf : Option (List ℕ) → Py (Option ℕ)
  | none => .ok none
  | some [] => .error .valueError
  | some (n :: _) => .ok (some n)

theorem unstack_at {K : Type} [Zero K] (n : ℕ) (a : NDArray K) (b : Fin n) :
    (a.unstack n).mapArr (fun z => z b) = a.block n b := by
  simp [unstack, block, mapArr]

theorem spread_at {K : Type} {n : ℕ} (a : NDArray K) (b : Fin n) :
    (a.mapArr fun z (_ : Fin n) => z).mapArr (fun z => z b) = a := by
  rw [mapArr_comp]
  exact mapArr_id_of (fun _ => rfl) a

theorem block_stack {K : Type} [Zero K] {n : ℕ} (a : NDArray (Fin n → K)) (b : Fin n) :
    a.stack.block n b = a.mapArr fun z => z b := by
  have hn : 0 < n := b.pos
  have hm : (n * a.data.length) / n = a.data.length := Nat.mul_div_cancel_left _ hn
  simp only [stack, block, List.tail_cons, List.length_map, List.length_range, hm, mapArr, NDArray.mk.injEq, true_and]
  refine List.ext_getElem (by simp) fun i hi _ => ?_
  simp only [List.length_map, List.length_range] at hi
  have hpos : 0 < a.data.length := by omega
  have hlt : b.val * a.data.length + i < n * a.data.length :=
    calc b.val * a.data.length + i < b.val * a.data.length + a.data.length := by omega
      _ = (b.val + 1) * a.data.length := by ring
      _ ≤ n * a.data.length := Nat.mul_le_mul_right _ b.isLt
  have hdiv : (b.val * a.data.length + i) / a.data.length = b.val := by
    rw [mul_comm, Nat.mul_add_div hpos, Nat.div_eq_of_lt hi, add_zero]
  have hmod : (b.val * a.data.length + i) % a.data.length = i := by
    rw [mul_comm, Nat.mul_add_mod, Nat.mod_eq_of_lt hi]
  simp only [List.getElem_map, List.getElem_range, List.getD_eq_getElem?_getD, List.getElem?_map,
    List.getElem?_range hlt, Option.map_some, Option.getD_some, hdiv, hmod, b.isLt, dite_true, List.getElem?_eq_getElem hi]

theorem BState.trace_at (n : ℕ) (st : BState) (b : Fin n) : (st.trace n).map (fun z => z b) = (st.at n b).toT := by
  cases st with
  | vec a => exact congrArg TState.vec (spread_at a b)
  | dm ρ => exact congrArg (fun a => TState.dm ⟨a⟩) (spread_at ρ.array b)
  | vecs a => exact congrArg TState.vec (unstack_at n a b)

theorem OneAxis.trace {d : List (String × BVal)} (h : OneAxis d) (n : ℕ) :
    ∃ d' : TDict (Fin n → ℝ) (Fin n → ℂ), (d.mapM fun e => do pure (e.1, ← e.2.trace n)) = Except.ok (ε := Err) d' ∧
      ∀ b : Fin n, (d'.mapVals (fun z => z b) fun z => z b) = d.map fun e => (e.1, e.2.at n b) := by
  induction d with
  | nil => exact ⟨[], rfl, fun _ => rfl⟩
  | cons e d ih =>
    obtain ⟨d', h1, h2⟩ := ih fun e he => h e (List.mem_cons_of_mem _ he)
    obtain ⟨k, v⟩ := e
    have : ∃ v' : TVal (Fin n → ℝ) (Fin n → ℂ), v.trace n = .ok v' ∧ ∀ b : Fin n, v'.map (fun z => z b) (fun z => z b) = v.at n b := by
      cases v with
      | num x => exact ⟨_, rfl, fun _ => rfl⟩
      | arr a => exact ⟨_, rfl, fun b => congrArg TVal.arr (spread_at a b)⟩
      | nums a =>
        obtain ⟨m, hm⟩ := h (k, .nums a) List.mem_cons_self a rfl
        exact ⟨.num fun b => a.data.getD b.val 0, by simp only [BVal.trace, hm], fun _ => rfl⟩
      | arrs a => exact ⟨_, rfl, fun b => congrArg TVal.arr (unstack_at n a b)⟩
    obtain ⟨v', h3, h4⟩ := this
    refine ⟨(k, v') :: d', ?_, fun b => ?_⟩
    · rw [List.mapM_cons, h1]
      simp only [h3]
      rfl
    · change (k, v'.map (fun z => z b) fun z => z b) :: TDict.mapVals _ _ d' = _
      rw [h2 b, h4 b]; rfl

theorem mapM_error_all {α β : Type} {f : α → Py β} {e : Err} {l : List α} (hl : l ≠ []) (h : ∀ a ∈ l, f a = .error e) :
    l.mapM f = .error e := by
  cases l with
  | nil => exact absurd rfl hl
  | cons a l => rw [List.mapM_cons, h a List.mem_cons_self]; rfl

/-! ## C109 -/

/-- **C109 (blocks).** Block `b` of a stack of `n` arrays of shape `s` has shape `s`, and its entry `i…` is the entry `(b, i…)` of the
stack. -/
theorem C109_block {K : Type} [Zero K] {n b : ℕ} {s idx : List ℕ} {a : NDArray K} (hs : a.shape = n :: s) (ha : a.WF) (hb : b < n)
    (hi : List.Forall₂ (· < ·) idx s) : (a.block n b).shape = s ∧ (a.block n b).WF ∧ (a.block n b).get idx = a.get (b :: idx) := by
  have hn : 0 < n := by omega
  have hl : a.data.length / n = s.prod := by rw [ha, hs, List.prod_cons, Nat.mul_div_cancel_left _ hn]
  have hr : ravel s idx < s.prod := ravel_lt hi
  refine ⟨by rw [block, hs]; rfl, by simp [WF, block, hs, hl], ?_⟩
  simp only [NDArray.get, block, hs, List.tail_cons, hl, ravel, List.getD_eq_getElem?_getD, List.getElem?_map,
    List.getElem?_range hr, Option.map_some, Option.getD_some]

section
variable {st : BState} {d : List (String × BVal)} {n : ℕ} (so : SetOrder) (circuit : Op)

/-- **C109 (sizes).** A mapped function accepts its arguments if and only if some argument is mapped and all mapped arguments have the same
size on their first axis. -/
theorem C109_size : batchSize st d = .ok n ↔ mappedShapes st d ≠ [] ∧ ∀ s ∈ mappedShapes st d, s.head? = some n := by
  have ha : ∀ {K : Type} (a : NDArray K), axisSize a = axisOf (some a.shape) := by
    rintro K ⟨_ | _, _⟩ <;> rfl
  have hs : st.size = axisOf st.shape? := by
    cases st with
    | vecs a => exact ha a
    | _ => rfl
  have hv : ∀ v : BVal, v.size = axisOf v.shape? := by
    intro v
    cases v with
    | nums a => exact ha a
    | arrs a => exact ha a
    | _ => rfl
  have hm : mappedShapes st d = (st.shape? :: d.map fun e => e.2.shape?).filterMap id := by
    rw [mappedShapes.eq_def, List.filterMap_cons, List.filterMap_map]
    have h1 : (d.flatMap fun e =>
        match e.2 with
        | .nums a => [a.shape]
        | .arrs a => [a.shape]
        | _ => [])
        = d.filterMap (id ∘ fun e => e.2.shape?) := by
      clear hs hv
      induction d with
      | nil => rfl
      | cons e d ih =>
        rw [List.flatMap_cons, ih, List.filterMap_cons]
        obtain ⟨k, v⟩ := e
        cases v <;> rfl
    rw [h1]
    cases st <;> rfl
  have hl : (st.size :: d.map fun e => e.2.size) = (st.shape? :: d.map fun e => e.2.shape?).map axisOf := by
    simp only [hs, hv, List.map_cons, List.map_map]
    rfl
  rw [batchSize, hl, hm]
  generalize (st.shape? :: d.map fun e => e.2.shape?) = l
  clear ha hs hv hm hl
  have key : (∃ s ∈ l.filterMap id, s = []) ∧ (l.map axisOf).mapM id = Except.error Err.valueError ∨
      (∀ s ∈ l.filterMap id, s ≠ []) ∧ ∃ r, (l.map axisOf).mapM id = Except.ok r ∧ r.filterMap id = (l.filterMap id).map fun s => s.headD 0 := by
    induction l with
    | nil => exact .inr ⟨by simp, [], rfl, rfl⟩
    | cons o l ih =>
      rcases o with _ | _ | ⟨m, s⟩
      · rcases ih with ⟨h1, h2⟩ | ⟨h1, r, h2, h3⟩
        · exact .inl ⟨by simpa using h1, by rw [List.map_cons, List.mapM_cons, h2]; rfl⟩
        · exact .inr ⟨by simpa using h1, none :: r, by rw [List.map_cons, List.mapM_cons, h2]; rfl, by simpa using h3⟩
      · exact .inl ⟨⟨[], by simp, rfl⟩, rfl⟩
      · rcases ih with ⟨h1, h2⟩ | ⟨h1, r, h2, h3⟩
        · exact .inl ⟨by simpa using h1, by rw [List.map_cons, List.mapM_cons, h2]; rfl⟩
        · exact .inr ⟨by simpa using h1, some m :: r, by rw [List.map_cons, List.mapM_cons, h2]; rfl, by simpa using h3⟩
  rcases key with ⟨⟨s, h1, rfl⟩, h2⟩ | ⟨h1, r, h2, h3⟩
  · rw [h2]
    constructor
    · intro h; cases h
    · rintro ⟨-, h⟩
      cases h _ h1
  · rw [h2]
    change (match r.filterMap id with
      | [] => Except.error Err.valueError
      | n :: ns => if ns.all (· = n) then .ok n else .error .valueError) = _ ↔ _
    rw [h3]
    generalize l.filterMap id = L at h1
    have hh : ∀ s : List ℕ, s ≠ [] → (s.head? = some n ↔ s.headD 0 = n) := by
      rintro (_ | ⟨m, s⟩) h
      · exact absurd rfl h
      · simp
    rcases L with _ | ⟨s, L⟩
    · simp
    · simp only [List.map_cons]
      have h4 : (∀ t ∈ s :: L, t.head? = some n) ↔ s.headD 0 = n ∧ ∀ t ∈ L, t.headD 0 = n := by
        rw [List.forall_mem_cons, hh s (h1 s List.mem_cons_self)]
        refine and_congr_right fun _ => forall₂_congr fun t ht => hh t (h1 t (List.mem_cons_of_mem _ ht))
      rw [h4]
      split_ifs with h5
      · simp only [List.all_map, List.all_eq_true, Function.comp_apply, decide_eq_true_eq] at h5
        constructor
        · intro h
          cases h
          exact ⟨by simp, rfl, h5⟩
        · rintro ⟨-, h6, -⟩
          rw [h6]
      · simp only [List.all_map, List.all_eq_true, Function.comp_apply, decide_eq_true_eq] at h5
        constructor
        · intro h; cases h
        · rintro ⟨-, h6, h7⟩
          exact absurd (fun t ht => (h7 t ht).trans h6.symm) h5

/-- **C109 (expectation).** `jax.vmap` of `expectation` returns the list of the expectation values at all positions, and raises the
exception of the loop. -/
theorem C109_expectation (eigh : Eigh) (draw : Draw) (obs : List Observable) (h : batchSize st d = .ok n) (hn : n ≠ 0)
    (hd : OneAxis d) :
    vmapExpectation so st circuit obs d
      = (List.finRange n).mapM fun b : Fin n => expectation so eigh draw (st.at n b) circuit obs (sliceValues n b d) .ad 0 := by
  obtain ⟨d', h1, h2⟩ := hd.trace n
  have h3 : ∀ b : Fin n, expectation so eigh draw (st.at n b) circuit obs (sliceValues n b d) .ad 0
      = (expectationT (Tracer.base.batch (Fin n)) so (st.trace n) circuit obs (.flat d')).map (List.map fun f => f b) := by
    intro b
    have h4 := expectation_ad_traced so eigh draw circuit obs (st.at n b).toT (.flat (d.map fun e => (e.1, e.2.at n b)))
    rw [State.toT_toState] at h4
    refine h4.trans ?_
    rw [← h2 b, ← BState.trace_at]
    exact (projHom base_square b).api so (st.trace n) circuit obs (.flat d')
  have hne : List.finRange n ≠ [] := by simpa using hn
  rw [vmapExpectation, h]
  change ((d.mapM fun e : String × BVal => (do pure (e.1, ← e.2.trace n) : Py (String × TVal (Fin n → ℝ) (Fin n → ℂ)))) >>= fun d' =>
    expectationT (Tracer.base.batch (Fin n)) so (st.trace n) circuit obs (.flat d') >>= fun outs =>
    .ok ((List.finRange n).map fun b => outs.map fun f => f b)) = _
  rw [h1]
  change (expectationT (Tracer.base.batch (Fin n)) so (st.trace n) circuit obs (.flat d') >>= fun outs =>
    .ok ((List.finRange n).map fun b => outs.map fun f => f b)) = _
  generalize expectationT (Tracer.base.batch (Fin n)) so (st.trace n) circuit obs (.flat d') = P at h3
  rcases P with e | outs
  · exact (mapM_error_all hne fun b _ => h3 b).symm
  · exact (mapM_ok_map fun b _ => h3 b).symm

/-- **C109 (run).** `jax.vmap` of `run` raises what `run` raises at every position; or it returns a stack whose blocks are the state vectors
that `run` returns; or `run` returns a density matrix at every position, and then the result of the mapped function is unusable (an
object that holds a tracer, because the array of a `DensityMatrix` is no leaf).  (The last case, no state, belongs to `Observable`s and the like without
state and does not occur for circuits.) -/
theorem C109_run (h : batchSize st d = .ok n) (hd : OneAxis d) :
    (∃ e, vmapRun so circuit st d = .error e ∧ ∀ b : Fin n, run so circuit (st.at n b) (sliceValues n b d) = .error e) ∨
    (∃ R : NDArray ℂ, vmapRun so circuit st d = .ok (some (.stack R)) ∧ R.shape.head? = some n ∧
      ∀ b : Fin n, run so circuit (st.at n b) (sliceValues n b d) = .ok (some (.vec (R.block n b)))) ∨
    (vmapRun so circuit st d = .ok (some .leaked) ∧
      ∀ b : Fin n, ∃ ρ, run so circuit (st.at n b) (sliceValues n b d) = .ok (some (.dm ρ))) ∨
    (vmapRun so circuit st d = .ok none ∧ ∀ b : Fin n, run so circuit (st.at n b) (sliceValues n b d) = .ok none) := by
  obtain ⟨d', h1, h2⟩ := hd.trace n
  have h3 : ∀ b : Fin n, (run so circuit (st.at n b) (sliceValues n b d)).map (Option.map State.toT)
      = (runT (Tracer.base.batch (Fin n)) so circuit (st.trace n) d').map (Option.map (TState.map fun f => f b)) := by
    intro b
    have h4 := TraceBase.run_eq so circuit (st.at n b) (d.map fun e => (e.1, e.2.at n b))
    refine h4.symm.trans ?_
    rw [← h2 b, ← BState.trace_at]
    exact (projHom base_square b).run so circuit (st.trace n) d'
  have h5 : vmapRun so circuit st d = (runT (Tracer.base.batch (Fin n)) so circuit (st.trace n) d' >>= fun r => match r with
      | some (.vec a) => .ok (some (.stack a.stack))
      | some (.dm _) => .ok (some .leaked)
      | none => .ok none) := by
    rw [vmapRun, h]
    change ((d.mapM fun e : String × BVal => (do pure (e.1, ← e.2.trace n) : Py (String × TVal (Fin n → ℝ) (Fin n → ℂ)))) >>= fun d' =>
      runT (Tracer.base.batch (Fin n)) so circuit (st.trace n) d' >>= fun r => match r with
      | some (.vec a) => .ok (some (BOut.stack a.stack))
      | some (.dm _) => .ok (some BOut.leaked)
      | none => .ok none) = _
    rw [h1]; rfl
  rw [h5]
  generalize runT (Tracer.base.batch (Fin n)) so circuit (st.trace n) d' = P at h3
  have h6 : ∀ {b : Fin n} {x : Option (TState ℂ)}, (run so circuit (st.at n b) (sliceValues n b d)).map (Option.map State.toT) = .ok x →
      run so circuit (st.at n b) (sliceValues n b d) = .ok (x.map TState.toState) := by
    intro b x hx
    generalize run so circuit (st.at n b) (sliceValues n b d) = Q at hx
    rcases Q with e | s
    · cases hx
    · cases hx
      rcases s with _ | s
      · rfl
      · exact congrArg (fun s => Except.ok (some s)) (State.toT_toState s).symm
  rcases P with e | _ | ⟨a⟩ | ρ
  · refine .inl ⟨e, rfl, fun b => ?_⟩
    have := h3 b
    generalize run so circuit (st.at n b) (sliceValues n b d) = Q at this
    rcases Q with e' | s
    · cases this; rfl
    · cases this
  · exact .inr (.inr (.inr ⟨rfl, fun b => h6 (h3 b)⟩))
  · refine .inr (.inl ⟨_, rfl, rfl, fun b => ?_⟩)
    rw [block_stack]
    exact h6 (h3 b)
  · exact .inr (.inr (.inl ⟨rfl, fun b => ⟨_, h6 (h3 b)⟩⟩))

/-- The number at position `b` in every component of nested pairs. -/
def nestAt {n : ℕ} (b : Fin n) : (k : ℕ) → ((Tracer.base.batch (Fin n)).nest k).R → (Tracer.base.nest k).R
  | 0, z => z b
  | k + 1, z => jet (nestAt b k (TrivSqZeroExt.fst (R := ((Tracer.base.batch (Fin n)).nest k).R) z))
      (nestAt b k (TrivSqZeroExt.snd (R := ((Tracer.base.batch (Fin n)).nest k).R) z))

/-- The same for complex numbers. -/
def nestAtC {n : ℕ} (b : Fin n) : (k : ℕ) → ((Tracer.base.batch (Fin n)).nest k).K → (Tracer.base.nest k).K
  | 0, z => z b
  | k + 1, z => jet (nestAtC b k (TrivSqZeroExt.fst (R := ((Tracer.base.batch (Fin n)).nest k).K) z))
      (nestAtC b k (TrivSqZeroExt.snd (R := ((Tracer.base.batch (Fin n)).nest k).K) z))

theorem nestAt_eq (b : Fin n) (k : ℕ) : nestAt b k = ((projHom base_square b).nest k).fR := by
  induction k with
  | zero => rfl
  | succ k ih => funext z; simp only [nestAt, ih]; rfl

theorem nestAtC_eq (b : Fin n) (k : ℕ) : nestAtC b k = ((projHom base_square b).nest k).fK := by
  induction k with
  | zero => rfl
  | succ k ih => funext z; simp only [nestAtC, ih]; rfl

/-- **C109 (derivatives inside a batch).** Derivatives of any order inside a mapped function (`vmap` of `jax.jvp` of …, such as
`jax.hessian` in docs/dqc.md:226) are at every position those of the call at this position. -/
theorem C109_derivatives (obs : List Observable) (k : ℕ) (st : TState ((Tracer.base.batch (Fin n)).nest k).K)
    (a : TArgs ((Tracer.base.batch (Fin n)).nest k).R ((Tracer.base.batch (Fin n)).nest k).K) (b : Fin n) :
    jvpExpectationN k so (st.map (nestAtC b k)) circuit obs (a.mapVals (nestAt b k) (nestAtC b k))
      = (expectationT ((Tracer.base.batch (Fin n)).nest k) so st circuit obs a).map (List.map (nestAt b k)) := by
  rw [nestAt_eq, nestAtC_eq]
  exact ((projHom base_square b).nest k).api so st circuit obs a

/-! ## Examples -/

/-- Non-vacuity of `C109_size` and `C109_expectation`: two angles give two expectation values. -/
example (eigh : Eigh) (draw : Draw) (x y : ℝ) : vmapExpectation so (.vec zero1) twiceRX [obsZ] [("a", .nums ⟨[2], [x, y]⟩)]
    = .ok [[Real.cos (2 * x)], [Real.cos (2 * y)]] := by
  have hn : batchSize (.vec zero1) [("a", .nums ⟨[2], [x, y]⟩)] = .ok 2 := C109_size.2 ⟨by simp [mappedShapes], by simp [mappedShapes]⟩
  rw [C109_expectation so twiceRX eigh draw [obsZ] hn (by decide) (by
    intro e he a ha
    simp only [List.mem_singleton] at he
    subst he
    cases ha
    exact ⟨2, rfl⟩)]
  have h : ∀ (z : ℝ), expectation so eigh draw (.vec zero1) twiceRX [obsZ] [("a", .num z)] .ad 0 = .ok [Real.cos (2 * z)] := by
    intro z
    rw [C20_ad_gpsr so eigh draw (.inl rfl)]
    exact (expectation_gates so eigh draw twiceRX_plain _).trans (twice_value so rfl)
  refine (mapM_ok_map (g := fun b : Fin 2 => [Real.cos (2 * ![x, y] b)]) fun b _ => ?_).trans rfl
  fin_cases b <;> exact h _

/-- Mapped arguments of different sizes are refused, and so is a call without mapped argument. -/
example (x y z : ℝ) : batchSize (.vec zero1) [("a", .nums ⟨[2], [x, y]⟩), ("b", .nums ⟨[1], [z]⟩)] = .error .valueError ∧
    batchSize (.vec zero1) [("a", .num x)] = .error .valueError := ⟨rfl, rfl⟩

/-- Non-vacuity of `C109_run`: a stack of two states; the circuit without noise returns a stack … -/
example (x : ℝ) : ∃ R : NDArray ℂ, vmapRun so twiceRX (.vecs ⟨[2, 2], [1, 0, 0, 1]⟩) [("a", .num x)] = .ok (some (.stack R)) := by
  have hn : batchSize (.vecs ⟨[2, 2], [1, 0, 0, 1]⟩) [("a", .num x)] = .ok 2 := C109_size.2 ⟨by simp [mappedShapes], by simp [mappedShapes]⟩
  have hd : OneAxis [("a", BVal.num x)] := by
    intro e he a ha
    simp only [List.mem_singleton] at he
    subst he
    cases ha
  have hk : IsKet 1 ((⟨[2, 2], [1, 0, 0, 1]⟩ : NDArray ℂ).block 2 0) := ⟨rfl, rfl⟩
  have hset := twiceSetting so (v := [("a", .num x)]) ⟨by simp, by simp⟩ rfl
  have hc : twiceRX.Circuit 1 [("a", .num x)] [[], []] := ⟨twiceRX_plain, hset.ne, fun g hg => (hset.std g hg).choose_spec.ok, hset.noise⟩
  obtain ⟨r, h1, -, h2⟩ := circuit_run so hc (st := .vec _) hk
  have h1' : run so twiceRX (BState.at 2 (0 : Fin 2) (.vecs ⟨[2, 2], [1, 0, 0, 1]⟩)) (sliceValues 2 (0 : Fin 2) [("a", .num x)]) = .ok (some r) := h1
  rcases C109_run so twiceRX hn hd with ⟨e, -, h⟩ | ⟨R, h, -⟩ | ⟨-, h⟩ | ⟨-, h⟩
  · have := h 0; rw [h1'] at this; cases this
  · exact ⟨R, h⟩
  · obtain ⟨ρ, this⟩ := h 0
    rw [h1'] at this; cases this
    exact h2.1 (by simp [twiceRX_gates, Gate.RX, mkGate]) |>.elim
  · have := h 0; rw [h1'] at this; cases this

/-- … and the circuit with noise an unusable object. -/
example : vmapRun so noisyX (.vecs ⟨[2, 2], [1, 0, 0, 1]⟩) [] = .ok (some .leaked) := by
  have hn : batchSize (.vecs ⟨[2, 2], [1, 0, 0, 1]⟩) [] = .ok 2 := C109_size.2 ⟨by simp [mappedShapes], by simp [mappedShapes]⟩
  have hd : OneAxis [] := by intro e he; cases he
  have hk : IsKet 1 ((⟨[2, 2], [1, 0, 0, 1]⟩ : NDArray ℂ).block 2 0) := ⟨rfl, rfl⟩
  obtain ⟨r, h1, -, h2⟩ := circuit_run so (noisyX_circuit (values := [])) (st := .vec _) hk
  have h1' : run so noisyX (BState.at 2 (0 : Fin 2) (.vecs ⟨[2, 2], [1, 0, 0, 1]⟩)) (sliceValues 2 (0 : Fin 2) []) = .ok (some r) := h1
  rcases C109_run so noisyX hn hd with ⟨e, -, h⟩ | ⟨R, -, -, h⟩ | ⟨h, -⟩ | ⟨-, h⟩
  · have := h 0; rw [h1'] at this; cases this
  · have := h 0
    rw [h1'] at this; cases this
    have := h2.1
    simp [noisyX, mkCircuit, OpArg.toList, Op.gates, Op.gatesList, Gate.X, mkGate] at this
  · exact h
  · have := h 0; rw [h1'] at this; cases this

end
end Verif
