import Verif.Lemmas.Fit
import Verif.Props.Expectation
import Verif.Props.Sampling

/-!
# C79: gates that do not fit the register

For a state vector, `run`, `apply_gates`, `expectation` and `sample` accept a circuit of standard gates exactly when
every gate has the right number of targets and its targets and controls are distinct qubits of the register; one gate
that does not fit, wherever it stands, makes the call raise.  (Density matrices are different: C63, C64, C68.)
-/

set_option autoImplicit false

namespace Verif
open NDArray
variable {n : ℕ} {values : Values} {so : SetOrder}

/-- The gate `g` is a standard gate, with its control written in a documented form; nothing is said about the qubits. -/
def Gate.Standard (values : Values) (g : Gate) : Prop := (∃ s, g.Is values s) ∧ WfCtl g.control

/-- The gate fits an `n`-qubit register: as many targets as its matrix needs, and all qubits distinct and below `n`. -/
def Gate.Fits (n : ℕ) (values : Values) (g : Gate) : Prop :=
  (∃ s, g.Is values s ∧ g.target.length = s.arity) ∧ (ctlInts g.control ++ g.target).Nodup ∧
    ∀ q ∈ ctlInts g.control ++ g.target, q < n

theorem Gate.Standard.sized {g : Gate} (h : g.Standard values) : g.Sized .unitary values := by
  obtain ⟨⟨s, hs⟩, hc⟩ := h
  obtain ⟨U, h1, h2, -⟩ := hs.unitary
  exact ⟨⟨_, U, h1, h2⟩, hc⟩

theorem Gate.Standard.ok_iff {g : Gate} (h : g.Standard values) : g.Ok n .unitary values ↔ g.Fits n values := by
  obtain ⟨⟨s, hs⟩, hc⟩ := h
  obtain ⟨U, h1, h2, -⟩ := hs.unitary
  constructor
  · rintro ⟨⟨V, e1, e2⟩, hv⟩
    change g.unitary values = .ok V at e1
    rw [h1] at e1; cases e1
    refine ⟨⟨s, hs, ?_⟩, hv.dims.nodup, hv.dims.lt⟩
    have := e2.shape
    rw [h2.shape] at this
    exact (Nat.pow_right_injective le_rfl (List.cons.inj this).1).symm
  · rintro ⟨⟨s', hs', ha⟩, hd, hl⟩
    exact Gate.Std.ok ⟨hs', ha, hc, hd, hl⟩

/-- **C79** (`apply_gates`): a non-empty list of noiseless standard gates is accepted on an `n`-qubit state vector,
with or without grouping and merging, exactly when every gate fits the register. -/
theorem C79_apply_gates {gs : List Gate} (h : ∀ g ∈ gs, g.Standard values) (hnz : ∀ g ∈ gs, g.noise = none)
    {st : NDArray ℂ} (hst : IsKet n st) (group merge : Bool) :
    (∃ r, applyGates so (.vec st) (.list gs) values .unitary group merge = .ok r) ↔
      gs ≠ [] ∧ ∀ g ∈ gs, g.Fits n values := by
  constructor
  · rintro ⟨r, hr⟩
    refine ⟨?_, fun g hg => (h g hg).ok_iff.1 (ok_of_applyGates so (fun g hg => (h g hg).sized) hnz hst hr g hg)⟩
    rintro rfl
    cases group <;> cases hr
  · rintro ⟨hne, hf⟩
    have hok : ∀ g ∈ gs, g.Ok n .unitary values := fun g hg => (h g hg).ok_iff.2 (hf g hg)
    cases group with
    | false => obtain ⟨r, h1, -⟩ := applyGates_vec so hne hok hnz hst merge; exact ⟨_, h1⟩
    | true =>
      have hp := groupByIndex_perm gs
      obtain ⟨r, h1, -⟩ := applyGates_vec so (gs := groupByIndex gs) (by
          intro e; rw [e] at hp; exact hne hp.nil_eq.symm)
        (fun g hg => hok g (hp.mem_iff.1 hg)) (fun g hg => hnz g (hp.mem_iff.1 hg)) hst merge
      exact ⟨_, h1⟩

/-- **C79** (`run`): a circuit of noiseless standard gates can be run on an `n`-qubit state vector exactly when every
gate fits the register, wherever it stands in the (possibly nested) circuit. -/
theorem C79_run {circuit : Op} (hp : circuit.Plain) (h : ∀ g ∈ circuit.gates, g.Standard values)
    (hnz : ∀ g ∈ circuit.gates, g.noise = none) {st : NDArray ℂ} (hst : IsKet n st) :
    (∃ r, run so circuit (.vec st) values = .ok r) ↔ ∀ g ∈ circuit.gates, g.Fits n values := by
  rw [run, hp.call so]
  constructor
  · rintro ⟨r, hr⟩ g hg
    exact (h g hg).ok_iff.1 (ok_of_callSeq so (fun g hg => (h g hg).sized) hnz hst hr g hg)
  · intro hf
    by_cases hne : circuit.gates = []
    · rw [hne]; exact ⟨_, rfl⟩
    · have hn : List.Forall₂ Gate.NoiseIs circuit.gates (circuit.gates.map fun _ => []) := by
        rw [List.forall₂_map_right_iff, List.forall₂_same]
        exact fun g hg => .none (hnz g hg)
      obtain ⟨r, h1, -⟩ := callSeq_evolved so hne (fun g hg => (h g hg).ok_iff.2 (hf g hg)) hn
        (s := .vec st) hst
      exact ⟨_, h1⟩

/-- **C79** (`sample`): a gate that does not fit makes `sample` raise, for every number of shots and all random numbers. -/
theorem C79_sample {circuit : Op} (hp : circuit.Plain) (h : ∀ g ∈ circuit.gates, g.Standard values)
    (hnz : ∀ g ∈ circuit.gates, g.noise = none) {st : NDArray ℂ} (hst : IsKet n st) {g : Gate} (hg : g ∈ circuit.gates)
    (hout : ¬ g.Fits n values) (draw : Draw) (k : ℤ) :
    ∃ e, sample so draw (.vec st) circuit values k = .error e := by
  have hno := mt (C79_run (so := so) hp h hnz hst).1 fun hf => hout (hf g hg)
  rw [sample]
  by_cases hk : k < 1
  · exact ⟨_, if_pos hk⟩
  · rw [if_neg hk]
    rcases e : circuit.call so values (some (.vec st)) with e' | r
    · exact ⟨e', rfl⟩
    · exact absurd ⟨r, e⟩ hno

/-- **C79** (`expectation`): a gate that does not fit makes `expectation` raise, in every mode, for every number of
shots, every list of observables and all random numbers. -/
theorem C79_expectation {circuit : Op} (hp : circuit.Plain) (h : ∀ g ∈ circuit.gates, g.Standard values)
    (hnz : ∀ g ∈ circuit.gates, g.noise = none) {st : NDArray ℂ} (hst : IsKet n st) {g : Gate} (hg : g ∈ circuit.gates)
    (hout : ¬ g.Fits n values) (hf : values.Flat) (eigh : Eigh) (draw : Draw) (obs : List Observable) (mode : DiffMode)
    (k : ℤ) : ∃ e, expectation so eigh draw (.vec st) circuit obs values mode k = .error e := by
  obtain ⟨e, he⟩ : ∃ e, applyOps so (.vec st) circuit.iter values = .error e := by
    rw [applyOps, hp.iter, opsToGates_prim]
    rcases e : applyGates so (.vec st) (.list circuit.gates) values with e' | r
    · exact ⟨e', by simp only [bind, Except.bind, e]⟩
    · exact absurd (((C79_apply_gates (so := so) h hnz hst false true).1 ⟨r, e⟩).2 g hg) hout
  cases mode with
  | other => exact ⟨_, rfl⟩
  | ad =>
    simp only [expectation]
    split_ifs
    · exact ⟨_, rfl⟩
    · cases obs <;> simp only [adExpectation, hf.splits.processing, List.mapM_cons, List.mapM_nil, he, bind, Except.bind]
      · exact ⟨.valueError, rfl⟩
      · exact ⟨e, rfl⟩
    · exact ⟨e, by simp only [finiteShots, he, bind, Except.bind]⟩
  | gpsr =>
    simp only [expectation]
    split_ifs
    · exact ⟨_, rfl⟩
    · cases obs <;> simp only [analyticalExpectation, List.mapM_cons, List.mapM_nil, he, bind, Except.bind]
      · exact ⟨.valueError, rfl⟩
      · exact ⟨e, rfl⟩
    · exact ⟨e, by simp only [finiteShots, he, bind, Except.bind]⟩
  | adjoint =>
    simp only [expectation]
    cases obs <;> simp only [adjointExpectation, List.mapM_cons, List.mapM_nil, adjointSingle, he, bind, Except.bind]
    · exact ⟨.valueError, rfl⟩
    · exact ⟨e, rfl⟩

/-- Non-vacuity: on two qubits `H(0)` and `CNOT(1, control=0)` fit; `X(2)`, `CNOT(0, control=0)` and a SWAP with one
target are standard gates that do not. -/
example : (Gate.H (.int 0)).Fits 2 [] ∧ (Gate.X (.int 1) (.int 0)).Fits 2 [] ∧
    ((Gate.X (.int 2)).Standard [] ∧ ¬ (Gate.X (.int 2)).Fits 2 []) ∧
    ((Gate.X (.int 0) (.int 0)).Standard [] ∧ ¬ (Gate.X (.int 0) (.int 0)).Fits 2 []) ∧
    ((Gate.SWAP (.tuple [0])).Standard [] ∧ ¬ (Gate.SWAP (.tuple [0])).Fits 2 []) := by
  refine ⟨⟨⟨_, .H _ _ _, rfl⟩, by decide, by decide⟩, ⟨⟨_, .X _ _ _, rfl⟩, by decide, by decide⟩,
    ⟨⟨⟨_, .X _ _ _⟩, .inr (.inl rfl)⟩, fun h => absurd (h.2.2 2 (by decide)) (by decide)⟩,
    ⟨⟨⟨_, .X _ _ _⟩, .inr (.inr ⟨[0], rfl⟩)⟩, fun h => absurd h.2.1 (by decide)⟩,
    ⟨⟨⟨_, .SWAP _ _ _⟩, ?_⟩, ?_⟩⟩
  · exact .inr (.inl rfl)
  · rintro ⟨⟨s, hs, ha⟩, -, -⟩
    obtain ⟨U, h1, h2, -⟩ := hs.unitary
    obtain ⟨V, k1, k2, -⟩ := (Gate.Is.SWAP (values := []) [0] (some [.none]) none).unitary
    have e : Except.ok (ε := Err) U = .ok V := h1.symm.trans k1
    cases e
    have := h2.shape
    rw [k2.shape] at this
    have := Nat.pow_right_injective le_rfl (List.cons.inj this).1
    rw [← this] at ha
    exact absurd ha (by decide)

end Verif
