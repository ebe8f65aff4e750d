import Verif.Props.PureMixed
import Verif.Props.DmExact

/-!
# The properties of `apply_gates` for circuits executed by `run` (C06, C08, C10–C13, C50)

`run` (horqrux/api.py:25-47) calls the circuit object, which calls its gates one after the other (composite/sequence.py:24-33),
while the exact modes of `expectation` hand the whole list of gates to `apply_gates`.  The theorems of C06–C13 and C50 are about
the latter; this file states them for the former.
-/
set_option autoImplicit false

namespace Verif
open NDArray
open scoped ComplexOrder
variable {n : ℕ} {values : Values} (so : SetOrder)

/-- `run` and `apply_gates` (merged or not) give the same state. -/
theorem run_applyGates {circuit : Op} {nss : List (List StdNoise)} (h : circuit.Circuit n values nss) {st : State}
    (hst : st.On n) (merge : Bool) :
    ∃ r, run so circuit st values = .ok (some r) ∧
      applyGates so st (.list circuit.gates) values .unitary false merge = .ok r := by
  obtain ⟨r, h1, h2⟩ := callSeq_evolved so h.ne h.ok h.noise hst
  obtain ⟨q, k1, k2⟩ := applyGates_evolved so h.ne h.ok h.noise hst merge
  exact ⟨r, by rw [run, h.plain.call so]; exact h1, by rw [h2.unique k2]; exact k1⟩

/-- A tree of sequences and circuits whose leaves are the standard gates `xs` (with their noise). -/
structure Op.StdCircuit (n : ℕ) (values : Values) (o : Op) (xs : List (Gate × StdGate × List StdNoise)) : Prop where
  plain : o.Plain
  gates : o.gates = xs.map Prod.fst
  ne : xs ≠ []
  std : ∀ x ∈ xs, x.1.Std n values x.2.1 ∧ x.1.NoiseIs x.2.2

theorem Op.StdCircuit.circuit {o : Op} {xs : List (Gate × StdGate × List StdNoise)} (h : o.StdCircuit n values xs) :
    o.Circuit n values (xs.map fun x => x.2.2) where
  plain := h.plain
  ne := by rw [h.gates]; simpa using h.ne
  ok := by
    intro g hg
    rw [h.gates] at hg
    obtain ⟨x, hx, rfl⟩ := List.mem_map.1 hg
    exact (h.std x hx).1.ok
  noise := by
    rw [h.gates, List.forall₂_map_left_iff, List.forall₂_map_right_iff, List.forall₂_same]
    exact fun x hx => (h.std x hx).2

variable {circuit : Op} {xs : List (Gate × StdGate × List StdNoise)}

/-- **C06** (`run`): running a noiseless circuit of standard gates preserves the squared norm. -/
theorem C06_run (h : circuit.StdCircuit n values xs) (hnz : ∀ x ∈ xs, x.1.noise = none) {a : NDArray ℂ} (ha : IsKet n a) :
    ∃ r, run so circuit (.vec a) values = .ok (some (.vec r)) ∧ IsKet n r ∧
      ∑ b : Lab n, Complex.normSq (r.get b.bits) = ∑ b : Lab n, Complex.normSq (a.get b.bits) := by
  obtain ⟨q, h1, h2⟩ := run_applyGates so h.circuit (st := .vec a) ha true
  obtain ⟨r, k1, k2⟩ := C06_norm so (gs := circuit.gates) (ss := xs.map fun x => x.2.1) (values := values) (n := n) (by
    rw [h.gates, List.forall₂_map_left_iff, List.forall₂_map_right_iff, List.forall₂_same]
    exact fun x hx => (h.std x hx).1) h.circuit.ne (by
    intro g hg
    rw [h.gates] at hg
    obtain ⟨x, hx, rfl⟩ := List.mem_map.1 hg
    exact hnz x hx) ha true
  obtain rfl : q = .vec r := by rw [k1] at h2; cases h2; rfl
  obtain ⟨q, e1, -, e3⟩ := circuit_run so h.circuit (st := .vec a) ha
  obtain rfl : q = .vec r := by rw [h1] at e1; cases e1; rfl
  exact ⟨r, h1, e3.on, k2⟩

/-- **C08** (`run`): running a noiseless circuit on `density_mat(psi)` gives `density_mat` of running it on `psi`; gates of
any class. -/
theorem C08_run {nss : List (List StdNoise)} (h : circuit.Circuit n values nss) (hnz : ∀ g ∈ circuit.gates, g.noise = none)
    {a : NDArray ℂ} (ha : IsKet n a) :
    ∃ r, run so circuit (.vec a) values = .ok (some (.vec r)) ∧
      run so circuit (.dm (densityMat a)) values = .ok (some (.dm (densityMat r))) := by
  obtain ⟨q, h1, h2⟩ := run_applyGates so h (st := .vec a) ha true
  obtain ⟨p, k1, k2⟩ := run_applyGates so h (st := .dm (densityMat a)) (densityMat_isDM ha).1 true
  obtain ⟨r, e1, e2⟩ := C08_dm_agrees so h.ok h.ne hnz ha true true
  rw [e1] at h2; cases h2
  rw [e2] at k2; cases k2
  exact ⟨r, h1, k1⟩

/-- **C11** (`run`): noisy and noiseless circuits preserve trace, Hermiticity and positivity. -/
theorem C11_run (h : circuit.StdCircuit n values xs) {st : State} (hst : st.On n) :
    ∃ r, run so circuit st values = .ok (some r) ∧ r.On n ∧ (r.mat n).trace = (st.mat n).trace ∧
      ((st.mat n).IsHermitian → (r.mat n).IsHermitian) ∧ ((st.mat n).PosSemidef → (r.mat n).PosSemidef) := by
  obtain ⟨q, h1, h2⟩ := run_applyGates so h.circuit hst true
  obtain ⟨r, k1, k2⟩ := C11_physical so h.ne h.std hst true
  obtain rfl : r = q := by rw [h.gates, k1] at h2; cases h2; rfl
  exact ⟨r, h1, k2⟩

/-- **C12** (`run`): each gate is applied first, then its channels in tuple order on its target qubit; the result is a density
matrix exactly when the input is one or some gate is noisy. -/
theorem C12_run (h : circuit.StdCircuit n values xs) {st : State} (hst : st.On n) :
    ∃ r, run so circuit st values = .ok (some r) ∧ r.On n ∧ r.mat n = stdRun n xs (st.mat n) ∧
      ((∃ ρ, r = .dm ρ) ↔ (∃ ρ, st = .dm ρ) ∨ ∃ x ∈ xs, x.1.noise ≠ none) := by
  obtain ⟨q, h1, h2⟩ := run_applyGates so h.circuit hst true
  obtain ⟨r, k1, k2⟩ := C12_channels so h.ne h.std hst true
  obtain rfl : r = q := by rw [h.gates, k1] at h2; cases h2; rfl
  exact ⟨r, h1, k2⟩

/-- **C13** (`run`): if all error probabilities are zero, the circuit acts on density matrices as one without noise. -/
theorem C13_run {circuit' : Op} (h : circuit.StdCircuit n values xs) (hz : ∀ x ∈ xs, ∀ s ∈ x.2.2, s.IsZero)
    (h' : circuit'.StdCircuit n values (xs.map fun x => ({ x.1 with noise := none }, x.2.1, [])))
    {ρ : DensityMatrix ℂ} (hρ : IsDM n ρ) :
    ∃ r, run so circuit (.dm ρ) values = .ok (some r) ∧ run so circuit' (.dm ρ) values = .ok (some r) := by
  obtain ⟨q, h1, h2⟩ := run_applyGates so h.circuit (st := .dm ρ) hρ true
  obtain ⟨p, k1, k2⟩ := run_applyGates so h'.circuit (st := .dm ρ) hρ true
  have := (C13_zero_noise so h.ne h.std hz hρ true true).1
  rw [h.gates, this] at h2
  rw [h'.gates, List.map_map] at k2
  rw [show (Prod.fst ∘ fun x : Gate × StdGate × List StdNoise => (({ x.1 with noise := none } : Gate), x.2.1, ([] : List StdNoise)))
    = fun x => { x.1 with noise := none } from rfl, h2] at k2
  cases k2
  exact ⟨q, h1, k1⟩

/-- `run` raises as soon as the noise of some gate cannot be simulated. -/
theorem run_refused (hp : circuit.Plain) (hok : ∀ g ∈ circuit.gates, g.Ok n .unitary values) {g : Gate}
    (hg : g ∈ circuit.gates) (hno : ∀ ns, ¬ g.NoiseIs ns) {st : State} (hst : st.On n) :
    ∃ e, run so circuit st values = .error e := by
  rw [run, hp.call so]
  generalize circuit.gates = gs at hok hg
  induction gs generalizing st with
  | nil => cases hg
  | cons g' gs ih =>
    simp only [List.map_cons, Op.callSeq, bind, Except.bind]
    have hone : ∀ g0 ∈ [g'], g0.Ok n .unitary values := by simpa using hok g' (by simp)
    have hcall : Op.call so values (.prim g') (some st)
        = (applyGates so st (.list [g']) values .unitary false true).map some := by
      simp only [Op.call, bind, Except.bind]
      rw [applyGates_singleton so st g' values .unitary false true false true]
      rcases applyGates so st (.list [g']) values .unitary false true with e | r <;> rfl
    rw [hcall]
    by_cases hns : ∃ ns, g'.NoiseIs ns
    · obtain ⟨ns, hns⟩ := hns
      obtain ⟨r, h1, h2⟩ := applyGates_evolved so (gs := [g']) (nss := [ns]) (by simp) hone (.cons hns .nil) hst true
      rw [h1]
      refine ih (st := r) h2.on (fun x hx => hok x (List.mem_cons_of_mem _ hx)) ?_
      rcases List.mem_cons.1 hg with rfl | hg
      · exact absurd hns (hno ns)
      · exact hg
    · have hno' : ¬ ∃ nss, List.Forall₂ Gate.NoiseIs [g'] nss := by
        rintro ⟨nss, hF⟩
        cases hF with
        | cons h _ => exact hns ⟨_, h⟩
      have : ∃ e, applyGates so st (.list [g']) values .unitary false true = .error e := by
        cases st with
        | dm ρ => exact applyGates_dm_refused so hone hno' hst true
        | vec a =>
          have hz : ¬ ∀ g ∈ [g'], g.noise = none := fun h => hns ⟨[], .none (h g' (by simp))⟩
          rw [applyGates_vec_noisy so hz]
          exact applyGates_dm_refused so hone hno' (densityMat_isDM hst).1 true
      obtain ⟨e, he⟩ := this
      rw [he]
      exact ⟨e, rfl⟩

/-- **C50** (`run`): noise on a gate with several targets is always refused. -/
theorem C50_run (hp : circuit.Plain) (hok : ∀ g ∈ circuit.gates, g.Ok n .unitary values) {g : Gate}
    (hg : g ∈ circuit.gates) {ni : NoiseInstance} {nis : List NoiseInstance} (hn : g.noise = some (ni :: nis))
    (ht : g.target.length ≠ 1) {st : State} (hst : st.On n) : ∃ e, run so circuit st values = .error e := by
  refine run_refused so hp hok hg (fun ns hns => ?_) hst
  cases hns with
  | none h => rw [hn] at h; cases h
  | @some nis' _ h h1 ht' =>
    obtain rfl : ni :: nis = nis' := by rw [hn] at h; exact Option.some.inj h
    rcases ht' with ht' | ⟨t, ht'⟩
    · cases ht'
    · exact ht (by rw [ht']; rfl)

/-- **C10** (`run`): a circuit with a rejected error probability somewhere raises. -/
theorem C10_run (hp : circuit.Plain) (hok : ∀ g ∈ circuit.gates, g.Ok n .unitary values) {g : Gate}
    (hg : g ∈ circuit.gates) {nis : List NoiseInstance} (hn : g.noise = some nis) {ni : NoiseInstance} (hi : ni ∈ nis)
    (hbad : ¬ (ni.WellTyped ∧ ni.InRange)) {st : State} (hst : st.On n) : ∃ e, run so circuit st values = .error e := by
  refine run_refused so hp hok hg (fun ns hns => ?_) hst
  cases hns with
  | none h => rw [hn] at h; cases h
  | @some nis' _ h h1 _ =>
    obtain rfl : nis = nis' := by rw [hn] at h; exact Option.some.inj h
    obtain ⟨j, hj, rfl⟩ := List.getElem_of_mem hi
    have := (List.forall₂_iff_get.1 h1).2 j hj (by rw [← h1.length_eq]; exact hj)
    simp only [List.get_eq_getElem] at this
    obtain ⟨ks, hk, -⟩ := this.kraus
    by_cases hw : (nis[j]).WellTyped
    · exact hbad ⟨hw, (C10_validation hw).1.1 ⟨ks, hk⟩⟩
    · obtain ⟨e, he⟩ := C10_ill_typed hw
      rw [hk] at he; cases he

/-! ### Non-vacuity -/

private noncomputable def apiX : Gate := Gate.X (.int 1) (.int 0) (noise := some [⟨.bitFlip, .float 0⟩])

private theorem apiX_std : apiX.Std 2 [] .X ∧ apiX.NoiseIs [.bitFlip 0] :=
  ⟨⟨.X _ _ _, rfl, ⟨.inr (.inr ⟨[0], rfl⟩), by decide⟩⟩, .some rfl (.cons (.bitFlip (by norm_num)) .nil) (.inr ⟨1, rfl⟩)⟩

example : (mkCircuit 2 (.list [mkSeq [.prim apiX], .prim apiX])).StdCircuit 2 []
    [(apiX, .X, [.bitFlip 0]), (apiX, .X, [.bitFlip 0])] ∧ (StdNoise.bitFlip 0).IsZero :=
  ⟨⟨.circ _ _ (.cons (.seq (.cons (.prim _) .nil)) (.cons (.prim _) .nil)),
    by simp [mkCircuit, mkSeq, OpArg.toList, Op.gates, Op.gatesList], by simp, by simpa using apiX_std⟩, rfl⟩

example : (mkCircuit 2 (.list [.prim { apiX with noise := none }])).StdCircuit 2 [] [({ apiX with noise := none }, .X, [])] :=
  ⟨.circ _ _ (.cons (.prim _) .nil), by simp [mkCircuit, OpArg.toList, Op.gates, Op.gatesList], by simp,
    by
      simp only [List.mem_singleton, forall_eq]
      exact ⟨⟨.X _ _ _, rfl, ⟨.inr (.inr ⟨[0], rfl⟩), by decide⟩⟩, .none rfl⟩⟩

private noncomputable def apiSwap : Gate := Gate.SWAP (.tuple [0, 2]) .none (some [⟨.bitFlip, .float (1 / 3)⟩])

example {a : NDArray ℂ} (ha : IsKet 3 a) : ∃ e, run so (mkSeq [.prim apiSwap]) (.vec a) [] = .error e :=
  C50_run so (n := 3) (g := apiSwap) (.seq (.cons (.prim _) .nil)) (by
    simp only [mkSeq, Op.gates, Op.gatesList, List.append_nil, List.mem_singleton, forall_eq]
    exact Gate.Std.ok ⟨.SWAP _ _ _, rfl, ⟨.inl rfl, by decide⟩⟩) (by simp [mkSeq, Op.gates, Op.gatesList]) rfl (by decide) ha

example {a : NDArray ℂ} (ha : IsKet 1 a) :
    ∃ e, run so (.prim (Gate.Z (.int 0) (noise := some [⟨.phaseFlip, .float 2⟩]))) (.vec a) [] = .error e :=
  C10_run so (n := 1) (g := Gate.Z (.int 0) (noise := some [⟨.phaseFlip, .float 2⟩])) (ni := ⟨.phaseFlip, .float 2⟩) (.prim _) (by
    simp only [Op.gates, List.mem_singleton, forall_eq]
    exact Gate.Std.ok ⟨.Z _ _ _, rfl, ⟨.inr (.inl rfl), by decide⟩⟩) (by simp [Op.gates]) rfl (by simp)
    (by norm_num [NoiseInstance.InRange]) ha

end Verif
