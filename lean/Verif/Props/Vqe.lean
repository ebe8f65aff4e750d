import Verif.Lemmas.Pauli
import Verif.Props.DmExact
import Verif.Props.Shots
import Verif.Props.Gpsr
import Verif.Props.Hea

/-!
# C70, C71, C72: Pauli Hamiltonians, the variational bound, and the VQE workflow of `/repo/docs/vqe.md`
-/

namespace Verif
set_option autoImplicit false
open MeasureTheory
open scoped ComplexOrder

variable {n : ℕ} {values : Values} (so : SetOrder) (eigh : Eigh) (draw : Draw)

/-! ## C70 -/

/-- The public constructor of a Pauli gate on one qubit. -/
def Pauli.gate : Pauli → ℕ → Gate
  | .I, q => Gate.I (.int q)
  | .X, q => Gate.X (.int q)
  | .Y, q => Gate.Y (.int q)
  | .Z, q => Gate.Z (.int q)

/-- A term written as in docs/vqe.md:26-42: `Scale(OpSequence([Y(0), X(1), …]), c)`. -/
noncomputable def pauliTerm (t : ℝ × List (Pauli × ℕ)) : Op :=
  mkScale (.one (mkSeq (t.2.map fun e => .prim (e.1.gate e.2)))) (.num t.1)

/-- The observable of a list of such terms. -/
noncomputable def pauliObs (ts : List (ℝ × List (Pauli × ℕ))) : Observable := .new (.list (ts.map pauliTerm))

/-- A Pauli Hamiltonian on `n` qubits: at least one term, and each term lists at least one qubit, each qubit once. -/
structure PauliTerms (n : ℕ) (ts : List (ℝ × List (Pauli × ℕ))) : Prop where
  ne : ts ≠ []
  term : ∀ t ∈ ts, t.2 ≠ [] ∧ (t.2.map Prod.snd).Nodup ∧ ∀ e ∈ t.2, e.2 < n

/-- `Scale(Z(0), c)` is the same object as `Scale(OpSequence([Z(0)]), c)`. -/
theorem pauliTerm_one (c : ℝ) (P : Pauli) (q : ℕ) : pauliTerm (c, [(P, q)]) = mkScale (.one (.prim (P.gate q))) (.num c) := by
  simp [pauliTerm, mkScale, mkSeq, OpArg.toList, Op.iter, Op.flattenList, Op.flatten]

theorem flattenList_prims (gs : List Gate) : Op.flattenList (gs.map Op.prim) = gs.map Op.prim := by
  induction gs with
  | nil => simp [Op.flattenList]
  | cons g gs ih => simp [Op.flattenList, Op.flatten, ih]

theorem pauliTerm_eq (t : ℝ × List (Pauli × ℕ)) :
    pauliTerm t = .comp (.scale (.num t.1)) (t.2.map fun e => .prim (e.1.gate e.2)) := by
  have h := flattenList_prims (t.2.map fun e => e.1.gate e.2)
  rw [List.map_map] at h
  simp only [pauliTerm, mkScale, mkSeq, OpArg.toList, Op.iter]
  exact congrArg _ h

theorem Pauli.leaf (P : Pauli) {q : ℕ} (hq : q < n) : StdLeaf n values (P.gate q) (gateMat n (matE P.mat) [q] []) := by
  have hv : ValidDims n [q] := ⟨by simp, by simpa using hq⟩
  cases P
  · refine ⟨.I, ⟨.I _ _ _, rfl, ⟨.inr (.inl rfl), hv⟩⟩, rfl, ?_⟩
    have : (1 : Matrix (Fin 2) (Fin 2) ℂ) = !![1, 0; 0, 1] := by ext i j; fin_cases i <;> fin_cases j <;> rfl
    rw [Pauli.mat, this]
    rfl
  · exact ⟨.X, ⟨.X _ _ _, rfl, ⟨.inr (.inl rfl), hv⟩⟩, rfl, rfl⟩
  · exact ⟨.Y, ⟨.Y _ _ _, rfl, ⟨.inr (.inl rfl), hv⟩⟩, rfl, rfl⟩
  · exact ⟨.Z, ⟨.Z _ _ _, rfl, ⟨.inr (.inl rfl), hv⟩⟩, rfl, rfl⟩

theorem string_means {l : List (Pauli × ℕ)} (hn : (l.map Prod.snd).Nodup) (hl : ∀ e ∈ l, e.2 < n) :
    Op.MeansSeq (StdLeaf n values) values (l.map fun e => .prim (e.1.gate e.2)) (pauliString n l) := by
  induction l with
  | nil => rw [pauliString_nil]; exact .nil
  | cons e l ih =>
    rcases e with ⟨P, k⟩
    rw [List.map_cons, List.nodup_cons] at hn
    have hk : k < n := hl (P, k) (by simp)
    rw [(pauliString_cons P hk fun e he h => hn.1 (List.mem_map.2 ⟨e, he, h⟩)).2]
    exact .cons (.gate (P.leaf hk)) (ih hn.2 fun e he => hl e (List.mem_cons_of_mem _ he))

theorem string_listed {l : List (Pauli × ℕ)} (hne : l ≠ []) (hn : (l.map Prod.snd).Nodup) (hl : ∀ e ∈ l, e.2 < n) :
    Op.ListedSeq (StdLeaf n values) values (l.map fun e => .prim (e.1.gate e.2)) (pauliString n l) := by
  induction l with
  | nil => exact absurd rfl hne
  | cons e l ih =>
    rcases e with ⟨P, k⟩
    rw [List.map_cons, List.nodup_cons] at hn
    have hk : k < n := hl (P, k) (by simp)
    rw [(pauliString_cons P hk fun e he h => hn.1 (List.mem_map.2 ⟨e, he, h⟩)).1]
    rcases l with _ | ⟨e', l⟩
    · rw [pauliString_nil, mul_one]
      exact .one (.gate (P.leaf hk))
    · exact .cons (.gate (P.leaf hk)) (ih (by simp) hn.2 fun e he => hl e (List.mem_cons_of_mem _ he))

theorem pauliSum_cons (t : ℝ × List (Pauli × ℕ)) (ts : List (ℝ × List (Pauli × ℕ))) :
    pauliSum n (t :: ts) = (t.1 : ℂ) • pauliString n t.2 + pauliSum n ts := by
  rw [pauliSum, List.map_cons, List.sum_cons, pauliSum]

/-- **C70** (the operator): an observable written as a list of scaled Pauli strings, each string listing distinct qubits,
is the Hamiltonian `Σ c_k P_k`, which is Hermitian; whether the gates of a string are multiplied in the order in which
they are executed (state vectors) or in the order in which they are listed (density matrices and shots). -/
theorem C70_operator {ts : List (ℝ × List (Pauli × ℕ))} (h : PauliTerms n ts) (values : Values) :
    (pauliObs ts).Means (StdLeaf n values) values (pauliSum n ts) ∧
    Op.ListedSum (StdLeaf n values) values (pauliObs ts).ops (pauliSum n ts) ∧ (pauliSum n ts).IsHermitian := by
  refine ⟨?_, ?_, pauliSum_hermitian ts⟩
  · obtain ⟨hne, ht⟩ := h
    show Op.MeansSum _ _ (ts.map pauliTerm) _
    induction ts with
    | nil => exact absurd rfl hne
    | cons t ts ih =>
      obtain ⟨-, h2, h3⟩ := ht t (by simp)
      have h4 : Op.Means (StdLeaf n values) values (pauliTerm t) ((t.1 : ℂ) • pauliString n t.2) := by
        rw [pauliTerm_eq]
        exact .scale (.num _) (string_means h2 h3)
      rcases ts with _ | ⟨t', ts⟩
      · simpa [pauliSum] using Op.MeansSum.one h4
      · rw [pauliSum_cons]
        exact .cons h4 (ih (by simp) fun t ht' => ht t (List.mem_cons_of_mem _ ht'))
  · obtain ⟨hne, ht⟩ := h
    show Op.ListedSum _ _ (ts.map pauliTerm) _
    induction ts with
    | nil => exact absurd rfl hne
    | cons t ts ih =>
      obtain ⟨h1, h2, h3⟩ := ht t (by simp)
      have h4 : Op.Listed (StdLeaf n values) values (pauliTerm t) ((t.1 : ℂ) • pauliString n t.2) := by
        rw [pauliTerm_eq]
        exact .scale (.num _) (string_listed h1 h2 h3)
      rcases ts with _ | ⟨t', ts⟩
      · simpa [pauliSum] using Op.ListedSum.one h4
      · rw [pauliSum_cons]
        exact .cons h4 (ih (by simp) fun t ht' => ht t (List.mem_cons_of_mem _ ht'))

/-- **C70** (state vectors): for every noiseless circuit and state vector, the returned number is `⟨ψ|H|ψ⟩` at the output
`ψ` of `run`; this is a real number. -/
theorem C70_vector {ts : List (ℝ × List (Pauli × ℕ))} (h : PauliTerms n ts) {circuit : Op} {nss : List (List StdNoise)}
    (hc : circuit.Circuit n values nss) (hz : ∀ g ∈ circuit.gates, g.noise = none) (hf : values.Flat) {a : NDArray ℂ}
    (ha : IsKet n a) :
    ∃ r x, run so circuit (.vec a) values = .ok (some (.vec r)) ∧ IsKet n r ∧
      expectation so eigh draw (.vec a) circuit [pauliObs ts] values .ad 0 = .ok [x] ∧
      (x : ℂ) = ∑ b, star (ket n r b) * (pauliSum n ts).mulVec (ket n r) b := by
  obtain ⟨h1, -, h3⟩ := C70_operator h values
  obtain ⟨r, k1, k2, -, k4⟩ := C19_expectation so eigh draw hc hz hf ha (obs := [pauliObs ts]) (by simp)
    (.cons (Op.MeansSum.mono (fun _ _ h => StdLeaf.any h) h1) .nil)
  refine ⟨r, _, k1, k2, k4, ?_⟩
  refine Complex.ext (by simp) ?_
  rw [Complex.ofReal_im]
  exact (C19_hermitian h3 _).symm

/-- **C70** (registers of at most 8 qubits, with sets of small integers iterated in increasing order): for vectors and
density matrices, and noisy or noiseless circuits, the returned number is `Re tr(H ρ)` at the output `ρ` of `run`. -/
theorem C70_small {ts : List (ℝ × List (Pauli × ℕ))} (h : PauliTerms n ts) (hso : so.SmallSorted) (hn : n ≤ 8)
    {circuit : Op} {nss : List (List StdNoise)} (hc : circuit.Circuit n values nss) (hf : values.Flat) {st : State}
    (hst : st.On n) :
    ∃ r, run so circuit st values = .ok (some r) ∧ r.On n ∧
      expectation so eigh draw st circuit [pauliObs ts] values .ad 0 = .ok [expVal (pauliSum n ts) (r.mat n)] := by
  obtain ⟨h1, h2, -⟩ := C70_operator h values
  obtain ⟨r, k1, k2, k3⟩ := circuit_run so hc hst
  refine ⟨r, k1, k3.on, ad_of_single so eigh draw hf.splits k2 (by simp) (.cons ?_ .nil)⟩
  have hon := k3.on
  cases r with
  | vec b => exact expectSingle_vec so (Op.MeansSum.mono (fun _ _ h => StdLeaf.any h) h1) hon
  | dm ρ => exact (C68_small so hso hn (h2.mono fun _ _ h => StdLeaf.sort h)).single_dm so hon

/-! ## C71 -/

/-- **C11 for `run`**: circuits of standard gates, noisy or not, keep positivity and trace. -/
theorem run_physical {circuit : Op} {nss : List (List StdNoise)} (hc : circuit.Circuit n values nss)
    (hs : ∀ g ∈ circuit.gates, ∃ s, g.Std n values s) {st : State} (hst : st.On n) (hp : (st.mat n).PosSemidef) :
    ∃ r, run so circuit st values = .ok (some r) ∧ applyOps so st circuit.iter values = .ok r ∧ r.On n ∧
      (r.mat n).PosSemidef ∧ (r.mat n).trace = (st.mat n).trace := by
  obtain ⟨r, h1, h2, h3⟩ := circuit_run so hc hst
  have key : ∀ (gs : List Gate) (nss : List (List StdNoise)), (∀ g ∈ gs, ∃ s, g.Std n values s) →
      List.Forall₂ Gate.NoiseIs gs nss → ∃ xs : List (Gate × StdGate × List StdNoise), xs.map Prod.fst = gs ∧
        ∀ x ∈ xs, x.1.Std n values x.2.1 ∧ x.1.NoiseIs x.2.2 := by
    intro gs nss hs hn
    induction hn with
    | nil => exact ⟨[], rfl, by simp⟩
    | @cons g ns gs nss h1 _ ih =>
      obtain ⟨s, h⟩ := hs g (by simp)
      obtain ⟨xs, e1, e2⟩ := ih fun g hg => hs g (List.mem_cons_of_mem _ hg)
      refine ⟨(g, s, ns) :: xs, by rw [List.map_cons, e1], ?_⟩
      intro x hx
      rcases List.mem_cons.1 hx with rfl | hx
      · exact ⟨h, h1⟩
      · exact e2 x hx
  obtain ⟨xs, e1, e2⟩ := key _ _ hs hc.noise
  obtain ⟨q, k1, k2, k3, -, k5⟩ := C11_physical so (xs := xs) (by
    rintro rfl; exact hc.ne e1.symm) e2 hst true
  have : q = r := by
    rw [applyOps, hc.plain.iter, opsToGates_prim, ← e1] at h2
    exact Except.ok.inj (k1.symm.trans h2)
  subst this
  exact ⟨q, h1, h2, k2, k5 hp, k3⟩

/-- **C71** (variational bound): for a normalised state (positive with trace one; state vectors of norm one), a circuit of
standard gates, noisy or not, and an observable that the code reads as the Hermitian operator `O`, the returned number
lies between any lower and upper bounds of the eigenvalues of `O`.  In particular it is not below the smallest one. -/
theorem C71_bound {circuit : Op} {nss : List (List StdNoise)} (hc : circuit.Circuit n values nss)
    (hs : ∀ g ∈ circuit.gates, ∃ s, g.Std n values s) (hf : values.Flat) {st : State} (hst : st.On n)
    (hp : (st.mat n).PosSemidef) (ht : (st.mat n).trace = 1) {o : Observable} {O : Matrix (Lab n) (Lab n) ℂ}
    (ho : o.Simple so n values O) (hO : O.IsHermitian) :
    ∃ x, expectation so eigh draw st circuit [o] values .ad 0 = .ok [x] ∧
      expectation so eigh draw st circuit [o] values .gpsr 0 = .ok [x] ∧
      ∀ lo hi : ℝ, (∀ (y : ℝ) (v : Lab n → ℂ), v ≠ 0 → O.mulVec v = (y : ℂ) • v → lo ≤ y ∧ y ≤ hi) → lo ≤ x ∧ x ≤ hi := by
  obtain ⟨r, -, h2, h3, h4, h5⟩ := run_physical so hc hs hst hp
  rw [ht] at h5
  have hx := ad_of_single so eigh draw hf.splits h2 (obs := [o]) (by simp) (.cons (ho.single so h3) .nil)
  refine ⟨_, hx, by rw [← C20_ad_gpsr so eigh draw hf]; exact hx, fun lo hi hb => ⟨?_, ?_⟩⟩
  · exact expVal_lower hO h4 h5 fun y v hv hy => (hb y v hv hy).1
  · exact expVal_upper hO h4 h5 fun y v hv hy => (hb y v hv hy).2

/-- **C71** (shots): under the same hypotheses on the state and the circuit, every finite-shot estimate lies between the
bounds too, whatever numbers of `[0, 1)` are drawn. -/
theorem C71_shots {circuit : Op} {nss : List (List StdNoise)} (hc : circuit.Circuit n values nss)
    (hs : ∀ g ∈ circuit.gates, ∃ s, g.Std n values s) {st : State} (hst : st.On n)
    (hp : (st.mat n).PosSemidef) (ht : (st.mat n).trace = 1) {o : Observable} {O : Matrix (Lab n) (Lab n) ℂ}
    (hm : o.Means (StdLeaf n values) values O) (ho : Op.ListedSum (StdLeaf n values) values o.ops O) (hO : O.IsHermitian)
    {k : ℤ} (hk : 1 ≤ k) (hd : ∀ j, draw k.toNat j ∈ Set.Ico (0 : ℝ) 1) :
    ∃ x, expectation so eigh draw st circuit [o] values .ad k = .ok [x] ∧
      ∀ lo hi : ℝ, (∀ (y : ℝ) (v : Lab n → ℂ), v ≠ 0 → O.mulVec v = (y : ℂ) • v → lo ≤ y ∧ y ≤ hi) → lo ≤ x ∧ x ≤ hi := by
  obtain ⟨r, h1, h2, h3⟩ := C29_unbiased_partial so eigh hc hst hm ho hO
  obtain ⟨q, k1, -, -, k4, k5⟩ := run_physical so hc hs hst hp
  obtain rfl : q = r := by rw [h1] at k1; cases k1; rfl
  obtain ⟨est, e1, -, e3⟩ := h3 k4 (k5.trans ht) k .ad hk (.inl rfl)
  exact ⟨_, e1 draw, fun lo hi hb => e3 _ hd lo hi hb⟩

/-! ## C72 -/

/-- The dictionary `dict(zip(names, vals))` of parameter values (docs/vqe.md:77) for distinct names. -/
def zipValues (names : List String) (vals : List ℝ) : Values := (names.zip vals).map fun e => (e.1, .num e.2)

theorem zipValues_keys {names : List String} {vals : List ℝ} (h : vals.length = names.length) :
    (zipValues names vals).map Prod.fst = names := by
  rw [zipValues, List.map_map]
  exact List.map_fst_zip h.ge

theorem zipValues_numeric {names : List String} {vals : List ℝ} (hn : names.Nodup) (h : vals.length = names.length) :
    (zipValues names vals).Numeric := by
  refine ⟨by rw [zipValues_keys h]; exact hn, ?_⟩
  intro e he
  obtain ⟨x, -, rfl⟩ := List.mem_map.1 he
  exact ⟨_, rfl⟩

theorem lookup_none {values : Values} {s : String} (h : s ∉ values.keys) : values.lookup s = none := by
  induction values with
  | nil => rfl
  | cons e l ih =>
    simp only [Values.keys, List.map_cons, List.mem_cons, not_or] at h
    have : (s == e.1) = false := by simpa using h.1
    rcases e with ⟨k, v⟩
    simp only [List.lookup, this]
    exact ih h.2

theorem prefix_ne {s t u : String} {c d : Char} (h : s = t ++ u) (ht : t.toList.head? = some c) (hs : s.toList.head? = some d) :
    c = d := by
  rw [h, String.toList_append] at hs
  rcases hl : t.toList with _ | ⟨x, l⟩
  · rw [hl] at ht; cases ht
  · rw [hl] at ht hs
    simp at ht hs
    rw [← ht, hs]

/-- `QuantumCircuit(n, gates)`. -/
def gateCircuit (n : ℕ) (gs : List Gate) : Op := mkCircuit n (.list (gs.map .prim))

theorem gateCircuit_gates (n : ℕ) (gs : List Gate) : (gateCircuit n gs).gates = gs := by
  simp only [gateCircuit, mkCircuit, OpArg.toList, Op.gates]
  induction gs with
  | nil => simp [Op.gatesList]
  | cons g gs ih => simp [Op.gatesList, Op.gates, ih]

theorem gateCircuit_plain (n : ℕ) (gs : List Gate) : (gateCircuit n gs).Plain := by
  refine .circ _ _ ?_
  simp only [OpArg.toList]
  induction gs with
  | nil => exact .nil
  | cons g gs ih => exact .cons (.prim g) ih

theorem pauliObs_registered (ts : List (ℝ × List (Pauli × ℕ))) : Op.AllRegistered (pauliObs ts).ops := by
  show Op.AllRegistered (ts.map pauliTerm)
  induction ts with
  | nil => simp [Op.AllRegistered]
  | cons t ts ih =>
    rw [List.map_cons, Op.AllRegistered, pauliTerm_eq, Op.Registered]
    refine ⟨⟨fun _ _ h => CompKind.noConfusion h, ?_⟩, ih⟩
    clear ih
    generalize t.2 = l
    induction l with
    | nil => simp [Op.AllRegistered]
    | cons e l ih =>
      rw [List.map_cons, Op.AllRegistered, Op.Registered]
      refine ⟨?_, ih⟩
      rcases e with ⟨P, q⟩
      cases P <;> trivial

theorem hea_uncontrolled {fresh : ℕ → String} {n L : ℕ} {rs : List Rot} {pre : String} {gs : List Gate}
    (h : hea fresh n L (Rot.fns rs) pre = .ok gs) (hph : Rot.PHASE ∉ rs) :
    ∀ g ∈ gs, g.Registered ∧ ∀ p, g.Uses p → ctlInts g.control = [] := by
  rw [Hea.hea_eq] at h
  cases h
  intro g hg
  simp only [List.mem_flatMap, Hea.block, List.mem_append, List.mem_mapIdx, List.mem_map] at hg
  obtain ⟨l, -, i, -, ⟨j, hj, rfl⟩ | ⟨k, -, rfl⟩⟩ := hg
  · have : rs[j] ≠ .PHASE := fun e => hph (e ▸ List.getElem_mem hj)
    generalize rs[j] = r at this
    cases r
    · exact ⟨trivial, fun _ _ => rfl⟩
    · exact ⟨trivial, fun _ _ => rfl⟩
    · exact ⟨trivial, fun _ _ => rfl⟩
    · exact absurd rfl this
  · exact ⟨trivial, fun p hp => hp.elim⟩

theorem vparams_names (strOf : ℝ → String) {fresh : ℕ → String} {n L : ℕ} {rs : List Rot} {pre : String} {gs : List Gate}
    (h : hea fresh n L (Rot.fns rs) pre = .ok gs) (s : String) :
    s ∈ (gateCircuit n gs).vparams strOf [] ↔ s ∈ gs.filterMap Gate.paramName := by
  have h1 := C36_vparams_partial strOf (k := n) (fs := []) (ops := gs.map Op.prim)
  have hg := gateCircuit_gates n gs
  simp only [gateCircuit, mkCircuit, OpArg.toList] at hg
  rw [hg] at h1
  have hcls : ∀ g ∈ gs, ∀ x, ¬ g.HasAngle (.num x) := by
    rw [Hea.hea_eq] at h
    cases h
    intro g hg x
    rcases Hea.mem_iff fresh L rs pre hg with ⟨r, i, hi, s, rfl⟩ | ⟨i, hi, rfl⟩
    · cases r <;> simp [Gate.HasAngle, Rot.gate, Gate.RX, Gate.RY, Gate.RZ, Gate.PHASE, mkGate]
    · simp [Gate.HasAngle, Gate.X, mkGate]
  obtain ⟨-, h2, -⟩ := h1 hcls
  rw [gateCircuit, mkCircuit, OpArg.toList, h2]
  simp only [List.not_mem_nil, not_false_iff, true_and, List.mem_filterMap]
  refine exists_congr fun g => and_congr_right fun _ => ?_
  rw [← Gate.uses_iff]
  rcases hc : g.cls with _ | ⟨p, _⟩ | ⟨p, _⟩ | _ <;> simp [Gate.HasAngle, Gate.Uses, hc]
  all_goals cases p <;> simp

theorem noiseless_noiseIs {gs : List Gate} (h : ∀ g ∈ gs, g.noise = none) :
    List.Forall₂ Gate.NoiseIs gs (gs.map fun _ => []) := by
  induction gs with
  | nil => exact .nil
  | cons g gs ih => exact .cons (.none (h g (by simp))) (ih fun g hg => h g (List.mem_cons_of_mem _ hg))

/-- **C72** (the workflow of docs/vqe.md): let `circuit` be `QuantumCircuit(n, hea(n, L, rots))` with at least two qubits,
one layer and one rotation function, none of which is `PHASE` (which has no parameter-shift gradient in the backward pass);
let `values` be `dict(zip(names, vals))`, where `names` lists the set `circuit.vparams` in any order; let `H` be a sum of
Pauli strings with real coefficients and the initial state a normalised vector.  Then `expectation` returns the energy
`E = ⟨ψ|H|ψ⟩` of the normalised output `ψ` of `run`, in the modes AD, GPSR and ADJOINT; the energy is not below any lower
bound of the eigenvalues of `H` (the ground-state energy); and the backward pass of GPSR returns the list of the partial
derivatives of `E` with respect to the parameters, in the order of the dictionary. -/
theorem C72_vqe {fresh : ℕ → String} (hinj : Function.Injective fresh) {L : ℕ} (hn : 2 ≤ n) (hL : 1 ≤ L) {rs : List Rot}
    (hrs : rs ≠ []) (hph : Rot.PHASE ∉ rs) {gs : List Gate} (h : hea fresh n L (Rot.fns rs) "v_" = .ok gs)
    (strOf : ℝ → String) {names : List String} (hnd : names.Nodup)
    (hnames : ∀ s, s ∈ names ↔ s ∈ (gateCircuit n gs).vparams strOf []) {vals : List ℝ} (hlen : vals.length = names.length)
    {ts : List (ℝ × List (Pauli × ℕ))} (hts : PauliTerms n ts) {a : NDArray ℂ} (ha : IsKet n a) (ha1 : normSq n a = 1) :
    ∃ (r : NDArray ℂ) (E : ℝ) (D : String → ℝ),
      run so (gateCircuit n gs) (.vec a) (zipValues names vals) = .ok (some (.vec r)) ∧ IsKet n r ∧ normSq n r = 1 ∧
      (E : ℂ) = ∑ b, star (ket n r b) * (pauliSum n ts).mulVec (ket n r) b ∧
      (∀ mode, mode = .ad ∨ mode = .gpsr ∨ mode = .adjoint →
        expectation so eigh draw (.vec a) (gateCircuit n gs) [pauliObs ts] (zipValues names vals) mode 0 = .ok [E]) ∧
      (∀ lo : ℝ, (∀ (y : ℝ) (v : Lab n → ℂ), v ≠ 0 → (pauliSum n ts).mulVec v = (y : ℂ) • v → lo ≤ y) → lo ≤ E) ∧
      (∀ p ∈ names, IsPartial (fun v => expectation so eigh draw (.vec a) (gateCircuit n gs) [pauliObs ts] v .ad 0)
        (zipValues names vals) p [D p]) ∧
      gpsrBwd eigh (jittedExpectation so (.vec a) [pauliObs ts]) (.list gs) (zipValues names vals)
        = .ok (names.map D) := by
  obtain ⟨nd, nlen, npre, -⟩ := C35_names hinj n L rs "v_" h
  have hmem : ∀ s, s ∈ names ↔ s ∈ gs.filterMap Gate.paramName := fun s => (hnames s).trans (vparams_names strOf h s)
  have hkeys : (zipValues names vals).keys = names := zipValues_keys hlen
  have hnum := zipValues_numeric hnd hlen
  obtain ⟨gs', e1, e2, -⟩ := C35_gates fresh n L rs "v_"
  obtain rfl : gs = gs' := by rw [h] at e1; cases e1; rfl
  have hgne : gs ≠ [] := by
    rintro rfl
    have : 0 < L * n * (rs.length + n) := Nat.mul_pos (Nat.mul_pos hL (by omega)) (by omega)
    rw [List.length_nil] at e2
    omega
  have hnne : names ≠ [] := by
    intro h0
    have h1 : gs.filterMap Gate.paramName = [] := List.eq_nil_iff_forall_not_mem.2 fun s hs => by
      have := (hmem s).2 hs
      rw [h0] at this
      cases this
    rw [h1] at nlen
    have : 0 < L * n * rs.length := Nat.mul_pos (Nat.mul_pos hL (by omega)) (List.length_pos_of_ne_nil hrs)
    rw [List.length_nil] at nlen
    omega
  -- every dictionary with these keys
  have hflat : ∀ v : Values, v.keys = names → v.Flat := by
    intro v hv
    refine .inl (lookup_none fun hc => ?_)
    rw [hv, hmem] at hc
    obtain ⟨t, ht⟩ := npre _ hc
    have := prefix_ne (c := 'v') (d := 'c') ht rfl rfl
    revert this
    decide
  have hstd : ∀ v : Values, v.Numeric → v.keys = names → ∀ g ∈ gs, g.noise = none ∧ ∃ s, g.Std n v s := by
    intro v hv hk
    refine C35_valid_partial (by omega) L rs "v_" h fun s hs => hv.lookup ?_
    rw [hk, hmem]
    exact hs
  have hcirc : ∀ v : Values, v.Numeric → v.keys = names → (gateCircuit n gs).Circuit n v (gs.map fun _ => []) := by
    intro v hv hk
    have hs := hstd v hv hk
    refine ⟨gateCircuit_plain n gs, by rw [gateCircuit_gates]; exact hgne, ?_, ?_⟩
    · rw [gateCircuit_gates]
      intro g hg
      obtain ⟨s, hs⟩ := (hs g hg).2
      exact hs.ok
    · rw [gateCircuit_gates]
      exact noiseless_noiseIs fun g hg => (hs g hg).1
  have hz : ∀ g ∈ (gateCircuit n gs).gates, g.noise = none := by
    rw [gateCircuit_gates]
    exact fun g hg => (hstd _ hnum hkeys g hg).1
  have hone : ∀ v : Values, v.Numeric → v.keys = names → ∃ x,
      expectation so eigh draw (.vec a) (gateCircuit n gs) [pauliObs ts] v .ad 0 = .ok [x] ∧
      expectation so eigh draw (.vec a) (gateCircuit n gs) [pauliObs ts] v .gpsr 0 = .ok [x] := by
    intro v hv hk
    obtain ⟨r, x, -, -, h3, -⟩ := C70_vector so eigh draw hts (hcirc v hv hk) hz (hflat v hk) ha
    exact ⟨x, h3, by rw [← C20_ad_gpsr so eigh draw (hflat v hk)]; exact h3⟩
  have hupd : ∀ p t, ((zipValues names vals).upd p t).Numeric ∧ ((zipValues names vals).upd p t).keys = names := by
    intro p t
    have hk := (Values.keys_set (zipValues names vals) p t).trans hkeys
    refine ⟨⟨by rw [show List.map Prod.fst _ = _ from hk]; exact hnd, ?_⟩, hk⟩
    intro e he
    obtain ⟨e', he', rfl⟩ := List.mem_map.1 he
    by_cases hp : e'.1 = p
    · rw [if_pos hp]; exact ⟨_, rfl⟩
    · rw [if_neg hp]; exact hnum.num e' he'
  obtain ⟨r, E, h1, h2, h3, h4⟩ := C70_vector so eigh draw hts (hcirc _ hnum hkeys) hz (hflat _ hkeys) ha
  have hphys := run_physical so (hcirc _ hnum hkeys) (by
    rw [gateCircuit_gates]; exact fun g hg => (hstd _ hnum hkeys g hg).2) (st := .vec a) ha (vec_posSemidef a)
  obtain ⟨q, q1, -, -, q4, q5⟩ := hphys
  obtain rfl : q = .vec r := by rw [h1] at q1; cases q1; rfl
  have hr1 : normSq n r = 1 := by
    rw [vec_trace, vec_trace, ha1] at q5
    exact_mod_cast q5
  have hE : E = expVal (pauliSum n ts) ((State.vec r).mat n) := by
    rw [expVal_vec, ← h4, Complex.ofReal_re]
  have hset : Setting so n (zipValues names vals) (gateCircuit n gs).gates (gs.map fun _ => []) (.vec a) [pauliObs ts]
      [pauliSum n ts] := by
    rw [gateCircuit_gates] at hz ⊢
    refine ⟨⟨hgne, fun g hg => (hstd _ hnum hkeys g hg).2, noiseless_noiseIs hz, ha, hnum, by simp, .cons ?_ .nil⟩, ?_⟩
    · intro v
      refine ⟨(C70_operator hts v).1, fun hm => absurd hm ?_⟩
      rintro (⟨ρ, e⟩ | hm)
      · cases e
      · exact hm hz
    · intro g hg p hp
      exact .inl ((hea_uncontrolled h hph g hg).2 p hp)
  obtain ⟨D, d1, d2⟩ := C23_bwd_partial so eigh draw (gateCircuit_plain n gs) hset (by
      rw [gateCircuit_gates]; exact singleUse_of_nodup nd) (by
      intro e
      rw [e] at hkeys
      exact hnne hkeys.symm) (by
      rw [gateCircuit_gates]; exact fun g hg => (hea_uncontrolled h hph g hg).1) (by
      simp only [List.mem_singleton, forall_eq]; exact pauliObs_registered ts)
  have hD : ∀ p ∈ names, D p = [(D p).sum] ∧
      IsPartial (fun v => expectation so eigh draw (.vec a) (gateCircuit n gs) [pauliObs ts] v .ad 0)
        (zipValues names vals) p (D p) := by
    intro p hp
    obtain ⟨x, f, f1, f2, f3, f4⟩ := d1 p (by rw [show List.map Prod.fst _ = _ from hkeys]; exact hp)
    have hl : (D p).length = 1 := by
      obtain ⟨u, u1⟩ := hupd p x
      obtain ⟨y, -, y2⟩ := hone _ u u1
      have := f2 x
      beta_reduce at this
      rw [y2] at this
      rw [← f3 x, ← Except.ok.inj this]
      rfl
    refine ⟨?_, x, f, f1, fun t => ?_, f3, f4⟩
    · obtain ⟨d, hd⟩ := List.length_eq_one_iff.1 hl
      rw [hd]; simp
    · have := f2 t
      beta_reduce at this
      rw [← C20_ad_gpsr so eigh draw (hflat _ (hupd p t).2)] at this
      exact this
  refine ⟨r, E, fun p => (D p).sum, h1, h2, hr1, h4, ?_, ?_, ?_, ?_⟩
  · rintro mode (rfl | rfl | rfl)
    · exact h3
    · rw [← C20_ad_gpsr so eigh draw (hflat _ hkeys)]; exact h3
    · rw [← C20_ad_adjoint_partial so eigh draw (hflat _ hkeys)]
      · exact h3
      · intro g hg
        refine hz g ?_
        rw [(gateCircuit_plain n gs).iter] at hg
        obtain ⟨g', hg', e⟩ := List.mem_map.1 hg
        cases e
        exact hg'
  · intro lo hlo
    rw [hE]
    refine expVal_lower (pauliSum_hermitian ts) q4 ?_ hlo
    rw [vec_trace, hr1]; simp
  · intro p hp
    have := hD p hp
    rw [← this.1]
    exact this.2
  · rw [gateCircuit_gates] at d2
    rw [d2, show List.map Prod.fst (zipValues names vals) = names from hkeys]

/-- The Hamiltonian of docs/vqe.md (coefficients rounded) meets the hypotheses of C70. -/
example : PauliTerms 4 [(-0.0996, [(.I, 0)]), (0.1711, [(.Z, 0)]), (0.1686, [(.Z, 0), (.Z, 1)]),
    (0.0453, [(.Y, 0), (.X, 1), (.X, 2), (.Y, 3)]), (-0.0453, [(.Y, 0), (.Y, 1), (.X, 2), (.X, 3)])] := by
  refine ⟨by simp, ?_⟩
  simp only [List.mem_cons, List.not_mem_nil, or_false, forall_eq_or_imp, forall_eq]
  refine ⟨?_, ?_, ?_, ?_, ?_⟩ <;> exact ⟨by simp, by decide, by simp⟩

/-- Non-vacuity of C70 and C71: a noisy circuit on a density matrix or vector with the observable `Z(0)`. -/
example : noisyX.Circuit 1 [] [[.bitFlip (1 / 4)]] ∧ (∀ g ∈ noisyX.gates, ∃ s, g.Std 1 [] s) ∧
    ((State.vec zero1).mat 1).PosSemidef ∧ ((State.vec zero1).mat 1).trace = 1 ∧
    obsZ.Simple so 1 [] (gateMat 1 StdGate.Z.mat [0] []) ∧ (gateMat 1 StdGate.Z.mat [0] []).IsHermitian := by
  refine ⟨noisyX_circuit, ?_, vec_posSemidef _, ?_, obsZ_simple so, gateZ_hermitian⟩
  · simp only [noisyX, mkCircuit, OpArg.toList, Op.gates, Op.gatesList, List.append_nil, List.mem_singleton, forall_eq]
    exact ⟨.X, .X _ _ _, rfl, ⟨.inr (.inl rfl), by decide⟩⟩
  · rw [vec_trace, normSq, sum_lab1]
    simp [ket, zero1_get]

/-- Non-vacuity of C72: the ansatz `hea(4, 5)` of docs/vqe.md, with the set of parameter names in any order and any values. -/
example (strOf : ℝ → String) : ∃ (gs : List Gate) (names : List String) (vals : List ℝ),
    hea unaryName 4 5 (Rot.fns [.RX, .RY, .RX]) "v_" = .ok gs ∧ names.Nodup ∧
    (∀ s, s ∈ names ↔ s ∈ (gateCircuit 4 gs).vparams strOf []) ∧ names.length = 60 ∧ vals.length = names.length := by
  obtain ⟨gs, h, -⟩ := C35_gates unaryName 4 5 [.RX, .RY, .RX] "v_"
  obtain ⟨h1, h2, -⟩ := C35_names unaryName_injective 4 5 [.RX, .RY, .RX] "v_" h
  exact ⟨gs, gs.filterMap Gate.paramName, List.replicate 60 0, h, h1, fun s => (vparams_names strOf h s).symm, h2, by simpa using h2.symm⟩

end Verif
