import Verif.Lemmas.NoiseErr
import Verif.Lemmas.MapArr
import Verif.Props.Apply

/-!
# Property theorems about noise and density matrices

C09, C10, C11, C12, C13, C42 (noisy gates), C43, C50 (dense states), C53.
-/

namespace Verif
open NDArray
open scoped ComplexOrder
variable {n : ℕ} {values : Values}

/-- **C09**: whenever a noise instance yields Kraus operators, `Σ K† K = 1`. -/
theorem C09_trace_preserving {ni : NoiseInstance} {ks : List (NDArray ℂ)} (h : ni.kraus = .ok ks) :
    (∀ k ∈ ks, k.shape = [2, 2]) ∧
    ∀ i j, i < 2 → j < 2 →
      (ks.map fun k => ∑ l ∈ Finset.range 2, star (k.get [l, i]) * k.get [l, j]).sum = if i = j then 1 else 0 := by
  obtain ⟨s, hs⟩ := NoiseInstance.is_of_kraus h
  obtain ⟨ks', h', hg⟩ := hs.kraus
  obtain rfl : ks' = ks := by rw [h] at h'; exact (Except.ok.inj h').symm
  exact ⟨fun k hk => (hg.isOp k hk).shape, hg.tp⟩

example : ∃ ks, (NoiseInstance.mk .generalizedAmplitudeDamping (.tuple [1 / 4, 1 / 3])).kraus = .ok ks :=
  let ⟨ks, h, _⟩ := (NoiseInstance.Is.generalizedAmplitudeDamping (p := 1 / 4) (γ := 1 / 3) (ps := []) (by norm_num)
    (by norm_num)).kraus
  ⟨ks, h⟩

/-- **C10**: for well-typed arguments the Kraus operators exist exactly when the probabilities are in range, and
otherwise ValueError is raised. -/
theorem C10_validation {ni : NoiseInstance} (h : ni.WellTyped) :
    ((∃ ks, ni.kraus = .ok ks) ↔ ni.InRange) ∧ (ni.kraus = .error .valueError ↔ ¬ ni.InRange) := by
  have good : ∀ {p : ℝ}, ¬ badProb p ↔ 0 ≤ p ∧ p ≤ 1 := by
    intro p
    simp only [badProb, not_or, not_lt, gt_iff_lt]
    exact ⟨fun h => ⟨h.2, h.1⟩, fun h => ⟨h.2, h.1⟩⟩
  obtain ⟨ty, ep⟩ := ni
  have float : ∀ (p : ℝ) (ks : List (NDArray ℂ)),
      ((∃ ks', (if badProb p then .error .valueError else .ok ks : Py (List (NDArray ℂ))) = .ok ks') ↔ 0 ≤ p ∧ p ≤ 1) ∧
      ((if badProb p then .error .valueError else .ok ks : Py (List (NDArray ℂ))) = .error .valueError
        ↔ ¬ (0 ≤ p ∧ p ≤ 1)) := by
    intro p ks
    rw [← good (p := p)]
    by_cases hb : badProb p <;> simp [hb]
  cases ty <;> rcases ep with p | ps <;> simp only [NoiseInstance.WellTyped] at h <;>
    simp only [NoiseInstance.kraus, NoiseInstance.InRange]
  · exact float p _
  · exact float p _
  · exact float p _
  · match ps, h with
    | px :: py :: pz :: ps, _ =>
      have hall : (¬ ∃ p ∈ px :: py :: pz :: ps, badProb p) ↔ ∀ p ∈ px :: py :: pz :: ps, 0 ≤ p ∧ p ≤ 1 := by
        push Not
        exact forall₂_congr fun p _ => good
      simp only [Verif.pauliChannel]
      rw [← hall, ← not_lt]
      by_cases hs : (px :: py :: pz :: ps).sum > 1 <;> 
        by_cases hb : ∃ p ∈ px :: py :: pz :: ps, badProb p <;> simp only [hs, hb, if_true, if_false] <;> simp
    | [], h => simp at h
    | [_], h => simp at h
    | [_, _], h => simp at h
  · exact float p _
  · exact float p _
  · match ps, h with
    | p :: γ :: ps, _ =>
      simp only [Verif.generalizedAmplitudeDamping, List.take_succ_cons, List.take_zero, List.forall_mem_cons,
        List.not_mem_nil, false_imp_iff, implies_true, and_true]
      rw [← good (p := p), ← good (p := γ)]
      by_cases hb : badProb p <;> by_cases hb' : badProb γ <;> simp [hb, hb']
    | [], h => simp at h
    | [_], h => simp at h

/-- **C10** (ill-typed arguments never yield Kraus operators). -/
theorem C10_ill_typed {ni : NoiseInstance} (h : ¬ ni.WellTyped) : ∃ e, ni.kraus = .error e := by
  rcases hk : ni.kraus with e | ks
  · exact ⟨e, rfl⟩
  · obtain ⟨s, hs⟩ := NoiseInstance.is_of_kraus hk
    exact absurd (by cases hs <;> simp [NoiseInstance.WellTyped]) h

example : (NoiseInstance.mk .pauliChannel (.tuple [1 / 2, 1 / 3, 1 / 2])).WellTyped ∧
    ¬ (NoiseInstance.mk .pauliChannel (.tuple [1 / 2, 1 / 3, 1 / 2])).InRange := by
  norm_num [NoiseInstance.WellTyped, NoiseInstance.InRange]

/-- **C10** (in a circuit): if some gate carries noise with a rejected probability, running the circuit raises. -/
theorem C10_circuit_refused (so : SetOrder) {ot : OpType} {gs : List Gate} (hok : ∀ g ∈ gs, g.Ok n ot values)
    {g : Gate} (hg : g ∈ gs) {nis : List NoiseInstance} (hn : g.noise = some nis) {ni : NoiseInstance} (hi : ni ∈ nis)
    (hbad : ¬ (ni.WellTyped ∧ ni.InRange)) {state : State} (hst : state.On n) (merge : Bool) :
    ∃ e, applyGates so state (.list gs) values ot false merge = .error e := by
  have hno : ¬ ∃ nss, List.Forall₂ Gate.NoiseIs gs nss := by
    rintro ⟨nss, hF⟩
    obtain ⟨i, hi', rfl⟩ := List.getElem_of_mem hg
    have := (List.forall₂_iff_get.1 hF).2 i hi' (by rw [← hF.length_eq]; exact hi')
    simp only [List.get_eq_getElem] at this
    generalize nss[i]'(by rw [← hF.length_eq]; exact hi') = ns at this
    cases this with
    | none h => rw [hn] at h; cases h
    | @some nis' _ h h1 _ =>
      obtain rfl : nis = nis' := by rw [hn] at h; exact Option.some.inj h
      obtain ⟨j, hj, rfl⟩ := List.getElem_of_mem hi
      have := (List.forall₂_iff_get.1 h1).2 j hj (by rw [← h1.length_eq]; exact hj)
      simp only [List.get_eq_getElem] at this
      obtain ⟨ks, hk, -⟩ := this.kraus
      by_cases hw : (nis[j]).WellTyped
      · exact hbad ⟨hw, (C10_validation hw).1.1 ⟨ks, hk⟩⟩
      · obtain ⟨e, he⟩ := C10_ill_typed hw
        rw [hk] at he; cases he
  cases state with
  | dm ρ => exact applyGates_dm_refused so hok hno hst merge
  | vec a =>
    have hz : ¬ ∀ g ∈ gs, g.noise = none := fun h => by rw [h g hg] at hn; cases hn
    rw [applyGates_vec_noisy so hz]
    exact applyGates_dm_refused so hok hno (densityMat_isDM hst).1 merge

section run
variable (so : SetOrder) {xs : List (Gate × StdGate × List StdNoise)}

theorem State.mat_densityMat {a : NDArray ℂ} (h : IsKet n a) :
    (State.dm (densityMat a)).mat n = (State.vec a).mat n := by
  change dmMat n (densityMat a).array = _
  rw [(densityMat_isDM h).2]; rfl

theorem run_mat (hne : xs ≠ []) (h : ∀ x ∈ xs, x.1.Std n values x.2.1 ∧ x.1.NoiseIs x.2.2) {state : State}
    (hst : state.On n) (merge : Bool) :
    ∃ r, applyGates so state (.list (xs.map Prod.fst)) values .unitary false merge = .ok r ∧ r.On n ∧
      r.mat n = stdRun n xs (state.mat n) := by
  cases state with
  | dm ρ =>
    obtain ⟨r, h1, h2, h3⟩ := applyGates_stdRun so hne h hst merge
    exact ⟨.dm r, h1, h2, h3⟩
  | vec a =>
    by_cases hz : ∀ g ∈ xs.map Prod.fst, g.noise = none
    · have hok : ∀ g ∈ xs.map Prod.fst, g.Ok n .unitary values := by
        intro g hg; obtain ⟨x, hx, rfl⟩ := List.mem_map.1 hg; exact (h x hx).1.ok
      obtain ⟨r, h1, h2, h3⟩ := applyGates_vec so (by simpa using hne) hok hz hst merge
      obtain ⟨d, k1, k2, k3⟩ := applyGates_stdRun so hne h (densityMat_isDM hst).1 merge
      obtain ⟨r', e1, e2⟩ := C08_dm_agrees so hok (by simpa using hne) hz hst merge merge
      obtain rfl : r = r' := by rw [h1] at e1; cases e1; rfl
      obtain rfl : d = densityMat r := by rw [k1] at e2; cases e2; rfl
      refine ⟨.vec r, h1, h2, ?_⟩
      rw [← State.mat_densityMat h2, ← State.mat_densityMat hst]
      exact k3
    · rw [applyGates_vec_noisy so hz]
      obtain ⟨r, h1, h2, h3⟩ := applyGates_stdRun so hne h (densityMat_isDM hst).1 merge
      refine ⟨.dm r, h1, h2, ?_⟩
      rw [← State.mat_densityMat hst]
      exact h3

/-- **C12**: a circuit of noisy public gates acts on the density operator as documented: each gate is applied first,
then its channels in tuple order on its target qubit (`stdRun`, with the channels of `SpecNoise`).  A state vector is
converted to a density matrix when some gate is noisy. -/
theorem C12_channels (hne : xs ≠ []) (h : ∀ x ∈ xs, x.1.Std n values x.2.1 ∧ x.1.NoiseIs x.2.2) {state : State}
    (hst : state.On n) (merge : Bool) :
    ∃ r, applyGates so state (.list (xs.map Prod.fst)) values .unitary false merge = .ok r ∧ r.On n ∧
      r.mat n = stdRun n xs (state.mat n) ∧
      ((∃ ρ, r = .dm ρ) ↔ (∃ ρ, state = .dm ρ) ∨ ∃ x ∈ xs, x.1.noise ≠ none) := by
  obtain ⟨r, h1, h2, h3⟩ := run_mat so hne h hst merge
  refine ⟨r, h1, h2, h3, ?_⟩
  cases state with
  | dm ρ =>
    obtain ⟨r', e1, -, -⟩ := applyGates_stdRun so hne h hst merge
    rw [e1] at h1; cases h1; simp
  | vec a =>
    by_cases hz : ∀ g ∈ xs.map Prod.fst, g.noise = none
    · have hok : ∀ g ∈ xs.map Prod.fst, g.Ok n .unitary values := by
        intro g hg; obtain ⟨x, hx, rfl⟩ := List.mem_map.1 hg; exact (h x hx).1.ok
      obtain ⟨r', e1, -, -⟩ := applyGates_vec so (by simpa using hne) hok hz hst merge
      rw [e1] at h1; cases h1
      simp only [reduceCtorEq, exists_false, false_or, false_iff]
      rintro ⟨x, hx, hx'⟩
      exact hx' (hz _ (List.mem_map_of_mem hx))
    · rw [applyGates_vec_noisy so hz] at h1
      obtain ⟨r', e1, -, -⟩ := applyGates_stdRun so hne h (densityMat_isDM hst).1 merge
      rw [e1] at h1; cases h1
      simp only [State.dm.injEq, exists_eq', reduceCtorEq, exists_false, false_or, true_iff]
      push Not at hz
      obtain ⟨g, hg, hn⟩ := hz
      obtain ⟨x, hx, rfl⟩ := List.mem_map.1 hg
      exact ⟨x, hx, hn⟩

/-- A concrete noisy circuit: a controlled rotation with two noise channels, then a noiseless SWAP. -/
example : ∀ x ∈ [(Gate.RX (.str "a") (.int 2) (.int 0) (some [⟨.bitFlip, .float (1 / 3)⟩,
      ⟨.pauliChannel, .tuple [1 / 4, 1 / 4, 1 / 4]⟩]), StdGate.RX 5, [StdNoise.bitFlip (1 / 3), .pauli (1 / 4) (1 / 4) (1 / 4)]),
    (Gate.SWAP (.tuple [2, 1]), StdGate.SWAP, [])],
    x.1.Std 3 [("a", .num 5)] x.2.1 ∧ x.1.NoiseIs x.2.2 := by
  intro x hx
  simp only [List.mem_cons, List.not_mem_nil, or_false] at hx
  rcases hx with rfl | rfl
  · refine ⟨⟨.RX _ _ _ (.str rfl) (by simp), rfl, ⟨.inr (.inr ⟨[0], rfl⟩), by decide⟩⟩,
      .some rfl (.cons (.bitFlip (by norm_num)) (.cons (.pauli ?_ (by norm_num)) .nil)) (.inr ⟨2, rfl⟩)⟩
    intro p hp
    simp only [List.mem_cons, List.not_mem_nil, or_false] at hp
    rcases hp with rfl | rfl | rfl <;> norm_num
  · exact ⟨⟨.SWAP _ _ _, rfl, ⟨.inr (.inl rfl), by decide⟩⟩, .none rfl⟩

/-- **C12** for any gate class whose operator is well-sized (e.g. Hamiltonian evolution), any operator type. -/
theorem C12_channels_any (hρ : IsDM n ρ) {ot : OpType} {gs : List Gate} {nss : List (List StdNoise)} (hne : gs ≠ [])
    (hok : ∀ g ∈ gs, g.Ok n ot values) (hn : List.Forall₂ Gate.NoiseIs gs nss) (merge : Bool) :
    ∃ r, applyGates so (.dm ρ) (.list gs) values ot false merge = .ok (.dm r) ∧ IsDM n r ∧
      dmMat n r.array = noisyRun n ot values (gs.zip nss) (dmMat n ρ.array) :=
  applyGates_noisy_dm so hne hok hn hρ merge

theorem State.hermitian_vec (a : NDArray ℂ) : ((State.vec a).mat n).IsHermitian := by
  ext x y; simp [State.mat, mul_comm]

/-- **C11**: running noisy or noiseless public gates preserves trace, Hermiticity and positivity. -/
theorem C11_physical (hne : xs ≠ []) (h : ∀ x ∈ xs, x.1.Std n values x.2.1 ∧ x.1.NoiseIs x.2.2) {state : State}
    (hst : state.On n) (merge : Bool) :
    ∃ r, applyGates so state (.list (xs.map Prod.fst)) values .unitary false merge = .ok r ∧ r.On n ∧
      (r.mat n).trace = (state.mat n).trace ∧
      ((state.mat n).IsHermitian → (r.mat n).IsHermitian) ∧
      ((state.mat n).PosSemidef → (r.mat n).PosSemidef) := by
  obtain ⟨r, h1, h2, h3⟩ := run_mat so hne h hst merge
  obtain ⟨S, hS⟩ : ∃ S : List ℕ, S = xs.flatMap fun x => ctlInts x.1.control ++ x.1.target := ⟨_, rfl⟩
  have hk : KrausOn n S (stdRun n xs) := krausOn_run hne h fun x hx q hq => by
    rw [hS]; exact List.mem_flatMap.2 ⟨x, hx, hq⟩
  refine ⟨r, h1, h2, ?_, ?_, ?_⟩
  · rw [h3, hk.trace]
  · rw [h3]; exact hk.hermitian
  · rw [h3]; exact hk.posSemidef

/-- The maximally entangled density matrix is positive with trace one: a non-trivial instance. -/
example : ((State.vec ⟨[2], [3 / 5, 4 / 5]⟩).mat 1).PosSemidef := by
  have : (State.vec ⟨[2], [3 / 5, 4 / 5]⟩).mat 1 = Matrix.vecMulVec (fun b : Lab 1 => (⟨[2], [3 / 5, 4 / 5]⟩ : NDArray ℂ).get b.bits)
      (star fun b : Lab 1 => (⟨[2], [3 / 5, 4 / 5]⟩ : NDArray ℂ).get b.bits) := rfl
  rw [this]
  exact Matrix.posSemidef_vecMulVec_self_star _

/-- **C43**: the joint distribution of the qubits outside `S` is unchanged by gates (noisy or not) whose targets and
controls lie in `S`.  `a` fixes the outcomes outside `S`; the diagonal of the density operator holds the outcome
probabilities (`|ψ_b|²` for a state vector). -/
theorem C43_locality (hne : xs ≠ []) (h : ∀ x ∈ xs, x.1.Std n values x.2.1 ∧ x.1.NoiseIs x.2.2) {S : List ℕ}
    (hS : ∀ x ∈ xs, ∀ q ∈ ctlInts x.1.control ++ x.1.target, q ∈ S) {state : State} (hst : state.On n) (merge : Bool)
    (a : Lab n) :
    ∃ r, applyGates so state (.list (xs.map Prod.fst)) values .unitary false merge = .ok r ∧
      ∑ b with Lab.AgreeOff S a b, r.mat n b b = ∑ b with Lab.AgreeOff S a b, state.mat n b b := by
  obtain ⟨r, h1, h2, h3⟩ := run_mat so hne h hst merge
  exact ⟨r, h1, by rw [h3, (krausOn_run hne h hS).marginal]⟩

theorem State.mat_vec_diag (a : NDArray ℂ) (b : Lab n) :
    (State.vec a).mat n b b = ((Complex.normSq (a.get b.bits) : ℝ) : ℂ) := by
  simp [State.mat, Complex.mul_conj]

/-- **C43** spelled out for state vectors and noiseless gates. -/
theorem C43_locality_vec {gs : List Gate} {ss : List StdGate}
    (h : List.Forall₂ (Gate.Std n values) gs ss) (hne : gs ≠ []) (hnz : ∀ g ∈ gs, g.noise = none) {S : List ℕ}
    (hS : ∀ g ∈ gs, ∀ q ∈ ctlInts g.control ++ g.target, q ∈ S) {st : NDArray ℂ} (hst : IsKet n st) (merge : Bool)
    (a : Lab n) :
    ∃ r, applyGates so (.vec st) (.list gs) values .unitary false merge = .ok (.vec r) ∧
      ∑ b with Lab.AgreeOff S a b, Complex.normSq (r.get b.bits)
        = ∑ b with Lab.AgreeOff S a b, Complex.normSq (st.get b.bits) := by
  obtain ⟨xs, hxs, hx⟩ : ∃ xs : List (Gate × StdGate × List StdNoise), xs.map Prod.fst = gs ∧
      ∀ x ∈ xs, x.1.Std n values x.2.1 ∧ x.1.NoiseIs x.2.2 := by
    clear hne hS
    induction h with
    | nil => exact ⟨[], rfl, by simp⟩
    | @cons g s gs ss h _ ih =>
      obtain ⟨xs, e, hx⟩ := ih fun g hg => hnz g (by simp [hg])
      exact ⟨(g, s, []) :: xs, by simp [e], by
        simp only [List.forall_mem_cons]; exact ⟨⟨h, .none (hnz g (by simp))⟩, hx⟩⟩
  have hne' : xs ≠ [] := by rintro rfl; exact hne hxs.symm
  obtain ⟨r, h1, -, -⟩ := applyGates_vec so hne (forall₂_std_ok h) hnz hst merge
  obtain ⟨r', e1, e2⟩ := C43_locality so hne' hx (S := S)
    (fun x hx q hq => hS x.1 (hxs ▸ List.mem_map_of_mem hx) q hq) (state := .vec st) hst merge a
  rw [hxs, h1] at e1
  cases e1
  refine ⟨r, h1, ?_⟩
  simp only [State.mat_vec_diag] at e2
  exact_mod_cast e2

/-- **C42** (noisy gates): gates on disjoint qubits, with any noise, commute on every state. -/
theorem C42_disjoint_commute_noisy {g h : Gate} {s s' : StdGate} {ns ns' : List StdNoise}
    (hg : g.Std n values s) (hgn : g.NoiseIs ns) (hh : h.Std n values s') (hhn : h.NoiseIs ns')
    (hd : ∀ q ∈ ctlInts g.control ++ g.target, q ∉ ctlInts h.control ++ h.target) {state : State}
    (hst : state.On n) (merge merge' : Bool) :
    applyGates so state (.list [g, h]) values .unitary false merge
      = applyGates so state (.list [h, g]) values .unitary false merge' ∧
    ∃ r, applyGates so state (.list [g, h]) values .unitary false merge = .ok r := by
  by_cases hz : g.noise = none ∧ h.noise = none
  · refine C42_disjoint_commute so hg.ok hh.ok hz.1 hz.2 hd ?_ merge merge'
    cases state with
    | vec a => exact .inl ⟨a, rfl, hst⟩
    | dm ρ => exact .inr ⟨ρ, rfl, hst⟩
  have main : ∀ ρ : DensityMatrix ℂ, IsDM n ρ → applyGates so (.dm ρ) (.list [g, h]) values .unitary false merge
      = applyGates so (.dm ρ) (.list [h, g]) values .unitary false merge' ∧
    ∃ r, applyGates so (.dm ρ) (.list [g, h]) values .unitary false merge = .ok r := by
    intro ρ hρ
    obtain ⟨r, h1, h2, h3⟩ := applyGates_stdRun so (xs := [(g, s, ns), (h, s', ns')]) (values := values) (by simp)
      (by simp only [List.forall_mem_cons]; exact ⟨⟨hg, hgn⟩, ⟨hh, hhn⟩, by simp⟩) hρ merge
    obtain ⟨r', h1', h2', h3'⟩ := applyGates_stdRun so (xs := [(h, s', ns'), (g, s, ns)]) (values := values) (by simp)
      (by simp only [List.forall_mem_cons]; exact ⟨⟨hh, hhn⟩, ⟨hg, hgn⟩, by simp⟩) hρ merge'
    simp only [List.map_cons, List.map_nil] at h1 h1'
    refine ⟨?_, _, h1⟩
    rw [h1, h1', dm_ext h2 h2']
    rw [h3, h3']
    simp only [stdRun, List.foldl_cons, List.foldl_nil]
    exact (KrausOn.comm hd (krausOn_step hg hgn fun q hq => hq) (krausOn_step hh hhn fun q hq => hq) _).symm
  cases state with
  | dm ρ => exact main ρ hst
  | vec a =>
    rw [applyGates_vec_noisy so, applyGates_vec_noisy so]
    · exact main _ (densityMat_isDM hst).1
    · intro h'; exact hz ⟨h' g (by simp), h' h (by simp)⟩
    · intro h'; exact hz ⟨h' g (by simp), h' h (by simp)⟩

/-- The channels with zero error probability do nothing. -/
theorem chan_zero {s : StdNoise} (h : s.IsZero) {t : ℕ} (ht : t < n) (ρ : Matrix (Lab n) (Lab n) ℂ) :
    s.chan n t ρ = ρ := by
  have h1 : onQubit n !![1, 0; 0, ((√(1 - 0) : ℝ) : ℂ)] t = 1 := by
    rw [show !![1, 0; 0, ((√(1 - 0) : ℝ) : ℂ)] = !![1, 0; 0, 1] by ext i j; fin_cases i <;> fin_cases j <;> simp]
    exact onQubit_one
  have h2 : onQubit n !![((√(1 - 0) : ℝ) : ℂ), 0; 0, 1] t = 1 := by
    rw [show !![((√(1 - 0) : ℝ) : ℂ), 0; 0, 1] = !![1, 0; 0, 1] by ext i j; fin_cases i <;> fin_cases j <;> simp]
    exact onQubit_one
  have h0 : onQubit n 0 t = 0 := by
    have := onQubit_smul (n := n) (t := t) 0 0 0 0 0
    rw [show (0 : Matrix (Fin 2) (Fin 2) ℂ) = !![0, 0; 0, 0] by ext i j; fin_cases i <;> fin_cases j <;> rfl]
    simpa using this
  have z1 : !![0, ((√0 : ℝ) : ℂ); 0, 0] = 0 := by ext i j; fin_cases i <;> fin_cases j <;> simp
  have z2 : !![0, 0; ((√0 : ℝ) : ℂ), 0] = 0 := by ext i j; fin_cases i <;> fin_cases j <;> simp
  have z3 : !![0, 0; 0, ((√0 : ℝ) : ℂ)] = 0 := by ext i j; fin_cases i <;> fin_cases j <;> simp
  have c0 : conjBy 0 ρ = 0 := by simp [conjBy]
  cases s with
  | bitFlip p => simp only [StdNoise.IsZero] at h; subst h; simp [StdNoise.chan]
  | phaseFlip p => simp only [StdNoise.IsZero] at h; subst h; simp [StdNoise.chan]
  | depolarizing p => simp only [StdNoise.IsZero] at h; subst h; simp [StdNoise.chan]
  | pauli px py pz => simp only [StdNoise.IsZero] at h; obtain ⟨rfl, rfl, rfl⟩ := h; simp [StdNoise.chan]
  | amplitudeDamping p =>
    simp only [StdNoise.IsZero] at h; subst h
    simp only [StdNoise.chan, h1, z1, h0, c0, conjBy_one, add_zero]
  | phaseDamping p =>
    simp only [StdNoise.IsZero] at h; subst h
    simp only [StdNoise.chan, h1, z3, h0, c0, conjBy_one, add_zero]
  | generalizedAmplitudeDamping p γ =>
    simp only [StdNoise.IsZero] at h; subst h
    simp only [StdNoise.chan, h1, h2, z1, z2, h0, c0, conjBy_one, add_zero, ← add_smul]
    rw [← Complex.ofReal_add]; simp

/-- **C13** (density matrices): if all noise instances have error probability zero, the circuit acts exactly as the
same circuit without noise. -/
theorem C13_zero_noise (hne : xs ≠ []) (h : ∀ x ∈ xs, x.1.Std n values x.2.1 ∧ x.1.NoiseIs x.2.2)
    (hz : ∀ x ∈ xs, ∀ s ∈ x.2.2, s.IsZero) {ρ : DensityMatrix ℂ} (hρ : IsDM n ρ) (merge merge' : Bool) :
    applyGates so (.dm ρ) (.list (xs.map Prod.fst)) values .unitary false merge
      = applyGates so (.dm ρ) (.list (xs.map fun x => { x.1 with noise := none })) values .unitary false merge' ∧
    ∃ r, applyGates so (.dm ρ) (.list (xs.map Prod.fst)) values .unitary false merge = .ok r := by
  have hstrip : ∀ {g : Gate} {s : StdGate}, g.Std n values s → Gate.Std n values { g with noise := none } s := by
    intro g s hg
    refine ⟨?_, hg.arity, ⟨hg.valid.ctl, hg.valid.dims⟩⟩
    cases hg.is
    · exact .I _ _ _
    · exact .X _ _ _
    · exact .Y _ _ _
    · exact .Z _ _ _
    · exact .H _ _ _
    · exact .S _ _ _
    · exact .T _ _ _
    · exact .SWAP _ _ _
    · rename_i hp h; exact .RX _ _ _ hp h
    · rename_i hp h; exact .RY _ _ _ hp h
    · rename_i hp h; exact .RZ _ _ _ hp h
    · rename_i hp h; exact .PHASE _ _ _ hp h
  obtain ⟨r, h1, h2, h3⟩ := applyGates_stdRun so hne h hρ merge
  obtain ⟨r', h1', h2', h3'⟩ := applyGates_stdRun so
    (xs := xs.map fun x => ({ x.1 with noise := none }, x.2.1, [])) (values := values) (by simpa using hne)
    (by
      intro y hy
      obtain ⟨x, hx, rfl⟩ := List.mem_map.1 hy
      exact ⟨hstrip (h x hx).1, .none rfl⟩) hρ merge'
  rw [List.map_map] at h1'
  refine ⟨?_, _, h1⟩
  have e : stdRun n xs (dmMat n ρ.array)
      = stdRun n (xs.map fun x => ({ x.1 with noise := none }, x.2.1, [])) (dmMat n ρ.array) := by
    generalize dmMat n ρ.array = A
    rw [stdRun, stdRun, List.foldl_map]
    clear h1 h3 h1' h3' hne
    induction xs generalizing A with
    | nil => rfl
    | cons x xs ih =>
      rw [List.foldl_cons, List.foldl_cons]
      have hstep : noisyStep n (stdMat n x.1 x.2.1) (x.1.target.headD 0) x.2.2 A
          = noisyStep n (stdMat n { x.1 with noise := none } x.2.1) (x.1.target.headD 0) [] A := by
        simp only [noisyStep, List.foldl_nil]
        change _ = conjBy (stdMat n x.1 x.2.1) A
        generalize conjBy (stdMat n x.1 x.2.1) A = B
        have hzx := hz x (by simp)
        have hnx := (h x (by simp)).2
        have hvx := (h x (by simp)).1.valid.dims
        generalize x.2.2 = l at hzx hnx
        cases hnx with
        | none h => simp_all
        | @some nis ns hn1 hn2 ht =>
          rcases ht with rfl | ⟨t, ht⟩
          · cases hn2; simp_all
          · have htn : t < n := hvx.lt t (by simp [ht])
            rw [ht, List.headD_cons]
            clear hn2 hn1
            induction l with
            | nil => rfl
            | cons s l ihl =>
              rw [List.foldl_cons, chan_zero (hzx s (by simp)) htn]
              exact ihl fun s hs => hzx s (by simp [hs])
      rw [hstep]
      exact ih (fun y hy => h y (by simp [hy])) (fun y hy => hz y (by simp [hy])) _
  rw [h1, show (xs.map fun x => ({ x.1 with noise := none } : Gate)) = xs.map (Prod.fst ∘ fun x =>
    (({ x.1 with noise := none } : Gate), x.2.1, ([] : List StdNoise))) from rfl, h1', dm_ext h2 h2' (by rw [h3, h3', e])]

/-- **C13** (state vectors): with zero error probabilities the result is the density matrix of the noiseless
result. -/
theorem C13_zero_noise_vec (hne : xs ≠ []) (h : ∀ x ∈ xs, x.1.Std n values x.2.1 ∧ x.1.NoiseIs x.2.2)
    (hz : ∀ x ∈ xs, ∀ s ∈ x.2.2, s.IsZero) (hn : ∃ x ∈ xs, x.1.noise ≠ none) {st : NDArray ℂ} (hst : IsKet n st)
    (merge merge' : Bool) :
    ∃ r, applyGates so (.vec st) (.list (xs.map fun x => { x.1 with noise := none })) values .unitary false merge'
        = .ok (.vec r) ∧
      applyGates so (.vec st) (.list (xs.map Prod.fst)) values .unitary false merge = .ok (.dm (densityMat r)) := by
  have hz' : ¬ ∀ g ∈ xs.map Prod.fst, g.noise = none := by
    obtain ⟨x, hx, hx'⟩ := hn
    exact fun h => hx' (h _ (List.mem_map_of_mem hx))
  rw [applyGates_vec_noisy so hz', (C13_zero_noise so hne h hz (densityMat_isDM hst).1 merge merge').1]
  refine C08_dm_agrees so ?_ (by simpa using hne) ?_ hst merge' merge'
  · intro g hg
    obtain ⟨x, hx, rfl⟩ := List.mem_map.1 hg
    have := (h x hx).1.ok
    exact ⟨this.op, ⟨this.valid.ctl, this.valid.dims⟩⟩
  · intro g hg
    obtain ⟨x, -, rfl⟩ := List.mem_map.1 hg
    rfl

example : (StdNoise.generalizedAmplitudeDamping (1 / 3) 0).IsZero ∧
    (NoiseInstance.mk .generalizedAmplitudeDamping (.tuple [1 / 3, 0])).Is (.generalizedAmplitudeDamping (1 / 3) 0) :=
  ⟨rfl, .generalizedAmplitudeDamping (by norm_num) (by norm_num)⟩

/-- **C50** (dense states): noise on a gate with several targets is always refused, never simulated wrongly. -/
theorem C50_multi_target_refused {ot : OpType} {gs : List Gate} (hok : ∀ g ∈ gs, g.Ok n ot values) {g : Gate}
    (hg : g ∈ gs) {ni : NoiseInstance} {nis : List NoiseInstance} (hn : g.noise = some (ni :: nis))
    (ht : g.target.length ≠ 1) {state : State} (hst : state.On n) (merge : Bool) :
    ∃ e, applyGates so state (.list gs) values ot false merge = .error e := by
  have hno : ¬ ∃ nss, List.Forall₂ Gate.NoiseIs gs nss := by
    rintro ⟨nss, hF⟩
    obtain ⟨i, hi', rfl⟩ := List.getElem_of_mem hg
    have := (List.forall₂_iff_get.1 hF).2 i hi' (by rw [← hF.length_eq]; exact hi')
    simp only [List.get_eq_getElem] at this
    generalize nss[i]'(by rw [← hF.length_eq]; exact hi') = ns at this
    cases this with
    | none h => rw [hn] at h; cases h
    | @some nis' _ h h1 ht' =>
      obtain rfl : ni :: nis = nis' := by rw [hn] at h; exact Option.some.inj h
      rcases ht' with ht' | ⟨t, ht'⟩
      · cases ht'
      · exact ht (by rw [ht']; rfl)
  cases state with
  | dm ρ => exact applyGates_dm_refused so hok hno hst merge
  | vec a =>
    have hz : ¬ ∀ g ∈ gs, g.noise = none := fun h => by rw [h g hg] at hn; cases hn
    rw [applyGates_vec_noisy so hz]
    exact applyGates_dm_refused so hok hno (densityMat_isDM hst).1 merge

example : (Gate.SWAP (.tuple [0, 2]) .none (some [⟨.bitFlip, .float (1 / 3)⟩])).Ok 3 .unitary [] :=
  Gate.Std.ok ⟨.SWAP _ _ _, rfl, ⟨.inl rfl, by decide⟩⟩
end run

/-- **C53** (what holds): `apply_kraus_operator` returns `K ρ K†` when the targets are the first qubits in order —
in particular for the full register, the only way the simulator itself calls it.  Missing: other targets, for which
the claim is false (`C53_kraus_false`). -/
theorem C53_kraus_partial {K : Type} [CommRing K] [StarRing K] {m : ℕ} {k : NDArray K} {ρ : DensityMatrix K} (hk : IsOp m k)
    (hρ : IsDM n ρ) (hm : m ≤ n) :
    ∃ r, applyKrausOperator k ρ.array (List.range m) = .ok r ∧
      dmMat n r = gateMat n (entries k) (List.range m) [] * dmMat n ρ.array *
        (gateMat n (entries k) (List.range m) []).conjTranspose := by
  obtain ⟨x1, x2, x3, r, e1, e2, e3, e4, s, w, h⟩ := sandwich_dm (n := n) (k := m) hk.shape hρ.shape hm
  have hsz : k.size = 2 ^ (2 * m) := by rw [size, hk.shape]; simp [two_mul, pow_add]
  refine ⟨r, ?_, h⟩
  rw [applyKrausOperator]
  simp only [hsz, intLog2_pow, reshape, hk.shape, List.length_range]
  rw [if_pos (by simp [two_mul, pow_add])]
  simp only [bind, Except.bind]
  rw [moveaxis_self hρ.shape hρ.wf (by omega), show 2 * m / 2 = m by omega]
  simp only [e1, e2, e3, e4]
  rw [moveaxis_self s w (by omega)]

section
attribute [local instance] intStar

private theorem kraus_witness : applyKrausOperator ⟨[2, 2], [0, 1, 1, 0]⟩
    (⟨[2, 2, 2, 2], 1 :: List.replicate 15 0⟩ : NDArray ℤ) [1]
    = .ok ⟨[2, 2, 2, 2], [0, 0, 0, 0, 0, 0, 1, 0, 0, 0, 0, 0, 0, 0, 0, 0]⟩ := by decide +kernel

/-- **C53** is false in general: `X` on qubit 1 of `|00⟩⟨00|` should give `|01⟩⟨01|`, but `apply_kraus_operator` returns
`|01⟩⟨10|` (the column side acts on qubit 0). -/
theorem C53_kraus_false :
    ¬ ∀ (n m : ℕ) (k : NDArray ℂ) (ρ : DensityMatrix ℂ) (ts : List ℕ), IsOp m k → IsDM n ρ → ts.length = m →
      ValidDims n ts →
      ∃ r, applyKrausOperator k ρ.array ts = .ok r ∧
        dmMat n r = gateMat n (entries k) ts [] * dmMat n ρ.array * (gateMat n (entries k) ts []).conjTranspose := by
  intro H
  obtain ⟨r, h1, h2⟩ := H 2 1 (mapArr (Int.castRingHom ℂ) ⟨[2, 2], [0, 1, 1, 0]⟩)
    ⟨mapArr (Int.castRingHom ℂ) ⟨[2, 2, 2, 2], 1 :: List.replicate 15 0⟩⟩ [1] ⟨rfl, rfl⟩ ⟨rfl, rfl⟩ rfl (by decide)
  rw [applyKrausOperator_mapArr (Int.castRingHom ℂ) (by intro x; exact (map_intCast (starRingEnd ℂ) x).symm), kraus_witness] at h1
  cases h1
  have h3 := congrFun (congrFun h2 ![0, 1]) ![1, 0]
  have hr : ∀ y : Lab 2, y 0 = 1 → gateMat 2 (entries (mapArr (Int.castRingHom ℂ) ⟨[2, 2], [0, 1, 1, 0]⟩)) [1] []
      ![0, 1] y = 0 := by
    intro y hy
    rw [gateMat, if_pos (by simp), if_neg]
    intro h
    have := h 0 (by simp)
    rw [hy] at this
    simp at this
  rw [Matrix.mul_assoc, Matrix.mul_apply] at h3
  have : ∀ y : Lab 2, gateMat 2 (entries (mapArr (Int.castRingHom ℂ) ⟨[2, 2], [0, 1, 1, 0]⟩)) [1] [] ![0, 1] y *
      (dmMat 2 (mapArr (Int.castRingHom ℂ) ⟨[2, 2, 2, 2], 1 :: List.replicate 15 0⟩) *
        (gateMat 2 (entries (mapArr (Int.castRingHom ℂ) ⟨[2, 2], [0, 1, 1, 0]⟩)) [1] []).conjTranspose) y ![1, 0] = 0 := by
    intro y
    by_cases hy : y 0 = 1
    · rw [hr y hy, zero_mul]
    · have : ∀ z : Lab 2, dmMat 2 (mapArr (Int.castRingHom ℂ) ⟨[2, 2, 2, 2], 1 :: List.replicate 15 0⟩) y z *
          (gateMat 2 (entries (mapArr (Int.castRingHom ℂ) ⟨[2, 2], [0, 1, 1, 0]⟩)) [1] []).conjTranspose z ![1, 0] = 0 := by
        intro z
        rw [Matrix.conjTranspose_apply]
        by_cases hz : z 0 = 0
        · rw [gateMat, if_pos (by simp), if_neg]
          · simp
          · intro h
            have := h 0 (by simp)
            rw [hz] at this
            simp at this
        · rw [dmMat, get_mapArr]
          have : NDArray.get ⟨[2, 2, 2, 2], 1 :: List.replicate 15 0⟩ (y.bits ++ z.bits) = (0 : ℤ) := by
            revert hz hy; revert y z; decide
          rw [this]; simp
      rw [Matrix.mul_apply, Finset.sum_eq_zero fun z _ => this z, mul_zero]
  rw [Finset.sum_eq_zero fun y _ => this y] at h3
  rw [dmMat, get_mapArr] at h3
  have h4 : NDArray.get ⟨[2, 2, 2, 2], [0, 0, 0, 0, 0, 0, 1, 0, 0, 0, 0, 0, 0, 0, 0, 0]⟩
      (Lab.bits (![0, 1] : Lab 2) ++ Lab.bits (![1, 0] : Lab 2)) = (1 : ℤ) := by decide
  rw [h4] at h3
  simp at h3
end

end Verif
