import Verif.Lemmas.Misc

/-!
# Property theorems about gate application on state vectors and density matrices

C01, C02, C03, C05, C06, C07, C08, C42, C44.
-/

namespace Verif
open NDArray

section operators
variable {K : Type} [CommRing K] {n k : ℕ}

/-- **C01** (`apply_operator` on arrays).  For every register size, operator size, target order and control tuple,
the amplitudes of the result are the textbook ones. -/
theorem C01_apply_operator {op st : NDArray K} (hop : IsOp k op) (hst : IsKet n st) {ts cs : List ℕ}
    (hts : ts.length = k) (hv : ValidDims n (cs ++ ts)) :
    ∃ r, applyOperator st op ts (ctlOf cs) = .ok r ∧ r.shape = List.replicate n 2 ∧
      ∀ b : Lab n, r.get b.bits = if ∀ c ∈ cs, b.bit c = 1 then
        ∑ b' : Lab n with Lab.AgreeOff ts b b', op.get [b.idx ts, b'.idx ts] * st.get b'.bits
      else st.get b.bits := by
  obtain ⟨r, h1, h2, h3⟩ := applyOperator_ket hop hst hts hv
  refine ⟨r, h1, h2.shape, fun b => ?_⟩
  have := congrFun h3 b
  rw [mulVec_gateMat] at this
  exact this

/-- Non-vacuity: a Toffoli-like placement of SWAP with unsorted targets and one control on three qubits. -/
example : IsOp 2 matSWAP ∧ IsKet 3 (⟨[2, 2, 2], [0, 1, 2, 3, 4, 5, 6, 7]⟩ : NDArray ℂ) ∧
    [2, 0].length = 2 ∧ ValidDims 3 ([1] ++ [2, 0]) :=
  ⟨⟨rfl, rfl⟩, ⟨rfl, rfl⟩, rfl, by decide⟩

/-- A concrete value: over the integers, the matrix `[[1,2],[3,4]]` on qubit 1 controlled by qubit 0. -/
example : applyOperator (⟨[2, 2], [5, 6, 7, 8]⟩ : NDArray ℤ) ⟨[2, 2], [1, 2, 3, 4]⟩ [1] (ctlOf [0])
    = .ok ⟨[2, 2], [5, 6, 23, 53]⟩ := by decide

/-- **C01** (error branch): any other combination of sizes and qubits raises instead of returning a state. -/
theorem C01_apply_operator_rejects {op st : NDArray K} (hop : IsOp k op) (hst : IsKet n st) {ts cs : List ℕ}
    (h : ¬ (ts.length = k ∧ ValidDims n (cs ++ ts))) : ∃ e, applyOperator st op ts (ctlOf cs) = .error e :=
  applyOperator_error hop hst h

example : ¬ ([0].length = 1 ∧ ValidDims 2 ([0] ++ [0])) := by decide

/-- **C02** (controls gate the operation): amplitudes whose label has some control bit `0` are unchanged. -/
theorem C02_control_off {op st r : NDArray K} (hop : IsOp k op) (hst : IsKet n st) {ts cs : List ℕ}
    (hts : ts.length = k) (hv : ValidDims n (cs ++ ts)) (hr : applyOperator st op ts (ctlOf cs) = .ok r)
    {b : Lab n} {c : ℕ} (hc : c ∈ cs) (hb : b.bit c = 0) : r.get b.bits = st.get b.bits := by
  obtain ⟨r', h1, -, h3⟩ := C01_apply_operator hop hst hts hv
  obtain rfl : r' = r := by rw [hr] at h1; exact (Except.ok.inj h1).symm
  rw [h3 b, if_neg]
  intro h
  rw [h c hc] at hb
  exact one_ne_zero hb

/-- **C02** (control order): the effect does not depend on the order of the control tuple. -/
theorem C02_control_order {op st : NDArray K} (hop : IsOp k op) (hst : IsKet n st) {ts cs cs' : List ℕ}
    (hts : ts.length = k) (hv : ValidDims n (cs ++ ts)) (hp : cs.Perm cs') :
    applyOperator st op ts (ctlOf cs) = applyOperator st op ts (ctlOf cs') := by
  have hv' : ValidDims n (cs' ++ ts) :=
    ⟨(hp.append_right ts).nodup_iff.1 hv.nodup, fun q hq => hv.lt q ((hp.append_right ts).mem_iff.2 hq)⟩
  obtain ⟨r, h1, h2, h3⟩ := applyOperator_ket hop hst hts hv
  obtain ⟨r', h1', h2', h3'⟩ := applyOperator_ket hop hst hts hv'
  rw [h1, h1', ket_ext h2 h2' (by rw [h3, h3', gateMat_control_perm _ _ hp])]

example : ValidDims 4 ([3, 0] ++ [2]) ∧ [3, 0].Perm [0, 3] := by decide

/-- **C02** (no control): `None`, `(None,)` and `()` all mean the plain, uncontrolled operator. -/
theorem C02_no_control {op st : NDArray K} (hop : IsOp k op) (hst : IsKet n st) {ts : List ℕ}
    (hts : ts.length = k) (hv : ValidDims n ts) {c : Ctl} (hc : c = none ∨ c = some [.none] ∨ c = some []) :
    ∃ r, applyOperator st op ts c = .ok r ∧ r.shape = List.replicate n 2 ∧
      ∀ b : Lab n, r.get b.bits =
        ∑ b' : Lab n with Lab.AgreeOff ts b b', op.get [b.idx ts, b'.idx ts] * st.get b'.bits := by
  obtain ⟨r, h1, h2, h3⟩ := C01_apply_operator (cs := []) hop hst hts hv
  refine ⟨r, ?_, h2, fun b => by rw [h3]; simp⟩
  rw [← h1]
  rcases hc with rfl | rfl | rfl
  · exact applyOperator_ctl st op ts (.inl rfl)
  · rfl
  · exact applyOperator_ctl st op ts (.inr (.inr ⟨[], rfl⟩))

/-- **C08** (one operator): on density matrices `apply_operator` is `ρ ↦ G ρ G†` with `G` the register matrix of
the (controlled) operator, whatever the iteration order of the Python set of untouched qubits. -/
theorem C08_apply_operator_dm [StarRing K] (so : SetOrder) {op : NDArray K} {ρ : DensityMatrix K} (hop : IsOp k op)
    (hρ : IsDM n ρ) {ts cs : List ℕ} (hts : ts.length = k) (hv : ValidDims n (cs ++ ts)) :
    ∃ r, applyOperatorDM so ρ op ts (ctlOf cs) = .ok r ∧ r.array.shape = List.replicate (n + n) 2 ∧
      dmMat n r.array = gateMat n (entries op) ts cs * dmMat n ρ.array *
        (gateMat n (entries op) ts cs).conjTranspose := by
  obtain ⟨r, h1, h2, h3⟩ := applyOperatorDM_mat so hop hρ hts hv
  exact ⟨r, h1, h2.shape, h3⟩

end operators

variable {n : ℕ} {values : Values} {ot : OpType}

/-- **C01** (`apply_gates` on arrays).  Running a non-empty list of noiseless standard gates multiplies the state by
the textbook matrices, first gate first, with or without merging. -/
theorem C01_apply_gates (so : SetOrder) {gs : List Gate} {ss : List StdGate}
    (h : List.Forall₂ (Gate.Std n values) gs ss) (hne : gs ≠ []) (hnz : ∀ g ∈ gs, g.noise = none)
    {st : NDArray ℂ} (hst : IsKet n st) (merge : Bool) :
    ∃ r, applyGates so (.vec st) (.list gs) values .unitary false merge = .ok (.vec r) ∧ IsKet n r ∧
      ket n r = (List.zipWith (stdMat n) gs ss).reverse.prod.mulVec (ket n st) := by
  obtain ⟨r, h1, h2, h3⟩ := applyGates_vec so hne (forall₂_std_ok h) hnz hst merge
  exact ⟨r, h1, h2, by rw [h3, gatesMat_std h]⟩

/-- Non-vacuity: H(0), CNOT(1, control 0), RX("θ")(2) on three qubits. -/
example : List.Forall₂ (Gate.Std 3 [("θ", .num 1)])
    [Gate.H (.int 0), Gate.X (.int 1) (.int 0), Gate.RX (.str "θ") (.int 2)] [.H, .X, .RX 1] := by
  refine .cons ⟨.H _ _ _, rfl, ⟨.inr (.inl rfl), by decide⟩⟩ (.cons ⟨.X _ _ _, rfl,
    ⟨.inr (.inr ⟨[0], rfl⟩), by decide⟩⟩ (.cons ⟨.RX _ _ _ (.str rfl) (by norm_num), rfl,
    ⟨.inr (.inl rfl), by decide⟩⟩ .nil))

/-- **C01** (one gate object, not in a list). -/
theorem C01_apply_gate (so : SetOrder) {g : Gate} {s : StdGate} (h : g.Std n values s) (hnz : g.noise = none)
    {st : NDArray ℂ} (hst : IsKet n st) (group merge : Bool) :
    ∃ r, applyGates so (.vec st) (.single g) values .unitary group merge = .ok (.vec r) ∧ IsKet n r ∧
      ket n r = (stdMat n g s).mulVec (ket n st) := by
  obtain ⟨r, h1, h2, h3⟩ := applyGates_single so h.ok hnz hst group merge
  exact ⟨r, h1, h2, by rw [h3, h.mat]⟩

/-- **C03**: merging adjacent operators never changes the result: state vectors and density matrices, every list of
gates (also noisy or empty ones) whose operators are well-formed, every operation type. -/
theorem C03_merge (so : SetOrder) {gs : List Gate} (h : ∀ g ∈ gs, g.Ok n ot values) {state : State}
    (hst : (∃ a, state = .vec a ∧ IsKet n a) ∨ ∃ ρ, state = .dm ρ ∧ IsDM n ρ) :
    applyGates so state (.list gs) values ot false true = applyGates so state (.list gs) values ot false false := by
  by_cases hne : gs = []
  · subst hne; rfl
  by_cases hnz : ∀ g ∈ gs, g.noise = none
  · rcases hst with ⟨a, rfl, ha⟩ | ⟨ρ, rfl, hρ⟩
    · obtain ⟨r, h1, h2, h3⟩ := applyGates_vec so hne h hnz ha true
      obtain ⟨r', h1', h2', h3'⟩ := applyGates_vec so hne h hnz ha false
      rw [h1, h1', ket_ext h2 h2' (by rw [h3, h3'])]
    · obtain ⟨r, h1, h2, h3⟩ := applyGates_dm so hne h hnz hρ true
      obtain ⟨r', h1', h2', h3'⟩ := applyGates_dm so hne h hnz hρ false
      rw [h1, h1', dm_ext h2 h2' (by rw [h3, h3'])]
  · have hz : allNoiseless (gs.map Gate.noise) = false := by
      push Not at hnz
      obtain ⟨g, hg, hn⟩ := hnz
      rw [allNoiseless, List.all_eq_false]
      exact ⟨g.noise, List.mem_map_of_mem hg, by simpa using hn⟩
    simp only [applyGates, prepareSequenceReduce, Bool.false_eq_true, if_false, hz, Bool.false_and]

/-- Non-vacuity: two adjacent gates with the same target that do get merged. -/
example : ∀ g ∈ [Gate.H (.int 0), Gate.X (.int 0)], g.Ok 1 .unitary [] := by
  intro g hg
  simp only [List.mem_cons, List.not_mem_nil, or_false] at hg
  rcases hg with rfl | rfl
  · exact Gate.Std.ok ⟨.H _ _ _, rfl, ⟨.inr (.inl rfl), by decide⟩⟩
  · exact Gate.Std.ok ⟨.X _ _ _, rfl, ⟨.inr (.inl rfl), by decide⟩⟩

/-- **C05**: running a circuit of standard gates and then the reversed list with `op_type=DAGGER` returns the original
state vector. -/
theorem C05_dagger_inverts (so : SetOrder) {gs : List Gate} {ss : List StdGate}
    (h : List.Forall₂ (Gate.Std n values) gs ss) (hne : gs ≠ []) (hnz : ∀ g ∈ gs, g.noise = none)
    {st : NDArray ℂ} (hst : IsKet n st) (merge merge' : Bool) :
    (do let r ← applyGates so (.vec st) (.list gs) values .unitary false merge
        applyGates so r (.list gs.reverse) values .dagger false merge') = .ok (.vec st) := by
  have hok := forall₂_std_ok h
  obtain ⟨r, h1, h2, h3⟩ := applyGates_vec so hne hok hnz hst merge
  obtain ⟨r', h1', h2', h3'⟩ := applyGates_vec so (gs := gs.reverse) (ot := .dagger) (values := values) (by simpa using hne)
    (fun g hg => (hok g (List.mem_reverse.1 hg)).dagger.1) (fun g hg => hnz g (List.mem_reverse.1 hg)) h2 merge'
  rw [h1]
  simp only [bind, Except.bind, h1']
  rw [ket_ext h2' hst]
  rw [h3', h3, Matrix.mulVec_mulVec, gatesMat_dagger hok, gatesMat_std_unitary h, Matrix.one_mulVec]

/-- **C05** for density matrices. -/
theorem C05_dagger_inverts_dm (so : SetOrder) {gs : List Gate} {ss : List StdGate}
    (h : List.Forall₂ (Gate.Std n values) gs ss) (hne : gs ≠ []) (hnz : ∀ g ∈ gs, g.noise = none)
    {ρ : DensityMatrix ℂ} (hρ : IsDM n ρ) (merge merge' : Bool) :
    (do let r ← applyGates so (.dm ρ) (.list gs) values .unitary false merge
        applyGates so r (.list gs.reverse) values .dagger false merge') = .ok (.dm ρ) := by
  have hok := forall₂_std_ok h
  obtain ⟨r, h1, h2, h3⟩ := applyGates_dm so hne hok hnz hρ merge
  obtain ⟨r', h1', h2', h3'⟩ := applyGates_dm so (gs := gs.reverse) (ot := .dagger) (values := values) (by simpa using hne)
    (fun g hg => (hok g (List.mem_reverse.1 hg)).dagger.1) (fun g hg => hnz g (List.mem_reverse.1 hg)) h2 merge'
  rw [h1]
  simp only [bind, Except.bind, h1']
  rw [dm_ext h2' hρ]
  rw [h3', h3, gatesMat_dagger hok]
  set M := gatesMat n .unitary values gs
  have hM : M.conjTranspose * M = 1 := gatesMat_std_unitary h
  rw [Matrix.conjTranspose_conjTranspose]
  calc M.conjTranspose * (M * dmMat n ρ.array * M.conjTranspose) * M
      = (M.conjTranspose * M) * dmMat n ρ.array * (M.conjTranspose * M) := by simp only [mul_assoc]
    _ = dmMat n ρ.array := by rw [hM]; simp

/-- **C06**: a noiseless circuit of standard gates preserves the squared norm. -/
theorem C06_norm (so : SetOrder) {gs : List Gate} {ss : List StdGate}
    (h : List.Forall₂ (Gate.Std n values) gs ss) (hne : gs ≠ []) (hnz : ∀ g ∈ gs, g.noise = none)
    {st : NDArray ℂ} (hst : IsKet n st) (merge : Bool) :
    ∃ r, applyGates so (.vec st) (.list gs) values .unitary false merge = .ok (.vec r) ∧
      ∑ b : Lab n, Complex.normSq (r.get b.bits) = ∑ b : Lab n, Complex.normSq (st.get b.bits) := by
  obtain ⟨r, h1, h2, h3⟩ := applyGates_vec so hne (forall₂_std_ok h) hnz hst merge
  refine ⟨r, h1, ?_⟩
  have key : ∀ ψ : Lab n → ℂ, ((∑ b, Complex.normSq (ψ b) : ℝ) : ℂ) = star ψ ⬝ᵥ ψ := by
    intro ψ
    simp [dotProduct, Complex.normSq_eq_conj_mul_self]
  apply Complex.ofReal_injective
  change ((∑ b, Complex.normSq (ket n r b) : ℝ) : ℂ) = ((∑ b, Complex.normSq (ket n st b) : ℝ) : ℂ)
  rw [key, key, h3, Matrix.star_mulVec, ← Matrix.dotProduct_mulVec, Matrix.mulVec_mulVec, gatesMat_std_unitary h,
    Matrix.one_mulVec]

/-- **C07**: the operator of every gate built by the public constructors is unitary, for every angle. -/
theorem C07_constructors_unitary {g : Gate} {s : StdGate} (h : g.Built values s) :
    ∃ U, g.unitary values = .ok U ∧ U.shape = [2 ^ s.arity, 2 ^ s.arity] ∧ IsUnitaryE (2 ^ s.arity) (entries U) := by
  obtain ⟨U, h1, h2, h3⟩ := h.is.unitary
  exact ⟨U, h1, h2.shape, isUnitaryE_congr h3 s.isUnitary⟩

/-- **C07** also for gates with a non-zero shift (as GPSR builds them). -/
theorem C07_shifted_unitary {g : Gate} {s : StdGate} (h : g.Is values s) :
    ∃ U, g.unitary values = .ok U ∧ U.shape = [2 ^ s.arity, 2 ^ s.arity] ∧ IsUnitaryE (2 ^ s.arity) (entries U) := by
  obtain ⟨U, h1, h2, h3⟩ := h.unitary
  exact ⟨U, h1, h2.shape, isUnitaryE_congr h3 s.isUnitary⟩

example (θ : ℝ) : (Gate.RY (.str "a") (.int 3) (.int 1)).Built [("a", .num θ)] (.RY θ) := .RY _ _ _ (.str rfl)

/-- **C08**: for noiseless gates, simulating `density_mat(ψ)` gives `density_mat` of simulating `ψ`. -/
theorem C08_dm_agrees (so : SetOrder) {gs : List Gate} (h : ∀ g ∈ gs, g.Ok n ot values) (hne : gs ≠ [])
    (hnz : ∀ g ∈ gs, g.noise = none) {st : NDArray ℂ} (hst : IsKet n st) (merge merge' : Bool) :
    ∃ r, applyGates so (.vec st) (.list gs) values ot false merge = .ok (.vec r) ∧
      applyGates so (.dm (densityMat st)) (.list gs) values ot false merge' = .ok (.dm (densityMat r)) := by
  obtain ⟨r, h1, h2, h3⟩ := applyGates_vec so hne h hnz hst merge
  obtain ⟨hd, hd'⟩ := densityMat_isDM hst
  obtain ⟨ρ, e1, e2, e3⟩ := applyGates_dm so hne h hnz hd merge'
  obtain ⟨hr, hr'⟩ := densityMat_isDM h2
  refine ⟨r, h1, ?_⟩
  rw [e1, dm_ext e2 hr]
  rw [e3, hd', hr', h3, Matrix.mul_vecMulVec, Matrix.vecMulVec_mul, Matrix.star_mulVec]

/-- **C42**: two noiseless gates on disjoint qubits commute, on state vectors and density matrices. -/
theorem C42_disjoint_commute (so : SetOrder) {g h : Gate} (hg : g.Ok n ot values) (hh : h.Ok n ot values)
    (hgn : g.noise = none) (hhn : h.noise = none)
    (hd : ∀ q ∈ ctlInts g.control ++ g.target, q ∉ ctlInts h.control ++ h.target) {state : State}
    (hst : (∃ a, state = .vec a ∧ IsKet n a) ∨ ∃ ρ, state = .dm ρ ∧ IsDM n ρ) (merge merge' : Bool) :
    applyGates so state (.list [g, h]) values ot false merge = applyGates so state (.list [h, g]) values ot false merge'
    ∧ ∃ r, applyGates so state (.list [g, h]) values ot false merge = .ok r := by
  have hcomm : gatesMat n ot values [g, h] = gatesMat n ot values [h, g] := by
    simp only [gatesMat, one_mul]
    obtain ⟨⟨U, hU, -⟩, hv⟩ := hg
    obtain ⟨⟨V, hV, -⟩, hv'⟩ := hh
    simp only [Gate.mat, hU, hV]
    refine gateMat_comm_disjoint _ _ ⟨List.nodup_append.2 ⟨hv'.dims.nodup, hv.dims.nodup, ?_⟩, ?_⟩
    · rintro a ha b hb rfl; exact hd a hb ha
    · intro q hq
      rcases List.mem_append.1 hq with h | h
      · exact hv'.dims.lt q h
      · exact hv.dims.lt q h
  have hok : ∀ x ∈ [g, h], x.Ok n ot values := by simp [hg, hh]
  have hok' : ∀ x ∈ [h, g], x.Ok n ot values := by simp [hg, hh]
  have hz : ∀ x ∈ [g, h], x.noise = none := by simp [hgn, hhn]
  have hz' : ∀ x ∈ [h, g], x.noise = none := by simp [hgn, hhn]
  rcases hst with ⟨a, rfl, ha⟩ | ⟨ρ, rfl, hρ⟩
  · obtain ⟨r, h1, h2, h3⟩ := applyGates_vec so (by simp) hok hz ha merge
    obtain ⟨r', h1', h2', h3'⟩ := applyGates_vec so (by simp) hok' hz' ha merge'
    exact ⟨by rw [h1, h1', ket_ext h2 h2' (by rw [h3, h3', hcomm])], _, h1⟩
  · obtain ⟨r, h1, h2, h3⟩ := applyGates_dm so (by simp) hok hz hρ merge
    obtain ⟨r', h1', h2', h3'⟩ := applyGates_dm so (by simp) hok' hz' hρ merge'
    exact ⟨by rw [h1, h1', dm_ext h2 h2' (by rw [h3, h3', hcomm])], _, h1⟩

/-- Non-vacuity: a CNOT on qubits 0,1 and a controlled SWAP on 4,2 with control 3. -/
example : (Gate.X (.int 1) (.int 0)).Ok 5 .unitary [] ∧ (Gate.SWAP (.tuple [4, 2]) (.int 3)).Ok 5 .unitary [] ∧
    ∀ q ∈ ctlInts (Gate.X (.int 1) (.int 0)).control ++ (Gate.X (.int 1) (.int 0)).target,
      q ∉ ctlInts (Gate.SWAP (.tuple [4, 2]) (.int 3)).control ++ (Gate.SWAP (.tuple [4, 2]) (.int 3)).target :=
  ⟨Gate.Std.ok ⟨.X _ _ _, rfl, ⟨.inr (.inr ⟨[0], rfl⟩), by decide⟩⟩,
   Gate.Std.ok ⟨.SWAP _ _ _, rfl, ⟨.inr (.inr ⟨[3], rfl⟩), by decide⟩⟩, by decide⟩

/-- **C44**: for noiseless gates `apply_gates` is linear in the state vector. -/
theorem C44_linear (so : SetOrder) {gs : List Gate} (h : ∀ g ∈ gs, g.Ok n ot values) (hne : gs ≠ [])
    (hnz : ∀ g ∈ gs, g.noise = none) {ψ φ : NDArray ℂ} (hψ : IsKet n ψ) (hφ : IsKet n φ) (x y : ℂ) (merge : Bool) :
    ∃ rψ rφ comb r,
      applyGates so (.vec ψ) (.list gs) values ot false merge = .ok (.vec rψ) ∧
      applyGates so (.vec φ) (.list gs) values ot false merge = .ok (.vec rφ) ∧
      (smul x ψ).add (smul y φ) = .ok comb ∧
      applyGates so (.vec comb) (.list gs) values ot false merge = .ok (.vec r) ∧
      (smul x rψ).add (smul y rφ) = .ok r := by
  obtain ⟨r1, h1, k1, e1⟩ := applyGates_vec so hne h hnz hψ merge
  obtain ⟨r2, h2, k2, e2⟩ := applyGates_vec so hne h hnz hφ merge
  obtain ⟨c, hc, kc, ec⟩ := isKet_add (isKet_smul x hψ).1 (isKet_smul y hφ).1
  obtain ⟨r, hr, kr, er⟩ := applyGates_vec so hne h hnz kc merge
  obtain ⟨d, hd, kd, ed⟩ := isKet_add (isKet_smul x k1).1 (isKet_smul y k2).1
  refine ⟨r1, r2, c, r, h1, h2, hc, hr, ?_⟩
  rw [hd, ket_ext kd kr]
  rw [ed, er, ec, (isKet_smul x hψ).2, (isKet_smul y hφ).2, (isKet_smul x k1).2, (isKet_smul y k2).2,
    Matrix.mulVec_add, Matrix.mulVec_smul, Matrix.mulVec_smul, e1, e2]

end Verif
