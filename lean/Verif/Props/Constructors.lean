import Verif.Lemmas.Subst
import Verif.Lemmas.ApplyGates
import Verif.Lemmas.Gates
import Verif.Lemmas.RefuseDM
import Verif.Lemmas.MapArr
import Verif.Props.Apply

/-!
# C62, C63: the qubit arguments of the gate constructors

The other theorems about gates speak of the `target` and `control` fields of the built gate.  Here the arguments as
the caller writes them are followed through the constructor to the state.
-/

set_option autoImplicit false

namespace Verif

variable {n : ℕ} {values : Values}

/-- The documented ways to write target qubits: one integer, or a tuple of integers. -/
inductive TArg.Names : TArg → List ℕ → Prop
  | int (q : ℕ) : Names (.int q) [q]
  | tuple (qs : List ℕ) : Names (.tuple qs) qs

/-- The documented ways to write control qubits: `None` or `(None,)` for no controls, one integer, or a tuple of
integers. -/
inductive CArg.Names : CArg → List ℕ → Prop
  | none : Names .none []
  | noneTuple : Names (.tuple [.none]) []
  | int (q : ℕ) : Names (.int q) [q]
  | tuple (qs : List ℕ) : Names (.tuple (qs.map .int)) qs

/-- The public gate constructors as functions of the arguments `target` and `control` (no noise, dense), with the
same constructor called with a target only, and the textbook gate they are named after. -/
inductive Ctor (values : Values) : (TArg → CArg → Gate) → (TArg → Gate) → StdGate → Prop
  | I : Ctor values (fun t c => Gate.I t c) (fun t => Gate.I t) .I
  | X : Ctor values (fun t c => Gate.X t c) (fun t => Gate.X t) .X
  | Y : Ctor values (fun t c => Gate.Y t c) (fun t => Gate.Y t) .Y
  | Z : Ctor values (fun t c => Gate.Z t c) (fun t => Gate.Z t) .Z
  | H : Ctor values (fun t c => Gate.H t c) (fun t => Gate.H t) .H
  | S : Ctor values (fun t c => Gate.S t c) (fun t => Gate.S t) .S
  | T : Ctor values (fun t c => Gate.T t c) (fun t => Gate.T t) .T
  | SWAP : Ctor values (fun t c => Gate.SWAP t c) (fun t => Gate.SWAP t) .SWAP
  | RX {p : Param} {θ : ℝ} (h : p.Resolves values θ) :
      Ctor values (fun t c => Gate.RX p t c) (fun t => Gate.RX p t) (.RX θ)
  | RY {p : Param} {θ : ℝ} (h : p.Resolves values θ) :
      Ctor values (fun t c => Gate.RY p t c) (fun t => Gate.RY p t) (.RY θ)
  | RZ {p : Param} {θ : ℝ} (h : p.Resolves values θ) :
      Ctor values (fun t c => Gate.RZ p t c) (fun t => Gate.RZ p t) (.RZ θ)
  | PHASE {p : Param} {θ : ℝ} (h : p.Resolves values θ) :
      Ctor values (fun t c => Gate.PHASE p t c) (fun t => Gate.PHASE p t) (.PHASE θ)

/-- What a constructor does with its arguments. -/
theorem Ctor.fields {f : TArg → CArg → Gate} {d : TArg → Gate} {s : StdGate} (h : Ctor values f d s) (t : TArg) (c : CArg) :
    (f t c).Is values s ∧ (f t c).target = parseTarget t ∧ (f t c).control = parseControl c ∧ (f t c).noise = none ∧
      d t = f t (.tuple [.none]) := by
  cases h
  case I => exact ⟨.I _ _ _, rfl, rfl, rfl, rfl⟩
  case X => exact ⟨.X _ _ _, rfl, rfl, rfl, rfl⟩
  case Y => exact ⟨.Y _ _ _, rfl, rfl, rfl, rfl⟩
  case Z => exact ⟨.Z _ _ _, rfl, rfl, rfl, rfl⟩
  case H => exact ⟨.H _ _ _, rfl, rfl, rfl, rfl⟩
  case S => exact ⟨.S _ _ _, rfl, rfl, rfl, rfl⟩
  case T => exact ⟨.T _ _ _, rfl, rfl, rfl, rfl⟩
  case SWAP => exact ⟨.SWAP _ _ _, rfl, rfl, rfl, rfl⟩
  case RX p θ h => exact ⟨.RX _ _ _ h (by simp), rfl, rfl, rfl, rfl⟩
  case RY p θ h => exact ⟨.RY _ _ _ h (by simp), rfl, rfl, rfl, rfl⟩
  case RZ p θ h => exact ⟨.RZ _ _ _ h (by simp), rfl, rfl, rfl, rfl⟩
  case PHASE p θ h => exact ⟨.PHASE _ _ _ h (by simp), rfl, rfl, rfl, rfl⟩

theorem TArg.Names.parse {t : TArg} {ts : List ℕ} (h : t.Names ts) : parseTarget t = ts := by
  cases h <;> rfl

theorem ctlInts_map_int (qs : List ℕ) : ctlInts (some (qs.map .int)) = qs := by
  simp [ctlInts]

theorem CArg.Names.parse {c : CArg} {cs : List ℕ} (h : c.Names cs) :
    WfCtl (parseControl c) ∧ ctlInts (parseControl c) = cs := by
  cases h
  case none => exact ⟨.inl rfl, rfl⟩
  case noneTuple => exact ⟨.inr (.inl rfl), rfl⟩
  case int q => exact ⟨.inr (.inr ⟨[q], rfl⟩), rfl⟩
  case tuple => exact ⟨.inr (.inr ⟨cs, rfl⟩), ctlInts_map_int cs⟩

theorem Ctor.std {f : TArg → CArg → Gate} {d : TArg → Gate} {s : StdGate} (h : Ctor values f d s) {t : TArg} {c : CArg}
    {ts cs : List ℕ} (ht : t.Names ts) (hc : c.Names cs) (ha : ts.length = s.arity) (hv : ValidDims n (cs ++ ts)) :
    (f t c).Std n values s ∧ stdMat n (f t c) s = gateMat n s.mat ts cs := by
  obtain ⟨h1, h2, h3, -, -⟩ := h.fields t c
  obtain ⟨h4, h5⟩ := hc.parse
  refine ⟨⟨h1, by rw [h2, ht.parse, ha], ⟨by rw [h3]; exact h4, by rw [h2, h3, h5, ht.parse]; exact hv⟩⟩, ?_⟩
  rw [stdMat, h2, h3, h5, ht.parse]

/-- **C62** (state vectors): every public gate constructor, called with its qubits written in any documented form
(also an explicit `None` control), gives the textbook gate on exactly those targets and controls. -/
theorem C62_vec (so : SetOrder) {f : TArg → CArg → Gate} {d : TArg → Gate} {s : StdGate} (h : Ctor values f d s)
    {t : TArg} {c : CArg} {ts cs : List ℕ} (ht : t.Names ts) (hc : c.Names cs) (ha : ts.length = s.arity)
    (hv : ValidDims n (cs ++ ts)) {st : NDArray ℂ} (hst : IsKet n st) (group merge : Bool) :
    ∃ r, applyGates so (.vec st) (.single (f t c)) values .unitary group merge = .ok (.vec r) ∧ IsKet n r ∧
      ket n r = (gateMat n s.mat ts cs).mulVec (ket n st) := by
  obtain ⟨h1, h2⟩ := h.std ht hc ha hv
  rw [← h2]
  exact C01_apply_gate so h1 (h.fields t c).2.2.2.1 hst group merge

/-- **C02** (gates as users build them): whatever public constructor the gate comes from and however its controls are
written, it leaves the amplitudes of all labels with some control bit 0 exactly as they were, and the order in which the
controls are written does not matter. -/
theorem C02_constructors (so : SetOrder) {f : TArg → CArg → Gate} {d : TArg → Gate} {s : StdGate} (h : Ctor values f d s)
    {t : TArg} {c : CArg} {ts cs : List ℕ} (ht : t.Names ts) (hc : c.Names cs) (ha : ts.length = s.arity)
    (hv : ValidDims n (cs ++ ts)) {st : NDArray ℂ} (hst : IsKet n st) (group merge : Bool) :
    ∃ r, applyGates so (.vec st) (.single (f t c)) values .unitary group merge = .ok (.vec r) ∧
      (∀ (b : Lab n), ∀ q ∈ cs, b.bit q = 0 → r.get b.bits = st.get b.bits) ∧
      ∀ c' cs', c'.Names cs' → cs.Perm cs' →
        applyGates so (.vec st) (.single (f t c')) values .unitary group merge = .ok (.vec r) := by
  obtain ⟨r, h1, h2, h3⟩ := C62_vec so h ht hc ha hv hst group merge
  refine ⟨r, h1, fun b q hq hb => ?_, fun c' cs' hc' hp => ?_⟩
  · have := congrFun h3 b
    simp only [ket, Matrix.mulVec, dotProduct, gateMat] at this
    rw [this]
    have hoff : ¬ ∀ q ∈ cs, b.bit q = 1 := fun h => by rw [h q hq] at hb; exact one_ne_zero hb
    simp [hoff, ket]
  · have hv' : ValidDims n (cs' ++ ts) :=
      ⟨(hp.append_right ts).nodup_iff.1 hv.nodup, fun q hq => hv.lt q ((hp.append_right ts).mem_iff.2 hq)⟩
    obtain ⟨r', e1, e2, e3⟩ := C62_vec so h ht hc' ha hv' hst group merge
    rw [e1, ket_ext e2 h2 (by rw [e3, h3, gateMat_control_perm _ _ hp])]

/-- **C62** (density matrices). -/
theorem C62_dm (so : SetOrder) {f : TArg → CArg → Gate} {d : TArg → Gate} {s : StdGate} (h : Ctor values f d s)
    {t : TArg} {c : CArg} {ts cs : List ℕ} (ht : t.Names ts) (hc : c.Names cs) (ha : ts.length = s.arity)
    (hv : ValidDims n (cs ++ ts)) {ρ : DensityMatrix ℂ} (hρ : IsDM n ρ) (group merge : Bool) :
    ∃ r, applyGates so (.dm ρ) (.single (f t c)) values .unitary group merge = .ok (.dm r) ∧ IsDM n r ∧
      dmMat n r.array = gateMat n s.mat ts cs * dmMat n ρ.array * (gateMat n s.mat ts cs).conjTranspose := by
  obtain ⟨h1, h2⟩ := h.std ht hc ha hv
  rw [applyGates_singleton so _ _ _ _ group merge false false]
  obtain ⟨r, e1, e2, e3⟩ := applyGates_dm so (gs := [f t c]) (by simp)
    (by simp only [List.mem_singleton]; rintro g rfl; exact h1.ok)
    (by simp only [List.mem_singleton]; rintro g rfl; exact (h.fields t c).2.2.2.1) hρ false
  refine ⟨r, e1, e2, ?_⟩
  rw [e3, ← h2]
  simp only [gatesMat, one_mul, h1.mat]

/-- **C62** (defaults): a constructor called with a target only gives the uncontrolled textbook gate. -/
theorem C62_default (so : SetOrder) {f : TArg → CArg → Gate} {d : TArg → Gate} {s : StdGate} (h : Ctor values f d s)
    {t : TArg} {ts : List ℕ} (ht : t.Names ts) (ha : ts.length = s.arity) (hv : ValidDims n ts) {st : NDArray ℂ}
    (hst : IsKet n st) (group merge : Bool) :
    ∃ r, applyGates so (.vec st) (.single (d t)) values .unitary group merge = .ok (.vec r) ∧ IsKet n r ∧
      ket n r = (gateMat n s.mat ts []).mulVec (ket n st) := by
  rw [(h.fields t .none).2.2.2.2]
  exact C62_vec so h ht .noneTuple ha hv hst group merge

/-- **C62** (misuse is refused): with the wrong number of targets, a repeated qubit or a qubit outside the register,
applying the gate to a state vector raises an error. -/
theorem C62_rejects (so : SetOrder) {f : TArg → CArg → Gate} {d : TArg → Gate} {s : StdGate} (h : Ctor values f d s)
    {t : TArg} {c : CArg} {ts cs : List ℕ} (ht : t.Names ts) (hc : c.Names cs)
    (hbad : ¬ (ts.length = s.arity ∧ ValidDims n (cs ++ ts))) {st : NDArray ℂ} (hst : IsKet n st) (group merge : Bool) :
    ∃ e, applyGates so (.vec st) (.single (f t c)) values .unitary group merge = .error e := by
  obtain ⟨h1, h2, h3, h4, -⟩ := h.fields t c
  obtain ⟨h5, h6⟩ := hc.parse
  obtain ⟨U, hU, hop, -⟩ := h1.unitary
  obtain ⟨e, he⟩ := C01_apply_operator_rejects hop hst hbad
  refine ⟨e, ?_⟩
  have hU' : (f t c).operator .unitary values = .ok U := hU
  have he' : applyOperator st U (f t c).target (f t c).control = .error e := by
    rw [h2, h3, applyOperator_ctl _ _ _ h5, h6, ht.parse, he]
  simp only [applyGates, prepareSequenceReduce, hU']
  simp only [bind, Except.bind, h4, allNoiseless, List.all_cons, List.all_nil, Option.isNone_none, Bool.and_self,
    Bool.not_true, Bool.false_eq_true, if_false, reduceApply, List.foldlM_cons, List.foldlM_nil, he']

/-- Non-vacuity: `X(1, None)`, `SWAP((2, 0), (1, 3))` and a controlled rotation with a named angle; a gate controlled
by its own target is refused. -/
example : Ctor [("θ", .num 1)] (fun t c => Gate.RX (.str "θ") t c) (fun t => Gate.RX (.str "θ") t) (.RX 1) ∧
    (TArg.int 1).Names [1] ∧ CArg.none.Names [] ∧ ValidDims 2 ([] ++ [1]) ∧
    (TArg.tuple [2, 0]).Names [2, 0] ∧ (CArg.tuple [.int 1, .int 3]).Names [1, 3] ∧ ValidDims 4 ([1, 3] ++ [2, 0]) ∧
    ¬ ([1].length = StdGate.X.arity ∧ ValidDims 2 ([1] ++ [1])) :=
  ⟨.RX (.str rfl), .int 1, .none, by decide, .tuple _, .tuple [1, 3], by decide, fun h => absurd h.2 (by decide)⟩

/-- `X(1, control=None)` flips qubit 1 of `|00⟩`: it is the plain `X` and has no control. -/
example (so : SetOrder) {st : NDArray ℂ} (hst : IsKet 2 st) : ∃ r,
    applyGates so (.vec st) (.single (Gate.X (.int 1) .none)) [] = .ok (.vec r) ∧
      ket 2 r = (gateMat 2 StdGate.X.mat [1] []).mulVec (ket 2 st) := by
  obtain ⟨r, h1, -, h3⟩ := C62_vec (n := 2) (values := []) so .X (.int 1) .none rfl
    (by change ValidDims 2 [1]; decide) hst false true
  exact ⟨r, h1, h3⟩

/-- A single noise-free gate on a density matrix is one call of `apply_operator`. -/
theorem applyGates_single_dm (so : SetOrder) {g : Gate} {U : NDArray ℂ} (hU : g.operator .unitary values = .ok U)
    (hz : g.noise = none) (ρ : DensityMatrix ℂ) (group merge : Bool) :
    applyGates so (.dm ρ) (.single g) values .unitary group merge
      = (applyOperatorDM so ρ U g.target g.control).map .dm := by
  simp only [applyGates, prepareSequenceReduce, hU]
  simp only [bind, Except.bind, hz, reduceApplyNoise, List.zip_cons_cons, List.zip_nil_right, List.foldlM_cons,
    List.foldlM_nil, applyOperatorWithNoise, noiseKraus, Option.map_none, pure, Except.pure]
  rcases applyOperatorDM so ρ U g.target g.control with e | r <;> rfl

/-- **C63** (number of targets): with the wrong number of targets a gate on a density matrix raises an error,
whatever the qubits. -/
theorem C63_arity (so : SetOrder) {f : TArg → CArg → Gate} {d : TArg → Gate} {s : StdGate} (h : Ctor values f d s)
    {t : TArg} {c : CArg} {ts cs : List ℕ} (ht : t.Names ts) (hc : c.Names cs) (ha : ts.length ≠ s.arity)
    (ρ : DensityMatrix ℂ) (group merge : Bool) :
    ∃ e, applyGates so (.dm ρ) (.single (f t c)) values .unitary group merge = .error e := by
  obtain ⟨h1, h2, h3, h4, -⟩ := h.fields t c
  obtain ⟨h5, h6⟩ := hc.parse
  obtain ⟨U, hU, hop, -⟩ := h1.unitary
  obtain ⟨e, he⟩ := applyOperatorDM_arity so (ρ := ρ) (cs := cs) hop ha
  refine ⟨e, ?_⟩
  rw [applyGates_single_dm so hU h4, h2, h3, applyOperatorDM_ctl _ _ _ _ h5, h6, ht.parse, he]
  rfl

example : [0, 1].length ≠ StdGate.X.arity := by decide

/-- **C63** (the exact condition): on an `n`-qubit density matrix, a gate whose qubits are distinct but not all in
the register is accepted exactly when the list "controls, then targets" is increasing, contains the whole register
and has at most `2n` entries. -/
theorem C63_outside_iff (so : SetOrder) {f : TArg → CArg → Gate} {d : TArg → Gate} {s : StdGate} (h : Ctor values f d s)
    {t : TArg} {c : CArg} {ts cs : List ℕ} (ht : t.Names ts) (hc : c.Names cs) (hnd : (cs ++ ts).Nodup)
    (hout : ∃ q ∈ cs ++ ts, n ≤ q) {ρ : DensityMatrix ℂ} (hρ : IsDM n ρ) (group merge : Bool) :
    (∃ r, applyGates so (.dm ρ) (.single (f t c)) values .unitary group merge = .ok r) ↔
      ts.length = s.arity ∧ (cs ++ ts).Pairwise (· < ·) ∧ (∀ q < n, q ∈ cs ++ ts) ∧ (cs ++ ts).length ≤ 2 * n := by
  obtain ⟨h1, h2, h3, h4, -⟩ := h.fields t c
  obtain ⟨h5, h6⟩ := hc.parse
  obtain ⟨U, hU, hop, -⟩ := h1.unitary
  rw [← applyOperatorDM_outside so hop hρ hnd hout, applyGates_single_dm so hU h4, h2, h3,
    applyOperatorDM_ctl _ _ _ _ h5, h6, ht.parse]
  rcases applyOperatorDM so ρ U ts (ctlOf cs) with e | r
  · exact iff_of_false (by rintro ⟨r, h⟩; cases h) (by rintro ⟨r, h⟩; cases h)
  · exact iff_of_true ⟨_, rfl⟩ ⟨_, rfl⟩

/-- **C63** (what holds): if some qubit of the register is not used by the gate, then distinct qubits that do not
fit the register are refused.  Missing: gates that use every qubit of the register (`C63_outside_false`), and
repeated qubits, for which the result depends on the order in which `np.argsort` puts equal keys. -/
theorem C63_refused_partial (so : SetOrder) {f : TArg → CArg → Gate} {d : TArg → Gate} {s : StdGate} (h : Ctor values f d s)
    {t : TArg} {c : CArg} {ts cs : List ℕ} (ht : t.Names ts) (hc : c.Names cs) (hnd : (cs ++ ts).Nodup)
    (hout : ∃ q ∈ cs ++ ts, n ≤ q) (hfree : ∃ q < n, q ∉ cs ++ ts) {ρ : DensityMatrix ℂ} (hρ : IsDM n ρ)
    (group merge : Bool) : ∃ e, applyGates so (.dm ρ) (.single (f t c)) values .unitary group merge = .error e := by
  have := (C63_outside_iff so h ht hc hnd hout hρ group merge).not.2 fun h => by
    obtain ⟨q, h1, h2⟩ := hfree
    exact h2 (h.2.2.1 q h1)
  rcases he : applyGates so (.dm ρ) (.single (f t c)) values .unitary group merge with e | r
  · exact ⟨e, rfl⟩
  · exact absurd ⟨r, he⟩ this

/-- Non-vacuity: `X(3)` on three qubits is refused; `X(5, control=0)` on one qubit meets the condition for being
accepted. -/
example : (([] : List ℕ) ++ [3]).Nodup ∧ (∃ q ∈ ([] : List ℕ) ++ [3], 3 ≤ q) ∧ (∃ q < 3, q ∉ ([] : List ℕ) ++ [3]) ∧
    [5].length = StdGate.X.arity ∧ ([0] ++ [5]).Pairwise (· < ·) ∧ (∀ q < 1, q ∈ [0] ++ [5]) ∧
    ([0] ++ [5]).length ≤ 2 * 1 := by
  refine ⟨by decide, ⟨3, by decide, by decide⟩, ⟨0, by decide, by decide⟩, rfl, by decide, by decide, by decide⟩

/-- The one-qubit density matrix `|1⟩⟨1|`. -/
def rhoOne : DensityMatrix ℂ := ⟨⟨[2, 2], [0, 0, 0, 1]⟩⟩

theorem rhoOne_isDM : IsDM 1 rhoOne := ⟨rfl, rfl⟩

section
open NDArray

private theorem cnot_int (so : SetOrder) :
    letI := intStar
    applyOperatorDM so (⟨⟨[2, 2], [0, 0, 0, 1]⟩⟩ : DensityMatrix ℤ) ⟨[2, 2], [0, 1, 1, 0]⟩ [1] (some [.int 0])
      = .ok ⟨⟨[2, 2], [0, 0, 1, 0]⟩⟩ := by
  letI := intStar
  have hp : prepareOperator (⟨[2, 2], [0, 1, 1, 0]⟩ : NDArray ℤ) [1] (some [.int 0])
      = .ok (⟨[2, 2, 2, 2], [1, 0, 0, 0, 0, 1, 0, 0, 0, 0, 0, 1, 0, 0, 1, 0]⟩, 2, [0, 1]) := by decide +kernel
  have hs : so.order [] = [] := List.eq_nil_iff_forall_not_mem.2 fun x hx => by simpa using (so.mem _ _).1 hx
  rw [applyOperatorDM, hp]
  simp only [bind, Except.bind]
  rw [show (List.range (NDArray.ndim (⟨[2, 2], [0, 0, 0, 1]⟩ : NDArray ℤ) / 2)).filter (· ∉ [0, 1]) = [] by decide +kernel, hs]
  decide +kernel

theorem cnot_rhoOne (so : SetOrder) :
    applyOperatorDM so rhoOne matX [1] (some [.int 0]) = .ok ⟨⟨[2, 2], [0, 0, 1, 0]⟩⟩ := by
  letI := intStar
  have h := applyOperatorDM_mapArr (Int.castRingHom ℂ) (fun x => by simp [intStar, starRingOfComm]) so
    (⟨⟨[2, 2], [0, 0, 0, 1]⟩⟩ : DensityMatrix ℤ) ⟨[2, 2], [0, 1, 1, 0]⟩ [1] (some [.int 0])
  rw [cnot_int so] at h
  simpa [mapArr, Except.map, rhoOne, matX, mat2] using h
end

private theorem dm_one {M : Matrix (Lab 1) (Lab 1) ℂ} (a b c d : ℂ) (h00 : M 0 0 = a) (h01 : M 0 1 = b) (h10 : M 1 0 = c)
    (h11 : M 1 1 = d) : dmMat 1 (⟨[2, 2], [a, b, c, d]⟩ : NDArray ℂ) = M := by
  have hl : ∀ x : Lab 1, x = 0 ∨ x = 1 := by
    intro x
    rcases Fin.exists_fin_two.1 ⟨x 0, rfl⟩ with h | h
    · exact .inl (funext fun i => by rw [Subsingleton.elim i 0]; exact h)
    · exact .inr (funext fun i => by rw [Subsingleton.elim i 0]; exact h)
  funext x y
  rcases hl x with rfl | rfl <;> rcases hl y with rfl | rfl
  · rw [h00]; rfl
  · rw [h01]; rfl
  · rw [h10]; rfl
  · rw [h11]; rfl

/-- **C63** is false for density matrices: `X(1, control=0)` on the one-qubit state `|1⟩⟨1|` is accepted, although
there is no qubit 1, and returns `|1⟩⟨0|`, which is not even Hermitian and has trace zero.  The same gate on the
state vector `|1⟩` raises an error. -/
theorem C63_outside_false (so : SetOrder) :
    (∃ r, applyGates so (.dm rhoOne) (.single (Gate.X (.int 1) (.int 0))) [] = .ok (.dm r) ∧
      dmMat 1 rhoOne.array = Matrix.single 1 1 1 ∧ dmMat 1 r.array = Matrix.single 1 0 1) ∧
    ∃ e, applyGates so (.vec ⟨[2], [0, 1]⟩) (.single (Gate.X (.int 1) (.int 0))) [] = .error e := by
  have h10 : (1 : Lab 1) ≠ 0 := fun h => absurd (congrFun h 0) (by decide)
  refine ⟨⟨⟨⟨[2, 2], [0, 0, 1, 0]⟩⟩, ?_, ?_, ?_⟩, ?_⟩
  · rw [applyGates_single_dm (U := matX) so rfl rfl]
    exact congrArg (Except.map State.dm) (cnot_rhoOne so)
  · exact dm_one _ _ _ _ (by simp [Matrix.single, h10]) (by simp [Matrix.single, h10]) (by simp [Matrix.single, h10]) (by simp [Matrix.single, h10.symm])
  · exact dm_one _ _ _ _ (by simp [Matrix.single, h10]) (by simp [Matrix.single, h10]) (by simp [Matrix.single, h10]) (by simp [Matrix.single, h10.symm])
  · have hst : IsKet 1 (⟨[2], [0, 1]⟩ : NDArray ℂ) := ⟨rfl, rfl⟩
    exact C62_rejects (n := 1) (values := []) so .X (.int 1) (.int 0) (fun h => absurd h.2 (by decide)) hst false true

end Verif
