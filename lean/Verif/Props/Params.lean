import Verif.Props.ExpectModes
import Verif.Props.Gates

/-! # C36: parameter names of circuits -/

namespace Verif
open NDArray

variable {n : ℕ} {values : Values} (so : SetOrder)

/-- The angle of the gate is the parameter `p` (a name or a number). -/
def Gate.HasAngle (g : Gate) (p : Param) : Prop := ∃ sh, g.cls = .parametric p sh ∨ g.cls = .phase p sh

/-- The rotation gates of the library have the angle they are constructed with. -/
theorem Rot.hasAngle (r : Rot) (p : Param) (t : TArg) (c : CArg) (nz) : (r.gate p t c nz).HasAngle p := by
  cases r <;> exact ⟨0, by simp [Rot.gate, Gate.RX, Gate.RY, Gate.RZ, Gate.PHASE, mkGate]⟩

theorem Gate.HasAngle.unique {g : Gate} {p q : Param} (h : g.HasAngle p) (h' : g.HasAngle q) : p = q := by
  obtain ⟨_, h | h⟩ := h <;> obtain ⟨_, h' | h'⟩ := h' <;> rw [h] at h' <;> cases h' <;> rfl

theorem mem_paramNames (strOf : ℝ → String) (k : ℕ) (fs : List String) (ops : List Op) (s : String) :
    s ∈ (Op.comp (.circ k fs) ops).paramNames strOf ↔
      ∃ g ∈ (Op.comp (.circ k fs) ops).gates, g.HasAngle (.str s) ∨ ∃ x, strOf x = s ∧ g.HasAngle (.num x) := by
  simp only [Op.paramNames, List.mem_dedup, List.mem_filterMap, Op.iter, Op.flattenList_gates, Op.gates, List.mem_map]
  constructor
  · rintro ⟨o, ⟨g, hg, rfl⟩, h⟩
    refine ⟨g, hg, ?_⟩
    rcases hc : g.cls with _ | ⟨p, sh⟩ | ⟨p, sh⟩ | sh <;> simp only [hc] at h
    · cases h
    · cases p with
      | str s' => cases h; exact .inl ⟨sh, .inl hc⟩
      | num x => cases h; exact .inr ⟨x, rfl, sh, .inl hc⟩
    · cases p with
      | str s' => cases h; exact .inl ⟨sh, .inr hc⟩
      | num x => cases h; exact .inr ⟨x, rfl, sh, .inr hc⟩
    · cases h
  · rintro ⟨g, hg, h⟩
    refine ⟨_, ⟨g, hg, rfl⟩, ?_⟩
    rcases h with ⟨sh, h | h⟩ | ⟨x, rfl, sh, h | h⟩ <;> simp only [h]

/-- **C36, restricted to circuits without numeric angles**: `vparams` lists without repetition exactly the names used as
angles by the gates of the circuit (at any depth) that are not in `fparams`; `n_vparams` is their number. -/
theorem C36_vparams_partial (strOf : ℝ → String) {k : ℕ} {fs : List String} {ops : List Op}
    (hnum : ∀ g ∈ (Op.comp (.circ k fs) ops).gates, ∀ x, ¬ g.HasAngle (.num x)) :
    ((Op.comp (.circ k fs) ops).vparams strOf fs).Nodup ∧
    (∀ s, s ∈ (Op.comp (.circ k fs) ops).vparams strOf fs ↔
      s ∉ fs ∧ ∃ g ∈ (Op.comp (.circ k fs) ops).gates, g.HasAngle (.str s)) ∧
    (Op.comp (.circ k fs) ops).nVparams strOf
      = {s | s ∉ fs ∧ ∃ g ∈ (Op.comp (.circ k fs) ops).gates, g.HasAngle (.str s)}.ncard := by
  have h1 : ((Op.comp (.circ k fs) ops).vparams strOf fs).Nodup := (List.nodup_dedup _).filter _
  have h2 : ∀ s, s ∈ (Op.comp (.circ k fs) ops).vparams strOf fs ↔
      s ∉ fs ∧ ∃ g ∈ (Op.comp (.circ k fs) ops).gates, g.HasAngle (.str s) := by
    intro s
    rw [Op.vparams, List.mem_filter, mem_paramNames, and_comm, decide_eq_true_iff]
    refine and_congr_right fun _ => exists_congr fun g => and_congr_right fun hg => ⟨?_, .inl⟩
    rintro (h | ⟨x, -, h⟩)
    · exact h
    · exact absurd h (hnum g hg x)
  refine ⟨h1, h2, ?_⟩
  have : {s | s ∉ fs ∧ ∃ g ∈ (Op.comp (.circ k fs) ops).gates, g.HasAngle (.str s)}
      = (((Op.comp (.circ k fs) ops).vparams strOf fs).toFinset : Set String) := by
    ext s; simp [h2]
  rw [this, Set.ncard_coe_finset, List.toFinset_card_of_nodup h1]
  rfl

/-- **C36 is false of the code**: a fixed numeric angle is listed as a trainable parameter, under the name `str(angle)`. -/
theorem C36_numeric_listed (strOf : ℝ → String) {k : ℕ} {fs : List String} {ops : List Op} {g : Gate} {x : ℝ}
    (hg : g ∈ (Op.comp (.circ k fs) ops).gates) (hx : g.HasAngle (.num x)) (hf : strOf x ∉ fs) :
    strOf x ∈ (Op.comp (.circ k fs) ops).vparams strOf fs ∧ 1 ≤ (Op.comp (.circ k fs) ops).nVparams strOf := by
  have h : strOf x ∈ (Op.comp (.circ k fs) ops).vparams strOf fs := by
    rw [Op.vparams, List.mem_filter, mem_paramNames]
    exact ⟨⟨g, hg, .inr ⟨x, rfl, hx⟩⟩, by simpa using hf⟩
  exact ⟨h, List.length_pos_of_mem h⟩

/-- The witness: `QuantumCircuit(1, [RX(0.5, 0)])` needs no values, but has one "trainable parameter". -/
theorem C36_numeric_wrong (strOf : ℝ → String) (a : NDArray ℂ) (ha : IsKet 1 a) :
    (∃ r, run so (mkCircuit 1 (.list [.prim (Gate.RX (.num 0.5) (.int 0))])) (.vec a) [] = .ok r) ∧
      (mkCircuit 1 (.list [.prim (Gate.RX (.num 0.5) (.int 0))])).nVparams strOf = 1 := by
  have hX : (Gate.RX (.num 0.5) (.int 0)).Std 1 [] (.RX 0.5) :=
    ⟨.RX _ _ _ (.num _) (by simp), rfl, ⟨.inr (.inl rfl), by decide⟩⟩
  obtain ⟨r, r1, -, -⟩ := callSeq_means so ha (.cons (.gate (StdLeaf.any ⟨_, hX, rfl, rfl⟩)) .nil)
  refine ⟨⟨_, r1⟩, ?_⟩
  simp [mkCircuit, OpArg.toList, Op.nVparams, Op.vparams, Op.paramNames, Op.iter, Op.flattenList, Op.flatten, Gate.RX, mkGate]

/-- **C36** (the listed names are needed): for a circuit of the library's gates, if a listed trainable name has no value
then `apply_gates` on its gates raises KeyError. -/
theorem C36_needed (strOf : ℝ → String) {k : ℕ} {fs : List String} {ops : List Op}
    (hp : (Op.comp (.circ k fs) ops).Plain) (hg : ∀ g ∈ (Op.comp (.circ k fs) ops).gates, (∃ s, g.Is values s) ∨ g.Missing values)
    (hnum : ∀ g ∈ (Op.comp (.circ k fs) ops).gates, ∀ x, ¬ g.HasAngle (.num x))
    {s : String} (hs : s ∈ (Op.comp (.circ k fs) ops).vparams strOf fs) (hv : values.lookup s = none) (state : State) :
    applyGates so state (.list (Op.comp (.circ k fs) ops).gates) values = .error .keyError := by
  obtain ⟨-, g, hgm, ha⟩ := ((C36_vparams_partial strOf hnum).2.1 s).1 hs
  refine C41_missing_name so state hg ⟨g, hgm, ?_⟩ false true
  rcases hg g hgm with ⟨u, hu⟩ | hm
  · exfalso
    have key : ∀ {p : Param} {x : ℝ}, p.Resolves values x → p = .str s → False := by
      rintro p x hr rfl
      cases hr with
      | str h => rw [hv] at h; cases h
    cases hu with
    | RX _ _ _ hr => exact key hr (Gate.HasAngle.unique ⟨_, .inl rfl⟩ ha)
    | RY _ _ _ hr => exact key hr (Gate.HasAngle.unique ⟨_, .inl rfl⟩ ha)
    | RZ _ _ _ hr => exact key hr (Gate.HasAngle.unique ⟨_, .inl rfl⟩ ha)
    | PHASE _ _ _ hr => exact key hr (Gate.HasAngle.unique ⟨_, .inr rfl⟩ ha)
    | _ => obtain ⟨_, h | h⟩ := ha <;> cases h
  · exact hm

/-- **C36** (names that are needed but not listed): the parameter of a `Scale` object inside a circuit, and the values
`"time_evolution"` and `"hamiltonian"` used by `HamiltonianEvolution`. -/
theorem C36_not_listed (strOf : ℝ → String) (st : State) :
    (mkCircuit 1 (.list [mkScale (.one (.prim (Gate.X (.int 0)))) (.str "p")])).nVparams strOf = 0 ∧
    run so (mkCircuit 1 (.list [mkScale (.one (.prim (Gate.X (.int 0)))) (.str "p")])) st [] = .error .keyError ∧
    (mkCircuit 1 (.list [.prim (Gate.HamiltonianEvolution (.int 0))])).nVparams strOf = 0 := by
  refine ⟨?_, ?_, ?_⟩
  · simp [mkCircuit, mkScale, OpArg.toList, Op.nVparams, Op.vparams, Op.paramNames, Op.iter, Op.flattenList, Op.flatten, Gate.X, mkGate]
  · simp [run, mkCircuit, mkScale, OpArg.toList, Op.call, Op.callSeq, scaleParam, Values.get, bind, Except.bind]
  · simp [mkCircuit, OpArg.toList, Op.nVparams, Op.vparams, Op.paramNames, Op.iter, Op.flattenList, Op.flatten,
      Gate.HamiltonianEvolution, mkGate]

/-- Non-vacuity of C36: nested circuit with a feature parameter, a repeated name and two trainable names. -/
example (strOf : ℝ → String) : (mkCircuit 2 (.list [.prim (Gate.RX (.str "x") (.int 0)),
    mkSeq [.prim (Gate.RY (.str "a") (.int 0)), .prim (Gate.PHASE (.str "b") (.int 1)), .prim (Gate.X (.int 1))],
    .prim (Gate.RZ (.str "a") (.int 1))]) ["x"]).nVparams strOf = 2 := by
  simp [mkCircuit, mkSeq, OpArg.toList, Op.nVparams, Op.vparams, Op.paramNames, Op.iter, Op.flattenList, Op.flatten,
    Gate.RX, Gate.RY, Gate.RZ, Gate.PHASE, Gate.X, mkGate]

end Verif
