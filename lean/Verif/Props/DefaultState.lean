import Verif.Props.Fit
import Verif.Props.States

/-!
# C80: calling an operation without a state

`op()` starts from a zero state whose size is the number of qubits of the *first* gate (primitives/primitive.py:56-61);
the register size of a `QuantumCircuit` plays no part (composite/sequence.py:32-33).
-/

set_option autoImplicit false

namespace Verif
open NDArray
variable {n : ℕ} {values : Values} {so : SetOrder}

/-- **C80** (which state): calling a (possibly nested) circuit without a state is running it on `|0…0⟩` with as many
qubits as the first gate has; the gates may be of any class and may be noisy. -/
theorem C80_first_gate {o : Op} (hp : o.Plain) {g : Gate} {gs : List Gate} (hg : o.gates = g :: gs)
    (hc : WfCtl g.control) (hd : g.qubits.Nodup) :
    ∃ z, IsKet g.qubits.length z ∧ (∀ x, ket g.qubits.length z x = if x = 0 then 1 else 0) ∧
      o.call so values none = run so o (.vec z) values := by
  obtain ⟨z, h1, h2, -, h4⟩ := C30_zero_state g.qubits.length
  refine ⟨z, h2, h4, ?_⟩
  rw [run, hp.call so, hp.call so, hg]
  have hl : (pySorted g.qubits).length = g.qubits.length := (perm_pySorted _).length_eq
  have hq : g.qubitSupport = .ok (pySorted g.qubits) := qubitSupport_eq hc hd
  simp only [List.map_cons, Op.callSeq, Op.call, hq, bind, Except.bind, hl, h1]
  rfl

/-- **C80** (when it works): a circuit of noiseless standard gates can be called without a state exactly when every
gate fits the register of the first gate. -/
theorem C80_accepted_iff {o : Op} (hp : o.Plain) {g : Gate} {gs : List Gate} (hg : o.gates = g :: gs)
    (hd : g.qubits.Nodup) (h : ∀ x ∈ o.gates, x.Standard values) (hnz : ∀ x ∈ o.gates, x.noise = none) :
    (∃ r, o.call so values none = .ok r) ↔ ∀ x ∈ o.gates, x.Fits g.qubits.length values := by
  obtain ⟨z, h1, -, h3⟩ := C80_first_gate (so := so) (values := values) hp hg (h g (by simp [hg])).2 hd
  rw [h3]
  exact C79_run hp h hnz h1

/-- **C80** (what it returns): if the gates are standard gates on `m` qubits and the first one uses all of them, the
result is the product of the gate matrices applied to `|0…0⟩`. -/
theorem C80_default_partial {m : ℕ} {o : Op} (hp : o.Plain) {g : Gate} {gs : List Gate} (hg : o.gates = g :: gs)
    {ss : List StdGate} (h : List.Forall₂ (Gate.Std m values) o.gates ss) (hnz : ∀ x ∈ o.gates, x.noise = none)
    (hm : g.qubits.length = m) :
    ∃ r, o.call so values none = .ok (some (.vec r)) ∧ IsKet m r ∧
      ket m r = ((List.zipWith (stdMat m) o.gates ss).reverse.prod).mulVec fun x => if x = 0 then 1 else 0 := by
  have hok := forall₂_std_ok h
  have hv := (hok g (by simp [hg])).valid
  obtain ⟨z, h1, h2, h3⟩ := C80_first_gate (so := so) (values := values) hp hg hv.ctl hv.dims.nodup
  rw [hm] at h1 h2
  have hn : List.Forall₂ Gate.NoiseIs o.gates (o.gates.map fun _ => []) := by
    rw [List.forall₂_map_right_iff, List.forall₂_same]
    exact fun g hg => .none (hnz g hg)
  obtain ⟨r, k1, k2⟩ := callSeq_evolved so (by simp [hg]) hok hn (s := .vec z) h1
  rw [h3, run, hp.call so, k1]
  cases r with
  | dm ρ => exact absurd hnz k2.1
  | vec r =>
    refine ⟨r, rfl, k2.2.1, ?_⟩
    rw [k2.2.2, gatesMat_std h]
    refine congrArg _ (funext h2)

/-- Non-vacuity: `CNOT(1, control=0)` followed by `H(0)` on two qubits. -/
example : (mkCircuit 2 (.list [.prim (Gate.X (.int 1) (.int 0)), .prim (Gate.H (.int 0))])).Plain ∧
    (mkCircuit 2 (.list [.prim (Gate.X (.int 1) (.int 0)), .prim (Gate.H (.int 0))])).gates
      = [Gate.X (.int 1) (.int 0), Gate.H (.int 0)] ∧
    List.Forall₂ (Gate.Std 2 []) [Gate.X (.int 1) (.int 0), Gate.H (.int 0)] [.X, .H] ∧
    (Gate.X (.int 1) (.int 0)).qubits.length = 2 :=
  ⟨.circ _ _ (.cons (.prim _) (.cons (.prim _) .nil)), by simp [mkCircuit, OpArg.toList, Op.gates, Op.gatesList],
    .cons ⟨.X _ _ _, rfl, .inr (.inr ⟨[0], rfl⟩), by decide⟩ (.cons ⟨.H _ _ _, rfl, .inr (.inl rfl), by decide⟩ .nil), rfl⟩

/-- **C80** is false of the code: a two-qubit `QuantumCircuit` of `X(0)` and `X(1)` can be run on the zero state of
its register, but not called without a state; and one with `X(0)` only returns a state of one qubit. -/
theorem C80_register_false (so : SetOrder) :
    (∃ e, (mkCircuit 2 (.list [.prim (Gate.X (.int 0)), .prim (Gate.X (.int 1))])).call so [] none = .error e) ∧
    (∀ z, zeroState 2 = .ok z →
      ∃ r, run so (mkCircuit 2 (.list [.prim (Gate.X (.int 0)), .prim (Gate.X (.int 1))])) (.vec z) [] = .ok r) ∧
    ∃ r, (mkCircuit 2 (.list [.prim (Gate.X (.int 0))])).call so [] none = .ok (some (.vec r)) ∧ IsKet 1 r ∧
      ¬ IsKet 2 r := by
  have hx : ∀ q, (Gate.X (.int q)).Standard [] := fun q => ⟨⟨_, .X _ _ _⟩, .inr (.inl rfl)⟩
  have hp : (mkCircuit 2 (.list [.prim (Gate.X (.int 0)), .prim (Gate.X (.int 1))])).Plain :=
    .circ _ _ (.cons (.prim _) (.cons (.prim _) .nil))
  have hg : (mkCircuit 2 (.list [.prim (Gate.X (.int 0)), .prim (Gate.X (.int 1))])).gates
      = [Gate.X (.int 0), Gate.X (.int 1)] := by simp [mkCircuit, OpArg.toList, Op.gates, Op.gatesList]
  have hst : ∀ x ∈ (mkCircuit 2 (.list [.prim (Gate.X (.int 0)), .prim (Gate.X (.int 1))])).gates, x.Standard [] := by
    rw [hg]; simpa using ⟨hx 0, hx 1⟩
  have hnz : ∀ x ∈ (mkCircuit 2 (.list [.prim (Gate.X (.int 0)), .prim (Gate.X (.int 1))])).gates, x.noise = none := by
    rw [hg]; simp [Gate.X, mkGate]
  refine ⟨?_, fun z hz => ?_, ?_⟩
  · have := mt (C80_accepted_iff (so := so) hp hg (by decide) hst hnz).1 fun h => by
      have := (h (Gate.X (.int 1)) (by simp [hg])).2.2 1 (by decide)
      exact absurd this (by decide)
    rcases e : (mkCircuit 2 (.list [.prim (Gate.X (.int 0)), .prim (Gate.X (.int 1))])).call so [] none with e' | r
    · exact ⟨e', rfl⟩
    · exact absurd ⟨r, e⟩ this
  · obtain ⟨z', h1, h2, -⟩ := C30_zero_state 2
    rw [hz] at h1; cases h1
    refine (C79_run hp hst hnz h2).2 ?_
    rw [hg]
    simp only [List.mem_cons, List.not_mem_nil, or_false, forall_eq_or_imp, forall_eq]
    exact ⟨⟨⟨_, .X _ _ _, rfl⟩, by decide, by decide⟩, ⟨⟨_, .X _ _ _, rfl⟩, by decide, by decide⟩⟩
  · have hg1 : (mkCircuit 2 (.list [.prim (Gate.X (.int 0))])).gates = [Gate.X (.int 0)] := by
      simp [mkCircuit, OpArg.toList, Op.gates, Op.gatesList]
    obtain ⟨r, h1, h2, -⟩ := C80_default_partial (so := so) (values := []) (m := 1)
      (.circ 2 [] (.cons (.prim (Gate.X (.int 0))) .nil)) hg1 (ss := [.X]) (by
        exact .cons ⟨.X _ _ _, rfl, .inr (.inl rfl), by decide⟩ .nil) (by
        intro x hx
        simp only [Op.gates, Op.gatesList, List.append_nil, List.mem_singleton] at hx
        subst hx; rfl) rfl
    refine ⟨r, h1, h2, fun h => ?_⟩
    have := h.shape
    rw [h2.shape] at this
    exact absurd this (by decide)

/-- **C80** (nothing to start from): a circuit without gates returns `None`, and calling an observable without a state
is not implemented. -/
theorem C80_none {o : Op} (hp : o.Plain) (he : o.gates = []) (ops : List Op) :
    o.call so values none = .ok none ∧ (Op.comp .obs ops).call so values none = .error .notImplemented := by
  refine ⟨?_, by simp only [Op.call]⟩
  rw [hp.call so, he]; simp [Op.callSeq]

example : (mkCircuit 2 (.list [])).Plain ∧ (mkCircuit 2 (.list [])).gates = [] :=
  ⟨.circ _ _ .nil, by simp [mkCircuit, OpArg.toList, Op.gates, Op.gatesList]⟩

end Verif
