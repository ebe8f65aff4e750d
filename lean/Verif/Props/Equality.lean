import Verif.Model.Equality
import Verif.Model.Api
import Verif.Props.NumpyControl
import Verif.Props.Composite

/-! # C99: what `==` says about operations -/

set_option autoImplicit false

namespace Verif
open NDArray

/-! ## Spec -/

/-- No numpy integers among the controls. -/
def Gate.NoNumpy (g : Gate) : Prop := ∀ l, g.control = some l → ∀ q, CIdx.npInt q ∉ l

namespace Op
mutual
/-- The parameters of the `Scale` objects in an operation, from the outside inwards and from left to right. -/
def factors : Op → List Param
  | .prim _ => []
  | .comp (.scale p) ops => p :: factorsList ops
  | .comp _ ops => factorsList ops
/-- The same for lists. -/
def factorsList : List Op → List Param
  | [] => []
  | o :: os => factors o ++ factorsList os
end

mutual
/-- No gate of the operation has a numpy integer among its controls. -/
def NoNumpy : Op → Prop
  | .prim g => g.NoNumpy
  | .comp _ ops => NoNumpyList ops
/-- The same for lists. -/
def NoNumpyList : List Op → Prop
  | [] => True
  | o :: os => NoNumpy o ∧ NoNumpyList os
end

mutual
/-- The operation without the number of qubits and the names of the features of its circuits. -/
def bare : Op → Op
  | .prim g => .prim g
  | .comp (.circ _ _) ops => .comp (.circ 0 []) (bares ops)
  | .comp k ops => .comp k (bares ops)
/-- The same for lists. -/
def bares : List Op → List Op
  | [] => []
  | o :: os => bare o :: bares os
end

/-! ## Lemmas -/

mutual
theorem qubitSupport_bare (so : SetOrder) : ∀ o : Op, qubitSupport so (bare o) = qubitSupport so o
  | .prim g => rfl
  | .comp k ops => by
    cases k <;> simp only [bare, qubitSupport, supportList_bares so ops]
theorem supportList_bares (so : SetOrder) : ∀ os : List Op, supportList so (bares os) = supportList so os
  | [] => rfl
  | o :: os => by simp only [bares, supportList, qubitSupport_bare so o, supportList_bares so os]
end

mutual
theorem tensor_bare (so : SetOrder) (values : Values) : ∀ (o : Op) (full : Option (List ℕ)),
    tensor so values (bare o) full = tensor so values o full
  | .prim g, full => rfl
  | .comp k ops, full => by
    have h := fun f => tensorList_bares so values ops f
    have hq := supportList_bares so ops
    cases k <;> simp only [bare, tensor, h, qubitSupport, hq]
theorem tensorList_bares (so : SetOrder) (values : Values) : ∀ (os : List Op) (full : List ℕ),
    tensorList so values (bares os) full = tensorList so values os full
  | [], _ => rfl
  | o :: os, full => by simp only [bares, tensorList, tensor_bare so values o, tensorList_bares so values os]
end

mutual
theorem call_bare (so : SetOrder) (values : Values) : ∀ (o : Op) (st : Option State),
    call so values (bare o) st = call so values o st
  | .prim g, st => rfl
  | .comp k ops, st => by
    have h1 := fun st => callSeq_bares so values ops st
    have h2 := fun st => callList_bares so values ops st
    have h3 : ∀ ρ, expectDM so values (bares ops) ρ = expectDM so values ops ρ := by
      intro ρ
      have ht : tensor so values (.comp .obs (bares ops)) none = tensor so values (.comp .obs ops) none :=
        tensor_bare so values (.comp .obs ops) none
      have hq := supportList_bares so ops
      simp only [expectDM, ht, qubitSupport, hq]
    cases k <;> simp only [bare, call, h1, h2, h3]
theorem callSeq_bares (so : SetOrder) (values : Values) : ∀ (os : List Op) (st : Option State),
    callSeq so values (bares os) st = callSeq so values os st
  | [], _ => rfl
  | o :: os, st => by
    have h1 := call_bare so values o st
    have h2 := fun st => callSeq_bares so values os st
    simp only [bares, callSeq, h1, h2]
theorem callList_bares (so : SetOrder) (values : Values) : ∀ (os : List Op) (st : Option State),
    callList so values (bares os) st = callList so values os st
  | [], _ => rfl
  | o :: os, st => by simp only [bares, callList, call_bare so values o, callList_bares so values os]
end

mutual
theorem flatten_bare : ∀ o : Op, flatten (bare o) = flatten o
  | .prim g => rfl
  | .comp k ops => by cases k <;> simp only [bare, flatten, flattenList_bares ops]
theorem flattenList_bares : ∀ os : List Op, flattenList (bares os) = flattenList os
  | [] => rfl
  | o :: os => by simp only [bares, flattenList, flatten_bare o, flattenList_bares os]
end

theorem paramNames_bare (strOf : ℝ → String) (o : Op) : paramNames strOf (bare o) = paramNames strOf o := by
  rcases o with g | ⟨k, ops⟩
  · rfl
  · cases k <;> simp only [bare, paramNames, iter, flattenList_bares] <;> rfl

end Op

theorem Ctl.plain_eq {c : Ctl} (h : ∀ l, c = some l → ∀ q, CIdx.npInt q ∉ l) : c.map (List.map CIdx.plain) = c := by
  rcases c with _ | l
  · rfl
  · have : l.map CIdx.plain = l := by
      refine (List.map_congr_left (g := id) fun c hc => ?_).trans (List.map_id l)
      cases c with
      | npInt q => exact absurd hc (h l rfl q)
      | _ => rfl
    simp [this]

theorem Gate.PyEq.eq {g h : Gate} (e : g.PyEq h) (hg : g.NoNumpy) (hh : h.NoNumpy) : g = h := by
  obtain ⟨e1, e2, e3, e4, e5, e6⟩ := e
  have : g.control = h.control := by
    rw [Ctl.Same, Ctl.plain_eq hg, Ctl.plain_eq hh] at e4; exact e4
  cases g; cases h; simp_all

namespace Op
mutual
theorem PyEq.factors_length : ∀ {o o' : Op}, PyEq o o' → o.factors.length = o'.factors.length
  | .prim g, .prim h, _ => rfl
  | .comp k ops, .comp k' ops', h => by
    have h' := PyEqs.factors_length h.2
    have hk := h.1
    cases k <;> cases k' <;> simp_all [CompKind.SameClass, factors]
  | .prim _, .comp _ _, h => by simp [PyEq] at h
  | .comp _ _, .prim _, h => by simp [PyEq] at h
theorem PyEqs.factors_length : ∀ {os os' : List Op}, PyEqs os os' → (factorsList os).length = (factorsList os').length
  | [], [], _ => rfl
  | o :: os, o' :: os', h => by
    simp only [factorsList, List.length_append, PyEq.factors_length h.1, PyEqs.factors_length h.2]
  | [], _ :: _, h => by simp [PyEqs] at h
  | _ :: _, [], h => by simp [PyEqs] at h
end

mutual
theorem PyEq.bare_eq : ∀ {o o' : Op}, PyEq o o' → o.factors = o'.factors → o.NoNumpy → o'.NoNumpy → bare o = bare o'
  | .prim g, .prim h, e, _, hg, hh => by
    simp only [bare, Gate.PyEq.eq e hg hh]
  | .comp k ops, .comp k' ops', h, hf, hp, hp' => by
    have hk := h.1
    have key : factorsList ops = factorsList ops' → bares ops = bares ops' := fun hf => PyEqs.bares_eq h.2 hf hp hp'
    cases k <;> cases k' <;> simp_all [CompKind.SameClass, factors, bare]
  | .prim _, .comp _ _, h, _, _, _ => by simp [PyEq] at h
  | .comp _ _, .prim _, h, _, _, _ => by simp [PyEq] at h
theorem PyEqs.bares_eq : ∀ {os os' : List Op}, PyEqs os os' → factorsList os = factorsList os' → NoNumpyList os →
    NoNumpyList os' → bares os = bares os'
  | [], [], _, _, _, _ => rfl
  | o :: os, o' :: os', h, hf, hp, hp' => by
    simp only [factorsList] at hf
    obtain ⟨h1, h2⟩ := List.append_inj hf (PyEq.factors_length h.1)
    simp only [bares, PyEq.bare_eq h.1 h1 hp.1 hp'.1, PyEqs.bares_eq h.2 h2 hp.2 hp'.2]
  | [], _ :: _, h, _, _, _ => by simp [PyEqs] at h
  | _ :: _, [], h, _, _, _ => by simp [PyEqs] at h
end

mutual
theorem PyEq.refl : ∀ o : Op, PyEq o o
  | .prim g => ⟨rfl, rfl, rfl, rfl, rfl, rfl⟩
  | .comp k ops => ⟨by cases k <;> trivial, PyEqs.refl ops⟩
theorem PyEqs.refl : ∀ os : List Op, PyEqs os os
  | [] => trivial
  | o :: os => ⟨PyEq.refl o, PyEqs.refl os⟩
end

mutual
theorem PyEq.symm : ∀ {o o' : Op}, PyEq o o' → PyEq o' o
  | .prim _, .prim _, ⟨a, b, c, d, e, f⟩ => ⟨a.symm, b.symm, c.symm, d.symm, e.symm, f.symm⟩
  | .comp k _, .comp k' _, ⟨h, hs⟩ => ⟨by cases k <;> cases k' <;> trivial, PyEqs.symm hs⟩
  | .prim _, .comp _ _, h => by simp [PyEq] at h
  | .comp _ _, .prim _, h => by simp [PyEq] at h
theorem PyEqs.symm : ∀ {os os' : List Op}, PyEqs os os' → PyEqs os' os
  | [], [], _ => trivial
  | _ :: _, _ :: _, ⟨h, hs⟩ => ⟨PyEq.symm h, PyEqs.symm hs⟩
  | [], _ :: _, h => by simp [PyEqs] at h
  | _ :: _, [], h => by simp [PyEqs] at h
end

mutual
theorem PyEq.trans : ∀ {o o' o'' : Op}, PyEq o o' → PyEq o' o'' → PyEq o o''
  | .prim _, .prim _, .prim _, ⟨a, b, c, d, e, f⟩, ⟨a', b', c', d', e', f'⟩ =>
    ⟨a.trans a', b.trans b', c.trans c', d.trans d', e.trans e', f.trans f'⟩
  | .comp k _, .comp k' _, .comp k'' _, ⟨h, hs⟩, ⟨h', hs'⟩ =>
    ⟨by cases k <;> cases k' <;> cases k'' <;> trivial, PyEqs.trans hs hs'⟩
  | .prim _, .comp _ _, _, h, _ => by simp [PyEq] at h
  | .comp _ _, .prim _, _, h, _ => by simp [PyEq] at h
  | .prim _, .prim _, .comp _ _, _, h => by simp [PyEq] at h
  | .comp _ _, .comp _ _, .prim _, _, h => by simp [PyEq] at h
theorem PyEqs.trans : ∀ {os os' os'' : List Op}, PyEqs os os' → PyEqs os' os'' → PyEqs os os''
  | [], [], [], _, _ => trivial
  | _ :: _, _ :: _, _ :: _, ⟨h, hs⟩, ⟨h', hs'⟩ => ⟨PyEq.trans h h', PyEqs.trans hs hs'⟩
  | [], _ :: _, _, h, _ => by simp [PyEqs] at h
  | _ :: _, [], _, h, _ => by simp [PyEqs] at h
  | [], [], _ :: _, _, h => by simp [PyEqs] at h
  | _ :: _, _ :: _, [], _, h => by simp [PyEqs] at h
end
end Op

/-! ## Theorems -/

/-- **C99** (the part that holds): `==` is an equivalence of operations. -/
theorem C99_equivalence : Equivalence Op.PyEq := ⟨Op.PyEq.refl, Op.PyEq.symm, Op.PyEq.trans⟩

/-- **C99** (the part that holds): operations that compare equal, scale by the same parameters and have no numpy integers
among their controls have the same qubits, parameter names and matrices, and do the same to every state, for all
parameter values, errors included. -/
theorem C99_equal_partial (so : SetOrder) {o o' : Op} (h : o.PyEq o') (hf : o.factors = o'.factors) (hp : o.NoNumpy)
    (hp' : o'.NoNumpy) (values : Values) (strOf : ℝ → String) :
    o.qubitSupport so = o'.qubitSupport so ∧ o.paramNames strOf = o'.paramNames strOf ∧
      (∀ full, o.tensor so values full = o'.tensor so values full) ∧ (∀ st, o.call so values st = o'.call so values st) ∧
      (∀ st, run so o st values = run so o' st values) := by
  have e := Op.PyEq.bare_eq h hf hp hp'
  have hc : ∀ st, o.call so values st = o'.call so values st := fun st => by
    rw [← Op.call_bare, e, Op.call_bare]
  refine ⟨?_, ?_, fun full => ?_, hc, fun st => hc _⟩
  · rw [← Op.qubitSupport_bare, e, Op.qubitSupport_bare]
  · rw [← Op.paramNames_bare, e, Op.paramNames_bare]
  · rw [← Op.tensor_bare, e, Op.tensor_bare]

/-- **C99** (the part that holds): what a circuit does to a state, and every expectation value, does not depend on its
number of qubits and feature names. -/
theorem C99_circuits_partial (so : SetOrder) (eigh : Eigh) (draw : Draw) (n n' : ℕ) (fs fs' : List String) {ops ops' : List Op}
    (h : Op.PyEqs ops ops') (hf : Op.factorsList ops = Op.factorsList ops') (hp : Op.NoNumpyList ops) (hp' : Op.NoNumpyList ops')
    (state : State) (obs : List Observable) (values : Values) (mode : DiffMode) (shots : ℤ) :
    expectation so eigh draw state (.comp (.circ n fs) ops) obs values mode shots
      = expectation so eigh draw state (.comp (.circ n' fs') ops') obs values mode shots := by
  have e : (Op.comp (.circ n fs) ops).iter = (Op.comp (.circ n' fs') ops').iter := by
    simp only [Op.iter]
    rw [← Op.flattenList_bares, Op.PyEqs.bares_eq h hf hp hp', Op.flattenList_bares]
  have ha : adjointSingle so state (.comp (.circ n fs) ops) values = adjointSingle so state (.comp (.circ n' fs') ops') values :=
    funext fun o => by simp only [adjointSingle, e]
  simp only [expectation, adExpectation, adjointExpectation, ha, e]

/-- **C99** for `Scale`, exactly: two `Scale` objects compare equal just when their operations do, whatever the
parameters. -/
theorem C99_scale_iff (p q : Param) (ops ops' : List Op) :
    Op.PyEq (.comp (.scale p) ops) (.comp (.scale q) ops') ↔ Op.PyEqs ops ops' := by
  simp [Op.PyEq, CompKind.SameClass]

/-- **C99** is false for `Scale`: `2 Z` and `3 Z` compare equal, but map `|0⟩` to different vectors. -/
theorem C99_scale_false :
    ¬ ∀ (so : SetOrder) (o o' : Op) (st : State), o.PyEq o' → o.call so [] (some st) = o'.call so [] (some st) := by
  intro H
  let so : SetOrder := ⟨List.dedup, List.nodup_dedup, fun _ _ => List.mem_dedup⟩
  obtain ⟨r, h1, h2, h3⟩ := call_means so zero1_isKet (.gate (leafZ (values := [])).any)
  obtain ⟨a, a1, -, a3⟩ := C17_scale so (.num 2) h1 h2
  obtain ⟨b, b1, -, b3⟩ := C17_scale so (.num 3) h1 h2
  have h := H so _ _ (.vec zero1) ((C99_scale_iff (.num 2) (.num 3) _ _).2 (Op.PyEqs.refl [.prim (Gate.Z (.int 0))]))
  have e : a = b := by
    have := a1.symm.trans (h.trans b1)
    simpa using this
  have hr := congrFun h3 (lab1 0)
  rw [mulVec_lab1] at hr
  simp only [ket, zero1_get, StdGate.mat, matE] at hr
  have h0 := a3 (lab1 0)
  rw [e, b3, hr] at h0
  norm_num at h0

/-- **C99** for circuits, exactly: neither the number of qubits nor the feature names are compared. -/
theorem C99_circuit_iff (n m : ℕ) (fs fs' : List String) (ops ops' : List Op) :
    Op.PyEq (.comp (.circ n fs) ops) (.comp (.circ m fs') ops') ↔ Op.PyEqs ops ops' := by
  simp [Op.PyEq, CompKind.SameClass]

/-- **C99** is false for circuits: circuits that compare equal can have different numbers of variational parameters. -/
theorem C99_circuit_false :
    ¬ ∀ (strOf : ℝ → String) (o o' : Op), o.PyEq o' → o.nVparams strOf = o'.nVparams strOf := by
  intro H
  have := H (fun _ => "") (mkCircuit 1 (.list [.prim (Gate.RX (.str "x") (.int 0))]) ["x"])
    (mkCircuit 1 (.list [.prim (Gate.RX (.str "x") (.int 0))]))
    ((C99_circuit_iff _ _ _ _ _ _).2 (Op.PyEqs.refl _))
  simp [mkCircuit, Op.nVparams, Op.vparams, Op.paramNames, Op.iter, OpArg.toList, Op.flattenList, Op.flatten, Gate.RX,
    mkGate] at this

/-- **C99** is false for gates: a numpy control equals the Python one, but only the latter has an effect (C56). -/
theorem C99_numpy_false :
    ¬ ∀ (so : SetOrder) (o o' : Op) (st : State), o.PyEq o' → o.call so [] (some st) = o'.call so [] (some st) := by
  intro H
  refine C56_numpy_control_false fun so n st t c _ _ _ _ => ?_
  have h := H so (.prim (Gate.X (.int t) (.npInt c))) (.prim (Gate.X (.int t) (.int c))) (.vec st)
    ⟨rfl, rfl, rfl, rfl, rfl, rfl⟩
  simp only [Op.call, bind, Except.bind] at h
  generalize applyGates so (State.vec st) (GateArg.single (Gate.X (.int t) (.npInt c))) [] = a at h ⊢
  generalize applyGates so (State.vec st) (GateArg.single (Gate.X (.int t) (.int c))) [] = b at h ⊢
  cases a <;> cases b <;> simp_all [Functor.map, Except.map]

/-- Non-vacuity of `C99_equal_partial`: circuits that compare equal although they are different objects. -/
example : ∃ o o' : Op, o.PyEq o' ∧ o.factors = o'.factors ∧ o.NoNumpy ∧ o'.NoNumpy ∧ o ≠ o' ∧ o.factors ≠ [] := by
  refine ⟨.comp (.circ 1 ["x"]) [.comp (.scale (.num 2)) [.prim (Gate.X (.int 0))]],
    .comp (.circ 2 []) [.comp (.scale (.num 2)) [.prim (Gate.X (.int 0))]], (C99_circuit_iff _ _ _ _ _ _).2 (Op.PyEqs.refl _), rfl,
    ?_, ?_, by simp, by simp [Op.factors, Op.factorsList]⟩ <;>
  · refine ⟨⟨fun l hl q hq => ?_, trivial⟩, trivial⟩
    cases hl
    simp [parseControl] at hq

end Verif
