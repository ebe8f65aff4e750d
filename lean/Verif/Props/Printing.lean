import Verif.Lemmas.Printing
import Verif.Props.Equality
import Verif.Props.NoiseBound

/-!
# C107: what the text of an operation tells about it
-/

set_option autoImplicit false

namespace Verif
open NDArray
variable {D : Set ℝ} {fl : ℝ → List Char} {np : ℕ → List Char}

/-! ## Spec -/

/-- A gate whose text leaves nothing open: no noise and dense storage unless it is an evolution, and a parameter whose name is not
spelled like a number. -/
def Gate.Clear (D : Set ℝ) (fl : ℝ → List Char) (g : Gate) : Prop :=
  ((∀ s, g.cls ≠ .hamEvo s) → g.noise = none ∧ g.sparse = false) ∧
    ∀ p s, g.cls = .parametric p s ∨ g.cls = .phase p s → ∀ name, p = .str name → ∀ x ∈ D, name.toList ≠ fl x

/-! ## Lemmas -/

theorem Param.Alike.eq {p q : Param} (h : p.Alike fl q) (hp : ∀ name, p = .str name → ∀ x ∈ D, name.toList ≠ fl x)
    (hq : ∀ name, q = .str name → ∀ x ∈ D, name.toList ≠ fl x) (dp : ∀ x, p = .num x → x ∈ D) (dq : ∀ x, q = .num x → x ∈ D) :
    p = q := by
  cases h with
  | same => rfl
  | left x s h => exact absurd h (hq s rfl x (dp x rfl))
  | right x s h => exact absurd h (hp s rfl x (dq x rfl))

theorem Gate.alike_iff {g h : Gate} (hg : g.Clear D fl) (hh : h.Clear D fl) (pg : g.Printable D) (ph : h.Printable D) :
    g.Alike fl h ↔ g.PyEq h := by
  constructor
  · rintro ⟨e1, e2, e3, e4⟩
    rcases g with ⟨c, gn, gt, gc, gz, gsp⟩
    rcases h with ⟨c', hn, ht, hc, hz, hsp⟩
    simp only at e1 e2 e3
    subst e1 e2 e3
    cases c <;> cases c' <;> simp only [Gate.ClassAlike] at e4
    · obtain ⟨k1, k2⟩ := hg.1 (by simp)
      obtain ⟨k3, k4⟩ := hh.1 (by simp)
      exact ⟨rfl, rfl, rfl, rfl, k1.trans k3.symm, k2.trans k4.symm⟩
    · obtain ⟨k1, k2⟩ := hg.1 (by simp)
      obtain ⟨k3, k4⟩ := hh.1 (by simp)
      refine ⟨?_, rfl, rfl, rfl, k1.trans k3.symm, k2.trans k4.symm⟩
      simp only [e4.1.eq (hg.2 _ _ (.inl rfl)) (hh.2 _ _ (.inl rfl))
        (fun z hz => pg.nums _ (by subst hz; simp [Gate.numbers])) (fun z hz => ph.nums _ (by subst hz; simp [Gate.numbers])), e4.2]
    · obtain ⟨k1, k2⟩ := hg.1 (by simp)
      obtain ⟨k3, k4⟩ := hh.1 (by simp)
      refine ⟨?_, rfl, rfl, rfl, k1.trans k3.symm, k2.trans k4.symm⟩
      simp only [e4.1.eq (hg.2 _ _ (.inr rfl)) (hh.2 _ _ (.inr rfl))
        (fun z hz => pg.nums _ (by subst hz; simp [Gate.numbers])) (fun z hz => ph.nums _ (by subst hz; simp [Gate.numbers])), e4.2]
    · obtain ⟨rfl, rfl, rfl⟩ := e4
      exact ⟨rfl, rfl, rfl, rfl, rfl, rfl⟩
  · intro e
    obtain rfl := e.eq pg.ctl ph.ctl
    refine ⟨rfl, rfl, rfl, ?_⟩
    rcases g with ⟨_ | _ | _ | _, _, _, _, _, _⟩
    · trivial
    · exact ⟨.same _, rfl⟩
    · exact ⟨.same _, rfl⟩
    · exact ⟨rfl, rfl, rfl⟩

namespace Op
mutual
theorem alike_iff : ∀ {o o' : Op}, o.AllGates (fun g => g.Clear D fl ∧ g.Printable D) → o'.AllGates (fun g => g.Clear D fl ∧ g.Printable D) →
    (o.Alike fl o' ↔ o.PyEq o')
  | .prim g, .prim h, hg, hh => Gate.alike_iff hg.1 hh.1 hg.2 hh.2
  | .comp k ops, .comp k' ops', hg, hh => by
    simp only [Op.Alike, Op.PyEq]
    exact and_congr_right fun _ => alikes_iff hg hh
  | .prim _, .comp _ _, _, _ => by simp [Op.Alike, Op.PyEq]
  | .comp _ _, .prim _, _, _ => by simp [Op.Alike, Op.PyEq]
theorem alikes_iff : ∀ {os os' : List Op}, AllGatesList (fun g => g.Clear D fl ∧ g.Printable D) os →
    AllGatesList (fun g => g.Clear D fl ∧ g.Printable D) os' → (Alikes fl os os' ↔ PyEqs os os')
  | [], [], _, _ => by simp [Alikes, PyEqs]
  | o :: os, o' :: os', hg, hh => by
    simp only [Alikes, PyEqs]
    exact and_congr (alike_iff hg.1 hh.1) (alikes_iff hg.2 hh.2)
  | [], _ :: _, _, _ => by simp [Alikes, PyEqs]
  | _ :: _, [], _, _ => by simp [Alikes, PyEqs]
end

mutual
theorem AllGates.imp {P Q : Gate → Prop} (h : ∀ g, P g → Q g) : ∀ {o : Op}, o.AllGates P → o.AllGates Q
  | .prim g, hg => h g hg
  | .comp _ _, hg => AllGatesList.imp h hg
theorem AllGatesList.imp {P Q : Gate → Prop} (h : ∀ g, P g → Q g) : ∀ {os : List Op}, AllGatesList P os → AllGatesList Q os
  | [], _ => trivial
  | _ :: _, hg => ⟨AllGates.imp h hg.1, AllGatesList.imp h hg.2⟩
end

mutual
theorem AllGates.noNumpy : ∀ {o : Op}, o.AllGates (Gate.Printable D) → o.NoNumpy
  | .prim _, hg => hg.ctl
  | .comp _ _, hg => AllGatesList.noNumpy hg
theorem AllGatesList.noNumpy : ∀ {os : List Op}, AllGatesList (Gate.Printable D) os → NoNumpyList os
  | [], _ => trivial
  | _ :: _, hg => ⟨AllGates.noNumpy hg.1, AllGatesList.noNumpy hg.2⟩
end
end Op

/-! ## The property -/

/-- **C107** (exactly what a text shows): two operations have the same text just when they are trees of the same classes whose gates have
the same generator, qubits, shift and spelling of the parameter (and, for evolutions, noise and storage format). -/
theorem C107_iff (hf : FloatText D fl) {o o' : Op} (ho : o.AllGates (Gate.Printable D)) (ho' : o'.AllGates (Gate.Printable D)) :
    o.text fl np = o'.text fl np ↔ o.Alike fl o' :=
  ⟨fun e => (Op.cut (s := []) (t := []) hf ho ho' (by rw [e])).1, Op.Alike.text⟩

/-- **C107** (the part that holds): if no gate has noise, is sparse or has a parameter spelled like a number, the texts are the same just when
the operations compare equal. -/
theorem C107_equal_partial (hf : FloatText D fl) {o o' : Op} (ho : o.AllGates fun g => g.Clear D fl ∧ g.Printable D)
    (ho' : o'.AllGates fun g => g.Clear D fl ∧ g.Printable D) : o.text fl np = o'.text fl np ↔ o.PyEq o' :=
  (C107_iff hf (ho.imp fun _ h => h.2) (ho'.imp fun _ h => h.2)).trans (Op.alike_iff ho ho')

/-- **C107** (the part that holds): under the conditions of `C107_equal_partial`, operations with the same text and the same factors of `Scale`
have the same qubits, parameter names and matrices, and do the same to every state, for all parameter values, errors included. -/
theorem C107_same_partial (so : SetOrder) (hf : FloatText D fl) {o o' : Op} (ho : o.AllGates fun g => g.Clear D fl ∧ g.Printable D)
    (ho' : o'.AllGates fun g => g.Clear D fl ∧ g.Printable D) (h : o.text fl np = o'.text fl np) (hs : o.factors = o'.factors)
    (values : Values) (strOf : ℝ → String) :
    o.qubitSupport so = o'.qubitSupport so ∧ o.paramNames strOf = o'.paramNames strOf ∧
      (∀ full, o.tensor so values full = o'.tensor so values full) ∧ (∀ st, o.call so values st = o'.call so values st) ∧
      (∀ st, run so o st values = run so o' st values) :=
  C99_equal_partial so ((C107_equal_partial hf ho ho').1 h) hs (Op.AllGates.noNumpy (ho.imp fun _ h => h.2))
    (Op.AllGates.noNumpy (ho'.imp fun _ h => h.2)) values strOf

/-- **C107** is false for noise: `X(0)` with a certain bit flip has the text of `X(0)`, but the expectation value of `Z` is 1 instead
of -1. -/
theorem C107_noise_false (so : SetOrder) (eigh : Eigh) (draw : Draw) :
    ∃ o o' : Op, (∀ fl np, o.text fl np = o'.text fl np) ∧
      expectation so eigh draw (.vec zero1) o [obsZ] [] .gpsr 0 = .ok [1] ∧
      expectation so eigh draw (.vec zero1) o' [obsZ] [] .gpsr 0 = .ok [-1] := by
  have hv : (StdNoise.bitFlip 1).Valid := by constructor <;> norm_num
  refine ⟨noisyFlip (.bitFlip 1), plainFlip, fun _ _ => rfl, ?_, flip_plain_value so eigh draw⟩
  rw [flip_value so eigh draw hv]
  norm_num [StdNoise.drift, StdNoise.shrink]

/-- **C107** is false for `Scale`: `2 Z` and `3 Z` have the same text, but map `|0⟩` to different vectors. -/
theorem C107_scale_false (so : SetOrder) :
    ∃ o o' : Op, (∀ fl np, o.text fl np = o'.text fl np) ∧
      o.call so [] (some (.vec zero1)) ≠ o'.call so [] (some (.vec zero1)) := by
  refine ⟨.comp (.scale (.num 2)) [.prim (Gate.Z (.int 0))], .comp (.scale (.num 3)) [.prim (Gate.Z (.int 0))], fun _ _ => rfl, fun h => ?_⟩
  obtain ⟨r, h1, h2, h3⟩ := call_means so zero1_isKet (.gate (leafZ (values := [])).any)
  obtain ⟨a, a1, -, a3⟩ := C17_scale so (.num 2) h1 h2
  obtain ⟨b, b1, -, b3⟩ := C17_scale so (.num 3) h1 h2
  have e : a = b := by
    have := a1.symm.trans (h.trans b1)
    simpa using this
  have hr := congrFun h3 (lab1 0)
  rw [mulVec_lab1] at hr
  simp only [ket, zero1_get, StdGate.mat, matE] at hr
  have h0 := a3 (lab1 0)
  rw [e, b3, hr] at h0
  norm_num at h0

/-- **C107** is false for parameters: a rotation about a number and one about the parameter of that name have the same text, whatever the
number; without a value for the name one has a matrix and the other raises KeyError. -/
theorem C107_param_false (fl : ℝ → List Char) (x : ℝ) :
    ∃ g h : Gate, (∀ np, g.text fl np = h.text fl np) ∧ (∃ u, g.unitary [] = .ok u) ∧ h.unitary [] = .error .keyError := by
  refine ⟨Gate.RX (.num x) (.int 0), Gate.RX (.str (String.ofList (fl x))) (.int 0), fun np => ?_, ⟨_, rfl⟩, rfl⟩
  refine Gate.Alike.text ⟨rfl, rfl, rfl, ?_⟩
  exact ⟨.left _ _ (by simp), rfl⟩

/-- **C107** needs names without commas: one rotation whose parameter has a strange name has the text of two rotations. -/
theorem C107_comma_false (fl : ℝ → List Char) :
    ∃ g : Gate, ∀ np, (Op.comp .seq [.prim g]).text fl np
      = (Op.comp .seq [.prim (Gate.RX (.str "a") (.int 0)), .prim (Gate.RX (.str "b") (.int 0))]).text fl np := by
  refine ⟨Gate.RX (.str (String.ofList ("a, shift=".toList ++ fl 0 ++ "), RX(target=((0,),), control=((None,),), param=b".toList)))
    (.int 0), fun np => ?_⟩
  have hn : ∀ p : Param, (Gate.RX p (.int 0)).name = "RX" := fun _ => rfl
  have ht : targetText [0] = "((0,),)".toList := rfl
  have hc : Ctl.text np (some [.none]) = "((None,),)".toList := rfl
  have key : ∀ p : Param, (Gate.RX p (.int 0)).text fl np = "RX(target=((0,),), control=((None,),), param=".toList ++ (p.text fl ++
      (", shift=".toList ++ (fl 0 ++ ")".toList))) := by
    intro p
    show (Gate.RX p (.int 0)).name.toList ++ "(target=".toList ++ targetText [0] ++ ", control=".toList ++ Ctl.text np (some [.none]) ++
      ", param=".toList ++ p.text fl ++ ", shift=".toList ++ fl 0 ++ ")".toList = _
    rw [hn, ht, hc]
    simp
  simp only [Op.text, Op.texts, key, listText, Param.text, String.toList_ofList, List.intercalate]
  simp

/-- The text of a rotation, as printed: `RX(target=((0,),), control=((1,),), param=a, shift=0.0)` with a `C` in front. -/
example (fl : ℝ → List Char) (np : ℕ → List Char) (h : fl 0 = "0.0".toList) :
    (Gate.RX (.str "a") (.int 0) (.int 1)).text fl np = "CRX(target=((0,),), control=((1,),), param=a, shift=0.0)".toList := by
  show "CRX".toList ++ "(target=".toList ++ "((0,),)".toList ++ ", control=".toList ++ "((1,),)".toList ++
      ", param=".toList ++ "a".toList ++ ", shift=".toList ++ fl 0 ++ ")".toList = _
  rw [h]; rfl

/-- Texts of the floats `0.0`, `1.0`, `2.0`, … -/
theorem floatText_nat : FloatText (Set.range ((↑) : ℕ → ℝ)) fun x => natText ⌊x⌋₊ ++ ".0".toList where
  inj := by
    rintro _ ⟨m, rfl⟩ _ ⟨n, rfl⟩ h
    simp only [Nat.floor_natCast] at h
    rw [natText_inj (List.append_cancel_right h)]
  ne x := by simp
  chars x c hc := by
    rcases List.mem_append.1 hc with h | h
    · have := Nat.isDigit_of_mem_toDigits (b := 10) (by norm_num) (by norm_num) h
      exact .inl (by simp [Char.isAlphanum, this])
    · rcases List.mem_cons.1 h with rfl | h
      · exact .inr (.inl rfl)
      · rw [List.mem_singleton.1 h]; exact .inl (by decide)

/-- Non-vacuity: a scaled controlled gate, a rotation by a parameter, one by a number, and an evolution. -/
example : (Op.comp (.circ 2 []) [.comp (.scale (.num 2)) [.prim (Gate.X (.int 0) (.int 1))], .prim (Gate.RX (.str "theta") (.int 0)),
      .prim (Gate.PHASE (.num 3) (.int 1)), .prim (Gate.HamiltonianEvolution (.int 0))]).AllGates fun g =>
      g.Clear (Set.range ((↑) : ℕ → ℝ)) (fun x => natText ⌊x⌋₊ ++ ".0".toList) ∧ g.Printable (Set.range ((↑) : ℕ → ℝ)) := by
  have theta : ∀ x : ℝ, "theta".toList ≠ natText ⌊x⌋₊ ++ ".0".toList := fun x e => by
    have := congrArg (fun l => l.getLast?) e
    rw [show ".0".toList = ['.'] ++ ['0'] from rfl, ← List.append_assoc] at this
    simp at this
  refine ⟨⟨⟨⟨fun _ => ⟨rfl, rfl⟩, ?_⟩, ⟨?_, ?_, ?_, ?_, ?_⟩⟩, trivial⟩, ⟨⟨fun _ => ⟨rfl, rfl⟩, ?_⟩, ⟨?_, ?_, ?_, ?_, ?_⟩⟩,
    ⟨⟨fun _ => ⟨rfl, rfl⟩, ?_⟩, ⟨?_, ?_, ?_, ?_, ?_⟩⟩, ⟨⟨fun h => absurd rfl (h 0), ?_⟩, ⟨?_, ?_, ?_, ?_, ?_⟩⟩, trivial⟩ <;>
    simp [Gate.X, Gate.RX, Gate.PHASE, Gate.HamiltonianEvolution, mkGate, parseControl, Gate.numbers]
  · exact fun a => by simpa using theta a
  · exact ⟨3, by norm_num⟩

end Verif
