import Verif.Lemmas.Identities
import Verif.Props.Sampling
import Verif.Props.NoiseLaws

/-!
# C84: textbook circuit identities

Replacing gates anywhere in a circuit according to a textbook identity does not change any result.
-/

set_option autoImplicit false

namespace Verif
open NDArray
variable {n : ℕ} {values : Values} (so : SetOrder)

/-- The noiseless gates `gs` are the placed gates `xs`. -/
def Realizes (n : ℕ) (values : Values) (gs : List Gate) (xs : List Placed) : Prop :=
  List.Forall₂ (fun (g : Gate) (x : Placed) =>
    g.Std n values x.gate ∧ g.target = x.targets ∧ ctlInts g.control = x.controls ∧ g.noise = none) gs xs

theorem Realizes.mat {gs : List Gate} {xs : List Placed} (h : Realizes n values gs xs) :
    gatesMat n .unitary values gs = placedMat n xs := by
  induction h with
  | nil => rfl
  | cons h _ ih => rw [gatesMat, placedMat, ih, h.1.mat, stdMat, Placed.mat, h.2.1, h.2.2.1]

theorem Realizes.valid {gs : List Gate} {xs : List Placed} (h : Realizes n values gs xs) :
    ∀ x ∈ xs, ValidDims n (x.controls ++ x.targets) := by
  induction h with
  | nil => simp
  | cons h _ ih =>
    intro x hx
    rcases List.mem_cons.1 hx with rfl | hx
    · rw [← h.2.1, ← h.2.2.1]; exact h.1.valid.dims
    · exact ih x hx

theorem Realizes.gate {gs : List Gate} {xs : List Placed} (h : Realizes n values gs xs) :
    ∀ g ∈ gs, g.Ok n .unitary values ∧ g.noise = none := by
  induction h with
  | nil => simp
  | cons h _ ih =>
    intro g hg
    rcases List.mem_cons.1 hg with rfl | hg
    · exact ⟨h.1.ok, h.2.2.2⟩
    · exact ih g hg

theorem Realizes.ne {gs : List Gate} {xs : List Placed} (h : Realizes n values gs xs) (hx : xs ≠ []) : gs ≠ [] := by
  rintro rfl; cases h; exact hx rfl

theorem SameGates.ne {l l' : List Placed} (h : SameGates l l') : l ≠ [] ∧ l' ≠ [] := by cases h <;> simp

/-- Gates with the same product can be replaced. -/
theorem evolved_replace {pre post l l' : List Gate} {npre npost : List (List StdNoise)}
    (hpre : List.Forall₂ Gate.NoiseIs pre npre)
    (hz : ∀ g ∈ l, g.noise = none) (hz' : ∀ g ∈ l', g.noise = none)
    (hm : gatesMat n .unitary values l = gatesMat n .unitary values l') {s r : State}
    (h : State.Evolved n values (pre ++ (l ++ post)) (npre ++ (l.map (fun _ => []) ++ npost)) s r) :
    State.Evolved n values (pre ++ (l' ++ post)) (npre ++ (l'.map (fun _ => []) ++ npost)) s r := by
  have hlen := hpre.length_eq
  have hn : ∀ l : List Gate, (∀ g ∈ l, g.noise = none) → List.Forall₂ Gate.NoiseIs l (l.map fun _ => []) := by
    intro l hz
    rw [List.forall₂_map_right_iff, List.forall₂_same]
    exact fun g hg => .none (hz g hg)
  have e1 : gatesMat n .unitary values (pre ++ (l ++ post)) = gatesMat n .unitary values (pre ++ (l' ++ post)) := by
    simp only [gatesMat_append, hm]
  have e2 : ∀ ρ, noisyRun n .unitary values ((pre ++ (l ++ post)).zip (npre ++ (l.map (fun _ => []) ++ npost))) ρ
      = noisyRun n .unitary values ((pre ++ (l' ++ post)).zip (npre ++ (l'.map (fun _ => []) ++ npost))) ρ := by
    intro ρ
    rw [List.zip_append hlen, List.zip_append hlen, List.zip_append (by simp), List.zip_append (by simp)]
    simp only [noisyRun_split]
    rw [noisyRun_noiseless (hn l hz) hz, noisyRun_noiseless (hn l' hz') hz', hm]
  have e3 : (∀ g ∈ pre ++ (l ++ post), g.noise = none) ↔ ∀ g ∈ pre ++ (l' ++ post), g.noise = none := by
    simp only [List.mem_append]
    constructor <;> intro h g hg
    · rcases hg with hg | hg | hg
      · exact h g (.inl hg)
      · exact hz' g hg
      · exact h g (.inr (.inr hg))
    · rcases hg with hg | hg | hg
      · exact h g (.inl hg)
      · exact hz g hg
      · exact h g (.inr (.inr hg))
  cases s <;> cases r
  · exact ⟨e3.1 h.1, h.2.1, by rw [← e1]; exact h.2.2⟩
  · exact ⟨fun hh => h.1 (e3.2 hh), h.2.1, by rw [← e2]; exact h.2.2⟩
  · exact h.elim
  · exact ⟨h.1, by rw [← e2]; exact h.2⟩

theorem replace_noise {pre post l : List Gate} {npre npost : List (List StdNoise)}
    (hpre : List.Forall₂ Gate.NoiseIs pre npre) (hpost : List.Forall₂ Gate.NoiseIs post npost)
    (hz : ∀ g ∈ l, g.noise = none) :
    List.Forall₂ Gate.NoiseIs (pre ++ (l ++ post)) (npre ++ (l.map (fun _ => []) ++ npost)) := by
  refine List.rel_append hpre (List.rel_append ?_ hpost)
  rw [List.forall₂_map_right_iff, List.forall₂_same]
  exact fun g hg => .none (hz g hg)

/-- **C84** (`apply_gates`): replacing gates according to a textbook identity, with anything -- noisy gates, Hamiltonian
evolution -- before and after, on state vectors and density matrices, merged or not, gives the same result. -/
theorem C84_apply_gates {xs ys : List Placed} (h : SameGates xs ys) {l l' : List Gate} (hl : Realizes n values l xs)
    (hl' : Realizes n values l' ys) {pre post : List Gate} {npre npost : List (List StdNoise)}
    (hok : ∀ g ∈ pre ++ post, g.Ok n .unitary values)
    (hpre : List.Forall₂ Gate.NoiseIs pre npre) (hpost : List.Forall₂ Gate.NoiseIs post npost)
    {st : State} (hst : st.On n) (merge merge' : Bool) :
    ∃ r, applyGates so st (.list (pre ++ (l ++ post))) values .unitary false merge = .ok r ∧
      applyGates so st (.list (pre ++ (l' ++ post))) values .unitary false merge' = .ok r := by
  have hz := fun g hg => (hl.gate g hg).2
  have hz' := fun g hg => (hl'.gate g hg).2
  have hm : gatesMat n .unitary values l = gatesMat n .unitary values l' := by
    rw [hl.mat, hl'.mat]
    refine h.mat_eq fun x hx => ?_
    rcases List.mem_append.1 hx with hx | hx
    exacts [hl.valid x hx, hl'.valid x hx]
  have hok1 : ∀ l : List Gate, (∀ g ∈ l, g.Ok n .unitary values) → ∀ g ∈ pre ++ (l ++ post), g.Ok n .unitary values := by
    intro l hl g hg
    simp only [List.mem_append] at hg hok
    rcases hg with hg | hg | hg
    exacts [hok g (.inl hg), hl g hg, hok g (.inr hg)]
  obtain ⟨r, h1, h2⟩ := applyGates_evolved so (by simp [hl.ne h.ne.1]) (hok1 l fun g hg => (hl.gate g hg).1)
    (replace_noise hpre hpost hz) hst merge
  obtain ⟨q, k1, k2⟩ := applyGates_evolved so (by simp [hl'.ne h.ne.2]) (hok1 l' fun g hg => (hl'.gate g hg).1)
    (replace_noise hpre hpost hz') hst merge'
  refine ⟨r, h1, ?_⟩
  rw [k1, (evolved_replace hpre hz hz' hm h2).unique k2]

/-- **C84** (`run`, `sample`, `expectation`): two (possibly nested) circuits whose gates differ by one textbook identity
give the same output state, the same counts and the same expectation values -- exact or with shots, in every
differentiation mode. -/
theorem C84_circuit {xs ys : List Placed} (h : SameGates xs ys) {l l' : List Gate} (hl : Realizes n values l xs)
    (hl' : Realizes n values l' ys) {pre post : List Gate} {npre npost : List (List StdNoise)}
    (hok : ∀ g ∈ pre ++ post, g.Ok n .unitary values)
    (hpre : List.Forall₂ Gate.NoiseIs pre npre) (hpost : List.Forall₂ Gate.NoiseIs post npost)
    {c c' : Op} (hc : c.Plain) (hc' : c'.Plain) (hg : c.gates = pre ++ (l ++ post)) (hg' : c'.gates = pre ++ (l' ++ post))
    {st : State} (hst : st.On n) :
    (∃ r, run so c st values = .ok (some r) ∧ run so c' st values = .ok (some r)) ∧
    (∀ draw k, sample so draw st c values k = sample so draw st c' values k) ∧
    (values.Flat → ∀ eigh draw obs mode k,
      expectation so eigh draw st c obs values mode k = expectation so eigh draw st c' obs values mode k) := by
  obtain ⟨r, h1, h2⟩ := C84_apply_gates so h hl hl' hok hpre hpost hst true true
  have hz := fun g hg => (hl.gate g hg).2
  have hz' := fun g hg => (hl'.gate g hg).2
  have hok1 : ∀ l : List Gate, (∀ g ∈ l, g.Ok n .unitary values) → ∀ g ∈ pre ++ (l ++ post), g.Ok n .unitary values := by
    intro l hl g hg
    simp only [List.mem_append] at hg hok
    rcases hg with hg | hg | hg
    exacts [hok g (.inl hg), hl g hg, hok g (.inr hg)]
  have hcc : c.Circuit n values (npre ++ (l.map (fun _ => []) ++ npost)) :=
    ⟨hc, by rw [hg]; simp [hl.ne h.ne.1], by rw [hg]; exact hok1 l fun g hg => (hl.gate g hg).1,
      by rw [hg]; exact replace_noise hpre hpost hz⟩
  have hcc' : c'.Circuit n values (npre ++ (l'.map (fun _ => []) ++ npost)) :=
    ⟨hc', by rw [hg']; simp [hl'.ne h.ne.2], by rw [hg']; exact hok1 l' fun g hg => (hl'.gate g hg).1,
      by rw [hg']; exact replace_noise hpre hpost hz'⟩
  obtain ⟨q, a1, a2, -⟩ := circuit_run so hcc hst
  obtain ⟨q', b1, b2, -⟩ := circuit_run so hcc' hst
  have e1 : q = r := by
    rw [applyOps, hc.iter, opsToGates_prim, hg] at a2
    exact Except.ok.inj (a2.symm.trans h1)
  have e2 : q' = r := by
    rw [applyOps, hc'.iter, opsToGates_prim, hg'] at b2
    exact Except.ok.inj (b2.symm.trans h2)
  subst e1 e2
  refine ⟨⟨_, a1, b1⟩, fun draw k => ?_, fun hf eigh draw obs mode k => ?_⟩
  · have i1 : c.returnsInput = false := by rw [plain_returnsInput hc]; simpa using hcc.ne
    have i2 : c'.returnsInput = false := by rw [plain_returnsInput hc']; simpa using hcc'.ne
    rw [run] at a1 b1
    rw [sample, sample, a1, b1, i1, i2]
  · have e : applyOps so st c.iter values = applyOps so st c'.iter values := a2.trans b2.symm
    have ea : adjointSingle so st c values = adjointSingle so st c' values := by
      funext o; rw [adjointSingle, adjointSingle, e]
    cases mode <;> simp only [ea, expectation, adExpectation, adjointExpectation, analyticalExpectation,
      finiteShots, Values.Splits.processing (Values.Flat.splits hf), e, pure, bind, Except.bind, Except.pure]

/-- Three controlled nots and a swap, between a noisy `H` gate and a parametrised rotation. -/
example (p : ℝ) (hp : 0 ≤ p ∧ p ≤ 1) : let values : Values := [("a", .num 1)]
    let l := [Gate.X (.int 1) (.int 0), Gate.X (.int 0) (.int 1), Gate.X (.int 1) (.int 0)]
    let l' := [Gate.SWAP (.tuple [0, 1])]
    let pre := [Gate.H (.int 0) (noise := some [⟨.bitFlip, .float p⟩])]
    let post := [Gate.RX (.str "a") (.int 1)]
    ∃ xs ys npre npost, SameGates xs ys ∧ Realizes 2 values l xs ∧ Realizes 2 values l' ys ∧
      (∀ g ∈ pre ++ post, g.Ok 2 .unitary values) ∧ List.Forall₂ Gate.NoiseIs pre npre ∧
      List.Forall₂ Gate.NoiseIs post npost := by
  refine ⟨_, _, [[.bitFlip p]], [[]], .swap 0 1 [], ?_, ?_, ?_, ?_, ?_⟩
  · refine .cons ⟨⟨.X _ _ _, rfl, ⟨.inr (.inr ⟨[0], rfl⟩), by decide⟩⟩, rfl, rfl, rfl⟩
      (.cons ⟨⟨.X _ _ _, rfl, ⟨.inr (.inr ⟨[1], rfl⟩), by decide⟩⟩, rfl, rfl, rfl⟩
      (.cons ⟨⟨.X _ _ _, rfl, ⟨.inr (.inr ⟨[0], rfl⟩), by decide⟩⟩, rfl, rfl, rfl⟩ .nil))
  · exact .cons ⟨⟨.SWAP _ _ _, rfl, ⟨.inr (.inl rfl), by decide⟩⟩, rfl, rfl, rfl⟩ .nil
  · intro g hg
    simp only [List.cons_append, List.nil_append, List.mem_cons, List.not_mem_nil, or_false] at hg
    rcases hg with rfl | rfl
    · exact Gate.Std.ok (s := .H) ⟨.H _ _ _, rfl, ⟨.inr (.inl rfl), (by decide : ValidDims 2 [0])⟩⟩
    · exact Gate.Std.ok (s := .RX 1) ⟨.RX _ _ _ (.str rfl) (by simp), rfl, ⟨.inr (.inl rfl), by decide⟩⟩
  · exact .cons (.some rfl (.cons (.bitFlip hp) .nil) (.inr ⟨0, rfl⟩)) .nil
  · exact .cons (.none rfl) .nil

end Verif
