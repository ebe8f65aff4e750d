import Verif.AbsEvo
import Verif.Lemmas.ExpInvol
import Verif.Lemmas.GpsrPlain

/-! # Lemmas about the parameter-shift rule for Hamiltonian evolutions -/

namespace Verif
set_option autoImplicit false
open NDArray
variable {n : ℕ}

/-! ## The evolution of a Hamiltonian with two eigenvalues is a rotation -/

theorem matE_affine {k : ℕ} (a b e : ℂ) (G : Matrix (Fin (2 ^ k)) (Fin (2 ^ k)) ℂ) {ts : List ℕ} (hts : ts.length = k) :
    gateMat n (matE (e • (a • (1 : Matrix (Fin (2 ^ k)) (Fin (2 ^ k)) ℂ) + b • G))) ts []
      = e • (a • (1 : Matrix (Lab n) (Lab n) ℂ) + b • gateMat n (matE G) ts []) := by
  subst hts
  rw [gateMat_congr (V := fun i j => e * (a * oneE i j + b * matE G i j)) fun i j hi hj => ?_,
    gateMat_smul e (fun i j => a * oneE i j + b * matE G i j),
    gateMat_add (fun i j => a * oneE i j) (fun i j => b * matE G i j), gateMat_smul, gateMat_smul, gateMat_one]
  rw [matE_lt _ hi hj, matE_lt _ hi hj]
  simp [Matrix.one_apply, oneE]

/-- The evolution with the time in units of the spectral gap is a rotation. -/
theorem TwoLevel.isRot {k : ℕ} {H : NDArray ℂ} {c d : ℝ} (h : TwoLevel k H c d) (hd : d ≠ 0) {ts : List ℕ}
    (hts : ts.length = k) : IsRot 0 fun x => gateMat n (matE (evolution k H (x / d))) ts [] := by
  refine isRot_of (gateMat n (matE ((2 / d : ℂ) • (hamMat k H - (c : ℂ) • 1))) ts []) fun x X => ?_
  rw [evolution, exp_two_level hd h, matE_affine _ _ _ _ hts, conjBy_smul]
  have e1 : d * (x / d) / 2 = (x + 0) / 2 := by field_simp; ring
  have e2 : ∀ y : ℝ, Complex.exp (-Complex.I * ((x / d : ℝ) : ℂ) * y) * star (Complex.exp (-Complex.I * ((x / d : ℝ) : ℂ) * y)) = 1 := by
    intro y
    rw [RCLike.star_def, ← Complex.exp_conj, ← Complex.exp_add]
    simp
  rw [e2, one_smul, e1]

/-- The expectation values are `a + b cos (d t) + c sin (d t)`. -/
theorem TwoLevel.trig {k : ℕ} {H : NDArray ℂ} {c d : ℝ} (h : TwoLevel k H c d) (hd : d ≠ 0) {ts : List ℕ}
    (hts : ts.length = k) {L : Matrix (Lab n) (Lab n) ℂ → Matrix (Lab n) (Lab n) ℂ} (hL : IsLin L)
    (O σ : Matrix (Lab n) (Lab n) ℂ) : ∃ a b e : ℝ, ∀ t,
      expVal O (L (conjBy (gateMat n (matE (evolution k H t)) ts []) σ)) = a + Real.cos (d * t) * b + Real.sin (d * t) * e := by
  obtain ⟨A, B, C, -, -, -, hABC⟩ := h.isRot (n := n) hd hts
  refine ⟨expVal O (L (A σ)), expVal O (L (B σ)), expVal O (L (C σ)), fun t => ?_⟩
  have := hABC (d * t) σ
  beta_reduce at this
  rw [mul_div_cancel_left₀ _ hd, add_zero] at this
  rw [this, hL.add, hL.add, hL.smul, hL.smul, expVal_add, expVal_add]
  have hr : ∀ (r : ℝ) (M : Matrix (Lab n) (Lab n) ℂ), expVal O ((r : ℂ) • M) = r * expVal O M := by
    intro r M
    rw [expVal, Matrix.mul_smul, Matrix.trace_smul, smul_eq_mul, Complex.re_ofReal_mul, expVal]
  rw [hr, hr]
  ring

theorem trig_deriv (a b e d x : ℝ) : HasDerivAt (fun t => a + Real.cos (d * t) * b + Real.sin (d * t) * e)
    (d * (Real.cos (d * x) * e - Real.sin (d * x) * b)) x := by
  have h0 : HasDerivAt (fun t : ℝ => d * t) d x := by simpa using (hasDerivAt_id x).const_mul d
  have h1 := (h0.cos.mul_const b).const_add a
  have h2 := h0.sin.mul_const e
  refine (h1.fun_add h2).congr_deriv ?_
  ring

theorem trig_shift (a b e d x : ℝ) :
    ((a + Real.cos (d * (x + Real.pi / 2)) * b + Real.sin (d * (x + Real.pi / 2)) * e)
      - (a + Real.cos (d * (x - Real.pi / 2)) * b + Real.sin (d * (x - Real.pi / 2)) * e)) / 2
      = Real.sin (Real.pi * d / 2) * (Real.cos (d * x) * e - Real.sin (d * x) * b) := by
  have e1 : d * (x + Real.pi / 2) = d * x + Real.pi * d / 2 := by ring
  have e2 : d * (x - Real.pi / 2) = d * x - Real.pi * d / 2 := by ring
  rw [e1, e2, Real.cos_add, Real.cos_sub, Real.sin_add, Real.sin_sub]
  ring

/-! ## Runs of lists of gates -/

theorem noisyRun_append {values : Values} (l l' : List (Gate × List StdNoise)) (ρ : Matrix (Lab n) (Lab n) ℂ) :
    noisyRun n .unitary values (l ++ l') ρ = noisyRun n .unitary values l' (noisyRun n .unitary values l ρ) := by
  induction l generalizing ρ with
  | nil => rfl
  | cons e l ih => rw [List.cons_append, noisyRun, noisyRun, ih]

theorem noisyRun_congr {values values' : Values} {l : List (Gate × List StdNoise)}
    (h : ∀ e ∈ l, e.1.mat n .unitary values = e.1.mat n .unitary values') (ρ : Matrix (Lab n) (Lab n) ℂ) :
    noisyRun n .unitary values l ρ = noisyRun n .unitary values' l ρ := by
  induction l generalizing ρ with
  | nil => rfl
  | cons e l ih =>
    rw [noisyRun, noisyRun, h e (by simp), ih fun e he => h e (by simp [he])]

theorem isLin_noisyRun {values : Values} (l : List (Gate × List StdNoise)) : IsLin (noisyRun n .unitary values l) := by
  have : noisyRun n .unitary values l = matRun n (l.map fun e => (e.1.mat n .unitary values, e.1.target.headD 0, e.2)) :=
    funext fun ρ => noisyRun_matRun l ρ
  rw [this]
  exact isLin_matRun _

/-! ## Dictionaries with a Hamiltonian -/

theorem lookup_ne_ham {values : Values} {g : Gate} {s : StdGate} (hs : g.Std n values s) {H : NDArray ℂ}
    (hH : values.lookup "hamiltonian" = some (.arr H)) : ¬ g.Uses "hamiltonian" := by
  intro hu
  obtain ⟨x, hx⟩ := hs.lookup hu
  rw [hx] at hH
  cases hH

theorem lookup_mapKey {values : Values} {p q : String} {v w : PyVal} (h : values.lookup p = some v) :
    (values.map fun e => if e.1 = p then (p, w) else e).lookup q = if q = p then some w else values.lookup q := by
  induction values with
  | nil => cases h
  | cons e values ih =>
    obtain ⟨k, u⟩ := e
    by_cases hk : k = p
    · subst hk
      by_cases hq : q = k
      · subst hq; simp
      · have h1 : (q == k) = false := by simpa using hq
        simp only [List.map_cons, if_true, List.lookup_cons, h1, if_neg hq]
        clear ih h
        induction values with
        | nil => rfl
        | cons e values ih =>
          obtain ⟨k', u'⟩ := e
          by_cases hk' : k' = k
          · subst hk'; simp only [List.map_cons, if_true, List.lookup_cons, h1, ih]
          · by_cases hq' : q = k'
            · subst hq'; simp [hk']
            · have h2 : (q == k') = false := by simpa using hq'
              simp only [List.map_cons, if_neg hk', List.lookup_cons, h2, ih]
    · have h1 : (p == k) = false := by simpa using fun h => hk h.symm
      simp only [List.lookup_cons, h1] at h
      have ih := ih h
      by_cases hq : q = k
      · subst hq; simp [hk]
      · have h2 : (q == k) = false := by simpa using hq
        simp only [List.map_cons, if_neg hk, List.lookup_cons, h2, ih]

section
variable {so : SetOrder} {values : Values} {H : NDArray ℂ} {t : ℝ} {l₁ : List Gate} {tg : TArg} {l₂ : List Gate}
  {ns₁ ns₂ : List (List StdNoise)} {st : State} {obs : List Observable} {Os : List (Matrix (Lab n) (Lab n) ℂ)}

/-- The noise of the gates. -/
def evoNoise (ns₁ ns₂ : List (List StdNoise)) : List (List StdNoise) := ns₁ ++ [] :: ns₂

theorem EvoSetting.noise (h : EvoSetting so n values H t l₁ tg l₂ ns₁ ns₂ st obs Os) :
    List.Forall₂ Gate.NoiseIs (evoGates l₁ tg l₂) (evoNoise ns₁ ns₂) :=
  List.rel_append h.noise₁ (.cons (.none rfl) h.noise₂)

theorem EvoSetting.eval (h : EvoSetting so n values H t l₁ tg l₂ ns₁ ns₂ st obs Os) {v : Values} {H' : NDArray ℂ} {t' : ℝ}
    (hv : EvolutionValues v H' t') (hH : IsOp (parseTarget tg).length H') (hstd : ∀ g ∈ l₁ ++ l₂, ∃ s, g.Std n v s) :
    gatesExpectation so st obs (.list (evoGates l₁ tg l₂)) v = .ok (Os.map fun O => expVal O
      (noisyRun n .unitary v (l₂.zip ns₂) (conjBy (gateMat n (matE (evolution (parseTarget tg).length H' t')) (parseTarget tg) [])
        (noisyRun n .unitary v (l₁.zip ns₁) (st.mat n))))) := by
  obtain ⟨h1, h2⟩ := hamEvo_ok (n := n) (c := .tuple [.none]) hv hH (.inr (.inl rfl)) h.place
  rw [gatesExpectation_eq so (by simp [evoGates]) (fun g hg => ?_) h.noise h.on h.obs_ne h.fixed]
  · rw [evoGates, evoNoise, List.zip_append h.noise₁.length_eq, List.zip_cons_cons, noisyRun_append, noisyRun, h2]
    rfl
  · rcases List.mem_append.1 hg with hg | hg
    · obtain ⟨s, hs⟩ := hstd g (by simp [hg]); exact hs.ok
    · rcases List.mem_cons.1 hg with rfl | hg
      · exact h1
      · obtain ⟨s, hs⟩ := hstd g (by simp [hg]); exact hs.ok

theorem EvoSetting.std_upd (h : EvoSetting so n values H t l₁ tg l₂ ns₁ ns₂ st obs Os) (p : String) (x : ℝ) :
    ∀ g ∈ l₁ ++ l₂, ∃ s, g.Std n (values.upd p x) s := by
  intro g hg
  obtain ⟨s, hs⟩ := h.std g hg
  by_cases hu : g.Uses p
  · obtain ⟨sh, R, hR⟩ := hs.named hu
    obtain ⟨y, hy⟩ := hs.lookup hu
    exact ⟨_, hR.std hs.valid (Values.lookup_set_self hy x)⟩
  · exact ⟨s, hs.congr fun q hq => Values.lookup_set_of_ne (by rintro rfl; exact hu hq) x⟩

theorem EvoSetting.real (h : EvoSetting so n values H t l₁ tg l₂ ns₁ ns₂ st obs Os) {p : String} (hp : p ∈ values.keys)
    (hne : p ≠ "hamiltonian") : values.lookup p = some (.num (values.real p)) := by
  obtain ⟨e, he, rfl⟩ := List.mem_map.1 hp
  obtain ⟨x, hx⟩ := h.num e he hne
  obtain ⟨k, v⟩ := e
  simp only at hx; subst hx
  have := lookup_of_mem h.nodup he
  rw [this, Values.real, this]

theorem EvoSetting.real_time (h : EvoSetting so n values H t l₁ tg l₂ ns₁ ns₂ st obs Os) : values.real "time_evolution" = t := by
  rw [Values.real, h.vals.time]

theorem EvoSetting.vals_time (h : EvoSetting so n values H t l₁ tg l₂ ns₁ ns₂ st obs Os) (x : ℝ) :
    EvolutionValues (values.upd "time_evolution" x) H x :=
  ⟨by rw [Values.lookup_set_of_ne (by decide)]; exact h.vals.ham, Values.lookup_set_self h.vals.time x⟩

theorem EvoSetting.vals_other (h : EvoSetting so n values H t l₁ tg l₂ ns₁ ns₂ st obs Os) {p : String}
    (h1 : p ≠ "hamiltonian") (h2 : p ≠ "time_evolution") (x : ℝ) : EvolutionValues (values.upd p x) H t :=
  ⟨by rw [Values.lookup_set_of_ne h1.symm]; exact h.vals.ham, by rw [Values.lookup_set_of_ne h2.symm]; exact h.vals.time⟩

/-- The expectation values as a function of the time. -/
theorem EvoSetting.eval_time (h : EvoSetting so n values H t l₁ tg l₂ ns₁ ns₂ st obs Os) (x : ℝ) :
    gatesExpectation so st obs (.list (evoGates l₁ tg l₂)) (values.upd "time_evolution" x) = .ok (Os.map fun O => expVal O
      (noisyRun n .unitary values (l₂.zip ns₂) (conjBy (gateMat n (matE (evolution (parseTarget tg).length H x)) (parseTarget tg) [])
        (noisyRun n .unitary values (l₁.zip ns₁) (st.mat n))))) := by
  rw [h.eval (h.vals_time x) h.op (h.std_upd _ x)]
  have key : ∀ g ∈ l₁ ++ l₂, g.mat n .unitary (values.upd "time_evolution" x) = g.mat n .unitary values := by
    intro g hg
    obtain ⟨s, hs⟩ := h.std g hg
    rw [hs.mat, (hs.congr fun q hq => Values.lookup_set_of_ne (by rintro rfl; exact h.free g hg hq) x).mat]
  refine congrArg Except.ok (List.map_congr_left fun O _ => ?_)
  rw [noisyRun_congr (l := l₁.zip ns₁) fun e he => key _ (by simp [(List.of_mem_zip he).1]),
    noisyRun_congr (l := l₂.zip ns₂) fun e he => key _ (by simp [(List.of_mem_zip he).1])]

/-- Also the evaluations with a shifted Hamiltonian succeed. -/
theorem EvoSetting.eval_ham (h : EvoSetting so n values H t l₁ tg l₂ ns₁ ns₂ st obs Os) (δ : ℝ) :
    ∃ v r, values.shiftKey "hamiltonian" δ = .ok v ∧
      gatesExpectation so st obs (.list (evoGates l₁ tg l₂)) v = .ok r := by
  have hl := fun (q : String) => lookup_mapKey (q := q) (w := .arr ⟨H.shape, H.data.map (· + (δ : ℂ))⟩) h.vals.ham
  refine ⟨values.map fun e => if e.1 = "hamiltonian" then
      ("hamiltonian", .arr ⟨H.shape, H.data.map (· + (δ : ℂ))⟩) else e,
    _, ?_, h.eval (H' := ⟨H.shape, H.data.map (· + (δ : ℂ))⟩) (t' := t) ⟨?_, ?_⟩ ⟨h.op.shape, ?_⟩ ?_⟩
  · simp only [Values.shiftKey, Values.get, h.vals.ham, PyVal.shift, bind, Except.bind, pure, Except.pure]
  · rw [hl, if_pos rfl]
  · rw [hl, if_neg (by decide)]; exact h.vals.time
  · have := h.op.wf
    simp only [NDArray.WF, List.length_map] at this ⊢
    exact this
  · intro g hg
    obtain ⟨s, hs⟩ := h.std g hg
    refine ⟨s, hs.congr fun q hq => ?_⟩
    rw [hl, if_neg]
    rintro rfl
    exact lookup_ne_ham hs h.vals.ham hq

theorem EvoSetting.eval_other (h : EvoSetting so n values H t l₁ tg l₂ ns₁ ns₂ st obs Os) {p : String}
    (h1 : p ≠ "hamiltonian") (h2 : p ≠ "time_evolution") (x : ℝ) :
    gatesExpectation so st obs (.list (evoGates l₁ tg l₂)) (values.upd p x) = .ok (Os.map fun O => expVal O
      (matRun n (evalAt (stepsOf n values p (evoGates l₁ tg l₂) (evoNoise ns₁ ns₂)) x) (st.mat n))) := by
  have hv := h.vals_other h1 h2 x
  obtain ⟨k1, k2⟩ := hamEvo_ok (n := n) (c := .tuple [.none]) hv h.op (.inr (.inl rfl)) h.place
  rw [gatesExpectation_eq so (by simp [evoGates]) (fun g hg => ?_) h.noise h.on h.obs_ne h.fixed]
  · refine congrArg Except.ok (List.map_congr_left fun O _ => ?_)
    rw [stepsOf, evalAt_steps]
  · rcases List.mem_append.1 hg with hg | hg
    · obtain ⟨s, hs⟩ := h.std_upd p x g (by simp [hg]); exact hs.ok
    · rcases List.mem_cons.1 hg with rfl | hg
      · exact k1
      · obtain ⟨s, hs⟩ := h.std_upd p x g (by simp [hg]); exact hs.ok

theorem EvoSetting.good (h : EvoSetting so n values H t l₁ tg l₂ ns₁ ns₂ st obs Os)
    (hu : ∀ g ∈ l₁ ++ l₂, ∀ p, g.Uses p → ctlInts g.control = [] ∨ ∃ q s, g.cls = .phase q s) {p : String}
    (h1 : p ≠ "hamiltonian") (h2 : p ≠ "time_evolution") :
    ∀ e ∈ stepsOf n values p (evoGates l₁ tg l₂) (evoNoise ns₁ ns₂), e.Good := by
  intro e he
  obtain ⟨⟨g, ns⟩, hg, rfl⟩ := List.mem_map.1 he
  have hm := (List.of_mem_zip hg).1
  have key : ∀ g ∈ l₁ ++ l₂, (stepOf n values p (g, ns)).Good := fun g hg => by
    obtain ⟨s, hs⟩ := h.std g hg
    exact stepOf_good hs (hu g hg p) ns
  rcases List.mem_append.1 hm with hm | hm
  · exact key g (by simp [hm])
  · rcases List.mem_cons.1 hm with rfl | hm
    · have : ((Gate.HamiltonianEvolution tg).paramName == some p) = false := rfl
      simp only [PStep.Good, stepOf, this, Bool.false_eq_true, if_false]
      intro x y
      rw [(hamEvo_ok (n := n) (c := .tuple [.none]) (h.vals_other h1 h2 x) h.op (.inr (.inl rfl)) h.place).2,
        (hamEvo_ok (n := n) (c := .tuple [.none]) (h.vals_other h1 h2 y) h.op (.inr (.inl rfl)) h.place).2]
    · exact key g (by simp [hm])

theorem steps_length {gs : List Gate} {nss : List (List StdNoise)} (hl : gs.length = nss.length) (p : String) :
    (stepsOf n values p gs nss).length = gs.length := by
  simp [stepsOf, hl]

theorem steps_rot {gs : List Gate} {nss : List (List StdNoise)} (hl : gs.length = nss.length) (p : String) (k : ℕ) :
    ((stepsOf n values p gs nss)[k]?.map PStep.rot).getD false = ((gs[k]?.bind Gate.paramName) == some p) := by
  by_cases hk : k < gs.length
  · have hz : (gs.zip nss)[k]? = some (gs[k], nss[k]'(hl ▸ hk)) := by
      rw [List.getElem?_eq_some_iff]
      exact ⟨by simp [← hl, hk], by simp⟩
    rw [stepsOf, List.getElem?_map, hz, List.getElem?_eq_getElem hk]
    rfl
  · have h1 : (gs.zip nss)[k]? = none := by rw [List.getElem?_eq_none]; simp; omega
    rw [stepsOf, List.getElem?_map, h1, List.getElem?_eq_none (by omega)]
    rfl

theorem steps_single {gs : List Gate} {nss : List (List StdNoise)} (hl : gs.length = nss.length) (hs : SingleUse gs)
    {p : String} (hg : ∀ e ∈ stepsOf n values p gs nss, e.Good) (x : ℝ) (ρ : Matrix (Lab n) (Lab n) ℂ) :
    ∑ k ∈ Finset.range gs.length, shiftTerm (stepsOf n values p gs nss) x ρ k = (1 / 2 : ℂ) •
      (matRun n (evalAt (stepsOf n values p gs nss) (x + Real.pi / 2)) ρ
        - matRun n (evalAt (stepsOf n values p gs nss) (x - Real.pi / 2)) ρ) := by
  rw [← steps_length hl p]
  refine shiftTerm_single hg (fun i j hi hj => ?_) _ _
  rw [steps_rot hl] at hi hj
  have key : ∀ k : ℕ, ((gs[k]?.bind Gate.paramName) == some p) = true → ∃ hk : k < gs.length, gs[k].Uses p := by
    intro k hk
    by_cases hlt : k < gs.length
    · rw [List.getElem?_eq_getElem hlt] at hk
      exact ⟨hlt, (Gate.uses_iff _ _).2 (by simpa using hk)⟩
    · rw [List.getElem?_eq_none (by omega)] at hk
      simp at hk
  obtain ⟨hi, hiu⟩ := key i hi
  obtain ⟨hj, hju⟩ := key j hj
  have hp := List.pairwise_iff_getElem.1 hs
  rcases lt_trichotomy i j with hlt | he | hlt
  · exact absurd hju (hp i j hi hj hlt p hiu)
  · exact he
  · exact absurd hiu (hp j i hj hi hlt p hju)

/-! ## The backward pass -/

/-- One row of the backward pass. -/
theorem row_eq {F : GateArg → Values → Py (List ℝ)} {gs : GateArg} {p : String} {x : ℝ} {f : ℝ → List ℝ}
    (hx : values.lookup p = some (.num x)) (hf : ∀ y, F gs (values.upd p y) = .ok (f y)) :
    jvpComponent F gs values p = .ok (halfDiff f x) := by
  simp only [jvpComponent, Values.shiftKey_eq hx, bind, Except.bind, hf]
  rw [initialGap, gpsrRule_two, halfDiff, gpsrShift, sub_eq_add_neg x]

theorem EvoSetting.ham_row (h : EvoSetting so n values H t l₁ tg l₂ ns₁ ns₂ st obs Os) :
    ∃ r, jvpComponent (gatesExpectation so st obs) (.list (evoGates l₁ tg l₂)) values "hamiltonian" = .ok r := by
  obtain ⟨v, r, h1, h2⟩ := h.eval_ham gpsrShift
  obtain ⟨v', r', h1', h2'⟩ := h.eval_ham (-gpsrShift)
  refine ⟨List.zipWith (fun u d => (u - d) / 2) r r', ?_⟩
  simp only [jvpComponent, h1, h1', h2, h2', bind, Except.bind]
  rw [initialGap, gpsrRule_two]

theorem jvpComponent_congr {F G : GateArg → Values → Py (List ℝ)} {gs : GateArg} (h : ∀ v, F gs v = G gs v) (p : String) :
    jvpComponent F gs values p = jvpComponent G gs values p := by
  simp only [jvpComponent, h]

/-- The rows of the backward pass without repeated parameters. -/
theorem bwd_rows {F : GateArg → Values → Py (List ℝ)} {gs : List Gate} (eigh : Eigh)
    (hle : (extractGateNames gs).length ≤ values.keys.length) (hk : values ≠ []) {r : String → List ℝ}
    (h : ∀ p ∈ values.keys, jvpComponent F (.list gs) values p = .ok (r p)) :
    gpsrBwd eigh F (.list gs) values = .ok (values.keys.map fun p => (r p).sum) := by
  have hm : (values.keys.mapM fun key => do pure (some (← jvpComponent F (.list gs) values key)))
      = Except.ok (ε := Err) (values.keys.map fun p => some (r p)) :=
    mapM_ok_map fun p hp => by rw [h p hp]; rfl
  rw [gpsrBwd]
  simp only [if_neg (not_lt.2 hle)]
  rw [hm]
  exact stackSum_some _ (by simpa [Values.keys] using hk) _

theorem evo_names : extractGateNames (evoGates l₁ tg l₂) = extractGateNames (l₁ ++ l₂) := by
  rw [extractGateNames, extractGateNames, evoGates, List.filterMap_append, List.filterMap_append, List.filterMap_cons]
  rfl

theorem evo_singleUse (h : SingleUse (l₁ ++ l₂)) : SingleUse (evoGates l₁ tg l₂) := by
  rw [SingleUse, List.pairwise_append] at h
  rw [SingleUse, evoGates, List.pairwise_append, List.pairwise_cons]
  refine ⟨h.1, ⟨fun g _ p hp => hp.elim, h.2.1⟩, fun a ha b hb p hp => ?_⟩
  rcases List.mem_cons.1 hb with rfl | hb
  · exact id
  · exact h.2.2 a ha b hb p hp

end

end Verif
