import Verif.Props.Sgd

/-!
# C105 and C108 for parameters shared by several gates

The accuracy of the entries of `finite_shots_gpsr_backward` and the convergence of training with them, for circuits in which a name is
used by several gates.
-/

set_option autoImplicit false

namespace Verif
open NDArray MeasureTheory ProbabilityTheory
open scoped ComplexOrder
variable {n : ℕ} (so : SetOrder) (eigh : Eigh) (draw : Draw) {nss : List (List StdNoise)} {st : State}
  {o : Observable} {O : LMat n} {values : Values}

/-- The number of gates with the `i`-th name. -/
noncomputable def useAt (gs : List Gate) (names : List String) (i : ℕ) : ℕ := (usePlaces gs (names.getD i "")).card

/-! ## One gradient -/

/-- The estimates with one gate turned. -/
theorem shots_turned {circuit : Op} (h : Setting so n values circuit.gates nss st [o] [O])
    (hr : ∀ g ∈ circuit.gates, g.Registered) (hro : Op.AllRegistered o.ops) (hS : ShotSetting eigh n st [o] [O]) (l : ℕ) (δ : ℝ) :
    ∃ g : ℝ → ℝ, Measurable g ∧ (Set.range g).Finite ∧
      ∀ (hl : l < circuit.gates.length), (∃ p, circuit.gates[l].Uses p) →
        (∃ r, run so (mkSeq ((circuit.gates.set l (circuit.gates[l].turned δ)).map .prim)) st values = .ok (some r) ∧
          (r.mat n).PosSemidef ∧ (r.mat n).trace = 1) ∧
        ∀ (k : ℕ) (u : Fin k → ℝ), 1 ≤ k → jittedFiniteShots so eigh st [o] (List.ofFn u)
          (.list (circuit.gates.set l (circuit.gates[l].turned δ))) values = .ok [(∑ j, g (u j)) / k] := by
  by_cases hl : ∃ hl : l < circuit.gates.length, ∃ p, circuit.gates[l].Uses p
  · obtain ⟨hl, p, hu⟩ := hl
    have hmem := List.getElem_mem hl
    have hv : Variant n circuit.gates (mkSeq ((circuit.gates.set l (circuit.gates[l].turned δ)).map .prim)).gates values := by
      rw [gates_prims, turned_eq_shifted (hr _ hmem)]
      exact h.variant_shifted (fun g hg _ => hr g hg) hl hu δ
    obtain ⟨r, g, g1, g2, g3, g4, g5, g6, g7, g8, g9, -⟩ := shots_single so eigh (plain_prims _) h hS hv
    refine ⟨g, g8, g9, fun _ _ => ⟨⟨r, g1, g2, g3⟩, fun k u hk => ?_⟩⟩
    rw [gates_prims] at g7
    rw [jittedFiniteShots_eq so eigh _ _ (fun g hg => ?_) (by simpa using hro)]
    · exact g7 k u hk
    · rcases List.mem_or_eq_of_mem_set hg with hg | rfl
      · exact hr g hg
      · rw [turned_eq_shifted (hr _ hmem)]
        exact shifted_registered (hr _ hmem) hu δ
  · exact ⟨fun _ => 0, measurable_const, by simp, fun h1 h2 => absurd ⟨h1, h2⟩ hl⟩

theorem shotsBwd_formula_repeated {circuit : Op} (h : Setting so n values circuit.gates nss st [o] [O])
    (hs : ¬ SingleUse circuit.gates) (hall : ∀ p ∈ values.map Prod.fst, ∃ g ∈ circuit.gates, g.Uses p)
    (hr : ∀ g ∈ circuit.gates, g.Registered) (hro : Op.AllRegistered o.ops) (hS : ShotSetting eigh n st [o] [O]) :
    ∃ g : ℕ → ℝ → ℝ → ℝ, (∀ l δ, Measurable (g l δ) ∧ (Set.range (g l δ)).Finite) ∧
      ∀ (Ω κ : Type) (U : Ω → κ → Draw) (split : κ → ℕ → ℕ → κ) (key : κ) (k : ℕ), 1 ≤ k → ∀ ω,
        shotsBwd eigh split (fun key => jittedFiniteShots so eigh st [o] (List.ofFn (U ω key k))) (.list circuit.gates) values key
          = .ok (List.ofFn fun i : Fin values.keys.length =>
              ∑ j : Fin (paramIndices circuit.gates values.keys[i]).length,
                (drawAverage U k (split (split (split key values.keys.length i) (paramIndices circuit.gates values.keys[i]).length j) 2 0)
                    (g (paramIndices circuit.gates values.keys[i])[j] (Real.pi / 2)) ω
                  - drawAverage U k (split (split (split key values.keys.length i) (paramIndices circuit.gates values.keys[i]).length j) 2 1)
                    (g (paramIndices circuit.gates values.keys[i])[j] (-(Real.pi / 2))) ω) / 2) := by
  have hc := h.not_controlled fun g hg _ => hr g hg
  choose g g1 g2 g3 using shots_turned so eigh h hr hro hS
  refine ⟨g, fun l δ => ⟨g1 l δ, g2 l δ⟩, fun Ω κ U split key k hk1 ω => ?_⟩
  exact shots_repeated_bwd (gs := circuit.gates) (values := values) (h.names_gt hs hall) (h.hasRepeated_eq hs)
    (h.keys_ne hs) eigh split
    (F := fun key => jittedFiniteShots so eigh st [o] (List.ofFn (U ω key k)))
    (f := fun key l δ => drawAverage U k key (g l δ) ω)
    (alt := fun l δ => circuit.gates.set l (((circuit.gates[l]?).getD (Gate.X (.int 0))).turned δ))
    (fun p _ l hl => by
      obtain ⟨hlt, hu⟩ := mem_paramIndices.1 hl
      have hmem := List.getElem_mem hlt
      obtain ⟨s, hs⟩ := h.std _ hmem
      obtain ⟨sh, R, hR⟩ := hs.named hu
      exact ⟨_, List.getElem?_eq_getElem hlt, hR.gap eigh (hr _ hmem) (hc _ hmem p hu)⟩)
    (fun p _ l hl δ => by
      obtain ⟨hlt, hu⟩ := mem_paramIndices.1 hl
      rw [alter_eq hlt hu, List.getElem?_eq_getElem hlt, Option.getD_some, turned_eq_shifted (hr _ (List.getElem_mem hlt))])
    (fun key p _ l hl δ => by
      obtain ⟨hlt, hu⟩ := mem_paramIndices.1 hl
      rw [List.getElem?_eq_getElem hlt, Option.getD_some]
      exact (g3 l δ hlt ⟨p, hu⟩).2 k _ hk1)
    (fun p hp => by
      obtain ⟨g, hg, hu⟩ := hall p hp
      obtain ⟨l, hl, rfl⟩ := List.mem_iff_getElem.1 hg
      exact List.ne_nil_of_mem (mem_paramIndices.2 ⟨hl, hu⟩)) key

/-- Mean, variance and accuracy of one entry. -/
theorem moments_repeated {circuit : Op} (hp : circuit.Plain) (h : Setting so n values circuit.gates nss st [o] [O])
    (hs : ¬ SingleUse circuit.gates) (hall : ∀ p ∈ values.map Prod.fst, ∃ g ∈ circuit.gates, g.Uses p)
    (hr : ∀ g ∈ circuit.gates, g.Registered) (hro : Op.AllRegistered o.ops) (hS : ShotSetting eigh n st [o] [O]) {lo hi : ℝ}
    (hO : SpectrumIn O lo hi) :
    ∃ D : String → ℝ,
      (∀ p ∈ values.map Prod.fst,
        IsPartial (fun v => expectation so eigh draw st circuit [o] v .gpsr 0) values p [D p]) ∧
      ∀ (Ω κ : Type) [MeasurableSpace Ω] (μ : Measure Ω) (U : Ω → κ → Draw) (split : κ → ℕ → ℕ → κ) (key : κ) (k : ℕ),
        IndepDraws μ U → DistinctKeysRep split key values.length (useAt circuit.gates (values.map Prod.fst)) → 1 ≤ k →
        ∃ est : Ω → List ℝ,
          (∀ ω, shotsBwd eigh split (fun key => jittedFiniteShots so eigh st [o] (List.ofFn (U ω key k)))
            (.list circuit.gates) values key = .ok (est ω)) ∧
          (∀ ω, (est ω).length = values.length) ∧
          ∀ i (hi' : i < values.length), MemLp (fun ω => (est ω).getD i 0) 2 μ ∧ ∫ ω, (est ω).getD i 0 ∂μ = D values[i].1 ∧
            Var[fun ω => (est ω).getD i 0; μ] ≤ useAt circuit.gates (values.map Prod.fst) i * ((hi - lo) ^ 2 / (8 * k)) := by
  obtain ⟨D, d1, d2⟩ := C57_bwd_repeated_partial so eigh hp h hs hall hr (by simpa using hro) hS draw
  obtain ⟨V, v1, v2⟩ := C105_repeated so eigh h hs hall hr hro hS
  have hlen : ∀ p ∈ values.map Prod.fst, D p = [(D p).sum] := by
    intro p hp'
    obtain ⟨x, f, -, e2, e3, -⟩ := d1 p hp'
    have e4 := e2 x
    have h1 := e3 x
    beta_reduce at e4
    rw [expectation_gates so eigh draw hp, h.eval] at e4
    have e5 := Except.ok.inj e4
    rw [← e5] at h1
    obtain ⟨y, hy⟩ := List.length_eq_one_iff.1 h1.symm
    rw [hy]
    simp
  refine ⟨fun p => (D p).sum, fun p hp' => by rw [← hlen p hp']; exact d1 p hp', fun Ω κ _ μ U split key k hU hd hk1 => ?_⟩
  obtain ⟨est, e1, e2, -⟩ := v2 Ω κ μ U split key k hU hd hk1
  obtain ⟨est', f1, f2⟩ := d2 Ω κ μ U split key k hU.uniform hk1
  obtain rfl : est' = est := funext fun ω => Except.ok.inj ((f1 ω).symm.trans (e1 ω))
  refine ⟨est', e1, fun ω => by have := f2.1 ω; simpa using this, fun i hi' => ⟨(e2 i hi').1, ?_, ?_⟩⟩
  · rw [(f2.2 i).2]
    simp [List.getD_eq_getElem?_getD, hi']
  · have hOh : O.IsHermitian := hS.hermitian O (by simp)
    have hkp : (0 : ℝ) < k := by exact_mod_cast hk1
    have hV : ∀ l ∈ usePlaces circuit.gates values[i].1, ∀ δ, V l δ ≤ (hi - lo) ^ 2 / 4 := by
      intro l hl δ
      classical
      obtain ⟨-, hlt, hu⟩ := Finset.mem_filter.1 hl
      obtain ⟨r, r1, r2⟩ := v1 l hlt ⟨_, hu⟩ δ
      obtain ⟨g, -, -, g3⟩ := shots_turned so eigh h hr hro hS l δ
      obtain ⟨⟨r', q1, q2, q3⟩, -⟩ := g3 hlt ⟨_, hu⟩
      obtain rfl : r' = r := by rw [q1] at r1; cases r1; rfl
      rw [r2]
      exact quantumVariance_le hOh q2 q3 hO
    rw [(e2 i hi').2]
    have hu : useAt circuit.gates (values.map Prod.fst) i = (usePlaces circuit.gates values[i].1).card := by
      rw [useAt, List.getD_eq_getElem _ "" (by simpa using hi')]
      simp
    have h1 : ∑ l ∈ usePlaces circuit.gates values[i].1, (V l (Real.pi / 2) + V l (-(Real.pi / 2)))
        ≤ (usePlaces circuit.gates values[i].1).card * ((hi - lo) ^ 2 / 2) := by
      refine (Finset.sum_le_card_nsmul _ _ ((hi - lo) ^ 2 / 2) fun l hl => ?_).trans (le_of_eq (by rw [nsmul_eq_mul]))
      linarith [hV l hl (Real.pi / 2), hV l hl (-(Real.pi / 2))]
    rw [hu, div_le_iff₀ (by positivity)]
    refine h1.trans (le_of_eq ?_)
    field_simp
    ring

/-- **C105** (accuracy, shared parameter names): if the eigenvalues of the observable lie in `[lo, hi]` and the name of an entry is used
by `m` gates, then with `k` shots the entry of `finite_shots_gpsr_backward` misses the exact derivative by at least `c` with probability
at most `m (hi - lo)² / (8 k c²)`. -/
theorem C105_accuracy_repeated {circuit : Op} (hp : circuit.Plain) (h : Setting so n values circuit.gates nss st [o] [O])
    (hs : ¬ SingleUse circuit.gates) (hall : ∀ p ∈ values.map Prod.fst, ∃ g ∈ circuit.gates, g.Uses p)
    (hr : ∀ g ∈ circuit.gates, g.Registered) (hro : Op.AllRegistered o.ops) (hS : ShotSetting eigh n st [o] [O]) {lo hi : ℝ}
    (hO : SpectrumIn O lo hi) :
    ∃ D : String → ℝ,
      (∀ p ∈ values.map Prod.fst,
        IsPartial (fun v => expectation so eigh draw st circuit [o] v .gpsr 0) values p [D p]) ∧
      ∀ (Ω κ : Type) [MeasurableSpace Ω] (μ : Measure Ω) (U : Ω → κ → Draw) (split : κ → ℕ → ℕ → κ) (key : κ) (k : ℕ),
        IndepDraws μ U → DistinctKeysRep split key values.length (useAt circuit.gates (values.map Prod.fst)) → 1 ≤ k →
        ∃ est : Ω → List ℝ,
          (∀ ω, shotsBwd eigh split (fun key => jittedFiniteShots so eigh st [o] (List.ofFn (U ω key k)))
            (.list circuit.gates) values key = .ok (est ω)) ∧
          ∀ i (hi' : i < values.length) (c : ℝ), 0 < c →
            μ {ω | c ≤ |(est ω).getD i 0 - D values[i].1|}
              ≤ ENNReal.ofReal (useAt circuit.gates (values.map Prod.fst) i * (hi - lo) ^ 2 / (8 * k * c ^ 2)) := by
  obtain ⟨D, d1, d2⟩ := moments_repeated so eigh draw hp h hs hall hr hro hS hO
  refine ⟨D, d1, fun Ω κ _ μ U split key k hU hd hk1 => ?_⟩
  obtain ⟨est, e1, -, e2⟩ := d2 Ω κ μ U split key k hU hd hk1
  have := (hU.pairwise key k).prob hk1
  refine ⟨est, e1, fun i hi' c hc => ?_⟩
  obtain ⟨x1, x2, x3⟩ := e2 i hi'
  have h4 := meas_ge_le_variance_div_sq x1 hc
  rw [x2] at h4
  refine h4.trans (ENNReal.ofReal_le_ofReal ?_)
  have hkp : (0 : ℝ) < k := by exact_mod_cast hk1
  rw [div_le_iff₀ (by positivity)]
  refine x3.trans (le_of_eq ?_)
  field_simp

/-- The keys used for one gradient. -/
def gradKeys {κ : Type} (split : κ → ℕ → ℕ → κ) (key : κ) (m : ℕ) (c : ℕ → ℕ) : Set κ :=
  {q | ∃ i < m, ∃ a < c i, ∃ s < 2, q = split (split (split key m i) (c i) a) 2 s}

/-- What the proofs below use about the gradient at one point. -/
theorem gradient_estimate_repeated {circuit : Op} (hp : circuit.Plain) {names : List String}
    {x : Fin names.length → ℝ} (h : Setting so n (dictAt names x) circuit.gates nss st [o] [O])
    (hs : ¬ SingleUse circuit.gates) (hall : ∀ p ∈ names, ∃ g ∈ circuit.gates, g.Uses p)
    (hr : ∀ g ∈ circuit.gates, g.Registered) (hro : Op.AllRegistered o.ops)
    (hS : ShotSetting eigh n st [o] [O]) {lo hi : ℝ} (hO : SpectrumIn O lo hi) :
    ∃ D : String → ℝ,
      (∀ p ∈ names, IsPartial (fun v => expectation so eigh draw st circuit [o] v .gpsr 0) (dictAt names x) p [D p]) ∧
      ∀ (Ω κ : Type) [MeasurableSpace Ω] (μ : Measure Ω) (U : Ω → κ → Draw) (split : κ → ℕ → ℕ → κ) (key : κ) (k : ℕ),
        IndepDraws μ U → DistinctKeysRep split key names.length (useAt circuit.gates names) → 1 ≤ k →
        ∃ est : Ω → Fin names.length → ℝ,
          (∀ ω, shotsBwd eigh split (fun key => jittedFiniteShots so eigh st [o] (List.ofFn (U ω key k)))
            (.list circuit.gates) (dictAt names x) key = .ok (List.ofFn (est ω))) ∧
          (∀ i, MemLp (fun ω => est ω i) 2 μ ∧ ∫ ω, est ω i ∂μ = D names[i] ∧
            Var[fun ω => est ω i; μ] ≤ useAt circuit.gates names i * ((hi - lo) ^ 2 / (8 * k))) ∧
          ∀ m : MeasurableSpace Ω, (∀ q ∈ gradKeys split key names.length (useAt circuit.gates names), ∀ j, drawAlg U k (q, j) ≤ m) →
            Discrete m est := by
  have hkeys := dictAt_keys names x
  have hkeys' : (dictAt names x).keys = names := hkeys
  have hlen : (dictAt names x).length = names.length := by
    have := congrArg List.length hkeys
    rwa [List.length_map] at this
  have hall' : ∀ p ∈ (dictAt names x).map Prod.fst, ∃ g ∈ circuit.gates, g.Uses p := by rw [hkeys]; exact hall
  obtain ⟨g, hg, hform⟩ := shotsBwd_formula_repeated so eigh h hs hall' hr hro hS
  obtain ⟨D, d1, d2⟩ := moments_repeated so eigh draw hp h hs hall' hr hro hS hO
  rw [hkeys] at d1 d2
  refine ⟨D, d1, fun Ω κ _ μ U split key k hU hd hk1 => ?_⟩
  obtain ⟨est, e1, e2, e3⟩ := d2 Ω κ μ U split key k hU (by rw [hlen]; exact hd) hk1
  have hE : ∀ ω, est ω = List.ofFn fun i : Fin names.length => (est ω).getD i 0 := fun ω => by
    have hl := e2 ω
    rw [hlen] at hl
    refine List.ext_getElem (by simp [hl]) fun i h1 h2 => ?_
    simp [List.getD_eq_getElem?_getD, h1]
  refine ⟨fun ω i => (est ω).getD i 0, fun ω => (e1 ω).trans (congrArg _ (hE ω)), fun i => ?_, fun m hm => ?_⟩
  · have hi' : (i : ℕ) < (dictAt names x).length := by rw [hlen]; exact i.2
    obtain ⟨x1, x2, x3⟩ := e3 i hi'
    refine ⟨x1, x2.trans (congrArg D ?_), x3⟩
    have : (dictAt names x)[(i : ℕ)].1 = ((dictAt names x).map Prod.fst)[(i : ℕ)]'(by simpa using hi') := by simp
    rw [this]
    simp only [hkeys, Fin.getElem_fin]
  · have hform' : ∀ ω, est ω = _ := fun ω => Except.ok.inj ((e1 ω).symm.trans (hform Ω κ U split key k hk1 ω))
    have : (fun ω (i : Fin names.length) => (est ω).getD i 0) = fun ω (i : Fin names.length) =>
        ∑ j : Fin (paramIndices circuit.gates names[i]).length,
          (drawAverage U k (split (split (split key names.length i) (paramIndices circuit.gates names[i]).length j) 2 0)
              (g (paramIndices circuit.gates names[i])[j] (Real.pi / 2)) ω
            - drawAverage U k (split (split (split key names.length i) (paramIndices circuit.gates names[i]).length j) 2 1)
              (g (paramIndices circuit.gates names[i])[j] (-(Real.pi / 2))) ω) / 2 := by
      funext ω i
      have hi' : (i : ℕ) < (dictAt names x).keys.length := by rw [hkeys']; exact i.2
      have hk2 : (dictAt names x).keys[(i : ℕ)] = names[i] := by simp only [hkeys', Fin.getElem_fin]
      rw [hform', getD_ofFn hi']
      exact congrArg₂ (fun (L : ℕ) (q : String) => ∑ j : Fin (paramIndices circuit.gates q).length,
        (drawAverage U k (split (split (split key L i) (paramIndices circuit.gates q).length j) 2 0)
            (g (paramIndices circuit.gates q)[j] (Real.pi / 2)) ω
          - drawAverage U k (split (split (split key L i) (paramIndices circuit.gates q).length j) 2 1)
            (g (paramIndices circuit.gates q)[j] (-(Real.pi / 2))) ω) / 2) (congrArg List.length hkeys') hk2
    rw [this]
    refine Discrete.pi fun i => ?_
    have hu : useAt circuit.gates names i = (paramIndices circuit.gates names[i]).length := by
      rw [useAt, List.getD_eq_getElem _ "" i.2, card_usePlaces]
      rfl
    have hd : ∀ j : Fin (paramIndices circuit.gates names[i]).length, Discrete m fun ω =>
          (drawAverage U k (split (split (split key names.length i) (paramIndices circuit.gates names[i]).length j) 2 0)
              (g (paramIndices circuit.gates names[i])[j] (Real.pi / 2)) ω
            - drawAverage U k (split (split (split key names.length i) (paramIndices circuit.gates names[i]).length j) 2 1)
              (g (paramIndices circuit.gates names[i])[j] (-(Real.pi / 2))) ω) / 2 := fun j => by
      have a0 := drawAverage_discrete (key := split (split (split key names.length i) (paramIndices circuit.gates names[i]).length j) 2 0)
        (hg (paramIndices circuit.gates names[i])[j] (Real.pi / 2)).1 (hg (paramIndices circuit.gates names[i])[j] (Real.pi / 2)).2
        (hm _ ⟨i, i.2, j, by rw [hu]; exact j.2, 0, by norm_num, by rw [hu]⟩)
      have a1 := drawAverage_discrete (key := split (split (split key names.length i) (paramIndices circuit.gates names[i]).length j) 2 1)
        (hg (paramIndices circuit.gates names[i])[j] (-(Real.pi / 2))).1 (hg (paramIndices circuit.gates names[i])[j] (-(Real.pi / 2))).2
        (hm _ ⟨i, i.2, j, by rw [hu]; exact j.2, 1, by norm_num, by rw [hu]⟩)
      exact a0.bind fun a => a1.comp fun b => (a - b) / 2
    exact (Discrete.pi hd).comp fun v => ∑ j, v j

/-! ## Training -/

/-- The bound on the noise of a gradient with `k` shots: one term for every gate with a name. -/
noncomputable def gradNoiseRep (gs : List Gate) (names : List String) (lo hi : ℝ) (k : ℕ) : ℝ :=
  ∑ i : Fin names.length, useAt gs names i * ((hi - lo) ^ 2 / (8 * k))

/-- **C108** (one step, shared parameter names): as `C108_step`; the noise of the gradient is at most (number of gates with a
name) · (hi - lo)² / (8 k). -/
theorem C108_step_repeated {circuit : Op} (hp : circuit.Plain) {names : List String} (hnd : names.Nodup)
    {x : Fin names.length → ℝ} (h : Setting so n (dictAt names x) circuit.gates nss st [o] [O])
    (hs : ¬ SingleUse circuit.gates) (hall : ∀ p ∈ names, ∃ g ∈ circuit.gates, g.Uses p)
    (hr : ∀ g ∈ circuit.gates, g.Registered) (hro : Op.AllRegistered o.ops)
    (hS : ShotSetting eigh n st [o] [O]) {lo hi : ℝ} (hO : SpectrumIn O lo hi) {η : ℝ} (hη : 0 ≤ η) :
    ∃ (e : ℝ) (D : String → ℝ), expectation so eigh draw st circuit [o] (dictAt names x) .gpsr 0 = .ok [e] ∧
      (∀ p ∈ names, IsPartial (fun v => expectation so eigh draw st circuit [o] v .gpsr 0) (dictAt names x) p [D p]) ∧
      ∀ (Ω κ : Type) [MeasurableSpace Ω] (μ : Measure Ω) (U : Ω → κ → Draw) (split : κ → ℕ → ℕ → κ) (key : κ) (k : ℕ),
        IndepDraws μ U → DistinctKeysRep split key names.length (useAt circuit.gates names) → 1 ≤ k →
        ∃ (grad : Ω → List ℝ) (e' : Ω → ℝ),
          (∀ ω, shotsBwd eigh split (fun key => jittedFiniteShots so eigh st [o] (List.ofFn (U ω key k)))
            (.list circuit.gates) (dictAt names x) key = .ok (grad ω)) ∧
          (∀ ω, expectation so eigh draw st circuit [o] (dictAt names fun i => x i - η * (grad ω).getD i 0) .gpsr 0 = .ok [e' ω]) ∧
          Integrable e' μ ∧
          ∫ ω, e' ω ∂μ ≤ e - η * (1 - smoothness circuit.gates names lo hi * η / 2) * ∑ i : Fin names.length, D names[i] ^ 2
            + smoothness circuit.gates names lo hi * η ^ 2 / 2 * gradNoiseRep circuit.gates names lo hi k := by
  have hH : O.IsHermitian := hS.hermitian O (by simp)
  obtain ⟨F, hF, hl, h3, h4, h5, h6⟩ := energy_facts so eigh draw hp hnd (mode := .gpsr) (.inl rfl) h.toBaseSetting hS.pos hS.trace
  have hF1 : ∀ y, F y = [(F y).getD 0 0] := by
    intro y
    obtain ⟨a, ha⟩ := List.length_eq_one_iff.1 (hl y)
    rw [ha]; rfl
  have hF' : ∀ y, expectation so eigh draw st circuit [o] (dictAt names y) .gpsr 0 = .ok [(F y).getD 0 0] := fun y =>
    (hF y).trans (congrArg _ (hF1 y))
  obtain ⟨D, hD, hest⟩ := gradient_estimate_repeated so eigh draw hp h hs hall hr hro hS hO
  refine ⟨_, D, hF' x, hD, fun Ω κ _ μ U split key k hU hd hk1 => ?_⟩
  have := (hU.pairwise key k).prob hk1
  obtain ⟨est, e1, e2, e3⟩ := hest Ω κ μ U split key k hU hd hk1
  have hfin := e3 inferInstance fun q _ j => (hU.uniform _ k j).measurable.comap_le
  have hget : ∀ ω, (fun i : Fin names.length => x i - η * (List.ofFn (est ω)).getD i 0) = fun i => x i - η * est ω i := fun ω =>
    funext fun i => by rw [getD_ofFn i.2]
  refine ⟨fun ω => List.ofFn (est ω), fun ω => (F fun i => x i - η * est ω i).getD 0 0, e1, fun ω => by rw [hget]; exact hF' _,
    (hfin.comp fun d => (F fun i => x i - η * d i).getD 0 0).integrable, ?_⟩
  have hC := spread_nonneg hH hO hS.pos hS.trace
  refine (mean_step (F := fun x => (F x).getD 0 0) (c := fun i => useCount circuit.gates names[i]) (h3 0) hC
    (h5 0 O lo hi rfl hH hO) (h4 0) (D := fun i => D names[i]) (fun i => (h6 x i [D names[i]] (hD _ (List.getElem_mem _))).2 0)
    (fun i => (e2 i).1) (fun i => (e2 i).2.1) hη (hfin.comp fun d => (F fun i => x i - η * d i).getD 0 0).integrable).trans ?_
  have hV : ∑ i, Var[fun ω => est ω i; μ] ≤ gradNoiseRep circuit.gates names lo hi k :=
    Finset.sum_le_sum fun i _ => (e2 i).2.2
  have hL : 0 ≤ smoothness circuit.gates names lo hi * η ^ 2 / 2 := by rw [smoothness]; positivity
  exact add_le_add le_rfl (mul_le_mul_of_nonneg_left hV hL)

/-- The places of the numbers drawn in step `t`. -/
def stepDrawsRep {κ : Type} (split : κ → ℕ → ℕ → κ) (key : ℕ → κ) (m : ℕ) (c : ℕ → ℕ) (k t : ℕ) : Set (κ × Fin k) :=
  {e | e.1 ∈ gradKeys split (key t) m c}

theorem FreshKeysRep.disjoint {κ : Type} {split : κ → ℕ → ℕ → κ} {key : ℕ → κ} {m : ℕ} {c : ℕ → ℕ} (h : FreshKeysRep split key m c)
    (k t : ℕ) : Disjoint (⋃ s < t, stepDrawsRep split key m c k s) (stepDrawsRep split key m c k t) := by
  rw [Set.disjoint_left]
  rintro e he ⟨i, hi, a, ha, s, hs, h1⟩
  simp only [Set.mem_iUnion] at he
  obtain ⟨u, hut, j, hj, b, hb, r, hr, h2⟩ := he
  have := (h t u i hi j hj a ha b hb s hs r hr (h1.symm.trans h2)).1
  omega

theorem FreshKeysRep.distinct {κ : Type} {split : κ → ℕ → ℕ → κ} {key : ℕ → κ} {m : ℕ} {c : ℕ → ℕ} (h : FreshKeysRep split key m c)
    (t : ℕ) : DistinctKeysRep split (key t) m c := fun i hi j hj a ha b hb s hs r hr e => (h t t i hi j hj a ha b hb s hs r hr e).2

/-- **C108** (training, shared parameter names): as `C108_converges`; the noise is at most (number of gates with a
name) · (hi - lo)² / (8 k). -/
theorem C108_converges_repeated {circuit : Op} (hp : circuit.Plain) {names : List String} (hnd : names.Nodup)
    {x₀ : Fin names.length → ℝ} (h : Setting so n (dictAt names x₀) circuit.gates nss st [o] [O])
    (hs : ¬ SingleUse circuit.gates) (hall : ∀ p ∈ names, ∃ g ∈ circuit.gates, g.Uses p)
    (hr : ∀ g ∈ circuit.gates, g.Registered) (hro : Op.AllRegistered o.ops)
    (hS : ShotSetting eigh n st [o] [O]) {lo hi : ℝ} (hO : SpectrumIn O lo hi) {η : ℝ} (hη : 0 < η)
    (hL : smoothness circuit.gates names lo hi * η ≤ 1)
    {Ω κ : Type} [MeasurableSpace Ω] {μ : Measure Ω} {U : Ω → κ → Draw} {split : κ → ℕ → ℕ → κ} {key : ℕ → κ} {k : ℕ}
    (hU : MutualDraws μ U) (hfresh : FreshKeysRep split key names.length (useAt circuit.gates names)) (hk : 1 ≤ k)
    {x : ℕ → Ω → Fin names.length → ℝ} {grad : ℕ → Ω → List ℝ} (h0 : ∀ ω, x 0 ω = x₀)
    (hg : ∀ t ω, shotsBwd eigh split (fun key => jittedFiniteShots so eigh st [o] (List.ofFn (U ω key k)))
      (.list circuit.gates) (dictAt names (x t ω)) (key t) = .ok (grad t ω))
    (hx : ∀ t ω, x (t + 1) ω = fun i => x t ω i - η * (grad t ω).getD i 0) :
    ∃ (e : (Fin names.length → ℝ) → ℝ) (D : (Fin names.length → ℝ) → String → ℝ),
      (∀ y, expectation so eigh draw st circuit [o] (dictAt names y) .gpsr 0 = .ok [e y]) ∧
      (∀ y, ∀ p ∈ names, IsPartial (fun v => expectation so eigh draw st circuit [o] v .gpsr 0) (dictAt names y) p [D y p]) ∧
      (∀ t, Integrable (fun ω => e (x t ω)) μ ∧ Integrable (fun ω => ∑ i : Fin names.length, D (x t ω) names[i] ^ 2) μ) ∧
      (∀ t, ∫ ω, e (x (t + 1) ω) ∂μ ≤ (∫ ω, e (x t ω) ∂μ)
        - η / 2 * (∫ ω, ∑ i : Fin names.length, D (x t ω) names[i] ^ 2 ∂μ)
        + smoothness circuit.gates names lo hi * η ^ 2 / 2 * gradNoiseRep circuit.gates names lo hi k) ∧
      ∀ T : ℕ, T ≠ 0 → (∑ t ∈ Finset.range T, ∫ ω, ∑ i : Fin names.length, D (x t ω) names[i] ^ 2 ∂μ) / T
        ≤ 2 * (e x₀ - lo) / (η * T) + smoothness circuit.gates names lo hi * η * gradNoiseRep circuit.gates names lo hi k := by
  have hH : O.IsHermitian := hS.hermitian O (by simp)
  have hUi := hU.indepDraws
  have := (hUi.pairwise (key 0) k).prob hk
  have hset : ∀ y, Setting so n (dictAt names y) circuit.gates nss st [o] [O] := fun y =>
    ⟨h.toBaseSetting.everywhere so hnd y, h.uncontrolled⟩
  obtain ⟨F, hF, hl, h3, h4, h5, h6⟩ := energy_facts so eigh draw hp hnd (mode := .gpsr) (.inl rfl) h.toBaseSetting hS.pos hS.trace
  have hF1 : ∀ y, F y = [(F y).getD 0 0] := by
    intro y
    obtain ⟨a, ha⟩ := List.length_eq_one_iff.1 (hl y)
    rw [ha]; rfl
  have hF' : ∀ y, expectation so eigh draw st circuit [o] (dictAt names y) .gpsr 0 = .ok [(F y).getD 0 0] := fun y =>
    (hF y).trans (congrArg _ (hF1 y))
  choose D hD hest using fun y => gradient_estimate_repeated so eigh draw hp (hset y) hs hall hr hro hS hO
  choose est e1 e2 e3 using fun t y => hest y Ω κ μ U split (key t) k hUi (hfresh.distinct t) hk
  have hest' : ∀ t y, Discrete (drawsAlg U k (stepDrawsRep split key names.length (useAt circuit.gates names) k t)) (est t y) := fun t y =>
    e3 t y _ fun q hq j => drawAlg_le_of_mem hq
  have hgr : ∀ t ω (i : Fin names.length), (grad t ω).getD i 0 = est t (x t ω) ω i := fun t ω i => by
    have := Except.ok.inj ((hg t ω).symm.trans (e1 t (x t ω) ω))
    rw [this, getD_ofFn i.2]
  have hC := spread_nonneg hH hO hS.pos hS.trace
  obtain ⟨k1, k2, k3⟩ := sgd (μ := μ) (F := fun y => (F y).getD 0 0) (D := fun y i => D y names[i]) (lo := lo)
    (L := smoothness circuit.gates names lo hi) (V := gradNoiseRep circuit.gates names lo hi k)
    (fun y => (energy_bounds so eigh draw hp (.inl rfl) (hset y).toBaseSetting hS.pos hS.trace hH hO (hF' y)).1)
    (H := fun t => drawsAlg U k (⋃ s < t, stepDrawsRep split key names.length (useAt circuit.gates names) k s))
    (G := fun t => drawsAlg U k (stepDrawsRep split key names.length (useAt circuit.gates names) k t))
    (fun t => drawsAlg_le hU.uniform k _) (fun t => drawsAlg_le hU.uniform k _)
    (fun t => drawsAlg_mono (Set.biUnion_subset_biUnion_left fun s hs => Nat.lt_succ_of_lt hs))
    (fun t => drawsAlg_mono fun e he => Set.mem_biUnion (Nat.lt_succ_self t) he)
    (fun t => hU.indep_of_disjoint (hfresh.disjoint k t)) hest' hη hL (fun t y => by
      refine (mean_step (F := fun x => (F x).getD 0 0) (c := fun i => useCount circuit.gates names[i]) (h3 0) hC
        (h5 0 O lo hi rfl hH hO) (h4 0) (D := fun i => D y names[i]) (fun i => (h6 y i [D y names[i]] (hD y _ (List.getElem_mem _))).2 0)
        (fun i => (e2 t y i).1) (fun i => (e2 t y i).2.1) hη.le
        (((hest' t y).mono (drawsAlg_le hU.uniform k _)).comp fun d => (F fun i => y i - η * d i).getD 0 0).integrable).trans ?_
      have hV : ∑ i, Var[fun ω => est t y ω i; μ] ≤ gradNoiseRep circuit.gates names lo hi k :=
        Finset.sum_le_sum fun i _ => (e2 t y i).2.2
      have hL' : 0 ≤ smoothness circuit.gates names lo hi * η ^ 2 / 2 := by rw [smoothness]; positivity
      exact add_le_add le_rfl (mul_le_mul_of_nonneg_left hV hL'))
    h0 (fun t ω => by rw [hx t ω]; funext i; rw [hgr])
  refine ⟨fun y => (F y).getD 0 0, D, hF', hD, fun t => ?_, k2, k3⟩
  have hd := (k1 t).mono (drawsAlg_le hU.uniform k _)
  exact ⟨(hd.comp fun y => (F y).getD 0 0).integrable, (hd.comp fun y => ∑ i : Fin names.length, D y names[i] ^ 2).integrable⟩

/-! ## Non-vacuity -/

/-- Keys that record how they were split, starting from numbered keys. -/
theorem freshKeysRep_exists (m : ℕ) (c : ℕ → ℕ) :
    FreshKeysRep (κ := List (ℕ × ℕ)) (fun key m i => (m, i) :: key) (fun t => [(0, t)]) m c :=
  fun u v i _ j _ a _ b _ s _ t _ e => by simp at e; exact ⟨e.2.2.2, e.2.2.1, e.2.1.2, e.1⟩

/-- Non-vacuity of the three theorems: the hypotheses are met by `[RX("a", 0), RX("a", 0)]` on `|0⟩`, `Z(0)` and any starting point; two
gates have the name `a`. -/
example (x : ℝ) : twiceRX.Plain ∧ dictAt ["a"] (fun _ => x) = [("a", .num x)] ∧
    Setting so 1 [("a", .num x)] twiceRX.gates [[], []] (.vec zero1) [obsZ] [gateMat 1 StdGate.Z.mat [0] []] ∧
    ¬ SingleUse twiceRX.gates ∧ (∀ p ∈ ["a"], ∃ g ∈ twiceRX.gates, g.Uses p) ∧ (∀ g ∈ twiceRX.gates, g.Registered) ∧
    Op.AllRegistered obsZ.ops ∧ ShotSetting eigh 1 (.vec zero1) [obsZ] [gateMat 1 StdGate.Z.mat [0] []] ∧
    SpectrumIn (gateMat 1 StdGate.Z.mat [0] []) (-1) 1 ∧ useAt twiceRX.gates ["a"] 0 = 2 ∧
    ∃ (Ω κ : Type) (_ : MeasurableSpace Ω) (μ : Measure Ω) (U : Ω → κ → Draw) (split : κ → ℕ → ℕ → κ) (key : ℕ → κ),
      MutualDraws μ U ∧ FreshKeysRep split key 1 (useAt twiceRX.gates ["a"]) := by
  obtain ⟨Ω, m, μ, U, hU⟩ := mutualDraws_exists (List (ℕ × ℕ))
  refine ⟨twiceRX_plain, by simp [dictAt, zipValues], twiceSetting so ⟨by simp, by simp⟩ rfl, twice_not_single, ?_, twice_registered,
    obsZ_registered _ (by simp), shotSettingZ eigh, flip_spectrum.2, ?_, Ω, _, m, μ, U, _, _, hU, freshKeysRep_exists _ _⟩
  · simp only [List.mem_singleton, forall_eq]
    exact ⟨Gate.RX (.str "a") (.int 0), by simp [twiceRX_gates], rfl⟩
  · have h : (Gate.RX (.str "a") (.int 0)).Uses "a" := rfl
    classical
    have h2 : usePlaces twiceRX.gates "a" = {0, 1} := by
      ext l
      rw [usePlaces, Finset.mem_filter, Finset.mem_range, twiceRX_gates]
      constructor
      · rintro ⟨h1, -⟩
        simp only [List.length_cons, List.length_nil] at h1
        simp only [Finset.mem_insert, Finset.mem_singleton]
        omega
      · intro h1
        simp only [Finset.mem_insert, Finset.mem_singleton] at h1
        rcases h1 with rfl | rfl
        · exact ⟨by simp, by simp, h⟩
        · exact ⟨by simp, by simp, h⟩
    rw [useAt]
    change (usePlaces twiceRX.gates "a").card = 2
    rw [h2]
    rfl

end Verif
