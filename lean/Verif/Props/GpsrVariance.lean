import Mathlib.Probability.Independence.InfinitePi
import Verif.SpecNoiseBound
import Verif.Lemmas.GpsrVariance
import Verif.Props.GpsrShots
import Verif.Props.Statistics
import Verif.Props.ShotsExact
import Verif.Props.Vqe
import Verif.Props.GpsrControlled
import Verif.Props.NoiseBound

/-!
# C105: the spread of finite-shot gradients

`shotsBwd` is `finite_shots_gpsr_backward` and `shotsJvp` is the JVP of `finite_shots_fwd`.  The keys obtained by splitting
are assumed different, and the numbers drawn with different keys independent.
-/

namespace Verif
set_option autoImplicit false
open NDArray MeasureTheory ProbabilityTheory
open scoped ComplexOrder
variable {n : ℕ} {values : Values} (so : SetOrder) (eigh : Eigh)
  {nss : List (List StdNoise)} {st : State} {o : Observable} {O : Matrix (Lab n) (Lab n) ℂ}

/-- The finite-shot estimate of one observable, for a variant of the circuit, is the average of a function of the numbers
drawn, whose first two moments are the expectation values of `O` and `O²`. -/
theorem shots_single {gs : List Gate} {circuit : Op} (hp : circuit.Plain) (h : Setting so n values gs nss st [o] [O])
    (hS : ShotSetting eigh n st [o] [O]) {v' : Values} (hv : Variant n gs circuit.gates v') :
    ∃ (r : State) (g : ℝ → ℝ), run so circuit st v' = .ok (some r) ∧ (r.mat n).PosSemidef ∧ (r.mat n).trace = 1 ∧
      (IntegrableOn g (Set.Ico 0 1) ∧ IntegrableOn (fun u => g u ^ 2) (Set.Ico 0 1)) ∧
      ∫ u in Set.Ico (0 : ℝ) 1, g u = expVal O (r.mat n) ∧ ∫ u in Set.Ico (0 : ℝ) 1, g u ^ 2 = expVal (O * O) (r.mat n) ∧
      (∀ (k : ℕ) (u : Fin k → ℝ), 1 ≤ k →
        finiteShotsGates so eigh st [o] (List.ofFn u) (.list circuit.gates) v' = .ok [(∑ j, g (u j)) / k]) ∧
      Measurable g ∧ (Set.range g).Finite ∧ ∀ u ∈ Set.Ico (0 : ℝ) 1, ∃ v : Lab n → ℂ, v ≠ 0 ∧ O.mulVec v = (g u : ℂ) • v := by
  have hne' : circuit.gates ≠ [] := by
    intro e
    have hl := hv.1.length_eq
    rw [e, List.length_nil] at hl
    exact h.ne (List.length_eq_zero_iff.1 hl)
  have hO : O.IsHermitian := hS.hermitian O (by simp)
  obtain ⟨r, h1, h2, h3, h4, h5⟩ := run_physical so ⟨hp, hne', fun g hg => (hv.2 g hg).choose_spec.ok,
    forall₂_noiseIs hv.1 h.noise⟩ hv.2 h.on hS.pos
  rw [hS.trace] at h5
  obtain ⟨i1, i2⟩ := pick_mean eigh (A := O) (B := O) h4 h5 hO (Equiv.refl _) fun _ _ => rfl
  obtain ⟨j1, j2⟩ := pick_second eigh (A := O) h4 h5 hO
  refine ⟨r, _, h1, h4, h5, ⟨i1, j1⟩, i2, j2, fun k u hk => ?_, pick_measurable (p := shotProbs (eigh.vecs (numMat O)) (r.mat n))
    (by rw [(shotProbs_facts eigh (A := O) h4).2, h5]; simp) _, pick_range _ _,
    fun u hu => pick_eigenvalue eigh h4 h5 hO (Equiv.refl _) (fun _ _ => rfl) hu⟩
  have hne : List.ofFn u ≠ [] := by
    intro h; have := congrArg List.length h; simp at this; omega
  have hf := finiteShots_eq so eigh (ops := circuit.gates.map .prim) (st := st) (r := r) (values := v')
    (by rw [hp.iter] at h2; exact h2) h3 ((hS.listed v').imp fun _ _ h => Op.ListedSum.mono (fun _ _ h => StdLeaf.sort h) h) hne
  rw [finiteShotsGates_eq_ops, hf]
  refine congrArg Except.ok (congrArg (fun z => [z]) ?_)
  beta_reduce
  rw [List.map_map, List.length_ofFn, List.map_ofFn, List.sum_ofFn]
  rfl

/-- The variance of a bounded observable. -/
theorem quantumVariance_le {ρ : Matrix (Lab n) (Lab n) ℂ} (hO : O.IsHermitian) (hρ : ρ.PosSemidef) (ht : ρ.trace = 1) {lo hi : ℝ}
    (hs : SpectrumIn O lo hi) : quantumVariance O ρ ≤ (hi - lo) ^ 2 / 4 := by
  obtain ⟨eigh⟩ := eigh_exists
  have hn : (numMat O).IsHermitian := by rw [Matrix.IsHermitian, numMat_conjTranspose, hO.eq]
  have hv : ∀ i, lo ≤ eigh.vals (numMat O) i ∧ eigh.vals (numMat O) i ≤ hi := fun i =>
    hs _ (eigVec eigh O i) (fun h0 => by
      have := eigVec_norm eigh O i
      rw [h0] at this
      simp at this) (eigVec_eigen eigh hO i)
  have e0 := eigh.sum_probs (numMat O) (numMat ρ)
  have e1 := eigh.sum_vals hn (eigh.vecs (numMat O)) (numMat ρ) (Equiv.refl _) fun _ _ => rfl
  have e2 := eigh.sum_vals_sq hn (numMat ρ)
  have hpos : ∀ i, 0 ≤ (((eigh.vecs (numMat O)).conjTranspose * numMat ρ * eigh.vecs (numMat O)) i i).re := fun i => by
    have h1 : (numMat ρ).PosSemidef := hρ.submatrix _
    exact (Complex.le_def.1 ((h1.conjTranspose_mul_mul_same (eigh.vecs (numMat O))).diag_nonneg (i := i))).1
  rw [numMat_trace, ht, Complex.one_re] at e0
  rw [← numMat_mul, numMat_trace] at e1
  rw [← numMat_mul, ← numMat_mul, numMat_trace] at e2
  have key : 0 ≤ ∑ i, (((eigh.vecs (numMat O)).conjTranspose * numMat ρ * eigh.vecs (numMat O)) i i).re
      * ((eigh.vals (numMat O) i - lo) * (hi - eigh.vals (numMat O) i)) :=
    Finset.sum_nonneg fun i _ => mul_nonneg (hpos i) (mul_nonneg (sub_nonneg.2 (hv i).1) (sub_nonneg.2 (hv i).2))
  have hsum : ∑ i, (((eigh.vecs (numMat O)).conjTranspose * numMat ρ * eigh.vecs (numMat O)) i i).re
      * ((eigh.vals (numMat O) i - lo) * (hi - eigh.vals (numMat O) i))
      = (lo + hi) * expVal O ρ - lo * hi - expVal (O * O) ρ := by
    rw [expVal, expVal, ← e1, ← e2]
    have e0' : lo * hi = lo * hi * ∑ i, (((eigh.vecs (numMat O)).conjTranspose * numMat ρ * eigh.vecs (numMat O)) i i).re := by
      rw [e0, mul_one]
    rw [e0', Finset.mul_sum, Finset.mul_sum, ← Finset.sum_sub_distrib, ← Finset.sum_sub_distrib]
    refine Finset.sum_congr rfl fun i _ => ?_
    simp only [Equiv.refl_apply]
    ring
  rw [hsum] at key
  rw [quantumVariance]
  nlinarith [sq_nonneg (2 * expVal O ρ - (lo + hi))]

theorem getD_ofFn {m i : ℕ} (hi : i < m) (f : Fin m → ℝ) : (List.ofFn f).getD i 0 = f ⟨i, hi⟩ := by
  simp [List.getD_eq_getElem?_getD, hi]

theorem getD_ofFn_ge {m i : ℕ} (hi : m ≤ i) (f : Fin m → ℝ) : (List.ofFn f).getD i 0 = 0 := by
  simp [List.getD_eq_getElem?_getD, Nat.not_lt.2 hi]

/-- The variance of a half difference of uncorrelated variables. -/
theorem variance_half {Ω : Type} [MeasurableSpace Ω] {μ : Measure Ω} [IsProbabilityMeasure μ] {X Y : Ω → ℝ} (hX : MemLp X 2 μ)
    (hY : MemLp Y 2 μ) (h : cov[X, Y; μ] = 0) : Var[fun ω => (X ω - Y ω) / 2; μ] = (Var[X; μ] + Var[Y; μ]) / 4 := by
  have h1 : (fun ω => (X ω - Y ω) / 2) = fun ω => (1 / 2 : ℝ) * (X ω - Y ω) := by funext ω; ring
  rw [h1, variance_const_mul, variance_fun_sub hX hY, h]
  ring

theorem covariance_half {Ω : Type} [MeasurableSpace Ω] {μ : Measure Ω} [IsProbabilityMeasure μ] {X Y Z W : Ω → ℝ}
    (hX : MemLp X 2 μ) (hY : MemLp Y 2 μ) (hZ : MemLp Z 2 μ) (hW : MemLp W 2 μ) (h1 : cov[X, Z; μ] = 0) (h2 : cov[X, W; μ] = 0)
    (h3 : cov[Y, Z; μ] = 0) (h4 : cov[Y, W; μ] = 0) : cov[fun ω => (X ω - Y ω) / 2, fun ω => (Z ω - W ω) / 2; μ] = 0 := by
  rw [covariance_fun_div_left, covariance_fun_div_right, covariance_fun_sub_fun_sub hX hY hZ hW, h1, h2, h3, h4]
  norm_num

/-- The entries of the gradient in terms of the numbers drawn. -/
theorem shotsBwd_formula {circuit : Op} (hp : circuit.Plain) (h : Setting so n values circuit.gates nss st [o] [O])
    (hs : SingleUse circuit.gates) (hk : values ≠ []) (hr : ∀ g ∈ circuit.gates, g.Registered)
    (hro : Op.AllRegistered o.ops) (hS : ShotSetting eigh n st [o] [O]) :
    ∃ g : String → ℝ → ℝ → ℝ,
      (∀ p t, Measurable (g p t) ∧ (Set.range (g p t)).Finite ∧
        ∀ u ∈ Set.Ico (0 : ℝ) 1, ∃ v : Lab n → ℂ, v ≠ 0 ∧ O.mulVec v = (g p t u : ℂ) • v) ∧
      ∀ (Ω κ : Type) (U : Ω → κ → Draw) (split : κ → ℕ → ℕ → κ) (key : κ) (k : ℕ), 1 ≤ k → ∀ ω,
        shotsBwd eigh split (fun key => jittedFiniteShots so eigh st [o] (List.ofFn (U ω key k))) (.list circuit.gates) values key
          = .ok (List.ofFn fun i : Fin values.keys.length =>
            (drawAverage U k (split (split key values.keys.length i) 2 0) (g values.keys[i] (values.real values.keys[i] + Real.pi / 2)) ω
              - drawAverage U k (split (split key values.keys.length i) 2 1) (g values.keys[i] (values.real values.keys[i] - Real.pi / 2)) ω)
              / 2) := by
  choose r g g1 g2 g3 g4 g5 g6 g7 g8 using fun (p : String) (t : ℝ) => shots_single so eigh hp h hS (h.variant_upd p t)
  refine ⟨g, g8, fun Ω κ U split key k hk1 ω => shots_plain_bwd h.numeric hk (extractGateNames_le h.toBaseSetting hs) eigh split
    (F := fun key => jittedFiniteShots so eigh st [o] (List.ofFn (U ω key k)))
    (f := fun key p t => drawAverage U k key (g p t) ω) (fun key p _ t => ?_) key⟩
  rw [jittedFiniteShots_eq so eigh _ _ hr (by simpa using hro)]
  exact g7 p t k _ hk1

/-! ## C105 -/

/-- **C105** (backward pass): for one observable `O` and a circuit in which every parameter name is used by at most one gate
without controls (or `PHASE` gate), the `i`-th entry of the gradient returned by `finite_shots_gpsr_backward` with `k` shots
has variance `(V₊ + V₋) / (4 k)`, where `V₊` and `V₋` are the variances of a measurement of `O` on the outputs of the circuit
with the `i`-th parameter shifted by `π/2` and `-π/2`; different entries are uncorrelated. -/
theorem C105_bwd {circuit : Op} (hp : circuit.Plain) (h : Setting so n values circuit.gates nss st [o] [O])
    (hs : SingleUse circuit.gates) (hk : values ≠ []) (hr : ∀ g ∈ circuit.gates, g.Registered)
    (hro : Op.AllRegistered o.ops) (hS : ShotSetting eigh n st [o] [O]) :
    ∀ (Ω κ : Type) [MeasurableSpace Ω] (μ : Measure Ω) (U : Ω → κ → Draw) (split : κ → ℕ → ℕ → κ) (key : κ) (k : ℕ),
      IndepDraws μ U → DistinctKeys split key values.length → 1 ≤ k → ∃ est : Ω → List ℝ,
        (∀ ω, shotsBwd eigh split (fun key => jittedFiniteShots so eigh st [o] (List.ofFn (U ω key k)))
          (.list circuit.gates) values key = .ok (est ω)) ∧
        (∀ i (hi : i < values.length), ∃ (x : ℝ) (r₁ r₂ : State), values[i].2 = .num x ∧
          run so circuit st (values.upd values[i].1 (x + Real.pi / 2)) = .ok (some r₁) ∧
          run so circuit st (values.upd values[i].1 (x - Real.pi / 2)) = .ok (some r₂) ∧
          MemLp (fun ω => (est ω).getD i 0) 2 μ ∧
          Var[fun ω => (est ω).getD i 0; μ] = (quantumVariance O (r₁.mat n) + quantumVariance O (r₂.mat n)) / (4 * k)) ∧
        ∀ i j, i ≠ j → cov[fun ω => (est ω).getD i 0, fun ω => (est ω).getD j 0; μ] = 0 := by
  intro Ω κ _ μ U split key k hU hd hk1
  have hlen : values.keys.length = values.length := by simp [Values.keys]
  rw [← hlen] at hd
  have := (hU.pairwise key k).prob hk1
  choose r g g1 g2 g3 g4 g5 g6 g7 g8 using fun (p : String) (t : ℝ) => shots_single so eigh hp h hS (h.variant_upd p t)
  have hF : ∀ ω key, ∀ p ∈ values.keys, ∀ t, jittedFiniteShots so eigh st [o] (List.ofFn (U ω key k)) (.list circuit.gates)
      (values.upd p t) = .ok [drawAverage U k key (g p t) ω] := fun ω key p _ t => by
    rw [jittedFiniteShots_eq so eigh _ _ hr (by simpa using hro)]
    exact g7 p t k _ hk1
  have hA := fun key p t => hU.average hk1 key (g4 p t).1 (g4 p t).2
  have hC : ∀ {key key' : κ} (p t p' t'), key ≠ key' → cov[drawAverage U k key (g p t), drawAverage U k key' (g p' t'); μ] = 0 :=
    fun p t p' t' hne => hU.uncorrelated hk1 hne (g4 p t).1 (g4 p t).2 (g4 p' t').1 (g4 p' t').2
  refine ⟨_, fun ω => shots_plain_bwd h.numeric hk (extractGateNames_le h.toBaseSetting hs) eigh split
    (F := fun key => jittedFiniteShots so eigh st [o] (List.ofFn (U ω key k)))
    (f := fun key p t => drawAverage U k key (g p t) ω) (hF ω) key, fun i hi => ?_, fun i j hij => ?_⟩
  · have hi' : i < values.keys.length := hlen ▸ hi
    have hki : values.keys[i] = values[i].1 := by simp [Values.keys]
    have hx := congrArg Prod.snd (h.numeric.entry (List.getElem_mem hi))
    simp only [getD_ofFn hi', Fin.getElem_fin, hki]
    refine ⟨_, _, _, hx, g1 _ _, g1 _ _, ?_, ?_⟩
    · have := ((hA (split (split key values.keys.length i) 2 0) values[i].1 (values.real values[i].1 + Real.pi / 2)).1.sub
        (hA (split (split key values.keys.length i) 2 1) values[i].1 (values.real values[i].1 - Real.pi / 2)).1).const_mul (1 / 2 : ℝ)
      refine this.ae_eq (.of_forall fun ω => ?_)
      simp only [Pi.sub_apply]
      ring
    · rw [variance_half (hA _ _ _).1 (hA _ _ _).1 (hC _ _ _ _ fun e => by
        have := (hd i hi' i hi' 0 (by norm_num) 1 (by norm_num) e).2
        omega), (hA _ _ _).2.2, (hA _ _ _).2.2, g5, g6, g5, g6, quantumVariance, quantumVariance]
      have hk0 : (k : ℝ) ≠ 0 := by exact_mod_cast (by omega : k ≠ 0)
      field_simp
  · rcases lt_or_ge i values.keys.length with hi | hi
    · rcases lt_or_ge j values.keys.length with hj | hj
      · simp only [getD_ofFn hi, getD_ofFn hj]
        have hne : ∀ a < 2, ∀ b < 2, split (split key values.keys.length i) 2 a ≠ split (split key values.keys.length j) 2 b :=
          fun a ha b hb e => hij (hd i hi j hj a ha b hb e).1
        exact covariance_half (hA _ _ _).1 (hA _ _ _).1 (hA _ _ _).1 (hA _ _ _).1
          (hC _ _ _ _ (hne 0 (by norm_num) 0 (by norm_num))) (hC _ _ _ _ (hne 0 (by norm_num) 1 (by norm_num)))
          (hC _ _ _ _ (hne 1 (by norm_num) 0 (by norm_num))) (hC _ _ _ _ (hne 1 (by norm_num) 1 (by norm_num)))
      · simp only [getD_ofFn_ge hj]
        exact covariance_const_right _
    · simp only [getD_ofFn_ge hi]
      exact covariance_const_left _

/-- **C105** (accuracy): if the eigenvalues of the observable lie in `[lo, hi]`, then with `k` shots every entry of the gradient
of `finite_shots_gpsr_backward` misses the exact derivative by at least `c` with probability at most
`(hi - lo)² / (8 k c²)`. -/
theorem C105_accuracy {circuit : Op} (hp : circuit.Plain) (h : Setting so n values circuit.gates nss st [o] [O])
    (hs : SingleUse circuit.gates) (hk : values ≠ []) (hr : ∀ g ∈ circuit.gates, g.Registered)
    (hro : Op.AllRegistered o.ops) (hS : ShotSetting eigh n st [o] [O]) {lo hi : ℝ} (hO : SpectrumIn O lo hi) (draw : Draw) :
    ∃ D : String → ℝ,
      (∀ p ∈ values.map Prod.fst,
        IsPartial (fun v => expectation so eigh draw st circuit [o] v .gpsr 0) values p [D p]) ∧
      ∀ (Ω κ : Type) [MeasurableSpace Ω] (μ : Measure Ω) (U : Ω → κ → Draw) (split : κ → ℕ → ℕ → κ) (key : κ) (k : ℕ),
        IndepDraws μ U → DistinctKeys split key values.length → 1 ≤ k → ∃ est : Ω → List ℝ,
          (∀ ω, shotsBwd eigh split (fun key => jittedFiniteShots so eigh st [o] (List.ofFn (U ω key k)))
            (.list circuit.gates) values key = .ok (est ω)) ∧
          ∀ i (hi' : i < values.length) (c : ℝ), 0 < c →
            μ {ω | c ≤ |(est ω).getD i 0 - D values[i].1|} ≤ ENNReal.ofReal ((hi - lo) ^ 2 / (8 * k * c ^ 2)) := by
  obtain ⟨D, d1, d2⟩ := C57_bwd_partial so eigh hp h hs hk hr (by simpa using hro) hS draw
  have hlen : ∀ p ∈ values.map Prod.fst, D p = [(D p).sum] := by
    intro p hp'
    obtain ⟨x, f, -, e2, e3, -⟩ := d1 p hp'
    have e4 := e2 x
    have h1 := e3 x
    beta_reduce at e4
    rw [expectation_gates so eigh draw hp, h.eval] at e4
    have e5 := Except.ok.inj e4
    rw [← e5] at h1
    obtain ⟨y, hy⟩ := List.length_eq_one_iff.1 h1.symm
    rw [hy]
    simp
  refine ⟨fun p => (D p).sum, fun p hp' => by rw [← hlen p hp']; exact d1 p hp', fun Ω κ _ μ U split key k hU hd hk1 => ?_⟩
  obtain ⟨est, e1, e2, -⟩ := C105_bwd so eigh hp h hs hk hr hro hS Ω κ μ U split key k hU hd hk1
  obtain ⟨est', f1, f2⟩ := d2 Ω κ μ U split key k hU.uniform hk1
  have hE : est' = est := by
    funext ω
    have := (f1 ω).symm.trans (e1 ω)
    exact Except.ok.inj this
  subst hE
  refine ⟨est', e1, fun i hi' c hc => ?_⟩
  have := (hU.pairwise key k).prob hk1
  obtain ⟨x, r₁, r₂, x1, x2, x3, x4, x5⟩ := e2 i hi'
  have hm : ∫ ω, (est' ω).getD i 0 ∂μ = (D values[i].1).sum := by
    rw [(f2.2 i).2]
    simp [List.getD_eq_getElem?_getD, hi']
  have h4 := meas_ge_le_variance_div_sq x4 hc
  rw [hm] at h4
  refine h4.trans (ENNReal.ofReal_le_ofReal ?_)
  have hOh : O.IsHermitian := hS.hermitian O (by simp)
  obtain ⟨q₁, -, y1, y2, y3, -⟩ := shots_single so eigh hp h hS (h.variant_upd values[i].1 (x + Real.pi / 2))
  obtain ⟨q₂, -, z1, z2, z3, -⟩ := shots_single so eigh hp h hS (h.variant_upd values[i].1 (x - Real.pi / 2))
  obtain rfl : q₁ = r₁ := by rw [y1] at x2; cases x2; rfl
  obtain rfl : q₂ = r₂ := by rw [z1] at x3; cases x3; rfl
  have v1 := quantumVariance_le hOh y2 y3 hO
  have v2 := quantumVariance_le hOh z2 z3 hO
  have hkp : (0 : ℝ) < k := by exact_mod_cast hk1
  rw [x5, div_div, div_le_div_iff₀ (by positivity) (by positivity)]
  have hpos : 0 ≤ k * c ^ 2 := by positivity
  nlinarith [mul_le_mul_of_nonneg_right (add_le_add v1 v2) hpos]

/-- **C105** (JVP): for one observable `O` and a circuit in which every parameter name is used by at most one gate without
controls (or `PHASE` gate), the tangent returned by the JVP of `finite_shots_fwd` in the direction `ts` with `k` shots has
variance `∑ tᵢ² (V₊ᵢ + V₋ᵢ) / (4 k)`; the forward value has variance `V / k`, and is uncorrelated with the tangent if its key is
none of those used for the shifts. -/
theorem C105_jvp {circuit : Op} (hp : circuit.Plain) (h : Setting so n values circuit.gates nss st [o] [O])
    (hs : SingleUse circuit.gates) (hk : values ≠ []) (hS : ShotSetting eigh n st [o] [O]) (fresh : ℕ → String) {ts : List ℝ}
    (hts : ts.length = values.length) :
    ∃ (r₀ : State) (r₁ r₂ : Fin values.length → State), run so circuit st values = .ok (some r₀) ∧
      (∀ i : Fin values.length, ∃ x : ℝ, values[i].2 = .num x ∧
        run so circuit st (values.upd values[i].1 (x + Real.pi / 2)) = .ok (some (r₁ i)) ∧
        run so circuit st (values.upd values[i].1 (x - Real.pi / 2)) = .ok (some (r₂ i))) ∧
      ∀ (Ω κ : Type) [MeasurableSpace Ω] (μ : Measure Ω) (U : Ω → κ → Draw) (split : κ → ℕ → ℕ → κ) (key : κ) (k : ℕ),
        IndepDraws μ U → DistinctKeys split key values.length → 1 ≤ k → ∃ est tan : Ω → ℝ,
          (∀ ω, shotsJvp eigh fresh split (fun key => finiteShotsGates so eigh st [o] (List.ofFn (U ω key k)))
            (.list circuit.gates) values ts key = .ok ([est ω], [tan ω])) ∧
          Var[est; μ] = quantumVariance O (r₀.mat n) / k ∧
          Var[tan; μ] = (∑ i : Fin values.length, ts.getD i 0 ^ 2
            * (quantumVariance O ((r₁ i).mat n) + quantumVariance O ((r₂ i).mat n))) / (4 * k) ∧
          ((∀ i < values.length, ∀ a < 2, split (split key values.length i) 2 a ≠ key) → cov[est, tan; μ] = 0) := by
  have hlen : values.keys.length = values.length := by simp [Values.keys]
  choose r g g1 g2 g3 g4 g5 g6 g7 g8 using fun (p : String) (t : ℝ) => shots_single so eigh hp h hS (h.variant_upd p t)
  obtain ⟨r₀, g₀, k1, k2, k3, k4, k5, k6, k7, -⟩ := shots_single so eigh hp h hS h.variant_self
  refine ⟨r₀, fun i => r values[i].1 (values.real values[i].1 + Real.pi / 2),
    fun i => r values[i].1 (values.real values[i].1 - Real.pi / 2), k1, fun i => ⟨values.real values[i].1,
    congrArg Prod.snd (h.numeric.entry (List.getElem_mem i.2)), g1 _ _, g1 _ _⟩, fun Ω κ _ μ U split key k hU hd hk1 => ?_⟩
  have := (hU.pairwise key k).prob hk1
  have hk0 : (k : ℝ) ≠ 0 := by exact_mod_cast (by omega : k ≠ 0)
  have hA := fun key p t => hU.average hk1 key (g4 p t).1 (g4 p t).2
  have hC : ∀ {key key' : κ} (p t p' t'), key ≠ key' → cov[drawAverage U k key (g p t), drawAverage U k key' (g p' t'); μ] = 0 :=
    fun p t p' t' hne => hU.uncorrelated hk1 hne (g4 p t).1 (g4 p t).2 (g4 p' t').1 (g4 p' t').2
  have hjvp := fun ω => shots_plain_jvp h.numeric hk (extractGateNames_le h.toBaseSetting hs) eigh fresh split
    (F := fun key => finiteShotsGates so eigh st [o] (List.ofFn (U ω key k)))
    (f := fun key p t => drawAverage U k key (g p t) ω) (g := fun key => drawAverage U k key g₀ ω)
    (fun key => k7 k _ hk1) (fun key p _ t => g7 p t k _ hk1) ts (by rw [hts, hlen]) key
  obtain ⟨E, hE⟩ : ∃ E : Fin values.length → Ω → ℝ, E = fun (i : Fin values.length) ω =>
      (drawAverage U k (split (split key values.length i) 2 0) (g values[i].1 (values.real values[i].1 + Real.pi / 2)) ω
        - drawAverage U k (split (split key values.length i) 2 1) (g values[i].1 (values.real values[i].1 - Real.pi / 2)) ω) / 2 :=
    ⟨_, rfl⟩
  have hsum : ∀ ω, (∑ i : Fin values.keys.length,
      (drawAverage U k (split (split key values.keys.length i) 2 0) (g values.keys[i] (values.real values.keys[i] + Real.pi / 2)) ω
        - drawAverage U k (split (split key values.keys.length i) 2 1) (g values.keys[i] (values.real values.keys[i] - Real.pi / 2)) ω)
        / 2 * ts.getD i 0) = ∑ i : Fin values.length, ts.getD i 0 * E i ω := by
    intro ω
    refine Fintype.sum_equiv (finCongr hlen) _ _ fun i => ?_
    have hki : values.keys[i] = values[finCongr hlen i].1 := by
      change (values.map Prod.fst)[(i : ℕ)] = values[(i : ℕ)].1
      rw [List.getElem_map]
    have hsp : split key values.keys.length i = split key values.length i :=
      congrArg (fun m => split key m (i : ℕ)) hlen
    rw [hE, hki, hsp, mul_comm]
    rfl
  have hL : ∀ i, MemLp (E i) 2 μ := fun i => by
    rw [hE]
    have := ((hA (split (split key values.length i) 2 0) values[i].1 (values.real values[i].1 + Real.pi / 2)).1.sub
      (hA (split (split key values.length i) 2 1) values[i].1 (values.real values[i].1 - Real.pi / 2)).1).const_mul (1 / 2 : ℝ)
    refine this.ae_eq (.of_forall fun ω => ?_)
    simp only [Pi.sub_apply]
    ring
  have hV : ∀ i, Var[E i; μ] = (quantumVariance O ((r values[i].1 (values.real values[i].1 + Real.pi / 2)).mat n)
      + quantumVariance O ((r values[i].1 (values.real values[i].1 - Real.pi / 2)).mat n)) / (4 * k) := fun i => by
    rw [hE]
    rw [variance_half (hA _ _ _).1 (hA _ _ _).1 (hC _ _ _ _ fun e => by
      have := (hd i i.2 i i.2 0 (by norm_num) 1 (by norm_num) e).2
      omega), (hA _ _ _).2.2, (hA _ _ _).2.2, g5, g6, g5, g6, quantumVariance, quantumVariance]
    field_simp
  have hcov : ∀ i j, i ≠ j → cov[E i, E j; μ] = 0 := fun i j hij => by
    have hne : ∀ a < 2, ∀ b < 2, split (split key values.length i) 2 a ≠ split (split key values.length j) 2 b :=
      fun a ha b hb e => hij (Fin.ext (hd i i.2 j j.2 a ha b hb e).1)
    rw [hE]
    exact covariance_half (hA _ _ _).1 (hA _ _ _).1 (hA _ _ _).1 (hA _ _ _).1
      (hC _ _ _ _ (hne 0 (by norm_num) 0 (by norm_num))) (hC _ _ _ _ (hne 0 (by norm_num) 1 (by norm_num)))
      (hC _ _ _ _ (hne 1 (by norm_num) 0 (by norm_num))) (hC _ _ _ _ (hne 1 (by norm_num) 1 (by norm_num)))
  have hA0 := hU.average hk1 key k4.1 k4.2
  refine ⟨drawAverage U k key g₀, fun ω => ∑ i : Fin values.length, ts.getD i 0 * E i ω, fun ω => by rw [hjvp ω, hsum ω], ?_, ?_, fun hkey => ?_⟩
  · rw [hA0.2.2, k5, k6, quantumVariance]
  · rw [variance_fun_sum fun i => (hL i).const_mul _]
    have : ∀ i : Fin values.length, ∑ j : Fin values.length, cov[fun ω => ts.getD i 0 * E i ω, fun ω => ts.getD j 0 * E j ω; μ]
        = ts.getD i 0 ^ 2 * Var[E i; μ] := fun i => by
      rw [Finset.sum_eq_single i]
      · rw [covariance_const_mul_left, covariance_const_mul_right, covariance_self (hL i).aemeasurable]
        ring
      · intro j _ hj
        rw [covariance_const_mul_left, covariance_const_mul_right, hcov i j hj.symm, mul_zero, mul_zero]
      · simp
    simp only [this, hV]
    rw [Finset.sum_div]
    exact Finset.sum_congr rfl fun i _ => by rw [mul_div_assoc]
  · rw [covariance_fun_sum_right (fun i => (hL i).const_mul _) hA0.1]
    refine Finset.sum_eq_zero fun i _ => ?_
    rw [covariance_const_mul_right]
    have hu : ∀ a < 2, ∀ p t, cov[drawAverage U k key g₀, drawAverage U k (split (split key values.length i) 2 a) (g p t); μ] = 0 :=
      fun a ha p t => hU.uncorrelated hk1 (hkey i i.2 a ha).symm k4.1 k4.2 (g4 p t).1 (g4 p t).2
    have : cov[drawAverage U k key g₀, E i; μ] = 0 := by
      rw [hE]
      rw [covariance_fun_div_right, covariance_fun_sub_right hA0.1 (hA _ _ _).1 (hA _ _ _).1, hu 0 (by norm_num), hu 1 (by norm_num)]
      norm_num
    rw [this, mul_zero]

/-! ### Shared names -/

theorem plain_prims (gs : List Gate) : (mkSeq (gs.map .prim)).Plain := by
  refine .seq ?_
  induction gs with
  | nil => exact .nil
  | cons g gs ih => exact .cons (.prim g) ih

theorem gates_prims (gs : List Gate) : (mkSeq (gs.map .prim)).gates = gs := by
  change Op.gatesList (gs.map .prim) = gs
  induction gs with
  | nil => rfl
  | cons g gs ih => rw [List.map_cons, Op.gatesList, ih]; rfl

theorem sum_usePlaces (gs : List Gate) (p : String) (f : ℕ → ℝ) :
    ∑ k ∈ usePlaces gs p, f k = ∑ j : Fin (paramIndices gs p).length, f (paramIndices gs p)[j] := by
  classical
  have h1 : usePlaces gs p = (paramIndices gs p).toFinset := by
    ext k
    rw [List.mem_toFinset, mem_paramIndices, usePlaces, Finset.mem_filter, Finset.mem_range]
    exact ⟨fun h => h.2, fun h => ⟨h.1, h⟩⟩
  rw [h1, List.sum_toFinset _ (paramIndices_nodup p), ← List.sum_ofFn]
  congr 1
  refine List.ext_getElem (by simp) fun i h1 h2 => by simp

theorem card_usePlaces (gs : List Gate) (p : String) : (usePlaces gs p).card = (paramIndices gs p).length := by
  have := sum_usePlaces gs p fun _ => 1
  simpa using this

/-- **C105** (backward pass, shared parameter names), for values that are all used by some gate: the `i`-th entry of the
gradient has variance `∑ (V₊ + V₋) / (4 k)`, where the sum is over the gates with the `i`-th name and `V₊`, `V₋` are the
variances of a measurement of `O` after the circuit with that gate turned by `π/2` and `-π/2`; different entries are
uncorrelated. -/
theorem C105_repeated {circuit : Op} (h : Setting so n values circuit.gates nss st [o] [O])
    (hs : ¬ SingleUse circuit.gates) (hall : ∀ p ∈ values.map Prod.fst, ∃ g ∈ circuit.gates, g.Uses p)
    (hr : ∀ g ∈ circuit.gates, g.Registered) (hro : Op.AllRegistered o.ops) (hS : ShotSetting eigh n st [o] [O]) :
    ∃ V : ℕ → ℝ → ℝ,
      (∀ k (hk : k < circuit.gates.length), (∃ p, circuit.gates[k].Uses p) → ∀ δ, ∃ r,
        run so (mkSeq ((circuit.gates.set k (circuit.gates[k].turned δ)).map .prim)) st values = .ok (some r) ∧
          V k δ = quantumVariance O (r.mat n)) ∧
      ∀ (Ω κ : Type) [MeasurableSpace Ω] (μ : Measure Ω) (U : Ω → κ → Draw) (split : κ → ℕ → ℕ → κ) (key : κ) (k : ℕ),
        IndepDraws μ U → DistinctKeysRep split key values.length (fun i =>
          (usePlaces circuit.gates ((values.map Prod.fst).getD i "")).card) → 1 ≤ k → ∃ est : Ω → List ℝ,
          (∀ ω, shotsBwd eigh split (fun key => jittedFiniteShots so eigh st [o] (List.ofFn (U ω key k)))
            (.list circuit.gates) values key = .ok (est ω)) ∧
          (∀ i (hi : i < values.length),
            MemLp (fun ω => (est ω).getD i 0) 2 μ ∧
            Var[fun ω => (est ω).getD i 0; μ]
              = (∑ l ∈ usePlaces circuit.gates values[i].1, (V l (Real.pi / 2) + V l (-(Real.pi / 2)))) / (4 * k)) ∧
          ∀ i j, i ≠ j → cov[fun ω => (est ω).getD i 0, fun ω => (est ω).getD j 0; μ] = 0 := by
  have hlen : values.keys.length = values.length := by simp [Values.keys]
  have hc := h.not_controlled fun g hg _ => hr g hg
  -- the estimates for every turned gate
  have hex : ∀ (l : ℕ) (δ : ℝ), ∃ (V : ℝ) (g : ℝ → ℝ), (IntegrableOn g (Set.Ico 0 1) ∧ IntegrableOn (fun u => g u ^ 2) (Set.Ico 0 1)) ∧
      ((∫ u in Set.Ico (0 : ℝ) 1, g u ^ 2) - (∫ u in Set.Ico (0 : ℝ) 1, g u) ^ 2 = V) ∧
      ∀ (hl : l < circuit.gates.length), (∃ p, circuit.gates[l].Uses p) →
        (∃ r, run so (mkSeq ((circuit.gates.set l (circuit.gates[l].turned δ)).map .prim)) st values = .ok (some r) ∧
          V = quantumVariance O (r.mat n)) ∧
        ∀ (k : ℕ) (u : Fin k → ℝ), 1 ≤ k → jittedFiniteShots so eigh st [o] (List.ofFn u)
          (.list (circuit.gates.set l (circuit.gates[l].turned δ))) values = .ok [(∑ j, g (u j)) / k] := by
    intro l δ
    by_cases hl : ∃ hl : l < circuit.gates.length, ∃ p, circuit.gates[l].Uses p
    · obtain ⟨hl, p, hu⟩ := hl
      have hmem := List.getElem_mem hl
      have hv : Variant n circuit.gates (mkSeq ((circuit.gates.set l (circuit.gates[l].turned δ)).map .prim)).gates values := by
        rw [gates_prims, turned_eq_shifted (hr _ hmem)]
        exact h.variant_shifted (fun g hg _ => hr g hg) hl hu δ
      obtain ⟨r, g, g1, g2, g3, g4, g5, g6, g7, -⟩ := shots_single so eigh (plain_prims _) h hS hv
      refine ⟨quantumVariance O (r.mat n), g, g4, by rw [g5, g6, quantumVariance], fun _ _ => ⟨⟨r, g1, rfl⟩, fun k u hk => ?_⟩⟩
      rw [gates_prims] at g7
      rw [jittedFiniteShots_eq so eigh _ _ (fun g hg => ?_) (by simpa using hro)]
      · exact g7 k u hk
      · rcases List.mem_or_eq_of_mem_set hg with hg | rfl
        · exact hr g hg
        · rw [turned_eq_shifted (hr _ hmem)]
          exact shifted_registered (hr _ hmem) hu δ
    · exact ⟨0, fun _ => 0, ⟨integrableOn_zero, by simp⟩, by simp, fun h1 h2 => absurd ⟨h1, h2⟩ hl⟩
  choose V g g1 g2 g3 using hex
  refine ⟨V, fun k hk hu δ => (g3 k δ hk hu).1, fun Ω κ _ μ U split key k hU hd hk1 => ?_⟩
  have := (hU.pairwise key k).prob hk1
  have hk0 : (k : ℝ) ≠ 0 := by exact_mod_cast (by omega : k ≠ 0)
  have hA := fun key l δ => hU.average hk1 key (g1 l δ).1 (g1 l δ).2
  have hC : ∀ {key key' : κ} (l δ l' δ'), key ≠ key' → cov[drawAverage U k key (g l δ), drawAverage U k key' (g l' δ'); μ] = 0 :=
    fun p t p' t' hne => hU.uncorrelated hk1 hne (g1 p t).1 (g1 p t).2 (g1 p' t').1 (g1 p' t').2
  have hbwd := fun ω => shots_repeated_bwd (gs := circuit.gates) (values := values) (h.names_gt hs hall) (h.hasRepeated_eq hs)
    (h.keys_ne hs) eigh split
    (F := fun key => jittedFiniteShots so eigh st [o] (List.ofFn (U ω key k)))
    (f := fun key l δ => drawAverage U k key (g l δ) ω)
    (alt := fun l δ => circuit.gates.set l (((circuit.gates[l]?).getD (Gate.X (.int 0))).turned δ))
    (fun p _ l hl => by
      obtain ⟨hlt, hu⟩ := mem_paramIndices.1 hl
      have hmem := List.getElem_mem hlt
      obtain ⟨s, hs⟩ := h.std _ hmem
      obtain ⟨sh, R, hR⟩ := hs.named hu
      exact ⟨_, List.getElem?_eq_getElem hlt, hR.gap eigh (hr _ hmem) (hc _ hmem p hu)⟩)
    (fun p _ l hl δ => by
      obtain ⟨hlt, hu⟩ := mem_paramIndices.1 hl
      rw [alter_eq hlt hu, List.getElem?_eq_getElem hlt, Option.getD_some, turned_eq_shifted (hr _ (List.getElem_mem hlt))])
    (fun key p _ l hl δ => by
      obtain ⟨hlt, hu⟩ := mem_paramIndices.1 hl
      rw [List.getElem?_eq_getElem hlt, Option.getD_some]
      exact (g3 l δ hlt ⟨p, hu⟩).2 k _ hk1)
    (fun p hp => by
      obtain ⟨g, hg, hu⟩ := hall p hp
      obtain ⟨l, hl, rfl⟩ := List.mem_iff_getElem.1 hg
      exact List.ne_nil_of_mem (mem_paramIndices.2 ⟨hl, hu⟩)) key
  rw [← hlen] at hd
  have hkey : ∀ i (hi : i < values.keys.length), (usePlaces circuit.gates ((values.map Prod.fst).getD i "")).card
      = (paramIndices circuit.gates values.keys[i]).length := fun i hi => by
    rw [card_usePlaces, ← List.getD_eq_getElem _ "" hi]
    rfl
  have hne : ∀ i (hi : i < values.keys.length) j (hj : j < values.keys.length)
      (a : Fin (paramIndices circuit.gates values.keys[i]).length) (b : Fin (paramIndices circuit.gates values.keys[j]).length),
      ∀ s < 2, ∀ t < 2, ¬ (i = j ∧ (a : ℕ) = b ∧ s = t) →
        split (split (split key values.keys.length i) (paramIndices circuit.gates values.keys[i]).length a) 2 s
          ≠ split (split (split key values.keys.length j) (paramIndices circuit.gates values.keys[j]).length b) 2 t :=
    fun i hi j hj a b s hs t ht hn e => hn (hd i hi j hj a (by beta_reduce; rw [hkey i hi]; exact a.2) b (by beta_reduce; rw [hkey j hj]; exact b.2) s hs t ht (by
      beta_reduce; rw [hkey i hi, hkey j hj]; exact e))
  have hL : ∀ (key key' : κ) l δ δ', MemLp (fun ω => (drawAverage U k key (g l δ) ω - drawAverage U k key' (g l δ') ω) / 2) 2 μ :=
    fun key key' l δ δ' => by
      refine ((((hA key l δ).1.sub (hA key' l δ').1).const_mul (1 / 2 : ℝ))).ae_eq (.of_forall fun ω => ?_)
      simp only [Pi.sub_apply]
      ring
  refine ⟨_, hbwd, fun i hi => ?_, fun i j hij => ?_⟩
  · have hi' : i < values.keys.length := hlen ▸ hi
    have hki : values.keys[i] = values[i].1 := by simp [Values.keys]
    simp only [getD_ofFn hi', Fin.getElem_fin]
    refine ⟨memLp_finset_sum _ fun j _ => hL _ _ _ _ _, ?_⟩
    rw [variance_fun_sum fun j => hL _ _ _ _ _]
    have hj : ∀ j : Fin (paramIndices circuit.gates values.keys[i]).length,
        ∑ j' : Fin (paramIndices circuit.gates values.keys[i]).length,
          cov[fun ω => (drawAverage U k (split (split (split key values.keys.length i) (paramIndices circuit.gates values.keys[i]).length j) 2 0)
              (g (paramIndices circuit.gates values.keys[i])[j] (Real.pi / 2)) ω
            - drawAverage U k (split (split (split key values.keys.length i) (paramIndices circuit.gates values.keys[i]).length j) 2 1)
              (g (paramIndices circuit.gates values.keys[i])[j] (-(Real.pi / 2))) ω) / 2,
            fun ω => (drawAverage U k (split (split (split key values.keys.length i) (paramIndices circuit.gates values.keys[i]).length j') 2 0)
              (g (paramIndices circuit.gates values.keys[i])[j'] (Real.pi / 2)) ω
            - drawAverage U k (split (split (split key values.keys.length i) (paramIndices circuit.gates values.keys[i]).length j') 2 1)
              (g (paramIndices circuit.gates values.keys[i])[j'] (-(Real.pi / 2))) ω) / 2; μ]
        = (V (paramIndices circuit.gates values.keys[i])[j] (Real.pi / 2)
            + V (paramIndices circuit.gates values.keys[i])[j] (-(Real.pi / 2))) / (4 * k) := fun j => by
      rw [Finset.sum_eq_single j]
      · rw [covariance_self (hL _ _ _ _ _).aemeasurable, variance_half (hA _ _ _).1 (hA _ _ _).1
          (hC _ _ _ _ (hne i hi' i hi' j j 0 (by norm_num) 1 (by norm_num) (by omega))), (hA _ _ _).2.2, (hA _ _ _).2.2, g2, g2]
        field_simp
      · intro j' _ hj'
        have hv : (j : ℕ) ≠ j' := fun e => hj' (Fin.ext e.symm)
        exact covariance_half (hA _ _ _).1 (hA _ _ _).1 (hA _ _ _).1 (hA _ _ _).1
          (hC _ _ _ _ (hne i hi' i hi' j j' 0 (by norm_num) 0 (by norm_num) (by omega)))
          (hC _ _ _ _ (hne i hi' i hi' j j' 0 (by norm_num) 1 (by norm_num) (by omega)))
          (hC _ _ _ _ (hne i hi' i hi' j j' 1 (by norm_num) 0 (by norm_num) (by omega)))
          (hC _ _ _ _ (hne i hi' i hi' j j' 1 (by norm_num) 1 (by norm_num) (by omega)))
      · simp
    refine (Finset.sum_congr rfl fun j _ => hj j).trans ?_
    rw [← Finset.sum_div, ← hki, sum_usePlaces circuit.gates values.keys[i] fun l => V l (Real.pi / 2) + V l (-(Real.pi / 2))]
  · rcases lt_or_ge i values.keys.length with hi | hi
    · rcases lt_or_ge j values.keys.length with hj | hj
      · simp only [getD_ofFn hi, getD_ofFn hj]
        rw [covariance_fun_sum_fun_sum (fun a => hL _ _ _ _ _) fun b => hL _ _ _ _ _]
        refine Finset.sum_eq_zero fun a _ => Finset.sum_eq_zero fun b _ => ?_
        exact covariance_half (hA _ _ _).1 (hA _ _ _).1 (hA _ _ _).1 (hA _ _ _).1
          (hC _ _ _ _ (hne i hi j hj a b 0 (by norm_num) 0 (by norm_num) fun e => hij e.1))
          (hC _ _ _ _ (hne i hi j hj a b 0 (by norm_num) 1 (by norm_num) fun e => hij e.1))
          (hC _ _ _ _ (hne i hi j hj a b 1 (by norm_num) 0 (by norm_num) fun e => hij e.1))
          (hC _ _ _ _ (hne i hi j hj a b 1 (by norm_num) 1 (by norm_num) fun e => hij e.1))
      · simp only [getD_ofFn_ge hj]
        exact covariance_const_right _
    · simp only [getD_ofFn_ge hi]
      exact covariance_const_left _

/-! ### Non-vacuity -/

/-- Independent draws exist, for every set of keys. -/
theorem indepDraws_exists (κ : Type) : ∃ (Ω : Type) (_ : MeasurableSpace Ω) (μ : Measure Ω) (U : Ω → κ → Draw), IndepDraws μ U := by
  have : IsProbabilityMeasure (volume.restrict (Set.Ico (0 : ℝ) 1)) :=
    ⟨by rw [Measure.restrict_apply_univ, Real.volume_Ico]; norm_num⟩
  refine ⟨κ × ℕ × ℕ → ℝ, inferInstance, Measure.infinitePi fun _ => volume.restrict (Set.Ico (0 : ℝ) 1),
    fun ω key k j => ω (key, k, j), fun key k j => measurePreserving_eval_infinitePi _ (key, k, (j : ℕ)), fun k e e' hne => ?_⟩
  have h := iIndepFun_infinitePi (P := fun _ : κ × ℕ × ℕ => volume.restrict (Set.Ico (0 : ℝ) 1)) (X := fun _ => id) fun _ => measurable_id
  refine h.indepFun (i := (e.1, k, (e.2 : ℕ))) (j := (e'.1, k, (e'.2 : ℕ))) fun he => hne ?_
  have h1 := congrArg Prod.fst he
  have h2 := congrArg (fun z : κ × ℕ × ℕ => z.2.2) he
  exact Prod.ext h1 (Fin.ext h2)

/-- Keys that record how they were split. -/
theorem distinctKeys_exists (m : ℕ) : DistinctKeys (κ := List (ℕ × ℕ)) (fun key m i => (m, i) :: key) [] m ∧
    ∀ i < m, ∀ a < 2, (2, a) :: (m, i) :: ([] : List (ℕ × ℕ)) ≠ [] :=
  ⟨fun i _ j _ a _ b _ e => by simp at e; exact ⟨e.2, e.1⟩, by simp⟩

/-- Non-vacuity of C105: the hypotheses are met by the circuit of C23, `|0⟩` and `Z(0)`, with eigenvalues in `[-1, 1]`. -/
example : gradCircuit.Plain ∧ Setting so 1 gradValues gradCircuit.gates [[], [.bitFlip (1 / 4)], []] (.vec zero1) [obsZ]
      [gateMat 1 StdGate.Z.mat [0] []] ∧ SingleUse gradCircuit.gates ∧ gradValues ≠ [] ∧
    (∀ g ∈ gradCircuit.gates, g.Registered) ∧ Op.AllRegistered obsZ.ops ∧
    ShotSetting eigh 1 (.vec zero1) [obsZ] [gateMat 1 StdGate.Z.mat [0] []] ∧
    SpectrumIn (gateMat 1 StdGate.Z.mat [0] []) (-1) 1 ∧
    ∃ (Ω κ : Type) (_ : MeasurableSpace Ω) (μ : Measure Ω) (U : Ω → κ → Draw) (split : κ → ℕ → ℕ → κ) (key : κ),
      IndepDraws μ U ∧ DistinctKeys split key gradValues.length := by
  obtain ⟨Ω, m, μ, U, hU⟩ := indepDraws_exists (List (ℕ × ℕ))
  refine ⟨.seq (.cons (.prim _) (.cons (.prim _) (.cons (.prim _) .nil))), gradSetting so, ?_, by simp [gradValues], ?_,
    obsZ_registered _ (by simp), shotSettingZ eigh, flip_spectrum.2, Ω, _, m, μ, U, _, [], hU, (distinctKeys_exists _).1⟩
  · rw [gradCircuit_gates, SingleUse]
    simp only [List.pairwise_cons, List.mem_cons, List.not_mem_nil, or_false, forall_eq_or_imp, forall_eq]
    simp [Gate.Uses, Gate.RX, Gate.RY, Gate.H, mkGate]
  · rw [gradCircuit_gates]
    simp [Gate.Registered, Gate.RX, Gate.RY, Gate.H, mkGate]

/-- Non-vacuity of `C105_repeated`: the circuit of C24, whose name `a` is used twice. -/
example (x : ℝ) : Setting so 1 [("a", .num x)] twiceRX.gates [[], []] (.vec zero1) [obsZ] [gateMat 1 StdGate.Z.mat [0] []] ∧
    ¬ SingleUse twiceRX.gates ∧ (∀ p ∈ [("a", PyVal.num x)].map Prod.fst, ∃ g ∈ twiceRX.gates, g.Uses p) ∧
    (∀ g ∈ twiceRX.gates, g.Registered) ∧ usePlaces twiceRX.gates "a" = {0, 1} ∧
    ∀ (m : ℕ) (c : ℕ → ℕ), DistinctKeysRep (κ := List (ℕ × ℕ)) (fun key m i => (m, i) :: key) [] m c := by
  refine ⟨twiceSetting so ⟨by simp, by simp⟩ rfl, twice_not_single, ?_, twice_registered, ?_,
    fun m c i _ j _ a _ b _ s _ t _ e => by simp at e; exact ⟨e.2.2, e.2.1.2, e.1⟩⟩
  · simp only [List.map_cons, List.map_nil, List.mem_singleton, forall_eq]
    exact ⟨Gate.RX (.str "a") (.int 0), by simp [twiceRX_gates], rfl⟩
  · classical
    ext k
    rw [usePlaces, twiceRX_gates, Finset.mem_filter, Finset.mem_range]
    simp only [List.length_cons, List.length_nil, Finset.mem_insert, Finset.mem_singleton]
    constructor
    · rintro ⟨h, -⟩; omega
    · rintro (rfl | rfl)
      · exact ⟨by omega, by omega, rfl⟩
      · exact ⟨by omega, by omega, rfl⟩

end Verif
