import Mathlib.Probability.Moments.Covariance
import Verif.AbsKeys
import Verif.Lemmas.Statistics
import Verif.Lemmas.GpsrPlain

/-! # Second moments of parameter-shift estimates -/

namespace Verif
set_option autoImplicit false
open MeasureTheory ProbabilityTheory

section
variable {Ω κ : Type} [MeasurableSpace Ω] {μ : Measure Ω} {U : Ω → κ → Draw}

theorem IndepDraws.pairwise (h : IndepDraws μ U) (key : κ) (k : ℕ) : PairwiseUniform μ fun ω => U ω key k :=
  ⟨fun j => h.uniform key k j, fun i j hij => h.indep k (i := (key, i)) (j := (key, j)) fun e => hij (congrArg Prod.snd e)⟩

/-- The average of a function of the numbers drawn. -/
noncomputable def drawAverage (U : Ω → κ → Draw) (k : ℕ) (key : κ) (f : ℝ → ℝ) (ω : Ω) : ℝ := (∑ j, f (U ω key k j)) / k

theorem IndepDraws.average (h : IndepDraws μ U) {k : ℕ} (hk : 1 ≤ k) (key : κ) {f : ℝ → ℝ} (hf : IntegrableOn f (Set.Ico 0 1))
    (hf2 : IntegrableOn (fun u => f u ^ 2) (Set.Ico 0 1)) :
    MemLp (drawAverage U k key f) 2 μ ∧
    ∫ ω, drawAverage U k key f ω ∂μ = ∫ u in Set.Ico (0 : ℝ) 1, f u ∧
    Var[drawAverage U k key f; μ]
      = ((∫ u in Set.Ico (0 : ℝ) 1, f u ^ 2) - (∫ u in Set.Ico (0 : ℝ) 1, f u) ^ 2) / k :=
  average_stats (h.pairwise key k) hk hf hf2

/-- Averages of numbers drawn with different keys are uncorrelated. -/
theorem IndepDraws.uncorrelated (h : IndepDraws μ U) {k : ℕ} (hk : 1 ≤ k) {key key' : κ} (hne : key ≠ key') {f g : ℝ → ℝ}
    (hf : IntegrableOn f (Set.Ico 0 1)) (hf2 : IntegrableOn (fun u => f u ^ 2) (Set.Ico 0 1))
    (hg : IntegrableOn g (Set.Ico 0 1)) (hg2 : IntegrableOn (fun u => g u ^ 2) (Set.Ico 0 1)) :
    cov[drawAverage U k key f, drawAverage U k key' g; μ] = 0 := by
  have := (h.pairwise key k).prob hk
  have hL : ∀ (f : ℝ → ℝ), IntegrableOn f (Set.Ico 0 1) → IntegrableOn (fun u => f u ^ 2) (Set.Ico 0 1) → ∀ key (j : Fin k),
      MemLp (fun ω => f (U ω key k j)) 2 μ := fun f hf hf2 key j => by
    have h1 : MemLp f 2 (volume.restrict (Set.Ico 0 1)) := (memLp_two_iff_integrable_sq hf.aestronglyMeasurable).2 hf2
    exact h1.comp_measurePreserving (h.uniform key k j)
  change cov[fun ω => (∑ j, f (U ω key k j)) / k, fun ω => (∑ j, g (U ω key' k j)) / k; μ] = 0
  rw [covariance_fun_div_left, covariance_fun_div_right,
    covariance_fun_sum_fun_sum (fun j => hL f hf hf2 key j) (fun j => hL g hg hg2 key' j)]
  rw [Finset.sum_eq_zero fun i _ => Finset.sum_eq_zero fun j _ => ?_, zero_div, zero_div]
  refine IndepFun.covariance_eq_zero ?_ (hL f hf hf2 key i) (hL g hg hg2 key' j)
  refine (h.indep k (i := (key, i)) (j := (key', j)) fun e => hne (congrArg Prod.fst e)).comp₀
    (h.uniform key k i).measurable.aemeasurable (h.uniform key' k j).measurable.aemeasurable ?_ ?_
  · rw [(h.uniform key k i).map_eq]; exact hf.aemeasurable
  · rw [(h.uniform key' k j).map_eq]; exact hg.aemeasurable

end

section
variable {κ : Type} {values : Values} {gs : List Gate}

theorem zip_splitKeys_eq (split : κ → ℕ → ℕ → κ) (key : κ) (l : List String) :
    l.zip (splitKeys split key l.length) = List.ofFn fun i : Fin l.length => (l[i], split key l.length i) := by
  refine List.ext_getElem (by simp [splitKeys]) fun i h1 h2 => ?_
  simp [splitKeys]

/-- The backward pass for estimates that are single numbers. -/
theorem shots_plain_bwd (h : values.Numeric) (hk : values ≠ []) (hle : (extractGateNames gs).length ≤ values.keys.length)
    (eigh : Eigh) (split : κ → ℕ → ℕ → κ) {F : κ → GateArg → Values → Py (List ℝ)} {f : κ → String → ℝ → ℝ}
    (hF : ∀ key, ∀ p ∈ values.keys, ∀ t, F key (.list gs) (values.upd p t) = .ok [f key p t]) (key : κ) :
    shotsBwd eigh split F (.list gs) values key = .ok (List.ofFn fun i : Fin values.keys.length =>
      (f (split (split key values.keys.length i) 2 0) values.keys[i] (values.real values.keys[i] + Real.pi / 2)
        - f (split (split key values.keys.length i) 2 1) values.keys[i] (values.real values.keys[i] - Real.pi / 2)) / 2) := by
  have hm : ((values.keys.zip (splitKeys split key values.keys.length)).mapM fun e => do
        pure (some (← shotsComponent split F (.list gs) values e.1 e.2)))
      = Except.ok (ε := Err) ((values.keys.zip (splitKeys split key values.keys.length)).map fun e =>
        some [(f (split e.2 2 0) e.1 (values.real e.1 + Real.pi / 2) - f (split e.2 2 1) e.1 (values.real e.1 - Real.pi / 2)) / 2]) :=
    mapM_ok_map fun e he => by
      have hp : e.1 ∈ values.keys := (List.of_mem_zip he).1
      have hx := h.real hp
      simp only [shotsComponent, Values.shiftKey_eq hx, bind, Except.bind, hF _ e.1 hp]
      rw [initialGap, gpsrRule_two, gpsrShift, sub_eq_add_neg (values.real e.1)]
      rfl
  rw [shotsBwd]
  simp only [if_neg (not_lt.2 hle)]
  rw [hm]
  have hne : values.keys.zip (splitKeys split key values.keys.length) ≠ [] := by
    intro e
    have hl := congrArg List.length e
    simp [splitKeys, Values.keys] at hl
    exact hk hl
  refine (stackSum_some _ hne _).trans ?_
  rw [zip_splitKeys_eq, List.map_ofFn]
  congr 2
  funext i
  simp

/-- The JVP for estimates that are single numbers. -/
theorem shots_plain_jvp (h : values.Numeric) (hk : values ≠ []) (hle : (extractGateNames gs).length ≤ values.keys.length)
    (eigh : Eigh) (fresh : ℕ → String) (split : κ → ℕ → ℕ → κ) {F : κ → GateArg → Values → Py (List ℝ)}
    {f : κ → String → ℝ → ℝ} {g : κ → ℝ} (hfwd : ∀ key, F key (.list gs) values = .ok [g key])
    (hF : ∀ key, ∀ p ∈ values.keys, ∀ t, F key (.list gs) (values.upd p t) = .ok [f key p t]) (ts : List ℝ)
    (hts : ts.length = values.keys.length) (key : κ) :
    shotsJvp eigh fresh split F (.list gs) values ts key = .ok ([g key], [∑ i : Fin values.keys.length,
      (f (split (split key values.keys.length i) 2 0) values.keys[i] (values.real values.keys[i] + Real.pi / 2)
        - f (split (split key values.keys.length i) 2 1) values.keys[i] (values.real values.keys[i] - Real.pi / 2)) / 2
        * ts.getD i 0]) := by
  have hscan : shotsScan split F (.list gs) values.keys (values.keys.map values.real)
      (values.keys.map fun _ => initialGap) key = .ok (List.ofFn fun i : Fin values.keys.length =>
      [(f (split (split key values.keys.length i) 2 0) values.keys[i] (values.real values.keys[i] + Real.pi / 2)
        - f (split (split key values.keys.length i) 2 1) values.keys[i] (values.real values.keys[i] - Real.pi / 2)) / 2]) := by
    rw [shotsScan]
    have hz : (List.range values.keys.length).zip (splitKeys split key values.keys.length)
        = List.ofFn fun i : Fin values.keys.length => ((i : ℕ), split key values.keys.length i) :=
      List.ext_getElem (by simp [splitKeys]) fun i h1 h2 => by simp [splitKeys]
    rw [hz]
    refine (mapM_forall₂ (g := id) (l' := List.ofFn fun i : Fin values.keys.length =>
      [(f (split (split key values.keys.length i) 2 0) values.keys[i] (values.real values.keys[i] + Real.pi / 2)
        - f (split (split key values.keys.length i) 2 1) values.keys[i] (values.real values.keys[i] - Real.pi / 2)) / 2])
      (List.forall₂_iff_get.2 ⟨by simp, fun i h1 h2 => ?_⟩)).trans (by rw [List.map_id])
    have hi : i < values.keys.length := by simpa using h1
    simp only [List.get_eq_getElem, List.getElem_ofFn, id]
    have hgap : (values.keys.map fun _ => initialGap).getD i 0 = 2 := by
      simp [List.getD_eq_getElem?_getD, hi, initialGap]
    rw [shotsRow, hgap]
    simp only [shiftAt_eq h hi, hF _ _ (List.getElem_mem hi), bind, Except.bind]
    rw [gpsrRule_two, gpsrShift, sub_eq_add_neg (values.real _)]
    rfl
  rw [shotsJvp, hfwd]
  simp only [bind, Except.bind, if_neg (not_lt.2 hle), stackValues_eq h hk, hscan]
  refine congrArg (fun z => Except.ok ([g key], z)) ?_
  rw [contract]
  simp only [List.length_singleton, List.ofFn_succ, List.ofFn_zero]
  congr 1
  refine Eq.trans (congrArg List.sum (List.ext_getElem (l₂ := List.ofFn fun i : Fin values.keys.length =>
      (f (split (split key values.keys.length i) 2 0) values.keys[i] (values.real values.keys[i] + Real.pi / 2)
        - f (split (split key values.keys.length i) 2 1) values.keys[i] (values.real values.keys[i] - Real.pi / 2)) / 2
        * ts.getD i 0) (by simp [hts]) fun i h1 h2 => ?_)) List.sum_ofFn
  have hi : i < ts.length := by rw [hts]; simpa using h2
  simp [List.getD_eq_getElem?_getD, hi]

/-- One entry of the backward pass for a shared name. -/
theorem shots_repeated_entry (eigh : Eigh) (split : κ → ℕ → ℕ → κ) {F : κ → GateArg → Values → Py (List ℝ)} {f : κ → ℕ → ℝ → ℝ}
    {p : String} (hgap : ∀ k ∈ paramIndices gs p, ∃ g, gs[k]? = some g ∧ g.spectralGap eigh = .ok 2)
    {alt : ℕ → ℝ → List Gate} (halt : ∀ k ∈ paramIndices gs p, ∀ δ, alterGateSequence gs k δ = .ok (alt k δ))
    (hF : ∀ key, ∀ k ∈ paramIndices gs p, ∀ δ, F key (.list (alt k δ)) values = .ok [f key k δ])
    (hne : paramIndices gs p ≠ []) (key : κ) :
    shotsRepeatedJvp eigh split F gs values p key = .ok (some [∑ j : Fin (paramIndices gs p).length,
      (f (split (split key (paramIndices gs p).length j) 2 0) (paramIndices gs p)[j] (Real.pi / 2)
        - f (split (split key (paramIndices gs p).length j) 2 1) (paramIndices gs p)[j] (-(Real.pi / 2))) / 2]) := by
  have hm : ((paramIndices gs p).zip (splitKeys split key (paramIndices gs p).length)).mapM
        (fun e => shotsShiftJvp eigh split F gs values e.1 e.2)
      = Except.ok (ε := Err) (((paramIndices gs p).zip (splitKeys split key (paramIndices gs p).length)).map fun e =>
        [()].map fun _ => (f (split e.2 2 0) e.1 (Real.pi / 2) - f (split e.2 2 1) e.1 (-(Real.pi / 2))) / 2) :=
    mapM_ok_map fun e he => by
      have hk : e.1 ∈ paramIndices gs p := (List.of_mem_zip he).1
      obtain ⟨g, g1, g2⟩ := hgap _ hk
      rw [shotsShiftJvp]
      simp only [g1, g2, halt _ hk, hF _ _ hk, bind, Except.bind]
      rw [gpsrRule_two, gpsrShift]
      rfl
  have hz : (paramIndices gs p).zip (splitKeys split key (paramIndices gs p).length)
      = List.ofFn fun j : Fin (paramIndices gs p).length => ((paramIndices gs p)[j], split key (paramIndices gs p).length j) :=
    List.ext_getElem (by simp [splitKeys]) fun i h1 h2 => by simp [splitKeys]
  rw [shotsRepeatedJvp]
  rw [hm]
  simp only [bind, Except.bind, pure, Except.pure]
  rw [sumVecs_map _ (by rw [hz]; simpa using hne), hz, List.map_ofFn, List.sum_ofFn]
  rfl

/-- The backward pass for shared names and estimates that are single numbers. -/
theorem shots_repeated_bwd (hgt : values.keys.length < (extractGateNames gs).length)
    (hrep : hasRepeated gs values.keys = .ok true) (hk : values.keys ≠ [])
    (eigh : Eigh) (split : κ → ℕ → ℕ → κ) {F : κ → GateArg → Values → Py (List ℝ)} {f : κ → ℕ → ℝ → ℝ}
    (hgap : ∀ p ∈ values.keys, ∀ k ∈ paramIndices gs p, ∃ g, gs[k]? = some g ∧ g.spectralGap eigh = .ok 2)
    {alt : ℕ → ℝ → List Gate} (halt : ∀ p ∈ values.keys, ∀ k ∈ paramIndices gs p, ∀ δ, alterGateSequence gs k δ = .ok (alt k δ))
    (hF : ∀ key, ∀ p ∈ values.keys, ∀ k ∈ paramIndices gs p, ∀ δ, F key (.list (alt k δ)) values = .ok [f key k δ])
    (hne : ∀ p ∈ values.keys, paramIndices gs p ≠ []) (key : κ) :
    shotsBwd eigh split F (.list gs) values key = .ok (List.ofFn fun i : Fin values.keys.length =>
      ∑ j : Fin (paramIndices gs values.keys[i]).length,
        (f (split (split (split key values.keys.length i) (paramIndices gs values.keys[i]).length j) 2 0)
            (paramIndices gs values.keys[i])[j] (Real.pi / 2)
          - f (split (split (split key values.keys.length i) (paramIndices gs values.keys[i]).length j) 2 1)
            (paramIndices gs values.keys[i])[j] (-(Real.pi / 2))) / 2) := by
  have hm := mapM_ok_map (l := values.keys.zip (splitKeys split key values.keys.length))
    (f := fun e => shotsRepeatedJvp eigh split F gs values e.1 e.2) fun e he => by
      have hp : e.1 ∈ values.keys := (List.of_mem_zip he).1
      exact shots_repeated_entry (values := values) eigh split (hgap _ hp) (halt _ hp) (fun key => hF key _ hp) (hne _ hp) e.2
  rw [shotsBwd]
  simp only [if_pos hgt, hrep, bind, Except.bind, if_true]
  rw [hm]
  have hz : values.keys.zip (splitKeys split key values.keys.length) ≠ [] := by
    intro e
    have hl := congrArg List.length e
    simp [splitKeys] at hl
    exact hk hl
  refine (stackSum_some _ hz _).trans ?_
  rw [zip_splitKeys_eq, List.map_ofFn]
  congr 2
  funext i
  simp

end

end Verif
