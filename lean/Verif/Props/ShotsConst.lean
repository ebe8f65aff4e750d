import Mathlib.Analysis.Calculus.FDeriv.Congr
import Verif.Props.Smooth
import Verif.Props.GpsrShots

/-!
# C86: finite-shot estimates as functions of the parameters

For given random numbers the estimate is constant near almost every parameter vector, so that automatic differentiation, which
differentiates the executed program with its random numbers fixed, cannot see the gradient.
-/

set_option autoImplicit false

namespace Verif
open NDArray MeasureTheory
open scoped ComplexOrder Topology
variable {n : ℕ} (so : SetOrder) (eigh : Eigh)
  {nss : List (List StdNoise)} {st : State} {obs : List Observable}

/-- If no partial sum equals the threshold, the index drawn does not change under small changes of the probabilities. -/
theorem choiceIndex_eventually {E : Type} [TopologicalSpace E] {p : E → List ℝ} {d : ℕ} (hd : ∀ y, (p y).length = d) {x : E}
    (hc : ∀ i, ContinuousAt (fun y => ((p y).take i).sum) x) {u : ℝ}
    (hu : ∀ i < d, ((p x).take (i + 1)).sum ≠ (p x).sum * (1 - u)) :
    ∀ᶠ y in 𝓝 x, choiceIndex (p y) u = choiceIndex (p x) u := by
  have hs : ContinuousAt (fun y => (p y).sum * (1 - u)) x := by
    have := hc d
    simp only [List.take_of_length_le (hd _).le] at this
    exact this.mul continuousAt_const
  have hev : ∀ i < d, ∀ᶠ y in 𝓝 x, (((p y).take (i + 1)).sum < (p y).sum * (1 - u) ↔ ((p x).take (i + 1)).sum < (p x).sum * (1 - u)) := by
    intro i hi
    rcases lt_or_gt_of_ne (hu i hi) with h | h
    · filter_upwards [(hc (i + 1)).eventually_lt hs h] with y hy
      exact ⟨fun _ => h, fun _ => hy⟩
    · filter_upwards [hs.eventually_lt (hc (i + 1)) h] with y hy
      exact ⟨fun h' => absurd h' (not_lt.2 hy.le), fun h' => absurd h' (not_lt.2 h.le)⟩
  have hall : ∀ᶠ y in 𝓝 x, ∀ i ∈ Finset.range d, (((p y).take (i + 1)).sum < (p y).sum * (1 - u) ↔ ((p x).take (i + 1)).sum < (p x).sum * (1 - u)) :=
    (Filter.eventually_all_finset _).2 fun i hi => hev i (Finset.mem_range.1 hi)
  filter_upwards [hall] with y hy
  rw [choiceIndex_eq_range, choiceIndex_eq_range, hd, hd]
  refine congrArg _ (List.filter_congr fun i hi => ?_)
  have := hy i (Finset.mem_range.2 (List.mem_range.1 hi))
  simp only [decide_eq_decide]
  exact this

/-- **C86**: the finite-shot estimates `F y u` as functions of the parameters `y`, for the random numbers `u`.  At every parameter
vector, with probability one, they do not change under small changes of the parameters, so that their derivative is zero. -/
theorem C86_constant {circuit : Op} (hp : circuit.Plain) (hne : circuit.gates ≠ []) (hn : List.Forall₂ Gate.NoiseIs circuit.gates nss)
    {names : List String} (hnd : names.Nodup) (x : Fin names.length → ℝ)
    (hstd : ∀ g ∈ circuit.gates, ∃ s, g.Std n (dictAt names x) s) (hst : st.On n) (hpos : (st.mat n).PosSemidef)
    (htr : (st.mat n).trace = 1) {Os : List (Matrix (Lab n) (Lab n) ℂ)} (hobs : obs ≠ [])
    (ho : ∀ v, List.Forall₂ (fun o O => Op.ListedSum (StdLeaf n v) v o.ops O) obs Os) {k : ℤ} (hk : 1 ≤ k)
    {mode : DiffMode} (hm : mode = .ad ∨ mode = .gpsr) :
    ∃ F : (Fin names.length → ℝ) → (Fin k.toNat → ℝ) → List ℝ,
      (∀ y (draw : Draw), expectation so eigh draw st circuit obs (dictAt names y) mode k = .ok (F y (draw k.toNat))) ∧
      (∀ y u, (F y u).length = obs.length) ∧
      ∀ (Ω : Type) [MeasurableSpace Ω] (μ : Measure Ω) (U : Ω → Fin k.toNat → ℝ),
        (∀ j, MeasurePreserving (fun ω => U ω j) μ (volume.restrict (Set.Ico 0 1))) →
        ∀ᵐ ω ∂μ, (∀ᶠ y in 𝓝 x, F y (U ω) = F x (U ω)) ∧ ∀ i, HasFDerivAt (fun y => (F y (U ω)).getD i 0) (0 : (Fin names.length → ℝ) →L[ℝ] ℝ) x := by
  have hu : ∀ g ∈ circuit.gates, ∀ p, g.Uses p → p ∈ names := by
    intro g hg p hgp
    obtain ⟨s, hs⟩ := hstd g hg
    obtain ⟨y, hy⟩ := hs.lookup hgp
    by_contra hno
    rw [lookup_none (by rw [Values.keys, dictAt_keys]; exact hno)] at hy
    cases hy
  have hsv : SmoothValues 0 (dictAt names) names := by
    intro p hp
    obtain ⟨j, hj, rfl⟩ := List.getElem_of_mem hp
    exact ⟨fun x => x ⟨j, hj⟩, contDiff_apply ℝ ℝ _, fun x => dictAt_lookup hnd x ⟨j, hj⟩⟩
  have hstd' : ∀ y, ∀ g ∈ circuit.gates, ∃ s, g.Std n (dictAt names y) s := fun y g hg =>
    ((hstd g hg).choose_spec.smooth hsv (hu g hg)).1 y
  have hcirc : ∀ y, circuit.Circuit n (dictAt names y) nss := fun y =>
    ⟨hp, hne, fun g hg => (hstd' y g hg).choose_spec.ok, hn⟩
  let ρ : (Fin names.length → ℝ) → Matrix (Lab n) (Lab n) ℂ := fun y =>
    noisyRun n .unitary (dictAt names y) (circuit.gates.zip nss) (st.mat n)
  have hrun : ∀ y, ∃ r, applyOps so st circuit.iter (dictAt names y) = .ok r ∧ r.On n ∧ r.mat n = ρ y ∧ (r.mat n).PosSemidef ∧ (r.mat n).trace = 1 := by
    intro y
    obtain ⟨r, h1, h2, h3⟩ := circuit_run so (hcirc y) hst
    obtain ⟨r', h1', -, -, h5, h6⟩ := run_physical so (hcirc y) (hstd' y) hst hpos
    rw [h1] at h1'
    cases h1'
    exact ⟨r, h2, h3.on, h3.mat hn, h5, h6.trans htr⟩
  have hcont : ∀ i j, Continuous fun y => ρ y i j := by
    intro i j
    have : EntrySmooth 0 ρ := noisyRun_smooth _ (fun e he => by
      have := (List.of_mem_zip he).1
      exact ((hstd _ this).choose_spec.smooth hsv (hu _ this)).2) (EntrySmooth.const _)
    exact (this i j).continuous
  cases Os with
  | nil =>
    have := ho []
    cases this
    exact absurd rfl hobs
  | cons O Os =>
  let V := eigh.vecs (numMat O)
  let P : (Fin names.length → ℝ) → List ℝ := fun y => shotProbs V (ρ y)
  have hP : ∀ y, (P y).length = 2 ^ n := fun y => by simp [P, shotProbs]
  have hPc : ∀ i, Continuous fun y => ((P y).take i).sum := by
    intro i
    have he : ∀ y, ((P y).take i).sum
        = (((List.finRange (2 ^ n)).take i).map fun a => ((V.conjTranspose * numMat (ρ y) * V) a a).re).sum := by
      intro y
      rw [List.map_take, ← List.ofFn_eq_map]
      rfl
    simp only [he]
    refine continuous_list_sum _ fun a _ => Complex.continuous_re.comp ?_
    simp only [Matrix.mul_apply]
    refine continuous_finset_sum _ fun b _ => Continuous.mul (continuous_finset_sum _ fun c _ => ?_) continuous_const
    exact continuous_const.mul (hcont _ _)
  refine ⟨fun y u => (O :: Os).map fun O' => (∑ j, pick (P y)
      (alignedEigenvalues (eigh.vals (numMat O')) (eigh.vecs (numMat O')) V) (u j)) / k.toNat, fun y draw => ?_, fun y u => ?_, ?_⟩
  · obtain ⟨r, h1, h2, h3, -⟩ := hrun y
    rw [expectation_shots so eigh h1 h2 (ho _) draw hk hm, h3]
  · rw [List.length_map, (ho []).length_eq]
  · intro Ω _ μ U hU
    have hsum : (P x).sum = 1 := by
      obtain ⟨r, -, -, h3, h4, h5⟩ := hrun x
      have := (shotProbs_facts eigh (A := O) h4).2
      rw [h5, h3] at this
      simpa using this
    have hbad : ∀ j, ∀ᵐ ω ∂μ, ∀ i ∈ Finset.range (2 ^ n), ((P x).take (i + 1)).sum ≠ (P x).sum * (1 - U ω j) := by
      intro j
      refine (ae_ball_iff (Finset.countable_toSet _)).2 fun i _ => ?_
      have h0 : ∀ᵐ u ∂(volume.restrict (Set.Ico (0:ℝ) 1)), u ≠ 1 - ((P x).take (i + 1)).sum :=
        ae_restrict_of_ae (Measure.ae_ne volume _)
      have := (hU j).quasiMeasurePreserving.ae h0
      filter_upwards [this] with ω hω h
      rw [hsum, one_mul] at h
      exact hω (by linarith)
    filter_upwards [ae_all_iff.2 hbad] with ω hω
    have hev : ∀ᶠ y in 𝓝 x, ∀ j, choiceIndex (P y) (U ω j) = choiceIndex (P x) (U ω j) :=
      Filter.eventually_all.2 fun j => choiceIndex_eventually hP (fun i => (hPc i).continuousAt)
        fun i hi => hω j i (Finset.mem_range.2 hi)
    have hF : ∀ᶠ y in 𝓝 x, ((O :: Os).map fun O' => (∑ j, pick (P y)
          (alignedEigenvalues (eigh.vals (numMat O')) (eigh.vecs (numMat O')) V) (U ω j)) / k.toNat)
        = ((O :: Os).map fun O' => (∑ j, pick (P x)
          (alignedEigenvalues (eigh.vals (numMat O')) (eigh.vecs (numMat O')) V) (U ω j)) / k.toNat) := by
      filter_upwards [hev] with y hy
      refine List.map_congr_left fun O' _ => ?_
      refine congrArg (· / (k.toNat : ℝ)) (Finset.sum_congr rfl fun j _ => ?_)
      simp only [pick, hy j]
    refine ⟨hF, fun i => ?_⟩
    refine HasFDerivAt.congr_of_eventuallyEq (hasFDerivAt_const (((O :: Os).map fun O' => (∑ j, pick (P x)
          (alignedEigenvalues (eigh.vals (numMat O')) (eigh.vecs (numMat O')) V) (U ω j)) / k.toNat).getD i 0) x) ?_
    filter_upwards [hF] with y hy
    exact congrArg (fun l => List.getD l i 0) hy

/-- **C86** (the gradient is lost): for two rotations by the same angle `a`, the energy has the derivative `-2` at `a = π/4`.  The
estimate from any number of shots in AD mode has, with probability one, the derivative `0` there. -/
theorem C86_gradient_lost (draw : Draw) :
    IsPartial (fun v => expectation so eigh draw (.vec zero1) twiceRX [obsZ] v .ad 0) [("a", .num (Real.pi / 4))] "a" [-2] ∧
    ∀ k : ℤ, 1 ≤ k → ∃ F : ℝ → (Fin k.toNat → ℝ) → ℝ,
      (∀ t (draw : Draw), expectation so eigh draw (.vec zero1) twiceRX [obsZ] [("a", .num t)] .ad k = .ok [F t (draw k.toNat)]) ∧
      ∀ (Ω : Type) [MeasurableSpace Ω] (μ : Measure Ω) (U : Ω → Fin k.toNat → ℝ),
        (∀ j, MeasurePreserving (fun ω => U ω j) μ (volume.restrict (Set.Ico 0 1))) →
        ∀ᵐ ω ∂μ, HasDerivAt (fun t => F t (U ω)) 0 (Real.pi / 4) := by
  have hv : ∀ t, dictAt ["a"] (fun _ => t) = [("a", .num t)] := fun t => by simp [dictAt, zipValues]
  constructor
  · refine ⟨Real.pi / 4, fun t => [Real.cos (2 * t)], rfl, fun t => ?_, fun t => rfl, fun i => ?_⟩
    · have hf : Values.Flat [("a", .num t)] := .inl rfl
      exact (C20_ad_gpsr so eigh draw hf (.vec zero1) twiceRX [obsZ] 0).trans
        ((expectation_gates so eigh draw twiceRX_plain _).trans (twice_value so rfl))
    · cases i with
      | zero =>
        have h1 : HasDerivAt (fun t : ℝ => 2 * t) (2 * 1) (Real.pi / 4) := (hasDerivAt_id _).const_mul 2
        have h2 := h1.cos
        rw [show 2 * (Real.pi / 4) = Real.pi / 2 by ring, Real.sin_pi_div_two] at h2
        simpa using h2
      | succ i => simpa using hasDerivAt_const (Real.pi / 4) (0 : ℝ)
  · intro k hk
    have hS := shotSettingZ eigh
    obtain ⟨F, h1, h2, h3⟩ := C86_constant so eigh (nss := [[], []]) (obs := [obsZ]) (st := .vec zero1) (n := 1) twiceRX_plain (by simp [twiceRX_gates])
      (.cons (.none rfl) (.cons (.none rfl) .nil)) (names := ["a"]) (by simp) (fun _ => Real.pi / 4)
      (by rw [hv]; exact (twiceSetting so ⟨by simp, by simp⟩ rfl).std) zero1_isKet hS.pos hS.trace (by simp) hS.listed hk (.inl rfl)
    refine ⟨fun t u => (F (fun _ => t) u).getD 0 0, fun t draw => ?_, fun Ω _ μ U hU => ?_⟩
    · rw [← hv, h1]
      obtain ⟨a, ha⟩ := List.length_eq_one_iff.1 (h2 (fun _ => t) (draw k.toNat))
      simp only [ha, List.getD_cons_zero]
    · filter_upwards [h3 Ω μ U hU] with ω hω
      have hl : HasDerivAt (fun (t : ℝ) (_ : Fin ["a"].length) => t) (fun _ => 1) (Real.pi / 4) := by
        rw [hasDerivAt_pi]
        exact fun _ => hasDerivAt_id _
      have := (hω.2 0).comp_hasDerivAt (Real.pi / 4) hl
      exact this

end Verif
