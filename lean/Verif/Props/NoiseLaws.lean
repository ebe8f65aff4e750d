import Verif.Lemmas.NoiseEntry
import Verif.Lemmas.RunTree
import Verif.Props.Noise
import Verif.Props.Sampling

/-!
# Property theorems about the algebra of noise

C78: which tuples of noise instances have the same effect, when their order matters, what noise does to the maximally
mixed state and to the purity, and where the formulas of `docs/noise.md` differ from the code.
-/

set_option autoImplicit false

namespace Verif
open NDArray
variable {n : ℕ} {values : Values} {ot : OpType}

/-! ## Specification -/

/-- The noise instance a user writes for a channel. -/
def StdNoise.inst : StdNoise → NoiseInstance
  | .bitFlip p => ⟨.bitFlip, .float p⟩
  | .phaseFlip p => ⟨.phaseFlip, .float p⟩
  | .depolarizing p => ⟨.depolarizing, .float p⟩
  | .pauli px py pz => ⟨.pauliChannel, .tuple [px, py, pz]⟩
  | .amplitudeDamping γ => ⟨.amplitudeDamping, .float γ⟩
  | .phaseDamping γ => ⟨.phaseDamping, .float γ⟩
  | .generalizedAmplitudeDamping p γ => ⟨.generalizedAmplitudeDamping, .tuple [p, γ]⟩

/-- The gate `g` with the noise tuple `ns`. -/
def Gate.withNoise (g : Gate) (ns : List StdNoise) : Gate := { g with noise := some (ns.map StdNoise.inst) }

theorem StdNoise.inst_is {s : StdNoise} (h : s.Valid) : s.inst.Is s := by
  cases s with
  | bitFlip p => exact .bitFlip h
  | phaseFlip p => exact .phaseFlip h
  | depolarizing p => exact .depolarizing h
  | pauli a b c =>
    obtain ⟨h1, h2, h3, h4⟩ := h
    refine .pauli ?_ (by simp only [List.sum_cons, List.sum_nil]; linarith)
    intro p hp
    simp only [List.mem_cons, List.not_mem_nil, or_false] at hp
    rcases hp with rfl | rfl | rfl <;> constructor <;> linarith
  | amplitudeDamping γ => exact .amplitudeDamping h
  | phaseDamping γ => exact .phaseDamping h
  | generalizedAmplitudeDamping p γ => exact .generalizedAmplitudeDamping h.1 h.2

theorem forall₂_inst {ns : List StdNoise} (h : ∀ s ∈ ns, s.Valid) : List.Forall₂ NoiseInstance.Is (ns.map StdNoise.inst) ns := by
  rw [List.forall₂_map_left_iff, List.forall₂_same]
  exact fun s hs => StdNoise.inst_is (h s hs)

/-- The merged parameters are accepted whenever the given ones are. -/
theorem SameNoise.valid {l l' : List StdNoise} (h : SameNoise l l') (hl : ∀ s ∈ l, s.Valid) : ∀ s ∈ l', s.Valid := by
  have mul {p q : ℝ} (hp : 0 ≤ p ∧ p ≤ 1) (hq : 0 ≤ q ∧ q ≤ 1) : 0 ≤ p * q ∧ p * q ≤ p ∧ p * q ≤ q :=
    ⟨mul_nonneg hp.1 hq.1, mul_le_of_le_one_right hp.1 hq.2, mul_le_of_le_one_left hq.1 hp.2⟩
  cases h with
  | bitFlip p q | phaseFlip p q | depolarizing p q | amplitudeDamping p q | phaseDamping p q =>
    have hp : 0 ≤ p ∧ p ≤ 1 := (List.forall_mem_cons.1 hl).1
    have hq : 0 ≤ q ∧ q ≤ 1 := (List.forall_mem_cons.1 (List.forall_mem_cons.1 hl).2).1
    obtain ⟨h1, h2, h3⟩ := mul hp hq
    have h4 : 0 ≤ (1 - p) * (1 - q) := mul_nonneg (by linarith) (by linarith)
    simp only [List.mem_singleton, forall_eq, StdNoise.Valid]
    constructor <;> nlinarith
  | pauli a b c x y z =>
    obtain ⟨a1, a2, a3, a4⟩ : 0 ≤ a ∧ 0 ≤ b ∧ 0 ≤ c ∧ a + b + c ≤ 1 := hl (.pauli a b c) (by simp)
    obtain ⟨x1, x2, x3, x4⟩ : 0 ≤ x ∧ 0 ≤ y ∧ 0 ≤ z ∧ x + y + z ≤ 1 := hl (.pauli x y z) (by simp)
    have a0 : 0 ≤ 1 - a - b - c := by linarith
    have x0 : 0 ≤ 1 - x - y - z := by linarith
    simp only [List.mem_singleton, forall_eq, StdNoise.Valid]
    refine ⟨by positivity, by positivity, by positivity, ?_⟩
    have : 0 ≤ (1 - a - b - c) * (1 - x - y - z) + a * x + b * y + c * z := by positivity
    nlinarith
  | generalizedAmplitudeDamping p q γ δ =>
    obtain ⟨hp, hγ⟩ : (0 ≤ p ∧ p ≤ 1) ∧ 0 ≤ γ ∧ γ ≤ 1 := hl (.generalizedAmplitudeDamping p γ) (by simp)
    obtain ⟨hq, hδ⟩ : (0 ≤ q ∧ q ≤ 1) ∧ 0 ≤ δ ∧ δ ≤ 1 := hl (.generalizedAmplitudeDamping q δ) (by simp)
    obtain ⟨h1, h2, h3⟩ := mul hγ hδ
    have h4 : 0 ≤ (1 - γ) * (1 - δ) := mul_nonneg (by linarith [hγ.2]) (by linarith [hδ.2])
    have h5 : 0 ≤ γ * (1 - δ) := mul_nonneg hγ.1 (by linarith [hδ.2])
    have hu : p * γ * (1 - δ) + q * δ ≤ γ + δ - γ * δ := by
      have e1 := mul_le_of_le_one_left h5 hp.2
      have e2 := mul_le_of_le_one_left hδ.1 hq.2
      nlinarith
    have hl : 0 ≤ p * γ * (1 - δ) + q * δ := by
      have e1 := mul_nonneg hp.1 h5
      have e2 := mul_nonneg hq.1 hδ.1
      nlinarith
    simp only [List.mem_singleton, forall_eq, StdNoise.Valid]
    refine ⟨⟨div_nonneg hl (by linarith), div_le_one_of_le₀ hu (by linarith)⟩, by linarith, by nlinarith⟩
  | bitFlip_pauli p | phaseFlip_pauli p | depolarizing_pauli p =>
    have hp : 0 ≤ p ∧ p ≤ 1 := (List.forall_mem_cons.1 hl).1
    simp only [List.mem_singleton, forall_eq, StdNoise.Valid]
    refine ⟨?_, ?_, ?_, ?_⟩ <;> linarith
  | damping_generalized γ =>
    have hp : 0 ≤ γ ∧ γ ≤ 1 := (List.forall_mem_cons.1 hl).1
    simpa [StdNoise.Valid] using hp
  | phaseDamping_flip γ =>
    have hp : 0 ≤ γ ∧ γ ≤ 1 := (List.forall_mem_cons.1 hl).1
    simp only [List.mem_singleton, forall_eq, StdNoise.Valid]
    have h1 : √(1 - γ) ≤ 1 := Real.sqrt_le_one.2 (by linarith)
    have h2 := Real.sqrt_nonneg (1 - γ)
    constructor <;> linarith
  | comm_pauli h h' => intro s hs; exact hl s (by simp at hs ⊢; tauto)
  | comm_phase h => intro s hs; exact hl s (by simp at hs ⊢; tauto)

theorem qblock_fold {ns : List StdNoise} (h : ∀ s ∈ ns, s.Valid) (t : Fin n) (ρ : Matrix (Lab n) (Lab n) ℂ) (x y : Lab n) :
    qblock t (ns.foldl (fun ρ s => s.chan n t ρ) ρ) x y = ns.foldl (fun B s => s.chan1 B) (qblock t ρ x y) := by
  induction ns generalizing ρ with
  | nil => rfl
  | cons s ns ih =>
    rw [List.foldl_cons, List.foldl_cons, ih (fun s hs => h s (by simp [hs])), qblock_chan (h s (by simp))]

/-- The effect on one block. -/
theorem SameNoise.chan1 {l l' : List StdNoise} (h : SameNoise l l') (hl : ∀ s ∈ l, s.Valid) (B : Matrix (Fin 2) (Fin 2) ℂ) :
    l.foldl (fun B s => s.chan1 B) B = l'.foldl (fun B s => s.chan1 B) B := by
  have sqm : ∀ {p q : ℝ}, p ≤ 1 → ((√(1 - (p + q - p * q)) : ℝ) : ℂ) = ((√(1 - q) : ℝ) : ℂ) * ((√(1 - p) : ℝ) : ℂ) := by
    intro p q hp
    rw [← Complex.ofReal_mul, mul_comm (√(1 - q)), ← Real.sqrt_mul (by linarith)]
    congr 2; ring
  cases h with
  | bitFlip p q | phaseFlip p q | depolarizing p q | pauli a b c x y z | bitFlip_pauli p | phaseFlip_pauli p
  | depolarizing_pauli p | phaseDamping_flip γ =>
    simp only [List.foldl_cons, List.foldl_nil, StdNoise.chan1]
    ext i j
    fin_cases i <;> fin_cases j <;>
      simp only [Matrix.of_apply, Matrix.cons_val', Matrix.cons_val_zero, Matrix.cons_val_one, Fin.zero_eta, Fin.mk_one,
        Fin.isValue, Matrix.cons_val_fin_one] <;>
      push_cast <;> ring
  | amplitudeDamping p q | phaseDamping p q =>
    have hp : 0 ≤ p ∧ p ≤ 1 := (List.forall_mem_cons.1 hl).1
    simp only [List.foldl_cons, List.foldl_nil, StdNoise.chan1]
    ext i j
    fin_cases i <;> fin_cases j <;>
      simp only [Matrix.of_apply, Matrix.cons_val', Matrix.cons_val_zero, Matrix.cons_val_one, Fin.zero_eta, Fin.mk_one,
        Fin.isValue, Matrix.cons_val_fin_one] <;>
      (try simp only [sqm hp.2]) <;> push_cast <;> ring
  | generalizedAmplitudeDamping p q γ δ =>
    obtain ⟨hp, hγ⟩ : (0 ≤ p ∧ p ≤ 1) ∧ 0 ≤ γ ∧ γ ≤ 1 := hl (.generalizedAmplitudeDamping p γ) (by simp)
    obtain ⟨hq, hδ⟩ : (0 ≤ q ∧ q ≤ 1) ∧ 0 ≤ δ ∧ δ ≤ 1 := hl (.generalizedAmplitudeDamping q δ) (by simp)
    have hm : (p * γ * (1 - δ) + q * δ) / (γ + δ - γ * δ) * (γ + δ - γ * δ) = p * γ * (1 - δ) + q * δ := by
      by_cases h0 : γ + δ - γ * δ = 0
      · have h1 : 0 ≤ γ * (1 - δ) := mul_nonneg hγ.1 (by linarith [hδ.2])
        have hδ0 : δ = 0 := by linarith [hδ.1]
        subst hδ0
        have hγ0 : γ = 0 := by linarith
        subst hγ0
        simp
      · rw [div_mul_cancel₀ _ h0]
    have hmC := congrArg (fun r : ℝ => (r : ℂ)) hm
    generalize (p * γ * (1 - δ) + q * δ) / (γ + δ - γ * δ) = r at hm hmC ⊢
    push_cast at hmC
    simp only [List.foldl_cons, List.foldl_nil, StdNoise.chan1]
    ext i j
    fin_cases i <;> fin_cases j <;>
      simp only [Matrix.of_apply, Matrix.cons_val', Matrix.cons_val_zero, Matrix.cons_val_one, Fin.zero_eta, Fin.mk_one,
        Fin.isValue, Matrix.cons_val_fin_one] <;>
      (try simp only [sqm hγ.2]) <;> push_cast
    · linear_combination -(B 0 0 + B 1 1) * hmC
    · ring
    · ring
    · linear_combination (B 0 0 + B 1 1) * hmC
  | damping_generalized γ =>
    simp only [List.foldl_cons, List.foldl_nil, StdNoise.chan1]
    ext i j
    fin_cases i <;> fin_cases j <;>
      simp only [Matrix.of_apply, Matrix.cons_val', Matrix.cons_val_zero, Matrix.cons_val_one, Fin.zero_eta, Fin.mk_one,
        Fin.isValue, Matrix.cons_val_fin_one] <;>
      push_cast <;> ring
  | @comm_pauli s s' h h' =>
    cases s <;> cases s' <;> first | exact h.elim | exact h'.elim | skip
    all_goals
      simp only [List.foldl_cons, List.foldl_nil, StdNoise.chan1]
      ext i j
      fin_cases i <;> fin_cases j <;>
        simp only [Matrix.of_apply, Matrix.cons_val', Matrix.cons_val_zero, Matrix.cons_val_one, Fin.zero_eta, Fin.mk_one,
          Fin.isValue, Matrix.cons_val_fin_one] <;>
        push_cast <;> ring
  | @comm_phase s s' h =>
    cases s <;> first | exact h.elim | skip
    all_goals cases s'
    all_goals
      simp only [List.foldl_cons, List.foldl_nil, StdNoise.chan1]
      ext i j
      fin_cases i <;> fin_cases j <;>
        simp only [Matrix.of_apply, Matrix.cons_val', Matrix.cons_val_zero, Matrix.cons_val_one, Fin.zero_eta, Fin.mk_one,
          Fin.isValue, Matrix.cons_val_fin_one] <;>
        push_cast <;> ring

theorem SameNoise.fold {l l' : List StdNoise} (h : SameNoise l l') (hl : ∀ s ∈ l, s.Valid) {t : ℕ} (ht : t < n)
    (ρ : Matrix (Lab n) (Lab n) ℂ) :
    l.foldl (fun ρ s => s.chan n t ρ) ρ = l'.foldl (fun ρ s => s.chan n t ρ) ρ := by
  refine qblock_ext (t := ⟨t, ht⟩) fun x y => ?_
  exact (qblock_fold hl ⟨t, ht⟩ ρ x y).trans ((h.chan1 hl _).trans (qblock_fold (h.valid hl) ⟨t, ht⟩ ρ x y).symm)

theorem noisyRun_split (l l' : List (Gate × List StdNoise)) (ρ : Matrix (Lab n) (Lab n) ℂ) :
    noisyRun n ot values (l ++ l') ρ = noisyRun n ot values l' (noisyRun n ot values l ρ) := by
  induction l generalizing ρ with
  | nil => rfl
  | cons x l ih => obtain ⟨g, ns⟩ := x; rw [List.cons_append, noisyRun, noisyRun, ih]

theorem Gate.Ok.withNoise {g : Gate} (h : g.Ok n ot values) (ns : List StdNoise) : (g.withNoise ns).Ok n ot values :=
  ⟨h.op, ⟨h.valid.ctl, h.valid.dims⟩⟩

theorem noiseIs_withNoise {g : Gate} {t : ℕ} (ht : g.target = [t]) {ns : List StdNoise} (h : ∀ s ∈ ns, s.Valid) :
    (g.withNoise ns).NoiseIs ns := .some rfl (forall₂_inst h) (.inr ⟨t, ht⟩)

theorem mat_withNoise (g : Gate) (ns : List StdNoise) : (g.withNoise ns).mat n ot values = g.mat n ot values := rfl

/-- The result of a circuit in which one gate carries the noise tuple `ns`. -/
theorem run_withNoise (so : SetOrder) {pre post : List Gate} (hpre : ∀ g ∈ pre, g.Ok n ot values) {g : Gate} {t : ℕ}
    (hpost : ∀ g ∈ post, g.Ok n ot values) {nss nss' : List (List StdNoise)} (hn : List.Forall₂ Gate.NoiseIs pre nss)
    (hn' : List.Forall₂ Gate.NoiseIs post nss') (hg : g.Ok n ot values) (ht : g.target = [t]) {ns : List StdNoise}
    (hns : ∀ s ∈ ns, s.Valid) {state : State} (hst : state.On n) (merge : Bool) :
    ∃ r, applyGates so state (.list (pre ++ g.withNoise ns :: post)) values ot false merge = .ok (.dm r) ∧ IsDM n r ∧
      dmMat n r.array = noisyRun n ot values (post.zip nss')
        (ns.foldl (fun ρ s => s.chan n t ρ)
          (conjBy (g.mat n ot values) (noisyRun n ot values (pre.zip nss) (state.mat n)))) := by
  have main : ∀ ρ : DensityMatrix ℂ, IsDM n ρ →
      ∃ r, applyGates so (.dm ρ) (.list (pre ++ g.withNoise ns :: post)) values ot false merge = .ok (.dm r) ∧ IsDM n r ∧
      dmMat n r.array = noisyRun n ot values (post.zip nss')
        (ns.foldl (fun ρ s => s.chan n t ρ)
          (conjBy (g.mat n ot values) (noisyRun n ot values (pre.zip nss) (dmMat n ρ.array)))) := by
    intro ρ hρ
    have hok : ∀ g' ∈ pre ++ g.withNoise ns :: post, g'.Ok n ot values := by
      intro g' h'
      simp only [List.mem_append, List.mem_cons] at h'
      rcases h' with h' | rfl | h'
      · exact hpre _ h'
      · exact hg.withNoise ns
      · exact hpost _ h'
    have hF : List.Forall₂ Gate.NoiseIs (pre ++ g.withNoise ns :: post) (nss ++ ns :: nss') :=
      List.rel_append hn (.cons (noiseIs_withNoise ht hns) hn')
    obtain ⟨r, h1, h2, h3⟩ := applyGates_noisy_dm so (by simp) hok hF hρ merge
    refine ⟨r, h1, h2, ?_⟩
    rw [h3, List.zip_append hn.length_eq, List.zip_cons_cons, noisyRun_split, noisyRun, mat_withNoise]
    have : (g.withNoise ns).target.headD 0 = t := by
      show g.target.headD 0 = t
      rw [ht]; rfl
    rw [this, noisyStep]
  cases state with
  | dm ρ => exact main ρ hst
  | vec a =>
    rw [applyGates_vec_noisy so (fun h => by
      have := h (g.withNoise ns) (by simp)
      cases this)]
    obtain ⟨r, h1, h2, h3⟩ := main (densityMat a) (densityMat_isDM hst).1
    refine ⟨r, h1, h2, ?_⟩
    rw [h3, ← State.mat_densityMat hst]; rfl

/-- **C78** (laws of noise): inside the noise tuple of a gate with one target, anywhere in a circuit of gates of any
class with any noise, and for any operator type, the channels `l` may be replaced by `l'` for every law of
`SameNoise`: `apply_gates` succeeds and returns the same density matrix. -/
theorem C78_laws (so : SetOrder) {l l' : List StdNoise} (h : SameNoise l l') (hl : ∀ s ∈ l, s.Valid)
    {pre post : List Gate} (hpre : ∀ g ∈ pre, g.Ok n ot values) (hpost : ∀ g ∈ post, g.Ok n ot values)
    {nss nss' : List (List StdNoise)} (hn : List.Forall₂ Gate.NoiseIs pre nss)
    (hn' : List.Forall₂ Gate.NoiseIs post nss') {g : Gate} (hg : g.Ok n ot values) {t : ℕ} (ht : g.target = [t])
    {a b : List StdNoise} (ha : ∀ s ∈ a, s.Valid) (hb : ∀ s ∈ b, s.Valid) {state : State} (hst : state.On n)
    (merge merge' : Bool) :
    (∀ s ∈ l', s.Valid) ∧
    ∃ r, applyGates so state (.list (pre ++ g.withNoise (a ++ l ++ b) :: post)) values ot false merge = .ok (.dm r) ∧
      applyGates so state (.list (pre ++ g.withNoise (a ++ l' ++ b) :: post)) values ot false merge' = .ok (.dm r) := by
  have hv : ∀ s ∈ a ++ l ++ b, s.Valid := by
    simp only [List.mem_append]; rintro s ((h | h) | h)
    exacts [ha s h, hl s h, hb s h]
  have hv' : ∀ s ∈ a ++ l' ++ b, s.Valid := by
    simp only [List.mem_append]; rintro s ((h' | h') | h')
    exacts [ha s h', h.valid hl s h', hb s h']
  obtain ⟨r, h1, h2, h3⟩ := run_withNoise so hpre hpost hn hn' hg ht hv hst merge
  obtain ⟨r', k1, k2, k3⟩ := run_withNoise so hpre hpost hn hn' hg ht hv' hst merge'
  have htn : t < n := hg.valid.dims.lt t (by simp [ht])
  refine ⟨h.valid hl, r, h1, ?_⟩
  rw [k1, dm_ext k2 h2]
  rw [k3, h3]
  simp only [List.foldl_append]
  rw [h.fold hl htn]

example : SameNoise [.generalizedAmplitudeDamping (1 / 2) (1 / 2), .generalizedAmplitudeDamping 1 (1 / 2)]
    [.generalizedAmplitudeDamping (5 / 6) (3 / 4)] ∧ SameNoise [.bitFlip (1 / 4), .bitFlip (1 / 4)] [.bitFlip (3 / 8)] := by
  constructor
  · have := SameNoise.generalizedAmplitudeDamping (1 / 2) 1 (1 / 2) (1 / 2)
    norm_num at this ⊢
    exact this
  · have := SameNoise.bitFlip (1 / 4) (1 / 4)
    norm_num at this ⊢
    exact this

/-- The hypotheses of the theorems about one gate hold for a controlled rotation with amplitude damping. -/
example : (Gate.RX (.str "a") (.int 2) (.int 0)).Std 3 [("a", .num 5)] (.RX 5) ∧
    (Gate.RX (.str "a") (.int 2) (.int 0)).target = [2] ∧ (StdNoise.amplitudeDamping (1 / 2)).Valid ∧
    (StdNoise.amplitudeDamping (1 / 2)).drift ≠ 0 ∧ (StdNoise.generalizedAmplitudeDamping (1 / 2) (1 / 3)).drift = 0 :=
  ⟨⟨.RX _ _ _ (.str rfl) (by simp), rfl, ⟨.inr (.inr ⟨[0], rfl⟩), by decide⟩⟩, rfl, by norm_num [StdNoise.Valid],
    by norm_num [StdNoise.drift], by norm_num [StdNoise.drift]⟩

/-! ## One noisy gate -/

/-- Every matrix is the matrix of some density-matrix object. -/
theorem exists_dm (M : Matrix (Lab n) (Lab n) ℂ) : ∃ ρ : DensityMatrix ℂ, IsDM n ρ ∧ dmMat n ρ.array = M := by
  refine ⟨⟨NDArray.ofFn (List.replicate (n + n) 2) fun idx => M (Lab.ofBits n (idx.take n)) (Lab.ofBits n (idx.drop n))⟩,
    ⟨rfl, NDArray.wf_ofFn _ _⟩, ?_⟩
  funext x y
  have hlen : x.bits.length = n := x.isBits_bits.1
  have h : List.Forall₂ (· < ·) (x.bits ++ y.bits) (List.replicate (n + n) 2) := by
    rw [List.forall₂_iff_get]
    refine ⟨by simp [hlen, y.isBits_bits.1], fun i h1 h2 => ?_⟩
    simp only [List.get_eq_getElem, List.getElem_replicate]
    have hm : (x.bits ++ y.bits)[i] ∈ x.bits ++ y.bits := List.getElem_mem h1
    rcases List.mem_append.1 hm with hm | hm
    · exact x.isBits_bits.2 _ hm
    · exact y.isBits_bits.2 _ hm
  simp only [dmMat]
  rw [NDArray.get_ofFn h, List.take_left' hlen, List.drop_left' hlen, Lab.ofBits_bits, Lab.ofBits_bits]

theorem Gate.Std.withNoise {g : Gate} {s : StdGate} (h : g.Std n values s) (ns : List StdNoise) :
    (g.withNoise ns).Std n values s := by
  obtain ⟨h1, h2, h3⟩ := h
  refine ⟨?_, h2, ⟨h3.ctl, h3.dims⟩⟩
  cases h1 <;> constructor <;> assumption

theorem step_withNoise (so : SetOrder) {g : Gate} {s : StdGate} (hg : g.Std n values s) {t : ℕ} (ht : g.target = [t])
    {ns : List StdNoise} (hns : ∀ s ∈ ns, s.Valid) {state : State} (hst : state.On n) (merge : Bool) :
    ∃ r, applyGates so state (.list [g.withNoise ns]) values .unitary false merge = .ok (.dm r) ∧ IsDM n r ∧
      dmMat n r.array = ns.foldl (fun ρ s => s.chan n t ρ) (conjBy (stdMat n g s) (state.mat n)) := by
  obtain ⟨r, h1, h2, h3⟩ := run_withNoise so (pre := []) (post := []) (by simp) (by simp) .nil .nil hg.ok ht hns hst merge
  exact ⟨r, h1, h2, by rw [h3, ← hg.mat]; rfl⟩

theorem conjBy_std_one {g : Gate} {s : StdGate} (hg : g.Std n values s) :
    conjBy (stdMat n g s) 1 = 1 := by
  rw [conjBy, mul_one]; exact hg.unitary.2

theorem qblock_one (t : Fin n) : qblock t (1 : Matrix (Lab n) (Lab n) ℂ) 0 0 = 1 := by
  ext i j
  simp only [qblock, Matrix.of_apply, Matrix.one_apply]
  have : (Lab.set (0 : Lab n) t i = Lab.set 0 t j) ↔ i = j :=
    ⟨fun h => by have := congrFun h t; simpa [Lab.set] using this, fun h => by rw [h]⟩
  simp only [this]

theorem chan1_diff (s : StdNoise) (B : Matrix (Fin 2) (Fin 2) ℂ) : s.chan1 B 0 0 - s.chan1 B 1 1
    = s.shrink * (B 0 0 - B 1 1) + s.drift * (B 0 0 + B 1 1) ∧ s.chan1 B 0 0 + s.chan1 B 1 1 = B 0 0 + B 1 1 := by
  rw [s.chan1_eq]
  simp only [Matrix.of_apply, Matrix.cons_val', Matrix.cons_val_zero, Matrix.cons_val_one, Fin.isValue, Matrix.cons_val_fin_one]
  constructor <;> ring

/-- **C78** (order of the noise): the order of two channels in the noise tuple of a gate is irrelevant for all states
exactly when `drift · (1 - shrink')` = `drift' · (1 - shrink)`, where the mean of `Z` on the target is mapped from `z` to
`shrink · z + drift`. -/
theorem C78_order (so : SetOrder) {g : Gate} {s : StdGate} (hg : g.Std n values s) {t : ℕ} (ht : g.target = [t])
    {a b : StdNoise} (ha : a.Valid) (hb : b.Valid) (merge merge' : Bool) :
    (∀ state : State, state.On n →
      applyGates so state (.list [g.withNoise [a, b]]) values .unitary false merge
        = applyGates so state (.list [g.withNoise [b, a]]) values .unitary false merge') ↔
    a.drift * (1 - b.shrink) = b.drift * (1 - a.shrink) := by
  have htn : t < n := hg.valid.dims.lt t (by simp [ht])
  have hab : ∀ s ∈ [a, b], s.Valid := by simp only [List.forall_mem_cons]; exact ⟨ha, hb, by simp⟩
  have hba : ∀ s ∈ [b, a], s.Valid := by simp only [List.forall_mem_cons]; exact ⟨hb, ha, by simp⟩
  constructor
  · intro h
    obtain ⟨ρ, h1, h2⟩ := exists_dm (1 : Matrix (Lab n) (Lab n) ℂ)
    have h := h (.dm ρ) h1
    obtain ⟨r, e1, -, e3⟩ := step_withNoise so hg ht hab (state := .dm ρ) h1 merge
    obtain ⟨r', k1, -, k3⟩ := step_withNoise so hg ht hba (state := .dm ρ) h1 merge'
    rw [e1, k1] at h
    obtain rfl : r = r' := by cases h; rfl
    rw [k3] at e3
    have hm : (State.dm ρ).mat n = 1 := h2
    rw [hm, conjBy_std_one hg] at e3
    have := congrArg (fun M => qblock ⟨t, htn⟩ M 0 0) e3
    rw [qblock_fold hba ⟨t, htn⟩, qblock_fold hab ⟨t, htn⟩, qblock_one] at this
    simp only [List.foldl_cons, List.foldl_nil] at this
    have hd : a.chan1 (b.chan1 1) 0 0 - a.chan1 (b.chan1 1) 1 1 = b.chan1 (a.chan1 1) 0 0 - b.chan1 (a.chan1 1) 1 1 := by
      rw [this]
    rw [(chan1_diff _ _).1, (chan1_diff _ _).1, (chan1_diff _ _).1, (chan1_diff _ _).2, (chan1_diff _ _).1, (chan1_diff _ _).2]
      at hd
    simp only [Matrix.one_apply_eq] at hd
    have : ((a.drift * (1 - b.shrink) : ℝ) : ℂ) = ((b.drift * (1 - a.shrink) : ℝ) : ℂ) := by
      push_cast
      linear_combination hd / 2
    exact_mod_cast this
  · intro h state hst
    obtain ⟨r, e1, e2, e3⟩ := step_withNoise so hg ht hab hst merge
    obtain ⟨r', k1, k2, k3⟩ := step_withNoise so hg ht hba hst merge'
    rw [e1, k1, dm_ext e2 k2]
    rw [e3, k3]
    refine qblock_ext (t := ⟨t, htn⟩) fun x y => ?_
    refine (qblock_fold hab ⟨t, htn⟩ _ x y).trans (Eq.trans ?_ (qblock_fold hba ⟨t, htn⟩ _ x y).symm)
    generalize qblock _ _ x y = B
    have hC : (a.drift * (1 - b.shrink) : ℂ) = b.drift * (1 - a.shrink) := by exact_mod_cast congrArg (fun r : ℝ => (r : ℂ)) h
    simp only [List.foldl_cons, List.foldl_nil, StdNoise.chan1_eq]
    ext i j
    fin_cases i <;> fin_cases j <;>
      simp only [Matrix.of_apply, Matrix.cons_val', Matrix.cons_val_zero, Matrix.cons_val_one, Fin.zero_eta, Fin.mk_one,
        Fin.isValue, Matrix.cons_val_fin_one]
    · linear_combination -(B 0 0 + B 1 1) / 2 * hC
    · ring
    · ring
    · linear_combination (B 0 0 + B 1 1) / 2 * hC

/-- Amplitude damping and bit flips commute only if one of them does nothing; amplitude damping and phase flips always
commute. -/
example (γ p : ℝ) : ((StdNoise.amplitudeDamping γ).drift * (1 - (StdNoise.bitFlip p).shrink)
      = (StdNoise.bitFlip p).drift * (1 - (StdNoise.amplitudeDamping γ).shrink) ↔ γ = 0 ∨ p = 0) ∧
    (StdNoise.amplitudeDamping γ).drift * (1 - (StdNoise.phaseFlip p).shrink)
      = (StdNoise.phaseFlip p).drift * (1 - (StdNoise.amplitudeDamping γ).shrink) := by
  simp [StdNoise.drift, StdNoise.shrink]

theorem qblock_one_gen (t : Fin n) (x y : Lab n) :
    qblock t (1 : Matrix (Lab n) (Lab n) ℂ) x y = if Lab.AgreeOff [t.val] x y then 1 else 0 := by
  split_ifs with hxy
  · ext i j
    simp only [qblock, Matrix.of_apply, Matrix.one_apply]
    have e : (x.set t i = y.set t j) ↔ i = j := by
      refine ⟨fun h => by have := congrFun h t; simpa [Lab.set] using this, ?_⟩
      rintro rfl
      funext q
      by_cases hq : q = t
      · subst hq; simp [Lab.set]
      · rw [Lab.set, Lab.set, Function.update_of_ne hq, Function.update_of_ne hq]
        exact hxy q (by simpa using fun h => hq (Fin.ext h))
    simp only [e]
  · ext i j
    simp only [qblock, Matrix.of_apply, Matrix.one_apply, Matrix.zero_apply]
    rw [if_neg]
    intro h
    apply hxy
    intro q hq
    have hq' : q ≠ t := fun h => hq (by simp [h])
    have := congrFun h q
    rwa [Lab.set, Lab.set, Function.update_of_ne hq', Function.update_of_ne hq'] at this

theorem chan1_one (s : StdNoise) : s.chan1 1 = !![1 + (s.drift : ℂ), 0; 0, 1 - (s.drift : ℂ)] := by
  rw [s.chan1_eq]
  ext i j
  fin_cases i <;> fin_cases j <;> simp <;> ring

theorem chan1_zero (s : StdNoise) : s.chan1 0 = 0 := by
  rw [s.chan1_eq]
  ext i j
  fin_cases i <;> fin_cases j <;> simp

theorem chan_smul {s : StdNoise} (hs : s.Valid) {t : ℕ} (ht : t < n) (c : ℂ) (ρ : Matrix (Lab n) (Lab n) ℂ) :
    s.chan n t (c • ρ) = c • s.chan n t ρ := by
  refine qblock_ext (t := ⟨t, ht⟩) fun x y => ?_
  rw [qblock_smul, qblock_chan hs ⟨t, ht⟩, qblock_chan hs ⟨t, ht⟩, qblock_smul, s.chan1_eq, s.chan1_eq]
  ext i j
  fin_cases i <;> fin_cases j <;> simp <;> ring

theorem chan_one {s : StdNoise} (hs : s.Valid) (h0 : s.drift = 0) {t : ℕ} (ht : t < n) :
    s.chan n t (1 : Matrix (Lab n) (Lab n) ℂ) = 1 := by
  refine qblock_ext (t := ⟨t, ht⟩) fun x y => ?_
  rw [qblock_chan hs ⟨t, ht⟩, qblock_one_gen]
  split_ifs
  · rw [chan1_one, h0, Complex.ofReal_zero, add_zero, sub_zero, Matrix.one_fin_two]
  · exact chan1_zero s

theorem NoiseInstance.Is.valid {ni : NoiseInstance} {s : StdNoise} (h : ni.Is s) : s.Valid := by
  cases h with
  | bitFlip h | phaseFlip h | depolarizing h | amplitudeDamping h | phaseDamping h => exact h
  | @pauli px py pz ps h hs =>
    have h1 := h px (by simp); have h2 := h py (by simp); have h3 := h pz (by simp)
    have h4 : 0 ≤ ps.sum := List.sum_nonneg fun p hp => (h p (by simp [hp])).1
    simp only [List.sum_cons] at hs
    exact ⟨h1.1, h2.1, h3.1, by linarith⟩
  | generalizedAmplitudeDamping h hγ => exact ⟨h, hγ⟩

/-- Induction over the gates and channels of a circuit. -/
theorem stdRun_induction {xs : List (Gate × StdGate × List StdNoise)}
    (h : ∀ x ∈ xs, x.1.Std n values x.2.1 ∧ x.1.NoiseIs x.2.2) (hd : ∀ x ∈ xs, ∀ s ∈ x.2.2, s.drift = 0)
    (P : Matrix (Lab n) (Lab n) ℂ → Prop)
    (hu : ∀ (U ρ : Matrix (Lab n) (Lab n) ℂ), U.conjTranspose * U = 1 → U * U.conjTranspose = 1 → P ρ → P (conjBy U ρ))
    (hc : ∀ (s : StdNoise) (t : ℕ) (ρ : Matrix (Lab n) (Lab n) ℂ), s.Valid → s.drift = 0 → t < n → P ρ → P (s.chan n t ρ))
    {ρ : Matrix (Lab n) (Lab n) ℂ} (hρ : P ρ) : P (stdRun n xs ρ) := by
  induction xs generalizing ρ with
  | nil => exact hρ
  | cons x xs ih =>
    have hx := h x (by simp)
    refine ih (fun y hy => h y (by simp [hy])) (fun y hy => hd y (by simp [hy])) ?_
    have h0 : P (conjBy (stdMat n x.1 x.2.1) ρ) := hu _ _ hx.1.unitary.1 hx.1.unitary.2 hρ
    have hdx := hd x (by simp)
    obtain ⟨g, sg, ns⟩ := x
    show P (noisyStep n (stdMat n g sg) (g.target.headD 0) ns ρ)
    simp only at hdx hx h0
    cases hx.2 with
    | none => exact h0
    | @some nis _ hnz hn ht =>
      rcases ht with rfl | ⟨t, ht⟩
      · cases hn; exact h0
      · have htn : t < n := hx.1.valid.dims.lt t (by simp [ht])
        rw [ht]
        show P (ns.foldl (fun ρ s => s.chan n t ρ) (conjBy (stdMat n g sg) ρ))
        generalize conjBy (stdMat n g sg) ρ = σ at h0
        clear hnz hx h hd
        induction hn generalizing σ with
        | nil => exact h0
        | cons hi _ ih2 =>
          exact ih2 (fun s hs => hdx s (by simp [hs])) _ (hc _ _ _ hi.valid (hdx _ (by simp)) htn h0)

section circuits
variable (so : SetOrder) {xs : List (Gate × StdGate × List StdNoise)}

/-- **C78** (unital noise): a circuit whose channels have no drift (all but amplitude damping and generalized
amplitude damping with `p ≠ 1/2`) keeps the maximally mixed state. -/
theorem C78_mixed (hne : xs ≠ []) (h : ∀ x ∈ xs, x.1.Std n values x.2.1 ∧ x.1.NoiseIs x.2.2)
    (hd : ∀ x ∈ xs, ∀ s ∈ x.2.2, s.drift = 0) {state : State} (hst : state.On n) {c : ℂ} (hm : state.mat n = c • 1)
    (merge : Bool) :
    ∃ r, applyGates so state (.list (xs.map Prod.fst)) values .unitary false merge = .ok r ∧ r.On n ∧ r.mat n = c • 1 := by
  obtain ⟨r, h1, h2, h3⟩ := run_mat so hne h hst merge
  refine ⟨r, h1, h2, ?_⟩
  rw [h3]
  refine stdRun_induction h hd (fun ρ => ρ = c • 1) ?_ ?_ hm
  · rintro U _ - hU rfl
    rw [conjBy, Matrix.mul_smul, Matrix.smul_mul, mul_one, hU]
  · rintro s t _ hs h0 ht rfl
    rw [chan_smul hs ht, chan_one hs h0 ht]

/-- **C78** (purity): a circuit whose channels have no drift never increases the purity. -/
theorem C78_purity (hne : xs ≠ []) (h : ∀ x ∈ xs, x.1.Std n values x.2.1 ∧ x.1.NoiseIs x.2.2)
    (hd : ∀ x ∈ xs, ∀ s ∈ x.2.2, s.drift = 0) {state : State} (hst : state.On n) (merge : Bool) :
    ∃ r, applyGates so state (.list (xs.map Prod.fst)) values .unitary false merge = .ok r ∧ r.On n ∧
      purity (r.mat n) ≤ purity (state.mat n) := by
  obtain ⟨r, h1, h2, h3⟩ := run_mat so hne h hst merge
  refine ⟨r, h1, h2, ?_⟩
  rw [h3]
  refine stdRun_induction h hd (fun ρ => purity ρ ≤ purity (state.mat n)) ?_ ?_ le_rfl
  · intro U ρ hU _ hρ
    rw [purity_unitary hU]; exact hρ
  · intro s t ρ hs h0 ht hρ
    exact (purity_chan hs h0 ht ρ).trans hρ

theorem purity_chan_one {s : StdNoise} (hs : s.Valid) (h0 : s.drift ≠ 0) {t : ℕ} (ht : t < n) :
    purity (1 : Matrix (Lab n) (Lab n) ℂ) < purity (s.chan n t 1) := by
  refine lt_of_mul_lt_mul_left ?_ (show (0 : ℝ) ≤ 4 by norm_num)
  rw [purity_blocks ⟨t, ht⟩, purity_blocks ⟨t, ht⟩]
  have key : ∀ x y : Lab n, ∑ i, ∑ j, Complex.normSq (qblock ⟨t, ht⟩ (s.chan n t 1) x y i j)
      = ∑ i, ∑ j, Complex.normSq (qblock (⟨t, ht⟩ : Fin n) 1 x y i j) + if Lab.AgreeOff [t] x y then 2 * s.drift ^ 2 else 0 := by
    intro x y
    have hq := qblock_chan hs ⟨t, ht⟩ 1 x y
    simp only at hq
    rw [hq, qblock_one_gen]
    split_ifs
    · rw [chan1_one]
      simp only [Fin.sum_univ_two, Matrix.of_apply, Matrix.cons_val', Matrix.cons_val_zero, Matrix.cons_val_one, Fin.isValue,
        Matrix.cons_val_fin_one, Matrix.one_apply, map_zero]
      rw [show (1 : ℂ) + s.drift = ((1 + s.drift : ℝ) : ℂ) by push_cast; rfl,
        show (1 : ℂ) - s.drift = ((1 - s.drift : ℝ) : ℂ) by push_cast; rfl, Complex.normSq_ofReal, Complex.normSq_ofReal]
      norm_num
      ring
    · rw [chan1_zero, add_zero]
  have hpos : 0 < 2 * s.drift ^ 2 := by positivity
  refine Finset.sum_lt_sum (fun x _ => Finset.sum_le_sum fun y _ => ?_) ⟨0, Finset.mem_univ _,
    Finset.sum_lt_sum (fun y _ => ?_) ⟨0, Finset.mem_univ _, ?_⟩⟩
  · rw [key]; split_ifs <;> linarith
  · rw [key]; split_ifs <;> linarith
  · rw [key, if_pos (show Lab.AgreeOff [t] (0 : Lab n) 0 from fun _ _ => rfl)]; linarith

variable {g : Gate} {s : StdGate}

/-- **C78** (exactness of the two theorems before): one gate with one channel keeps the maximally mixed state exactly
if the channel has no drift, and never increases the purity exactly if the channel has no drift. -/
theorem C78_unital_iff (hg : g.Std n values s) {t : ℕ} (ht : g.target = [t]) {a : StdNoise} (ha : a.Valid) (merge : Bool) :
    ((∀ state : State, state.On n → state.mat n = (1 / 2 ^ n : ℂ) • 1 →
      ∃ r, applyGates so state (.list [g.withNoise [a]]) values .unitary false merge = .ok r ∧
        r.mat n = (1 / 2 ^ n : ℂ) • 1) ↔ a.drift = 0) ∧
    ((∀ state : State, state.On n →
      ∃ r, applyGates so state (.list [g.withNoise [a]]) values .unitary false merge = .ok r ∧
        purity (r.mat n) ≤ purity (state.mat n)) ↔ a.drift = 0) := by
  have htn : t < n := hg.valid.dims.lt t (by simp [ht])
  have hv : ∀ s ∈ [a], s.Valid := by simpa using ha
  have hx : ∀ x ∈ [(g.withNoise [a], s, [a])], x.1.Std n values x.2.1 ∧ x.1.NoiseIs x.2.2 := by
    simp only [List.forall_mem_singleton]; exact ⟨hg.withNoise [a], noiseIs_withNoise ht hv⟩
  refine ⟨⟨fun h => ?_, fun h0 state hst hm => ?_⟩, ⟨fun h => ?_, fun h0 state hst => ?_⟩⟩
  · obtain ⟨ρ, h1, h2⟩ := exists_dm ((1 / 2 ^ n : ℂ) • (1 : Matrix (Lab n) (Lab n) ℂ))
    obtain ⟨r, e1, e2⟩ := h (.dm ρ) h1 h2
    obtain ⟨r', k1, -, k3⟩ := step_withNoise so hg ht hv (state := .dm ρ) h1 merge
    obtain rfl : r = .dm r' := by rw [e1] at k1; cases k1; rfl
    have e2 : dmMat n r'.array = _ := e2
    have hm : (State.dm ρ).mat n = (1 / 2 ^ n : ℂ) • 1 := h2
    have hcu : conjBy (stdMat n g s) ((1 / 2 ^ n : ℂ) • 1) = (1 / 2 ^ n : ℂ) • 1 := by
      rw [conjBy, Matrix.mul_smul, Matrix.smul_mul, mul_one, hg.unitary.2]
    rw [e2, hm, hcu] at k3
    simp only [List.foldl_cons, List.foldl_nil] at k3
    rw [chan_smul ha htn] at k3
    have hc : (1 / 2 ^ n : ℂ) ≠ 0 := by simp
    have := congrArg (fun M => qblock ⟨t, htn⟩ M 0 0) (smul_right_injective _ hc k3)
    rw [qblock_chan ha ⟨t, htn⟩, qblock_one, chan1_one] at this
    have := congrFun (congrFun this 0) 0
    simpa using this
  · exact (C78_mixed so (by simp) hx (by simpa using h0) hst hm merge).imp fun r h => ⟨h.1, h.2.2⟩
  · by_contra h0
    obtain ⟨ρ, h1, h2⟩ := exists_dm (1 : Matrix (Lab n) (Lab n) ℂ)
    obtain ⟨r, e1, e2⟩ := h (.dm ρ) h1
    obtain ⟨r', k1, -, k3⟩ := step_withNoise so hg ht hv (state := .dm ρ) h1 merge
    obtain rfl : r = .dm r' := by rw [e1] at k1; cases k1; rfl
    have hm : (State.dm ρ).mat n = 1 := h2
    have e2 : purity (dmMat n r'.array) ≤ _ := e2
    rw [k3, hm, conjBy_std_one hg] at e2
    exact absurd e2 (not_le.2 (purity_chan_one ha h0 htn))
  · exact (C78_purity so (by simp) hx (by simpa using h0) hst merge).imp fun r h => ⟨h.1, h.2.2⟩


theorem trace_onQubit_Z (t : Fin n) (M : Matrix (Lab n) (Lab n) ℂ) :
    2 * (onQubit n !![1, 0; 0, -1] t * M).trace = ∑ x, (qblock t M x x 0 0 - qblock t M x x 1 1) := by
  have h1 : ∀ x : Lab n, (onQubit n !![1, 0; 0, -1] t * M) x x = (if x t = 0 then 1 else -1) * M x x := by
    intro x
    simp only [Matrix.mul_apply, onQubit_apply, ite_mul, zero_mul]
    rw [sum_agreeOff_set t x fun b => (!![1, 0; 0, -1] : Matrix (Fin 2) (Fin 2) ℂ) (x t) (b t) * M b x, Fin.sum_univ_two]
    simp only [Lab.set_at]
    obtain h | h : x t = 0 ∨ x t = 1 := by omega
    · have : x.set t 0 = x := by rw [← h]; exact x.set_self t
      rw [h, this]; simp
    · have : x.set t 1 = x := by rw [← h]; exact x.set_self t
      rw [h, this]; simp
  have h2 := sum_set t fun x : Lab n => (if x t = 0 then (1 : ℂ) else -1) * M x x
  simp only [Lab.set_at, Fin.sum_univ_two] at h2
  simp only [Matrix.trace, Matrix.diag_apply, h1]
  rw [two_nsmul] at h2
  rw [two_mul, ← h2]
  refine Finset.sum_congr rfl fun x _ => ?_
  simp [qblock, sub_eq_add_neg]

theorem chan_mean_z {a : StdNoise} (ha : a.Valid) {t : ℕ} (htn : t < n) (σ : Matrix (Lab n) (Lab n) ℂ) :
    (onQubit n !![1, 0; 0, -1] t * a.chan n t σ).trace
      = a.shrink * (onQubit n !![1, 0; 0, -1] t * σ).trace + a.drift * σ.trace := by
  have e1 := trace_onQubit_Z ⟨t, htn⟩ (a.chan n t σ)
  have e2 := trace_onQubit_Z ⟨t, htn⟩ σ
  have e3 : 2 * σ.trace = ∑ x, (qblock ⟨t, htn⟩ σ x x 0 0 + qblock ⟨t, htn⟩ σ x x 1 1) := by
    have := sum_set (⟨t, htn⟩ : Fin n) fun x => σ x x
    simp only [Fin.sum_univ_two] at this
    rw [two_nsmul] at this
    rw [two_mul]
    exact this.symm
  have e4 : ∑ x, (qblock ⟨t, htn⟩ (a.chan n t σ) x x 0 0 - qblock ⟨t, htn⟩ (a.chan n t σ) x x 1 1)
      = a.shrink * ∑ x, (qblock ⟨t, htn⟩ σ x x 0 0 - qblock ⟨t, htn⟩ σ x x 1 1)
        + a.drift * ∑ x, (qblock ⟨t, htn⟩ σ x x 0 0 + qblock ⟨t, htn⟩ σ x x 1 1) := by
    rw [Finset.mul_sum, Finset.mul_sum, ← Finset.sum_add_distrib]
    refine Finset.sum_congr rfl fun x _ => ?_
    have hq := qblock_chan ha ⟨t, htn⟩ σ x x
    simp only at hq
    rw [hq]
    exact (chan1_diff a _).1
  simp only at e1 e2
  rw [e4, ← e2, ← e3] at e1
  linear_combination e1 / 2

/-- **C78** (meaning of `shrink` and `drift`): the noise of a gate changes the mean of `Z` on its target from `z` (the
value without noise) to `shrink · z + drift · Tr ρ`. -/
theorem C78_mean_z (hg : g.Std n values s) {t : ℕ} (ht : g.target = [t]) {a : StdNoise} (ha : a.Valid) {state : State}
    (hst : state.On n) (merge : Bool) :
    ∃ r r₀, applyGates so state (.list [g.withNoise [a]]) values .unitary false merge = .ok r ∧
      applyGates so state (.list [g.withNoise []]) values .unitary false merge = .ok r₀ ∧
      (onQubit n !![1, 0; 0, -1] t * r.mat n).trace
        = a.shrink * (onQubit n !![1, 0; 0, -1] t * r₀.mat n).trace + a.drift * (state.mat n).trace := by
  have htn : t < n := hg.valid.dims.lt t (by simp [ht])
  obtain ⟨r, h1, -, h3⟩ := step_withNoise so hg ht (ns := [a]) (by simpa using ha) hst merge
  obtain ⟨r₀, k1, -, k3⟩ := step_withNoise so hg ht (ns := []) (by simp) hst merge
  refine ⟨.dm r, .dm r₀, h1, k1, ?_⟩
  have htr : (state.mat n).trace = (conjBy (stdMat n g s) (state.mat n)).trace := by
    rw [conjBy, Matrix.trace_mul_comm, ← mul_assoc, hg.unitary.1, one_mul]
  have m1 : (State.dm r).mat n = _ := h3
  have m2 : (State.dm r₀).mat n = _ := k3
  rw [m1, m2, htr]
  simp only [List.foldl_cons, List.foldl_nil]
  generalize conjBy (stdMat n g s) (state.mat n) = σ
  exact chan_mean_z ha htn σ

/-- **C78** (loss of phase is invisible): appending phase flips or phase damping to the noise of the last gate changes
no outcome probability. -/
theorem C78_dephasing {pre : List Gate} (hpre : ∀ g ∈ pre, g.Ok n ot values) {nss : List (List StdNoise)}
    (hn : List.Forall₂ Gate.NoiseIs pre nss) (hg : g.Ok n ot values) {t : ℕ} (ht : g.target = [t]) {ns : List StdNoise}
    (hns : ∀ s ∈ ns, s.Valid) {a : StdNoise} (ha : a.Valid) (hp : a.IsPhase) {state : State} (hst : state.On n) (merge : Bool) :
    ∃ r r₀, applyGates so state (.list (pre ++ [g.withNoise (ns ++ [a])])) values ot false merge = .ok r ∧
      applyGates so state (.list (pre ++ [g.withNoise ns])) values ot false merge = .ok r₀ ∧
      ∀ b, r.prob n b = r₀.prob n b := by
  have htn : t < n := hg.valid.dims.lt t (by simp [ht])
  have hv : ∀ s ∈ ns ++ [a], s.Valid := by
    simp only [List.mem_append, List.mem_singleton]; rintro s (h | rfl)
    exacts [hns s h, ha]
  obtain ⟨r, h1, -, h3⟩ := run_withNoise so hpre (post := []) (by simp) hn .nil hg ht hv hst merge
  obtain ⟨r₀, k1, -, k3⟩ := run_withNoise so hpre (post := []) (by simp) hn .nil hg ht hns hst merge
  refine ⟨.dm r, .dm r₀, h1, k1, fun b => ?_⟩
  show (dmMat n r.array b b).re = (dmMat n r₀.array b b).re
  rw [h3, k3]
  simp only [List.foldl_append, List.foldl_cons, List.foldl_nil, List.zip_nil_left, noisyRun]
  generalize ns.foldl _ _ = σ
  have hq := qblock_chan ha ⟨t, htn⟩ σ b b
  simp only at hq
  have hd : ∀ i : Fin 2, a.chan1 (qblock ⟨t, htn⟩ σ b b) i i = qblock ⟨t, htn⟩ σ b b i i := by
    intro i
    cases a <;> first | exact hp.elim | skip
    all_goals
      fin_cases i <;> simp [StdNoise.chan1]
  have := congrFun (congrFun hq (b ⟨t, htn⟩)) (b ⟨t, htn⟩)
  rw [hd] at this
  simp only [qblock, Matrix.of_apply, Lab.set_self] at this
  rw [this]

/-- **C78** (documentation): the closure property `Σ K K† = 1` printed in `docs/noise.md` holds exactly for the noise
without drift (the one that holds for all noise is `Σ K† K = 1`, C09). -/
theorem C78_docs_closure {ni : NoiseInstance} {a : StdNoise} (h : ni.Is a) {ks : List (NDArray ℂ)} (hk : ni.kraus = .ok ks) :
    (∀ i j, i < 2 → j < 2 →
      (ks.map fun k => ∑ l ∈ Finset.range 2, k.get [i, l] * star (k.get [j, l])).sum = if i = j then 1 else 0) ↔
    a.drift = 0 := by
  obtain ⟨ks', h', hgk⟩ := h.kraus
  obtain rfl : ks' = ks := by rw [hk] at h'; exact (Except.ok.inj h').symm
  have key : ∀ i j : Fin 2, (ks'.map fun k => ∑ l ∈ Finset.range 2, k.get [i.val, l] * star (k.get [j.val, l])).sum
      = a.chan1 1 i j := by
    intro i j
    have e := congrArg (fun M => qblock (0 : Fin 1) M 0 0) (hgk.chan 1 0 1)
    have e1 : qblock (0 : Fin 1) (a.chan 1 0 1) 0 0 = a.chan1 1 := by
      have := qblock_chan h.valid (0 : Fin 1) 1 0 0
      rw [qblock_one] at this
      exact this
    rw [e1] at e
    rw [← e]
    clear e e1 h hk h' hgk
    induction ks' with
    | nil => rfl
    | cons k ks' ih =>
      simp only [List.map_cons, List.sum_cons, qblock_add, Matrix.add_apply, ih]
      congr 1
      have hM : gateMat 1 (entries k) [0] [] = onQubit 1 (Matrix.of fun i j => k.get [i.val, j.val]) (0 : Fin 1) := by
        refine gateMat_congr fun i j hi hj => ?_
        simp at hi hj
        simp only [matE, entries]
        rw [dif_pos ⟨by omega, by omega⟩]; rfl
      rw [hM, qblock_conjBy, qblock_one, mul_one, Matrix.mul_apply, Fin.sum_univ_two]
      simp [Finset.sum_range_succ]
  constructor
  · intro hc
    have := key ⟨0, by norm_num⟩ ⟨0, by norm_num⟩
    rw [hc 0 0 (by norm_num) (by norm_num), chan1_one] at this
    simpa using this.symm
  · intro h0 i j hi hj
    have := key ⟨i, hi⟩ ⟨j, hj⟩
    rw [this, chan1_one, h0]
    obtain rfl | rfl : i = 0 ∨ i = 1 := by omega
    all_goals obtain rfl | rfl : j = 0 ∨ j = 1 := by omega
    all_goals simp

/-- **C78** (documentation): the generalized amplitude damping channel printed in `docs/noise.md` is the one of the code
exactly if `p = 0` or `γ = 0`. -/
theorem C78_docs_gad (hg : g.Std n values s) {t : ℕ} (ht : g.target = [t]) {p γ : ℝ}
    (ha : (StdNoise.generalizedAmplitudeDamping p γ).Valid) (merge : Bool) :
    (∀ state : State, state.On n → ∃ r,
      applyGates so state (.list [g.withNoise [.generalizedAmplitudeDamping p γ]]) values .unitary false merge = .ok r ∧
      r.mat n = docGAD n t p γ (conjBy (stdMat n g s) (state.mat n))) ↔ p = 0 ∨ γ = 0 := by
  have htn : t < n := hg.valid.dims.lt t (by simp [ht])
  have hv : ∀ s ∈ [StdNoise.generalizedAmplitudeDamping p γ], s.Valid := by simpa using ha
  have hdoc : ∀ (σ : Matrix (Lab n) (Lab n) ℂ) (x y : Lab n), qblock ⟨t, htn⟩ (docGAD n t p γ σ) x y
      = (StdNoise.generalizedAmplitudeDamping p γ).chan1 (qblock ⟨t, htn⟩ σ x y)
        + !![-(p * γ * qblock ⟨t, htn⟩ σ x y 1 1 : ℂ), 0; 0, p * γ * qblock ⟨t, htn⟩ σ x y 1 1] := by
    intro σ x y
    have h0 : ((√γ : ℝ) : ℂ) * ((√γ : ℝ) : ℂ) = γ := by rw [← Complex.ofReal_mul, Real.mul_self_sqrt ha.2.1]
    have e := qblock_chan ha ⟨t, htn⟩ σ x y
    rw [← e]
    have c1 := qblock_conjBy !![0, 0; 0, ((√γ : ℝ) : ℂ)] ⟨t, htn⟩ σ x y
    have c2 := qblock_conjBy !![0, ((√γ : ℝ) : ℂ); 0, 0] ⟨t, htn⟩ σ x y
    simp only [docGAD, StdNoise.chan, qblock_add, qblock_smul] at c1 c2 ⊢
    rw [c1, c2]
    generalize qblock ⟨t, htn⟩ σ x y = B
    have key : ∀ a b c d : ℂ, !![a, b; c, d] * B * (!![a, b; c, d]).conjTranspose =
        !![(a * B 0 0 + b * B 1 0) * star a + (a * B 0 1 + b * B 1 1) * star b,
          (a * B 0 0 + b * B 1 0) * star c + (a * B 0 1 + b * B 1 1) * star d;
          (c * B 0 0 + d * B 1 0) * star a + (c * B 0 1 + d * B 1 1) * star b,
          (c * B 0 0 + d * B 1 0) * star c + (c * B 0 1 + d * B 1 1) * star d] := by
      intro a b c d
      ext i j
      fin_cases i <;> fin_cases j <;> simp [Matrix.mul_apply, Fin.sum_univ_two, Matrix.vecMul, dotProduct]
    rw [key, key]
    have hq : star ((√γ : ℝ) : ℂ) = ((√γ : ℝ) : ℂ) := Complex.conj_ofReal _
    ext i j
    fin_cases i <;> fin_cases j <;>
      simp only [Matrix.add_apply, Matrix.smul_apply, smul_eq_mul, Matrix.of_apply, Matrix.cons_val', Matrix.cons_val_zero,
        Matrix.cons_val_one, Fin.zero_eta, Fin.mk_one, Fin.isValue, Matrix.cons_val_fin_one, star_zero, hq]
    · linear_combination -(p : ℂ) * B 1 1 * h0
    · ring
    · ring
    · linear_combination (p : ℂ) * B 1 1 * h0
  constructor
  · intro h
    obtain ⟨ρ, h1, h2⟩ := exists_dm (1 : Matrix (Lab n) (Lab n) ℂ)
    obtain ⟨r, e1, e2⟩ := h (.dm ρ) h1
    obtain ⟨r', k1, -, k3⟩ := step_withNoise so hg ht hv (state := .dm ρ) h1 merge
    obtain rfl : r = .dm r' := by rw [e1] at k1; cases k1; rfl
    have hm : (State.dm ρ).mat n = 1 := h2
    have e2 : dmMat n r'.array = _ := e2
    rw [k3, hm, conjBy_std_one hg] at e2
    have := congrArg (fun M => qblock ⟨t, htn⟩ M 0 0) e2
    simp only [List.foldl_cons, List.foldl_nil] at this
    rw [hdoc, qblock_chan ha ⟨t, htn⟩, qblock_one] at this
    have := congrFun (congrFun this 1) 1
    simpa using this
  · intro h state hst
    obtain ⟨r', k1, -, k3⟩ := step_withNoise so hg ht hv hst merge
    refine ⟨.dm r', k1, ?_⟩
    refine Eq.trans k3 (qblock_ext (t := ⟨t, htn⟩) fun x y => ?_)
    simp only [List.foldl_cons, List.foldl_nil]
    rw [hdoc, qblock_chan ha ⟨t, htn⟩]
    have hz : (p : ℂ) * γ = 0 := by rcases h with rfl | rfl <;> simp
    have : !![-((p : ℂ) * γ * qblock ⟨t, htn⟩ (conjBy (stdMat n g s) (state.mat n)) x y 1 1), 0;
        0, (p : ℂ) * γ * qblock ⟨t, htn⟩ (conjBy (stdMat n g s) (state.mat n)) x y 1 1] = 0 := by
      rw [hz, zero_mul, neg_zero]; ext i j; fin_cases i <;> fin_cases j <;> rfl
    rw [this, add_zero]

/-! ## The noisy `X` gate of the documentation -/

theorem conjBy_X_diag (t : Fin n) (M : Matrix (Lab n) (Lab n) ℂ) (x : Lab n) :
    conjBy (onQubit n !![0, 1; 1, 0] t) M x x = M (x.flip t) (x.flip t) := by
  have hf : x.flip t = x.set t (1 - x t) := by
    funext i
    by_cases h : i = t
    · subst h; simp [Lab.flip, Lab.set]
    · rw [Lab.flip, if_neg (fun e => h (Fin.ext e)), Lab.set, Function.update_of_ne h]
  have := congrFun (congrFun (qblock_conjBy !![0, 1; 1, 0] t M x x) (x t)) (x t)
  rw [qblock, Matrix.of_apply, Lab.set_self] at this
  rw [this, hf]
  obtain h | h : x t = 0 ∨ x t = 1 := by omega
  · rw [h]; simp [Matrix.mul_apply, Fin.sum_univ_two, qblock, Matrix.vecMul, dotProduct]; rfl
  · rw [h]; simp [Matrix.mul_apply, Fin.sum_univ_two, qblock, Matrix.vecMul, dotProduct]; rfl

theorem Lab.flip_flip (x : Lab n) (q : ℕ) : (x.flip q).flip q = x := by
  funext i
  simp only [Lab.flip]
  split_ifs <;> simp

/-- **C78** (documentation): the circuit of `docs/noise.md`, `X(q, noise=(BitFlip(p),))` on the product state `b`
(as a state vector or as a density matrix), yields the flipped bit string with probability `1 - p` and the given one with
probability `p`; by C27 these are the frequencies of `sample`. -/
theorem C78_noisy_x {q : ℕ} (hq : q < n) {p : ℝ} (hp : 0 ≤ p ∧ p ≤ 1) (b : Lab n) {a : NDArray ℂ}
    (ha : productState b.str = .ok a) {state : State} (hst : state = .vec a ∨ state = .dm (densityMat a)) :
    ∃ out, run so (mkSeq [.prim (Gate.X (.int q) (noise := some [⟨.bitFlip, .float p⟩]))]) state values = .ok (some out) ∧
      out.On n ∧ out.Normalised n ∧
      ∀ x, out.prob n x = (if x = b.flip q then 1 - p else 0) + (if x = b then p else 0) := by
  obtain ⟨a', h1, h2, h3⟩ := C28_product_state b
  obtain rfl : a' = a := by rw [h1] at ha; cases ha; rfl
  have hX : (Gate.X (.int q) (noise := some [⟨.bitFlip, .float p⟩])).Std n values .X :=
    ⟨.X _ _ _, rfl, ⟨.inr (.inl rfl), ⟨by simp [Gate.X, mkGate, ctlInts, parseControl, parseTarget], by
      simp [Gate.X, mkGate, ctlInts, parseControl, parseTarget, hq]⟩⟩⟩
  have hN : (Gate.X (.int q) (noise := some [⟨.bitFlip, .float p⟩])).NoiseIs [.bitFlip p] :=
    .some rfl (.cons (.bitFlip hp) .nil) (.inr ⟨q, rfl⟩)
  have hon : state.On n := by
    rcases hst with rfl | rfl
    exacts [h2, (densityMat_isDM h2).1]
  have hmat : state.mat n = (State.vec a').mat n := by
    rcases hst with rfl | rfl
    exacts [rfl, State.mat_densityMat h2]
  obtain ⟨out, r1, r2⟩ := callSeq_evolved so (gs := [Gate.X (.int q) (noise := some [⟨.bitFlip, .float p⟩])])
    (nss := [[.bitFlip p]]) (values := values) (by simp) (by simpa using hX.ok) (.cons hN .nil) hon
  have hout : out.mat n = (StdNoise.bitFlip p).chan n q (conjBy (onQubit n !![0, 1; 1, 0] q) ((State.vec a').mat n)) := by
    have e : out.mat n = noisyRun n .unitary values [(Gate.X (.int q) (noise := some [⟨.bitFlip, .float p⟩]), [.bitFlip p])]
        (state.mat n) := by
      cases state <;> cases out <;> first | exact r2.elim | skip
      · exact absurd (r2.1 _ (List.mem_singleton_self _)) (by simp [Gate.X, mkGate])
      · exact r2.2.2
      · exact r2.2
    rw [e, hmat, noisyRun, noisyRun, noisyStep, hX.mat]
    rfl
  have hprob : ∀ x, out.prob n x = (if x = b.flip q then 1 - p else 0) + (if x = b then p else 0) := by
    intro x
    have hM : ∀ y : Lab n, (State.vec a').mat n y y = if y = b then 1 else 0 := by
      intro y
      have := h3 y
      show a'.get y.bits * star (a'.get y.bits) = _
      rw [show a'.get y.bits = ket n a' y from rfl, this]
      split_ifs <;> simp
    rw [State.prob, hout]
    simp only [StdNoise.chan, Matrix.add_apply, Matrix.smul_apply, smul_eq_mul]
    have d := fun M => conjBy_X_diag (⟨q, hq⟩ : Fin n) M x
    have d' := fun M => conjBy_X_diag (⟨q, hq⟩ : Fin n) M (x.flip q)
    simp only at d d'
    rw [d, d, d', Lab.flip_flip, hM, hM]
    have hx : x.flip q = b ↔ x = b.flip q := ⟨fun h => by rw [← h, Lab.flip_flip], fun h => by rw [h, Lab.flip_flip]⟩
    simp only [hx]
    split_ifs <;> simp
  refine ⟨out, r1, r2.on, ⟨fun x => ?_, ?_⟩, hprob⟩
  · rw [hprob]
    have : 0 ≤ 1 - p := by linarith [hp.2]
    split_ifs <;> linarith [hp.1]
  · simp only [hprob, Finset.sum_add_distrib, Finset.sum_ite_eq', Finset.mem_univ, if_true]
    ring

end circuits

end Verif
