import Mathlib.LinearAlgebra.Matrix.PosDef
import Mathlib.Analysis.Complex.Order
import Verif.Lemmas.Noise

/-! # Channels in Kraus form: trace, positivity, commutation, locality -/

namespace Verif
open NDArray
open scoped ComplexOrder
variable {n : ℕ}

/-- Products of gate matrices on qubits of `S`. -/
inductive OpOn (n : ℕ) (S : List ℕ) : Matrix (Lab n) (Lab n) ℂ → Prop
  | gate {U : ℕ → ℕ → ℂ} {ts cs : List ℕ} (hv : ValidDims n (cs ++ ts)) (hs : ∀ q ∈ cs ++ ts, q ∈ S) :
      OpOn n S (gateMat n U ts cs)
  | mul {A B : Matrix (Lab n) (Lab n) ℂ} (hA : OpOn n S A) (hB : OpOn n S B) : OpOn n S (A * B)

theorem OpOn.comm {S S' : List ℕ} (hd : ∀ q ∈ S, q ∉ S') {A B : Matrix (Lab n) (Lab n) ℂ} (hA : OpOn n S A)
    (hB : OpOn n S' B) : A * B = B * A := by
  induction hA with
  | @gate U ts cs hv hs =>
    induction hB with
    | @gate V ts' cs' hv' hs' =>
      refine gateMat_comm_disjoint _ _ ⟨List.nodup_append.2 ⟨hv.nodup, hv'.nodup, ?_⟩, ?_⟩
      · rintro a ha b hb rfl; exact hd a (hs a ha) (hs' a hb)
      · intro q hq
        rcases List.mem_append.1 hq with h | h
        · exact hv.lt q h
        · exact hv'.lt q h
    | mul _ _ ih1 ih2 => rw [← mul_assoc, ih1, mul_assoc, ih2, mul_assoc]
  | mul _ _ ih1 ih2 => rw [mul_assoc, ih2, ← mul_assoc, ih1, mul_assoc]

theorem OpOn.block {S : List ℕ} {A : Matrix (Lab n) (Lab n) ℂ} (hA : OpOn n S A) {b b' : Lab n} (h : A b b' ≠ 0) :
    Lab.AgreeOff S b b' := by
  induction hA generalizing b b' with
  | @gate U ts cs hv hs =>
    simp only [gateMat] at h
    split_ifs at h with h1 h2 h3
    · intro q hq
      exact h2 q fun hq' => hq (hs _ (by simp [hq']))
    · exact absurd rfl h
    · subst h3; intro q _; rfl
    · exact absurd rfl h
  | @mul A B _ _ ih1 ih2 =>
    rw [Matrix.mul_apply] at h
    obtain ⟨c, -, hc⟩ := Finset.exists_ne_zero_of_sum_ne_zero h
    have h1 := ih1 (left_ne_zero_of_mul hc)
    have h2 := ih2 (right_ne_zero_of_mul hc)
    intro q hq
    rw [h1 q hq, h2 q hq]

theorem OpOn.mono {S S' : List ℕ} (h : ∀ q ∈ S, q ∈ S') {A : Matrix (Lab n) (Lab n) ℂ} (hA : OpOn n S A) :
    OpOn n S' A := by
  induction hA with
  | gate hv hs => exact .gate hv fun q hq => h q (hs q hq)
  | mul _ _ ih1 ih2 => exact .mul ih1 ih2

/-- `f` is a channel given by Kraus operators on the qubits of `S`. -/
def KrausOn (n : ℕ) (S : List ℕ) (f : Matrix (Lab n) (Lab n) ℂ → Matrix (Lab n) (Lab n) ℂ) : Prop :=
  ∃ As : List (Matrix (Lab n) (Lab n) ℂ), (∀ A ∈ As, OpOn n S A) ∧
    (As.map fun A => A.conjTranspose * A).sum = 1 ∧ ∀ ρ, f ρ = (As.map fun A => conjBy A ρ).sum

theorem conjBy_sum (A : Matrix (Lab n) (Lab n) ℂ) {α : Type} (l : List α) (f : α → Matrix (Lab n) (Lab n) ℂ) :
    conjBy A (l.map f).sum = (l.map fun x => conjBy A (f x)).sum := by
  induction l with
  | nil => simp [conjBy]
  | cons a l ih => simp only [List.map_cons, List.sum_cons, ← ih]; simp [conjBy, mul_add, add_mul]

theorem conjBy_conjBy (A B ρ : Matrix (Lab n) (Lab n) ℂ) : conjBy A (conjBy B ρ) = conjBy (A * B) ρ := by
  simp [conjBy, Matrix.conjTranspose_mul, mul_assoc]

theorem sum_flatMap {α β : Type} [AddCommMonoid β] (l : List α) (f : α → List β) :
    (l.flatMap f).sum = (l.map fun a => (f a).sum).sum := by
  induction l with
  | nil => rfl
  | cons a l ih => simp [ih]

theorem list_sum_mul_right' (l : List (Matrix (Lab n) (Lab n) ℂ)) (A : Matrix (Lab n) (Lab n) ℂ) :
    l.sum * A = (l.map fun x => x * A).sum := by
  induction l with
  | nil => simp
  | cons a l ih => simp [add_mul, ih]

theorem list_sum_mul_left' (l : List (Matrix (Lab n) (Lab n) ℂ)) (A : Matrix (Lab n) (Lab n) ℂ) :
    A * l.sum = (l.map fun x => A * x).sum := by
  induction l with
  | nil => simp
  | cons a l ih => simp [mul_add, ih]

theorem KrausOn.id {S : List ℕ} (hS : ∃ q ∈ S, q < n) : KrausOn n S fun ρ => ρ := by
  obtain ⟨q, hq, hqn⟩ := hS
  refine ⟨[gateMat n oneE [q] []], ?_, ?_, ?_⟩
  · simp only [List.mem_singleton, forall_eq]
    exact .gate ⟨by simp, by simpa using hqn⟩ (by simpa using hq)
  · simp [gateMat_one]
  · simp [gateMat_one, conjBy]

theorem KrausOn.mono {S S' : List ℕ} (h : ∀ q ∈ S, q ∈ S') {f : Matrix (Lab n) (Lab n) ℂ → Matrix (Lab n) (Lab n) ℂ}
    (hf : KrausOn n S f) : KrausOn n S' f := by
  obtain ⟨As, h1, h2, h3⟩ := hf
  exact ⟨As, fun A hA => (h1 A hA).mono h, h2, h3⟩

theorem KrausOn.comp {S : List ℕ} {f g : Matrix (Lab n) (Lab n) ℂ → Matrix (Lab n) (Lab n) ℂ}
    (hf : KrausOn n S f) (hg : KrausOn n S g) : KrausOn n S fun ρ => f (g ρ) := by
  obtain ⟨As, h1, h2, h3⟩ := hf
  obtain ⟨Bs, k1, k2, k3⟩ := hg
  refine ⟨Bs.flatMap fun B => As.map fun A => A * B, ?_, ?_, ?_⟩
  · intro C hC
    simp only [List.mem_flatMap, List.mem_map] at hC
    obtain ⟨B, hB, A, hA, rfl⟩ := hC
    exact .mul (h1 A hA) (k1 B hB)
  · rw [List.map_flatMap, sum_flatMap, ← k2]
    congr 1
    apply List.map_congr_left
    intro B _
    rw [List.map_map]
    have : (fun A => A.conjTranspose * A) ∘ (fun A => A * B)
        = fun A : Matrix (Lab n) (Lab n) ℂ => B.conjTranspose * ((A.conjTranspose * A) * B) := by
      funext A; simp [Matrix.conjTranspose_mul, mul_assoc]
    rw [this]
    have e := congrArg (fun X => B.conjTranspose * (X * B)) h2
    simp only [one_mul] at e
    rw [← e, list_sum_mul_right', list_sum_mul_left', List.map_map, List.map_map]
    rfl
  · intro ρ
    simp only []
    rw [h3, List.map_flatMap, sum_flatMap]
    simp only [k3, conjBy_sum, List.map_map]
    -- exchange the two sums
    have key : ∀ (l : List (Matrix (Lab n) (Lab n) ℂ)), (l.map fun A => (Bs.map fun B => conjBy A (conjBy B ρ)).sum).sum
        = (Bs.map fun B => (l.map fun A => conjBy A (conjBy B ρ)).sum).sum := by
      intro l
      induction l with
      | nil => simp
      | cons A l ih =>
        simp only [List.map_cons, List.sum_cons, ih]
        rw [← List.sum_map_add]
    rw [key]
    congr 1
    apply List.map_congr_left
    intro B _
    congr 1
    apply List.map_congr_left
    intro A _
    exact conjBy_conjBy A B ρ

theorem KrausOn.trace {S : List ℕ} {f : Matrix (Lab n) (Lab n) ℂ → Matrix (Lab n) (Lab n) ℂ} (hf : KrausOn n S f)
    (ρ : Matrix (Lab n) (Lab n) ℂ) : (f ρ).trace = ρ.trace := by
  obtain ⟨As, -, h2, h3⟩ := hf
  rw [h3]
  have : ∀ l : List (Matrix (Lab n) (Lab n) ℂ), (l.map fun A => conjBy A ρ).sum.trace
      = ((l.map fun A => A.conjTranspose * A).sum * ρ).trace := by
    intro l
    induction l with
    | nil => simp
    | cons A l ih =>
      simp only [List.map_cons, List.sum_cons, Matrix.trace_add, add_mul, ih]
      rw [conjBy, Matrix.trace_mul_comm, mul_assoc]
  rw [this, h2, one_mul]

theorem KrausOn.hermitian {S : List ℕ} {f : Matrix (Lab n) (Lab n) ℂ → Matrix (Lab n) (Lab n) ℂ} (hf : KrausOn n S f)
    {ρ : Matrix (Lab n) (Lab n) ℂ} (h : ρ.IsHermitian) : (f ρ).IsHermitian := by
  obtain ⟨As, -, -, h3⟩ := hf
  rw [h3]
  clear h3
  induction As with
  | nil => simp
  | cons A l ih =>
    simp only [List.map_cons, List.sum_cons]
    exact (Matrix.isHermitian_mul_mul_conjTranspose A h).add ih

theorem KrausOn.posSemidef {S : List ℕ} {f : Matrix (Lab n) (Lab n) ℂ → Matrix (Lab n) (Lab n) ℂ} (hf : KrausOn n S f)
    {ρ : Matrix (Lab n) (Lab n) ℂ} (h : ρ.PosSemidef) : (f ρ).PosSemidef := by
  obtain ⟨As, -, -, h3⟩ := hf
  rw [h3]
  clear h3
  induction As with
  | nil => simpa using Matrix.PosSemidef.zero
  | cons A l ih =>
    simp only [List.map_cons, List.sum_cons]
    exact (h.mul_mul_conjTranspose_same A).add ih

theorem KrausOn.comm {S S' : List ℕ} (hd : ∀ q ∈ S, q ∉ S') {f g : Matrix (Lab n) (Lab n) ℂ → Matrix (Lab n) (Lab n) ℂ}
    (hf : KrausOn n S f) (hg : KrausOn n S' g) (ρ : Matrix (Lab n) (Lab n) ℂ) : f (g ρ) = g (f ρ) := by
  obtain ⟨As, h1, -, h3⟩ := hf
  obtain ⟨Bs, k1, -, k3⟩ := hg
  rw [h3, k3, h3, k3]
  simp only [conjBy_sum]
  have key : ∀ (l : List (Matrix (Lab n) (Lab n) ℂ)), (∀ A ∈ l, OpOn n S A) →
      (l.map fun A => (Bs.map fun B => conjBy A (conjBy B ρ)).sum).sum
        = (Bs.map fun B => (l.map fun A => conjBy B (conjBy A ρ)).sum).sum := by
    intro l hl
    induction l with
    | nil => simp
    | cons A l ih =>
      simp only [List.map_cons, List.sum_cons, ih fun A' h' => hl A' (by simp [h'])]
      rw [← List.sum_map_add]
      congr 1
      apply List.map_congr_left
      intro B hB
      rw [conjBy_conjBy, conjBy_conjBy, (hl A (by simp)).comm hd (k1 B hB)]
  exact key As h1

/-- Sum of the diagonal entries over the labels that agree with `a` outside `S`. -/
theorem KrausOn.marginal {S : List ℕ} {f : Matrix (Lab n) (Lab n) ℂ → Matrix (Lab n) (Lab n) ℂ} (hf : KrausOn n S f)
    (ρ : Matrix (Lab n) (Lab n) ℂ) (a : Lab n) :
    ∑ b with Lab.AgreeOff S a b, f ρ b b = ∑ b with Lab.AgreeOff S a b, ρ b b := by
  obtain ⟨As, h1, h2, h3⟩ := hf
  obtain ⟨P, hP⟩ : ∃ P : Matrix (Lab n) (Lab n) ℂ, P = Matrix.diagonal fun b => if Lab.AgreeOff S a b then 1 else 0 :=
    ⟨_, rfl⟩
  have hsum : ∀ M : Matrix (Lab n) (Lab n) ℂ, ∑ b with Lab.AgreeOff S a b, M b b = (P * M).trace := by
    intro M
    rw [Matrix.trace, Finset.sum_filter]
    apply Finset.sum_congr rfl
    intro b _
    simp [hP, Matrix.diagonal_mul]
  have hcomm : ∀ A, OpOn n S A → P * A = A * P := by
    intro A hA
    funext b b'
    rw [hP, Matrix.diagonal_mul, Matrix.mul_diagonal]
    by_cases h0 : A b b' = 0
    · simp [h0]
    · have hb := OpOn.block hA h0
      have : Lab.AgreeOff S a b ↔ Lab.AgreeOff S a b' := by
        constructor
        · intro h q hq; rw [h q hq, hb q hq]
        · intro h q hq; rw [h q hq, hb q hq]
      simp [this]
  rw [hsum, hsum, h3]
  have : ∀ l : List (Matrix (Lab n) (Lab n) ℂ), (∀ A ∈ l, OpOn n S A) → (P * (l.map fun A => conjBy A ρ).sum).trace
      = (P * ((l.map fun A => A.conjTranspose * A).sum * ρ)).trace := by
    intro l hl
    induction l with
    | nil => simp
    | cons A l ih =>
      simp only [List.map_cons, List.sum_cons, mul_add, Matrix.trace_add, add_mul]
      rw [ih fun A' h' => hl A' (by simp [h'])]
      refine congrArg₂ (· + ·) ?_ rfl
      have hPH : P.conjTranspose = P := by
        rw [hP, Matrix.diagonal_conjTranspose]
        refine congrArg Matrix.diagonal (funext fun b => ?_)
        simp only [Pi.star_apply]
        split_ifs <;> simp
      have hA := hcomm A (hl A (by simp))
      have hA' : A.conjTranspose * P = P * A.conjTranspose := by
        have := congrArg Matrix.conjTranspose hA
        rw [Matrix.conjTranspose_mul, Matrix.conjTranspose_mul, hPH] at this
        exact this
      have hAA : A.conjTranspose * A * P = P * (A.conjTranspose * A) := by
        rw [mul_assoc, ← hA, ← mul_assoc, hA', mul_assoc]
      rw [conjBy, ← mul_assoc, ← mul_assoc, hA, Matrix.trace_mul_comm, ← mul_assoc, ← mul_assoc, hAA, mul_assoc]
  rw [this As h1, h2, one_mul]

/-! ## The channels of the library are of this form -/

theorem krausOn_unitary {U : ℕ → ℕ → ℂ} {ts cs : List ℕ} (hv : ValidDims n (cs ++ ts)) {S : List ℕ}
    (hs : ∀ q ∈ cs ++ ts, q ∈ S) (hU : (gateMat n U ts cs).conjTranspose * gateMat n U ts cs = 1) :
    KrausOn n S (conjBy (gateMat n U ts cs)) :=
  ⟨[gateMat n U ts cs], by simpa using OpOn.gate hv hs, by simpa using hU, by simp⟩

theorem krausOn_chan {ni : NoiseInstance} {s : StdNoise} (h : ni.Is s) {t : ℕ} (ht : t < n) {S : List ℕ} (hS : t ∈ S) :
    KrausOn n S (fun ρ => s.chan n t ρ) := by
  obtain ⟨ks, -, hg⟩ := h.kraus
  have hv : ValidDims n ([] ++ [t]) := ⟨by simp, by simpa using ht⟩
  refine ⟨ks.map fun k => gateMat n (entries k) [t] [], ?_, ?_, ?_⟩
  · intro A hA
    obtain ⟨k, -, rfl⟩ := List.mem_map.1 hA
    exact .gate hv (by simpa using hS)
  · rw [List.map_map]
    have : (fun A => A.conjTranspose * A) ∘ (fun k => gateMat n (entries k) [t] [])
        = fun k : NDArray ℂ => gateMat n (mulE 2 (conjT (entries k)) (entries k)) [t] [] := by
      funext k
      simp only [Function.comp_apply]
      rw [gateMat_conjTranspose _ hv, gateMat_mul _ _ hv]; rfl
    rw [this]
    have hsum : ∀ l : List (NDArray ℂ), (l.map fun k => gateMat n (mulE 2 (conjT (entries k)) (entries k)) [t] []).sum
        = gateMat n (fun i j => (l.map fun k => mulE 2 (conjT (entries k)) (entries k) i j).sum) [t] [] := by
      intro l
      induction l with
      | nil =>
        funext x y
        simp [gateMat_nil_apply]
      | cons k l ih =>
        simp only [List.map_cons, List.sum_cons, ih, ← gateMat_add]
    rw [hsum, ← gateMat_one (ts := [t]) (cs := [])]
    apply gateMat_congr
    intro i j hi hj
    exact hg.tp i j (by simpa using hi) (by simpa using hj)
  · intro ρ
    show s.chan n t ρ = _
    rw [List.map_map, ← hg.chan]; rfl

theorem krausOn_step {g : Gate} {s : StdGate} {values : Values} {ns : List StdNoise} (h : g.Std n values s)
    (hn : g.NoiseIs ns) {S : List ℕ} (hS : ∀ q ∈ ctlInts g.control ++ g.target, q ∈ S) :
    KrausOn n S (noisyStep n (stdMat n g s) (g.target.headD 0) ns) := by
  have h0 : KrausOn n S (conjBy (stdMat n g s)) := krausOn_unitary h.valid.dims hS h.unitary.1
  cases hn with
  | none => exact h0
  | @some nis _ hnz hn ht =>
    rcases ht with rfl | ⟨t, ht⟩
    · cases hn; exact h0
    · have htn : t < n := h.valid.dims.lt t (by simp [ht])
      have htS : t ∈ S := hS t (by simp [ht])
      rw [ht]
      have : noisyStep n (stdMat n g s) ([t].headD 0) ns
          = fun ρ => ns.foldl (fun ρ s => s.chan n t ρ) (conjBy (stdMat n g s) ρ) := rfl
      rw [this]
      have key : ∀ f, KrausOn n S f → KrausOn n S fun ρ => ns.foldl (fun ρ s => s.chan n t ρ) (f ρ) := by
        clear this h0 hnz
        induction hn with
        | nil => intro f hf; exact hf
        | cons hi _ ih =>
          intro f hf
          exact ih _ ((krausOn_chan hi htn htS).comp hf)
      exact key _ h0

theorem stdRun_eq {values : Values} {xs : List (Gate × StdGate × List StdNoise)}
    (h : ∀ x ∈ xs, x.1.Std n values x.2.1) (ρ : Matrix (Lab n) (Lab n) ℂ) :
    noisyRun n .unitary values (xs.map fun x => (x.1, x.2.2)) ρ = stdRun n xs ρ := by
  induction xs generalizing ρ with
  | nil => rfl
  | cons x xs ih =>
    rw [List.map_cons, noisyRun, ih fun y hy => h y (by simp [hy]), (h x (by simp)).mat]; rfl

theorem krausOn_run {values : Values} {xs : List (Gate × StdGate × List StdNoise)} (hne : xs ≠ [])
    (h : ∀ x ∈ xs, x.1.Std n values x.2.1 ∧ x.1.NoiseIs x.2.2) {S : List ℕ}
    (hS : ∀ x ∈ xs, ∀ q ∈ ctlInts x.1.control ++ x.1.target, q ∈ S) : KrausOn n S (stdRun n xs) := by
  cases xs with
  | nil => exact absurd rfl hne
  | cons x xs =>
    have h0 := krausOn_step (h x (by simp)).1 (h x (by simp)).2 (hS x (by simp))
    have key : ∀ f, KrausOn n S f → KrausOn n S fun ρ => stdRun n xs (f ρ) := by
      clear hne h0
      induction xs with
      | nil => intro f hf; exact hf
      | cons y ys ih =>
        intro f hf
        have hy := krausOn_step (h y (by simp)).1 (h y (by simp)).2 (hS y (by simp))
        exact ih (fun z hz => h z (by simp at hz ⊢; tauto)) (fun z hz => hS z (by simp at hz ⊢; tauto)) _ (hy.comp hf)
    exact key _ h0

/-- `apply_gates` with standard noisy gates on a density matrix. -/
theorem applyGates_stdRun (so : SetOrder) {values : Values} {xs : List (Gate × StdGate × List StdNoise)} (hne : xs ≠ [])
    (h : ∀ x ∈ xs, x.1.Std n values x.2.1 ∧ x.1.NoiseIs x.2.2) {ρ : DensityMatrix ℂ} (hρ : IsDM n ρ) (merge : Bool) :
    ∃ r, applyGates so (.dm ρ) (.list (xs.map Prod.fst)) values .unitary false merge = .ok (.dm r) ∧ IsDM n r ∧
      dmMat n r.array = stdRun n xs (dmMat n ρ.array) := by
  have hF : List.Forall₂ Gate.NoiseIs (xs.map Prod.fst) (xs.map fun x => x.2.2) := by
    rw [List.forall₂_map_left_iff, List.forall₂_map_right_iff, List.forall₂_same]
    exact fun x hx => (h x hx).2
  obtain ⟨r, h1, h2, h3⟩ := applyGates_noisy_dm so (ot := .unitary) (values := values) (by simpa using hne)
    (by intro g hg; obtain ⟨x, hx, rfl⟩ := List.mem_map.1 hg; exact (h x hx).1.ok) hF hρ merge
  refine ⟨r, h1, h2, ?_⟩
  rw [h3, ← stdRun_eq fun x hx => (h x hx).1, List.zip_map']

end Verif
