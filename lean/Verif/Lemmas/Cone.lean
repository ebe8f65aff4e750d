import Verif.SpecCone
import Verif.Lemmas.Channel
import Verif.Lemmas.Composite

/-! # Operators on some of the qubits, and channels on the others -/

set_option autoImplicit false

namespace Verif
open NDArray
variable {n : ℕ} {values : Values}

/-- `O` commutes with every gate on other qubits than those of `S`. -/
def Inert (n : ℕ) (S : List ℕ) (O : Matrix (Lab n) (Lab n) ℂ) : Prop :=
  ∀ (U : ℕ → ℕ → ℂ) (ts cs : List ℕ), ValidDims n (cs ++ ts) → (∀ q ∈ cs ++ ts, q ∉ S) →
    gateMat n U ts cs * O = O * gateMat n U ts cs

theorem Inert.one (S : List ℕ) : Inert n S 1 := fun _ _ _ _ _ => by simp

theorem Inert.mul {S : List ℕ} {A B : Matrix (Lab n) (Lab n) ℂ} (hA : Inert n S A) (hB : Inert n S B) : Inert n S (A * B) :=
  fun U ts cs hv hd => by rw [← mul_assoc, hA U ts cs hv hd, mul_assoc, hB U ts cs hv hd, mul_assoc]

theorem Inert.add {S : List ℕ} {A B : Matrix (Lab n) (Lab n) ℂ} (hA : Inert n S A) (hB : Inert n S B) : Inert n S (A + B) :=
  fun U ts cs hv hd => by rw [mul_add, add_mul, hA U ts cs hv hd, hB U ts cs hv hd]

theorem Inert.smul {S : List ℕ} {A : Matrix (Lab n) (Lab n) ℂ} (hA : Inert n S A) (c : ℂ) : Inert n S (c • A) :=
  fun U ts cs hv hd => by rw [Matrix.mul_smul, Matrix.smul_mul, hA U ts cs hv hd]

theorem Inert.mono {S S' : List ℕ} (h : ∀ q ∈ S, q ∈ S') {A : Matrix (Lab n) (Lab n) ℂ} (hA : Inert n S A) : Inert n S' A :=
  fun U ts cs hv hd => hA U ts cs hv fun q hq hq' => hd q hq (h q hq')

theorem Inert.conjTranspose {S : List ℕ} {A : Matrix (Lab n) (Lab n) ℂ} (hA : Inert n S A) : Inert n S A.conjTranspose := by
  intro U ts cs hv hd
  have h := congrArg Matrix.conjTranspose (hA (conjT U) ts cs hv hd)
  rw [Matrix.conjTranspose_mul, Matrix.conjTranspose_mul, ← gateMat_conjTranspose _ hv, Matrix.conjTranspose_conjTranspose] at h
  exact h.symm

theorem Inert.sum {S : List ℕ} (l : List (Matrix (Lab n) (Lab n) ℂ)) (h : ∀ A ∈ l, Inert n S A) : Inert n S l.sum := by
  induction l with
  | nil => intro U ts cs _ _; simp
  | cons A l ih => rw [List.sum_cons]; exact (h A (by simp)).add (ih fun B hB => h B (by simp [hB]))

theorem OpOn.inert {S : List ℕ} {A : Matrix (Lab n) (Lab n) ℂ} (hA : OpOn n S A) : Inert n S A :=
  fun U ts cs hv hd => OpOn.comm (S := cs ++ ts) (S' := S) hd (.gate hv fun _ h => h) hA

theorem Inert.comm {S S' : List ℕ} (hd : ∀ q ∈ S', q ∉ S) {O A : Matrix (Lab n) (Lab n) ℂ} (hO : Inert n S O) (hA : OpOn n S' A) :
    A * O = O * A := by
  induction hA with
  | gate hv hs => exact hO _ _ _ hv fun q hq => hd q (hs q hq)
  | mul _ _ ih1 ih2 => rw [mul_assoc, ih2, ← mul_assoc, ih1, mul_assoc]

theorem heisenberg_sum (O ρ : Matrix (Lab n) (Lab n) ℂ) (l : List (Matrix (Lab n) (Lab n) ℂ)) :
    (O * (l.map fun A => conjBy A ρ).sum).trace = ((l.map fun A => A.conjTranspose * O * A).sum * ρ).trace := by
  induction l with
  | nil => simp
  | cons A l ih =>
    simp only [List.map_cons, List.sum_cons, mul_add, add_mul, Matrix.trace_add, ih]
    congr 1
    rw [conjBy, ← mul_assoc, Matrix.trace_mul_comm, ← mul_assoc, ← mul_assoc]

/-- A channel on other qubits does not change the expectation value. -/
theorem KrausOn.drop {S S' : List ℕ} (hd : ∀ q ∈ S', q ∉ S) {f : Matrix (Lab n) (Lab n) ℂ → Matrix (Lab n) (Lab n) ℂ}
    (hf : KrausOn n S' f) {O : Matrix (Lab n) (Lab n) ℂ} (hO : Inert n S O) (ρ : Matrix (Lab n) (Lab n) ℂ) :
    (O * f ρ).trace = (O * ρ).trace := by
  obtain ⟨As, h1, h2, h3⟩ := hf
  rw [h3, heisenberg_sum]
  have : (As.map fun A => A.conjTranspose * O * A) = (As.map fun A => A.conjTranspose * A).map fun X => O * X := by
    rw [List.map_map]
    apply List.map_congr_left
    intro A hA
    have hA' : A.conjTranspose * O = O * A.conjTranspose := by
      have := congrArg Matrix.conjTranspose ((hO.conjTranspose).comm hd (h1 A hA))
      rw [Matrix.conjTranspose_mul, Matrix.conjTranspose_mul, Matrix.conjTranspose_conjTranspose] at this
      exact this.symm
    simp only [Function.comp_apply]
    rw [hA', mul_assoc]
  rw [this, ← list_sum_mul_left', h2, mul_one]

/-- A channel in the Heisenberg picture. -/
theorem KrausOn.pull {S S' : List ℕ} {f : Matrix (Lab n) (Lab n) ℂ → Matrix (Lab n) (Lab n) ℂ}
    (hf : KrausOn n S' f) {O : Matrix (Lab n) (Lab n) ℂ} (hO : Inert n S O) :
    ∃ O', Inert n (S' ++ S) O' ∧ ∀ ρ, (O * f ρ).trace = (O' * ρ).trace := by
  obtain ⟨As, h1, h2, h3⟩ := hf
  refine ⟨(As.map fun A => A.conjTranspose * O * A).sum, Inert.sum _ ?_, fun ρ => by rw [h3, heisenberg_sum]⟩
  intro X hX
  obtain ⟨A, hA, rfl⟩ := List.mem_map.1 hX
  have hi := (h1 A hA).inert.mono (S' := S' ++ S) (by simp +contextual)
  exact (hi.conjTranspose.mul (hO.mono (by simp +contextual))).mul hi

/-- The expectation value is that of the run of the light cone. -/
theorem cone_run {S : List ℕ} {O : Matrix (Lab n) (Lab n) ℂ} (hO : Inert n S O) {l : List (Gate × List StdNoise)}
    (hl : ∀ x ∈ l, (∃ s, x.1.Std n values s) ∧ x.1.NoiseIs x.2) :
    ∃ O', Inert n (coneOf (fun x : Gate × List StdNoise => x.1.qubits) S l).2 O' ∧ ∀ ρ,
      (O * noisyRun n .unitary values l ρ).trace = (O' * ρ).trace ∧
      (O * noisyRun n .unitary values (coneOf (fun x : Gate × List StdNoise => x.1.qubits) S l).1 ρ).trace = (O' * ρ).trace := by
  induction l with
  | nil => exact ⟨O, hO, fun ρ => ⟨rfl, rfl⟩⟩
  | cons x l ih =>
    obtain ⟨O', h1, h2⟩ := ih fun y hy => hl y (by simp [hy])
    obtain ⟨⟨s, hs⟩, hn⟩ := hl x (by simp)
    have hk := krausOn_step hs hn (S := x.1.qubits) fun q hq => hq
    rw [← hs.mat] at hk
    obtain ⟨g, ns⟩ := x
    simp only [coneOf]
    split_ifs with h
    · obtain ⟨O'', h3, h4⟩ := hk.pull h1
      refine ⟨O'', h3, fun ρ => ⟨?_, ?_⟩⟩
      · rw [noisyRun, (h2 _).1, h4]
      · rw [noisyRun, (h2 _).2, h4]
    · refine ⟨O', h1, fun ρ => ⟨?_, (h2 ρ).2⟩⟩
      rw [noisyRun, (h2 _).1]
      exact hk.drop (fun q hq hq' => h ⟨q, hq, hq'⟩) h1 ρ

theorem coneOf_map {α β : Type} (f : α → β) (w : β → List ℕ) (S : List ℕ) (l : List α) :
    coneOf w S (l.map f) = ((coneOf (fun a => w (f a)) S l).1.map f, (coneOf (fun a => w (f a)) S l).2) := by
  induction l with
  | nil => rfl
  | cons a l ih =>
    simp only [List.map_cons, coneOf, ih]
    split_ifs <;> rfl

theorem coneOf_sublist {α : Type} (w : α → List ℕ) (S : List ℕ) (l : List α) : (coneOf w S l).1.Sublist l := by
  induction l with
  | nil => exact .slnil
  | cons a l ih =>
    simp only [coneOf]
    split_ifs
    exacts [ih.cons_cons a, ih.cons a]

theorem inert_leaf {g : Gate} {M : Matrix (Lab n) (Lab n) ℂ} (h : StdLeaf n values g M) {S : List ℕ} (hS : ∀ q ∈ g.qubits, q ∈ S) :
    Inert n S M := by
  obtain ⟨s, hs, -, rfl⟩ := h
  exact (OpOn.gate hs.valid.dims hS).inert

mutual
theorem Op.Means.inert {S : List ℕ} {o : Op} {M : Matrix (Lab n) (Lab n) ℂ} : Op.Means (StdLeaf n values) values o M →
    (∀ g ∈ o.gates, ∀ q ∈ g.qubits, q ∈ S) → Inert n S M
  | .gate h, hS => inert_leaf h (hS _ (by simp [Op.gates]))
  | .seq h, hS => Op.MeansSeq.inert h (by simpa only [Op.gates] using hS)
  | .circ _ _ h, hS => Op.MeansSeq.inert h (by simpa only [Op.gates] using hS)
  | .scale _ h, hS => (Op.MeansSeq.inert h (by simpa only [Op.gates] using hS)).smul _
  | .add h, hS => Op.MeansSum.inert h (by simpa only [Op.gates] using hS)
theorem Op.MeansSeq.inert {S : List ℕ} {os : List Op} {M : Matrix (Lab n) (Lab n) ℂ} : Op.MeansSeq (StdLeaf n values) values os M →
    (∀ g ∈ Op.gatesList os, ∀ q ∈ g.qubits, q ∈ S) → Inert n S M
  | .nil, _ => .one S
  | .cons h hs, hS => (Op.MeansSeq.inert hs fun g hg => hS g (by simp [Op.gatesList, hg])).mul
      (Op.Means.inert h fun g hg => hS g (by simp [Op.gatesList, hg]))
theorem Op.MeansSum.inert {S : List ℕ} {os : List Op} {M : Matrix (Lab n) (Lab n) ℂ} : Op.MeansSum (StdLeaf n values) values os M →
    (∀ g ∈ Op.gatesList os, ∀ q ∈ g.qubits, q ∈ S) → Inert n S M
  | .one h, hS => Op.Means.inert h fun g hg => hS g (by simp [Op.gatesList, hg])
  | .cons h hs, hS => (Op.Means.inert h fun g hg => hS g (by simp [Op.gatesList, hg])).add
      (Op.MeansSum.inert hs fun g hg => hS g (by simp [Op.gatesList, hg]))
end

/-- Measuring the qubits of `S`. -/
theorem inert_diagonal (S : List ℕ) (d : Lab n → ℂ) (hd : ∀ b b' : Lab n, (∀ q ∈ S, b.bit q = b'.bit q) → d b = d b') :
    Inert n S (Matrix.diagonal d) := by
  intro U ts cs hv hdis
  funext b b'
  rw [Matrix.mul_diagonal, Matrix.diagonal_mul]
  by_cases h0 : gateMat n U ts cs b b' = 0
  · simp [h0]
  · have hb := OpOn.block (OpOn.gate hv fun _ h => h) h0
    rw [mul_comm, hd b b' fun q hq => ?_]
    by_cases hqn : q < n
    · exact Lab.agreeOff_iff.1 hb q hqn fun hm => hdis q hm hq
    · simp [Lab.bit, hqn]

end Verif
