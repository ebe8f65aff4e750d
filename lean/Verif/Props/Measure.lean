import Verif.Props.States
import Verif.Lemmas.GpsrHam
import Verif.Props.Statistics
import Verif.Props.Vqe

/-!
# C94: expectation values from sampled bit strings

The average of a function of the sampled bit strings is an unbiased estimate of the corresponding expectation value; with the usual
change of basis before the measurement this gives every Pauli string, with the same mean and variance as `expectation` with shots.
-/

set_option autoImplicit false

namespace Verif
open NDArray MeasureTheory ProbabilityTheory
open scoped ComplexOrder

/-- The average of `f` over the bit strings of a histogram returned by `sample`. -/
noncomputable def SampleResult.mean (r : SampleResult) (f : String → ℝ) : ℝ :=
  (r.counts.map fun e => (e.2 : ℝ) * f e.1).sum / (r.counts.map fun e => (e.2 : ℝ)).sum

/-- The value `±1` of a Pauli string read off a bit string: the parity of the bits of its qubits (without those of identities). -/
def pauliValue (l : List (Pauli × ℕ)) (s : String) : ℝ :=
  (l.map fun e => match e.1 with
    | .I => 1
    | _ => if s.toList[e.2]? = some '1' then -1 else 1).prod

/-- The gate to apply before the measurement of a Pauli operator: none for Z, a Hadamard gate for X, a rotation by `π/2` for Y. -/
noncomputable def Pauli.basisGates : Pauli → ℕ → List Gate
  | .I, _ => []
  | .Z, _ => []
  | .X, q => [Gate.H (.int q)]
  | .Y, q => [Gate.RX (.num (Real.pi / 2)) (.int q)]

/-- The gates to apply before the measurement of a Pauli string. -/
noncomputable def basisGates (l : List (Pauli × ℕ)) : List Gate := l.flatMap fun e => e.1.basisGates e.2

section
variable {n : ℕ} {values : Values} (so : SetOrder) (eigh : Eigh) (draw : Draw)

theorem counts_sum {counts : List (String × ℕ)} {N : Lab n → ℕ} (hnd : (counts.map Prod.fst).Nodup)
    (hs : ∀ s c, (s, c) ∈ counts → ∃ b : Lab n, s = b.str) (hm : ∀ b c, (b.str, c) ∈ counts ↔ c = N b ∧ 0 < c) (f : String → ℝ) :
    (counts.map fun e => (e.2 : ℝ) * f e.1).sum = ∑ b : Lab n, (N b : ℝ) * f b.str := by
  classical
  have h1 : counts.Nodup := List.Nodup.of_map _ hnd
  rw [← List.sum_toFinset _ h1]
  have h2 : counts.toFinset = (Finset.univ.filter fun b : Lab n => 0 < N b).image fun b => (b.str, N b) := by
    ext ⟨s, c⟩
    simp only [List.mem_toFinset, Finset.mem_image, Finset.mem_filter, Finset.mem_univ, true_and, Prod.mk.injEq]
    constructor
    · intro h
      obtain ⟨b, rfl⟩ := hs s c h
      obtain ⟨rfl, h3⟩ := (hm b c).1 h
      exact ⟨b, h3, rfl, rfl⟩
    · rintro ⟨b, h3, rfl, rfl⟩
      exact (hm b _).2 ⟨rfl, h3⟩
  rw [h2, Finset.sum_image, Finset.sum_filter]
  · refine Finset.sum_congr rfl fun b _ => ?_
    split_ifs with h
    · rfl
    · simp [Nat.eq_zero_of_not_pos h]
  · intro b _ b' _ h
    exact Lab.str_injective (congrArg Prod.fst h)

/-- **C94** (functions of the bit string): for a normalised output state, the average of any function `f` of the bit strings sampled
in `k` pairwise independent shots has the mean `Σ p(b) f(b)` and the variance `(Σ p(b) f(b)² - (Σ p(b) f(b))²) / k`. -/
theorem C94_mean (hn : 1 ≤ n) {circuit : Op} {st out : State} (hr : run so circuit st values = .ok (some out)) (ho : out.On n)
    (hnorm : out.Normalised n) {k : ℤ} (hk : 1 ≤ k) (f : String → ℝ) : ∃ est : (Fin k.toNat → ℝ) → ℝ,
      (∀ draw : Draw, (∀ m j, draw m j ∈ Set.Ico (0 : ℝ) 1) → ∃ r, sample so draw st circuit values k = .ok r ∧
        r.mean f = est (draw k.toNat)) ∧
      ∀ (Ω : Type) [MeasurableSpace Ω] (μ : Measure Ω) (U : Ω → Fin k.toNat → ℝ), PairwiseUniform μ U →
        ∫ ω, est (U ω) ∂μ = ∑ b : Lab n, out.prob n b * f b.str ∧
        Var[fun ω => est (U ω); μ]
          = (∑ b : Lab n, out.prob n b * f b.str ^ 2 - (∑ b : Lab n, out.prob n b * f b.str) ^ 2) / k ∧
        ∀ c : ℝ, 0 < c → μ {ω | c ≤ |est (U ω) - ∑ b : Lab n, out.prob n b * f b.str|}
          ≤ ENNReal.ofReal ((∑ b : Lab n, out.prob n b * f b.str ^ 2 - (∑ b : Lab n, out.prob n b * f b.str) ^ 2) / (k * c ^ 2)) := by
  classical
  obtain ⟨B, b1, b2, b3, -, b5⟩ := C27_born so hn hr ho hnorm
  have hkp : 0 < k.toNat := by omega
  have hkc : ((k.toNat : ℕ) : ℝ) = (k : ℝ) := by
    have : ((k.toNat : ℕ) : ℤ) = k := Int.toNat_of_nonneg (by omega)
    exact_mod_cast this
  let F : (String → ℝ) → ℝ → ℝ := fun f u => ∑ b : Lab n, (B b).indicator (fun _ => f b.str) u
  have hcard : ∀ (u : Fin k.toNat → ℝ) (f : String → ℝ), ∑ b : Lab n, (Nat.card {j // u j ∈ B b} : ℝ) * f b.str = ∑ j, F f (u j) := by
    intro u f
    rw [Finset.sum_comm]
    refine Finset.sum_congr rfl fun b _ => ?_
    rw [Nat.card_eq_fintype_card, Fintype.card_subtype, Finset.card_filter]
    push_cast
    rw [Finset.sum_mul]
    refine Finset.sum_congr rfl fun j _ => ?_
    by_cases hj : u j ∈ B b
    · rw [if_pos hj, Set.indicator_of_mem hj, one_mul]
    · rw [if_neg hj, Set.indicator_of_notMem hj, zero_mul]
  have hsub : ∀ b, B b ⊆ Set.Ico 0 1 := fun b u hu => (b2 u).2 ⟨b, hu⟩
  have hint : ∀ f : String → ℝ, IntegrableOn (F f) (Set.Ico 0 1) ∧ ∫ u in Set.Ico (0 : ℝ) 1, F f u = ∑ b : Lab n, out.prob n b * f b.str := by
    intro f
    have hi : ∀ b : Lab n, IntegrableOn ((B b).indicator fun _ => f b.str) (Set.Ico 0 1) := fun b =>
      (integrable_const (f b.str)).indicator (b1 b).1
    refine ⟨integrable_finsetSum _ fun b _ => hi b, ?_⟩
    rw [integral_finsetSum _ fun b _ => hi b]
    refine Finset.sum_congr rfl fun b _ => ?_
    rw [integral_indicator_const _ (b1 b).1, Measure.real, Measure.restrict_apply (b1 b).1, Set.inter_eq_left.2 (hsub b), (b1 b).2,
      ENNReal.toReal_ofReal (hnorm.1 b), smul_eq_mul]
  have hsq : ∀ u, F f u ^ 2 = F (fun s => f s ^ 2) u := by
    intro u
    by_cases hu : ∃ b, u ∈ B b
    · obtain ⟨b, hb⟩ := hu
      have hF : ∀ f : String → ℝ, F f u = f b.str := by
        intro f
        refine (Finset.sum_eq_single b (fun b' _ hne => Set.indicator_of_notMem (fun h => hne (b3 _ _ _ h hb)) _)
          (by simp)).trans (Set.indicator_of_mem hb _)
      rw [hF f, hF fun s => f s ^ 2]
    · have hF : ∀ f : String → ℝ, F f u = 0 := fun f =>
        Finset.sum_eq_zero fun b _ => Set.indicator_of_notMem (fun h => hu ⟨b, h⟩) _
      rw [hF f, hF fun s => f s ^ 2, zero_pow two_ne_zero]
  refine ⟨fun u => (∑ j, F f (u j)) / k.toNat, fun draw hd => ?_, ?_⟩
  · obtain ⟨r, h1, h2⟩ := b5 draw k hk (hd _)
    obtain ⟨r', h3, h4, h5, h6⟩ := C26_histogram so draw hn hr ho (by rw [hnorm.2]; exact zero_le_one) (fun m j => (hd m j).1) hk
    obtain rfl : r = r' := by rw [h1] at h3; cases h3; rfl
    refine ⟨r, h1, ?_⟩
    rw [SampleResult.mean, counts_sum h4 (fun s c h => (h5 s c h).2.1) h2, hcard]
    congr 1
    have h7 : ((r.counts.map Prod.snd).sum : ℤ) = (k.toNat : ℤ) := by rw [h6]; exact (Int.toNat_of_nonneg (by omega)).symm
    have h8 : (r.counts.map Prod.snd).sum = k.toNat := by exact_mod_cast h7
    rw [← h8]
    induction r.counts with
    | nil => simp
    | cons e l ih => simp only [List.map_cons, List.sum_cons, Nat.cast_add, ih]
  · intro Ω _ μ U hU
    have h2 : IntegrableOn (fun u => F f u ^ 2) (Set.Ico 0 1) := by simp only [hsq]; exact (hint fun s => f s ^ 2).1
    obtain ⟨m1, m2, m3⟩ := average_stats hU hkp (hint f).1 h2
    simp only [hsq] at m3
    rw [(hint f).2] at m2
    rw [(hint f).2, (hint fun s => f s ^ 2).2] at m3
    rw [← hkc]
    refine ⟨m2, m3, fun c hc => ?_⟩
    have := hU.prob hkp
    have h4 := meas_ge_le_variance_div_sq m1 hc
    rw [m2, m3, div_div] at h4
    exact h4

/-! ## Pauli strings in the basis of their eigenvectors -/

theorem str_get (b : Lab n) {q : ℕ} (hq : q < n) : b.str.toList[q]? = some '1' ↔ b.bit q = 1 := by
  have h1 : b.bits[q]? = some (b.bit q) := by
    rw [Lab.bits, List.getElem?_ofFn, dif_pos hq, Lab.bit, dif_pos hq]
  have h2 : b.bit q < 2 := by rw [Lab.bit, dif_pos hq]; exact (b ⟨q, hq⟩).2
  rw [Lab.str, String.toList_ofList, List.getElem?_map, h1, Option.map_some]
  generalize b.bit q = d at h2
  obtain rfl | rfl : d = 0 ∨ d = 1 := by omega
  · simp
  · simp

/-- The Pauli string with Z for every operator that is not the identity. -/
def zString (l : List (Pauli × ℕ)) : List (Pauli × ℕ) := l.map fun e => match e.1 with
  | .I => (.I, e.2)
  | _ => (.Z, e.2)

theorem gateMat_Z {q : ℕ} (hq : q < n) : gateMat n (matE Pauli.Z.mat) [q] []
    = Matrix.diagonal fun b : Lab n => if b.str.toList[q]? = some '1' then -1 else 1 := by
  ext x y
  rw [gateMat_nil_apply, Matrix.diagonal_apply]
  simp only [str_get _ hq]
  have hi : ∀ b : Lab n, b.idx [q] = b.bit q := fun b => by simp [Lab.idx, binVal]
  have hb : ∀ b : Lab n, b.bit q = 0 ∨ b.bit q = 1 := fun b => by
    have : b.bit q < 2 := by rw [Lab.bit, dif_pos hq]; exact (b ⟨q, hq⟩).2
    omega
  by_cases hxy : x = y
  · subst hxy
    rw [if_pos (show Lab.AgreeOff [q] x x from fun _ _ => rfl), if_pos rfl, hi]
    rcases hb x with h | h <;> simp [h, matE, Pauli.mat]
  · rw [if_neg hxy]
    split_ifs with h
    · have hne : x.bit q ≠ y.bit q := fun h' => hxy (Lab.eq_of_agreeOff_of_idx h (by rw [hi, hi, h']))
      rw [hi, hi]
      rcases hb x with h1 | h1 <;> rcases hb y with h2 | h2 <;> simp_all [matE, Pauli.mat]
    · rfl

theorem zString_diagonal {l : List (Pauli × ℕ)} (hnd : (l.map Prod.snd).Nodup) (hl : ∀ e ∈ l, e.2 < n) :
    pauliString n (zString l) = Matrix.diagonal fun b : Lab n => (pauliValue l b.str : ℂ) := by
  induction l with
  | nil =>
    rw [zString, List.map_nil, pauliString_nil]
    simp [pauliValue]
  | cons e l ih =>
    rcases e with ⟨P, k⟩
    rw [List.map_cons, List.nodup_cons] at hnd
    have hk : k < n := hl (P, k) (by simp)
    have ih := ih hnd.2 fun e he => hl e (List.mem_cons_of_mem _ he)
    have hz : ∀ e ∈ zString l, e.2 ≠ k := by
      intro e he h
      obtain ⟨e', he', rfl⟩ := List.mem_map.1 he
      refine hnd.1 (List.mem_map.2 ⟨e', he', ?_⟩)
      rcases e' with ⟨_ | _ | _ | _, q⟩ <;> exact h
    have key : ∀ Q : Pauli, Q ≠ .I → pauliString n ((.Z, k) :: zString l)
        = Matrix.diagonal fun b : Lab n => (((if b.str.toList[k]? = some '1' then -1 else 1) * pauliValue l b.str : ℝ) : ℂ) := by
      intro Q _
      rw [(pauliString_cons .Z hk hz).1, ih, gateMat_Z hk, Matrix.diagonal_mul_diagonal]
      congr 1
      funext b
      split_ifs <;> simp
    cases P
    · change pauliString n ((.I, k) :: zString l) = _
      rw [(pauliString_cons .I hk hz).1, ih]
      have : gateMat n (matE Pauli.I.mat) [k] [] = 1 := by
        rw [← gateMat_one (n := n) (ts := [k]) (cs := [])]
        refine gateMat_congr fun i j hi hj => ?_
        have hi' : i < 2 := by simpa using hi
        have hj' : j < 2 := by simpa using hj
        rw [matE_lt _ hi' hj', Pauli.mat, Matrix.one_apply, oneE]
        simp
      rw [this, one_mul]
      simp [pauliValue]
    · exact key .X (by simp)
    · exact key .Y (by simp)
    · exact key .Z (by simp)

/-- The matrix of the change of basis for one Pauli operator. -/
noncomputable def Pauli.basis : Pauli → Matrix (Fin 2) (Fin 2) ℂ
  | .I => 1
  | .Z => 1
  | .X => !![((1 / Real.sqrt 2 : ℝ) : ℂ), ((1 / Real.sqrt 2 : ℝ) : ℂ); ((1 / Real.sqrt 2 : ℝ) : ℂ), -((1 / Real.sqrt 2 : ℝ) : ℂ)]
  | .Y => !![((1 / Real.sqrt 2 : ℝ) : ℂ), -Complex.I * ((1 / Real.sqrt 2 : ℝ) : ℂ);
      -Complex.I * ((1 / Real.sqrt 2 : ℝ) : ℂ), ((1 / Real.sqrt 2 : ℝ) : ℂ)]

theorem inv_sqrt_two_sq : ((1 / Real.sqrt 2 : ℝ) : ℂ) * ((1 / Real.sqrt 2 : ℝ) : ℂ) = 1 / 2 := by
  rw [← Complex.ofReal_mul, div_mul_div_comm, Real.mul_self_sqrt (by norm_num)]
  norm_num

/-- Z in the changed basis is the Pauli operator. -/
theorem Pauli.basis_conj (P : Pauli) (hP : P ≠ .I) : P.basis.conjTranspose * Pauli.Z.mat * P.basis = P.mat := by
  have h := inv_sqrt_two_sq
  cases P
  · exact absurd rfl hP
  · rw [Pauli.basis]
    generalize hr : (1 / Real.sqrt 2 : ℝ) = r at h ⊢
    ext i j
    fin_cases i <;> fin_cases j <;>
      simp [Matrix.mul_apply, Fin.sum_univ_two, Pauli.mat, Matrix.conjTranspose_apply, h] <;> norm_num
  · rw [Pauli.basis]
    generalize hr : (1 / Real.sqrt 2 : ℝ) = r at h ⊢
    ext i j
    fin_cases i <;> fin_cases j <;>
      simp [Matrix.mul_apply, Fin.sum_univ_two, Pauli.mat, Matrix.conjTranspose_apply]
    · linear_combination (1 + Complex.I * Complex.I) * h + 1 / 2 * Complex.I_mul_I
    · linear_combination (-2 * Complex.I) * h
    · linear_combination (2 * Complex.I) * h
    · linear_combination (-1 - Complex.I * Complex.I) * h - 1 / 2 * Complex.I_mul_I
  · simp [Pauli.basis]

/-- The factor of the change of basis at qubit `q`. -/
noncomputable def basisAt (l : List (Pauli × ℕ)) (q : ℕ) : Matrix (Fin 2) (Fin 2) ℂ :=
  match l.find? fun e => e.2 = q with
  | some e => e.1.basis
  | none => 1

theorem basisAt_conj (l : List (Pauli × ℕ)) (q : ℕ) :
    (basisAt l q).conjTranspose * pauliAt (zString l) q * basisAt l q = pauliAt l q := by
  have h : pauliAt (zString l) q = match l.find? fun e => e.2 = q with
      | some e => (match e.1 with | .I => 1 | _ => Pauli.Z.mat)
      | none => 1 := by
    rw [pauliAt]
    induction l with
    | nil => rfl
    | cons e l ih =>
      rcases e with ⟨P, k⟩
      by_cases hk : k = q
      · cases P <;> simp [zString, List.find?_cons, hk, Pauli.mat]
      · have e1 : (zString ((P, k) :: l)).find? (fun e => e.2 = q) = (zString l).find? fun e => e.2 = q := by
          cases P <;> simp [zString, List.find?_cons, hk]
        have e2 : ((P, k) :: l).find? (fun e => e.2 = q) = l.find? fun e => e.2 = q := by simp [List.find?_cons, hk]
        rw [e1, e2, ih]
  rw [h, basisAt, pauliAt]
  clear h
  generalize l.find? (fun e => decide (e.2 = q)) = o
  rcases o with _ | ⟨P, k⟩
  · simp
  · cases P
    · simp [Pauli.basis, Pauli.mat]
    · exact Pauli.basis_conj .X (by simp)
    · exact Pauli.basis_conj .Y (by simp)
    · exact Pauli.basis_conj .Z (by simp)

theorem Pauli.basis_mat (P : Pauli) {q : ℕ} (hq : q < n) : (∀ g ∈ P.basisGates q, g.Ok n .unitary values ∧ g.noise = none ∧
      ∃ s, g.Std n values s) ∧ gatesMat n .unitary values (P.basisGates q) = gateMat n (matE P.basis) [q] [] := by
  have hv : ValidDims n [q] := ⟨by simp, by simpa using hq⟩
  have hone : gateMat n (matE (1 : Matrix (Fin 2) (Fin 2) ℂ)) [q] [] = 1 := by
    rw [← gateMat_one (n := n) (ts := [q]) (cs := [])]
    refine gateMat_congr fun i j hi hj => ?_
    have hi' : i < 2 := by simpa using hi
    have hj' : j < 2 := by simpa using hj
    rw [matE_lt _ hi' hj', Matrix.one_apply, oneE]
    simp
  cases P
  · exact ⟨by simp [Pauli.basisGates], by rw [Pauli.basisGates, gatesMat, Pauli.basis, hone]⟩
  · have hs : (Gate.H (.int q)).Std n values .H := ⟨.H _ _ _, rfl, ⟨.inr (.inl rfl), hv⟩⟩
    refine ⟨?_, ?_⟩
    · simp only [Pauli.basisGates, List.mem_singleton, forall_eq]
      exact ⟨hs.ok, rfl, _, hs⟩
    · rw [Pauli.basisGates, gatesMat, gatesMat, one_mul, hs.mat]
      change gateMat n (matE _) [q] [] = _
      rw [Pauli.basis]
      congr 2
      simp
  · have hs : (Gate.RX (.num (Real.pi / 2)) (.int q)).Std n values (.RX (Real.pi / 2)) :=
      ⟨.RX _ _ _ (.num _) (by simp), rfl, ⟨.inr (.inl rfl), hv⟩⟩
    refine ⟨?_, ?_⟩
    · simp only [Pauli.basisGates, List.mem_singleton, forall_eq]
      exact ⟨hs.ok, rfl, _, hs⟩
    · rw [Pauli.basisGates, gatesMat, gatesMat, one_mul, hs.mat]
      change gateMat n (matE _) [q] [] = _
      rw [Pauli.basis, show Real.pi / 2 / 2 = Real.pi / 4 by ring, Real.cos_pi_div_four, Real.sin_pi_div_four,
        show Real.sqrt 2 / 2 = 1 / Real.sqrt 2 by rw [div_eq_div_iff (by norm_num) (by positivity), Real.mul_self_sqrt (by norm_num), one_mul]]
  · exact ⟨by simp [Pauli.basisGates], by rw [Pauli.basisGates, gatesMat, Pauli.basis, hone]⟩

theorem basisGates_ok {l : List (Pauli × ℕ)} (hl : ∀ e ∈ l, e.2 < n) :
    ∀ g ∈ basisGates l, g.Ok n .unitary values ∧ g.noise = none ∧ ∃ s, g.Std n values s := by
  intro g hg
  obtain ⟨e, he, hg⟩ := List.mem_flatMap.1 hg
  exact (e.1.basis_mat (hl e he)).1 g hg

theorem basisGates_mat {l : List (Pauli × ℕ)} (hnd : (l.map Prod.snd).Nodup) (hl : ∀ e ∈ l, e.2 < n) :
    gatesMat n .unitary values (basisGates l) = tensorProd n (basisAt l) := by
  induction l with
  | nil => exact tensorProd_one.symm
  | cons e l ih =>
    rcases e with ⟨P, k⟩
    rw [List.map_cons, List.nodup_cons] at hnd
    have hk : k < n := hl (P, k) (by simp)
    have : basisGates ((P, k) :: l) = P.basisGates k ++ basisGates l := rfl
    rw [this, gatesMat_append, ih hnd.2 fun e he => hl e (List.mem_cons_of_mem _ he), (P.basis_mat hk).2, gateMat_single _ hk, tensorProd_mul]
    refine congrArg _ (funext fun q => ?_)
    by_cases hq : k = q
    · subst hq
      have h1 : basisAt l k = 1 := by
        rw [basisAt, List.find?_eq_none.2]
        intro e he
        simp only [decide_eq_true_eq]
        exact fun h => hnd.1 (List.mem_map.2 ⟨e, he, h⟩)
      rw [h1]
      simp [basisAt]
    · have h1 : basisAt ((P, k) :: l) q = basisAt l q := by simp [basisAt, List.find?_cons, hq]
      rw [h1, if_neg fun e => hq e.symm, mul_one]

theorem tensorProd_conjTranspose (f : ℕ → Matrix (Fin 2) (Fin 2) ℂ) :
    (tensorProd n f).conjTranspose = tensorProd n fun q => (f q).conjTranspose := by
  ext x y
  simp only [Matrix.conjTranspose_apply, tensorProd, star_prod]

/-- The Pauli string is the Z string in the changed basis. -/
theorem basis_string {l : List (Pauli × ℕ)} :
    (tensorProd n (basisAt l)).conjTranspose * pauliString n (zString l) * tensorProd n (basisAt l) = pauliString n l := by
  rw [tensorProd_conjTranspose, pauliString, tensorProd_mul, tensorProd_mul]
  exact congrArg _ (funext fun q => basisAt_conj l q)

theorem pauliValue_sq (l : List (Pauli × ℕ)) (s : String) : pauliValue l s ^ 2 = 1 := by
  induction l with
  | nil => simp [pauliValue]
  | cons e l ih =>
    rcases e with ⟨P, k⟩
    have : ∃ x : ℝ, pauliValue ((P, k) :: l) s = x * pauliValue l s ∧ x ^ 2 = 1 := by
      cases P
      · exact ⟨1, by simp [pauliValue], by norm_num⟩
      all_goals
        refine ⟨if s.toList[k]? = some '1' then -1 else 1, by simp [pauliValue], ?_⟩
        split_ifs <;> norm_num
    obtain ⟨x, h1, h2⟩ := this
    rw [h1, mul_pow, h2, ih, one_mul]

theorem expVal_diagonal (f : Lab n → ℝ) (ρ : Matrix (Lab n) (Lab n) ℂ) :
    expVal (Matrix.diagonal fun b => (f b : ℂ)) ρ = ∑ b, (ρ b b).re * f b := by
  rw [expVal, Matrix.trace, Complex.re_sum]
  refine Finset.sum_congr rfl fun b _ => ?_
  rw [Matrix.diag_apply, Matrix.diagonal_mul, Complex.re_ofReal_mul, mul_comm]

theorem normalised_of_physical {r : State} (hp : (r.mat n).PosSemidef) (ht : (r.mat n).trace = 1) : r.Normalised n := by
  refine ⟨fun b => (Complex.le_def.1 hp.diag_nonneg).1, ?_⟩
  have := congrArg Complex.re ht
  rw [Matrix.trace, Complex.re_sum] at this
  exact this

/-- **C94** (Ising Hamiltonians): for a Hamiltonian `Σ c_k P_k` of Pauli strings without X and Y, the average of `Σ c_k (±1)` over the bit
strings sampled from a circuit is an unbiased estimate of the energy of its output. -/
theorem C94_ising {ts : List (ℝ × List (Pauli × ℕ))} (h : PauliTerms n ts) (hz : ∀ t ∈ ts, ∀ e ∈ t.2, e.1 = .I ∨ e.1 = .Z) (hn : 1 ≤ n)
    {circuit : Op} {st out : State} (hr : run so circuit st values = .ok (some out)) (ho : out.On n)
    (hnorm : out.Normalised n) {k : ℤ} (hk : 1 ≤ k) : ∃ est : (Fin k.toNat → ℝ) → ℝ,
      (∀ draw : Draw, (∀ m j, draw m j ∈ Set.Ico (0 : ℝ) 1) → ∃ r, sample so draw st circuit values k = .ok r ∧
        r.mean (fun s => (ts.map fun t => t.1 * pauliValue t.2 s).sum) = est (draw k.toNat)) ∧
      ∀ (Ω : Type) [MeasurableSpace Ω] (μ : Measure Ω) (U : Ω → Fin k.toNat → ℝ), PairwiseUniform μ U →
        ∫ ω, est (U ω) ∂μ = expVal (pauliSum n ts) (out.mat n) ∧
        Var[fun ω => est (U ω); μ] = (expVal (pauliSum n ts * pauliSum n ts) (out.mat n) - expVal (pauliSum n ts) (out.mat n) ^ 2) / k := by
  have hd : pauliSum n ts = Matrix.diagonal fun b : Lab n => (((ts.map fun t => t.1 * pauliValue t.2 b.str).sum : ℝ) : ℂ) := by
    have ht := h.term
    clear h
    induction ts with
    | nil => simp [pauliSum]
    | cons t ts ih =>
      have hzs : zString t.2 = t.2 := by
        have := hz t (by simp)
        rw [zString]
        refine (List.map_congr_left fun e he => ?_).trans (List.map_id _)
        rcases e with ⟨P, q⟩
        rcases this _ he with h | h <;> (simp only at h; subst h; rfl)
      obtain ⟨-, h2, h3⟩ := ht t (by simp)
      rw [pauliSum_cons, ih (fun t ht => hz t (List.mem_cons_of_mem _ ht)) fun t h' => ht t (List.mem_cons_of_mem _ h'), ← hzs,
        zString_diagonal h2 h3, ← Matrix.diagonal_smul, Matrix.diagonal_add]
      congr 1
      funext b
      simp only [Pi.smul_apply, smul_eq_mul, hzs, List.map_cons, List.sum_cons]
      push_cast
      ring
  obtain ⟨est, e1, e2⟩ := C94_mean so hn hr ho hnorm hk fun s => (ts.map fun t => t.1 * pauliValue t.2 s).sum
  refine ⟨est, e1, fun Ω _ μ U hU => ?_⟩
  obtain ⟨m1, m2, -⟩ := e2 Ω μ U hU
  have h1 : expVal (pauliSum n ts) (out.mat n) = ∑ b : Lab n, out.prob n b * (ts.map fun t => t.1 * pauliValue t.2 b.str).sum := by
    rw [hd, expVal_diagonal]; rfl
  have h2 : expVal (pauliSum n ts * pauliSum n ts) (out.mat n)
      = ∑ b : Lab n, out.prob n b * (ts.map fun t => t.1 * pauliValue t.2 b.str).sum ^ 2 := by
    have e : pauliSum n ts * pauliSum n ts
        = Matrix.diagonal fun b : Lab n => (((ts.map fun t => t.1 * pauliValue t.2 b.str).sum ^ 2 : ℝ) : ℂ) := by
      rw [hd, Matrix.diagonal_mul_diagonal]
      congr 1
      funext b
      push_cast
      ring
    rw [e, expVal_diagonal]
    rfl
  exact ⟨by rw [h1]; exact m1, by rw [h1, h2]; exact m2⟩

/-- **C94** (Pauli strings): append to a circuit the gates that turn the eigenvectors of a Pauli string into basis states, and sample.
The average of the parity `±1` of the bits of the string is an unbiased estimate of the expectation value `x` of the Pauli string at the
output of the circuit, with variance `(1 - x²) / k`. -/
theorem C94_pauli {l : List (Pauli × ℕ)} (hnd : (l.map Prod.snd).Nodup) (hl : ∀ e ∈ l, e.2 < n) (hn : 1 ≤ n)
    {circuit measured : Op} {nss : List (List StdNoise)} (hc : circuit.Circuit n values nss)
    (hs : ∀ g ∈ circuit.gates, ∃ s, g.Std n values s) (hm : measured.Plain) (hg : measured.gates = circuit.gates ++ basisGates l)
    {st : State} (hst : st.On n) (hp : (st.mat n).PosSemidef) (ht : (st.mat n).trace = 1) {k : ℤ} (hk : 1 ≤ k) :
    ∃ out, run so circuit st values = .ok (some out) ∧ out.On n ∧ ∃ est : (Fin k.toNat → ℝ) → ℝ,
      (∀ draw : Draw, (∀ m j, draw m j ∈ Set.Ico (0 : ℝ) 1) → ∃ r, sample so draw st measured values k = .ok r ∧
        r.mean (pauliValue l) = est (draw k.toNat)) ∧
      ∀ (Ω : Type) [MeasurableSpace Ω] (μ : Measure Ω) (U : Ω → Fin k.toNat → ℝ), PairwiseUniform μ U →
        ∫ ω, est (U ω) ∂μ = expVal (pauliString n l) (out.mat n) ∧
        Var[fun ω => est (U ω); μ] = (1 - expVal (pauliString n l) (out.mat n) ^ 2) / k := by
  obtain ⟨out, h1, -, h3⟩ := circuit_run so hc hst
  have hb := basisGates_ok (values := values) hl
  have hno : List.Forall₂ Gate.NoiseIs (basisGates l) ((basisGates l).map fun _ => []) := by
    rw [List.forall₂_map_right_iff]
    exact List.forall₂_same.2 fun g hg => .none (hb g hg).2.1
  have hc' : measured.Circuit n values (nss ++ (basisGates l).map fun _ => []) := by
    refine ⟨hm, by simp [hg, hc.ne], fun g h => ?_, by rw [hg]; exact List.rel_append hc.noise hno⟩
    rw [hg] at h
    rcases List.mem_append.1 h with h | h
    · exact hc.ok g h
    · exact (hb g h).1
  obtain ⟨out', k1, -, k3, k4, k5⟩ := run_physical so hc' (fun g h => by
    rw [hg] at h
    rcases List.mem_append.1 h with h | h
    · exact hs g h
    · exact (hb g h).2.2) hst hp
  obtain ⟨q, j1, -, j3⟩ := circuit_run so hc' hst
  obtain rfl : q = out' := by rw [j1] at k1; cases k1; rfl
  rw [hg] at j3
  have hmat : q.mat n = conjBy (tensorProd n (basisAt l)) (out.mat n) := by
    rw [j3.mat (List.rel_append hc.noise hno), List.zip_append hc.noise.length_eq, noisyRun_append,
      noisyRun_noiseless hno fun g h => (hb g h).2.1, basisGates_mat hnd hl, h3.mat hc.noise]
    rfl
  have hexp : ∑ b : Lab n, q.prob n b * pauliValue l b.str = expVal (pauliString n l) (out.mat n) := by
    have e1 : ∑ b : Lab n, q.prob n b * pauliValue l b.str = expVal (pauliString n (zString l)) (q.mat n) := by
      rw [zString_diagonal hnd hl, expVal_diagonal]; rfl
    rw [e1, hmat, ← basis_string (n := n) (l := l), expVal, expVal, conjBy]
    congr 1
    rw [← Matrix.mul_assoc, ← Matrix.mul_assoc, Matrix.trace_mul_comm, ← Matrix.mul_assoc, ← Matrix.mul_assoc]
  rw [ht] at k5
  have hN := normalised_of_physical k4 k5
  obtain ⟨est, e1, e2⟩ := C94_mean so hn j1 k3 hN hk (pauliValue l)
  refine ⟨out, h1, h3.on, est, e1, fun Ω _ μ U hU => ?_⟩
  obtain ⟨m1, m2, -⟩ := e2 Ω μ U hU
  refine ⟨by rw [m1, hexp], ?_⟩
  rw [m2, hexp]
  simp only [pauliValue_sq, mul_one, hN.2]

/-- **C94** (agreement): for a Pauli string with at least one qubit, the estimate from sampled bit strings and the estimate that
`expectation` returns with the same number of shots have the same mean and the same variance. -/
theorem C94_agree {l : List (Pauli × ℕ)} (hne : l ≠ []) (hnd : (l.map Prod.snd).Nodup) (hl : ∀ e ∈ l, e.2 < n) (hn : 1 ≤ n)
    {circuit measured : Op} {nss : List (List StdNoise)} (hc : circuit.Circuit n values nss)
    (hs : ∀ g ∈ circuit.gates, ∃ s, g.Std n values s) (hm : measured.Plain) (hg : measured.gates = circuit.gates ++ basisGates l)
    {st : State} (hst : st.On n) (hp : (st.mat n).PosSemidef) (ht : (st.mat n).trace = 1) {k : ℤ} (hk : 1 ≤ k)
    {mode : DiffMode} (hmode : mode = .ad ∨ mode = .gpsr) :
    ∃ est₁ est₂ : (Fin k.toNat → ℝ) → ℝ,
      (∀ draw : Draw, (∀ m j, draw m j ∈ Set.Ico (0 : ℝ) 1) → ∃ r, sample so draw st measured values k = .ok r ∧
        r.mean (pauliValue l) = est₁ (draw k.toNat)) ∧
      (∀ draw : Draw, expectation so eigh draw st circuit [pauliObs [(1, l)]] values mode k = .ok [est₂ (draw k.toNat)]) ∧
      ∀ (Ω : Type) [MeasurableSpace Ω] (μ : Measure Ω) (U : Ω → Fin k.toNat → ℝ), PairwiseUniform μ U →
        ∫ ω, est₁ (U ω) ∂μ = ∫ ω, est₂ (U ω) ∂μ ∧ Var[fun ω => est₁ (U ω); μ] = Var[fun ω => est₂ (U ω); μ] := by
  obtain ⟨out, h1, h2, est₁, h3, h4⟩ := C94_pauli so hnd hl hn hc hs hm hg hst hp ht hk
  have hT : PauliTerms n [((1 : ℝ), l)] := ⟨by simp, by simpa using ⟨hne, hnd, fun P q h => hl (P, q) h⟩⟩
  obtain ⟨-, o2, o3⟩ := C70_operator hT values
  have hS : pauliSum n [((1 : ℝ), l)] = pauliString n l := by simp [pauliSum]
  rw [hS] at o2 o3
  obtain ⟨r, k1, k2, k3⟩ := C66_estimate so eigh hc hst o2 o3
  obtain rfl : r = out := by rw [h1] at k1; cases k1; rfl
  obtain ⟨q, j1, -, -, j4, j5⟩ := run_physical so hc hs hst hp
  obtain rfl : r = q := by rw [j1] at h1; cases h1; rfl
  obtain ⟨est₂, e1, e2⟩ := k3 j4 (j5.trans ht) k mode hk hmode
  refine ⟨est₁, est₂, h3, e1, fun Ω _ μ U hU => ?_⟩
  obtain ⟨m1, m2⟩ := h4 Ω μ U hU
  obtain ⟨m3, m4, -⟩ := e2 Ω μ U hU
  refine ⟨by rw [m1, m3], ?_⟩
  have hsq : pauliString n l * pauliString n l = 1 := by
    rw [pauliString, tensorProd_mul, ← tensorProd_one]
    refine congrArg _ (funext fun q => ?_)
    rw [pauliAt]
    split
    · rename_i e _
      rcases e with ⟨P, _⟩
      cases P
      · simp [Pauli.mat]
      all_goals
        ext i j
        fin_cases i <;> fin_cases j <;> simp [Pauli.mat]
    · simp
  rw [m2, m4, hsq]
  congr 2
  rw [expVal, one_mul, j5, ht, Complex.one_re]

/-- **C94** (exact values): for a state vector and a circuit without noise, the estimate from sampled bit strings has as its mean the
number that `expectation` returns without shots. -/
theorem C94_exact {l : List (Pauli × ℕ)} (hne : l ≠ []) (hnd : (l.map Prod.snd).Nodup) (hl : ∀ e ∈ l, e.2 < n) (hn : 1 ≤ n)
    {circuit measured : Op} {nss : List (List StdNoise)} (hc : circuit.Circuit n values nss)
    (hs : ∀ g ∈ circuit.gates, ∃ s, g.Std n values s) (hz : ∀ g ∈ circuit.gates, g.noise = none) (hf : values.Flat)
    (hm : measured.Plain) (hg : measured.gates = circuit.gates ++ basisGates l)
    {a : NDArray ℂ} (ha : IsKet n a) (h1 : normSq n a = 1) {k : ℤ} (hk : 1 ≤ k) :
    ∃ (x : ℝ) (est : (Fin k.toNat → ℝ) → ℝ),
      expectation so eigh draw (.vec a) circuit [pauliObs [(1, l)]] values .ad 0 = .ok [x] ∧
      (∀ draw : Draw, (∀ m j, draw m j ∈ Set.Ico (0 : ℝ) 1) → ∃ r, sample so draw (.vec a) measured values k = .ok r ∧
        r.mean (pauliValue l) = est (draw k.toNat)) ∧
      ∀ (Ω : Type) [MeasurableSpace Ω] (μ : Measure Ω) (U : Ω → Fin k.toNat → ℝ), PairwiseUniform μ U →
        ∫ ω, est (U ω) ∂μ = x ∧ Var[fun ω => est (U ω); μ] = (1 - x ^ 2) / k := by
  obtain ⟨out, e1, -, est, e3, e4⟩ := C94_pauli so hnd hl hn hc hs hm hg (st := .vec a) ha (vec_posSemidef a)
    (by rw [vec_trace, h1, Complex.ofReal_one]) hk
  have hT : PauliTerms n [((1 : ℝ), l)] := ⟨by simp, by simpa using ⟨hne, hnd, fun P q h => hl (P, q) h⟩⟩
  obtain ⟨r, x, k1, k2, k3, k4⟩ := C70_vector so eigh draw hT hc hz hf ha
  obtain rfl : out = .vec r := by rw [e1] at k1; cases k1; rfl
  have hS : pauliSum n [((1 : ℝ), l)] = pauliString n l := by simp [pauliSum]
  rw [hS] at k4
  have hx : x = expVal (pauliString n l) ((State.vec r).mat n) := by
    rw [expVal_vec, ← k4, Complex.ofReal_re]
  refine ⟨x, est, k3, e3, ?_⟩
  rw [hx]
  exact e4

/-- A Hadamard gate and a controlled rotation. -/
noncomputable def bellLike : List Gate := [Gate.H (.int 0), Gate.RX (.num 0.7) (.int 1) (.int 0)]

/-- Non-vacuity of `C94_mean`, `C94_pauli`, `C94_agree` and `C94_exact`: the string `X(0) Y(1)` after the circuit of a Hadamard gate and a
controlled rotation on a normalised state. -/
example : (([(Pauli.X, 0), (.Y, 1)] : List (Pauli × ℕ)).map Prod.snd).Nodup ∧
    (∀ e ∈ ([(Pauli.X, 0), (.Y, 1)] : List (Pauli × ℕ)), e.2 < 2) ∧ (gateCircuit 2 bellLike).Circuit 2 [] [[], []] ∧
    (∀ g ∈ (gateCircuit 2 bellLike).gates, ∃ s, g.Std 2 [] s) ∧ (∀ g ∈ (gateCircuit 2 bellLike).gates, g.noise = none) ∧
    (gateCircuit 2 (bellLike ++ basisGates [(.X, 0), (.Y, 1)])).Plain ∧
    (gateCircuit 2 (bellLike ++ basisGates [(.X, 0), (.Y, 1)])).gates
      = (gateCircuit 2 bellLike).gates ++ basisGates [(.X, 0), (.Y, 1)] ∧
    (∃ a, IsKet 2 a ∧ normSq 2 a = 1) ∧ Values.Flat [] := by
  have hs : ∀ g ∈ bellLike, (∃ s, g.Std 2 [] s) ∧ g.noise = none := by
    simp only [bellLike, List.mem_cons, List.not_mem_nil, or_false, forall_eq_or_imp, forall_eq]
    exact ⟨⟨⟨.H, .H _ _ _, rfl, ⟨.inr (.inl rfl), by decide⟩⟩, rfl⟩,
      ⟨.RX 0.7, .RX _ _ _ (.num _) (by simp), rfl, ⟨.inr (.inr ⟨[0], rfl⟩), by decide⟩⟩, rfl⟩
  refine ⟨by decide, by simp, ⟨gateCircuit_plain _ _, by simp [gateCircuit_gates, bellLike], ?_, ?_⟩, ?_, ?_, gateCircuit_plain _ _,
    by simp only [gateCircuit_gates], ?_, .inl rfl⟩
  all_goals try rw [gateCircuit_gates]
  · exact fun g h => (hs g h).1.choose_spec.ok
  · exact .cons (.none rfl) (.cons (.none rfl) .nil)
  · exact fun g h => (hs g h).1
  · exact fun g h => (hs g h).2
  · obtain ⟨a, h1, h2, h3, -⟩ := C30_zero_state 2
    exact ⟨a, h2, h3⟩

/-- Non-vacuity of `C94_ising`: the Ising Hamiltonian `Z(0)Z(1) + 0.3 Z(1) - 2`. -/
example : PauliTerms 2 [(1, [(.Z, 0), (.Z, 1)]), (0.3, [(.Z, 1)]), (-2, [(.I, 0)])] ∧
    ∀ t ∈ ([(1, [(.Z, 0), (.Z, 1)]), (0.3, [(.Z, 1)]), (-2, [(.I, 0)])] : List (ℝ × List (Pauli × ℕ))), ∀ e ∈ t.2, e.1 = .I ∨ e.1 = .Z := by
  refine ⟨⟨by simp, ?_⟩, by simp; rintro P q (h | h) <;> exact .inr h.1⟩
  simp only [List.mem_cons, List.not_mem_nil, or_false, forall_eq_or_imp, forall_eq]
  refine ⟨?_, ?_, ?_⟩ <;> exact ⟨by simp, by decide, by simp⟩

end
end Verif
