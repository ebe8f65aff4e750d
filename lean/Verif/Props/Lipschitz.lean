import Mathlib.Analysis.Calculus.MeanValue
import Verif.Lemmas.Lipschitz

/-!
# C88: small changes of the parameters change expectation values little
-/

set_option autoImplicit false

namespace Verif
open NDArray
open scoped ComplexOrder
variable {n : ℕ} (so : SetOrder) (eigh : Eigh) (draw : Draw) {nss : List (List StdNoise)} {st : State}
  {obs : List Observable} {Os : List (LMat n)}

theorem Near.chan {ρ₀ ρ : LMat n} {δ : ℝ} {s : StdNoise} {ni : NoiseInstance} (hs : ni.Is s) {t : ℕ} (ht : t < n)
    (h : Near ρ₀ ρ δ) : Near (s.chan n t ρ₀) (s.chan n t ρ) δ := by
  obtain ⟨A, B, hA, hB, h1, rfl⟩ := h
  refine ⟨s.chan n t A, s.chan n t B, chan_psd hs ht hA, chan_psd hs ht hB, by rw [chan_trace hs ht]; exact h1, ?_⟩
  have hl := isLin_chan (n := n) t s
  rw [hl.sub, hl.add]

theorem Near.conj {ρ₀ ρ U : LMat n} {δ : ℝ} (hU : U.conjTranspose * U = 1) (h : Near ρ₀ ρ δ) :
    Near (conjBy U ρ₀) (conjBy U ρ) δ := by
  obtain ⟨A, B, hA, hB, h1, rfl⟩ := h
  refine ⟨conjBy U A, conjBy U B, conjBy_psd hA _, conjBy_psd hB _, by rw [conjBy_trace hU]; exact h1, ?_⟩
  simp only [conjBy, mul_sub, mul_add, sub_mul, add_mul]

theorem Near.move {ρ₀ ρ V : LMat n} {δ δ' : ℝ} (h : Near ρ₀ ρ δ) (hρ : ρ.PosSemidef) (ht : ρ.trace = 1) (hV : Moves V δ') :
    Near ρ₀ (conjBy V ρ) (δ + δ') := by
  obtain ⟨A, B, hA, hB, h1, e⟩ := h
  obtain ⟨A', B', hA', hB', h1', e'⟩ := hV ρ hρ
  refine ⟨A + A', B + B', hA.add hA', hB.add hB', ?_, ?_⟩
  · rw [ht, Complex.one_re, mul_one] at h1'
    rw [Matrix.trace_add, Complex.add_re]
    exact add_le_add h1 h1'
  · rw [e', e]; abel

theorem run_lip {v v' : Values} {gs : List Gate} (hs : ∀ g ∈ gs, ∃ s, g.Std n v s) (hn : List.Forall₂ Gate.NoiseIs gs nss)
    {d : Gate → ℝ} (hd : ∀ g ∈ gs, ∃ V : LMat n, V.conjTranspose * V = 1 ∧ g.mat n .unitary v' = V * g.mat n .unitary v ∧ Moves V (d g))
    {ρ ρ' : LMat n} {w : ℝ} (h : States ρ ρ' ∧ Near ρ ρ' w) :
    States (noisyRun n .unitary v (gs.zip nss) ρ) (noisyRun n .unitary v' (gs.zip nss) ρ') ∧
      Near (noisyRun n .unitary v (gs.zip nss) ρ) (noisyRun n .unitary v' (gs.zip nss) ρ') (w + (gs.map d).sum) := by
  induction hn generalizing ρ ρ' w with
  | nil => rw [List.map_nil, List.sum_nil, add_zero]; exact h
  | @cons g ns gs nss hg _ ih =>
    obtain ⟨s, hgs⟩ := hs g (by simp)
    obtain ⟨V, hV, hm, hmv⟩ := hd g (by simp)
    rw [List.map_cons, List.sum_cons, ← add_assoc]
    refine ih (fun g hg => hs g (by simp [hg])) (fun g hg => hd g (by simp [hg])) ?_
    have hU := hgs.unitary.1
    rw [← hgs.mat] at hU
    have h0 : States (conjBy (g.mat n .unitary v) ρ) (conjBy (g.mat n .unitary v') ρ') ∧
        Near (conjBy (g.mat n .unitary v) ρ) (conjBy (g.mat n .unitary v') ρ') (w + d g) := by
      have e : conjBy (g.mat n .unitary v') ρ' = conjBy V (conjBy (g.mat n .unitary v) ρ') := by
        rw [hm]; simp only [conjBy, Matrix.conjTranspose_mul, mul_assoc]
      have h1 := h.1.conj hU
      rw [e]
      exact ⟨⟨h1.1, conjBy_psd h1.2.1 _, h1.2.2.1, (conjBy_trace hV _).trans h1.2.2.2⟩,
        (h.2.conj hU).move h1.2.1 h1.2.2.2 hmv⟩
    show States (noisyStep n (g.mat n .unitary v) (g.target.headD 0) ns ρ) (noisyStep n (g.mat n .unitary v') (g.target.headD 0) ns ρ') ∧
      Near (noisyStep n (g.mat n .unitary v) (g.target.headD 0) ns ρ) (noisyStep n (g.mat n .unitary v') (g.target.headD 0) ns ρ') _
    cases hg with
    | none => exact h0
    | @some nis _ hnz hnn ht =>
      rcases ht with rfl | ⟨t, ht⟩
      · cases hnn; exact h0
      · have htn : t < n := hgs.valid.dims.lt t (by simp [ht])
        rw [ht]
        show States (ns.foldl (fun ρ s => s.chan n t ρ) (conjBy (g.mat n .unitary v) ρ)) (ns.foldl (fun ρ s => s.chan n t ρ) (conjBy (g.mat n .unitary v') ρ')) ∧
          Near (ns.foldl (fun ρ s => s.chan n t ρ) (conjBy (g.mat n .unitary v) ρ)) (ns.foldl (fun ρ s => s.chan n t ρ) (conjBy (g.mat n .unitary v') ρ')) _
        generalize conjBy (g.mat n .unitary v) ρ = σ at h0
        generalize conjBy (g.mat n .unitary v') ρ' = σ' at h0
        clear hnz ih h
        induction hnn generalizing σ σ' with
        | nil => exact h0
        | @cons ni s nis ns h1 _ ih' =>
          refine ih' _ _ ⟨?_, h0.2.chan h1 htn⟩
          obtain ⟨a, b, c, d⟩ := h0.1
          exact ⟨chan_psd h1 htn a, chan_psd h1 htn b, (chan_trace h1 htn _).trans c, (chan_trace h1 htn _).trans d⟩

open Classical in
/-- The number of gates that have the parameter `p`. -/
noncomputable def useCount (gs : List Gate) (p : String) : ℕ := gs.countP fun g => decide (g.Uses p)

open Classical in
theorem sum_useCount {names : List String} (gs : List Gate) (a : Fin names.length → ℝ) :
    (gs.map fun g => ∑ k : Fin names.length, if g.Uses names[k] then a k else 0).sum = ∑ k, useCount gs names[k] * a k := by
  induction gs with
  | nil => simp [useCount]
  | cons g gs ih =>
    rw [List.map_cons, List.sum_cons, ih, ← Finset.sum_add_distrib]
    refine Finset.sum_congr rfl fun k _ => ?_
    rw [useCount, useCount, List.countP_cons]
    by_cases h : g.Uses names[k]
    · rw [if_pos h, decide_eq_true h, if_pos rfl]; push_cast; ring
    · rw [if_neg h, decide_eq_false h, if_neg (by simp)]; push_cast; ring

theorem gate_lip {names : List String} (hnd : names.Nodup) {g : Gate} {s : StdGate} {x : Fin names.length → ℝ} (h : g.Std n (dictAt names x) s)
    (hu : ∀ p, g.Uses p → p ∈ names) (y : Fin names.length → ℝ) {δ : ℝ} (h0 : 0 ≤ δ)
    (hδ : ∀ k : Fin names.length, g.Uses names[k] → |y k - x k| / 2 ≤ δ) :
    ∃ V : LMat n, V.conjTranspose * V = 1 ∧ g.mat n .unitary (dictAt names y) = V * g.mat n .unitary (dictAt names x) ∧ Moves V δ := by
  by_cases hp : ∃ p, g.Uses p
  · obtain ⟨p, hp⟩ := hp
    obtain ⟨sh, R, hR⟩ := h.named hp
    obtain ⟨j, hj, rfl⟩ := List.getElem_of_mem (hu p hp)
    obtain ⟨t, ht⟩ := hR.target
    have hx := hR.std h.valid (dictAt_lookup hnd x ⟨j, hj⟩)
    have hy := hR.std h.valid (dictAt_lookup hnd y ⟨j, hj⟩)
    have hv : ValidDims n (ctlInts g.control ++ [t]) := ht ▸ h.valid.dims
    refine ⟨gateMat n (R (y ⟨j, hj⟩ - x ⟨j, hj⟩)).mat [t] (ctlInts g.control), (gateMat_unitary hv ?_).1, ?_, (hR.fam.moves hv _).mono (hδ ⟨j, hj⟩ hp)⟩
    · have := StdGate.isUnitary (R (y ⟨j, hj⟩ - x ⟨j, hj⟩))
      cases hR <;> exact this
    · rw [hx.mat, hy.mat, stdMat, stdMat, ht, ← hR.fam.add hv]
      congr 2
      ring_nf
  · have hy : g.Std n (dictAt names y) s := h.congr fun q hq => absurd ⟨q, hq⟩ hp
    refine ⟨1, by simp, by rw [h.mat, hy.mat, one_mul], fun ρ hρ => ⟨0, 0, .zero, .zero, ?_, by simp [conjBy]⟩⟩
    simpa using mul_nonneg h0 (Complex.le_def.1 hρ.trace_nonneg).1

/-- **C88** (Lipschitz continuity): in every mode without shots, the expectation value of an observable whose eigenvalues lie
between `lo` and `hi` changes by at most `(hi - lo) / 2 · Σ_p (number of gates with parameter p) · |change of p|` when the parameters
change: for every circuit of standard gates with any controls and any noise. -/
theorem C88_lipschitz {mode : DiffMode} {circuit : Op} (hp : circuit.Plain) {names : List String} (hnd : names.Nodup)
    {x₀ : Fin names.length → ℝ} (hm : ExactMode mode (dictAt names x₀) st circuit)
    (h : BaseSetting so n (dictAt names x₀) circuit.gates nss st obs Os) (hρ : (st.mat n).PosSemidef) (ht : (st.mat n).trace = 1) :
    ∃ F : (Fin names.length → ℝ) → List ℝ,
      (∀ x, expectation so eigh draw st circuit obs (dictAt names x) mode 0 = .ok (F x)) ∧ (∀ x, (F x).length = obs.length) ∧
      ∀ i O lo hi, Os[i]? = some O → O.IsHermitian → SpectrumIn O lo hi → ∀ x y,
        |(F y).getD i 0 - (F x).getD i 0| ≤ (hi - lo) / 2 * ∑ k : Fin names.length, useCount circuit.gates names[k] * |y k - x k| := by
  refine ⟨_, fun x => expectation_exact so eigh draw (hm.everywhere x) hp (h.everywhere so hnd x), fun x => by simp [h.fixed.length_eq], ?_⟩
  intro i O lo hi hO hH hs x y
  simp only [List.getD_eq_getElem?_getD, List.getElem?_map, hO, Option.map_some, Option.getD_some]
  have hx := h.everywhere so hnd x
  classical
  have key := run_lip (v := dictAt names x) (v' := dictAt names y) hx.std hx.noise
    (d := fun g => ∑ k : Fin names.length, if g.Uses names[k] then |y k - x k| / 2 else 0) (fun g hg => by
      obtain ⟨s, hgs⟩ := hx.std g hg
      have hnn : ∀ k : Fin names.length, 0 ≤ if g.Uses names[k] then |y k - x k| / 2 else 0 := fun k => by
        split_ifs
        · positivity
        · exact le_rfl
      refine gate_lip hnd hgs (uses_mem hx.std g hg) y (Finset.sum_nonneg fun k _ => hnn k) fun k hk => ?_
      have := Finset.single_le_sum (fun k _ => hnn k) (Finset.mem_univ k)
      rwa [if_pos hk] at this)
    (ρ := st.mat n) (ρ' := st.mat n) (w := 0) ⟨⟨hρ, hρ, ht, ht⟩, 0, 0, .zero, .zero, by simp, by simp⟩
  rw [zero_add, sum_useCount] at key
  refine (near_expVal hH hs key.1 key.2).trans (le_of_eq ?_)
  rw [mul_comm, Finset.mul_sum, Finset.mul_sum]
  exact Finset.sum_congr rfl fun k _ => by ring

/-- **C88** (gradients are bounded): the partial derivative with respect to a parameter of `m` gates is at most
`m · (hi - lo) / 2` in modulus. -/
theorem C88_gradient {mode : DiffMode} {circuit : Op} (hp : circuit.Plain) {names : List String} (hnd : names.Nodup)
    {x : Fin names.length → ℝ} (hm : ExactMode mode (dictAt names x) st circuit)
    (h : BaseSetting so n (dictAt names x) circuit.gates nss st obs Os) (hρ : (st.mat n).PosSemidef) (ht : (st.mat n).trace = 1)
    {p : String} {D : List ℝ}
    (hD : IsPartial (fun v => expectation so eigh draw st circuit obs v mode 0) (dictAt names x) p D)
    {i : ℕ} {O : LMat n} {lo hi : ℝ} (hO : Os[i]? = some O) (hH : O.IsHermitian) (hs : SpectrumIn O lo hi) :
    |D.getD i 0| ≤ useCount circuit.gates p * ((hi - lo) / 2) := by
  obtain ⟨F, hF, -, hL⟩ := C88_lipschitz so eigh draw hp hnd hm h hρ ht
  have hle : lo ≤ hi := by
    have := expVal_psd hH hs hρ
    rw [ht, Complex.one_re, mul_one, mul_one] at this
    exact this.1.trans this.2
  obtain ⟨x', f, hx', hf, -, hder⟩ := hD
  have hmem : p ∈ names := by
    by_contra hno
    rw [lookup_none (by rw [Values.keys, dictAt_keys]; exact hno)] at hx'
    cases hx'
  obtain ⟨j, hj, rfl⟩ := List.getElem_of_mem hmem
  have hx'' := dictAt_lookup hnd x ⟨j, hj⟩
  obtain rfl : x ⟨j, hj⟩ = x' := by
    have := hx''.symm.trans hx'
    cases this; rfl
  refine (hder i).le_of_lip' (mul_nonneg (Nat.cast_nonneg _) (by linarith)) (Filter.Eventually.of_forall fun t => ?_)
  have hfF : ∀ t, f t = F (Function.update x ⟨j, hj⟩ t) := by
    intro t
    have h1 := hf t
    have h2 := dictAt_upd hnd x ⟨j, hj⟩ t
    beta_reduce at h1
    simp only [Fin.getElem_fin] at h2
    rw [h2, hF] at h1
    exact (Except.ok.inj h1).symm
  have := hL i O lo hi hO hH hs (Function.update x ⟨j, hj⟩ (x ⟨j, hj⟩)) (Function.update x ⟨j, hj⟩ t)
  rw [← hfF, ← hfF] at this
  rw [Real.norm_eq_abs, Real.norm_eq_abs]
  refine this.trans (le_of_eq ?_)
  rw [Finset.sum_eq_single ⟨j, hj⟩]
  · simp only [Function.update_self, Fin.getElem_fin]; ring
  · intro k _ hk
    rw [Function.update_of_ne hk, Function.update_of_ne hk]; simp
  · simp

/-- **C88** (the bounds are attained): the energy of two rotations `RX(a)` with the same parameter has at `a = π/4` the
derivative `-2`, which is the bound `2 · (1 - (-1)) / 2`. -/
theorem C88_attained :
    useCount twiceRX.gates "a" = 2 ∧ SpectrumIn (gateMat 1 StdGate.Z.mat [0] []) (-1) 1 ∧
    IsPartial (fun v => expectation so eigh draw (.vec zero1) twiceRX [obsZ] v .gpsr 0) [("a", .num (Real.pi / 4))] "a" [-2] ∧
    |([-2] : List ℝ).getD 0 0| = useCount twiceRX.gates "a" * ((1 - (-1)) / 2) := by
  have hc : useCount twiceRX.gates "a" = 2 := by
    have h : (Gate.RX (.str "a") (.int 0)).Uses "a" := rfl
    simp [useCount, twiceRX_gates, h]
  refine ⟨hc, flip_spectrum.2, ⟨Real.pi / 4, fun t => [Real.cos (2 * t)], rfl, fun t => ?_, fun t => rfl, fun i => ?_⟩, ?_⟩
  · exact (expectation_gates so eigh draw twiceRX_plain _).trans (twice_value so rfl)
  · cases i with
    | zero =>
      have h1 : HasDerivAt (fun t : ℝ => 2 * t) (2 * 1) (Real.pi / 4) := (hasDerivAt_id _).const_mul 2
      have h2 := h1.cos
      rw [show 2 * (Real.pi / 4) = Real.pi / 2 by ring, Real.sin_pi_div_two] at h2
      simpa using h2
    | succ i => simpa using hasDerivAt_const (Real.pi / 4) (0 : ℝ)
  · rw [hc]; norm_num

/-- Non-vacuity of `C88_lipschitz` and `C88_gradient`: the circuit of `C88_attained` meets the hypotheses. -/
example : twiceRX.Plain ∧ ["a"].Nodup ∧ dictAt ["a"] (fun _ => Real.pi / 4) = [("a", .num (Real.pi / 4))] ∧
    ExactMode .gpsr (dictAt ["a"] fun _ => Real.pi / 4) (.vec zero1) twiceRX ∧
    BaseSetting so 1 (dictAt ["a"] fun _ => Real.pi / 4) twiceRX.gates [[], []] (.vec zero1) [obsZ] [gateMat 1 StdGate.Z.mat [0] []] ∧
    ((State.vec zero1).mat 1).PosSemidef ∧ ((State.vec zero1).mat 1).trace = 1 ∧
    (gateMat 1 StdGate.Z.mat [0] []).IsHermitian ∧ SpectrumIn (gateMat 1 StdGate.Z.mat [0] []) (-1) 1 := by
  have hv : dictAt ["a"] (fun _ => Real.pi / 4) = [("a", .num (Real.pi / 4))] := by simp [dictAt, zipValues]
  refine ⟨twiceRX_plain, by simp, hv, .inl rfl, ?_, zero1_density.1, zero1_density.2, flip_spectrum.1, flip_spectrum.2⟩
  rw [hv]
  exact (twiceSetting so ⟨by simp, by simp⟩ rfl).toBaseSetting

end Verif
