import Verif.Lemmas.RoundedEnergy
import Verif.Props.Vqe

/-!
# C103: rounding errors of expectation values

The number that `ad_expectation` returns when the circuit, the observable and the inner product are all computed with
rounded arithmetic, against the number that exact arithmetic gives.
-/

set_option autoImplicit false

namespace Verif
open NDArray
open scoped Matrix.Norms.L2Operator
variable {n : ℕ} {values : Values} {gs : List Gate} {F : Flops} {u δ ε : ℝ} {op : Gate → Py (NDArray ℂ)}

theorem stringObs_ops (ts : List (ℝ × List Gate)) :
    (stringObs ts).ops = ts.map fun t => .comp (.scale (.num t.1)) (t.2.map .prim) := by
  simp only [stringObs, Observable.new, OpArg.toList]
  refine List.map_congr_left fun t _ => ?_
  simp only [mkScale, mkSeq, OpArg.toList, Op.iter]
  exact congrArg _ (flattenList_prims t.2)

/-- A Pauli Hamiltonian written as in the documentation is such an observable. -/
theorem pauliObs_eq (ts : List (ℝ × List (Pauli × ℕ))) :
    pauliObs ts = stringObs (ts.map fun t => (t.1, t.2.map fun e => e.1.gate e.2)) := by
  simp only [pauliObs, stringObs, List.map_map, Function.comp_def]
  rfl

/-- The sum from left to right is the sum, whatever the order, if additions are exact. -/
theorem Flops.sum_exact (hadd : F.add = (· + ·)) : F.sum = List.sum := by
  funext l
  have h : ∀ (l : List ℂ) (s : ℂ), SumsTo (· + ·) l s → s = l.sum := by
    intro l s h
    induction h with
    | nil => rfl
    | one => simp
    | add _ _ hp _ _ h1 h2 => rw [hp.sum_eq, List.sum_append, h1, h2]
  exact h l _ (hadd ▸ F.sums l)

theorem arith_exact (hadd : F.add = (· + ·)) (hmul : F.mul = (· * ·)) :
    F.arith (fun g => g.operator .unitary values) = Arith.exact values := by
  obtain ⟨h1, h2⟩ := C103_exact_flops hadd hmul
  rw [Flops.arith, Arith.exact, h1, h2]

theorem string_exact (so : SetOrder) (hadd : F.add = (· + ·)) (hmul : F.mul = (· * ·)) :
    ∀ {gs : List Gate}, (∀ g ∈ gs, g.noise = none) → ∀ a : NDArray ℂ,
    Op.callSeq so values (gs.map .prim) (some (.vec a))
      = (F.string (fun g => g.operator .unitary values) gs a).map fun r => some (.vec r) := by
  intro gs
  induction gs with
  | nil => intro _ a; rw [List.map_nil, Op.callSeq]; rfl
  | cons g gs ih =>
    intro hnz a
    have h1 : applyGates so (.vec a) (.single g) values
        = ((F.arith fun g => g.operator .unitary values).run a (.single g) false true).map .vec := by
      rw [Arith.run_single, arith_exact hadd hmul, ← C103_exact so (by simpa using hnz g (by simp)) a false false]
      exact applyGates_singleton so (.vec a) g values .unitary _ _ _ _
    rw [List.map_cons, Op.callSeq, Op.call, Flops.string, List.foldlM_cons]
    change ((some <$> applyGates so (.vec a) (.single g) values) >>= _) = _
    rw [h1]
    rcases (F.arith fun g => g.operator .unitary values).run a (.single g) false true with e | r
    · rfl
    · exact ih (fun x hx => hnz x (by simp [hx])) r

/-- **C103** (the model is the one of exact expectation values): with exact operations on numbers the computed number is
the one of `_ad_expectation_single_observable`, for all sums of scaled noiseless gate sequences and all arrays (also those
it refuses). -/
theorem C103_exact_energy (so : SetOrder) (hadd : F.add = (· + ·)) (hmul : F.mul = (· * ·)) {ts : List (ℝ × List Gate)}
    (hnz : ∀ t ∈ ts, ∀ g ∈ t.2, g.noise = none) (a : NDArray ℂ) :
    F.energy (fun g => g.operator .unitary values) ts a = expectSingle so values (stringObs ts) (.vec a) := by
  have hplus : F.plus = NDArray.add := by
    funext x y; rw [Flops.plus, NDArray.add, hadd]
  have hscale : ∀ c : ℝ, F.scale c = smul (c : ℂ) := by
    intro c; funext x; rw [Flops.scale, smul, hmul]
  have hinner : ∀ x y, F.inner x y = inner x y := by
    intro x y
    rw [Flops.inner, inner, dot, Flops.sum_exact hadd, hmul]
    simp only [flatten, conj, List.length_singleton, true_and, List.cons.injEq, and_true]
  have hterm : ∀ t ∈ ts, Op.call so values (.comp (.scale (.num t.1)) (t.2.map .prim)) (some (.vec a))
      = (F.term (fun g => g.operator .unitary values) a t).map fun r => some (.vec r) := by
    intro t ht
    rw [Op.call, string_exact so hadd hmul (hnz t ht), Flops.term]
    rcases F.string (fun g => g.operator .unitary values) t.2 a with e | r
    · rfl
    · simp only [hscale]; rfl
  have hlist : Op.callList so values (stringObs ts).ops (some (.vec a))
      = ts.map fun t => (F.term (fun g => g.operator .unitary values) a t).map fun r => some (.vec r) := by
    rw [stringObs_ops]
    have : ∀ us : List (ℝ × List Gate), (∀ t ∈ us, t ∈ ts) →
        Op.callList so values (us.map fun t => .comp (.scale (.num t.1)) (t.2.map .prim)) (some (.vec a))
          = us.map fun t => (F.term (fun g => g.operator .unitary values) a t).map fun r => some (.vec r) := by
      intro us hus
      induction us with
      | nil => rw [List.map_nil, Op.callList]; rfl
      | cons t us ih =>
        rw [List.map_cons, Op.callList, hterm t (hus t (by simp)), ih fun t ht => hus t (by simp [ht])]; rfl
    exact this ts fun _ h => h
  have hred : ∀ xs : List (Py (NDArray ℂ)), pyReduce Op.addStates (xs.map fun x => x.map fun r => some (.vec r))
      = (pyReduce NDArray.add xs).map fun r => some (.vec r) := by
    intro xs
    rcases xs with _ | ⟨x, xs⟩
    · rfl
    rcases x with e | x
    · rfl
    have : ∀ (xs : List (Py (NDArray ℂ))) (x : NDArray ℂ),
        (xs.map fun x => x.map fun r => some (State.vec r)).foldlM (fun acc y => do Op.addStates acc (← y)) (some (.vec x))
          = (xs.foldlM (fun acc y => do NDArray.add acc (← y)) x).map fun r => some (.vec r) := by
      intro xs
      induction xs with
      | nil => intro x; rfl
      | cons y ys ih =>
        intro x
        rw [List.map_cons, List.foldlM_cons, List.foldlM_cons]
        rcases y with e | y
        · rfl
        · change (Op.addStates (some (.vec x)) (some (.vec y)) >>= _) = Except.map _ (NDArray.add x y >>= _)
          rw [Op.addStates]
          rcases NDArray.add x y with e | r
          · rfl
          · exact ih r
    exact this xs x
  rw [expectSingle, Observable.forward, hlist, Flops.energy, hplus]
  rw [show (ts.map fun t => (F.term (fun g => g.operator .unitary values) a t).map fun r => some (State.vec r))
      = (ts.map (F.term (fun g => g.operator .unitary values) a)).map fun x => x.map fun r => some (.vec r) by
    rw [List.map_map]; rfl, hred]
  rcases pyReduce NDArray.add (ts.map (F.term (fun g => g.operator .unitary values) a)) with e | r
  · rfl
  · change (F.inner a r >>= _) = Op.innerReal a (some (.vec r))
    rw [hinner]; rfl

theorem stringObs_means {ts : List (ℝ × List Gate)} (hne : ts ≠ [])
    (h : ∀ t ∈ ts, ∀ g ∈ t.2, g.UnitaryOn n values ∧ g.noise = none) :
    (stringObs ts).Means (AnyLeaf n values) values (stringSum n values ts) := by
  have hseq : ∀ gs : List Gate, (∀ g ∈ gs, g.UnitaryOn n values ∧ g.noise = none) →
      Op.MeansSeq (AnyLeaf n values) values (gs.map .prim) (gatesMat n .unitary values gs) := by
    intro gs
    induction gs with
    | nil => intro _; exact .nil
    | cons g gs ih =>
      intro h
      exact .cons (.gate ⟨(h g (by simp)).1.ok, (h g (by simp)).2, rfl⟩) (ih fun x hx => h x (by simp [hx]))
  show Op.MeansSum _ _ (stringObs ts).ops _
  rw [stringObs_ops]
  induction ts with
  | nil => exact absurd rfl hne
  | cons t ts ih =>
    have h1 : Op.Means (AnyLeaf n values) values (.comp (.scale (.num t.1)) (t.2.map .prim))
        ((t.1 : ℂ) • gatesMat n .unitary values t.2) := .scale (.num _) (hseq _ (h t (by simp)))
    rcases ts with _ | ⟨t', ts⟩
    · simpa [stringSum] using Op.MeansSum.one h1
    · have e : stringSum n values (t :: t' :: ts)
          = (t.1 : ℂ) • gatesMat n .unitary values t.2 + stringSum n values (t' :: ts) := rfl
      rw [e, List.map_cons]
      exact .cons h1 (ih (by simp) fun t ht => h t (by simp [ht]))

/-- **C103** (the returned number): a circuit of `k` gates and then the expectation value of `Σ c_j U_j`, with `J` terms of at
most `L` gates, all computed with matrix operations accurate up to `ε`, additions up to `u` and multiplications up to `δ`.
The returned number is off by at most `((1 + ε)^(6k + 3L) (1 + δ)² (1 + u)^(J - 1 + 2^n - 1) - 1) Σ|c_j|` times the squared
length of the initial state, in whatever order the inner product adds up its `2^n` terms. -/
theorem C103_energy (so : SetOrder) (hε : 0 ≤ ε) (hu : 0 ≤ u) (hδ : 0 ≤ δ) (hF : F.Accurate u δ)
    {ts : List (ℝ × List Gate)} {L : ℕ} (hA : (F.arith op).Accurate n ε values (gs ++ (ts.map Prod.snd).flatten))
    (h : ∀ g ∈ gs ++ (ts.map Prod.snd).flatten, g.UnitaryOn n values ∧ g.noise = none) (hne : gs ≠ []) (hts : ts ≠ [])
    (hL : ∀ t ∈ ts, t.2.length ≤ L) {a : NDArray ℂ} (ha : IsKet n a) (group merge : Bool) :
    ∃ r e x y, (F.arith op).run a (.list gs) group merge = .ok r ∧ F.energy op ts r = .ok x ∧
      applyGates so (.vec a) (.list gs) values .unitary group merge = .ok (.vec e) ∧
      expectSingle so values (stringObs ts) (.vec e) = .ok y ∧
      |x - y| ≤ ((1 + ε) ^ (6 * gs.length + 3 * L) * (1 + δ) ^ 2 * (1 + u) ^ (ts.length - 1 + (2 ^ n - 1)) - 1)
        * ((ts.map fun t => |t.1|).sum * ketNorm (ket n a) ^ 2) := by
  have hmem : ∀ t ∈ ts, ∀ g ∈ t.2, g ∈ gs ++ (ts.map Prod.snd).flatten := fun t ht g hg =>
    List.mem_append_right _ (List.mem_flatten.2 ⟨t.2, List.mem_map.2 ⟨t, ht, rfl⟩, hg⟩)
  have hmem' : ∀ g ∈ gs, g ∈ gs ++ (ts.map Prod.snd).flatten := fun g hg => List.mem_append_left _ hg
  have hobs : ∀ t ∈ ts, ∀ g ∈ t.2, g.UnitaryOn n values ∧ g.noise = none := fun t ht g hg => h g (hmem t ht g hg)
  obtain ⟨r, e, h1, h2, h3, h4, h5, h6⟩ := C103_run so hε (hA.mono hmem') (fun g hg => (h g (hmem' g hg)).1) hne
    (fun g hg => (h g (hmem' g hg)).2) ha group merge
  obtain ⟨r', e', x', y, i1, i3, i4, i5, i6⟩ := C103_expectation so hε (hA.mono hmem') (fun g hg => (h g (hmem' g hg)).1) hne
    (fun g hg => (h g (hmem' g hg)).2) ha group merge (stringObs_means hts hobs)
  obtain rfl : r' = r := Except.ok.inj (i1.symm.trans h1)
  obtain rfl : e' = e := by have := Except.ok.inj (i3.symm.trans h3); injection this
  obtain ⟨x, j1, j2⟩ := energy_near hε hu hδ hF hts (fun t ht => hA.mono (hmem t ht)) hobs hL h2
  have hx' : x' = (∑ b, star (ket n r' b) * (stringSum n values ts).mulVec (ket n r') b).re := by
    rw [← expVal_vec]
    exact Except.ok.inj (i4.symm.trans (expectSingle_vec so (stringObs_means hts hobs) h2))
  rw [← hx'] at j2
  refine ⟨r', e', x, y, h1, j1, h3, i5, ?_⟩
  have hr : ketNorm (ket n r') ≤ (1 + ε) ^ (3 * gs.length) * ketNorm (ket n a) := by
    have := ketNorm_tri (ket n r') (ket n e')
    linarith
  have hr2 : ketNorm (ket n r') ^ 2 ≤ (1 + ε) ^ (6 * gs.length) * ketNorm (ket n a) ^ 2 := by
    refine (pow_le_pow_left₀ (ketNorm_nonneg _) hr 2).trans (le_of_eq ?_)
    rw [mul_pow, ← pow_mul]; congr 2; omega
  have hC := stringSum_bound (n := n) (values := values) fun t ht g hg => (hobs t ht g hg).1
  have hC0 : 0 ≤ (ts.map fun t => |t.1|).sum := (norm_nonneg _).trans hC
  have p : (1 : ℝ) ≤ (1 + ε) ^ (6 * gs.length) := one_le_pow₀ (by linarith)
  have q : (1 : ℝ) ≤ (1 + δ) ^ 2 * (1 + ε) ^ (3 * L) * (1 + u) ^ (ts.length - 1 + (2 ^ n - 1)) := by
    have a1 : (1 : ℝ) ≤ (1 + δ) ^ 2 := one_le_pow₀ (by linarith)
    have a2 : (1 : ℝ) ≤ (1 + ε) ^ (3 * L) := one_le_pow₀ (by linarith)
    have a3 : (1 : ℝ) ≤ (1 + u) ^ (ts.length - 1 + (2 ^ n - 1)) := one_le_pow₀ (by linarith)
    exact one_le_mul_of_one_le_of_one_le (one_le_mul_of_one_le_of_one_le a1 a2) a3
  have hT : (1 + ε) ^ (6 * gs.length + 3 * L) * (1 + δ) ^ 2 * (1 + u) ^ (ts.length - 1 + (2 ^ n - 1))
      = (1 + ε) ^ (6 * gs.length) * ((1 + δ) ^ 2 * (1 + ε) ^ (3 * L) * (1 + u) ^ (ts.length - 1 + (2 ^ n - 1))) := by
    rw [pow_add]; ring
  rw [hT]
  generalize (1 + δ) ^ 2 * (1 + ε) ^ (3 * L) * (1 + u) ^ (ts.length - 1 + (2 ^ n - 1)) = T at *
  generalize (1 + ε) ^ (6 * gs.length) = P at *
  generalize (ts.map fun t => |t.1|).sum = C at *
  have hN : 0 ≤ ketNorm (ket n a) ^ 2 := sq_nonneg _
  generalize ketNorm (ket n a) ^ 2 = N at *
  calc |x - y| = |(x - x') + (x' - y)| := by rw [sub_add_sub_cancel]
    _ ≤ |x - x'| + |x' - y| := abs_add_le _ _
    _ ≤ (T - 1) * (C * (P * N)) + C * ((P - 1) * N) := by
        refine add_le_add (j2.trans ?_) (i6.trans ?_)
        · gcongr
        · exact mul_le_mul_of_nonneg_right hC (mul_nonneg (by linarith) hN)
    _ = _ := by ring

/-- A product of factors slightly larger than 1. -/
theorem factors_le {A B D : ℝ} (hA : 0 ≤ A) (hB : 0 ≤ B) (hD : 0 ≤ D) {i j l : ℕ} (h : i * A + j * B + l * D ≤ 1) :
    (1 + A) ^ i * (1 + B) ^ j * (1 + D) ^ l - 1 ≤ 2 * (i * A + j * B + l * D) := by
  have e : ∀ {X : ℝ}, 0 ≤ X → ∀ m : ℕ, (1 + X) ^ m ≤ Real.exp (m * X) := by
    intro X hX m
    rw [Real.exp_nat_mul]
    exact pow_le_pow_left₀ (by linarith) (by linarith [Real.add_one_le_exp X]) m
  have h0 : 0 ≤ i * A + j * B + l * D := by positivity
  have h1 : (1 + A) ^ i * (1 + B) ^ j * (1 + D) ^ l ≤ Real.exp (i * A + j * B + l * D) := by
    rw [Real.exp_add, Real.exp_add]
    gcongr
    · exact e hA i
    · exact e hB j
    · exact e hD l
  have h2 := Real.abs_exp_sub_one_le (x := i * A + j * B + l * D) (by rwa [abs_of_nonneg h0])
  rw [abs_of_nonneg h0] at h2
  linarith [le_abs_self (Real.exp (i * A + j * B + l * D) - 1)]

/-- **C103** (the returned number, `p` bits): with real operations rounded to `p ≥ 8` significant bits, gates (of the circuit and of
the observable) on at most two qubits, and gate matrices whose entries are right up to `6 · 2^(-p)`, the returned expectation
value of `Σ c_j U_j` is off by at most `2^(1-p) (144k + 72L + J + 2^n + 6) Σ|c_j|` times the squared length of the initial
state, as long as `2^(-p)` times the bracket is at most 1. -/
theorem C103_energy_precision (so : SetOrder) {p : ℕ} (hp : 8 ≤ p) (hadd : F.add = addC (roundBits p))
    (hmul : F.mul = mulC (roundBits p)) {ts : List (ℝ × List Gate)} {L : ℕ}
    (hop : OpsWithin (6 * (2 : ℝ) ^ (-(p : ℤ))) values (gs ++ (ts.map Prod.snd).flatten) op)
    (h : ∀ g ∈ gs ++ (ts.map Prod.snd).flatten, g.UnitaryOn n values ∧ g.noise = none)
    (h2 : ∀ g ∈ gs ++ (ts.map Prod.snd).flatten, g.target.length + (ctlInts g.control).length ≤ 2)
    (hne : gs ≠ []) (hts : ts ≠ []) (hL : ∀ t ∈ ts, t.2.length ≤ L) {a : NDArray ℂ} (ha : IsKet n a) (group merge : Bool)
    (hk : (2 : ℝ) ^ (-(p : ℤ)) * (144 * gs.length + 72 * L + ts.length + 2 ^ n + 6) ≤ 1) :
    ∃ r e x y, (F.arith op).run a (.list gs) group merge = .ok r ∧ F.energy op ts r = .ok x ∧
      applyGates so (.vec a) (.list gs) values .unitary group merge = .ok (.vec e) ∧
      expectSingle so values (stringObs ts) (.vec e) = .ok y ∧
      |x - y| ≤ 2 * (2 : ℝ) ^ (-(p : ℤ)) * (144 * gs.length + 72 * L + ts.length + 2 ^ n + 6)
        * ((ts.map fun t => |t.1|).sum * ketNorm (ket n a) ^ 2) := by
  have hu : (0 : ℝ) ≤ (2 : ℝ) ^ (-(p : ℤ)) := by positivity
  have hs : (2 : ℝ) ^ (-(p : ℤ)) ≤ 1 / 256 := by
    have : (2 : ℝ) ^ (-(p : ℤ)) ≤ (2 : ℝ) ^ (-(8 : ℤ)) := zpow_le_zpow_right₀ one_le_two (by omega)
    refine this.trans (le_of_eq (by norm_num [zpow_neg]))
  have hF := C103_complex hu (C103_bits p) hadd hmul
  generalize (2 : ℝ) ^ (-(p : ℤ)) = v at *
  have hA := C103_flops (n := n) hu (by positivity) (by positivity) hF hop h2
  have hε : (2 : ℝ) ^ 2 * max (6 * v) (dotError v (Real.sqrt 2 * (2 * v + v ^ 2)) (2 ^ 2)) = 24 * v := by
    rw [show (2 ^ 2 : ℕ) = 4 from rfl]
    rw [max_eq_left (dotError_four hu hs)]; ring
  rw [hε] at hA
  have hδ : Real.sqrt 2 * (2 * v + v ^ 2) ≤ 3 * v := by
    have h2 : Real.sqrt 2 ≤ 1415 / 1000 := Real.sqrt_le_left (by norm_num) |>.2 (by norm_num)
    have : Real.sqrt 2 * (2 * v + v ^ 2) ≤ 1415 / 1000 * (2 * v + v ^ 2) := by gcongr
    nlinarith
  obtain ⟨r, e, x, y, k1, k2, k3, k4, k5⟩ := C103_energy so (by positivity) hu (by positivity) hF hA h hne hts hL ha group merge
  refine ⟨r, e, x, y, k1, k2, k3, k4, k5.trans (mul_le_mul_of_nonneg_right ?_ ?_)⟩
  · have hJ : ((ts.length - 1 + (2 ^ n - 1) : ℕ) : ℝ) ≤ ts.length + 2 ^ n := by
      have : ts.length - 1 + (2 ^ n - 1) ≤ ts.length + 2 ^ n := by
        generalize 2 ^ n = d; omega
      exact_mod_cast this
    have hb : ((6 * gs.length + 3 * L : ℕ) : ℝ) * (24 * v) + ((2 : ℕ) : ℝ) * (Real.sqrt 2 * (2 * v + v ^ 2))
        + ((ts.length - 1 + (2 ^ n - 1) : ℕ) : ℝ) * v ≤ v * (144 * gs.length + 72 * L + ts.length + 2 ^ n + 6) := by
      have := mul_le_mul_of_nonneg_right hJ hu
      push_cast at this ⊢
      linarith
    refine (factors_le (by positivity) (by positivity) hu (hb.trans hk)).trans ?_
    linarith
  · refine mul_nonneg (List.sum_nonneg ?_) (sq_nonneg _)
    simp only [List.mem_map]; rintro _ ⟨t, -, rfl⟩; exact abs_nonneg _

/-- Non-vacuity: the expectation value of `-1.05 Z(0)Z(1) + 0.18 X(0)X(1)` after H(0), CNOT(1, control 0) in single precision,
with sums from left to right. -/
example : ∃ (F : Flops) (op : Gate → Py (NDArray ℂ)), F.add = addC (roundBits 24) ∧ F.mul = mulC (roundBits 24) ∧
    ∃ (gs : List Gate) (ts : List (ℝ × List Gate)), gs.length = 2 ∧
      stringObs ts = pauliObs [(-1.05, [(.Z, 0), (.Z, 1)]), (0.18, [(.X, 0), (.X, 1)])] ∧
      OpsWithin (6 * (2 : ℝ) ^ (-(24 : ℤ))) [] (gs ++ (ts.map Prod.snd).flatten) op ∧
      (∀ g ∈ gs ++ (ts.map Prod.snd).flatten, (g.UnitaryOn 2 [] ∧ g.noise = none) ∧
        g.target.length + (ctlInts g.control).length ≤ 2) ∧
      (∀ t ∈ ts, t.2.length ≤ 2) ∧ IsKet 2 (⟨[2, 2], [1, 0, 0, 0]⟩ : NDArray ℂ) ∧
      (2 : ℝ) ^ (-(24 : ℤ)) * (144 * gs.length + 72 * (2 : ℕ) + ts.length + 2 ^ 2 + 6) ≤ 1 := by
  refine ⟨Flops.leftToRight (addC (roundBits 24)) (mulC (roundBits 24)), fun g => g.operator .unitary [], rfl, rfl,
    [Gate.H (.int 0), Gate.X (.int 1) (.int 0)],
    [(-1.05, [Gate.Z (.int 0), Gate.Z (.int 1)]), (0.18, [Gate.X (.int 0), Gate.X (.int 1)])], rfl, ?_,
    fun g _ U h1 h2 => ⟨U, h1, h2, fun i j _ _ => by rw [sub_self, norm_zero]; positivity⟩, ?_, by simp, ⟨rfl, rfl⟩, ?_⟩
  · rw [pauliObs_eq]; rfl
  · simp only [List.map_cons, List.map_nil, List.flatten_cons, List.flatten_nil, List.append_nil, List.cons_append,
      List.nil_append, List.mem_cons, List.not_mem_nil, or_false, forall_eq_or_imp, forall_eq]
    refine ⟨⟨⟨Gate.Std.unitaryOn (s := .H) ⟨.H _ _ _, rfl, ⟨.inr (.inl rfl), by decide⟩⟩, rfl⟩, by decide⟩,
      ⟨⟨Gate.Std.unitaryOn (s := .X) ⟨.X _ _ _, rfl, ⟨.inr (.inr ⟨[0], rfl⟩), by decide⟩⟩, rfl⟩, by decide⟩,
      ⟨⟨Gate.Std.unitaryOn (s := .Z) ⟨.Z _ _ _, rfl, ⟨.inr (.inl rfl), by decide⟩⟩, rfl⟩, by decide⟩,
      ⟨⟨Gate.Std.unitaryOn (s := .Z) ⟨.Z _ _ _, rfl, ⟨.inr (.inl rfl), by decide⟩⟩, rfl⟩, by decide⟩,
      ⟨⟨Gate.Std.unitaryOn (s := .X) ⟨.X _ _ _, rfl, ⟨.inr (.inl rfl), by decide⟩⟩, rfl⟩, by decide⟩,
      ⟨⟨Gate.Std.unitaryOn (s := .X) ⟨.X _ _ _, rfl, ⟨.inr (.inl rfl), by decide⟩⟩, rfl⟩, by decide⟩⟩
  · norm_num [zpow_neg]

end Verif
