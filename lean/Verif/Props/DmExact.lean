import Verif.Props.PureMixed
import Verif.Props.Relabel
import Mathlib.Analysis.InnerProductSpace.LinearMap
import Mathlib.Analysis.InnerProductSpace.PiL2

/-!
# Property theorems: what density-matrix expectations compute (C68)

`_ad_expectation_single_observable` on a density matrix multiplies sequences in listing order, expands the result on
the *sorted* qubits of the observable and applies it to those qubits *in set-iteration order*.  Here the result is
computed exactly, for every iteration order, and the condition under which it agrees with the state-vector value on
all states is proved to be necessary and sufficient.
-/

set_option autoImplicit false

namespace Verif
open NDArray
variable {n : ℕ} {values : Values} (so : SetOrder) (eigh : Eigh) (draw : Draw)

/-- `O'` is the operator measured on density matrices for the observable `o`: the operator `O` obtained with all
sequences multiplied in listing order, with its qubits renamed: if the qubits of `o` are iterated as `s₀, s₁, …`, then
the `i`-th smallest of them is renamed to `sᵢ`. -/
def Observable.ReadAs (so : SetOrder) (n : ℕ) (values : Values) (o : Observable) (O' : Matrix (Lab n) (Lab n) ℂ) : Prop :=
  ∃ (O : Matrix (Lab n) (Lab n) ℂ) (S : List ℕ) (σ : Equiv.Perm (Fin n)),
    Op.ListedSum (SortLeaf n values) values o.ops O ∧ o.toOp.qubitSupport so = .ok S ∧
    (pySorted S).map (relabelQ σ) = S ∧ O' = Matrix.of fun b c => O (fun q => b (σ q)) (fun q => c (σ q))

/-- There is a renaming of the qubits that sends the sorted list to the list, and it moves no other qubit. -/
theorem exists_relabel {S : List ℕ} (hS : ValidDims n S) : ∃ σ : Equiv.Perm (Fin n), (pySorted S).map (relabelQ σ) = S ∧
    ∀ q : Fin n, q.val ∉ S → σ q = q := by
  have hp := perm_pySorted S
  have hT : (pySorted S).Nodup := hp.nodup_iff.2 hS.nodup
  have hlt : ∀ q ∈ S, (pySorted S).idxOf q < S.length := fun q hq => by
    rw [← hp.length_eq]; exact List.idxOf_lt_length_of_mem (hp.mem_iff.2 hq)
  let f : Fin n → Fin n := fun q => if h : q.val ∈ S then
    ⟨S[(pySorted S).idxOf q.val]'(hlt _ h), hS.lt _ (List.getElem_mem _)⟩ else q
  have hf1 : ∀ q : Fin n, ∀ h : q.val ∈ S, (f q).val = S[(pySorted S).idxOf q.val]'(hlt _ h) := fun q h => by
    simp only [f, dif_pos h]
  have hf2 : ∀ q : Fin n, q.val ∉ S → f q = q := fun q h => by simp only [f, dif_neg h]
  have hmem : ∀ q : Fin n, q.val ∈ S → (f q).val ∈ S := fun q h => by rw [hf1 q h]; exact List.getElem_mem _
  have hinj : Function.Injective f := by
    intro p q e
    by_cases hp' : p.val ∈ S <;> by_cases hq : q.val ∈ S
    · have e' := congrArg Fin.val e
      rw [hf1 p hp', hf1 q hq, hS.nodup.getElem_inj_iff] at e'
      exact Fin.ext ((List.idxOf_inj (hp.mem_iff.2 hp')).1 e')
    · rw [hf2 q hq] at e; exact absurd (e ▸ hmem p hp') hq
    · rw [hf2 p hp'] at e; exact absurd (e ▸ hmem q hq) hp'
    · rwa [hf2 p hp', hf2 q hq] at e
  refine ⟨Equiv.ofBijective f (Finite.injective_iff_bijective.1 hinj), ?_, fun q hq => hf2 q hq⟩
  refine List.ext_getElem (by simp [hp.length_eq]) fun i h1 h2 => ?_
  have h3 : i < (pySorted S).length := by simpa using h1
  have hq : (pySorted S)[i] ∈ S := hp.mem_iff.1 (List.getElem_mem h3)
  rw [List.getElem_map, relabelQ, dif_pos (hS.lt _ hq)]
  change (f ⟨(pySorted S)[i], _⟩).val = _
  rw [hf1 _ hq]
  simp only [hT.idxOf_getElem]

/-- Every observable that `tensor` accepts is read as some operator, for every set iteration order. -/
theorem C68_readable {o : Observable} {O : Matrix (Lab n) (Lab n) ℂ}
    (ho : Op.ListedSum (SortLeaf n values) values o.ops O) : ∃ O', o.ReadAs so n values O' := by
  obtain ⟨S, m, e1, e2, -⟩ := expectDM_eq so ho (ρ := densityMat (basisKet ℂ fun _ => 0))
    (densityMat_isDM (n := n) (basisKet_isKet _)).1
  obtain ⟨σ, hσ, -⟩ := exists_relabel e2
  exact ⟨_, O, S, σ, ho, e1, hσ, rfl⟩

theorem Observable.ReadAs.single_dm {o : Observable} {O' : Matrix (Lab n) (Lab n) ℂ} (h : o.ReadAs so n values O')
    {ρ : DensityMatrix ℂ} (hρ : IsDM n ρ) : expectSingle so values o (.dm ρ) = .ok (expVal O' (dmMat n ρ.array)) := by
  obtain ⟨O, S, σ, h1, h2, h3, rfl⟩ := h
  obtain ⟨S', m, e1, e2, -, -, -, e6, e7⟩ := expectDM_eq so h1 hρ
  obtain rfl : S' = S := by
    have : o.toOp.qubitSupport so = .ok S' := e1
    rw [h2] at this; cases this; rfl
  rw [expectSingle, e7]
  have := gateMat_relabel σ (entries m) (ts := pySorted S') (cs := []) (by
    have hp := perm_pySorted S'
    exact ⟨by simpa using hp.nodup_iff.2 e2.nodup, fun q hq => e2.lt q (hp.mem_iff.1 (by simpa using hq))⟩)
  rw [h3, e6] at this
  rw [show gateMat n (entries m) S' [] = _ from this]
  rfl

/-- **C68**: on every density matrix (physical or not), for every circuit of gates, noisy or not, every list of
observables and every set iteration order, `expectation` returns for each observable `Re tr(O' ρ)`, where `ρ` is the
output of the circuit and `O'` the operator described by `Observable.ReadAs`. -/
theorem C68_value {circuit : Op} {nss : List (List StdNoise)} (hc : circuit.Circuit n values nss)
    (hf : values.Flat) {ρ : DensityMatrix ℂ} (hρ : IsDM n ρ) {obs : List Observable} {Os : List (Matrix (Lab n) (Lab n) ℂ)}
    (hne : obs ≠ []) (ho : List.Forall₂ (fun o O' => o.ReadAs so n values O') obs Os) :
    ∃ q, run so circuit (.dm ρ) values = .ok (some (.dm q)) ∧ IsDM n q ∧
      expectation so eigh draw (.dm ρ) circuit obs values .ad 0
        = .ok (Os.map fun O' => ((O' * dmMat n q.array).trace).re) := by
  obtain ⟨r, h1, h2, h3⟩ := circuit_run so hc (st := .dm ρ) hρ
  cases r with
  | vec r => exact h3.elim
  | dm q =>
    refine ⟨q, h1, h3.1, ad_of_single so eigh draw hf.splits h2 hne ?_⟩
    rw [List.forall₂_map_right_iff]
    exact ho.imp fun o O' h => h.single_dm so h3.1

/-! ### When is it right? -/

/-- A matrix whose quadratic form vanishes is zero. -/
theorem matrix_eq_zero_of_form {ι : Type} [Fintype ι] [DecidableEq ι] {H : Matrix ι ι ℂ}
    (h : ∀ v : ι → ℂ, ∑ x, star (v x) * H.mulVec v x = 0) : H = 0 := by
  have e : Matrix.toEuclideanLin H = 0 := by
    rw [← inner_map_self_eq_zero]
    intro x
    have := h x.ofLp
    rw [PiLp.inner_apply]
    refine Eq.trans ?_ ((congrArg star this).trans (star_zero _))
    rw [star_sum]
    refine Finset.sum_congr rfl fun i _ => ?_
    simp [Matrix.toEuclideanLin_apply, mul_comm]
  exact (LinearEquiv.map_eq_zero_iff _).1 e

/-- Two operators have the same real expectation in every state vector exactly if their Hermitian parts agree. -/
theorem re_form_eq_iff {ι : Type} [Fintype ι] [DecidableEq ι] (A B : Matrix ι ι ℂ) :
    (∀ v : ι → ℂ, (∑ x, star (v x) * A.mulVec v x).re = (∑ x, star (v x) * B.mulVec v x).re) ↔
      A + A.conjTranspose = B + B.conjTranspose := by
  have key : ∀ (M : Matrix ι ι ℂ) (v : ι → ℂ), ((2 * (∑ x, star (v x) * M.mulVec v x).re : ℝ) : ℂ)
      = ∑ x, star (v x) * (M + M.conjTranspose).mulVec v x := by
    intro M v
    have hs : ∑ x, star (v x) * M.conjTranspose.mulVec v x = star (∑ x, star (v x) * M.mulVec v x) := by
      have h1 : star v ⬝ᵥ M.conjTranspose.mulVec v = star (star v ⬝ᵥ M.mulVec v) := by
        rw [← Matrix.star_dotProduct, Matrix.star_mulVec, ← Matrix.dotProduct_mulVec]
      exact h1
    simp only [Matrix.add_mulVec, Pi.add_apply, mul_add, Finset.sum_add_distrib, hs]
    have := Complex.add_conj (∑ x, star (v x) * M.mulVec v x)
    rw [← this]; rfl
  constructor
  · intro h
    rw [← sub_eq_zero]
    apply matrix_eq_zero_of_form
    intro v
    simp only [Matrix.sub_mulVec, Pi.sub_apply, mul_sub, Finset.sum_sub_distrib]
    rw [← key, ← key, h v, sub_self]
  · intro h v
    have h1 := key A v
    rw [h, ← key B v] at h1
    have := Complex.ofReal_injective h1
    linarith

/-- Every vector is the vector of an array. -/
theorem exists_ket (v : Lab n → ℂ) : ∃ a, IsKet n a ∧ ket n a = v := by
  refine ⟨ofFn (List.replicate n 2) fun l => v (Lab.ofBits n l), ⟨rfl, NDArray.wf_ofFn _ _⟩, ?_⟩
  funext x
  rw [ket, get_ofFn (forall₂_replicate.2 x.isBits_bits), Lab.ofBits_bits]

/-- **C68**, the exact condition: for a noiseless circuit of gates and an observable with operator `O`, state-vector and
density-matrix simulation agree on every input state exactly if the Hermitian part of the operator `O'` read by the
density-matrix code equals that of `O`. -/
theorem C68_iff {circuit : Op} {nss : List (List StdNoise)} (hc : circuit.Circuit n values nss)
    (hz : ∀ g ∈ circuit.gates, g.noise = none) (hstd : ∀ g ∈ circuit.gates, ∃ s, g.Std n values s)
    (hf : values.Flat) {o : Observable} {O O' : Matrix (Lab n) (Lab n) ℂ}
    (hm : o.Means (AnyLeaf n values) values O) (hr : o.ReadAs so n values O') :
    (∀ a, IsKet n a → expectation so eigh draw (.dm (densityMat a)) circuit [o] values .ad 0
        = expectation so eigh draw (.vec a) circuit [o] values .ad 0) ↔
      O' + O'.conjTranspose = O + O.conjTranspose := by
  obtain ⟨ss, hss⟩ : ∃ ss, List.Forall₂ (Gate.Std n values) circuit.gates ss := by
    generalize circuit.gates = gs at hstd
    clear hm hr hc hz
    induction gs with
    | nil => exact ⟨[], .nil⟩
    | cons g gs ih =>
      obtain ⟨s, hs⟩ := hstd g (by simp)
      obtain ⟨ss, h⟩ := ih fun x hx => hstd x (by simp [hx])
      exact ⟨s :: ss, .cons hs h⟩
  have hU := gatesMat_std_unitary hss
  have hU' := mul_eq_one_comm.1 hU
  have main : ∀ a, IsKet n a → ∃ ψ, IsKet n ψ ∧ ket n ψ = (gatesMat n .unitary values circuit.gates).mulVec (ket n a) ∧
      expectation so eigh draw (.dm (densityMat a)) circuit [o] values .ad 0
        = .ok [(∑ x, star (ket n ψ x) * O'.mulVec (ket n ψ) x).re] ∧
      expectation so eigh draw (.vec a) circuit [o] values .ad 0
        = .ok [(∑ x, star (ket n ψ x) * O.mulVec (ket n ψ) x).re] := by
    intro a ha
    obtain ⟨r, q, h1, h2, h3, h4, h5⟩ := circuit_run_mixed so hc ha
    obtain ⟨r', -, k2, k3⟩ := circuit_run so hc (st := .vec a) ha
    obtain rfl : r = r' := by rw [h1] at k2; cases k2; rfl
    cases r with
    | dm r => exact absurd hz k3.1
    | vec ψ =>
      refine ⟨ψ, k3.2.1, k3.2.2, ad_of_single so eigh draw hf.splits h2 (by simp) (.cons ?_ .nil),
        ad_of_single so eigh draw hf.splits h1 (by simp) (.cons ?_ .nil)⟩
      · rw [hr.single_dm so h4, h5, expVal_vec]
      · rw [expectSingle_vec so hm k3.2.1, expVal_vec]
  rw [← re_form_eq_iff]
  constructor
  · intro h v
    obtain ⟨a, ha, e⟩ := exists_ket ((gatesMat n .unitary values circuit.gates).conjTranspose.mulVec v)
    obtain ⟨ψ, -, p2, p3, p4⟩ := main a ha
    rw [e, Matrix.mulVec_mulVec, hU', Matrix.one_mulVec] at p2
    have := h a ha
    rw [p3, p4, p2] at this
    simpa using this
  · intro h a ha
    obtain ⟨ψ, -, -, p3, p4⟩ := main a ha
    rw [p3, p4, h]

/-- **C68** for Hermitian operators: agreement on all states exactly if `O' = O`. -/
theorem C68_iff_hermitian {circuit : Op} {nss : List (List StdNoise)} (hc : circuit.Circuit n values nss)
    (hz : ∀ g ∈ circuit.gates, g.noise = none) (hstd : ∀ g ∈ circuit.gates, ∃ s, g.Std n values s)
    (hf : values.Flat) {o : Observable} {O O' : Matrix (Lab n) (Lab n) ℂ}
    (hm : o.Means (AnyLeaf n values) values O) (hr : o.ReadAs so n values O') (hO : O.IsHermitian) (hO' : O'.IsHermitian) :
    (∀ a, IsKet n a → expectation so eigh draw (.dm (densityMat a)) circuit [o] values .ad 0
        = expectation so eigh draw (.vec a) circuit [o] values .ad 0) ↔ O' = O := by
  rw [C68_iff so eigh draw hc hz hstd hf hm hr, hO.eq, hO'.eq, ← two_smul ℂ, ← two_smul ℂ]
  exact (smul_right_injective _ (two_ne_zero (α := ℂ))).eq_iff

/-! ### Small registers -/

/-- Sets of integers below 8 are iterated in increasing order (as CPython does: the smallest hash table has 8 slots, an
integer's slot is its remainder, and larger tables keep the order). -/
def SetOrder.SmallSorted (so : SetOrder) : Prop := ∀ l : List ℕ, (∀ q ∈ l, q < 8) → (so.order l).Pairwise (· < ·)

theorem slotOrder_smallSorted : slotOrder.SmallSorted := by
  intro l hl
  have hp : (slotOrder.order l).Perm l.dedup := List.perm_insertionSort _ _
  have hm : ∀ q ∈ slotOrder.order l, q < 8 := fun q hq => hl q ((slotOrder.mem l q).1 hq)
  have hs : (slotOrder.order l).Pairwise fun a b => a % 8 ≤ b % 8 := List.pairwise_insertionSort _ _
  have hn : (slotOrder.order l).Pairwise (· ≠ ·) := slotOrder.nodup l
  refine (hs.and hn).imp_of_mem fun {a b} ha hb h => ?_
  have h1 := hm a ha
  have h2 := hm b hb
  have h3 := h.1
  have h4 := h.2
  rw [Nat.mod_eq_of_lt h1, Nat.mod_eq_of_lt h2] at h3
  omega

/-- **C68** on registers of at most 8 qubits, with such a set order: the operator read is the observable multiplied out
in listing order, without renaming of qubits. -/
theorem C68_small (hso : so.SmallSorted) (hn : n ≤ 8) {o : Observable} {O : Matrix (Lab n) (Lab n) ℂ}
    (ho : Op.ListedSum (SortLeaf n values) values o.ops O) : o.ReadAs so n values O := by
  obtain ⟨S, m, e1, e2, e3, -⟩ := expectDM_eq so ho (ρ := densityMat (basisKet ℂ fun _ => 0))
    (densityMat_isDM (n := n) (basisKet_isKet _)).1
  refine ⟨O, S, 1, ho, e1, ?_, rfl⟩
  have hs : S.Pairwise (· < ·) := by
    have e1' := e1
    simp only [Op.qubitSupport, bind, Except.bind] at e1'
    split at e1'
    · cases e1'
    · rename_i l hl
      simp only [pure, Except.pure, Except.ok.injEq] at e1'
      subst e1'
      exact hso l fun q hq => lt_of_lt_of_le (e2.lt q ((so.mem l q).2 hq)) hn
  rw [pySorted_of_le (hs.imp le_of_lt)]
  refine (List.map_congr_left fun q hq => ?_).trans (List.map_id S)
  simp [relabelQ]

/-- **C22 on registers of at most 8 qubits**: with a set order that is increasing on small integers, simulation with the
density matrix of `ψ` gives the same expectations as with `ψ` for all observables whose sequences may be multiplied in
listing order; circuits may be noisy. -/
theorem C68_pure_small (hso : so.SmallSorted) (hn : n ≤ 8) {circuit : Op} {nss : List (List StdNoise)}
    (hc : circuit.Circuit n values nss) (hf : values.Flat) {a : NDArray ℂ} (ha : IsKet n a) {obs : List Observable}
    {Os : List (Matrix (Lab n) (Lab n) ℂ)} (hne : obs ≠ [])
    (ho : List.Forall₂ (fun o O => o.Means (AnyLeaf n values) values O ∧ Op.ListedSum (SortLeaf n values) values o.ops O) obs Os) :
    ∃ r, run so circuit (.vec a) values = .ok (some r) ∧ r.On n ∧
      expectation so eigh draw (.vec a) circuit obs values .ad 0 = .ok (Os.map fun O => expVal O (r.mat n)) ∧
      expectation so eigh draw (.dm (densityMat a)) circuit obs values .ad 0 = .ok (Os.map fun O => expVal O (r.mat n)) := by
  obtain ⟨r, q, h1, h2, h3, h4, h5⟩ := circuit_run_mixed so hc ha
  obtain ⟨r', k1, k2, -⟩ := circuit_run so hc (st := .vec a) ha
  obtain rfl : r = r' := by rw [h1] at k2; cases k2; rfl
  refine ⟨r, k1, h3, ad_of_single so eigh draw hf.splits h1 hne ?_, ad_of_single so eigh draw hf.splits h2 hne ?_⟩
  · rw [List.forall₂_map_right_iff]
    refine ho.imp fun o O hO => ?_
    cases r with
    | vec r => exact expectSingle_vec so hO.1 h3
    | dm r => exact (C68_small so hso hn hO.2).single_dm so h3
  · rw [List.forall₂_map_right_iff]
    refine ho.imp fun o O hO => ?_
    rw [(C68_small so hso hn hO.2).single_dm so h4, h5]

/-! ### Non-vacuity -/

/-- The observable `X(1) + Z(8)` of `C22_set_order_wrong`: on nine qubits with CPython's order it is read as
`X(8) + Z(1)`. -/
example : (Observable.new (.list [.prim (Gate.X (.int 1)), .prim (Gate.Z (.int 8))])).ReadAs slotOrder 9 []
    (gateMat 9 StdGate.X.mat [8] [] + gateMat 9 StdGate.Z.mat [1] []) := by
  have lX : StdLeaf 9 [] (Gate.X (.int 1)) (gateMat 9 StdGate.X.mat [1] []) :=
    ⟨.X, ⟨.X _ _ _, rfl, ⟨.inr (.inl rfl), by decide⟩⟩, rfl, rfl⟩
  have lZ : StdLeaf 9 [] (Gate.Z (.int 8)) (gateMat 9 StdGate.Z.mat [8] []) :=
    ⟨.Z, ⟨.Z _ _ _, rfl, ⟨.inr (.inl rfl), by decide⟩⟩, rfl, rfl⟩
  refine ⟨_, [8, 1], Equiv.swap 1 8, .cons (.gate lX.sort) (.one (.gate lZ.sort)), rfl, by decide, ?_⟩
  have hX := gateMat_relabel (Equiv.swap (1 : Fin 9) 8) StdGate.X.mat (ts := [1]) (cs := []) (by decide)
  have hZ := gateMat_relabel (Equiv.swap (1 : Fin 9) 8) StdGate.Z.mat (ts := [8]) (cs := []) (by decide)
  rw [show [1].map (relabelQ (Equiv.swap (1 : Fin 9) 8)) = [8] by decide] at hX
  rw [show [8].map (relabelQ (Equiv.swap (1 : Fin 9) 8)) = [1] by decide] at hZ
  rw [show gateMat 9 StdGate.X.mat [8] [] = _ from hX, show gateMat 9 StdGate.Z.mat [1] [] = _ from hZ]
  rfl

/-- The hypotheses of `C68_value` and `C68_iff` for the identity circuit and `Z(0)`, with any set order. -/
example (hso : so.SmallSorted) : circuitI.Circuit 1 [] [[]] ∧ (∀ g ∈ circuitI.gates, g.noise = none) ∧
    (∀ g ∈ circuitI.gates, ∃ s, g.Std 1 [] s) ∧ Values.Flat [] ∧ obsZ.Means (AnyLeaf 1 []) [] (gateMat 1 StdGate.Z.mat [0] []) ∧
    obsZ.ReadAs so 1 [] (gateMat 1 StdGate.Z.mat [0] []) :=
  ⟨circuitI_circuit one_pos, by simp [circuitI, mkSeq, Op.gates, Op.gatesList, Gate.I, mkGate],
    by simpa [circuitI, mkSeq, Op.gates, Op.gatesList] using ⟨_, gateI_std one_pos⟩, .inl rfl,
    Op.MeansSum.mono (fun _ _ h => StdLeaf.any h) (obsZ_simple so).means,
    C68_small so hso (by norm_num) ((obsZ_simple so).listed.mono fun _ _ h => StdLeaf.sort h)⟩

end Verif
