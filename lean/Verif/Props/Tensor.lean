import Verif.Lemmas.Tensor
import Verif.Lemmas.Misc
import Verif.Lemmas.ApplyGates
import Mathlib.Analysis.SpecialFunctions.Exponential
import Mathlib.Analysis.SpecialFunctions.Trigonometric.Basic

/-!
# Property theorems about gate matrices: `tensor` and `expand_operator`

C14, C16.
-/

namespace Verif
open NDArray
variable {n : ℕ} {values : Values} {g : Gate} {s : StdGate}

/-- **C14** (any support): for every public gate with any targets and controls, and every list `F` of distinct qubits
containing them (contiguous or not, sorted or not), `tensor(values, F)` is the matrix of the gate on the qubits `F` in
increasing order. -/
theorem C14_tensor (hI : g.Is values s) (ha : g.target.length = s.arity) (hc : WfCtl g.control)
    (hn : (ctlInts g.control ++ g.target).Nodup) {F : List ℕ} (hF : F.Nodup)
    (hsub : ∀ q ∈ ctlInts g.control ++ g.target, q ∈ F) :
    ∃ r, g.tensor values (some F) = .ok r ∧ r.shape = [2 ^ F.length, 2 ^ F.length] ∧
      ∀ x y : Lab F.length, r.get [binVal x.bits, binVal y.bits]
        = gateMatOn F s.mat g.target (ctlInts g.control) x y := by
  obtain ⟨U, hU, hop, hent⟩ := hI.unitary
  rw [← ha] at hop hent
  obtain ⟨r, h1, h2, h3⟩ := tensor_mat hU hop hc hn hF hsub
  refine ⟨r, h1, h2.shape, fun x y => ?_⟩
  rw [← entries, h3, gateMatOn, gateMatOn, ← gateMat_std_sorted ha]
  refine congrFun (congrFun (gateMat_congr fun i j hi hj => hent i j ?_ ?_) x) y
  · simpa [(perm_pySorted _).length_eq] using hi
  · simpa [(perm_pySorted _).length_eq] using hj

/-- Non-vacuity: a Toffoli gate on qubits 7 (target), 2 and 9 (controls) within a larger unsorted support. -/
example : (Gate.X (.int 7) (.tuple [.int 2, .int 9])).Is [] .X ∧ WfCtl (Gate.X (.int 7) (.tuple [.int 2, .int 9])).control ∧
    (ctlInts (Gate.X (.int 7) (.tuple [.int 2, .int 9])).control ++ [7]).Nodup ∧
    ∀ q ∈ ctlInts (Gate.X (.int 7) (.tuple [.int 2, .int 9])).control ++ [7], q ∈ [9, 4, 7, 2] :=
  ⟨.X _ _ _, .inr (.inr ⟨[2, 9], rfl⟩), by decide, by decide⟩

/-- **C14** (own support): without `full_support`, `tensor` is the matrix on the gate's own qubits in increasing order. -/
theorem C14_tensor_own_support (hI : g.Is values s) (ha : g.target.length = s.arity) (hc : WfCtl g.control)
    (hn : (ctlInts g.control ++ g.target).Nodup) :
    ∃ r, g.tensor values none = .ok r ∧
      r.shape = [2 ^ (ctlInts g.control ++ g.target).length, 2 ^ (ctlInts g.control ++ g.target).length] ∧
      ∀ x y, r.get [binVal x.bits, binVal y.bits]
        = gateMatOn (ctlInts g.control ++ g.target) s.mat g.target (ctlInts g.control) x y := by
  obtain ⟨U, hU, hop, hent⟩ := hI.unitary
  rw [← ha] at hop hent
  obtain ⟨r, h1, h2, h3⟩ := tensor_mat_none hU hop hc hn
  refine ⟨r, h1, h2.shape, fun x y => ?_⟩
  rw [← entries, h3, gateMatOn, gateMatOn, ← gateMat_std_sorted ha]
  refine congrFun (congrFun (gateMat_congr fun i j hi hj => hent i j ?_ ?_) x) y
  · simpa [(perm_pySorted _).length_eq] using hi
  · simpa [(perm_pySorted _).length_eq] using hj

/-- **C14** (error branch): a support that misses one of the gate's qubits raises ValueError. -/
theorem C14_tensor_rejects (hI : g.Is values s) (ha : g.target.length = s.arity) (hc : WfCtl g.control)
    (hn : (ctlInts g.control ++ g.target).Nodup) {F : List ℕ}
    (hsub : ¬ ∀ q ∈ ctlInts g.control ++ g.target, q ∈ F) :
    g.tensor values (some F) = .error .valueError := by
  obtain ⟨U, hU, hop, -⟩ := hI.unitary
  rw [← ha] at hop
  obtain ⟨u, hu, -, -⟩ := tensor_local hU hop hc hn
  rw [Gate.tensor, qubitSupport_eq hc hn]
  rw [hU] at hu ⊢
  simp only [bind, Except.bind] at hu ⊢
  have herr : ∀ v : NDArray ℂ, expandOperator v (pySorted (ctlInts g.control ++ g.target)) F = .error .valueError :=
    fun v => expandOperator_not_subset fun h => hsub fun q hq => h q ((perm_pySorted _).mem_iff.2 hq)
  cases hic : isControlled g.control
  all_goals simp only [hic, if_true, if_false, Bool.false_eq_true] at hu ⊢
  · exact herr U
  · rw [hu]; exact herr u

example : ¬ ∀ q ∈ ctlInts (Gate.X (.int 7) (.int 2)).control ++ (Gate.X (.int 7) (.int 2)).target, q ∈ [7, 8] := by decide

theorem gateMatOn_range {U : ℕ → ℕ → ℂ} {ts cs : List ℕ} (hv : ValidDims n (cs ++ ts)) :
    gateMat n U (ts.map (posIn (List.range n))) (cs.map (posIn (List.range n))) = gateMat n U ts cs := by
  have : ∀ l : List ℕ, (∀ q ∈ l, q < n) → l.map (posIn (List.range n)) = l := by
    intro l hl
    conv_rhs => rw [← List.map_id l]
    exact List.map_congr_left fun q hq => posIn_range (hl q hq)
  rw [this ts fun q hq => hv.lt q (by simp [hq]), this cs fun q hq => hv.lt q (by simp [hq])]

/-- **C14** (agreement with application): `tensor` over the register, multiplied with the flattened state, is the
flattened result of `apply_gates`. -/
theorem C14_tensor_apply (so : SetOrder) (h : g.Std n values s) (hnz : g.noise = none) {st : NDArray ℂ}
    (hst : IsKet n st) (group merge : Bool) :
    ∃ T r, g.tensor values (some (List.range n)) = .ok T ∧ T.shape = [2 ^ n, 2 ^ n] ∧
      applyGates so (.vec st) (.single g) values .unitary group merge = .ok (.vec r) ∧ r.shape = List.replicate n 2 ∧
      ∀ b : Lab n, r.get b.bits = ∑ b' : Lab n, T.get [binVal b.bits, binVal b'.bits] * st.get b'.bits := by
  obtain ⟨U, hU, hop, hent⟩ := h.is.unitary
  rw [← h.arity] at hop hent
  obtain ⟨T, h1, h2, h3⟩ := tensor_mat (F := List.range n) hU hop h.valid.ctl h.valid.dims.nodup List.nodup_range
    fun q hq => List.mem_range.2 (h.valid.dims.lt q hq)
  obtain ⟨r, k1, k2, k3⟩ := applyGates_single so h.ok hnz hst group merge
  rw [List.length_range] at h2
  refine ⟨T, r, h1, h2.shape, k1, k2.shape, fun b => ?_⟩
  have hcast : ∀ (m : ℕ) (hm : m = n) (x y : Lab m),
      (∀ x y : Lab m, entries T (binVal x.bits) (binVal y.bits)
        = gateMat m (entries U) ((pySorted g.target).map (posIn (List.range n)))
          ((ctlInts g.control).map (posIn (List.range n))) x y) →
      ∀ x y : Lab n, entries T (binVal x.bits) (binVal y.bits)
        = gateMat n (entries U) ((pySorted g.target).map (posIn (List.range n)))
          ((ctlInts g.control).map (posIn (List.range n))) x y := by
    rintro m rfl x y h; exact h
  have h4 := hcast _ List.length_range (fun _ => 0) (fun _ => 0) h3
  have hT : ∀ x y : Lab n, T.get [binVal x.bits, binVal y.bits] = stdMat n g s x y := by
    intro x y
    rw [← entries, h4, stdMat, ← gateMatOn_range h.valid.dims, ← gateMat_std_sorted h.arity]
    refine congrFun (congrFun (gateMat_congr fun i j hi hj => hent i j ?_ ?_) x) y
    · simpa [(perm_pySorted _).length_eq] using hi
    · simpa [(perm_pySorted _).length_eq] using hj
  have := congrFun k3 b
  rw [h.mat] at this
  simp only [hT]
  exact this

/-- **C14** for gates of any class (e.g. Hamiltonian evolution) whose targets are listed in increasing order.  For
unsorted targets the claim is false, see `C14_tensor_false`. -/
theorem C14_tensor_any_partial {U : NDArray ℂ} (hU : g.unitary values = .ok U) (hop : IsOp g.target.length U)
    (hsort : g.target.Pairwise (· < ·)) (hc : WfCtl g.control) (hn : (ctlInts g.control ++ g.target).Nodup) {F : List ℕ}
    (hF : F.Nodup) (hsub : ∀ q ∈ ctlInts g.control ++ g.target, q ∈ F) :
    ∃ r, g.tensor values (some F) = .ok r ∧ r.shape = [2 ^ F.length, 2 ^ F.length] ∧
      ∀ x y : Lab F.length, r.get [binVal x.bits, binVal y.bits]
        = gateMatOn F (entries U) g.target (ctlInts g.control) x y := by
  obtain ⟨r, h1, h2, h3⟩ := tensor_mat hU hop hc hn hF hsub
  refine ⟨r, h1, h2.shape, fun x y => ?_⟩
  rw [← entries, h3, pySorted_of_le (hsort.imp le_of_lt)]

/-- **C14** (exactly what is computed, any class and any order of the targets): `tensor` is the matrix of the gate with
its targets taken in increasing order (`T`), whatever order they were given in. -/
theorem C14_tensor_sorted {U : NDArray ℂ} (hU : g.unitary values = .ok U) (hop : IsOp g.target.length U)
    (hc : WfCtl g.control) (hn : (ctlInts g.control ++ g.target).Nodup) {F : List ℕ}
    (hF : F.Nodup) (hsub : ∀ q ∈ ctlInts g.control ++ g.target, q ∈ F) {T : List ℕ} (hT : T.Perm g.target)
    (hT' : T.Pairwise (· < ·)) :
    ∃ r, g.tensor values (some F) = .ok r ∧ r.shape = [2 ^ F.length, 2 ^ F.length] ∧
      ∀ x y : Lab F.length, r.get [binVal x.bits, binVal y.bits] = gateMatOn F (entries U) T (ctlInts g.control) x y := by
  obtain ⟨r, h1, h2, h3⟩ := tensor_mat hU hop hc hn hF hsub
  have e : pySorted g.target = T := by rw [← pySorted_perm_eq hT, pySorted_of_le (hT'.imp le_of_lt)]
  refine ⟨r, h1, h2.shape, fun x y => ?_⟩
  rw [← entries, h3, e]

/-- The Hamiltonian `diag(0, 1, 0, 0)` on two qubits. -/
def witnessH : NDArray ℂ := ⟨[4, 4], [0, 0, 0, 0, 0, 1, 0, 0, 0, 0, 0, 0, 0, 0, 0, 0]⟩

theorem witness_unitary (ts : List ℕ) (c : Ctl) (nz : Option (List NoiseInstance)) :
    ∃ U, (⟨.hamEvo 0, "I", ts, c, nz, false⟩ : Gate).unitary
      [("time_evolution", .num Real.pi), ("hamiltonian", .arr witnessH)] = .ok U ∧ IsOp 2 U ∧
      entries U 1 1 = -1 ∧ entries U 2 2 = 1 := by
  have hdiag : (Matrix.of fun i j : Fin 4 => (⟨[4, 4], witnessH.data.map (· * (-Complex.I * ((Real.pi : ℝ) : ℂ)))⟩ : NDArray ℂ).get
      [i.val, j.val]) = Matrix.diagonal fun i : Fin 4 => if i = 1 then -Complex.I * ((Real.pi : ℝ) : ℂ) else 0 := by
    ext i j
    fin_cases i <;> fin_cases j <;> simp [witnessH, NDArray.get, ravel, Matrix.diagonal]
  refine ⟨ofFn [4, 4] fun idx => if h : idx.getD 0 0 < 4 ∧ idx.getD 1 0 < 4 then
      NormedSpace.exp (Matrix.of fun i j : Fin 4 => (⟨[4, 4], witnessH.data.map (· * (-Complex.I * ((Real.pi : ℝ) : ℂ)))⟩ : NDArray ℂ).get
      [i.val, j.val]) ⟨_, h.1⟩ ⟨_, h.2⟩ else 0, ?_, ?_, ?_⟩
  · simp only [Gate.unitary, Values.get, PyVal.addShift, expm, bind, Except.bind, Bool.false_eq_true, if_false,
      List.lookup, beq_self_eq_true, show ("hamiltonian" == "time_evolution") = false from rfl, witnessH, add_zero, if_true]
  · exact ⟨rfl, wf_ofFn _ _⟩
  · have hexp : ∀ i : Fin 4, NormedSpace.exp (Matrix.of fun i j : Fin 4 =>
        (⟨[4, 4], witnessH.data.map (· * (-Complex.I * ((Real.pi : ℝ) : ℂ)))⟩ : NDArray ℂ).get [i.val, j.val]) i i
        = if i = 1 then -1 else 1 := by
      intro i
      rw [hdiag, Matrix.exp_diagonal, Matrix.diagonal_apply_eq, Pi.coe_exp]
      split_ifs with h
      · rw [← Complex.exp_eq_exp_ℂ, neg_mul, Complex.exp_neg, mul_comm, Complex.exp_pi_mul_I]; norm_num
      · rw [NormedSpace.exp_zero]
    constructor
    · rw [entries, get_ofFn (by exact .cons (by norm_num) (.cons (by norm_num) .nil))]
      simp only [List.getD_cons_zero, List.getD_cons_succ]
      rw [dif_pos (by norm_num)]
      exact (hexp 1).trans (by simp)
    · rw [entries, get_ofFn (by exact .cons (by norm_num) (.cons (by norm_num) .nil))]
      simp only [List.getD_cons_zero, List.getD_cons_succ]
      rw [dif_pos (by norm_num)]
      exact (hexp 2).trans (by simp)

/-- **C14** is false for Hamiltonian evolution with unsorted targets: on qubits `(1, 0)`, `tensor` ignores the target
order while `apply_gates` honours it. -/
theorem C14_tensor_false :
    ¬ ∀ (so : SetOrder) (n : ℕ) (values : Values) (g : Gate) (st : NDArray ℂ), g.Ok n .unitary values → g.noise = none →
      IsKet n st → ∃ T r, g.tensor values (some (List.range n)) = .ok T ∧
      applyGates so (.vec st) (.single g) values = .ok (.vec r) ∧
      ∀ b : Lab n, r.get b.bits = ∑ b' : Lab n, T.get [binVal b.bits, binVal b'.bits] * st.get b'.bits := by
  intro H
  obtain ⟨U, hU, hop, e1, e2⟩ := witness_unitary [1, 0] none none
  let so : SetOrder := ⟨List.dedup, List.nodup_dedup, fun _ _ => List.mem_dedup⟩
  let g : Gate := Gate.HamiltonianEvolution (.tuple [1, 0]) .none
  let st : NDArray ℂ := ⟨[2, 2], [0, 0, 1, 0]⟩
  have hst : IsKet 2 st := ⟨rfl, rfl⟩
  have hok : g.Ok 2 .unitary [("time_evolution", .num Real.pi), ("hamiltonian", .arr witnessH)] :=
    ⟨⟨U, hU, hop⟩, ⟨.inl rfl, by decide⟩⟩
  obtain ⟨T, r, h1, h2, h3⟩ := H so 2 _ g st hok rfl hst
  obtain ⟨r', k1, -, k3⟩ := applyGates_single so hok rfl hst false true
  rw [h2] at k1; cases k1
  obtain ⟨T', t1, -, t3⟩ := tensor_mat (g := g) (F := List.range 2) hU hop (.inl rfl) (by decide) List.nodup_range (by decide)
  rw [h1] at t1; cases t1
  have hdelta : ∀ b' : Lab 2, st.get b'.bits = if b' = ![1, 0] then 1 else 0 := by
    intro b'
    obtain ⟨x, y, rfl⟩ : ∃ x y, b' = ![x, y] := ⟨b' 0, b' 1, by ext i; fin_cases i <;> rfl⟩
    fin_cases x <;> fin_cases y <;> simp [st, NDArray.get, Lab.bits, ravel, List.ofFn_succ]
  have hl := h3 ![1, 0]
  simp only [hdelta, mul_ite, mul_one, mul_zero, Finset.sum_ite_eq', Finset.mem_univ, if_true] at hl
  have hk := congrFun k3 ![1, 0]
  rw [Matrix.mulVec, dotProduct] at hk
  simp only [ket, hdelta, mul_ite, mul_one, mul_zero, Finset.sum_ite_eq', Finset.mem_univ, if_true] at hk
  rw [hk] at hl
  have hm : g.mat 2 .unitary [("time_evolution", .num Real.pi), ("hamiltonian", .arr witnessH)]
      = gateMat 2 (entries U) [1, 0] [] := by
    rw [Gate.mat, show g.operator .unitary _ = _ from hU]; rfl
  have ht : T.get [binVal (Lab.bits (![1, 0] : Lab 2)), binVal (Lab.bits (![1, 0] : Lab 2))] =
    gateMat 2 (entries U) ((pySorted g.target).map (posIn (List.range 2))) [] ![1, 0] ![1, 0] := t3 ![1, 0] ![1, 0]
  rw [hm, ht, gateMat_nil_apply, gateMat_nil_apply, if_pos (Lab.AgreeOff.refl _ _), if_pos (Lab.AgreeOff.refl _ _)] at hl
  rw [show Lab.idx (![1, 0] : Lab 2) [1, 0] = 1 by decide] at hl
  rw [show Lab.idx (![1, 0] : Lab 2) ((pySorted g.target).map (posIn (List.range 2))) = 2 by decide] at hl
  rw [e1, e2] at hl
  norm_num at hl

/-! ## `expand_operator` -/

section expand
variable {K : Type} [CommRing K] {k : ℕ} {op : NDArray K}

/-- **C16** (meaning): `expand_operator(op, S, F)` acts as `op` on the qubits `S` taken in increasing order (`S'`) and
as the identity on the other qubits of `F`. -/
theorem C16_expand (hop : IsOp k op) {S S' F : List ℕ} (hS : S.Nodup) (hk : S.length = k) (hF : F.Nodup)
    (hsub : ∀ q ∈ S, q ∈ F) (hp : S'.Perm S) (hS' : S'.Pairwise (· < ·)) :
    ∃ r, expandOperator op S F = .ok r ∧ r.shape = [2 ^ F.length, 2 ^ F.length] ∧
      ∀ x y : Lab F.length, r.get [binVal x.bits, binVal y.bits] = gateMatOn F (entries op) S' [] x y := by
  obtain ⟨r, h1, h2, h3⟩ := expandOperator_mat hop hS hF hsub hk
  refine ⟨r, h1, h2.shape, fun x y => ?_⟩
  have : pySorted S = S' := by
    rw [← pySorted_perm_eq hp, pySorted_of_le (hS'.imp le_of_lt)]
  rw [← entries, h3, this, map_idxOf_pySorted hF fun q hq => hsub q (hp.mem_iff.1 hq)]
  rfl

example : IsOp 2 (⟨[4, 4], List.replicate 16 3⟩ : NDArray ℤ) ∧ [8, 3].Nodup ∧ (∀ q ∈ [8, 3], q ∈ [5, 3, 8]) ∧
    [3, 8].Perm [8, 3] := ⟨⟨rfl, rfl⟩, by decide, by decide, by decide⟩

/-- **C16** (rejection): `expand_operator` raises ValueError exactly when the support is not contained in the full
support. -/
theorem C16_expand_rejects (hop : IsOp k op) {S F : List ℕ} (hS : S.Nodup) (hk : S.length = k) (hF : F.Nodup) :
    expandOperator op S F = .error .valueError ↔ ∃ q ∈ S, q ∉ F := by
  constructor
  · intro h
    by_contra hc
    push Not at hc
    obtain ⟨r, h1, -⟩ := expandOperator_mat hop hS hF hc hk
    rw [h1] at h; cases h
  · rintro ⟨q, hq, hqF⟩
    exact expandOperator_not_subset fun h => hqF (h q hq)

/-- **C16** (two steps): expanding to `F` and then to `G` is the same as expanding to `G` at once. -/
theorem C16_expand_twice (hop : IsOp k op) {S F G : List ℕ} (hS : S.Nodup) (hk : S.length = k) (hF : F.Nodup)
    (hG : G.Nodup) (hSF : ∀ q ∈ S, q ∈ F) (hFG : ∀ q ∈ F, q ∈ G) :
    (do let r ← expandOperator op S F
        expandOperator r F G) = expandOperator op S G ∧ ∃ r, expandOperator op S G = .ok r := by
  obtain ⟨r, h1, h2, h3⟩ := expandOperator_mat hop hS hF hSF hk
  obtain ⟨r', h1', h2', h3'⟩ := expandOperator_mat h2 hF hG hFG rfl
  obtain ⟨t, k1, k2, k3⟩ := expandOperator_mat hop hS hG (fun q hq => hFG q (hSF q hq)) hk
  rw [h1, k1]
  simp only [bind, Except.bind]
  refine ⟨?_, t, rfl⟩
  rw [h1', op_ext h2' k2]
  intro i j hi hj
  obtain ⟨l, hl, rfl⟩ := exists_bits hi
  obtain ⟨l', hl', rfl⟩ := exists_bits hj
  obtain ⟨x, rfl⟩ := bits_exists hl
  obtain ⟨y, rfl⟩ := bits_exists hl'
  rw [h3', k3, map_idxOf_pySorted hG fun q hq => hFG q ((perm_pySorted F).mem_iff.1 hq),
    map_idxOf_pySorted hG fun q hq => hFG q (hSF q ((perm_pySorted S).mem_iff.1 hq))]
  rw [map_idxOf_pySorted hF fun q hq => hSF q ((perm_pySorted S).mem_iff.1 hq)] at h3
  -- the labels of `F` read off a label of `G`
  let sub : Lab G.length → Lab F.length := fun z => Lab.ofBits F.length (((pySorted F).map (posIn G)).map z.bit)
  have hlen : ((pySorted F).map (posIn G)).length = F.length := by simp [(perm_pySorted F).length_eq]
  have hsubb : ∀ z, (sub z).bits = ((pySorted F).map (posIn G)).map z.bit := fun z =>
    Lab.bits_ofBits (hlen ▸ Lab.isBits_map_bit z _)
  have hbit : ∀ z, ∀ q ∈ F, (sub z).bit (posIn F q) = z.bit (posIn G q) := by
    intro z q hq
    rw [← Lab.getD_bits, hsubb, ← idxOf_pySorted hF hq]
    have hlt : (pySorted F).idxOf q < (pySorted F).length := List.idxOf_lt_length_of_mem ((perm_pySorted F).mem_iff.2 hq)
    simp [hlt]
  have hidx : ∀ z : Lab G.length, z.idx ((pySorted F).map (posIn G)) = binVal (sub z).bits := fun z => by rw [hsubb]; rfl
  rw [gateMat_nil_apply, gateMat_nil_apply, hidx, hidx, h3, gateMat_nil_apply]
  have hSidx : ∀ z : Lab G.length, (sub z).idx ((pySorted S).map (posIn F)) = z.idx ((pySorted S).map (posIn G)) := by
    intro z
    rw [Lab.idx, Lab.idx, List.map_map, List.map_map]
    congr 1
    exact List.map_congr_left fun q hq => hbit z q (hSF q ((perm_pySorted S).mem_iff.1 hq))
  rw [hSidx, hSidx]
  have hagree : Lab.AgreeOff ((pySorted S).map (posIn G)) x y ↔ Lab.AgreeOff ((pySorted F).map (posIn G)) x y ∧
      Lab.AgreeOff ((pySorted S).map (posIn F)) (sub x) (sub y) := by
    simp only [Lab.agreeOff_iff]
    constructor
    · intro h
      refine ⟨fun q hq hqF => h q hq fun hqS => hqF ?_, fun p hp hpS => ?_⟩
      · obtain ⟨a, ha, rfl⟩ := List.mem_map.1 hqS
        exact List.mem_map.2 ⟨a, (perm_pySorted F).mem_iff.2 (hSF a ((perm_pySorted S).mem_iff.1 ha)), rfl⟩
      · have : p ∈ (pySorted F).map (posIn F) := by rw [map_posIn_self hF]; exact List.mem_range.2 hp
        obtain ⟨a, ha, rfl⟩ := List.mem_map.1 this
        have haF := (perm_pySorted F).mem_iff.1 ha
        rw [hbit x a haF, hbit y a haF]
        refine h _ (posIn_lt hG (hFG a haF)) fun hc => hpS ?_
        obtain ⟨a', ha', he⟩ := List.mem_map.1 hc
        have := posIn_inj hG (hFG a' (hSF a' ((perm_pySorted S).mem_iff.1 ha'))) (hFG a haF) he
        subst this
        exact List.mem_map_of_mem ha'
    · rintro ⟨hF1, hF2⟩ q hq hqS
      by_cases hqF : q ∈ (pySorted F).map (posIn G)
      · obtain ⟨a, ha, rfl⟩ := List.mem_map.1 hqF
        have haF := (perm_pySorted F).mem_iff.1 ha
        rw [← hbit x a haF, ← hbit y a haF]
        refine hF2 _ (posIn_lt hF haF) fun hc => hqS ?_
        obtain ⟨a', ha', he⟩ := List.mem_map.1 hc
        have := posIn_inj hF (hSF a' ((perm_pySorted S).mem_iff.1 ha')) haF he
        subst this
        exact List.mem_map_of_mem ha'
      · exact hF1 q hq hqF
  by_cases hA : Lab.AgreeOff ((pySorted F).map (posIn G)) x y
  · rw [if_pos hA]
    by_cases hB : Lab.AgreeOff ((pySorted S).map (posIn F)) (sub x) (sub y)
    · rw [if_pos hB, if_pos (hagree.2 ⟨hA, hB⟩)]
    · rw [if_neg hB, if_neg fun h => hB (hagree.1 h).2]
  · rw [if_neg hA, if_neg fun h => hA (hagree.1 h).1]

example : (∀ q ∈ [4], q ∈ [9, 4]) ∧ (∀ q ∈ [9, 4], q ∈ [4, 6, 9, 1]) ∧ [4, 6, 9, 1].Nodup := by decide
end expand

end Verif
