import Verif.Lemmas.RunTree

/-! # Expectation values of states -/

namespace Verif
open NDArray
variable {n : ℕ} {values : Values}

theorem data_eq_map {a : NDArray ℂ} (h : IsKet n a) : a.data = (allIdx (List.replicate n 2)).map a.get := by
  have := eq_ofFn_get h.wf
  conv_lhs => rw [this]
  rw [ofFn, h.shape]

theorem inner_ket {a b : NDArray ℂ} (ha : IsKet n a) (hb : IsKet n b) :
    inner a b = .ok (∑ x : Lab n, star (ket n a x) * ket n b x) := by
  rw [inner, dot, if_pos (by simp [flatten, conj, ha.shape, hb.shape])]
  simp only [flatten, conj]
  rw [data_eq_map ha, data_eq_map hb, List.map_map, List.zipWith_map, List.zipWith_self, sum_allIdx_two]
  rfl

/-- `Re ⟨ψ|O|ψ⟩` is the expectation in the density operator of `ψ`. -/
theorem expVal_vec (O : Matrix (Lab n) (Lab n) ℂ) (a : NDArray ℂ) :
    expVal O ((State.vec a).mat n) = (∑ x : Lab n, star (ket n a x) * O.mulVec (ket n a) x).re := by
  rw [expVal, Matrix.trace]
  refine congrArg Complex.re (Finset.sum_congr rfl fun x _ => ?_)
  rw [Matrix.diag_apply, Matrix.mul_apply, Matrix.mulVec, dotProduct, Finset.mul_sum]
  refine Finset.sum_congr rfl fun y _ => ?_
  simp only [State.mat, Matrix.of_apply, ket]
  ring

theorem expectSingle_vec (so : SetOrder) {o : Observable} {O : Matrix (Lab n) (Lab n) ℂ} (ho : o.Means (AnyLeaf n values) values O)
    {a : NDArray ℂ} (ha : IsKet n a) :
    expectSingle so values o (.vec a) = .ok (expVal O ((State.vec a).mat n)) := by
  obtain ⟨r, h1, h2, h3⟩ := callSum_means so ha ho
  simp only [expectSingle, Observable.forward, h1, bind, Except.bind, Op.innerReal, inner_ket ha h2, pure, Except.pure]
  rw [expVal_vec, h3]

theorem applyOperator_left {k : ℕ} {op : NDArray ℂ} (hop : IsOp k op) {ρ : DensityMatrix ℂ} (hρ : IsDM n ρ) {ts : List ℕ}
    (hk : ts.length = k) (hv : ValidDims n ts) :
    ∃ r, applyOperator ρ.array op ts none = .ok r ∧ r.shape = List.replicate (n + n) 2 ∧ r.WF ∧
      dmMat n r = gateMat n (entries op) ts [] * dmMat n ρ.array := by
  have hv' : ValidDims (n + n) ts := ⟨hv.nodup, fun q hq => by have := hv.lt q hq; omega⟩
  obtain ⟨r, h1, h2, h3⟩ := applyOperator_opMat (n := n + n) (st := ρ.array) (o := (op, ts, none)) ⟨hρ.shape, hρ.wf⟩
    ⟨hk ▸ hop, .inl rfl, by simpa [ctlInts] using hv'⟩
  refine ⟨r, h1, h2.shape, h2.wf, ?_⟩
  funext x y
  have hxy : IsBits (n + n) (x.bits ++ y.bits) := x.isBits_bits.append y.isBits_bits
  let b : Lab (n + n) := Lab.ofBits (n + n) (x.bits ++ y.bits)
  have hb : b.bits = x.bits ++ y.bits := Lab.bits_ofBits hxy
  have hbit : ∀ q, q < n → b.bit q = x.bit q := fun q hq => by
    rw [← Lab.getD_bits, hb, getD_append_lt (by rw [x.isBits_bits.1]; exact hq), Lab.getD_bits]
  have hbit' : ∀ q, n ≤ q → b.bit q = y.bit (q - n) := fun q hq => by
    rw [← Lab.getD_bits, hb, getD_append_ge (by rw [x.isBits_bits.1]; exact hq), x.isBits_bits.1, Lab.getD_bits]
  have hk3 := congrFun h3 b
  rw [opMat] at hk3
  simp only [ctlInts, Option.getD_none, List.filterMap_nil] at hk3
  rw [mulVec_gateMat_nil _ hv'] at hk3
  rw [dmMat, ← hb]
  change ket (n + n) r b = _
  rw [hk3]
  have hcol : (gateMat n (entries op) ts [] * dmMat n ρ.array) x y
      = (gateMat n (entries op) ts []).mulVec (fun z => dmMat n ρ.array z y) x := by
    rw [Matrix.mul_apply, Matrix.mulVec, dotProduct]
  rw [hcol, mulVec_gateMat_nil _ hv]
  congr 1
  apply List.map_congr_left
  intro s hs
  have hs' := mem_allIdx_two.1 hs
  have hi : b.idx ts = x.idx ts := by
    rw [Lab.idx, Lab.idx]; exact congrArg binVal (List.map_congr_left fun q hq => hbit q (hv.lt q hq))
  have ho : (b.override ts s).bits = (x.override ts s).bits ++ y.bits := by
    have hxo : IsBits (n + n) ((x.override ts s).bits ++ y.bits) := (x.override ts s).isBits_bits.append y.isBits_bits
    rw [← Lab.bits_ofBits hxo]
    refine congrArg _ (Lab.ext_bit fun q hq => ?_)
    rw [Lab.bit_override _ _ _ hs'.2 hq, Lab.bit_ofBits hxo]
    by_cases hqn : q < n
    · rw [getD_append_lt (by rw [Lab.isBits_bits _ |>.1]; exact hqn), Lab.getD_bits, Lab.bit_override _ _ _ hs'.2 hqn, hbit q hqn]
    · rw [getD_append_ge (by rw [Lab.isBits_bits _ |>.1]; omega), Lab.isBits_bits _ |>.1, Lab.getD_bits,
        if_neg fun hm => hqn (hv.lt q hm), hbit' q (by omega)]
  rw [hi, ket, ho]
  rfl

theorem trace_reshape {a : NDArray ℂ} (ha : a.shape = List.replicate (n + n) 2) :
    (⟨[2 ^ n, 2 ^ n], a.data⟩ : NDArray ℂ).trace = .ok (dmMat n a).trace := by
  simp only [NDArray.trace, min_self]
  refine congrArg _ ?_
  rw [← List.sum_toFinset _ List.nodup_range, List.toFinset_range, ← sum_binVal, sum_allIdx_two, Matrix.trace]
  refine Finset.sum_congr rfl fun x _ => ?_
  rw [Matrix.diag_apply, ← entries_reshape ha]; rfl

/-- What the density-matrix expectation computes: the observable's matrix in increasing order of the qubits, placed on
the support in the iteration order of the Python set. -/
theorem expectDM_eq (so : SetOrder) {ops : List Op} {O : Matrix (Lab n) (Lab n) ℂ}
    (ho : Op.ListedSum (SortLeaf n values) values ops O) {ρ : DensityMatrix ℂ} (hρ : IsDM n ρ) :
    ∃ S m, (Op.comp .obs ops).qubitSupport so = .ok S ∧ ValidDims n S ∧
      (∀ q, q ∈ S ↔ ∃ g ∈ Op.gatesList ops, q ∈ g.qubits) ∧
      (Op.comp .obs ops).tensor so values none = .ok m ∧ IsOp S.length m ∧
      gateMat n (entries m) (pySorted S) [] = O ∧
      Op.expectDM so values ops ρ = .ok (expVal (gateMat n (entries m) S []) (dmMat n ρ.array)) := by
  have hvalid := Op.ListedSum.leaves (L := SortLeaf n values) (fun _ _ => SortLeaf.valid) ho
  obtain ⟨S, h1, h2, h3⟩ := qubitSupport_tree so (.comp .obs ops) (by simpa only [Op.gates] using hvalid)
  simp only [Op.gates] at h3
  have hS : ValidDims n S := ⟨h2, fun q hq => by
    obtain ⟨g, hg, hq⟩ := (h3 q).1 hq
    exact (hvalid g hg).dims.lt q hq⟩
  obtain ⟨rs, k1, k2, k3, k4⟩ := tensorSum_listed so hS (fun g hg q hq => (h3 q).2 ⟨g, hg, hq⟩) ho
  obtain ⟨m, m1, m2, m3⟩ := reduce_addOps (n := n) k2 k3
  have ht : (Op.comp .obs ops).tensor so values none = .ok m := by
    simp only [Op.tensor, Op.fullSupport, h1, bind, Except.bind, k1, m1]
  obtain ⟨r, r1, r2, r3, r4⟩ := applyOperator_left m2 hρ rfl hS
  refine ⟨S, m, h1, hS, h3, ht, m2, by rw [m3, k4], ?_⟩
  have hnq : numQubitsDM ρ = n := by simp [numQubitsDM, hρ.shape]; omega
  have hres : r.reshape [2 ^ n, 2 ^ n] = .ok ⟨[2 ^ n, 2 ^ n], r.data⟩ := by
    rw [reshape, if_pos]; simp [r2, pow_add]
  simp only [Op.expectDM, ht, h1, r1, hnq, hres, bind, Except.bind, trace_reshape r2, pure, Except.pure, expVal, r4]

end Verif
