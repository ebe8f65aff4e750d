import Verif.Lemmas.ApplyGates

/-! # Array extensionality, the dagger of an operator, and standard gates as `Gate.Ok` gates -/

namespace Verif
open NDArray

section
variable {K : Type} [CommRing K] {n : ℕ}

theorem bits_exists {idx : List ℕ} (h : IsBits n idx) : ∃ b : Lab n, b.bits = idx := by
  refine ⟨fun i => ⟨idx.getD i 0, h.getD_lt i⟩, ?_⟩
  apply List.ext_getElem
  · simp [Lab.bits, h.1]
  · intro i h1 h2
    simp [Lab.bits, List.getD_eq_getElem?_getD, List.getElem?_eq_getElem h2]

/-- Two state-vector arrays with the same amplitudes are equal. -/
theorem ket_ext {a b : NDArray K} (ha : IsKet n a) (hb : IsKet n b) (h : ket n a = ket n b) : a = b := by
  apply ext_get ha.wf hb.wf (by rw [ha.shape, hb.shape])
  intro idx hidx
  rw [ha.shape] at hidx
  obtain ⟨l, rfl⟩ := bits_exists (forall₂_replicate.1 hidx)
  exact congrFun h l

theorem dm_ext {a b : DensityMatrix K} (ha : IsDM n a) (hb : IsDM n b) (h : dmMat n a.array = dmMat n b.array) :
    a = b := by
  obtain ⟨a⟩ := a
  obtain ⟨b⟩ := b
  congr 1
  apply ext_get ha.wf hb.wf (by rw [ha.shape, hb.shape])
  intro idx hidx
  rw [ha.shape] at hidx
  obtain ⟨h1, h2⟩ := isBits_take_drop (forall₂_replicate.1 hidx)
  obtain ⟨x, hx⟩ := bits_exists h1
  obtain ⟨y, hy⟩ := bits_exists h2
  have := congrFun (congrFun h x) y
  simp only [dmMat, hx, hy, List.take_append_drop] at this
  exact this

theorem op_ext {k : ℕ} {a b : NDArray K} (ha : IsOp k a) (hb : IsOp k b)
    (h : ∀ i j, i < 2 ^ k → j < 2 ^ k → entries a i j = entries b i j) : a = b := by
  apply ext_get ha.wf hb.wf (by rw [ha.shape, hb.shape])
  intro idx hidx
  rw [ha.shape] at hidx
  rcases hidx with _ | ⟨h1, _ | ⟨h2, _ | _⟩⟩
  exact h _ _ h1 h2

/-- `_dagger` of a `2^k × 2^k` matrix is its conjugate transpose. -/
theorem dagger_op [StarRing K] {k : ℕ} {U : NDArray K} (hU : IsOp k U) :
    ∃ V, dagger U = .ok V ∧ IsOp k V ∧ ∀ i j, i < 2 ^ k → j < 2 ^ k → entries V i j = conjT (entries U) i j := by
  have hnd : U.ndim = 2 := by simp [ndim, hU.shape]
  have e : dagger U = .ok (conj (ofFn [2 ^ k, 2 ^ k] fun idx => U.get (permIdx [1, 0] idx))) := by
    simp only [dagger, hnd, lt_irrefl, if_false]
    rw [show (List.range 2).reverse = [1, 0] from rfl, NDArray.transpose, hnd, if_pos (by decide)]
    simp [hU.shape, Except.map]
  refine ⟨_, e, ⟨rfl, ?_⟩, fun i j hi hj => ?_⟩
  · simp only [WF, conj, List.length_map]; exact wf_ofFn _ _
  · rw [entries, get_conj, get_ofFn (by simp [hi, hj])]
    simp [permIdx, conjT, entries, List.range_succ, List.idxOf_cons]

end

variable {n : ℕ} {values : Values} {g : Gate} {s : StdGate}

theorem Gate.Built.is (h : g.Built values s) : g.Is values s := by
  cases h with
  | I => exact .I _ _ _
  | X => exact .X _ _ _
  | Y => exact .Y _ _ _
  | Z => exact .Z _ _ _
  | H => exact .H _ _ _
  | S => exact .S _ _ _
  | T => exact .T _ _ _
  | SWAP => exact .SWAP _ _ _
  | RX _ _ _ hp => exact .RX _ _ _ hp (by simp)
  | RY _ _ _ hp => exact .RY _ _ _ hp (by simp)
  | RZ _ _ _ hp => exact .RZ _ _ _ hp (by simp)
  | PHASE _ _ _ hp => exact .PHASE _ _ _ hp (by simp)

theorem gate_mat_eq {ot : OpType} {U : NDArray ℂ} {V : ℕ → ℕ → ℂ} (hU : g.operator ot values = .ok U)
    (h : ∀ i j, i < 2 ^ g.target.length → j < 2 ^ g.target.length → entries U i j = V i j) :
    g.mat n ot values = gateMat n V g.target (ctlInts g.control) := by
  simp only [Gate.mat, hU]
  exact gateMat_congr h

theorem Gate.Std.ok (h : g.Std n values s) : g.Ok n .unitary values := by
  obtain ⟨U, h1, h2, _⟩ := h.is.unitary
  exact ⟨⟨U, h1, h.arity ▸ h2⟩, h.valid⟩

theorem Gate.Std.mat (h : g.Std n values s) : g.mat n .unitary values = stdMat n g s := by
  obtain ⟨U, h1, h2, h3⟩ := h.is.unitary
  exact gate_mat_eq h1 (h.arity ▸ h3)

theorem Gate.Ok.dagger (h : g.Ok n .unitary values) :
    g.Ok n .dagger values ∧ g.mat n .dagger values = (g.mat n .unitary values).conjTranspose := by
  obtain ⟨⟨U, h1, h2⟩, hv⟩ := h
  obtain ⟨V, e1, e2, e3⟩ := dagger_op h2
  have hV : g.operator .dagger values = .ok V := by
    change g.unitary values = .ok U at h1
    simp only [Gate.operator, Gate.daggerOp, h1]; exact e1
  refine ⟨⟨⟨V, hV, e2⟩, hv⟩, ?_⟩
  rw [gate_mat_eq hV e3, Gate.mat, h1, gateMat_conjTranspose _ hv.dims]

theorem Gate.Std.unitary (h : g.Std n values s) :
    (stdMat n g s).conjTranspose * stdMat n g s = 1 ∧ stdMat n g s * (stdMat n g s).conjTranspose = 1 :=
  gateMat_unitary h.valid.dims (h.arity ▸ s.isUnitary)

/-- A list of gates each of which is a standard gate. -/
theorem gatesMat_std {gs : List Gate} {ss : List StdGate} (h : List.Forall₂ (Gate.Std n values) gs ss) :
    gatesMat n .unitary values gs = (List.zipWith (stdMat n) gs ss).reverse.prod := by
  induction h with
  | nil => rfl
  | cons h _ ih => simp [gatesMat, ih, h.mat]

theorem forall₂_std_ok {gs : List Gate} {ss : List StdGate} (h : List.Forall₂ (Gate.Std n values) gs ss) :
    ∀ g ∈ gs, g.Ok n .unitary values := by
  induction h with
  | nil => simp
  | cons h _ ih => simpa using ⟨h.ok, ih⟩

theorem gatesMat_dagger {gs : List Gate} (h : ∀ g ∈ gs, g.Ok n .unitary values) :
    gatesMat n .dagger values gs.reverse = (gatesMat n .unitary values gs).conjTranspose := by
  induction gs with
  | nil => simp [gatesMat]
  | cons g gs ih =>
    rw [List.reverse_cons, gatesMat_append, ih fun g' h' => h g' (by simp [h'])]
    simp only [gatesMat, one_mul, Matrix.conjTranspose_mul, (h g (by simp)).dagger.2]

theorem gatesMat_std_unitary {gs : List Gate} {ss : List StdGate} (h : List.Forall₂ (Gate.Std n values) gs ss) :
    (gatesMat n .unitary values gs).conjTranspose * gatesMat n .unitary values gs = 1 := by
  induction h with
  | nil => simp [gatesMat]
  | @cons g s gs ss h _ ih =>
    rw [gatesMat, h.mat, Matrix.conjTranspose_mul, mul_assoc,
      ← mul_assoc _ (gatesMat n .unitary values gs) (stdMat n g s), ih, one_mul, h.unitary.1]

end Verif
