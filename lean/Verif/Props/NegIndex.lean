import Verif.Lemmas.NegIndex
import Verif.Lemmas.MapArr
import Verif.Props.Apply

/-!
# C64: negative qubit numbers

Nothing checks the sign of a qubit number.  On state vectors a negative number counts from the last qubit, as numpy
axes do.  On density matrices the numbers are sorted as integers instead of being read as axes, so a negative number
means something else.
-/

set_option autoImplicit false

namespace Verif
open NDArray

variable {K : Type} [CommRing K] {n k : ℕ}

/-- The numbers `zs` name the qubits `qs` of an `n`-qubit register, counting from the end when negative. -/
def CountsFromEnd (n : ℕ) (zs : List ℤ) (qs : List ℕ) : Prop :=
  List.Forall₂ (fun (z : ℤ) (q : ℕ) => q < n ∧ (z = q ∨ z = (q : ℤ) - n)) zs qs

theorem CountsFromEnd.spec {zs : List ℤ} {qs : List ℕ} (h : CountsFromEnd n zs qs) :
    (∀ z ∈ zs, -(n : ℤ) ≤ z ∧ z < n) ∧ zs.map (wrapAxis n) = qs := by
  unfold CountsFromEnd at h
  induction h with
  | nil => exact ⟨by simp, rfl⟩
  | @cons z q zs qs h1 _ ih =>
    refine ⟨fun z' hz => ?_, ?_⟩
    · rcases List.mem_cons.1 hz with rfl | hz
      · omega
      · exact ih.1 z' hz
    · rw [List.map_cons, ih.2]
      congr 1
      simp only [wrapAxis]
      split_ifs <;> omega

theorem CountsFromEnd.of {zs : List ℤ} (h : ∀ z ∈ zs, -(n : ℤ) ≤ z ∧ z < n) : CountsFromEnd n zs (zs.map (wrapAxis n)) := by
  unfold CountsFromEnd
  induction zs with
  | nil => exact .nil
  | cons z zs ih =>
    refine .cons ?_ (ih fun z hz => h z (by simp [hz]))
    have := h z (by simp)
    simp only [wrapAxis]
    split_ifs <;> omega

theorem CountsFromEnd.lt {zs : List ℤ} {qs : List ℕ} (h : CountsFromEnd n zs qs) : ∀ q ∈ qs, q < n := by
  unfold CountsFromEnd at h
  induction h with
  | nil => simp
  | @cons z q zs qs h1 _ ih =>
    intro q' hq
    rcases List.mem_cons.1 hq with rfl | hq
    · exact h1.1
    · exact ih q' hq

/-- **C64** (state vectors): `apply_operator` with possibly negative qubit numbers acts on the qubits they name when
counted from the end. -/
theorem C64_vec {op st : NDArray K} (hop : IsOp k op) (hst : IsKet n st) {ts cs : List ℤ} {ts' cs' : List ℕ}
    (ht : CountsFromEnd n ts ts') (hc : CountsFromEnd n cs cs') (hts : ts.length = k) (hnd : (cs' ++ ts').Nodup) :
    ∃ r, applyOperatorZ st op ts cs = .ok r ∧ IsKet n r ∧
      ket n r = (gateMat n (entries op) ts' cs').mulVec (ket n st) := by
  obtain ⟨h1, rfl⟩ := ht.spec
  obtain ⟨h2, rfl⟩ := hc.spec
  have hr : ∀ q ∈ cs ++ ts, -(n : ℤ) ≤ q ∧ q < n := fun q hq => (List.mem_append.1 hq).elim (h2 q) (h1 q)
  rw [applyOperatorZ_eq hop hst hr hts (by rw [List.map_append]; exact hnd)]
  exact applyOperator_ket hop hst (by simpa using hts)
    ⟨hnd, fun q hq => (List.mem_append.1 hq).elim (hc.lt q) (ht.lt q)⟩

example : CountsFromEnd 3 [-1, 0] [2, 0] ∧ ([] ++ [2, 0] : List ℕ).Nodup :=
  ⟨List.Forall₂.cons (by decide) (List.Forall₂.cons (by decide) List.Forall₂.nil), by decide⟩

/-- **C64** (state vectors, misuse): numbers outside `-n, …, n-1`, two numbers for the same qubit, or the wrong number of
targets raise an error. -/
theorem C64_vec_rejects {op st : NDArray K} (hop : IsOp k op) (hst : IsKet n st) {ts cs : List ℤ}
    (h : ¬ ∃ ts' cs', CountsFromEnd n ts ts' ∧ CountsFromEnd n cs cs' ∧ ts.length = k ∧ (cs' ++ ts').Nodup) :
    ∃ e, applyOperatorZ st op ts cs = .error e := by
  refine applyOperatorZ_error hop hst fun ⟨h1, h2, h3⟩ => h ⟨_, _, .of fun z hz => h1 z (by simp [hz]),
    .of fun z hz => h1 z (by simp [hz]), h2, by rwa [← List.map_append]⟩

example : ¬ ∃ ts' cs', CountsFromEnd 2 [1] ts' ∧ CountsFromEnd 2 [-1] cs' ∧ [(1 : ℤ)].length = 1 ∧
    (cs' ++ ts' : List ℕ).Nodup := by
  rintro ⟨ts', cs', h1, h2, -, h4⟩
  rw [← h1.spec.2, ← h2.spec.2] at h4
  exact absurd h4 (by decide)

/-- **C64** (natural numbers): for numbers that are not negative this is the `apply_operator` of all other theorems. -/
theorem C64_vec_nat {op st : NDArray K} (hop : IsOp k op) (hst : IsKet n st) {ts cs : List ℕ} (hts : ts.length = k)
    (hv : ValidDims n (cs ++ ts)) :
    applyOperatorZ st op (ts.map Int.ofNat) (cs.map Int.ofNat) = applyOperator st op ts (ctlOf cs) := by
  have hw : ∀ l : List ℕ, (l.map Int.ofNat).map (wrapAxis n) = l := by
    intro l
    rw [List.map_map, List.map_congr_left (g := id), List.map_id]
    intro a _
    simp [wrapAxis]
  have h1 := applyOperatorZ_eq hop hst (ts := ts.map Int.ofNat) (cs := cs.map Int.ofNat) ?_ (by simpa using hts) ?_
  · rw [h1, hw, hw]
  · intro q hq
    rw [← List.map_append] at hq
    obtain ⟨x, hx, rfl⟩ := List.mem_map.1 hq
    have := hv.lt x hx
    simp only [Int.ofNat_eq_natCast]
    omega
  · rw [← List.map_append, hw]; exact hv.nodup

example : ValidDims 2 ([1] ++ [0]) := by decide

variable [StarRing K]

/-- **C64** (natural numbers, density matrices). -/
theorem C64_dm_nat (so : SetOrder) {op : NDArray K} (hop : IsOp k op) (ρ : DensityMatrix K) (ts cs : List ℕ) :
    applyOperatorDMZ so ρ op (ts.map Int.ofNat) (cs.map Int.ofNat) = applyOperatorDM so ρ op ts (ctlOf cs) :=
  applyOperatorDMZ_ofNat so hop ρ ts cs

/-- **C64** (density matrices, exact): with distinct numbers, one of them negative, a gate not larger than the register
is either refused, or acts on the first qubits of the register, whatever the numbers are.  It is accepted exactly when the
numbers followed by the remaining qubits are increasing. -/
theorem C64_dm_partial (so : SetOrder) {op : NDArray K} {ρ : DensityMatrix K} (hop : IsOp k op) (hρ : IsDM n ρ)
    {ts cs : List ℤ} (hts : ts.length = k) (hnd : (cs ++ ts).Nodup) (hneg : ∃ q ∈ cs ++ ts, q < 0)
    (hle : cs.length + k ≤ n) :
    if (cs ++ ts ++ (so.order ((List.range n).filter fun q => (q : ℤ) ∉ cs ++ ts)).map Int.ofNat).Pairwise (· < ·) then
      ∃ r, applyOperatorDMZ so ρ op ts cs = .ok r ∧ IsDM n r ∧
        dmMat n r.array = gateMat n (entries op) (List.range' cs.length k) (List.range cs.length) * dmMat n ρ.array *
          (gateMat n (entries op) (List.range' cs.length k) (List.range cs.length)).conjTranspose
    else ∃ e, applyOperatorDMZ so ρ op ts cs = .error e := by
  split_ifs with hs
  · rw [applyOperatorDMZ_sorted so hop hρ hnd hs hts]
    have hr : List.range cs.length ++ List.range' cs.length k = List.range (cs.length + k) := by
      rw [List.range_eq_range', List.range_eq_range']
      simpa using List.range'_append_1 (s := 0) (m := cs.length) (n := k)
    exact applyOperatorDM_mat ascOrder hop hρ (by simp)
      ⟨by rw [hr]; exact List.nodup_range, fun q hq => by rw [hr, List.mem_range] at hq; omega⟩
  · exact ⟨_, applyOperatorDMZ_unsorted so hop hρ hnd hneg hs⟩

example : [(-1 : ℤ)].length = 1 ∧ ([0] ++ [-1] : List ℤ).Nodup ∧ (∃ q ∈ ([0] ++ [-1] : List ℤ), q < 0) ∧ [(0 : ℤ)].length + 1 ≤ 2 :=
  ⟨rfl, by decide, ⟨-1, by decide, by decide⟩, by decide⟩

/-- **C64** (density matrices, one-qubit gates): with sets traversed in increasing order, a one-qubit gate on *any* negative
number acts on qubit 0, also for numbers below `-n`. -/
theorem C64_dm_one (so : SetOrder) (hso : so.order (List.range n) = List.range n) {op : NDArray K} {ρ : DensityMatrix K}
    (hop : IsOp 1 op) (hρ : IsDM n ρ) (hn : 0 < n) {q : ℤ} (hq : q < 0) :
    ∃ r, applyOperatorDMZ so ρ op [q] [] = .ok r ∧ IsDM n r ∧
      dmMat n r.array = gateMat n (entries op) [0] [] * dmMat n ρ.array * (gateMat n (entries op) [0] []).conjTranspose := by
  have h := C64_dm_partial so hop hρ (ts := [q]) (cs := []) rfl (by simp) ⟨q, by simp, hq⟩ (by simp; omega)
  have hf : ((List.range n).filter fun x : ℕ => (x : ℤ) ∉ ([] ++ [q] : List ℤ)) = List.range n := by
    rw [List.filter_eq_self]
    intro a _
    simp
    omega
  rw [hf, hso, if_pos] at h
  · exact h
  · rw [List.nil_append, List.singleton_append, List.pairwise_cons]
    refine ⟨fun x hx => ?_, ?_⟩
    · obtain ⟨y, -, rfl⟩ := List.mem_map.1 hx
      simp only [Int.ofNat_eq_natCast]
      omega
    · rw [List.pairwise_map]
      exact List.pairwise_lt_range.imp fun h => by simpa using h

example : ascOrder.order (List.range 2) = List.range 2 ∧ (-5 : ℤ) < 0 := by decide

/-- The two-qubit state `|00⟩`. -/
def ket00 : NDArray ℂ := ⟨[2, 2], [1, 0, 0, 0]⟩

/-- **C64** is false for density matrices: `X(-1)` maps the state vector `|00⟩` to `|01⟩`, but the density matrix of
`|00⟩` to that of `|10⟩`. -/
theorem C64_dm_false :
    applyOperatorZ ket00 matX [-1] [] = .ok ⟨[2, 2], [0, 1, 0, 0]⟩ ∧
    applyOperatorDMZ ascOrder (densityMat ket00) matX [-1] [] = .ok (densityMat ⟨[2, 2], [0, 0, 1, 0]⟩) ∧
    (densityMat ⟨[2, 2], [0, 0, 1, 0]⟩ : DensityMatrix ℂ) ≠ densityMat ⟨[2, 2], [0, 1, 0, 0]⟩ := by
  letI := intStar
  have hop : IsOp 1 (matX : NDArray ℂ) := ⟨rfl, rfl⟩
  have hst : IsKet 2 ket00 := ⟨rfl, rfl⟩
  have hρ : IsDM 2 (densityMat ket00) := (densityMat_isDM hst).1
  have hm : ∀ l : List ℤ, densityMat (⟨[2, 2], l.map (Int.castRingHom ℂ)⟩ : NDArray ℂ)
      = ⟨(densityMat (⟨[2, 2], l⟩ : NDArray ℤ)).array.mapArr (Int.castRingHom ℂ)⟩ := fun l =>
    densityMat_mapArr (Int.castRingHom ℂ) (fun x => by simp [intStar, starRingOfComm]) ⟨[2, 2], l⟩
  refine ⟨?_, ?_, ?_⟩
  · rw [applyOperatorZ_eq hop hst (by decide) rfl (by decide)]
    have h := applyOperator_mapArr (Int.castRingHom ℂ) (⟨[2, 2], [1, 0, 0, 0]⟩ : NDArray ℤ) ⟨[2, 2], [0, 1, 1, 0]⟩ [1]
      (some [.none])
    rw [show applyOperator (⟨[2, 2], [1, 0, 0, 0]⟩ : NDArray ℤ) ⟨[2, 2], [0, 1, 1, 0]⟩ [1] (some [.none])
      = .ok ⟨[2, 2], [0, 1, 0, 0]⟩ by decide +kernel] at h
    simpa [mapArr, Except.map, ket00, matX, mat2, ctlOf, wrapAxis] using h
  · rw [applyOperatorDMZ_sorted ascOrder hop hρ (by decide) (by decide) rfl]
    have h := applyOperatorDM_mapArr (Int.castRingHom ℂ) (fun x => by simp [intStar, starRingOfComm]) ascOrder
      (densityMat (⟨[2, 2], [1, 0, 0, 0]⟩ : NDArray ℤ)) ⟨[2, 2], [0, 1, 1, 0]⟩ [0] (some [.none])
    rw [show applyOperatorDM ascOrder (densityMat (⟨[2, 2], [1, 0, 0, 0]⟩ : NDArray ℤ)) ⟨[2, 2], [0, 1, 1, 0]⟩ [0] (some [.none])
      = .ok (densityMat ⟨[2, 2], [0, 0, 1, 0]⟩) by decide +kernel, ← hm] at h
    simp only [Except.map, ← hm] at h
    simpa [mapArr, ket00, matX, mat2, ctlOf] using h
  · intro h
    have := congrArg (fun r : DensityMatrix ℂ => r.array.get [1, 0, 1, 0]) h
    simp only [densityMat] at this
    rw [get_ofFn, get_ofFn] at this
    · simp [NDArray.get, NDArray.ndim, ravel] at this
    all_goals decide

end Verif
