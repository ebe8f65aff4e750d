import Verif.Lemmas.Argsort
import Verif.Props.NegIndex

/-!
# Property theorems: any qubit numbers on density matrices, with any `np.argsort` (C69)

`apply_operator` on an `n`-qubit density matrix sorts "controls, targets, remaining qubits" with `np.argsort`, whose
treatment of equal keys is not specified.
-/

set_option autoImplicit false

namespace Verif
open NDArray
variable {K : Type} [CommRing K] [StarRing K] {n k : ℕ}

/-- **C69** (distinct numbers): for distinct numbers the result does not depend on how `np.argsort` breaks ties, so the
models of all other theorems, which fix an order, are right about it. -/
theorem C69_distinct (as : Argsort) (so : SetOrder) {op : NDArray K} (hop : IsOp k op) (ρ : DensityMatrix K)
    {ts cs : List ℤ} (h : (cs ++ ts).Nodup) : applyOperatorDMA as so ρ op ts cs = applyOperatorDMZ so ρ op ts cs :=
  applyOperatorDMA_nodup as so hop ρ h

/-- **C69** (numbers that name distinct qubits of the register): the gate is applied, for every `np.argsort` and every
set order. -/
theorem C69_valid (as : Argsort) (so : SetOrder) {op : NDArray K} {ρ : DensityMatrix K} (hop : IsOp k op) (hρ : IsDM n ρ)
    {ts cs : List ℕ} (hts : ts.length = k) (hv : ValidDims n (cs ++ ts)) :
    ∃ r, applyOperatorDMA as so ρ op (ts.map Int.ofNat) (cs.map Int.ofNat) = .ok r ∧ IsDM n r ∧
      dmMat n r.array = gateMat n (entries op) ts cs * dmMat n ρ.array * (gateMat n (entries op) ts cs).conjTranspose := by
  rw [C69_distinct as so hop ρ (by rw [← List.map_append]; exact hv.nodup.map Int.ofNat_injective), C64_dm_nat so hop]
  exact applyOperatorDM_mat so hop hρ hts hv

/-- **C69** (all other numbers, exact acceptance): if the numbers are not distinct qubits of the register, the gate is
accepted exactly when the number of targets is right, `np.argsort` returns the identity for "controls, targets, remaining
qubits", and there are at most `2n` controls and targets. -/
theorem C69_accepts_iff (as : Argsort) (so : SetOrder) {op : NDArray K} {ρ : DensityMatrix K} (hop : IsOp k op)
    (hρ : IsDM n ρ) {ts cs : List ℤ} (h : ¬ ((cs ++ ts).Nodup ∧ ∀ q ∈ cs ++ ts, 0 ≤ q ∧ q < n)) {P : List ℤ}
    (hP : P = cs ++ ts ++ (so.order ((List.range n).filter fun q => (q : ℤ) ∉ cs ++ ts)).map Int.ofNat) :
    (∃ r, applyOperatorDMA as so ρ op ts cs = .ok r) ↔
      ts.length = k ∧ as.fn P = List.range P.length ∧ cs.length + k ≤ 2 * n := by
  subst hP
  exact applyOperatorDMA_accepts as so hop hρ h

/-- **C69** (refusals): whatever `np.argsort` does with equal keys, the gate is refused unless the list is sorted. -/
theorem C69_refused (as : Argsort) (so : SetOrder) {op : NDArray K} {ρ : DensityMatrix K} (hop : IsOp k op)
    (hρ : IsDM n ρ) {ts cs : List ℤ} (h : ¬ ((cs ++ ts).Nodup ∧ ∀ q ∈ cs ++ ts, 0 ≤ q ∧ q < n))
    (hs : ¬ (cs ++ ts ++ (so.order ((List.range n).filter fun q => (q : ℤ) ∉ cs ++ ts)).map Int.ofNat).Pairwise (· ≤ ·)) :
    ∃ e, applyOperatorDMA as so ρ op ts cs = .error e :=
  ⟨_, applyOperatorDMA_refused as so hop hρ h fun e => hs (as.pairwise_of_range e)⟩

/-- **C69** (refusals, in terms of the qubits): such a gate is refused if a qubit of the register that it does not use is
smaller than one of its numbers. -/
theorem C69_refused_gap (as : Argsort) (so : SetOrder) {op : NDArray K} {ρ : DensityMatrix K} (hop : IsOp k op)
    (hρ : IsDM n ρ) {ts cs : List ℤ} (h : ¬ ((cs ++ ts).Nodup ∧ ∀ q ∈ cs ++ ts, 0 ≤ q ∧ q < n))
    {q : ℕ} (hq : q < n) (hq' : (q : ℤ) ∉ cs ++ ts) {d : ℤ} (hd : d ∈ cs ++ ts) (hlt : (q : ℤ) < d) :
    ∃ e, applyOperatorDMA as so ρ op ts cs = .error e := by
  refine C69_refused as so hop hρ h fun hs => ?_
  have := (List.pairwise_append.1 hs).2.2 d hd q (List.mem_map.2 ⟨q, by rw [so.mem, List.mem_filter]; simpa using ⟨hq, by simpa using hq'⟩, rfl⟩)
  omega

/-- **C69** (what accepted gates do): if the numbers are not distinct qubits of the register and the gate, not larger
than the register, is accepted, then it acts on the first qubits `0, 1, …`, whatever its numbers are. -/
theorem C69_first (as : Argsort) (so : SetOrder) {op : NDArray K} {ρ r : DensityMatrix K} (hop : IsOp k op)
    (hρ : IsDM n ρ) {ts cs : List ℤ} (h : ¬ ((cs ++ ts).Nodup ∧ ∀ q ∈ cs ++ ts, 0 ≤ q ∧ q < n))
    (hle : cs.length + k ≤ n) (hr : applyOperatorDMA as so ρ op ts cs = .ok r) :
    IsDM n r ∧ dmMat n r.array = gateMat n (entries op) (List.range' cs.length k) (List.range cs.length) * dmMat n ρ.array *
      (gateMat n (entries op) (List.range' cs.length k) (List.range cs.length)).conjTranspose := by
  obtain ⟨hts, hs, -⟩ := (C69_accepts_iff as so hop hρ h rfl).1 ⟨r, hr⟩
  rw [applyOperatorDMA_first as so hop hρ hs hts] at hr
  have hrange : List.range cs.length ++ List.range' cs.length k = List.range (cs.length + k) := by
    rw [List.range_eq_range', List.range_eq_range']
    simpa using List.range'_append_1 (s := 0) (m := cs.length) (n := k)
  obtain ⟨r', e, h1, h2⟩ := applyOperatorDM_mat ascOrder hop hρ (ts := List.range' cs.length k) (cs := List.range cs.length)
    (by simp) (by rw [hrange]; exact ⟨List.nodup_range, fun q hq => by have := List.mem_range.1 hq; omega⟩)
  rw [hr] at e; cases e
  exact ⟨h1, h2⟩

/-- **C69** (stable sorting, as numpy's insertion sort for short arrays): accepted exactly when the list is sorted. -/
theorem C69_stable_iff (so : SetOrder) {op : NDArray K} {ρ : DensityMatrix K} (hop : IsOp k op)
    (hρ : IsDM n ρ) {ts cs : List ℤ} (h : ¬ ((cs ++ ts).Nodup ∧ ∀ q ∈ cs ++ ts, 0 ≤ q ∧ q < n)) :
    (∃ r, applyOperatorDMA stableArgsort so ρ op ts cs = .ok r) ↔ ts.length = k ∧
      (cs ++ ts ++ (so.order ((List.range n).filter fun q => (q : ℤ) ∉ cs ++ ts)).map Int.ofNat).Pairwise (· ≤ ·) ∧
      cs.length + k ≤ 2 * n := by
  rw [C69_accepts_iff stableArgsort so hop hρ h rfl, stableArgsort_range_iff]

/-- **C69** (a repeated qubit): with stable sorting and sets of integers traversed in increasing order, a one-qubit gate on
qubit 0 *controlled by qubit 0* is accepted on every density matrix of two or more qubits, and acts on qubit 1 with
control 0.  On state vectors it raises an error. -/
theorem C69_repeated {op : NDArray K} (hop : IsOp 1 op) {ρ : DensityMatrix K} (hρ : IsDM n ρ) (hn : 2 ≤ n) :
    (∃ r, applyOperatorDMA stableArgsort ascOrder ρ op [0] [0] = .ok r ∧ IsDM n r ∧
      dmMat n r.array = gateMat n (entries op) [1] [0] * dmMat n ρ.array * (gateMat n (entries op) [1] [0]).conjTranspose) ∧
    ∀ st : NDArray K, IsKet n st → ∃ e, applyOperatorZ st op [0] [0] = .error e := by
  have hbad : ¬ (([0] ++ [0] : List ℤ).Nodup ∧ ∀ q ∈ ([0] ++ [0] : List ℤ), 0 ≤ q ∧ q < n) := by simp
  refine ⟨?_, fun st hst => ?_⟩
  · have hs : ([0] ++ [0] ++ (ascOrder.order ((List.range n).filter fun q => (q : ℤ) ∉ ([0] ++ [0] : List ℤ))).map
        Int.ofNat : List ℤ).Pairwise (· ≤ ·) := by
      generalize ascOrder_pairwise ((List.range n).filter fun q => (q : ℤ) ∉ ([0] ++ [0] : List ℤ)) = hp
      generalize ascOrder.order _ = l at hp ⊢
      refine List.pairwise_append.2 ⟨by simp, ?_, ?_⟩
      · rw [List.pairwise_map]
        exact hp.imp fun h => by simpa using h.le
      · intro a ha b hb
        obtain ⟨x, -, rfl⟩ := List.mem_map.1 hb
        have : a = 0 := by simpa using ha
        simp [this]
    obtain ⟨r, hr⟩ := (C69_stable_iff ascOrder hop hρ hbad).2 ⟨by simp, hs, by simp; omega⟩
    have h := C69_first stableArgsort ascOrder hop hρ hbad (by simpa using hn) hr
    have e1 : List.range' ([0] : List ℤ).length 1 = [1] := by decide
    have e2 : List.range ([0] : List ℤ).length = [0] := by decide
    rw [e1, e2] at h
    exact ⟨r, hr, h⟩
  · refine applyOperatorZ_error hop hst fun h => ?_
    exact absurd h.2.2 (by simp)

/-- Non-vacuity: `SWAP((0, 0))`, `X(3)` on two qubits and `X(-1)` are lists that are not distinct qubits of the register;
in the second case qubit 0 is unused and smaller than 3. -/
example : (¬ (([] ++ [0, 0] : List ℤ).Nodup ∧ ∀ q ∈ ([] ++ [0, 0] : List ℤ), 0 ≤ q ∧ q < (2 : ℕ))) ∧
    (¬ (([] ++ [3] : List ℤ).Nodup ∧ ∀ q ∈ ([] ++ [3] : List ℤ), 0 ≤ q ∧ q < (2 : ℕ))) ∧
    ((0 : ℕ) : ℤ) ∉ ([] ++ [3] : List ℤ) ∧ ((0 : ℕ) : ℤ) < 3 ∧
    ¬ (([] ++ [-1] : List ℤ).Nodup ∧ ∀ q ∈ ([] ++ [-1] : List ℤ), 0 ≤ q ∧ q < (2 : ℕ)) := by decide

end Verif
