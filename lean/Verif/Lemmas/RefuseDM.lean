import Verif.Lemmas.Permute
import Verif.Lemmas.ApplyGates
import Verif.Lemmas.Circuit

/-! # `apply_operator` on density matrices with qubits that do not fit the register -/

set_option autoImplicit false

namespace Verif
open NDArray

variable {K : Type} [CommRing K] [StarRing K] {n k : ℕ}

/-- `permute_basis` leaves the array alone exactly when the support is increasing. -/
theorem ranked_range_iff {l : List ℕ} (hn : l.Nodup) :
    argsort (argsort l) = List.range l.length ↔ l.Pairwise (· < ·) := by
  have hs : (pySorted l).Perm l := List.perm_insertionSort _ _
  have hsn : (pySorted l).Nodup := hs.nodup_iff.2 hn
  have hsl : (pySorted l).length = l.length := hs.length_eq
  have hle : (pySorted l).Pairwise (· ≤ ·) := List.pairwise_insertionSort (· ≤ ·) l
  have hlt : (pySorted l).Pairwise (· < ·) :=
    (hle.and hsn).imp fun {a b} h => lt_of_le_of_ne h.1 h.2
  rw [ranked_eq hn]
  constructor
  · intro h
    have : l = pySorted l := by
      apply List.ext_getElem hsl.symm
      intro i h1 h2
      have e := congrArg (fun x => x[i]?) h
      simp only [List.getElem?_map, List.getElem?_eq_getElem h1, Option.map_some] at e
      rw [List.getElem?_eq_getElem (by simpa using h1), List.getElem_range] at e
      have e' := Option.some.inj e
      have hm : l[i] ∈ pySorted l := hs.mem_iff.2 (List.getElem_mem h1)
      have h3 := List.getElem_idxOf (List.idxOf_lt_length_iff.2 hm)
      simp only [e'] at h3
      exact h3.symm
    rw [this]; exact hlt
  · intro h
    have : pySorted l = l := List.Perm.eq_of_pairwise (fun a b _ _ h1 h2 => absurd h1 (by omega)) hlt h hs
    rw [this]
    apply List.ext_getElem (by simp)
    intro i h1 h2
    rw [List.getElem_map, List.getElem_range, hn.idxOf_getElem]

/-- Operators and qubit numbers of different length are refused. -/
theorem applyOperatorDM_arity (so : SetOrder) {op : NDArray K} {ρ : DensityMatrix K} (hop : IsOp k op)
    {ts cs : List ℕ} (h : ts.length ≠ k) : ∃ e, applyOperatorDM so ρ op ts (ctlOf cs) = .error e := by
  obtain ⟨op', hs', hw', hprep, _⟩ := prepareOperator_eq hop.shape hop.wf ts cs
  rw [applyOperatorDM, hprep]
  simp only [bind, Except.bind]
  rcases permuteBasis ρ.array _ false with e | a
  · exact ⟨e, rfl⟩
  · refine ⟨.typeError, ?_⟩
    simp only [tensordot]
    rw [if_neg]
    rintro ⟨h1, -⟩
    simp [two_mul] at h1
    omega

/-- With distinct qubit numbers, some of them outside the register, `apply_operator` on a density matrix succeeds
exactly when the numbers are increasing, include the whole register, and are at most `2n`. -/
theorem applyOperatorDM_outside (so : SetOrder) {op : NDArray K} {ρ : DensityMatrix K} (hop : IsOp k op) (hρ : IsDM n ρ)
    {ts cs : List ℕ} (hnd : (cs ++ ts).Nodup) (hout : ∃ q ∈ cs ++ ts, n ≤ q) :
    (∃ r, applyOperatorDM so ρ op ts (ctlOf cs) = .ok r) ↔
      ts.length = k ∧ (cs ++ ts).Pairwise (· < ·) ∧ (∀ q < n, q ∈ cs ++ ts) ∧ (cs ++ ts).length ≤ 2 * n := by
  by_cases hts : ts.length = k
  swap
  · obtain ⟨e, he⟩ := applyOperatorDM_arity so (ρ := ρ) (cs := cs) hop hts
    rw [he]
    exact iff_of_false (by rintro ⟨r, h⟩; cases h) fun h => hts h.1
  obtain ⟨op', hs', hw', hprep, _⟩ := prepareOperator_eq hop.shape hop.wf ts cs
  have hdl : (cs ++ ts).length = cs.length + k := by simp [hts]
  have hdn : ρ.array.ndim / 2 = n := by simp [ndim, hρ.shape]; omega
  rw [applyOperatorDM, hprep]
  simp only [bind, Except.bind, hdn]
  set dims := cs ++ ts with hdims
  set rest := so.order ((List.range n).filter (· ∉ dims)) with hrest
  have hmem : ∀ x, x ∈ rest ↔ x < n ∧ x ∉ dims := by
    intro x; rw [hrest, so.mem]; simp
  have hqn : (dims ++ rest).Nodup := List.nodup_append.2 ⟨hnd, so.nodup _, fun a ha b hb => by
    rintro rfl; exact ((hmem _).1 hb).2 ha⟩
  have hsort : (dims ++ rest).Pairwise (· < ·) ↔ dims.Pairwise (· < ·) ∧ ∀ q < n, q ∈ dims := by
    constructor
    · intro h
      rw [List.pairwise_append] at h
      refine ⟨h.1, fun q hq => ?_⟩
      by_contra hq'
      obtain ⟨d, hd, hd'⟩ := hout
      have := h.2.2 d hd q ((hmem q).2 ⟨hq, hq'⟩)
      omega
    · rintro ⟨h1, h2⟩
      have : rest = [] := List.eq_nil_iff_forall_not_mem.2 fun x hx => ((hmem x).1 hx).2 (h2 x ((hmem x).1 hx).1)
      rw [this, List.append_nil]; exact h1
  have hlong : n < (dims ++ rest).length := by
    obtain ⟨d, hd, hd'⟩ := hout
    have hsub : (List.range n ++ [d]).Subperm (dims ++ rest) := by
      apply List.Nodup.subperm
      · refine List.nodup_append.2 ⟨List.nodup_range, List.nodup_singleton _, ?_⟩
        intro a ha b hb
        rw [List.mem_range] at ha; rw [List.mem_singleton] at hb
        omega
      · intro x hx
        rw [List.mem_append] at hx ⊢
        rcases hx with hx | hx
        · by_cases h : x ∈ dims
          · exact .inl h
          · exact .inr ((hmem x).2 ⟨List.mem_range.1 hx, h⟩)
        · rw [List.mem_singleton] at hx; subst hx; exact .inl hd
    have := hsub.length_le
    simp only [List.length_append, List.length_range, List.length_singleton] at this ⊢
    omega
  have hperm : ∀ (a : NDArray K) (inv : Bool), (dims ++ rest).Pairwise (· < ·) → permuteBasis a (dims ++ rest) inv = .ok a := by
    intro a inv h
    simp only [permuteBasis]
    rw [if_pos ((ranked_range_iff hqn).2 h)]
  by_cases hpw : (dims ++ rest).Pairwise (· < ·)
  · obtain ⟨hp1, hp2⟩ := hsort.1 hpw
    rw [hperm _ _ hpw]
    simp only []
    by_cases hle : dims.length ≤ 2 * n
    · refine iff_of_true ?_ ⟨hts, hp1, hp2, hle⟩
      have td : ∀ a : NDArray K, a.shape = List.replicate (n + n) 2 → ∃ r,
          tensordot ⟨List.replicate (2 * (cs.length + k)) 2, op'.data⟩ a
            ((List.range (2 * (cs.length + k))).drop (cs.length + k)) (List.range (cs.length + k)) = .ok r ∧
          r.shape = List.replicate (n + n) 2 := fun a ha =>
        ⟨_, tensordot_bits (k := cs.length + k) rfl ha (by simp) List.nodup_range
          (fun q hq => by have := List.mem_range.1 hq; omega), rfl⟩
      obtain ⟨a1, e1, s1⟩ := td _ hρ.shape
      obtain ⟨a2, e2, s2, -⟩ := dagger_dm s1
      obtain ⟨a3, e3, s3⟩ := td _ s2
      obtain ⟨a4, e4, -⟩ := dagger_dm s3
      refine ⟨⟨a4⟩, ?_⟩
      simp only [hdl, e1, e2, e3, e4, hperm _ _ hpw, pure, Except.pure]
    · refine iff_of_false ?_ fun h => hle h.2.2.2
      rintro ⟨r, hr⟩
      simp only [tensordot] at hr
      rw [if_neg] at hr
      · cases hr
      · rintro ⟨-, -, -, -, h5, -⟩
        have := h5 (2 * n) (List.mem_range.2 (by omega))
        simp [ndim, hρ.shape] at this
        omega
  · refine iff_of_false ?_ fun h => hpw (hsort.2 ⟨h.2.1, h.2.2.1⟩)
    rintro ⟨r, hr⟩
    have he : permuteBasis ρ.array (dims ++ rest) false = .error .typeError := by
      simp only [permuteBasis]
      rw [if_neg fun h => hpw ((ranked_range_iff hqn).1 h), if_neg (by simp), transpose, if_neg]
      intro hp
      have := hp.length_eq
      rw [List.length_append, List.length_map, perm_ranked.length_eq, List.length_range, List.length_range, ndim, hρ.shape,
        List.length_replicate] at this
      omega
    rw [he] at hr
    cases hr

end Verif
