import Verif.Lemmas.Channel

/-! # When noise is refused -/

namespace Verif
open NDArray
variable {n : ℕ}

/-- The Kraus operators can be built only for accepted parameters. -/
theorem NoiseInstance.is_of_kraus {ni : NoiseInstance} {ks : List (NDArray ℂ)} (h : ni.kraus = .ok ks) :
    ∃ s, ni.Is s := by
  have good : ∀ {p : ℝ}, ¬ badProb p → 0 ≤ p ∧ p ≤ 1 := by
    intro p hp
    simp only [badProb, not_or, not_lt, gt_iff_lt] at hp
    exact ⟨hp.2, hp.1⟩
  obtain ⟨ty, ep⟩ := ni
  cases ty <;> simp only [NoiseInstance.kraus] at h
  case bitFlip =>
    cases ep with
    | tuple ps => cases h
    | float p =>
      simp only [Verif.bitFlip] at h
      split_ifs at h with hb
      exact ⟨_, .bitFlip (good hb)⟩
  case phaseFlip =>
    cases ep with
    | tuple ps => cases h
    | float p =>
      simp only [Verif.phaseFlip] at h
      split_ifs at h with hb
      exact ⟨_, .phaseFlip (good hb)⟩
  case depolarizing =>
    cases ep with
    | tuple ps => cases h
    | float p =>
      simp only [Verif.depolarizing] at h
      split_ifs at h with hb
      exact ⟨_, .depolarizing (good hb)⟩
  case pauliChannel =>
    cases ep with
    | float p => cases h
    | tuple ps =>
      simp only [Verif.pauliChannel] at h
      split_ifs at h with hs hb
      match ps, hs, hb, h with
      | px :: py :: pz :: ps, hs, hb, h =>
        push Not at hs hb
        exact ⟨_, .pauli (fun p hp => good (hb p hp)) hs⟩
      | [], _, _, h => cases h
      | [_], _, _, h => cases h
      | [_, _], _, _, h => cases h
  case amplitudeDamping =>
    cases ep with
    | tuple ps => cases h
    | float p =>
      simp only [Verif.amplitudeDamping] at h
      split_ifs at h with hb
      exact ⟨_, .amplitudeDamping (good hb)⟩
  case phaseDamping =>
    cases ep with
    | tuple ps => cases h
    | float p =>
      simp only [Verif.phaseDamping] at h
      split_ifs at h with hb
      exact ⟨_, .phaseDamping (good hb)⟩
  case generalizedAmplitudeDamping =>
    match ep, h with
    | .float p, h => cases h
    | .tuple [], h => cases h
    | .tuple [_], h => cases h
    | .tuple (p :: γ :: ps), h =>
      simp only [Verif.generalizedAmplitudeDamping] at h
      split_ifs at h with hb hb'
      exact ⟨_, .generalizedAmplitudeDamping (good hb) (good hb')⟩

theorem length_argsort (l : List ℕ) : (argsort l).length = l.length := by
  rw [(perm_argsort l).length_eq, List.length_range]

/-- `expand_operator` raises when the operator does not have one qubit per element of the support. -/
theorem expandOperator_size {K : Type} [CommRing K] {op : NDArray K} {k : ℕ} (hop : IsOp k op) {S F : List ℕ}
    (hS : S.Nodup) (hF : F.Nodup) (hk : S.length ≠ k) : ∃ e, expandOperator op S F = .error e := by
  rw [expandOperator]
  by_cases hall : (pySorted S).all (· ∈ pySorted F) = true
  swap
  · exact ⟨.valueError, by simp only [hall, Bool.false_eq_true, if_false]⟩
  simp only [hall, if_true]
  generalize hkq : pySorted (((pySorted F).filter (· ∉ pySorted S)).dedup) = kq
  obtain ⟨r, h1, h2, -⟩ := kron_fold hop kq.length
  simp only [h1, bind, Except.bind, hilbertReshape_eq h2.shape]
  have hSs := perm_pySorted S
  have hFs := perm_pySorted F
  have hlen : (pySorted S ++ kq).length = F.length := by
    rw [← hkq]
    have hperm : (pySorted S ++ pySorted (((pySorted F).filter (· ∉ pySorted S)).dedup)).Perm (pySorted F) := by
      have hSn : (pySorted S).Nodup := hSs.nodup_iff.2 hS
      have hFn : (pySorted F).Nodup := hFs.nodup_iff.2 hF
      rw [List.perm_ext_iff_of_nodup]
      · intro q
        simp only [List.mem_append, (perm_pySorted _).mem_iff, List.mem_dedup, List.mem_filter, decide_eq_true_eq]
        simp only [List.all_eq_true, decide_eq_true_eq, hSs.mem_iff, hFs.mem_iff] at hall
        constructor
        · rintro (h | h)
          · exact hall q h
          · exact h.1
        · intro h
          by_cases hq : q ∈ S
          · exact .inl hq
          · exact .inr ⟨h, hq⟩
      · refine List.nodup_append.2 ⟨hSn, (perm_pySorted _).nodup_iff.2 (List.nodup_dedup _), ?_⟩
        rintro a ha b hb rfl
        rw [(perm_pySorted _).mem_iff, List.mem_dedup, List.mem_filter] at hb
        simp [ha] at hb
      · exact hFn
    rw [hperm.length_eq, hFs.length_eq]
  have hne : k + kq.length ≠ F.length := by
    rw [List.length_append, hSs.length_eq] at hlen; omega
  have hpl : ∀ l : List ℕ, l.length = F.length + F.length →
      ∃ e, NDArray.transpose ⟨List.replicate (k + kq.length + (k + kq.length)) 2, r.data⟩ l = .error e := by
    intro l hl
    rw [NDArray.transpose, if_neg]
    · exact ⟨_, rfl⟩
    · intro h
      have := h.length_eq
      simp [ndim, hl] at this
      omega
  have hrl : (argsort (argsort (pySorted S ++ kq))).length = F.length := by
    rw [(perm_ranked (l := pySorted S ++ kq)).length_eq, List.length_range, hlen]
  rw [permuteBasis]
  by_cases hr : argsort (argsort (pySorted S ++ kq)) = List.range (pySorted S ++ kq).length
  · simp only [hr, if_true, reshape]
    rw [if_neg]
    · exact ⟨_, rfl⟩
    · simp only [List.prod_cons, List.prod_nil, mul_one, List.prod_replicate, hFs.length_eq, ← pow_add]
      intro h
      have := Nat.pow_right_injective (le_refl 2) h
      omega
  · obtain ⟨e, he⟩ := hpl (argsort (argsort (argsort (pySorted S ++ kq)) ++
      (argsort (argsort (pySorted S ++ kq))).map (· + (pySorted S ++ kq).length)))
      (by simp only [length_argsort, List.length_append, List.length_map] at hlen ⊢; omega)
    exact ⟨e, by simp only [hr, if_false, if_true, he]⟩

section
variable (so : SetOrder) {g : Gate} {U : NDArray ℂ} {ρ : DensityMatrix ℂ}

theorem noiseLoop_dichotomy (nis : List NoiseInstance) {t : ℕ} (ht : t < n) (hρ : IsDM n ρ) :
    (∃ ns, List.Forall₂ NoiseInstance.Is nis ns) ∨
    ∃ e, (nis.map NoiseInstance.kraus).foldlM (fun dm kraus => do
        let ks ← (← kraus).mapM fun k => expandOperator k [t] (List.range n)
        applyKrausSum ks dm.array (List.range n)) ρ = .error e := by
  induction nis generalizing ρ with
  | nil => exact .inl ⟨[], .nil⟩
  | cons ni nis ih =>
    rcases hk : ni.kraus with e | ks
    · exact .inr ⟨e, by rw [List.map_cons, List.foldlM_cons, hk]; rfl⟩
    · obtain ⟨s, hs⟩ := NoiseInstance.is_of_kraus hk
      obtain ⟨ks', hk', hg⟩ := hs.kraus
      obtain rfl : ks' = ks := by rw [hk] at hk'; exact (Except.ok.inj hk').symm
      obtain ⟨r, h1, h2, h3⟩ := krausStep hg ht hρ
      rcases ih h2 with ⟨ns, hns⟩ | ⟨e, he⟩
      · exact .inl ⟨s :: ns, .cons hs hns⟩
      · refine .inr ⟨e, ?_⟩
        rw [List.map_cons, List.foldlM_cons, hk]
        change (do let r ← (do let ks ← ks'.mapM fun k => expandOperator k [t] (List.range n)
                               applyKrausSum ks ρ.array (List.range n)); _) = _
        rw [h1]; exact he

/-- A noisy gate is either simulated according to the documented channels or refused with an exception. -/
theorem applyOperatorWithNoise_dichotomy (hU : WfOp n (U, g.target, g.control)) (hρ : IsDM n ρ) :
    (∃ ns, g.NoiseIs ns) ∨
      ∃ e, applyOperatorWithNoise so ρ U g.target g.control (noiseKraus g.noise) = .error e := by
  obtain ⟨r, h1, h2, h3⟩ := applyOperatorDM_opMat so hρ hU
  simp only at h1
  rcases hn : g.noise with _ | nis
  · exact .inl ⟨[], .none hn⟩
  cases nis with
  | nil => exact .inl ⟨[], .some hn .nil (.inl rfl)⟩
  | cons ni nis =>
    by_cases hlen : g.target.length = 1
    · obtain ⟨t, ht⟩ := List.length_eq_one_iff.1 hlen
      have htn : t < n := hU.dims.lt t (by simp [ht])
      rcases noiseLoop_dichotomy (ni :: nis) htn h2 with ⟨ns, hns⟩ | ⟨e, he⟩
      · exact .inl ⟨ns, .some hn hns (.inr ⟨t, ht⟩)⟩
      · refine .inr ⟨e, ?_⟩
        simp only [applyOperatorWithNoise, h1, noiseKraus, Option.map_some, bind, Except.bind, numQubitsDM_eq h2]
        rw [ht]; exact he
    · right
      have hnd : g.target.Nodup := (ValidDims.right hU.dims).nodup
      rcases hk : ni.kraus with e | ks
      · refine ⟨e, ?_⟩
        simp only [applyOperatorWithNoise, h1, noiseKraus, Option.map_some, bind, Except.bind, List.map_cons,
          List.foldlM_cons, hk]
      · obtain ⟨s, hs⟩ := NoiseInstance.is_of_kraus hk
        obtain ⟨ks', hk', hg⟩ := hs.kraus
        obtain rfl : ks' = ks := by rw [hk] at hk'; exact (Except.ok.inj hk').symm
        rcases hks : ks' with _ | ⟨k, kt⟩
        · exact absurd hks hg.ne
        · obtain ⟨e, he⟩ := expandOperator_size (hg.isOp k (by simp [hks])) hnd (List.nodup_range (n := n)) hlen
          refine ⟨e, ?_⟩
          simp only [applyOperatorWithNoise, h1, noiseKraus, Option.map_some, bind, Except.bind, List.map_cons,
            List.foldlM_cons, hk, hks, numQubitsDM_eq h2, List.mapM_cons, he]

theorem reduceApplyNoise_dichotomy {ot : OpType} {values : Values} {gs : List Gate}
    (hok : ∀ g ∈ gs, g.Ok n ot values) {ops : List (NDArray ℂ)}
    (hops : gs.mapM (fun g => g.operator ot values) = .ok ops) (hρ : IsDM n ρ) :
    (∃ nss, List.Forall₂ Gate.NoiseIs gs nss) ∨
    ∃ e, reduceApplyNoise so (List.zipWith (fun o (g : Gate) => (o, g.target, g.control)) ops gs) (gs.map Gate.noise) ρ
        = .error e := by
  induction gs generalizing ops ρ with
  | nil => exact .inl ⟨[], .nil⟩
  | cons g gs ih =>
    obtain ⟨⟨U, hU, hop⟩, hv⟩ := hok g (by simp)
    obtain ⟨os, hos, -⟩ := triples_ok (n := n) (ot := ot) (values := values) (gs := gs) fun g' h' => hok g' (by simp [h'])
    obtain rfl : ops = U :: os := by
      rw [List.mapM_cons, hU, hos] at hops
      exact (Except.ok.inj hops).symm
    have hw : WfOp n (U, g.target, g.control) := ⟨hop, hv.ctl, hv.dims⟩
    rcases applyOperatorWithNoise_dichotomy so hw hρ with ⟨ns, hns⟩ | ⟨e, he⟩
    · obtain ⟨r, h1, h2, h3⟩ := applyOperatorWithNoise_chan so hns hw hρ
      rcases ih (fun g' h' => hok g' (by simp [h'])) hos h2 with ⟨nss, hnss⟩ | ⟨e, he⟩
      · exact .inl ⟨ns :: nss, .cons hns hnss⟩
      · refine .inr ⟨e, ?_⟩
        rw [reduceApplyNoise, List.zipWith_cons_cons, List.map_cons, List.zip_cons_cons, List.foldlM_cons]
        simp only [h1]
        exact he
    · refine .inr ⟨e, ?_⟩
      rw [reduceApplyNoise, List.zipWith_cons_cons, List.map_cons, List.zip_cons_cons, List.foldlM_cons]
      simp only [he]
      rfl

/-- `apply_gates` on a density matrix raises unless every gate carries well-formed noise on a single target. -/
theorem applyGates_dm_refused {ot : OpType} {values : Values} {gs : List Gate} (hok : ∀ g ∈ gs, g.Ok n ot values)
    (hn : ¬ ∃ nss, List.Forall₂ Gate.NoiseIs gs nss) (hρ : IsDM n ρ) (merge : Bool) :
    ∃ e, applyGates so (.dm ρ) (.list gs) values ot false merge = .error e := by
  have hne : gs ≠ [] := by rintro rfl; exact hn ⟨[], .nil⟩
  have hz : ¬ ∀ g ∈ gs, g.noise = none := by
    intro hz
    apply hn
    refine ⟨gs.map fun _ => [], ?_⟩
    rw [List.forall₂_map_right_iff, List.forall₂_same]
    exact fun g hg => .none (hz g hg)
  have hz' : allNoiseless (gs.map Gate.noise) = false := by
    push Not at hz
    obtain ⟨g, hg, hn⟩ := hz
    rw [allNoiseless, List.all_eq_false]
    exact ⟨g.noise, List.mem_map_of_mem hg, by simpa using hn⟩
  obtain ⟨ops, h1, -⟩ := triples_ok hok
  rcases reduceApplyNoise_dichotomy so hok h1 hρ with h | ⟨e, he⟩
  · exact absurd h hn
  · refine ⟨e, ?_⟩
    have hemp : gs.isEmpty = false := by cases gs <;> simp_all
    simp only [applyGates, prepareSequenceReduce, Bool.false_eq_true, if_false, h1, hz', Bool.false_and, bind,
      Except.bind, hemp, he]
end

end Verif
