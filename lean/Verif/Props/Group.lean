import Verif.Lemmas.Grouping
import Verif.Lemmas.MapArr
import Verif.Props.Noise

/-!
# Property theorems about grouping gates (C04)
-/

namespace Verif
open NDArray
variable {n : ℕ} {values : Values}

/-- **C04** (what holds, noiseless gates): if any two uncontrolled gates of the list have equal or disjoint targets (in
particular if all uncontrolled gates have one target), `group_gates=True` does not change the result.  Any gate class,
operation type and state.  Missing: gates with different but overlapping targets, for which the claim is false
(`C04_group_false`). -/
theorem C04_group_partial (so : SetOrder) {ot : OpType} {gs : List Gate} (hok : ∀ g ∈ gs, g.Ok n ot values)
    (hnz : ∀ g ∈ gs, g.noise = none)
    (hdisj : ∀ g ∈ gs, ∀ h ∈ gs, ctlInts g.control = [] → ctlInts h.control = [] → g.target ≠ h.target →
      ∀ q ∈ g.target, q ∉ h.target) {state : State} (hst : state.On n) (merge merge' : Bool) :
    applyGates so state (.list gs) values ot true merge = applyGates so state (.list gs) values ot false merge' := by
  rw [applyGates_group]
  have hp := groupByIndex_perm gs
  by_cases hne : gs = []
  · subst hne; cases merge <;> cases merge' <;> rfl
  have hne' : groupByIndex gs ≠ [] := fun h => hne (by simpa [h] using hp)
  have hok' : ∀ g ∈ groupByIndex gs, g.Ok n ot values := fun g hg => hok g (hp.mem_iff.1 hg)
  have hnz' : ∀ g ∈ groupByIndex gs, g.noise = none := fun g hg => hnz g (hp.mem_iff.1 hg)
  have hmat : gatesMat n ot values (groupByIndex gs) = gatesMat n ot values gs := by
    rw [← mul_one (gatesMat n ot values (groupByIndex gs)), ← mul_one (gatesMat n ot values gs), ← gatesMat_foldl,
      ← gatesMat_foldl]
    apply groupByIndex_foldl (fun g M => g.mat n ot values * M)
    intro a ha b hb hab hca hcb M
    have hia : ctlInts a.control = [] := by
      rcases isControlled_wf (hok a ha).valid.ctl with h | ⟨_, _, _, h, _⟩
      · exact h.2
      · rw [h] at hca; cases hca
    have hib : ctlInts b.control = [] := by
      rcases isControlled_wf (hok b hb).valid.ctl with h | ⟨_, _, _, h, _⟩
      · exact h.2
      · rw [h] at hcb; cases hcb
    rw [← mul_assoc, ← mul_assoc]
    congr 1
    obtain ⟨⟨U, hU, -⟩, hv⟩ := hok a ha
    obtain ⟨⟨V, hV, -⟩, hv'⟩ := hok b hb
    simp only [Gate.mat, hU, hV]
    have hd := hdisj a ha b hb hia hib hab
    refine gateMat_comm_disjoint _ _ ⟨List.nodup_append.2 ⟨hv'.dims.nodup, hv.dims.nodup, ?_⟩, ?_⟩
    · rw [hia, hib]
      rintro x hx y hy rfl; exact hd x hy hx
    · intro q hq
      rcases List.mem_append.1 hq with h | h
      · exact hv'.dims.lt q h
      · exact hv.dims.lt q h
  cases state with
  | vec a =>
    obtain ⟨r, h1, h2, h3⟩ := applyGates_vec so hne' hok' hnz' hst merge
    obtain ⟨r', h1', h2', h3'⟩ := applyGates_vec so hne hok hnz hst merge'
    rw [h1, h1', ket_ext h2 h2' (by rw [h3, h3', hmat])]
  | dm ρ =>
    obtain ⟨r, h1, h2, h3⟩ := applyGates_dm so hne' hok' hnz' hst merge
    obtain ⟨r', h1', h2', h3'⟩ := applyGates_dm so hne hok hnz hst merge'
    rw [h1, h1', dm_ext h2 h2' (by rw [h3, h3', hmat])]

/-- Non-vacuity: two layers of single-qubit gates, which grouping really reorders. -/
example : ∀ g ∈ [Gate.H (.int 1), Gate.X (.int 0), Gate.Z (.int 1)], ∀ h ∈ [Gate.H (.int 1), Gate.X (.int 0), Gate.Z (.int 1)],
    ctlInts g.control = [] → ctlInts h.control = [] → g.target ≠ h.target → ∀ q ∈ g.target, q ∉ h.target := by
  simp only [List.mem_cons, List.not_mem_nil, or_false]
  rintro g (rfl | rfl | rfl) h (rfl | rfl | rfl) <;> decide

example : groupByIndex [Gate.H (.int 1), Gate.X (.int 0), Gate.Z (.int 1)] = [Gate.X (.int 0), Gate.H (.int 1), Gate.Z (.int 1)] := by
  rfl

/-- **C04** (what holds, noisy gates): the same for public gates with noise. -/
theorem C04_group_noisy_partial (so : SetOrder) {gs : List Gate}
    (hok : ∀ g ∈ gs, ∃ s ns, g.Std n values s ∧ g.NoiseIs ns)
    (hdisj : ∀ g ∈ gs, ∀ h ∈ gs, ctlInts g.control = [] → ctlInts h.control = [] → g.target ≠ h.target →
      ∀ q ∈ g.target, q ∉ h.target) {state : State} (hst : state.On n) (merge merge' : Bool) :
    applyGates so state (.list gs) values .unitary true merge
      = applyGates so state (.list gs) values .unitary false merge' := by
  classical
  by_cases hz : ∀ g ∈ gs, g.noise = none
  · exact C04_group_partial so (fun g hg => by obtain ⟨s, ns, h, -⟩ := hok g hg; exact h.ok) hz hdisj hst merge merge'
  rw [applyGates_group]
  have hp := groupByIndex_perm gs
  have hne : gs ≠ [] := by rintro rfl; exact hz (by simp)
  have hne' : groupByIndex gs ≠ [] := fun h => hne (by simpa [h] using hp)
  choose σ ν hσ using fun g : {g // g ∈ gs} => hok g.1 g.2
  let f : Gate → Gate × StdGate × List StdNoise := fun g =>
    if h : g ∈ gs then (g, σ ⟨g, h⟩, ν ⟨g, h⟩) else (g, .I, [])
  have hf1 : ∀ g, (f g).1 = g := by intro g; simp only [f]; split_ifs <;> rfl
  have hf : ∀ g ∈ gs, (f g).1.Std n values (f g).2.1 ∧ (f g).1.NoiseIs (f g).2.2 := by
    intro g hg; simp only [f, dif_pos hg]; exact hσ ⟨g, hg⟩
  have hmap : ∀ l : List Gate, (l.map f).map Prod.fst = l := by
    intro l; rw [List.map_map]; conv_rhs => rw [← List.map_id l]
    exact List.map_congr_left fun g _ => hf1 g
  have hrun : ∀ ρ, stdRun n ((groupByIndex gs).map f) ρ = stdRun n (gs.map f) ρ := by
    intro ρ
    rw [stdRun, stdRun, List.foldl_map, List.foldl_map]
    apply groupByIndex_foldl (fun g ρ => noisyStep n (stdMat n (f g).1 (f g).2.1) ((f g).1.target.headD 0) (f g).2.2 ρ)
    intro a ha b hb hab hca hcb M
    obtain ⟨ha1, ha2⟩ := hf a ha
    obtain ⟨hb1, hb2⟩ := hf b hb
    have hia : ctlInts a.control = [] := by
      have := ha1.valid.ctl; rw [hf1] at this
      rcases isControlled_wf this with h | ⟨_, _, _, h, _⟩
      · exact h.2
      · rw [h] at hca; cases hca
    have hib : ctlInts b.control = [] := by
      have := hb1.valid.ctl; rw [hf1] at this
      rcases isControlled_wf this with h | ⟨_, _, _, h, _⟩
      · exact h.2
      · rw [h] at hcb; cases hcb
    refine KrausOn.comm (S := b.target) (S' := a.target) ?_ (krausOn_step hb1 hb2 ?_) (krausOn_step ha1 ha2 ?_) M
    · intro q hq hq'; exact hdisj a ha b hb hia hib hab q hq' hq
    · rw [hf1, hib]; simp
    · rw [hf1, hia]; simp
  have main : ∀ ρ : DensityMatrix ℂ, IsDM n ρ →
      applyGates so (.dm ρ) (.list (groupByIndex gs)) values .unitary false merge
        = applyGates so (.dm ρ) (.list gs) values .unitary false merge' := by
    intro ρ hρ
    obtain ⟨r, h1, h2, h3⟩ := applyGates_stdRun so (xs := (groupByIndex gs).map f) (values := values) (by simpa using hne')
      (by intro x hx; obtain ⟨g, hg, rfl⟩ := List.mem_map.1 hx; exact hf g (hp.mem_iff.1 hg)) hρ merge
    obtain ⟨r', h1', h2', h3'⟩ := applyGates_stdRun so (xs := gs.map f) (values := values) (by simpa using hne)
      (by intro x hx; obtain ⟨g, hg, rfl⟩ := List.mem_map.1 hx; exact hf g hg) hρ merge'
    rw [hmap] at h1 h1'
    rw [h1, h1', dm_ext h2 h2' (by rw [h3, h3', hrun])]
  cases state with
  | dm ρ => exact main ρ hst
  | vec a =>
    have hz' : ¬ ∀ g ∈ groupByIndex gs, g.noise = none := fun h => hz fun g hg => h g (hp.mem_iff.2 hg)
    rw [applyGates_vec_noisy so hz, applyGates_vec_noisy so hz']
    exact main _ (densityMat_isDM hst).1

/-- Two noiseless gates on different targets, one after the other. -/
private theorem applyGates_two (so : SetOrder) (a : NDArray ℂ) {g h : Gate} (hg : g.noise = none) (hh : h.noise = none)
    (hne : g.target ≠ h.target) {U V : NDArray ℂ} (hU : g.operator .unitary [] = .ok U) (hV : h.operator .unitary [] = .ok V) :
    applyGates so (.vec a) (.list [g, h]) [] .unitary false true
      = (applyOperator a U g.target g.control >>= fun r => applyOperator r V h.target h.control >>= fun r => .ok (.vec r)) := by
  have hne' : ¬ (g.target = h.target ∧ Ctl.Same g.control h.control) := fun e => hne e.1
  have hp : prepareSequenceReduce (fun g => g.operator .unitary []) NDArray.matmul (.list [g, h]) false true
      = .ok ([(U, g.target, g.control), (V, h.target, h.control)], [none, none]) := by
    have hm : [g, h].mapM (fun g => g.operator .unitary []) = .ok [U, V] := by
      simp [List.mapM_cons, hU, hV]; rfl
    have hmg : mergeOperators NDArray.matmul [(U, g.target, g.control), (V, h.target, h.control)]
        = .ok [(U, g.target, g.control), (V, h.target, h.control)] := by
      simp only [mergeOperators, List.length_cons, List.length_nil, List.reverse_cons, List.reverse_nil, List.nil_append,
        List.cons_append, mergeLoop, if_neg hne']
      rfl
    simp only [prepareSequenceReduce, Bool.false_eq_true, if_false]
    rw [hm]
    simp only [Bind.bind, Except.bind]
    simp only [List.isEmpty_cons, Bool.false_eq_true, if_false, List.zipWith_cons_cons, List.zipWith_nil_right, List.map_cons,
      List.map_nil, hg, hh]
    simp only [hmg, allNoiseless]
    rfl
  unfold applyGates
  rw [hp]
  change (reduceApply _ a >>= fun r => _) = _
  simp only [reduceApply, List.foldlM_cons, List.foldlM_nil, bind_assoc, pure_bind]

/-- The result over the integers determines the result over `ℂ`. -/
private theorem applyGates_two_int (so : SetOrder) (f : ℤ →+* ℂ) {s U V r' : NDArray ℤ} {g h : Gate}
    (hg : g.noise = none) (hh : h.noise = none) (hne : g.target ≠ h.target)
    (hU : g.operator .unitary [] = .ok (mapArr f U)) (hV : h.operator .unitary [] = .ok (mapArr f V))
    (hr : (applyOperator s U g.target g.control >>= fun r => applyOperator r V h.target h.control) = .ok r') :
    applyGates so (.vec (mapArr f s)) (.list [g, h]) [] .unitary false true = .ok (.vec (mapArr f r')) := by
  rw [applyGates_two so _ hg hh hne hU hV, applyOperator_mapArr]
  rcases h1 : applyOperator s U g.target g.control with e | r
  · rw [h1] at hr; cases hr
  · rw [h1] at hr
    change applyOperator r V _ _ = .ok r' at hr
    change (applyOperator (mapArr f r) (mapArr f V) _ _ >>= fun r => Except.ok (State.vec r)) = _
    rw [applyOperator_mapArr, hr]; rfl

/-- Over the integers: `X(1)` then `SWAP((0,1))` on `|00⟩`. -/
private theorem group_witness :
    (do let r ← applyOperator (⟨[2, 2], [1, 0, 0, 0]⟩ : NDArray ℤ) ⟨[2, 2], [0, 1, 1, 0]⟩ [1] (some [.none])
        applyOperator r ⟨[4, 4], [1, 0, 0, 0, 0, 0, 1, 0, 0, 1, 0, 0, 0, 0, 0, 1]⟩ [0, 1] (some [.none]))
      = .ok ⟨[2, 2], [0, 0, 1, 0]⟩ ∧
    (do let r ← applyOperator (⟨[2, 2], [1, 0, 0, 0]⟩ : NDArray ℤ)
          ⟨[4, 4], [1, 0, 0, 0, 0, 0, 1, 0, 0, 1, 0, 0, 0, 0, 0, 1]⟩ [0, 1] (some [.none])
        applyOperator r ⟨[2, 2], [0, 1, 1, 0]⟩ [1] (some [.none]))
      = .ok ⟨[2, 2], [0, 1, 0, 0]⟩ := by decide +kernel

/-- **C04** is false in general: grouping reorders `[X(1), SWAP((0,1))]`, so that `|00⟩` goes to `|01⟩` instead of
`|10⟩`. -/
theorem C04_group_false :
    ¬ ∀ (so : SetOrder) (n : ℕ) (gs : List Gate) (ss : List StdGate) (st : NDArray ℂ),
      List.Forall₂ (Gate.Std n []) gs ss → (∀ g ∈ gs, g.noise = none) → gs ≠ [] → IsKet n st →
      applyGates so (.vec st) (.list gs) [] .unitary true true = applyGates so (.vec st) (.list gs) [] .unitary false true := by
  intro H
  let so : SetOrder := ⟨List.dedup, List.nodup_dedup, fun _ _ => List.mem_dedup⟩
  let f := Int.castRingHom ℂ
  let st : NDArray ℤ := ⟨[2, 2], [1, 0, 0, 0]⟩
  have h := H so 2 [Gate.X (.int 1), Gate.SWAP (.tuple [0, 1])] [.X, .SWAP] (st.mapArr f)
    (.cons ⟨.X _ _ _, rfl, ⟨.inr (.inl rfl), by decide⟩⟩ (.cons ⟨.SWAP _ _ _, rfl, ⟨.inr (.inl rfl), by decide⟩⟩ .nil))
    (by simp [Gate.X, Gate.SWAP, mkGate]) (by simp) ⟨rfl, rfl⟩
  have hX : matX = mapArr f ⟨[2, 2], [0, 1, 1, 0]⟩ := by simp [matX, mat2, mapArr]
  have hS : matSWAP = mapArr f ⟨[4, 4], [1, 0, 0, 0, 0, 0, 1, 0, 0, 1, 0, 0, 0, 0, 0, 1]⟩ := by simp [matSWAP, mapArr]
  have e1 : applyGates so (.vec (st.mapArr f)) (.list [Gate.X (.int 1), Gate.SWAP (.tuple [0, 1])]) [] .unitary false true
      = .ok (.vec (mapArr f ⟨[2, 2], [0, 0, 1, 0]⟩)) :=
    applyGates_two_int so f rfl rfl (by decide) (by rw [← hX]; rfl) (by rw [← hS]; rfl) group_witness.1
  have e2 : applyGates so (.vec (st.mapArr f)) (.list [Gate.X (.int 1), Gate.SWAP (.tuple [0, 1])]) [] .unitary true true
      = .ok (.vec (mapArr f ⟨[2, 2], [0, 1, 0, 0]⟩)) := by
    have hg : groupByIndex [Gate.X (.int 1), Gate.SWAP (.tuple [0, 1])] = [Gate.SWAP (.tuple [0, 1]), Gate.X (.int 1)] := rfl
    rw [applyGates_group, hg]
    exact applyGates_two_int so f rfl rfl (by decide) (by rw [← hS]; rfl) (by rw [← hX]; rfl) group_witness.2
  rw [e1, e2] at h
  simp [mapArr] at h

end Verif
