import Mathlib.Analysis.Normed.Algebra.MatrixExponential
import Verif.Model.Reverse
import Verif.Lemmas.TraceSmooth

/-!
# Lemmas about the reverse mode: pullbacks are transposes of tangent maps
-/

set_option autoImplicit false

namespace Verif
open NDArray

/-! ## The derivative of the matrix exponential is complex linear -/

open scoped ContDiff in
/-- There is a complex linear map whose values are the tangents of the matrix exponential. -/
theorem exp_block_linear {d : ℕ} (A : Matrix (Fin d) (Fin d) ℂ) :
    ∃ F : Matrix (Fin d) (Fin d) ℂ →ₗ[ℂ] Matrix (Fin d) (Fin d) ℂ, ∀ E i j,
      NormedSpace.exp (blockMat A E A) (Fin.castAdd d i) (Fin.natAdd d j) = F E i j := by
  letI : NormedRing (Matrix (Fin d) (Fin d) ℂ) := Matrix.linftyOpNormedRing
  letI : NormedAlgebra ℂ (Matrix (Fin d) (Fin d) ℂ) := Matrix.linftyOpNormedAlgebra
  letI : NormedAlgebra ℝ (Matrix (Fin d) (Fin d) ℂ) := Matrix.linftyOpNormedAlgebra
  have hF : DifferentiableAt ℂ (NormedSpace.exp : Matrix (Fin d) (Fin d) ℂ → _) A :=
    (NormedSpace.exp_analytic (𝕂 := ℂ) A).differentiableAt
  refine ⟨(fderiv ℂ NormedSpace.exp A).toLinearMap, fun E i j => ?_⟩
  have hexp := hF.hasFDerivAt
  have hl : HasDerivAt (fun s : ℂ => A + s • E) E 0 := by
    have := ((hasDerivAt_id (0 : ℂ)).smul_const E).const_add A
    rw [one_smul] at this
    exact this
  have hexp' : HasFDerivAt (NormedSpace.exp : Matrix (Fin d) (Fin d) ℂ → _) (fderiv ℂ NormedSpace.exp A) (A + (0 : ℂ) • E) := by
    rwa [zero_smul, add_zero]
  have h1 := hexp'.comp_hasDerivAt 0 hl
  let L : Matrix (Fin d) (Fin d) ℂ →ₗ[ℂ] ℂ :=
    { toFun := fun A => A i j
      map_add' := fun _ _ => rfl
      map_smul' := fun _ _ => rfl }
  have h2 : HasDerivAt (fun s : ℂ => NormedSpace.exp (A + s • E) i j) ((fderiv ℂ NormedSpace.exp A) E i j) 0 :=
    (LinearMap.toContinuousLinearMap L).hasFDerivAt.comp_hasDerivAt 0 h1
  have h3 : HasDerivAt (fun s : ℝ => NormedSpace.exp (A + (s : ℂ) • E) i j) ((fderiv ℂ NormedSpace.exp A) E i j) 0 := by
    have h2' : HasDerivAt (fun s : ℂ => NormedSpace.exp (A + s • E) i j) ((fderiv ℂ NormedSpace.exp A) E i j) ((0 : ℝ) : ℂ) := by
      simpa using h2
    exact h2'.comp_ofReal
  refine (exp_block_12 A E i j).unique ?_
  refine h3.congr_of_eventuallyEq (Filter.Eventually.of_forall fun s => ?_)
  beta_reduce
  congr 2

/-- The tangent of the matrix exponential is the sum of the tangents in the directions of the entries. -/
theorem exp_block_sum {d : ℕ} (A E : Matrix (Fin d) (Fin d) ℂ) (i j : Fin d) :
    NormedSpace.exp (blockMat A E A) (Fin.castAdd d i) (Fin.natAdd d j)
      = ∑ kl : Fin d × Fin d, NormedSpace.exp (blockMat A (Matrix.of fun k l => if k = kl.1 ∧ l = kl.2 then (1 : ℂ) else 0) A)
          (Fin.castAdd d i) (Fin.natAdd d j) * E kl.1 kl.2 := by
  obtain ⟨F, hF⟩ := exp_block_linear A
  simp only [hF]
  have hE : E = ∑ kl : Fin d × Fin d, E kl.1 kl.2 • (Matrix.of fun k l => if k = kl.1 ∧ l = kl.2 then (1 : ℂ) else 0) := by
    ext k l
    rw [Matrix.sum_apply, Finset.sum_eq_single (k, l)]
    · simp
    · rintro ⟨k', l'⟩ - hne
      have : ¬ (k = k' ∧ l = l') := fun ⟨h1, h2⟩ => hne (by rw [h1, h2])
      simp [this]
    · simp
  conv_lhs => rw [hE]
  rw [map_sum, Matrix.sum_apply]
  refine Finset.sum_congr rfl fun kl _ => ?_
  rw [map_smul, Matrix.smul_apply, smul_eq_mul, mul_comm]

/-! ## Entries of `expm` on tangents -/

theorem get_mapArr_zero {R S : Type} [Zero R] [Zero S] (f : R → S) (h : f 0 = 0) (a : NDArray R) (idx : List ℕ) :
    (a.mapArr f).get idx = f (a.get idx) := by
  simp only [NDArray.get, mapArr, List.getD_eq_getElem?_getD, List.getElem?_map]
  rcases a.data[ravel a.shape idx]? with _ | z
  · simp [h]
  · rfl

/-- The matrix of the values and the one of the tangents. -/
def valMat (a : NDArray (DualNumber ℂ)) (d : ℕ) : Matrix (Fin d) (Fin d) ℂ := Matrix.of fun i j => (a.get [i.val, j.val]).fst

/-- The matrix of the tangents. -/
def tanMat (a : NDArray (DualNumber ℂ)) (d : ℕ) : Matrix (Fin d) (Fin d) ℂ := Matrix.of fun i j => (a.get [i.val, j.val]).snd

theorem tangentBlock_mat (a : NDArray (DualNumber ℂ)) (d : ℕ) :
    (Matrix.of fun i j : Fin (d + d) => (tangentBlock a d).get [i.val, j.val]) = blockMat (valMat a d) (tanMat a d) (valMat a d) := by
  have hg : ∀ {i j : ℕ} (hi : i < d + d) (hj : j < d + d), (tangentBlock a d).get [i, j]
      = if i < d then if j < d then (a.get [i, j]).fst else (a.get [i, j - d]).snd else if j < d then 0 else (a.get [i - d, j - d]).fst := by
    intro i j hi hj
    rw [tangentBlock, get_ofFn (List.Forall₂.cons hi (List.Forall₂.cons hj .nil))]
    rfl
  ext i j
  rw [Matrix.of_apply, hg i.2 j.2]
  refine Fin.addCases (fun i => ?_) (fun i => ?_) i <;> refine Fin.addCases (fun j => ?_) (fun j => ?_) j
  · rw [blockMat_11]; simp [valMat]
  · rw [blockMat_12]
    simp only [Fin.val_castAdd, Fin.val_natAdd, i.2, if_true, add_tsub_cancel_left]
    rw [if_neg (by omega)]
    rfl
  · rw [blockMat_21]
    simp only [Fin.val_castAdd, Fin.val_natAdd, j.2, if_true]
    rw [if_neg (by omega)]
  · rw [blockMat_22]
    simp only [Fin.val_natAdd, add_tsub_cancel_left]
    rw [if_neg (by omega), if_neg (by omega)]
    rfl

theorem expm_ok {a : NDArray ℂ} {d : ℕ} (h : a.shape = [d, d]) :
    ∃ u, expm a = .ok u ∧ ∀ i j : Fin d, u.get [i.val, j.val] = NormedSpace.exp (Matrix.of fun i j : Fin d => a.get [i.val, j.val]) i j := by
  refine ⟨ofFn [d, d] fun idx =>
      if h : idx.getD 0 0 < d ∧ idx.getD 1 0 < d then
        NormedSpace.exp (Matrix.of fun i j : Fin d => a.get [i.val, j.val]) ⟨_, h.1⟩ ⟨_, h.2⟩
      else 0, by simp only [expm, h, if_true], fun i j => ?_⟩
  rw [get_ofFn (List.Forall₂.cons i.2 (List.Forall₂.cons j.2 .nil))]
  simp

theorem dualExpm_ok {a : NDArray (DualNumber ℂ)} {d : ℕ} (h : a.shape = [d, d]) :
    ∃ u, Tracer.base.dual.expm a = .ok u ∧ u.shape = [d, d] ∧ u.WF ∧ ∀ i j : Fin d,
      (u.get [i.val, j.val]).fst = NormedSpace.exp (valMat a d) i j ∧
      (u.get [i.val, j.val]).snd
        = NormedSpace.exp (blockMat (valMat a d) (tanMat a d) (valMat a d)) (Fin.castAdd d i) (Fin.natAdd d j) := by
  obtain ⟨u, hu, hue⟩ := expm_ok (a := tangentBlock a d) (d := d + d) rfl
  rw [tangentBlock_mat] at hue
  have h1 : Tracer.base.dual.expm a
      = .ok (ofFn [d, d] fun idx => jet (u.get [idx.getD 0 0, idx.getD 1 0]) (u.get [idx.getD 0 0, d + idx.getD 1 0])) := by
    simp only [h, if_true]
    change (expm (tangentBlock a d) >>= _) = _
    rw [hu]
    rfl
  refine ⟨_, h1, rfl, wf_ofFn _ _, fun i j => ?_⟩
  rw [get_ofFn (List.Forall₂.cons i.2 (List.Forall₂.cons j.2 .nil))]
  constructor
  · exact (hue (Fin.castAdd d i) (Fin.castAdd d j)).trans (exp_block_11 _ _ i j)
  · exact hue (Fin.castAdd d i) (Fin.natAdd d j)

/-- The derivative with respect to an entry. -/
theorem expmEntry_eq (a : NDArray ℂ) {d : ℕ} (i j k l : Fin d) :
    expmEntry a d i j k l = NormedSpace.exp (blockMat (Matrix.of fun i j : Fin d => a.get [i.val, j.val])
      (Matrix.of fun k' l' => if k' = k ∧ l' = l then (1 : ℂ) else 0) (Matrix.of fun i j : Fin d => a.get [i.val, j.val]))
        (Fin.castAdd d i) (Fin.natAdd d j) := by
  obtain ⟨u, hu, -, -, he⟩ := dualExpm_ok (a := ofFn [d, d] fun idx =>
    jet (a.get [idx.getD 0 0, idx.getD 1 0]) (if idx = [k.val, l.val] then (1 : ℂ) else 0)) (d := d) rfl
  rw [expmEntry, hu]
  change (u.get [i.val, j.val]).snd = _
  rw [(he i j).2]
  have hg : ∀ i j : Fin d, (ofFn [d, d] fun idx =>
      jet (a.get [idx.getD 0 0, idx.getD 1 0]) (if idx = [k.val, l.val] then (1 : ℂ) else 0)).get [i.val, j.val]
      = jet (a.get [i.val, j.val]) (if i = k ∧ j = l then (1 : ℂ) else 0) := by
    intro i j
    rw [get_ofFn (List.Forall₂.cons i.2 (List.Forall₂.cons j.2 .nil))]
    simp [Fin.ext_iff]
  congr 2
  simp only [valMat, tanMat, hg, jet_fst, jet_snd]

theorem revExpm_ok {G : Type} [AddCommGroup G] {a : NDArray (RevC G)} {d : ℕ} (h : a.shape = [d, d]) :
    ∃ u, (Tracer.rev G).expm a = .ok u ∧ u.shape = [d, d] ∧ u.WF ∧ ∀ i j : Fin d,
      (u.get [i.val, j.val]).fst = NormedSpace.exp (Matrix.of fun i j : Fin d => (a.get [i.val, j.val]).fst) i j ∧
      ∀ ct, (u.get [i.val, j.val]).snd ct = ∑ kl : Fin d × Fin d, (a.get [kl.1.val, kl.2.val]).snd
        (ct * NormedSpace.exp (blockMat (Matrix.of fun i j : Fin d => (a.get [i.val, j.val]).fst)
          (Matrix.of fun k' l' => if k' = kl.1 ∧ l' = kl.2 then (1 : ℂ) else 0) (Matrix.of fun i j : Fin d => (a.get [i.val, j.val]).fst))
            (Fin.castAdd d i) (Fin.natAdd d j)) := by
  obtain ⟨u, hu, hue⟩ := expm_ok (a := a.mapArr TrivSqZeroExt.fst) (d := d) h
  have hm : ∀ idx, (a.mapArr TrivSqZeroExt.fst).get idx = (a.get idx).fst := get_mapArr_zero _ rfl a
  have h1 : (Tracer.rev G).expm a = .ok (ofFn [d, d] fun idx => revC (u.get [idx.getD 0 0, idx.getD 1 0])
          (∑ kl : Fin d × Fin d, (pullC (a.get [kl.1.val, kl.2.val])).comp
            (AddMonoidHom.mulRight (expmEntry (a.mapArr TrivSqZeroExt.fst) d (idx.getD 0 0) (idx.getD 1 0) kl.1.val kl.2.val)))) := by
    simp only [h, if_true]
    rw [hu]
    rfl
  refine ⟨_, h1, rfl, wf_ofFn _ _, fun i j => ?_⟩
  rw [get_ofFn (List.Forall₂.cons i.2 (List.Forall₂.cons j.2 .nil))]
  constructor
  · change u.get [i.val, j.val] = _
    rw [hue]
    simp only [hm]
  · intro ct
    rw [revC_snd, AddMonoidHom.finsetSum_apply]
    refine Finset.sum_congr rfl fun kl _ => ?_
    change (a.get [kl.1.val, kl.2.val]).snd (ct * expmEntry (a.mapArr TrivSqZeroExt.fst) d i j kl.1 kl.2) = _
    rw [expmEntry_eq]
    simp only [hm]

/-- Square arrays with the same entries are equal. -/
theorem ext_square {K : Type} [Zero K] {a b : NDArray K} {d : ℕ} (ha : a.shape = [d, d]) (hb : b.shape = [d, d]) (hwa : a.WF)
    (hwb : b.WF) (h : ∀ i j : Fin d, a.get [i.val, j.val] = b.get [i.val, j.val]) : a = b := by
  rw [eq_ofFn_get hwa, eq_ofFn_get hwb, ha, hb]
  refine ofFn_congr fun idx hidx => ?_
  rcases hidx with _ | ⟨hi, _ | ⟨hj, _ | _⟩⟩
  exact h ⟨_, hi⟩ ⟨_, hj⟩

/-! ## Maps of numbers with pullbacks -/

section homs
variable {G H : Type} [AddCommGroup G] [AddCommGroup H]

/-- Applying a map of gradients. -/
noncomputable def gradHom (ℓ : G →+ H) : (Tracer.rev G).Hom (Tracer.rev H) where
  fR :=
    { toFun := fun x => revR x.fst (ℓ.comp (pullR x))
      map_one' := RevR.ext rfl fun ct => by simp
      map_mul' := fun x y => RevR.ext rfl fun ct => by simp
      map_zero' := RevR.ext rfl fun ct => by simp
      map_add' := fun x y => RevR.ext rfl fun ct => by simp }
  fK :=
    { toFun := fun x => revC x.fst (ℓ.comp (pullC x))
      map_one' := RevC.ext rfl fun ct => by simp
      map_mul' := fun x y => RevC.ext rfl fun ct => by simp
      map_zero' := RevC.ext rfl fun ct => by simp
      map_add' := fun x y => RevC.ext rfl fun ct => by simp }
  constR c := RevR.ext rfl fun ct => by simp
  const c := RevC.ext rfl fun ct => by simp
  star z := RevC.ext rfl fun ct => rfl
  real x := RevC.ext rfl fun ct => rfl
  re z := RevR.ext rfl fun ct => rfl
  cos x := RevR.ext rfl fun ct => rfl
  sin x := RevR.ext rfl fun ct => rfl
  exp z := RevC.ext rfl fun ct => rfl
  expm a := by
    set f : RevC G → RevC H := fun x => revC x.fst (ℓ.comp (pullC x)) with hf
    have hf0 : f 0 = 0 := RevC.ext rfl fun ct => by simp [hf]
    change (Tracer.rev H).expm (a.mapArr f) = ((Tracer.rev G).expm a).map (mapArr f)
    obtain ⟨sh, dat⟩ := a
    rcases sh with _ | ⟨d, _ | ⟨d', _ | ⟨_, _⟩⟩⟩
    · rfl
    · rfl
    · by_cases hd : d = d'
      · subst hd
        obtain ⟨u, hu, hus, huw, hue⟩ := revExpm_ok (a := (⟨[d, d], dat⟩ : NDArray (RevC G))) rfl
        obtain ⟨v, hv, hvs, hvw, hve⟩ := revExpm_ok (a := (⟨[d, d], dat⟩ : NDArray (RevC G)).mapArr f) rfl
        rw [hu, hv]
        refine congrArg Except.ok (ext_square hvs hus hvw (by simpa [WF, mapArr] using huw) fun i j => ?_)
        rw [get_mapArr_zero f hf0]
        refine RevC.ext ?_ fun ct => ?_
        · rw [(hve i j).1]
          simp only [get_mapArr_zero f hf0]
          exact (hue i j).1.symm
        · rw [(hve i j).2]
          simp only [get_mapArr_zero f hf0]
          change _ = ℓ ((u.get [i.val, j.val]).snd ct)
          rw [(hue i j).2, map_sum]
          rfl
      · have h1 : (Tracer.rev G).expm ⟨[d, d'], dat⟩ = .error .valueError := by simp only [if_neg hd]
        rw [h1]
        simp only [mapArr_shape, if_neg hd]
        rfl
    · rfl

/-- Tangents as pullbacks: the cotangent is multiplied by the tangent. -/
noncomputable def transposeHom : Tracer.base.dual.Hom (Tracer.rev ℝ) where
  fR :=
    { toFun := fun x => revR x.fst (AddMonoidHom.mulRight x.snd)
      map_one' := RevR.ext rfl fun ct => by simp
      map_mul' := fun x y => RevR.ext rfl fun ct => by simp; ring
      map_zero' := RevR.ext rfl fun ct => by simp
      map_add' := fun x y => RevR.ext rfl fun ct => by simp; ring }
  fK :=
    { toFun := fun z => revC z.fst (Complex.reAddGroupHom.comp (AddMonoidHom.mulRight z.snd))
      map_one' := RevC.ext rfl fun ct => by simp
      map_mul' := fun x y => RevC.ext rfl fun ct => by simp; ring
      map_zero' := RevC.ext rfl fun ct => by simp
      map_add' := fun x y => RevC.ext rfl fun ct => by simp; ring }
  constR c := RevR.ext rfl fun ct => by simp
  const c := RevC.ext rfl fun ct => by simp
  star z := RevC.ext (DualNumber.fst_star' z) fun ct => by
    simp [DualNumber.snd_star']
  real x := RevC.ext rfl fun ct => by simp
  re z := RevR.ext rfl fun ct => by simp
  cos x := RevR.ext rfl fun ct => by simp; ring
  sin x := RevR.ext rfl fun ct => by simp; ring
  exp z := RevC.ext rfl fun ct => by simp; ring
  expm a := by
    set f : DualNumber ℂ → RevC ℝ := fun z => revC z.fst (Complex.reAddGroupHom.comp (AddMonoidHom.mulRight z.snd)) with hf
    have hf0 : f 0 = 0 := RevC.ext rfl fun ct => by simp [hf]
    change (Tracer.rev ℝ).expm (a.mapArr f) = (Tracer.base.dual.expm a).map (mapArr f)
    obtain ⟨sh, dat⟩ := a
    rcases sh with _ | ⟨d, _ | ⟨d', _ | ⟨_, _⟩⟩⟩
    · rfl
    · rfl
    · by_cases hd : d = d'
      · subst hd
        obtain ⟨u, hu, hus, huw, hue⟩ := dualExpm_ok (a := (⟨[d, d], dat⟩ : NDArray (DualNumber ℂ))) rfl
        obtain ⟨v, hv, hvs, hvw, hve⟩ := revExpm_ok (a := (⟨[d, d], dat⟩ : NDArray (DualNumber ℂ)).mapArr f) rfl
        rw [hu, hv]
        refine congrArg Except.ok (ext_square hvs hus hvw (by simpa [WF, mapArr] using huw) fun i j => ?_)
        rw [get_mapArr_zero f hf0]
        refine RevC.ext ?_ fun ct => ?_
        · rw [(hve i j).1]
          simp only [get_mapArr_zero f hf0]
          exact (hue i j).1.symm
        · rw [(hve i j).2]
          simp only [get_mapArr_zero f hf0]
          change _ = (ct * (u.get [i.val, j.val]).snd).re
          rw [(hue i j).2, exp_block_sum, Finset.mul_sum, Complex.re_sum]
          refine Finset.sum_congr rfl fun kl _ => ?_
          rw [← mul_assoc]
          rfl
      · have h1 : Tracer.base.dual.expm ⟨[d, d'], dat⟩ = .error .valueError := by simp only [if_neg hd]
        rw [h1]
        simp only [mapArr_shape, if_neg hd]
        rfl
    · rfl

end homs

end Verif
