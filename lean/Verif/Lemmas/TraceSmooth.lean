import Mathlib.Analysis.SpecialFunctions.Trigonometric.Deriv
import Mathlib.Analysis.SpecialFunctions.ExpDeriv
import Mathlib.Analysis.Calculus.IteratedDeriv.Lemmas
import Verif.Lemmas.ExpBlock
import Verif.Lemmas.Index
import Verif.Lemmas.TraceBase

/-!
# Analytic functions as tracers

The program run on analytic functions of parameters `x : E` describes at once all runs on plain numbers (evaluate at `x`) and all
runs on pairs of value and tangent (pair every function with its derivative in a direction).
-/

set_option autoImplicit false

namespace Verif
open NDArray
open scoped ContDiff

theorem mapArr_ofFn' {R K : Type} (f : R → K) (s : List ℕ) (g : List ℕ → R) :
    (ofFn s g).mapArr f = ofFn s fun i => f (g i) := by
  simp [ofFn, mapArr]

/-! ## The tracer -/

section smooth
variable (E : Type) [NormedAddCommGroup E] [NormedSpace ℝ E]

/-- Analytic functions with values in `ℝ`. -/
def smoothR : Subring (E → ℝ) where
  carrier := {f | ContDiff ℝ ω f}
  mul_mem' hf hg := Set.mem_setOf_eq ▸ ContDiff.mul (Set.mem_setOf.1 hf) (Set.mem_setOf.1 hg)
  one_mem' := Set.mem_setOf_eq ▸ contDiff_const
  add_mem' hf hg := Set.mem_setOf_eq ▸ ContDiff.add (Set.mem_setOf.1 hf) (Set.mem_setOf.1 hg)
  zero_mem' := Set.mem_setOf_eq ▸ contDiff_const
  neg_mem' hf := Set.mem_setOf_eq ▸ ContDiff.neg (Set.mem_setOf.1 hf)

variable {E} in
theorem smoothR_iff (f : E → ℝ) : f ∈ smoothR E ↔ ContDiff ℝ ω f := Set.mem_setOf_eq ▸ Iff.rfl

variable {E} in
theorem smoothR_cd (f : smoothR E) : ContDiff ℝ ω f.1 := (smoothR_iff f.1).1 f.2

variable {E} in
/-- An analytic function as a number. -/
def smoothRMk (f : E → ℝ) (h : ContDiff ℝ ω f) : smoothR E := ⟨f, (smoothR_iff f).2 h⟩

variable {E} in
@[simp] theorem smoothRMk_apply (f : E → ℝ) (h : ContDiff ℝ ω f) (x : E) : (smoothRMk f h).1 x = f x := rfl

variable {E} in
theorem smoothR_ext {f g : smoothR E} (h : ∀ x, f.1 x = g.1 x) : f = g := Subtype.ext (funext h)

/-- Analytic functions with values in `ℂ`. -/
def smoothC : Subring (E → ℂ) where
  carrier := {f | ContDiff ℝ ω f}
  mul_mem' hf hg := Set.mem_setOf_eq ▸ ContDiff.mul (Set.mem_setOf.1 hf) (Set.mem_setOf.1 hg)
  one_mem' := Set.mem_setOf_eq ▸ contDiff_const
  add_mem' hf hg := Set.mem_setOf_eq ▸ ContDiff.add (Set.mem_setOf.1 hf) (Set.mem_setOf.1 hg)
  zero_mem' := Set.mem_setOf_eq ▸ contDiff_const
  neg_mem' hf := Set.mem_setOf_eq ▸ ContDiff.neg (Set.mem_setOf.1 hf)

variable {E} in
theorem smoothC_iff (f : E → ℂ) : f ∈ smoothC E ↔ ContDiff ℝ ω f := Set.mem_setOf_eq ▸ Iff.rfl

variable {E} in
theorem smoothC_cd (f : smoothC E) : ContDiff ℝ ω f.1 := (smoothC_iff f.1).1 f.2

variable {E} in
/-- An analytic function as a number. -/
def smoothCMk (f : E → ℂ) (h : ContDiff ℝ ω f) : smoothC E := ⟨f, (smoothC_iff f).2 h⟩

variable {E} in
@[simp] theorem smoothCMk_apply (f : E → ℂ) (h : ContDiff ℝ ω f) (x : E) : (smoothCMk f h).1 x = f x := rfl

variable {E} in
theorem smoothC_ext {f g : smoothC E} (h : ∀ x, f.1 x = g.1 x) : f = g := Subtype.ext (funext h)

variable {E}

instance : Star (smoothC E) := ⟨fun f => smoothCMk (fun x => star (f.1 x)) ((Complex.conjCLE : ℂ →L[ℝ] ℂ).contDiff.comp (smoothC_cd f))⟩

instance : StarRing (smoothC E) where
  star_involutive f := smoothC_ext fun x => star_star (f.1 x)
  star_mul f g := smoothC_ext fun x => star_mul (f.1 x) (g.1 x)
  star_add f g := smoothC_ext fun x => star_add (f.1 x) (g.1 x)

/-- The matrix of the values at a point. -/
def matAt (a : NDArray (smoothC E)) (d : ℕ) (x : E) : Matrix (Fin d) (Fin d) ℂ := Matrix.of fun i j => (a.get [i.val, j.val]).1 x

theorem matAt_contDiff (a : NDArray (smoothC E)) (d : ℕ) (i j : Fin d) : ContDiff ℝ ω fun x => matAt a d x i j :=
  smoothC_cd (a.get [i.val, j.val])

/-- An entry of `expm(a)`. -/
noncomputable def expEntry (a : NDArray (smoothC E)) (d : ℕ) (i j : ℕ) : smoothC E :=
  if h : i < d ∧ j < d then
    smoothCMk (fun x => NormedSpace.exp (matAt a d x) ⟨i, h.1⟩ ⟨j, h.2⟩) (expEntry_contDiff (matAt_contDiff a d) ⟨i, h.1⟩ ⟨j, h.2⟩)
  else 0

theorem expEntry_apply (a : NDArray (smoothC E)) {d i j : ℕ} (hi : i < d) (hj : j < d) (x : E) :
    (expEntry a d i j).1 x = NormedSpace.exp (matAt a d x) ⟨i, hi⟩ ⟨j, hj⟩ := by
  rw [expEntry, dif_pos ⟨hi, hj⟩]; rfl

variable (E) in
/-- Analytic functions as a kind of numbers. -/
noncomputable abbrev Tracer.smooth : Tracer where
  R := smoothR E
  K := smoothC E
  constR :=
    { toFun := fun c => smoothRMk (fun _ => c) contDiff_const
      map_one' := rfl
      map_mul' := fun _ _ => rfl
      map_zero' := rfl
      map_add' := fun _ _ => rfl }
  const :=
    { toFun := fun c => smoothCMk (fun _ => c) contDiff_const
      map_one' := rfl
      map_mul' := fun _ _ => rfl
      map_zero' := rfl
      map_add' := fun _ _ => rfl }
  real :=
    { toFun := fun f => smoothCMk (fun x => (f.1 x : ℂ)) (Complex.ofRealCLM.contDiff.comp (smoothR_cd f))
      map_one' := smoothC_ext fun x => Complex.ofReal_one
      map_mul' := fun f g => smoothC_ext fun x => Complex.ofReal_mul (f.1 x) (g.1 x)
      map_zero' := smoothC_ext fun x => Complex.ofReal_zero
      map_add' := fun f g => smoothC_ext fun x => Complex.ofReal_add (f.1 x) (g.1 x) }
  re :=
    { toFun := fun f => smoothRMk (fun x => (f.1 x).re) (Complex.reCLM.contDiff.comp (smoothC_cd f))
      map_zero' := rfl
      map_add' := fun _ _ => rfl }
  cos := fun f => smoothRMk (fun x => Real.cos (f.1 x)) (Real.contDiff_cos.comp (smoothR_cd f))
  sin := fun f => smoothRMk (fun x => Real.sin (f.1 x)) (Real.contDiff_sin.comp (smoothR_cd f))
  exp := fun f => smoothCMk (fun x => Complex.exp (f.1 x)) (Complex.contDiff_exp.comp (smoothC_cd f))
  expm := fun a =>
    match a.shape with
    | [d, d'] =>
      if d = d' then
        .ok (ofFn [d, d] fun idx => expEntry a d (idx.getD 0 0) (idx.getD 1 0))
      else .error .valueError
    | _ => .error .valueError

/-! ## Maps -/

/-- Evaluation at a point. -/
def evalFK (x : E) : smoothC E →+* ℂ where
  toFun := fun f => f.1 x
  map_one' := rfl
  map_mul' := fun _ _ => rfl
  map_zero' := rfl
  map_add' := fun _ _ => rfl

/-- Evaluation at a point. -/
noncomputable def evalHom (x : E) : (Tracer.smooth E).Hom Tracer.base where
  fR :=
    { toFun := fun f => f.1 x
      map_one' := rfl
      map_mul' := fun _ _ => rfl
      map_zero' := rfl
      map_add' := fun _ _ => rfl }
  fK := evalFK x
  constR _ := rfl
  const _ := rfl
  star _ := rfl
  real _ := rfl
  re _ := rfl
  cos _ := rfl
  sin _ := rfl
  exp _ := rfl
  expm a := by
    obtain ⟨sh, dat⟩ := a
    change Verif.expm _ = _
    rcases sh with _ | ⟨d, _ | ⟨d', _ | ⟨_, _⟩⟩⟩
    · rfl
    · rfl
    · by_cases hd : d = d'
      · subst hd
        simp only [expm, mapArr_shape, if_true]
        change _ = Except.ok _
        refine congrArg Except.ok ?_
        refine Eq.trans (congrArg (ofFn [d, d]) (funext fun idx => ?_)) (mapArr_ofFn' _ _ _).symm
        by_cases hi : idx.getD 0 0 < d ∧ idx.getD 1 0 < d
        · rw [dif_pos hi]
          refine Eq.trans ?_ (expEntry_apply ⟨[d, d], dat⟩ hi.1 hi.2 x).symm
          have hm : (Matrix.of fun i j : Fin d => NDArray.get (mapArr (fun f : smoothC E => f.1 x) ⟨[d, d], dat⟩) [i.val, j.val])
              = matAt ⟨[d, d], dat⟩ d x := by
            ext i j
            exact get_mapArr (evalFK x) ⟨[d, d], dat⟩ [i.val, j.val]
          exact congrArg (fun M : Matrix (Fin d) (Fin d) ℂ => NormedSpace.exp M ⟨_, hi.1⟩ ⟨_, hi.2⟩) hm
        · rw [dif_neg hi, expEntry, dif_neg hi]; rfl
      · simp only [expm, mapArr_shape, if_neg hd]; rfl
    · rfl

/-- The derivative in a direction. -/
noncomputable def dirR (v : E) (f : smoothR E) : smoothR E :=
  smoothRMk (fun x => fderiv ℝ f.1 x v) (((smoothR_cd f).fderiv_right (by exact le_rfl)).clm_apply contDiff_const)

/-- The derivative in a direction. -/
noncomputable def dirC (v : E) (f : smoothC E) : smoothC E :=
  smoothCMk (fun x => fderiv ℝ f.1 x v) (((smoothC_cd f).fderiv_right (by exact le_rfl)).clm_apply contDiff_const)

theorem smoothR_diff (f : smoothR E) (x : E) : DifferentiableAt ℝ f.1 x := (smoothR_cd f).differentiable (by simp) x
theorem smoothC_diff (f : smoothC E) (x : E) : DifferentiableAt ℝ f.1 x := (smoothC_cd f).differentiable (by simp) x

theorem dirC_apply (v : E) (f : smoothC E) {x : E} {y : ℂ} {L : E →L[ℝ] ℂ} (h : HasFDerivAt f.1 L x) (hy : L v = y) :
    (dirC v f).1 x = y := by
  change fderiv ℝ f.1 x v = y
  rw [h.fderiv, hy]

theorem dirR_apply (v : E) (f : smoothR E) {x : E} {y : ℝ} {L : E →L[ℝ] ℝ} (h : HasFDerivAt f.1 L x) (hy : L v = y) :
    (dirR v f).1 x = y := by
  change fderiv ℝ f.1 x v = y
  rw [h.fderiv, hy]

/-- The derivative of a composition with a function of one real variable. -/
theorem dirC_comp (v : E) (t : smoothR E) (f : smoothC E) (g : ℝ → ℂ) (hf : ∀ x, f.1 x = g (t.1 x)) {x : E} {y : ℂ}
    (h : HasDerivAt g y (t.1 x)) : (dirC v f).1 x = ((dirR v t).1 x : ℂ) * y := by
  have h1 := h.hasFDerivAt.comp x (smoothR_diff t x).hasFDerivAt
  have h2 : f.1 = g ∘ t.1 := funext hf
  rw [← h2] at h1
  refine dirC_apply v f h1 ?_
  change fderiv ℝ t.1 x v • y = _
  rw [Complex.real_smul]
  rfl

theorem evalHom_apply (x : E) (f : smoothC E) : (evalHom x).fK f = f.1 x := rfl

/-- An array of functions paired with their derivatives. -/
noncomputable def jetArr (v : E) (a : NDArray (smoothC E)) : NDArray (DualNumber (smoothC E)) := a.mapArr fun f => jet f (dirC v f)

theorem dirC_zero (v : E) : dirC v (0 : smoothC E) = 0 :=
  smoothC_ext fun x => dirC_apply v _ (hasFDerivAt_const (0 : ℂ) x) rfl

theorem jetArr_get (v : E) (a : NDArray (smoothC E)) (idx : List ℕ) :
    (jetArr v a).get idx = jet (a.get idx) (dirC v (a.get idx)) := by
  simp only [jetArr, NDArray.get, mapArr, List.getD_eq_getElem?_getD, List.getElem?_map]
  rcases a.data[ravel a.shape idx]? with _ | f
  · simp only [Option.map_none, Option.getD_none, dirC_zero]; rfl
  · rfl

theorem matAt_block (v : E) (a : NDArray (smoothC E)) (d : ℕ) (x : E) :
    matAt (tangentBlock (jetArr v a) d) (d + d) x
      = blockMat (matAt a d x) (Matrix.of fun k l => fderiv ℝ (fun x => matAt a d x k l) x v) (matAt a d x) := by
  have hg : ∀ {i j : ℕ} (hi : i < d + d) (hj : j < d + d), (tangentBlock (jetArr v a) d).get [i, j]
      = if i < d then if j < d then a.get [i, j] else dirC v (a.get [i, j - d]) else if j < d then 0 else a.get [i - d, j - d] := by
    intro i j hi hj
    rw [tangentBlock, get_ofFn (List.Forall₂.cons hi (List.Forall₂.cons hj .nil))]
    simp only [jetArr_get, jet_fst, jet_snd]
    rfl
  ext i j
  simp only [matAt, Matrix.of_apply, hg i.2 j.2]
  refine Fin.addCases (fun i => ?_) (fun i => ?_) i <;> refine Fin.addCases (fun j => ?_) (fun j => ?_) j
  · rw [blockMat_11]; simp
  · rw [blockMat_12]
    simp only [Fin.val_castAdd, Fin.val_natAdd, i.2, if_true, add_tsub_cancel_left]
    rw [if_neg (by omega)]
    rfl
  · rw [blockMat_21]
    simp only [Fin.val_castAdd, Fin.val_natAdd, j.2, if_true]
    rw [if_neg (by omega)]
    rfl
  · rw [blockMat_22]
    simp only [Fin.val_natAdd, add_tsub_cancel_left]
    rw [if_neg (by omega), if_neg (by omega)]
    rfl

theorem expEntry_fst (v : E) (a : NDArray (smoothC E)) {d i j : ℕ} (hi : i < d) (hj : j < d) :
    expEntry (tangentBlock (jetArr v a) d) (d + d) i j = expEntry a d i j := by
  refine smoothC_ext fun x => ?_
  rw [expEntry_apply _ (by omega) (by omega), expEntry_apply a hi hj, matAt_block]
  exact exp_block_11 _ _ ⟨i, hi⟩ ⟨j, hj⟩

theorem expEntry_snd (v : E) (a : NDArray (smoothC E)) {d i j : ℕ} (hi : i < d) (hj : j < d) :
    expEntry (tangentBlock (jetArr v a) d) (d + d) i (d + j) = dirC v (expEntry a d i j) := by
  refine smoothC_ext fun x => ?_
  rw [expEntry_apply _ (by omega) (by omega), matAt_block]
  have h := expEntry_fderiv (matAt_contDiff a d) ⟨i, hi⟩ ⟨j, hj⟩ x v
  refine h.symm.trans ?_
  change _ = fderiv ℝ (expEntry a d i j).1 x v
  rw [show (expEntry a d i j).1 = fun x => NormedSpace.exp (matAt a d x) ⟨i, hi⟩ ⟨j, hj⟩ from funext fun x => expEntry_apply a hi hj x]

/-- Pairing every function with its derivative in a direction. -/
noncomputable def dirHom (v : E) : (Tracer.smooth E).Hom (Tracer.smooth E).dual where
  fR :=
    { toFun := fun f => jet f (dirR v f)
      map_one' := by
        apply TrivSqZeroExt.ext
        · rfl
        · exact smoothR_ext fun x => dirR_apply v _ (hasFDerivAt_const (1 : ℝ) x) rfl
      map_mul' := fun f g => by
        apply TrivSqZeroExt.ext
        · rfl
        · rw [DualNumber.snd_mul]
          refine smoothR_ext fun x => dirR_apply v _ ((smoothR_diff f x).hasFDerivAt.mul (smoothR_diff g x).hasFDerivAt) ?_
          change f.1 x * fderiv ℝ g.1 x v + g.1 x * fderiv ℝ f.1 x v = f.1 x * fderiv ℝ g.1 x v + fderiv ℝ f.1 x v * g.1 x
          ring
      map_zero' := by
        apply TrivSqZeroExt.ext
        · rfl
        · exact smoothR_ext fun x => dirR_apply v _ (hasFDerivAt_const (0 : ℝ) x) rfl
      map_add' := fun f g => by
        apply TrivSqZeroExt.ext
        · rfl
        · exact smoothR_ext fun x => dirR_apply v _ ((smoothR_diff f x).hasFDerivAt.add (smoothR_diff g x).hasFDerivAt) rfl }
  fK :=
    { toFun := fun f => jet f (dirC v f)
      map_one' := by
        apply TrivSqZeroExt.ext
        · rfl
        · exact smoothC_ext fun x => dirC_apply v _ (hasFDerivAt_const (1 : ℂ) x) rfl
      map_mul' := fun f g => by
        apply TrivSqZeroExt.ext
        · rfl
        · rw [DualNumber.snd_mul]
          refine smoothC_ext fun x => dirC_apply v _ ((smoothC_diff f x).hasFDerivAt.mul (smoothC_diff g x).hasFDerivAt) ?_
          change f.1 x * fderiv ℝ g.1 x v + g.1 x * fderiv ℝ f.1 x v = f.1 x * fderiv ℝ g.1 x v + fderiv ℝ f.1 x v * g.1 x
          ring
      map_zero' := by
        apply TrivSqZeroExt.ext
        · rfl
        · exact smoothC_ext fun x => dirC_apply v _ (hasFDerivAt_const (0 : ℂ) x) rfl
      map_add' := fun f g => by
        apply TrivSqZeroExt.ext
        · rfl
        · exact smoothC_ext fun x => dirC_apply v _ ((smoothC_diff f x).hasFDerivAt.add (smoothC_diff g x).hasFDerivAt) rfl }
  constR c := by
    apply TrivSqZeroExt.ext
    · rfl
    · exact smoothR_ext fun x => dirR_apply v _ (hasFDerivAt_const c x) rfl
  const c := by
    apply TrivSqZeroExt.ext
    · rfl
    · exact smoothC_ext fun x => dirC_apply v _ (hasFDerivAt_const c x) rfl
  star f := by
    apply TrivSqZeroExt.ext
    · exact (DualNumber.fst_star' (jet f (dirC v f))).symm
    · refine Eq.trans ?_ (DualNumber.snd_star' (jet f (dirC v f))).symm
      exact smoothC_ext fun x => dirC_apply v _
        ((Complex.conjCLE : ℂ →L[ℝ] ℂ).hasFDerivAt.comp x (smoothC_diff f x).hasFDerivAt) rfl
  real f := by
    apply TrivSqZeroExt.ext
    · rfl
    · exact smoothC_ext fun x => dirC_apply v _
        (Complex.ofRealCLM.hasFDerivAt.comp x (smoothR_diff f x).hasFDerivAt) rfl
  re f := by
    apply TrivSqZeroExt.ext
    · rfl
    · exact smoothR_ext fun x => dirR_apply v _
        (Complex.reCLM.hasFDerivAt.comp x (smoothC_diff f x).hasFDerivAt) rfl
  cos f := by
    apply TrivSqZeroExt.ext
    · rfl
    · exact smoothR_ext fun x => dirR_apply v _ ((smoothR_diff f x).hasFDerivAt.cos) rfl
  sin f := by
    apply TrivSqZeroExt.ext
    · rfl
    · exact smoothR_ext fun x => dirR_apply v _ ((smoothR_diff f x).hasFDerivAt.sin) rfl
  exp f := by
    apply TrivSqZeroExt.ext
    · rfl
    · exact smoothC_ext fun x => dirC_apply v _ ((smoothC_diff f x).hasFDerivAt.cexp) rfl
  expm a := by
    obtain ⟨sh, dat⟩ := a
    change (Tracer.smooth E).dual.expm (jetArr v ⟨sh, dat⟩) = _
    rcases sh with _ | ⟨d, _ | ⟨d', _ | ⟨_, _⟩⟩⟩
    · rfl
    · rfl
    · by_cases hd : d = d'
      · subst hd
        have hu : (Tracer.smooth E).expm ⟨[d, d], dat⟩
            = .ok (ofFn [d, d] fun idx => expEntry ⟨[d, d], dat⟩ d (idx.getD 0 0) (idx.getD 1 0)) := by
          simp only [if_true]
        have hb : (Tracer.smooth E).expm (tangentBlock (jetArr v ⟨[d, d], dat⟩) d)
            = .ok (ofFn [d + d, d + d] fun idx =>
              expEntry (tangentBlock (jetArr v ⟨[d, d], dat⟩) d) (d + d) (idx.getD 0 0) (idx.getD 1 0)) := by
          simp only [tangentBlock, ofFn, if_true]
        have hj : (Tracer.smooth E).dual.expm (jetArr v ⟨[d, d], dat⟩) = (do
            let u ← (Tracer.smooth E).expm (tangentBlock (jetArr v ⟨[d, d], dat⟩) d)
            .ok (ofFn [d, d] fun idx => jet (u.get [idx.getD 0 0, idx.getD 1 0]) (u.get [idx.getD 0 0, d + idx.getD 1 0]))) := by
          simp only [jetArr, mapArr_shape, if_true]
        rw [hj, hb, hu]
        change Except.ok _ = Except.ok _
        refine congrArg Except.ok ?_
        rw [mapArr_ofFn', ofFn, ofFn]
        refine congrArg (NDArray.mk [d, d]) (List.map_congr_left fun idx hidx => ?_)
        rcases mem_allIdx.1 hidx with _ | ⟨hi, _ | ⟨hj, _ | _⟩⟩
        have h1 : ∀ {i j : ℕ} (hi : i < d + d) (hj : j < d + d), (ofFn [d + d, d + d] fun idx =>
              expEntry (tangentBlock (jetArr v ⟨[d, d], dat⟩) d) (d + d) (idx.getD 0 0) (idx.getD 1 0)).get [i, j]
            = expEntry (tangentBlock (jetArr v ⟨[d, d], dat⟩) d) (d + d) i j := by
          intro i j hi hj
          rw [get_ofFn (List.Forall₂.cons hi (List.Forall₂.cons hj .nil))]
          rfl
        apply TrivSqZeroExt.ext
        · exact (h1 (Nat.lt_of_lt_of_le hi (Nat.le_add_right d d)) (Nat.lt_of_lt_of_le hj (Nat.le_add_right d d))).trans (expEntry_fst v _ hi hj)
        · exact (h1 (Nat.lt_of_lt_of_le hi (Nat.le_add_right d d)) (Nat.add_lt_add_left hj d)).trans (expEntry_snd v _ hi hj)
      · have h1 : (Tracer.smooth E).expm ⟨[d, d'], dat⟩ = .error .valueError := by simp only [if_neg hd]
        rw [h1]
        simp only [jetArr, mapArr_shape, if_neg hd]
        rfl
    · rfl

end smooth

/-! ## Maps of pairs -/

/-- Applying a map to values and tangents. -/
noncomputable def Tracer.Hom.dual {A B : Tracer} (φ : A.Hom B) : A.dual.Hom B.dual where
  fR :=
    { toFun := fun z => jet (φ.fR z.fst) (φ.fR z.snd)
      map_one' := by apply TrivSqZeroExt.ext <;> simp
      map_mul' := fun x y => by apply TrivSqZeroExt.ext <;> simp
      map_zero' := by apply TrivSqZeroExt.ext <;> simp
      map_add' := fun x y => by apply TrivSqZeroExt.ext <;> simp }
  fK :=
    { toFun := fun z => jet (φ.fK z.fst) (φ.fK z.snd)
      map_one' := by apply TrivSqZeroExt.ext <;> simp
      map_mul' := fun x y => by apply TrivSqZeroExt.ext <;> simp
      map_zero' := by apply TrivSqZeroExt.ext <;> simp
      map_add' := fun x y => by apply TrivSqZeroExt.ext <;> simp }
  constR c := by apply TrivSqZeroExt.ext <;> simp [φ.constR]
  const c := by apply TrivSqZeroExt.ext <;> simp [φ.const]
  star z := by apply TrivSqZeroExt.ext <;> simp [φ.star, DualNumber.fst_star', DualNumber.snd_star']
  real x := by apply TrivSqZeroExt.ext <;> simp [φ.real]
  re z := by apply TrivSqZeroExt.ext <;> simp [φ.re]
  cos x := by apply TrivSqZeroExt.ext <;> simp [φ.cos, φ.sin]
  sin x := by apply TrivSqZeroExt.ext <;> simp [φ.cos, φ.sin]
  exp z := by apply TrivSqZeroExt.ext <;> simp [φ.exp]
  expm a := by
    obtain ⟨sh, dat⟩ := a
    rcases sh with _ | ⟨d, _ | ⟨d', _ | ⟨_, _⟩⟩⟩
    · rfl
    · rfl
    · by_cases hd : d = d'
      · subst hd
        set a : NDArray (DualNumber A.K) := ⟨[d, d], dat⟩ with ha
        have hg : ∀ idx, (a.mapArr fun z => jet (φ.fK z.fst) (φ.fK z.snd)).get idx
            = jet (φ.fK (a.get idx).fst) (φ.fK (a.get idx).snd) := by
          intro idx
          simp only [NDArray.get, mapArr, List.getD_eq_getElem?_getD, List.getElem?_map]
          rcases a.data[ravel a.shape idx]? with _ | f
          · apply TrivSqZeroExt.ext <;> simp
          · rfl
        have hb : tangentBlock (a.mapArr fun z => jet (φ.fK z.fst) (φ.fK z.snd)) d = (tangentBlock a d).mapArr φ.fK := by
          simp only [tangentBlock, mapArr_ofFn', hg, jet_fst, jet_snd]
          congr 1
          funext idx
          split_ifs <;> simp
        have h1 : A.dual.expm a = (do
            let u ← A.expm (tangentBlock a d)
            .ok (ofFn [d, d] fun idx => jet (u.get [idx.getD 0 0, idx.getD 1 0]) (u.get [idx.getD 0 0, d + idx.getD 1 0]))) := by
          simp only [ha, if_true]
        have h2 : B.dual.expm (a.mapArr fun z => jet (φ.fK z.fst) (φ.fK z.snd)) = (do
            let u ← B.expm (tangentBlock (a.mapArr fun z => jet (φ.fK z.fst) (φ.fK z.snd)) d)
            .ok (ofFn [d, d] fun idx => jet (u.get [idx.getD 0 0, idx.getD 1 0]) (u.get [idx.getD 0 0, d + idx.getD 1 0]))) := by
          simp only [ha, mapArr_shape, if_true]
        refine h2.trans ?_
        rw [h1, hb]
        refine bind_nat (φ.expm _) fun u => ?_
        simp only [Except.map, get_mapArr, mapArr_ofFn']
        rfl
      · have h1 : A.dual.expm ⟨[d, d'], dat⟩ = .error .valueError := by simp only [if_neg hd]
        rw [h1]
        simp only [mapArr_shape, if_neg hd]
        rfl
    · rfl

/-- Composition of maps. -/
def Tracer.Hom.comp {A B C : Tracer} (ψ : B.Hom C) (φ : A.Hom B) : A.Hom C where
  fR := ψ.fR.comp φ.fR
  fK := ψ.fK.comp φ.fK
  constR c := by simp [φ.constR, ψ.constR]
  const c := by simp [φ.const, ψ.const]
  star z := by simp [φ.star, ψ.star]
  real x := by simp [φ.real, ψ.real]
  re z := by simp [φ.re, ψ.re]
  cos x := by simp [φ.cos, ψ.cos]
  sin x := by simp [φ.sin, ψ.sin]
  exp z := by simp [φ.exp, ψ.exp]
  expm a := by
    have h1 := ψ.expm (a.mapArr φ.fK)
    rw [φ.expm a, mapArr_comp] at h1
    refine h1.trans ?_
    cases A.expm a with
    | error e => rfl
    | ok u => exact congrArg Except.ok (mapArr_comp _ _ _)

/-- The identity. -/
def Tracer.Hom.id (A : Tracer) : A.Hom A where
  fR := RingHom.id A.R
  fK := RingHom.id A.K
  constR _ := rfl
  const _ := rfl
  star _ := rfl
  real _ := rfl
  re _ := rfl
  cos _ := rfl
  sin _ := rfl
  exp _ := rfl
  expm a := by
    have : ∀ a : NDArray A.K, a.mapArr (RingHom.id A.K) = a := fun a => by simp [mapArr]
    rw [this]
    cases A.expm a with
    | error e => rfl
    | ok a => exact congrArg Except.ok (this a).symm

/-! ## Nested derivatives -/

/-- A map applied to nested pairs. -/
noncomputable def Tracer.Hom.nest {A B : Tracer} (φ : A.Hom B) : (n : ℕ) → (A.nest n).Hom (B.nest n)
  | 0 => φ
  | n + 1 => (Tracer.Hom.nest φ n).dual

/-- Nested pairs of all derivatives of a function of one variable. -/
noncomputable def jetHom : (n : ℕ) → (Tracer.smooth ℝ).Hom ((Tracer.smooth ℝ).nest n)
  | 0 => Tracer.Hom.id _
  | n + 1 => (jetHom n).dual.comp (dirHom 1)

/-- The value of the nested pairs at `0`. -/
noncomputable def nestHom (n : ℕ) : (Tracer.smooth ℝ).Hom (Tracer.base.nest n) := ((evalHom (0 : ℝ)).nest n).comp (jetHom n)

theorem nestHom_zero (f : smoothR ℝ) : (nestHom 0).fR f = f.1 0 := rfl

theorem nestHom_succ (n : ℕ) (f : smoothR ℝ) :
    (nestHom (n + 1)).fR f = jet ((nestHom n).fR f) ((nestHom n).fR (dirR 1 f)) := rfl

theorem dirR_one (f : smoothR ℝ) : (dirR 1 f).1 = deriv f.1 := by
  funext x
  exact fderiv_apply_one_eq_deriv

theorem nestTop_nestHom (n : ℕ) (f : smoothR ℝ) : nestTop n ((nestHom n).fR f) = iteratedDeriv n f.1 0 := by
  induction n generalizing f with
  | zero => rw [iteratedDeriv_zero]; rfl
  | succ n ih =>
    rw [iteratedDeriv_succ', ← dirR_one, ← ih]
    rfl

theorem nestHom_line (n : ℕ) (x v : ℝ) (f : smoothR ℝ) (hf : ∀ t, f.1 t = x + t * v) : (nestHom n).fR f = nestSeed x v n := by
  induction n with
  | zero =>
    rw [nestHom_zero, hf, zero_mul, add_zero]
    rfl
  | succ n ih =>
    rw [nestHom_succ, ih]
    have : dirR 1 f = (Tracer.smooth ℝ).constR v := by
      refine smoothR_ext fun t => ?_
      rw [dirR_one]
      have h : f.1 = fun t => x + t * v := funext hf
      have : HasDerivAt f.1 v t := by
        rw [h]
        simpa using ((hasDerivAt_id t).mul_const v).const_add x
      exact this.deriv
    rw [this, (nestHom n).constR]
    rfl

theorem nestHom_zeroC (f : smoothC ℝ) : (nestHom 0).fK f = f.1 0 := rfl

theorem nestHom_succC (n : ℕ) (f : smoothC ℝ) :
    (nestHom (n + 1)).fK f = jet ((nestHom n).fK f) ((nestHom n).fK (dirC 1 f)) := rfl

theorem nestHom_lineC (n : ℕ) (x v : ℂ) (f : smoothC ℝ) (hf : ∀ t : ℝ, f.1 t = x + t * v) : (nestHom n).fK f = nestSeedC x v n := by
  induction n with
  | zero =>
    rw [nestHom_zeroC, hf, Complex.ofReal_zero, zero_mul, add_zero]
    rfl
  | succ n ih =>
    rw [nestHom_succC, ih]
    have : dirC 1 f = (Tracer.smooth ℝ).const v := by
      refine smoothC_ext fun t => ?_
      have h : f.1 = fun t : ℝ => x + t * v := funext hf
      have : HasDerivAt f.1 v t := by
        rw [h]
        simpa using ((Complex.ofRealCLM.hasDerivAt (x := t)).mul_const v).const_add x
      change fderiv ℝ f.1 t 1 = v
      rw [fderiv_apply_one_eq_deriv]
      exact this.deriv
    rw [this, (nestHom n).const]
    rfl

end Verif
