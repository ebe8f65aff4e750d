import Verif.Model.Batch
import Verif.Lemmas.TraceBase
import Verif.Lemmas.TraceSmooth

/-!
# Maps between batches and numbers
-/

set_option autoImplicit false

namespace Verif
open NDArray
open scoped ContDiff

/-- `expm` of square matrices returns square matrices, everything else is refused. -/
structure Tracer.Square (A : Tracer) : Prop where
  square : ∀ (d : ℕ) (dat : List A.K), ∃ g, A.expm ⟨[d, d], dat⟩ = .ok (ofFn [d, d] g)
  other : ∀ a : NDArray A.K, (∀ d, a.shape ≠ [d, d]) → A.expm a = .error .valueError

theorem ofFn_getSelf {K : Type} [Zero K] (s : List ℕ) (g : List ℕ → K) : ofFn s (fun idx => (ofFn s g).get idx) = ofFn s g :=
  ofFn_congr fun _ h => get_ofFn h

theorem other_match {α : Type} {sh : List ℕ} (h : ∀ d, sh ≠ [d, d]) (f : ℕ → Py α) :
    (match sh with
    | [d, d'] => if d = d' then f d else .error .valueError
    | _ => .error .valueError) = .error .valueError := by
  rcases sh with _ | ⟨d, _ | ⟨d', _ | ⟨_, _⟩⟩⟩
  · rfl
  · rfl
  · have : d ≠ d' := fun e => h d (by rw [e])
    simp only [if_neg this]
  · rfl

theorem base_square : Tracer.base.Square where
  square d dat := ⟨_, by simp only [Tracer.base, Verif.expm, if_true]; rfl⟩
  other a h := by
    obtain ⟨sh, dat⟩ := a
    exact other_match h _

theorem dual_square {A : Tracer} (hA : A.Square) : A.dual.Square where
  square d dat := by
    obtain ⟨g, hg⟩ := hA.square (d + d) (tangentBlock (⟨[d, d], dat⟩ : NDArray (DualNumber A.K)) d).data
    have hg' : A.expm (tangentBlock (⟨[d, d], dat⟩ : NDArray (DualNumber A.K)) d) = .ok (ofFn [d + d, d + d] g) := hg
    simp only [if_true, hg']
    exact ⟨_, rfl⟩
  other a h := by
    obtain ⟨sh, dat⟩ := a
    exact other_match h _

theorem batch_square (A : Tracer) (ι : Type) : (A.batch ι).Square where
  square d dat := ⟨_, by simp only [if_true]; rfl⟩
  other a h := by
    obtain ⟨sh, dat⟩ := a
    exact other_match h _

theorem smooth_square (E : Type) [NormedAddCommGroup E] [NormedSpace ℝ E] : (Tracer.smooth E).Square where
  square d dat := ⟨_, by simp only [if_true]; rfl⟩
  other a h := by
    obtain ⟨sh, dat⟩ := a
    exact other_match h _

theorem isSquare_or (sh : List ℕ) : (∃ d, sh = [d, d]) ∨ ∀ d, sh ≠ [d, d] := by
  by_cases h : ∃ d, sh = [d, d]
  · exact .inl h
  · exact .inr fun d e => h ⟨d, e⟩

/-- The numbers at position `b`. -/
def projHom {A : Tracer} (hA : A.Square) {ι : Type} (b : ι) : (A.batch ι).Hom A where
  fR := Pi.evalRingHom (fun _ => A.R) b
  fK := Pi.evalRingHom (fun _ => A.K) b
  constR _ := rfl
  const _ := rfl
  star _ := rfl
  real _ := rfl
  re _ := rfl
  cos _ := rfl
  sin _ := rfl
  exp _ := rfl
  expm a := by
    obtain ⟨sh, dat⟩ := a
    rcases isSquare_or sh with ⟨d, rfl⟩ | h
    · obtain ⟨g, hg⟩ := hA.square d (dat.map fun z => z b)
      have hg' : A.expm ((⟨[d, d], dat⟩ : NDArray (ι → A.K)).mapArr fun z => z b) = .ok (ofFn [d, d] g) := hg
      refine hg'.trans ?_
      simp only [if_true, Except.map, mapArr_ofFn']
      refine congrArg Except.ok ?_
      rw [← ofFn_getSelf]
      congr 1
      funext idx
      simp only [Pi.evalRingHom_apply, hg']
    · rw [hA.other _ h]
      rw [(batch_square A ι).other _ h]
      rfl

/-- A map for every position. -/
def piHom {A B : Tracer} (hA : A.Square) {ι : Type} (φ : ι → A.Hom B) : A.Hom (B.batch ι) where
  fR := Pi.ringHom fun b => (φ b).fR
  fK := Pi.ringHom fun b => (φ b).fK
  constR c := funext fun b => (φ b).constR c
  const c := funext fun b => (φ b).const c
  star z := funext fun b => (φ b).star z
  real x := funext fun b => (φ b).real x
  re z := funext fun b => (φ b).re z
  cos x := funext fun b => (φ b).cos x
  sin x := funext fun b => (φ b).sin x
  exp z := funext fun b => (φ b).exp z
  expm a := by
    obtain ⟨sh, dat⟩ := a
    rcases isSquare_or sh with ⟨d, rfl⟩ | h
    · obtain ⟨g, hg⟩ := hA.square d dat
      rw [hg]
      have h1 : ∀ b, B.expm ((⟨[d, d], dat⟩ : NDArray A.K).mapArr (φ b).fK) = .ok ((ofFn [d, d] g).mapArr (φ b).fK) := by
        intro b
        rw [(φ b).expm, hg]; rfl
      have h2 : ∀ b, ((⟨[d, d], dat⟩ : NDArray A.K).mapArr (Pi.ringHom fun b => (φ b).fK)).mapArr (fun z : ι → B.K => z b)
          = (⟨[d, d], dat⟩ : NDArray A.K).mapArr (φ b).fK := fun b => mapArr_comp _ _ _
      simp only [mapArr_shape, if_true, h2, h1, Except.map]
      refine congrArg Except.ok ?_
      rw [mapArr_ofFn']
      refine ofFn_congr fun idx hi => funext fun b => ?_
      rw [mapArr_ofFn', get_ofFn hi]; rfl
    · rw [hA.other _ h, (batch_square B ι).other _ h]; rfl

/-- A map at every position. -/
noncomputable def batchHom {A B : Tracer} (hA : A.Square) (φ : A.Hom B) (ι : Type) : (A.batch ι).Hom (B.batch ι) :=
  piHom (batch_square A ι) fun b => φ.comp (projHom hA b)

section pull
variable {E F : Type} [NormedAddCommGroup E] [NormedSpace ℝ E] [NormedAddCommGroup F] [NormedSpace ℝ F]

/-- Composition with an analytic map. -/
noncomputable def pullHom (g : E → F) (hg : ContDiff ℝ ω g) : (Tracer.smooth F).Hom (Tracer.smooth E) where
  fR :=
    { toFun := fun f => smoothRMk (fun x => f.1 (g x)) ((smoothR_cd f).comp hg)
      map_one' := rfl
      map_mul' := fun _ _ => rfl
      map_zero' := rfl
      map_add' := fun _ _ => rfl }
  fK :=
    { toFun := fun f => smoothCMk (fun x => f.1 (g x)) ((smoothC_cd f).comp hg)
      map_one' := rfl
      map_mul' := fun _ _ => rfl
      map_zero' := rfl
      map_add' := fun _ _ => rfl }
  constR _ := rfl
  const _ := rfl
  star _ := rfl
  real _ := rfl
  re _ := rfl
  cos _ := rfl
  sin _ := rfl
  exp _ := rfl
  expm a := by
    obtain ⟨sh, dat⟩ := a
    rcases isSquare_or sh with ⟨d, rfl⟩ | h
    · simp only [mapArr_shape, if_true, Except.map, mapArr_ofFn']
      refine congrArg Except.ok (ofFn_congr fun idx hi => smoothC_ext fun x => ?_)
      by_cases hd : idx.getD 0 0 < d ∧ idx.getD 1 0 < d
      · rw [expEntry_apply _ hd.1 hd.2]
        change _ = (expEntry _ d (idx.getD 0 0) (idx.getD 1 0)).1 (g x)
        rw [expEntry_apply _ hd.1 hd.2]
        have hM : ∀ M N : Matrix (Fin d) (Fin d) ℂ, M = N → ∀ i j, NormedSpace.exp M i j = NormedSpace.exp N i j := by
          rintro M _ rfl i j; rfl
        refine hM _ _ ?_ _ _
        ext i j
        simp only [matAt, Matrix.of_apply, get_mapArr]
        rfl
      · simp only [expEntry, dif_neg hd]; rfl
    · rw [(smooth_square F).other _ h, (smooth_square E).other _ h]; rfl

end pull
end Verif
