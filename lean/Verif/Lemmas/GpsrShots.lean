import Verif.AbsShots
import Verif.Lemmas.Misc
import Verif.Lemmas.GpsrPlain

/-! # Lemmas about the parameter-shift rule with random estimates: means of the results -/

namespace Verif
set_option autoImplicit false
open NDArray MeasureTheory

variable {Ω : Type} [MeasurableSpace Ω] {μ : Measure Ω}

/-- Whenever `r` returns a value, the random computation `X` returns a random value in relation `R` to it. -/
def Lifts {α β : Type} (R : (Ω → α) → β → Prop) (X : Ω → Py α) (r : Py β) : Prop :=
  ∀ v, r = .ok v → ∃ e : Ω → α, (∀ ω, X ω = .ok (e ω)) ∧ R e v

theorem Lifts.bind {α β γ δ : Type} {R : (Ω → α) → β → Prop} {S : (Ω → γ) → δ → Prop} {X : Ω → Py α} {r : Py β}
    (h : Lifts R X r) {Y : Ω → α → Py γ} {s : β → Py δ}
    (hs : ∀ e v, R e v → Lifts S (fun ω => Y ω (e ω)) (s v)) : Lifts S (fun ω => X ω >>= Y ω) (r >>= s) := by
  intro v hv
  cases hr : r with
  | error e => rw [hr] at hv; cases hv
  | ok b =>
    obtain ⟨e, h1, h2⟩ := h b hr
    rw [hr] at hv
    obtain ⟨e', h3, h4⟩ := hs e b h2 v hv
    refine ⟨e', fun ω => ?_, h4⟩
    show X ω >>= Y ω = _
    rw [h1]; exact h3 ω

/-- A deterministic first step. -/
theorem Lifts.bind_const {α γ δ : Type} {S : (Ω → γ) → δ → Prop} {r : Py α} {Y : Ω → α → Py γ} {s : α → Py δ}
    (hs : ∀ a, Lifts S (fun ω => Y ω a) (s a)) : Lifts S (fun ω => r >>= Y ω) (r >>= s) := by
  intro v hv
  cases r with
  | error e => cases hv
  | ok a => exact hs a v hv

theorem Lifts.pure {α β : Type} {R : (Ω → α) → β → Prop} {e : Ω → α} {v : β} (h : R e v) :
    Lifts R (fun ω => (Pure.pure (e ω) : Py α)) (Pure.pure v) := by
  intro w hw
  cases hw
  exact ⟨e, fun _ => rfl, h⟩

theorem Lifts.ok {α β : Type} {R : (Ω → α) → β → Prop} {e : Ω → α} {v : β} (h : R e v) :
    Lifts R (fun ω => (Except.ok (e ω) : Py α)) (.ok v) := Lifts.pure h

theorem Lifts.error {α β : Type} {R : (Ω → α) → β → Prop} {X : Ω → Py α} {e : Err} : Lifts R X (.error e : Py β) := by
  intro v hv; cases hv

/-- A random list of fixed length whose entries are in relation `R` to those of `vs`. -/
def Entries {α β : Type} (R : (Ω → α) → β → Prop) (E : Ω → List α) (vs : List β) : Prop :=
  ∃ es : List (Ω → α), (∀ ω, E ω = es.map fun e => e ω) ∧ List.Forall₂ R es vs

theorem Lifts.mapM {α β γ δ : Type} {R : (Ω → γ) → δ → Prop} {f : Ω → α → Py γ} {g : β → Py δ} {l : List α} {l' : List β}
    (h : List.Forall₂ (fun a b => Lifts R (fun ω => f ω a) (g b)) l l') :
    Lifts (Entries R) (fun ω => l.mapM (f ω)) (l'.mapM g) := by
  induction h with
  | nil =>
    intro v hv
    cases hv
    exact ⟨fun _ => [], fun _ => rfl, [], fun _ => rfl, .nil⟩
  | cons h1 _ ih =>
    simp only [List.mapM_cons]
    refine h1.bind fun e v he => ih.bind fun E vs hE => Lifts.pure ?_
    obtain ⟨es, hes, hf⟩ := hE
    exact ⟨e :: es, fun ω => by simp only [hes, List.map_cons], .cons he hf⟩

/-! ## Means -/

theorem Unbiased.zipWith {e f : Ω → List ℝ} {v w : List ℝ} (he : Unbiased μ e v) (hf : Unbiased μ f w)
    {φ : ℝ → ℝ → ℝ} {a b : ℝ} (hφ : ∀ x y, φ x y = a * x + b * y) :
    Unbiased μ (fun ω => List.zipWith φ (e ω) (f ω)) (List.zipWith φ v w) := by
  refine ⟨fun ω => by simp [he.1 ω, hf.1 ω], fun i => ?_⟩
  by_cases hi : i < v.length ∧ i < w.length
  · have h1 : ∀ ω, (List.zipWith φ (e ω) (f ω)).getD i 0 = a * (e ω).getD i 0 + b * (f ω).getD i 0 := by
      intro ω
      have h1 : i < (e ω).length := by rw [he.1]; exact hi.1
      have h2 : i < (f ω).length := by rw [hf.1]; exact hi.2
      rw [← hφ]
      simp [List.getD_eq_getElem?_getD, List.getElem?_zipWith, h1, h2]
    have h2 : (List.zipWith φ v w).getD i 0 = a * v.getD i 0 + b * w.getD i 0 := by
      rw [← hφ]
      simp [List.getD_eq_getElem?_getD, List.getElem?_zipWith, hi.1, hi.2]
    simp only [h1, h2]
    obtain ⟨i1, m1⟩ := he.2 i
    obtain ⟨i2, m2⟩ := hf.2 i
    refine ⟨(i1.const_mul a).add (i2.const_mul b), ?_⟩
    rw [integral_add (i1.const_mul a) (i2.const_mul b), integral_const_mul, integral_const_mul, m1, m2]
  · have h1 : ∀ ω, (List.zipWith φ (e ω) (f ω)).getD i 0 = 0 := by
      intro ω
      rw [List.getD_eq_getElem?_getD, List.getElem?_eq_none, Option.getD_none]
      simp only [List.length_zipWith, he.1 ω, hf.1 ω]
      omega
    have h2 : (List.zipWith φ v w).getD i 0 = 0 := by
      rw [List.getD_eq_getElem?_getD, List.getElem?_eq_none, Option.getD_none]
      simp only [List.length_zipWith]
      omega
    simp only [h1, h2]
    exact ⟨integrable_zero _ _ _, integral_zero _ _⟩

/-- A random number with a given mean. -/
def Mean (μ : Measure Ω) (e : Ω → ℝ) (v : ℝ) : Prop := Integrable e μ ∧ ∫ ω, e ω ∂μ = v

theorem list_sum_getD (l : List ℝ) : l.sum = ∑ i ∈ Finset.range l.length, l.getD i 0 := by
  induction l with
  | nil => rfl
  | cons a l ih =>
    rw [List.length_cons, Finset.sum_range_succ', List.sum_cons, ih, add_comm]
    simp

theorem Mean.sum {ι : Type} {s : Finset ι} {e : ι → Ω → ℝ} {v : ι → ℝ} (h : ∀ i ∈ s, Mean μ (e i) (v i)) :
    Mean μ (fun ω => ∑ i ∈ s, e i ω) (∑ i ∈ s, v i) :=
  ⟨integrable_finset_sum _ fun i hi => (h i hi).1, by
    rw [integral_finset_sum _ fun i hi => (h i hi).1]
    exact Finset.sum_congr rfl fun i hi => (h i hi).2⟩

theorem Unbiased.sum {e : Ω → List ℝ} {v : List ℝ} (h : Unbiased μ e v) : Mean μ (fun ω => (e ω).sum) v.sum := by
  have := Mean.sum (s := Finset.range v.length) fun i _ => h.2 i
  rw [← list_sum_getD] at this
  have he : (fun ω => (e ω).sum) = fun ω => ∑ i ∈ Finset.range v.length, (e ω).getD i 0 := by
    funext ω; rw [list_sum_getD, h.1]
  rwa [he]

theorem Unbiased.of_entries {E : Ω → List ℝ} {vs : List ℝ} (h : Entries (Mean μ) E vs) : Unbiased μ E vs := by
  obtain ⟨es, h1, h2⟩ := h
  refine ⟨fun ω => by rw [h1, List.length_map, h2.length_eq], fun i => ?_⟩
  simp only [h1]
  by_cases hi : i < vs.length
  · have hi' : i < es.length := by rw [h2.length_eq]; exact hi
    have := (List.forall₂_iff_get.1 h2).2 i hi' hi
    simp only [List.getD_eq_getElem?_getD, List.getElem?_map, List.getElem?_eq_getElem hi, List.getElem?_eq_getElem hi',
      Option.map_some, Option.getD_some]
    exact this
  · have hi' : es.length ≤ i := by rw [h2.length_eq]; omega
    simp only [List.getD_eq_getElem?_getD, List.getElem?_map, List.getElem?_eq_none (not_lt.1 hi), List.getElem?_eq_none hi',
      Option.map_none, Option.getD_none]
    exact ⟨integrable_zero _ _ _, integral_zero _ _⟩

theorem Lifts.gpsrRule {up down : Ω → List ℝ} {u d : List ℝ} (hu : Unbiased μ up u) (hd : Unbiased μ down d)
    (gap shift : ℝ) : Lifts (Unbiased μ) (fun ω => Verif.gpsrRule gap shift (up ω) (down ω)) (Verif.gpsrRule gap shift u d) := by
  simp only [Verif.gpsrRule]
  split_ifs with h
  · exact Lifts.error
  · refine Lifts.ok (hu.zipWith hd (a := gap / (4 * Real.sin (gap * shift / 2)))
      (b := -(gap / (4 * Real.sin (gap * shift / 2)))) fun x y => ?_)
    ring

/-- An optional random list. -/
def OptUnbiased (μ : Measure Ω) (e : Ω → Option (List ℝ)) (v : Option (List ℝ)) : Prop :=
  match v with
  | none => ∀ ω, e ω = none
  | some w => ∃ f : Ω → List ℝ, (∀ ω, e ω = some (f ω)) ∧ Unbiased μ f w

theorem OptUnbiased.some {f : Ω → List ℝ} {w : List ℝ} (h : Unbiased μ f w) : OptUnbiased μ (fun ω => .some (f ω)) (.some w) :=
  ⟨f, fun _ => rfl, h⟩

theorem sumVecs_unbiased {es : List (Ω → List ℝ)} {vs : List (List ℝ)} (h : List.Forall₂ (Unbiased μ) es vs) :
    OptUnbiased μ (fun ω => sumVecs (es.map fun e => e ω)) (sumVecs vs) := by
  cases h with
  | nil => exact fun _ => rfl
  | @cons e v es vs h1 h2 =>
    simp only [List.map_cons, sumVecs]
    refine OptUnbiased.some ?_
    clear * - h1 h2
    induction h2 generalizing e v with
    | nil => exact h1
    | cons h3 _ ih =>
      simp only [List.map_cons, List.foldl_cons]
      exact ih (h1.zipWith h3 (a := 1) (b := 1) fun x y => by ring)

theorem Lifts.sumVecs {E : Ω → List (List ℝ)} {vs : List (List ℝ)} (h : Entries (Unbiased μ) E vs) :
    OptUnbiased μ (fun ω => Verif.sumVecs (E ω)) (Verif.sumVecs vs) := by
  obtain ⟨es, h1, h2⟩ := h
  have := sumVecs_unbiased h2
  simpa only [h1] using this

theorem Lifts.stackSum {E : Ω → List (Option (List ℝ))} {vs : List (Option (List ℝ))} (h : Entries (OptUnbiased μ) E vs) :
    Lifts (Unbiased μ) (fun ω => Verif.stackSum (E ω)) (Verif.stackSum vs) := by
  obtain ⟨es, h1, h2⟩ := h
  intro w hw
  have hne : vs ≠ [] := by
    rintro rfl
    rw [Verif.stackSum, if_pos rfl] at hw; cases hw
  have hm : Lifts (Entries (Mean μ)) (fun ω => es.mapM fun e => match e ω with
      | .some v => Except.ok (ε := Err) v.sum
      | none => .error .valueError) (vs.mapM fun r => match r with
      | .some v => Except.ok (ε := Err) v.sum
      | none => .error .valueError) := by
    refine Lifts.mapM (h2.imp fun e v hv => ?_)
    cases v with
    | none => exact Lifts.error
    | some v =>
      obtain ⟨f, hf, hu⟩ := hv
      simp only [hf]
      exact Lifts.ok hu.sum
  rw [Verif.stackSum, if_neg hne] at hw
  obtain ⟨e, h3, h4⟩ := hm w hw
  refine ⟨e, fun ω => ?_, Unbiased.of_entries h4⟩
  rw [← h3]
  show Verif.stackSum (E ω) = _
  rw [h1, Verif.stackSum, if_neg, List.mapM_map]
  · rfl
  · intro hc
    have := congrArg List.length hc
    rw [List.length_map, h2.length_eq] at this
    exact hne (List.length_eq_zero_iff.1 this)

theorem contract_unbiased {E : Ω → List (List ℝ)} {vs : List (List ℝ)} (h : Entries (Unbiased μ) E vs) (m : ℕ) (ts : List ℝ) :
    Unbiased μ (fun ω => contract m (E ω) ts) (contract m vs ts) := by
  obtain ⟨es, h1, h2⟩ := h
  have key : ∀ i : ℕ, Mean μ (fun ω => (List.zipWith (fun g t => List.getD g i 0 * t) (E ω) ts).sum)
      (List.zipWith (fun g t => List.getD g i 0 * t) vs ts).sum := by
    intro i
    simp only [h1]
    clear h1
    induction h2 generalizing ts with
    | nil => simpa [Mean] using integrable_zero Ω ℝ μ
    | @cons e v es vs h3 _ ih =>
      cases ts with
      | nil => simpa [Mean] using integrable_zero Ω ℝ μ
      | cons t ts =>
        simp only [List.map_cons, List.zipWith_cons_cons, List.sum_cons]
        obtain ⟨i1, m1⟩ := h3.2 i
        obtain ⟨i2, m2⟩ := ih ts
        exact ⟨(i1.mul_const t).add i2, by rw [integral_add (i1.mul_const t) i2, integral_mul_const, m1, m2]⟩
  refine Unbiased.of_entries ⟨List.ofFn fun i : Fin m => fun ω =>
    (List.zipWith (fun g t => List.getD g i 0 * t) (E ω) ts).sum, fun ω => ?_, ?_⟩
  · show contract m (E ω) ts = _
    rw [contract, List.map_ofFn]; rfl
  · rw [contract]
    exact List.forall₂_iff_get.2 ⟨by simp, fun i _ _ => by simpa using key i⟩

/-! ## The gradients -/

section
variable {κ : Type} {eigh : Eigh} {split : κ → ℕ → ℕ → κ} {F : Ω → κ → GateArg → Values → Py (List ℝ)}
  {G : GateArg → Values → Py (List ℝ)}

theorem splitKeys_length (split : κ → ℕ → ℕ → κ) (key : κ) (m : ℕ) : (splitKeys split key m).length = m := by
  simp [splitKeys]

theorem forall₂_zip_left {α β : Type} {P : α × β → α → Prop} {l : List α} {l' : List β} (hl : l'.length = l.length)
    (h : ∀ a b, a ∈ l → P (a, b) a) : List.Forall₂ P (l.zip l') l := by
  refine List.forall₂_iff_get.2 ⟨by simp [hl], fun i h1 h2 => ?_⟩
  simp only [List.get_eq_getElem, List.getElem_zip]
  exact h _ _ (List.getElem_mem _)

theorem shotsComponent_lifts (hF : ∀ key g v, Lifts (Unbiased μ) (fun ω => F ω key g v) (G g v)) (gates : GateArg)
    (values : Values) (name : String) (key : κ) :
    Lifts (Unbiased μ) (fun ω => shotsComponent split (F ω) gates values name key) (jvpComponent G gates values name) := by
  simp only [shotsComponent, jvpComponent]
  refine Lifts.bind_const fun v1 => (hF _ _ _).bind fun _ _ hu => Lifts.bind_const fun v2 => (hF _ _ _).bind fun _ _ hd => ?_
  exact Lifts.gpsrRule hu hd _ _

theorem shotsShiftJvp_lifts (hF : ∀ key g v, Lifts (Unbiased μ) (fun ω => F ω key g v) (G g v)) (gates : List Gate)
    (values : Values) (ind : ℕ) (key : κ) :
    Lifts (Unbiased μ) (fun ω => shotsShiftJvp eigh split (F ω) gates values ind key) (shiftJvp eigh G gates values ind) := by
  simp only [shotsShiftJvp, shiftJvp]
  cases gates[ind]? with
  | none => exact Lifts.error
  | some g =>
    refine Lifts.bind_const fun gap => Lifts.bind_const fun v1 => (hF _ _ _).bind fun _ _ hu => Lifts.bind_const fun v2 =>
      (hF _ _ _).bind fun _ _ hd => ?_
    exact Lifts.gpsrRule hu hd _ _

theorem shotsRepeatedJvp_lifts (hF : ∀ key g v, Lifts (Unbiased μ) (fun ω => F ω key g v) (G g v)) (gates : List Gate)
    (values : Values) (name : String) (key : κ) :
    Lifts (OptUnbiased μ) (fun ω => shotsRepeatedJvp eigh split (F ω) gates values name key)
      (repeatedJvp eigh G gates values name) := by
  simp only [shotsRepeatedJvp, repeatedJvp]
  refine Lifts.bind (Lifts.mapM (forall₂_zip_left (splitKeys_length _ _ _) fun k key' _ => ?_)) fun E vs hE =>
    Lifts.pure (Lifts.sumVecs hE)
  exact shotsShiftJvp_lifts hF gates values k key'

/-- The backward pass with estimates whose means are the values of `G` has the means of the backward pass with `G`. -/
theorem shotsBwd_lifts (hF : ∀ key g v, Lifts (Unbiased μ) (fun ω => F ω key g v) (G g v)) (gates : GateArg)
    (values : Values) (key : κ) :
    Lifts (Unbiased μ) (fun ω => shotsBwd eigh split (F ω) gates values key) (gpsrBwd eigh G gates values) := by
  have hplain : Lifts (Entries (OptUnbiased μ))
      (fun ω => (values.keys.zip (splitKeys split key values.keys.length)).mapM fun e => do
        pure (some (← shotsComponent split (F ω) gates values e.1 e.2)))
      (values.keys.mapM fun key => do pure (some (← jvpComponent G gates values key))) := by
    refine Lifts.mapM (forall₂_zip_left (splitKeys_length _ _ _) fun p key' _ => ?_)
    exact (shotsComponent_lifts hF gates values p key').bind fun _ _ h => Lifts.pure (OptUnbiased.some h)
  simp only [shotsBwd, gpsrBwd]
  have hplain' := hplain.bind (Y := fun _ => Verif.stackSum) (s := Verif.stackSum) fun E vs hE => Lifts.stackSum hE
  cases gates with
  | single g => exact hplain'
  | list gs =>
    simp only
    split_ifs with h1
    · refine Lifts.bind_const fun b => ?_
      cases b with
      | false => exact Lifts.bind_const fun _ => hplain'
      | true =>
        simp only [if_true]
        refine Lifts.bind (R := Entries (OptUnbiased μ)) ?_ fun E vs hE => Lifts.stackSum hE
        refine Lifts.mapM (forall₂_zip_left (splitKeys_length _ _ _) fun p key' _ => ?_)
        exact shotsRepeatedJvp_lifts hF gs values p key'
    · exact hplain'

theorem shotsScan_lifts (hF : ∀ key g v, Lifts (Unbiased μ) (fun ω => F ω key g v) (G g v)) (gates : GateArg)
    (keys : List String) (xs gaps : List ℝ) (key : κ) :
    Lifts (Entries (Unbiased μ)) (fun ω => shotsScan split (F ω) gates keys xs gaps key) (jvpScan G gates keys xs gaps) := by
  simp only [shotsScan, jvpScan]
  refine Lifts.mapM (forall₂_zip_left (by rw [splitKeys_length, List.length_range]) fun i key' _ => ?_)
  simp only [shotsRow, jvpRow]
  refine (hF _ _ _).bind fun _ _ hu => (hF _ _ _).bind fun _ _ hd => ?_
  exact Lifts.gpsrRule hu hd _ _

/-- Two random lists. -/
def PairUnbiased (μ : Measure Ω) (e : Ω → List ℝ × List ℝ) (v : List ℝ × List ℝ) : Prop :=
  Unbiased μ (fun ω => (e ω).1) v.1 ∧ Unbiased μ (fun ω => (e ω).2) v.2

theorem regroup_entries {α : Type} {E : Ω → List (List ℝ)} {vs : List (List ℝ)} (h : Entries (Unbiased μ) E vs)
    (l : List α) (q : α → Bool) :
    Entries (Unbiased μ) (fun ω => ((l.zip (E ω)).filter fun e => q e.1).map Prod.snd)
      (((l.zip vs).filter fun e => q e.1).map Prod.snd) := by
  obtain ⟨es, h1, h2⟩ := h
  refine ⟨((l.zip es).filter fun e => q e.1).map Prod.snd, fun ω => ?_, ?_⟩
  · simp only [h1]
    clear h1 h2
    induction l generalizing es with
    | nil => rfl
    | cons a l ih =>
      cases es with
      | nil => rfl
      | cons e es =>
        by_cases hq : q a
        · simp [List.filter_cons, hq, ih es]
        · simp [List.filter_cons, hq, ih es]
  · clear h1
    induction h2 generalizing l with
    | nil => simp
    | cons h3 _ ih =>
      cases l with
      | nil => simp
      | cons a l =>
        by_cases hq : q a
        · simp only [List.zip_cons_cons, List.filter_cons, hq, if_true, List.map_cons]
          exact .cons h3 (ih l)
        · simp only [List.zip_cons_cons, List.filter_cons, hq, Bool.false_eq_true, if_false]
          exact ih l

/-- The same for the JVP. -/
theorem shotsJvp_lifts (hF : ∀ key g v, Lifts (Unbiased μ) (fun ω => F ω key g v) (G g v)) (fresh : ℕ → String)
    (gates : GateArg) (values : Values) (ts : List ℝ) (key : κ) :
    Lifts (PairUnbiased μ) (fun ω => shotsJvp eigh fresh split (F ω) gates values ts key)
      (gpsrJvp eigh fresh G gates values ts) := by
  simp only [shotsJvp, gpsrJvp]
  refine (hF _ _ _).bind fun fwd v hv => ?_
  have hplain : Lifts (PairUnbiased μ) (fun ω => do
        let xs ← stackValues values
        let grads ← shotsScan split (F ω) gates values.keys xs (values.keys.map fun _ => initialGap) key
        pure (fwd ω, contract (fwd ω).length grads ts))
      (do
        let xs ← stackValues values
        let grads ← jvpScan G gates values.keys xs (values.keys.map fun _ => initialGap)
        pure (v, contract v.length grads ts)) := by
    refine Lifts.bind_const fun xs => (shotsScan_lifts hF _ _ _ _ _).bind fun E vs hE => Lifts.pure ⟨hv, ?_⟩
    simp only [hv.1]
    exact contract_unbiased hE _ _
  cases gates with
  | single g => exact hplain
  | list gs =>
    simp only
    split_ifs with h1
    · refine Lifts.bind_const fun b => ?_
      cases b with
      | false => exact Lifts.bind_const fun _ => hplain
      | true =>
        simp only [if_true]
        refine Lifts.bind_const fun vals => Lifts.bind_const fun gaps => Lifts.bind_const fun xs =>
          (shotsScan_lifts hF _ _ _ _ _).bind fun E vs hE => ?_
        refine Lifts.bind (R := Entries (Unbiased μ)) (Lifts.mapM (List.forall₂_same.2 fun p _ => ?_)) fun E' vs' hE' =>
          Lifts.pure ⟨hv, ?_⟩
        · have := Lifts.sumVecs (regroup_entries hE
            (values.keys.flatMap fun p => (paramIndices gs p).map fun i => (i, p)) fun e => decide (e.2 = p))
          revert this
          generalize Verif.sumVecs (((values.keys.flatMap fun p => (paramIndices gs p).map fun i => (i, p)).zip vs).filter
            (fun e => decide (e.1.2 = p)) |>.map Prod.snd) = z
          intro this
          cases z with
          | none => exact Lifts.error
          | some w =>
            obtain ⟨f, hf, hu⟩ := this
            simp only [hf]
            exact Lifts.ok hu
        · simp only [hv.1]
          exact contract_unbiased hE' _ _
    · exact hplain

end

end Verif
