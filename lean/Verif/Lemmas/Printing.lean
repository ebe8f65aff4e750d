import Verif.Model.Printing
import Verif.AbsPrinting

/-! # Reading back the texts of operations -/

set_option autoImplicit false

namespace Verif

/-- The text goes on with one of the characters that end an item. -/
def Ends (s : List Char) : Prop := ∃ c s', s = c :: s' ∧ (c = ',' ∨ c = ')' ∨ c = ']')

/-- A text without the characters that end an item. -/
def PlainText (x : List Char) : Prop := x ≠ [] ∧ ∀ c ∈ x, c ≠ ',' ∧ c ≠ ')' ∧ c ≠ ']' ∧ c ≠ '('

/-- Texts that can be cut off the text that follows. -/
structure Readable (T : List Char → Prop) : Prop where
  head : ∀ x, T x → ∃ c x', x = c :: x' ∧ c ≠ ',' ∧ c ≠ ')' ∧ c ≠ ']'
  cut : ∀ x y s t, T x → T y → Ends s → Ends t → x ++ s = y ++ t → x = y ∧ s = t

theorem Ends.comma (s : List Char) : Ends (',' :: s) := ⟨_, _, rfl, .inl rfl⟩
theorem Ends.paren (s : List Char) : Ends (')' :: s) := ⟨_, _, rfl, .inr (.inl rfl)⟩
theorem Ends.bracket (s : List Char) : Ends (']' :: s) := ⟨_, _, rfl, .inr (.inr rfl)⟩

theorem cut_at {c : Char} : ∀ {x y s t : List Char}, c ∉ x → c ∉ y → x ++ c :: s = y ++ c :: t → x = y ∧ s = t
  | [], [], _, _, _, _, h => ⟨rfl, (List.cons.inj h).2⟩
  | [], d :: y, _, _, _, hy, h => absurd (List.cons.inj h).1 fun e => hy (e ▸ List.mem_cons_self)
  | d :: x, [], _, _, hx, _, h => absurd (List.cons.inj h).1 fun e => hx (e ▸ List.mem_cons_self)
  | d :: x, e :: y, _, _, hx, hy, h => by
    have h' := List.cons.inj h
    obtain ⟨h1, h2⟩ := cut_at (fun m => hx (List.mem_cons_of_mem _ m)) (fun m => hy (List.mem_cons_of_mem _ m)) h'.2
    exact ⟨by rw [h'.1, h1], h2⟩

theorem cut_plain : ∀ {x y s t : List Char}, (∀ c ∈ x, c ≠ ',' ∧ c ≠ ')' ∧ c ≠ ']' ∧ c ≠ '(') →
    (∀ c ∈ y, c ≠ ',' ∧ c ≠ ')' ∧ c ≠ ']' ∧ c ≠ '(') → Ends s → Ends t → x ++ s = y ++ t → x = y ∧ s = t
  | [], [], _, _, _, _, _, _, h => ⟨rfl, h⟩
  | [], d :: y, _, _, _, hy, hs, _, h => by
    obtain ⟨c, s', rfl, hc⟩ := hs
    have := (List.cons.inj h).1
    have hd := hy d List.mem_cons_self
    subst this
    rcases hc with rfl | rfl | rfl
    · exact absurd rfl hd.1
    · exact absurd rfl hd.2.1
    · exact absurd rfl hd.2.2.1
  | d :: x, [], _, _, hx, _, _, ht, h => by
    obtain ⟨c, s', rfl, hc⟩ := ht
    have := (List.cons.inj h).1
    have hd := hx d List.mem_cons_self
    subst this
    rcases hc with rfl | rfl | rfl
    · exact absurd rfl hd.1
    · exact absurd rfl hd.2.1
    · exact absurd rfl hd.2.2.1
  | d :: x, e :: y, _, _, hx, hy, hs, ht, h => by
    have h' := List.cons.inj h
    obtain ⟨h1, h2⟩ := cut_plain (fun c m => hx c (List.mem_cons_of_mem _ m)) (fun c m => hy c (List.mem_cons_of_mem _ m)) hs ht h'.2
    exact ⟨by rw [h'.1, h1], h2⟩

theorem readable_plain : Readable PlainText where
  head x hx := by
    rcases x with _ | ⟨c, x⟩
    · exact absurd rfl hx.1
    · have := hx.2 c List.mem_cons_self
      exact ⟨c, x, rfl, this.1, this.2.1, this.2.2.1⟩
  cut _ _ _ _ hx hy hs ht h := cut_plain hx.2 hy.2 hs ht h

theorem intercalate_cons (sep x : List Char) : ∀ xs : List (List Char),
    sep.intercalate (x :: xs) = x ++ (xs.map (sep ++ ·)).flatten
  | [] => by simp [List.intercalate]
  | y :: ys => by
    have := intercalate_cons sep y ys
    simp only [List.intercalate, List.intersperse, List.flatten_cons, List.map_cons] at this ⊢
    rw [this]; simp

theorem cut_tail {T : List Char → Prop} (hT : Readable T) {c : Char} (hc : c = ')' ∨ c = ']') {s t : List Char} :
    ∀ {xs ys : List (List Char)}, (∀ x ∈ xs, T x) → (∀ y ∈ ys, T y) →
      (xs.map (", ".toList ++ ·)).flatten ++ c :: s = (ys.map (", ".toList ++ ·)).flatten ++ c :: t → xs = ys ∧ s = t
  | [], [], _, _, h => ⟨rfl, (List.cons.inj h).2⟩
  | [], _ :: _, _, _, h => by
    have := (List.cons.inj h).1
    rcases hc with rfl | rfl <;> exact absurd this (by decide)
  | _ :: _, [], _, _, h => by
    have := (List.cons.inj h).1
    rcases hc with rfl | rfl <;> exact absurd this (by decide)
  | x :: xs, y :: ys, hx, hy, h => by
    simp only [List.map_cons, List.flatten_cons, List.append_assoc] at h
    have h := List.append_cancel_left h
    have ends : ∀ (zs : List (List Char)) (u : List Char), Ends ((zs.map (", ".toList ++ ·)).flatten ++ c :: u) := by
      intro zs u
      cases zs with
      | nil => rcases hc with rfl | rfl; exacts [.paren _, .bracket _]
      | cons z zs => exact .comma _
    obtain ⟨h1, h2⟩ := hT.cut _ _ _ _ (hx x List.mem_cons_self) (hy y List.mem_cons_self) (ends _ _) (ends _ _) h
    obtain ⟨h3, h4⟩ := cut_tail hT hc (fun z m => hx z (List.mem_cons_of_mem _ m)) (fun z m => hy z (List.mem_cons_of_mem _ m)) h2
    exact ⟨by rw [h1, h3], h4⟩

/-- The text of a tuple can be cut off whatever follows. -/
theorem cut_tuple {T : List Char → Prop} (hT : Readable T) {xs ys : List (List Char)} {s t : List Char} (hx : ∀ x ∈ xs, T x)
    (hy : ∀ y ∈ ys, T y) (h : tupleText xs ++ s = tupleText ys ++ t) : xs = ys ∧ s = t := by
  have two : ∀ (a b : List Char) (r : List (List Char)) (u : List Char),
      tupleText (a :: b :: r) ++ u = '(' :: (a ++ (',' :: ' ' :: b ++ (r.map (", ".toList ++ ·)).flatten ++ ')' :: u)) := by
    intro a b r u
    rw [tupleText, intercalate_cons]
    · simp
    · simp
    · intro x hx; simp at hx
  have one : ∀ (a u : List Char), tupleText [a] ++ u = '(' :: (a ++ (',' :: ')' :: u)) := by
    intro a u; simp [tupleText]
  have zero : ∀ u : List Char, tupleText [] ++ u = '(' :: ')' :: u := fun _ => rfl
  match xs, ys, hx, hy, h with
  | [], [], _, _, h =>
    rw [zero, zero] at h
    exact ⟨rfl, (List.cons.inj (List.cons.inj h).2).2⟩
  | [], [y], _, hy, h =>
    obtain ⟨c, y', rfl, -, hc, -⟩ := hT.head y (hy y List.mem_cons_self)
    rw [zero, one] at h
    exact absurd (List.cons.inj (List.cons.inj h).2).1.symm hc
  | [], y :: z :: r, _, hy, h =>
    obtain ⟨c, y', rfl, -, hc, -⟩ := hT.head y (hy y List.mem_cons_self)
    rw [zero, two] at h
    exact absurd (List.cons.inj (List.cons.inj h).2).1.symm hc
  | [y], [], hy, _, h =>
    obtain ⟨c, y', rfl, -, hc, -⟩ := hT.head y (hy y List.mem_cons_self)
    rw [zero, one] at h
    exact absurd (List.cons.inj (List.cons.inj h).2).1 hc
  | y :: z :: r, [], hy, _, h =>
    obtain ⟨c, y', rfl, -, hc, -⟩ := hT.head y (hy y List.mem_cons_self)
    rw [zero, two] at h
    exact absurd (List.cons.inj (List.cons.inj h).2).1 hc
  | [x], [y], hx, hy, h =>
    rw [one, one] at h
    obtain ⟨h1, h2⟩ := hT.cut _ _ _ _ (hx x List.mem_cons_self) (hy y List.mem_cons_self) (.comma _) (.comma _) (List.cons.inj h).2
    exact ⟨by rw [h1], (List.cons.inj (List.cons.inj h2).2).2⟩
  | [x], y :: z :: r, hx, hy, h =>
    rw [one, two] at h
    obtain ⟨h1, h2⟩ := hT.cut _ _ _ _ (hx x List.mem_cons_self) (hy y List.mem_cons_self) (.comma _) (.comma _) (List.cons.inj h).2
    exact absurd (List.cons.inj (List.cons.inj h2).2).1 (by decide)
  | y :: z :: r, [x], hy, hx, h =>
    rw [one, two] at h
    obtain ⟨h1, h2⟩ := hT.cut _ _ _ _ (hy y List.mem_cons_self) (hx x List.mem_cons_self) (.comma _) (.comma _) (List.cons.inj h).2
    exact absurd (List.cons.inj (List.cons.inj h2).2).1 (by decide)
  | x :: x' :: r, y :: y' :: r', hx, hy, h =>
    rw [two, two] at h
    obtain ⟨h1, h2⟩ := hT.cut _ _ _ _ (hx x List.mem_cons_self) (hy y List.mem_cons_self) (.comma _) (.comma _) (List.cons.inj h).2
    have h3 : ((x' :: r).map (", ".toList ++ ·)).flatten ++ ')' :: s = ((y' :: r').map (", ".toList ++ ·)).flatten ++ ')' :: t := by
      simpa using h2
    obtain ⟨h4, h5⟩ := cut_tail hT (.inl rfl) (fun z m => hx z (List.mem_cons_of_mem _ m)) (fun z m => hy z (List.mem_cons_of_mem _ m)) h3
    exact ⟨by rw [h1, h4], h5⟩

theorem tuple_head (xs : List (List Char)) : ∃ x, tupleText xs = '(' :: x := by
  rcases xs with _ | ⟨x, _ | ⟨y, r⟩⟩ <;> exact ⟨_, rfl⟩

theorem readable_tuple {T : List Char → Prop} (hT : Readable T) : Readable fun x => ∃ xs, x = tupleText xs ∧ ∀ y ∈ xs, T y where
  head := by
    rintro x ⟨xs, rfl, -⟩
    obtain ⟨y, hy⟩ := tuple_head xs
    exact ⟨_, y, hy, by decide, by decide, by decide⟩
  cut := by
    rintro x y s t ⟨xs, rfl, hx⟩ ⟨ys, rfl, hy⟩ - - h
    obtain ⟨rfl, h'⟩ := cut_tuple hT hx hy h
    exact ⟨rfl, h'⟩

theorem cut_tuple_one {T : List Char → Prop} (hT : Readable T) {x y s t : List Char} (hx : T x) (hy : T y)
    (h : tupleText [x] ++ s = tupleText [y] ++ t) : x = y ∧ s = t := by
  obtain ⟨h1, h2⟩ := cut_tuple hT (fun z hz => by rw [List.mem_singleton.1 hz]; exact hx)
    (fun z hz => by rw [List.mem_singleton.1 hz]; exact hy) h
  exact ⟨(List.cons.inj h1).1, h2⟩

theorem tuple_inj {T : List Char → Prop} (hT : Readable T) {xs ys : List (List Char)} (hx : ∀ x ∈ xs, T x)
    (hy : ∀ y ∈ ys, T y) (h : tupleText xs = tupleText ys) : xs = ys :=
  (cut_tuple (s := []) (t := []) hT hx hy (by rw [h])).1

/-! ## Numbers, qubits and noise -/

theorem natText_inj : Function.Injective natText := fun m n h => by
  have := congrArg (Nat.ofDigitChars 10 · 0) h
  simpa [natText, Nat.ofDigitChars_ten_toDigits] using this

theorem plain_of_digit {c : Char} (h : c.isDigit) : c ≠ ',' ∧ c ≠ ')' ∧ c ≠ ']' ∧ c ≠ '(' := by
  refine ⟨?_, ?_, ?_, ?_⟩ <;> rintro rfl <;> revert h <;> decide

theorem natText_plain (n : ℕ) : PlainText (natText n) :=
  ⟨Nat.toDigits_ne_nil, fun _ hc => plain_of_digit (Nat.isDigit_of_mem_toDigits (by norm_num) (by norm_num) hc)⟩

variable {D : Set ℝ} {fl : ℝ → List Char} {np : ℕ → List Char}

theorem FloatText.plain (hf : FloatText D fl) (x : ℝ) : PlainText (fl x) := by
  refine ⟨hf.ne x, fun c hc => ?_⟩
  have := hf.chars x c hc
  refine ⟨?_, ?_, ?_, ?_⟩ <;> rintro rfl <;> revert this <;> decide

theorem cut_target {ts us : List ℕ} {s t : List Char} (h : targetText ts ++ s = targetText us ++ t) : ts = us ∧ s = t := by
  have items : ∀ ts : List ℕ, ∀ y ∈ ts.map natText, PlainText y := by
    intro ts y hy
    obtain ⟨n, -, rfl⟩ := List.mem_map.1 hy
    exact natText_plain n
  obtain ⟨h1, h2⟩ := cut_tuple_one (readable_tuple readable_plain) ⟨_, rfl, items ts⟩ ⟨_, rfl, items us⟩ h
  exact ⟨natText_inj.list_map (tuple_inj readable_plain (items ts) (items us) h1), h2⟩

theorem CIdx.text_plain {c : CIdx} (hc : ∀ q, c ≠ .npInt q) : PlainText (c.text np) := by
  cases c with
  | none => exact (⟨by decide, by decide⟩ : PlainText "None".toList)
  | int q => exact natText_plain q
  | npInt q => exact absurd rfl (hc q)

theorem CIdx.text_inj {c d : CIdx} (hc : ∀ q, c ≠ .npInt q) (hd : ∀ q, d ≠ .npInt q) (h : c.text np = d.text np) : c = d := by
  have none_ne : ∀ q : ℕ, natText q ≠ "None".toList := fun q e => by
    have : 'N' ∈ natText q := by rw [e]; decide
    have := Nat.isDigit_of_mem_toDigits (b := 10) (by norm_num) (by norm_num) this
    revert this; decide
  cases c with
  | none =>
    cases d with
    | none => rfl
    | int q => exact absurd h.symm (none_ne q)
    | npInt q => exact absurd rfl (hd q)
  | int q =>
    cases d with
    | none => exact absurd h (none_ne q)
    | int r => rw [natText_inj h]
    | npInt q => exact absurd rfl (hd q)
  | npInt q => exact absurd rfl (hc q)

theorem map_inj_on {α β : Type} {f : α → β} : ∀ {l l' : List α}, (∀ a ∈ l, ∀ b ∈ l', f a = f b → a = b) → l.map f = l'.map f → l = l'
  | [], [], _, _ => rfl
  | [], _ :: _, _, h => by simp at h
  | _ :: _, [], _, h => by simp at h
  | a :: l, b :: l', hi, h => by
    have h' := List.cons.inj h
    rw [hi a List.mem_cons_self b List.mem_cons_self h'.1,
      map_inj_on (fun x hx y hy => hi x (List.mem_cons_of_mem _ hx) y (List.mem_cons_of_mem _ hy)) h'.2]

/-- No entry of the control is a numpy integer. -/
abbrev CtlPlain (c : Ctl) : Prop := ∀ l, c = some l → ∀ q, CIdx.npInt q ∉ l

theorem cut_ctl {c d : Ctl} (hc : CtlPlain c) (hd : CtlPlain d) {s t : List Char} (h : Ctl.text np c ++ s = Ctl.text np d ++ t) :
    c = d ∧ s = t := by
  have items : ∀ {l : List CIdx}, CtlPlain (some l) → ∀ y ∈ l.map (CIdx.text np), PlainText y := by
    intro l hl y hy
    obtain ⟨e, he, rfl⟩ := List.mem_map.1 hy
    exact CIdx.text_plain fun q hq => hl l rfl q (hq ▸ he)
  match c, d, hc, hd, h with
  | none, none, _, _, h => exact ⟨rfl, List.append_cancel_left h⟩
  | none, some l, _, _, h =>
    obtain ⟨y, hy⟩ := tuple_head (l.map (CIdx.text np))
    rw [Ctl.text, Ctl.text, hy] at h
    simp [tupleText] at h
  | some l, none, _, _, h =>
    obtain ⟨y, hy⟩ := tuple_head (l.map (CIdx.text np))
    rw [Ctl.text, Ctl.text, hy] at h
    simp [tupleText] at h
  | some l, some l', hc, hd, h =>
    obtain ⟨h1, h2⟩ := cut_tuple_one (readable_tuple readable_plain) ⟨_, rfl, items hc⟩ ⟨_, rfl, items hd⟩ h
    have h3 := tuple_inj readable_plain (items hc) (items hd) h1
    refine ⟨?_, h2⟩
    rw [map_inj_on (fun a ha b hb => CIdx.text_inj (fun q hq => hc l rfl q (hq ▸ ha)) (fun q hq => hd l' rfl q (hq ▸ hb))) h3]

theorem cut_prob (hf : FloatText D fl) {p q : ErrProb} {s t : List Char} (hp : ∀ x ∈ p.numbers, x ∈ D)
    (hq : ∀ x ∈ q.numbers, x ∈ D) (hs : Ends s) (ht : Ends t)
    (h : p.text fl ++ s = q.text fl ++ t) : p = q ∧ s = t := by
  have mixed : ∀ (x : ℝ) (ps : List ℝ) (u v : List Char), fl x ++ u ≠ tupleText (ps.map fl) ++ v := by
    intro x ps u v e
    obtain ⟨y, hy⟩ := tuple_head (ps.map fl)
    obtain ⟨h1, h2⟩ := hf.plain x
    rcases hx : fl x with _ | ⟨c, r⟩
    · exact h1 hx
    · rw [hx, hy] at e
      exact (h2 c (hx ▸ List.mem_cons_self)).2.2.2 (List.cons.inj e).1
  have items : ∀ ps : List ℝ, ∀ y ∈ ps.map fl, PlainText y := by
    intro ps y hy
    obtain ⟨x, -, rfl⟩ := List.mem_map.1 hy
    exact hf.plain x
  match p, q, hp, hq, h with
  | .float x, .float y, hp, hq, h =>
    obtain ⟨h1, h2⟩ := readable_plain.cut _ _ _ _ (hf.plain x) (hf.plain y) hs ht h
    exact ⟨by rw [hf.inj (hp x List.mem_cons_self) (hq y List.mem_cons_self) h1], h2⟩
  | .float x, .tuple ps, _, _, h => exact absurd h (mixed x ps _ _)
  | .tuple ps, .float x, _, _, h => exact absurd h.symm (mixed x ps _ _)
  | .tuple ps, .tuple qs, hp, hq, h =>
    obtain ⟨h1, h2⟩ := cut_tuple readable_plain (items ps) (items qs) h
    exact ⟨congrArg ErrProb.tuple (map_inj_on (fun a ha b hb e => hf.inj (hp a ha) (hq b hb) e) h1), h2⟩

theorem NoiseType.text_no (k : NoiseType) : '(' ∉ k.text := by cases k <;> decide

theorem NoiseType.text_inj {k l : NoiseType} (h : k.text = l.text) : k = l := by
  cases k <;> cases l <;> first | rfl | exact absurd h (by decide)

theorem cut_noise_instance (hf : FloatText D fl) {i j : NoiseInstance} {s t : List Char}
    (hi : ∀ x ∈ i.errorProbability.numbers, x ∈ D) (hj : ∀ x ∈ j.errorProbability.numbers, x ∈ D) (h : i.text fl ++ s = j.text fl ++ t) :
    i = j ∧ s = t := by
  have e : ∀ (i : NoiseInstance) (u : List Char),
      i.text fl ++ u = i.type.text ++ '(' :: ("p=".toList ++ (i.errorProbability.text fl ++ ')' :: u)) := by
    intro i u; simp [NoiseInstance.text]
  rw [e, e] at h
  obtain ⟨h1, h2⟩ := cut_at (NoiseType.text_no _) (NoiseType.text_no _) h
  obtain ⟨h3, h4⟩ := cut_prob hf hi hj (.paren _) (.paren _) (List.append_cancel_left h2)
  refine ⟨?_, (List.cons.inj h4).2⟩
  cases i; cases j
  simp only at h1 h3
  rw [NoiseType.text_inj h1, h3]

/-- All error probabilities are floats. -/
abbrev NoiseNums (D : Set ℝ) (i : NoiseInstance) : Prop := ∀ x ∈ i.errorProbability.numbers, x ∈ D

theorem readable_noise (hf : FloatText D fl) : Readable fun x => ∃ i : NoiseInstance, NoiseNums D i ∧ x = i.text fl where
  head := by
    rintro x ⟨i, -, rfl⟩
    rcases i with ⟨k, p⟩
    cases k <;> exact ⟨_, _, rfl, by decide, by decide, by decide⟩
  cut := by
    rintro x y s t ⟨i, hi, rfl⟩ ⟨j, hj, rfl⟩ - - h
    obtain ⟨rfl, h'⟩ := cut_noise_instance hf hi hj h
    exact ⟨rfl, h'⟩

theorem cut_noise (hf : FloatText D fl) {a b : Option (List NoiseInstance)} {s t : List Char} (ha : ∀ i ∈ a.getD [], NoiseNums D i)
    (hb : ∀ i ∈ b.getD [], NoiseNums D i) (h : noiseText fl a ++ s = noiseText fl b ++ t) : a = b ∧ s = t := by
  have items : ∀ l : List NoiseInstance, (∀ i ∈ l, NoiseNums D i) → ∀ y ∈ l.map (NoiseInstance.text fl),
      ∃ i : NoiseInstance, NoiseNums D i ∧ y = i.text fl := by
    intro l hl y hy
    obtain ⟨i, hi, rfl⟩ := List.mem_map.1 hy
    exact ⟨i, hl i hi, rfl⟩
  match a, b, ha, hb, h with
  | none, none, _, _, h => exact ⟨rfl, List.append_cancel_left h⟩
  | none, some l, _, _, h =>
    obtain ⟨y, hy⟩ := tuple_head (l.map (NoiseInstance.text fl))
    simp [noiseText, hy] at h
  | some l, none, _, _, h =>
    obtain ⟨y, hy⟩ := tuple_head (l.map (NoiseInstance.text fl))
    simp [noiseText, hy] at h
  | some l, some l', ha, hb, h =>
    obtain ⟨h1, h2⟩ := cut_tuple (readable_noise hf) (items l ha) (items l' hb) h
    refine ⟨?_, h2⟩
    exact congrArg some (map_inj_on (fun i hi j hj e =>
      (cut_noise_instance (s := []) (t := []) hf (ha i hi) (hb j hj) (by rw [e])).1) h1)

theorem cut_bool {a b : Bool} {s t : List Char} (h : boolText a ++ s = boolText b ++ t) : a = b ∧ s = t := by
  cases a <;> cases b <;> simp_all [boolText]

/-! ## Gates -/

/-- The first part of the text of a gate. -/
def Gate.title (g : Gate) : List Char :=
  match g.cls with
  | .hamEvo _ => "_HamiltonianEvolution".toList
  | _ => g.name.toList

/-- The name of a gate without the letter for controls. -/
def Gate.base (g : Gate) : String :=
  match g.cls with
  | .parametric _ _ => "R" ++ g.generatorName
  | .phase _ _ => "PHASE"
  | _ => g.generatorName

theorem Gate.name_eq (g : Gate) : g.name = if isControlled g.control then "C" ++ g.base else g.base := rfl

def generators : List String := ["X", "Y", "Z", "H", "S", "T", "I", "SWAP"]

def bases : List String := generators ++ generators.map ("R" ++ ·) ++ ["PHASE"]

def titles : List (List Char) :=
  bases.map String.toList ++ bases.map (fun b => ("C" ++ b).toList) ++ ["_HamiltonianEvolution".toList]

theorem Gate.Printable.base_mem {g : Gate} (h : g.Printable D) : g.base ∈ bases := by
  have := h.gen
  rw [base, bases]
  split <;> simp only [List.mem_append, List.mem_map]
  · exact .inl (.inr ⟨_, this, rfl⟩)
  · exact .inr List.mem_cons_self
  · exact .inl (.inl this)

theorem Gate.Printable.title_mem {g : Gate} (h : g.Printable D) : g.title ∈ titles := by
  have hb := h.base_mem
  have hn : g.name.toList ∈ bases.map String.toList ++ bases.map (fun b => ("C" ++ b).toList) := by
    rw [Gate.name_eq]
    split <;> simp only [List.mem_append, List.mem_map]
    · exact .inr ⟨_, hb, rfl⟩
    · exact .inl ⟨_, hb, rfl⟩
  rw [titles, title]
  split
  · exact List.mem_append_right _ List.mem_cons_self
  · exact List.mem_append_left _ hn

theorem titles_plain : ∀ x ∈ titles, '(' ∉ x := by decide

theorem titles_hamEvo : ∀ x ∈ bases, x.toList ≠ "_HamiltonianEvolution".toList ∧
    ("C" ++ x).toList ≠ "_HamiltonianEvolution".toList := by decide

theorem bases_cases : (∀ a ∈ generators, ∀ b ∈ generators, a ≠ "R" ++ b) ∧ (∀ a ∈ generators, a ≠ "PHASE") ∧
    (∀ a ∈ generators, "R" ++ a ≠ "PHASE") ∧ ∀ a ∈ generators, ∀ b ∈ generators, "R" ++ a = "R" ++ b → a = b := by decide

/-- What follows the qubits in the text of a gate. -/
def Gate.rest (fl : ℝ → List Char) (g : Gate) : List Char :=
  match g.cls with
  | .primitive => ")".toList
  | .parametric p s | .phase p s => ", param=".toList ++ (p.text fl ++ (", shift=".toList ++ (fl s ++ ")".toList)))
  | .hamEvo s => ", noise=".toList ++ (noiseText fl g.noise ++ (", sparse=".toList ++ (boolText g.sparse ++
      (", shift=".toList ++ (fl s ++ ")".toList)))))

theorem Gate.text_eq (g : Gate) (u : List Char) :
    g.text fl np ++ u = g.title ++ '(' :: ((match g.cls with
      | .hamEvo _ => "generator_name='".toList ++ (g.generatorName.toList ++ "', target=".toList)
      | _ => "target=".toList) ++ (targetText g.target ++ (", control=".toList ++ (Ctl.text np g.control ++ (g.rest fl ++ u))))) := by
  rcases g with ⟨_ | _ | _ | _, _, _, _, _, _⟩ <;> simp [Gate.text, Gate.title, Gate.rest]

theorem cut_param (hf : FloatText D fl) {p q : Param} {s t : List Char} (dp : ∀ x, p = .num x → x ∈ D)
    (dq : ∀ x, q = .num x → x ∈ D) (hp : ∀ n, p = .str n → ',' ∉ n.toList)
    (hq : ∀ n, q = .str n → ',' ∉ n.toList) (h : p.text fl ++ ',' :: s = q.text fl ++ ',' :: t) : p.Alike fl q ∧ s = t := by
  have no : ∀ r : Param, (∀ n, r = .str n → ',' ∉ n.toList) → ',' ∉ r.text fl := by
    intro r hr
    cases r with
    | str n => exact hr n rfl
    | num x => exact fun hc => ((hf.plain x).2 _ hc).1 rfl
  obtain ⟨h1, h2⟩ := cut_at (no p hp) (no q hq) h
  refine ⟨?_, h2⟩
  match p, q, dp, dq, h1 with
  | .str a, .str b, _, _, h1 => rw [String.toList_injective h1]; exact .same _
  | .num x, .num y, dp, dq, h1 => rw [hf.inj (dp x rfl) (dq y rfl) h1]; exact .same _
  | .num x, .str b, _, _, h1 => exact .left _ _ h1.symm
  | .str b, .num x, _, _, h1 => exact .right _ _ h1

theorem Gate.cut (hf : FloatText D fl) {g h : Gate} (hg : g.Printable D) (hh : h.Printable D) {s t : List Char}
    (e : g.text fl np ++ s = h.text fl np ++ t) : g.Alike fl h ∧ s = t := by
  rw [Gate.text_eq, Gate.text_eq] at e
  obtain ⟨h1, h2⟩ := cut_at (titles_plain _ hg.title_mem) (titles_plain _ hh.title_mem) e
  have hbg := hg.base_mem
  have hbh := hh.base_mem
  have ne : ∀ k : Gate, k.base ∈ bases → k.name.toList ≠ "_HamiltonianEvolution".toList := by
    intro k hk
    rw [Gate.name_eq]
    split
    · exact (titles_hamEvo _ hk).2
    · exact (titles_hamEvo _ hk).1
  have names : isControlled g.control = isControlled h.control → g.name.toList = h.name.toList → g.base = h.base := by
    intro hc hn
    have hn := String.toList_injective hn
    rw [Gate.name_eq, Gate.name_eq, hc] at hn
    split at hn
    · have := congrArg String.toList hn
      rw [String.toList_append, String.toList_append] at this
      exact String.toList_injective (List.append_cancel_left this)
    · exact hn
  have hgg := hg.gen
  have hhg := hh.gen
  have tail : ∀ {x y : ℝ} {s t : List Char}, x ∈ D → y ∈ D → fl x ++ (")".toList ++ s) = fl y ++ (")".toList ++ t) → x = y ∧ s = t := by
    intro x y s t hx hy e
    obtain ⟨e1, e2⟩ := readable_plain.cut _ _ _ _ (hf.plain x) (hf.plain y) (.paren _) (.paren _) e
    exact ⟨hf.inj hx hy e1, (List.cons.inj e2).2⟩
  have common : (∀ x, g.cls ≠ .hamEvo x) → (∀ x, h.cls ≠ .hamEvo x) →
      g.target = h.target ∧ g.control = h.control ∧ g.rest fl ++ s = h.rest fl ++ t ∧ g.base = h.base := by
    intro a b
    have e1 : g.title = g.name.toList := by rw [Gate.title]; split; exacts [absurd ‹_› (a _), rfl]
    have e2 : h.title = h.name.toList := by rw [Gate.title]; split; exacts [absurd ‹_› (b _), rfl]
    have e3 : targetText g.target ++ (", control=".toList ++ (Ctl.text np g.control ++ (g.rest fl ++ s)))
        = targetText h.target ++ (", control=".toList ++ (Ctl.text np h.control ++ (h.rest fl ++ t))) := by
      revert h2
      rcases g with ⟨_ | _ | _ | x, _, _, _, _, _⟩ <;> rcases h with ⟨_ | _ | _ | y, _, _, _, _, _⟩ <;>
        first
          | exact List.append_cancel_left
          | exact absurd rfl (a _)
          | exact absurd rfl (b _)
    obtain ⟨k1, k2⟩ := cut_target e3
    obtain ⟨k3, k4⟩ := cut_ctl hg.ctl hh.ctl (List.append_cancel_left k2)
    exact ⟨k1, k3, k4, names (by rw [k3]) (by rw [← e1, ← e2, h1])⟩
  obtain ⟨b1, b2, b3, b4⟩ := bases_cases
  have params : ∀ {p q : Param} {x y : ℝ}, x ∈ D → y ∈ D → (∀ x, p = .num x → x ∈ D) → (∀ x, q = .num x → x ∈ D) →
      (∀ n, p = .str n → ',' ∉ n.toList) → (∀ n, q = .str n → ',' ∉ n.toList) →
      ", param=".toList ++ (p.text fl ++ (", shift=".toList ++ (fl x ++ ")".toList))) ++ s
        = ", param=".toList ++ (q.text fl ++ (", shift=".toList ++ (fl y ++ ")".toList))) ++ t →
      (p.Alike fl q ∧ x = y) ∧ s = t := by
    intro p q x y hx hy dp dq hp hq e
    have e' : p.text fl ++ ',' :: (" shift=".toList ++ (fl x ++ (")".toList ++ s)))
        = q.text fl ++ ',' :: (" shift=".toList ++ (fl y ++ (")".toList ++ t))) := by
      simpa using e
    obtain ⟨e1, e2⟩ := cut_param hf dp dq hp hq e'
    obtain ⟨e3, e4⟩ := tail hx hy (List.append_cancel_left e2)
    exact ⟨⟨e1, e3⟩, e4⟩
  rcases g with ⟨c, gn, gt, gc, gz, gsp⟩
  rcases h with ⟨c', hn, ht, hc, hz, hsp⟩
  cases c with
  | primitive =>
    cases c' with
    | primitive =>
      obtain ⟨k1, k2, k3, k4⟩ := common (by simp) (by simp)
      exact ⟨⟨k4, k1, k2, trivial⟩, List.append_cancel_left k3⟩
    | parametric p x => exact absurd (common (by simp) (by simp)).2.2.2 (b1 _ hgg _ hhg)
    | phase p x => exact absurd (common (by simp) (by simp)).2.2.2 (b2 _ hgg)
    | hamEvo x => exact absurd h1 (ne _ hbg)
  | parametric p x =>
    cases c' with
    | primitive => exact absurd (common (by simp) (by simp)).2.2.2.symm (b1 _ hhg _ hgg)
    | parametric q y =>
      obtain ⟨k1, k2, k3, k4⟩ := common (by simp) (by simp)
      obtain ⟨k5, k6⟩ := params (hg.nums _ (by cases p <;> simp [Gate.numbers])) (hh.nums _ (by cases q <;> simp [Gate.numbers]))
        (fun z hz => hg.nums _ (by subst hz; simp [Gate.numbers])) (fun z hz => hh.nums _ (by subst hz; simp [Gate.numbers]))
        (fun n hn => hg.name n x (.inl (by rw [hn]))) (fun n hn => hh.name n y (.inl (by rw [hn]))) k3
      exact ⟨⟨b4 _ hgg _ hhg k4, k1, k2, k5⟩, k6⟩
    | phase q y => exact absurd (common (by simp) (by simp)).2.2.2 (b3 _ hgg)
    | hamEvo y => exact absurd h1 (ne _ hbg)
  | phase p x =>
    cases c' with
    | primitive => exact absurd (common (by simp) (by simp)).2.2.2.symm (b2 _ hhg)
    | parametric q y => exact absurd (common (by simp) (by simp)).2.2.2.symm (b3 _ hhg)
    | phase q y =>
      obtain ⟨k1, k2, k3, k4⟩ := common (by simp) (by simp)
      obtain ⟨k5, k6⟩ := params (hg.nums _ (by cases p <;> simp [Gate.numbers])) (hh.nums _ (by cases q <;> simp [Gate.numbers]))
        (fun z hz => hg.nums _ (by subst hz; simp [Gate.numbers])) (fun z hz => hh.nums _ (by subst hz; simp [Gate.numbers]))
        (fun n hn => hg.name n x (.inr (by rw [hn]))) (fun n hn => hh.name n y (.inr (by rw [hn]))) k3
      exact ⟨⟨(hg.unit _ _ rfl).trans (hh.unit _ _ rfl).symm, k1, k2, k5⟩, k6⟩
    | hamEvo y => exact absurd h1 (ne _ hbg)
  | hamEvo x =>
    cases c' with
    | primitive => exact absurd h1.symm (ne _ hbh)
    | parametric q y => exact absurd h1.symm (ne _ hbh)
    | phase q y => exact absurd h1.symm (ne _ hbh)
    | hamEvo y =>
      simp only [List.append_assoc] at h2
      have h3 := List.append_cancel_left h2
      have quote : ∀ a ∈ generators, '\'' ∉ a.toList := by decide
      obtain ⟨k1, k2⟩ := cut_at (quote _ hgg) (quote _ hhg) h3
      obtain ⟨k3, k4⟩ := cut_target (List.append_cancel_left (as := ", target=".toList) k2)
      obtain ⟨k5, k6⟩ := cut_ctl hg.ctl hh.ctl (List.append_cancel_left k4)
      simp only [Gate.rest, List.append_assoc] at k6
      obtain ⟨k7, k8⟩ := cut_noise hf (fun i hi z hz => hg.nums z (List.mem_append_right _ (List.mem_flatMap.2 ⟨i, hi, hz⟩)))
        (fun i hi z hz => hh.nums z (List.mem_append_right _ (List.mem_flatMap.2 ⟨i, hi, hz⟩))) (List.append_cancel_left k6)
      obtain ⟨k9, k10⟩ := cut_bool (List.append_cancel_left k8)
      obtain ⟨k11, k12⟩ := tail (hg.nums _ List.mem_cons_self) (hh.nums _ List.mem_cons_self) (List.append_cancel_left k10)
      exact ⟨⟨String.toList_injective k1, k3, k5, k11, k7, k9⟩, k12⟩

theorem Param.Alike.text {p q : Param} (h : p.Alike fl q) : p.text fl = q.text fl := by
  cases h with
  | same => rfl
  | left x s h => exact h.symm
  | right x s h => exact h

theorem Gate.Alike.text {g h : Gate} (e : g.Alike fl h) : g.text fl np = h.text fl np := by
  rcases g with ⟨c, gn, gt, gc, gz, gsp⟩
  rcases h with ⟨c', hn, ht, hc, hz, hsp⟩
  obtain ⟨e1, e2, e3, e4⟩ := e
  simp only at e1 e2 e3
  subst e1 e2 e3
  cases c <;> cases c' <;> simp only [Gate.ClassAlike] at e4
  · rfl
  · simp only [Gate.text, Gate.name, e4.1.text, e4.2]
  · simp only [Gate.text, Gate.name, e4.1.text, e4.2]
  · obtain ⟨rfl, rfl, rfl⟩ := e4; rfl

/-! ## Operations -/

/-- The names of the composite classes. -/
def classNames : List (List Char) :=
  ["OpSequence".toList, "Scale".toList, "Add".toList, "Observable".toList, "QuantumCircuit".toList]

/-- The place of a class in `classNames`. -/
def CompKind.place : CompKind → Fin 5
  | .seq => 0
  | .scale _ => 1
  | .add => 2
  | .obs => 3
  | .circ _ _ => 4

theorem CompKind.className_eq : ∀ k : CompKind, k.className = classNames.get k.place
  | .seq => rfl
  | .scale _ => rfl
  | .add => rfl
  | .obs => rfl
  | .circ _ _ => rfl

theorem CompKind.className_mem (k : CompKind) : k.className ∈ classNames := by
  rw [className_eq]; exact List.get_mem _ _

theorem CompKind.className_no (k : CompKind) : '(' ∉ k.className := by
  have : ∀ x ∈ classNames, '(' ∉ x := by decide
  exact this _ k.className_mem

theorem className_titles : ∀ x ∈ titles, x ∉ classNames := by decide

theorem CompKind.sameClass_iff (k k' : CompKind) : k.className = k'.className ↔ k.SameClass k' := by
  have nd : classNames.Nodup := by decide
  have h : k.className = k'.className ↔ k.place = k'.place := by
    rw [className_eq, className_eq]
    exact nd.get_inj_iff
  rw [h]
  cases k <;> cases k' <;> simp [CompKind.place, CompKind.SameClass]

namespace Op

theorem text_head (o : Op) (ho : o.AllGates (Gate.Printable D)) : ∃ c x, o.text fl np = c :: x ∧ c ≠ ',' ∧ c ≠ ')' ∧ c ≠ ']' := by
  have heads : ∀ x ∈ titles, ∃ c y, x = c :: y ∧ c ≠ ',' ∧ c ≠ ')' ∧ c ≠ ']' := by
    intro x hx
    have : ∀ x ∈ titles, x ≠ [] ∧ ∀ c ∈ x, c ≠ ',' ∧ c ≠ ')' ∧ c ≠ ']' := by decide
    have := this x hx
    rcases x with _ | ⟨c, y⟩
    · exact absurd rfl this.1
    · exact ⟨c, y, rfl, this.2 c List.mem_cons_self⟩
  cases o with
  | prim g =>
    obtain ⟨c, y, h1, h2⟩ := heads _ (Gate.Printable.title_mem ho)
    have := Gate.text_eq (fl := fl) (np := np) g []
    rw [List.append_nil, h1] at this
    exact ⟨c, _, this, h2⟩
  | comp k ops => cases k <;> exact ⟨_, _, rfl, by decide, by decide, by decide⟩

theorem text_comp (k : CompKind) (ops : List Op) (u : List Char) :
    (Op.comp k ops).text fl np ++ u = k.className ++ '(' :: ("operations=[".toList ++ ((", ".toList.intercalate (texts fl np ops)) ++
      ']' :: ')' :: u)) := by
  simp [Op.text, listText]

mutual
theorem cut (hf : FloatText D fl) : ∀ {o o' : Op} {s t : List Char}, o.AllGates (Gate.Printable D) → o'.AllGates (Gate.Printable D) →
    o.text fl np ++ s = o'.text fl np ++ t → o.Alike fl o' ∧ s = t
  | .prim g, .prim h, s, t, ho, ho', e => Gate.cut hf ho ho' e
  | .prim g, .comp k ops, s, t, ho, ho', e => by
    rw [text_comp, Op.text, Gate.text_eq] at e
    have h1 := Gate.Printable.title_mem ho
    have := (cut_at (titles_plain _ h1) k.className_no e).1
    exact absurd (this ▸ k.className_mem) (className_titles _ h1)
  | .comp k ops, .prim g, s, t, ho, ho', e => by
    rw [text_comp, Op.text, Gate.text_eq] at e
    have h1 := Gate.Printable.title_mem ho'
    have := (cut_at k.className_no (titles_plain _ h1) e).1
    exact absurd (this ▸ k.className_mem) (className_titles _ h1)
  | .comp k ops, .comp k' ops', s, t, ho, ho', e => by
    rw [text_comp, text_comp] at e
    obtain ⟨h1, h2⟩ := cut_at k.className_no k'.className_no e
    have h3 := List.append_cancel_left h2
    obtain ⟨h4, h5⟩ := cutItems hf ho ho' h3
    exact ⟨⟨(CompKind.sameClass_iff _ _).1 h1, h4⟩, (List.cons.inj h5).2⟩
theorem cutItems (hf : FloatText D fl) : ∀ {os os' : List Op} {s t : List Char}, AllGatesList (Gate.Printable D) os →
    AllGatesList (Gate.Printable D) os' →
    ", ".toList.intercalate (texts fl np os) ++ ']' :: s = ", ".toList.intercalate (texts fl np os') ++ ']' :: t →
    Alikes fl os os' ∧ s = t
  | [], [], s, t, _, _, e => ⟨trivial, (List.cons.inj e).2⟩
  | [], o :: os, s, t, _, ho, e => by
    obtain ⟨c, x, h1, -, -, h2⟩ := text_head (fl := fl) (np := np) o ho.1
    rw [texts, texts, intercalate_cons, h1] at e
    exact absurd (List.cons.inj e).1.symm h2
  | o :: os, [], s, t, ho, _, e => by
    obtain ⟨c, x, h1, -, -, h2⟩ := text_head (fl := fl) (np := np) o ho.1
    rw [texts, texts, intercalate_cons, h1] at e
    exact absurd (List.cons.inj e).1 h2
  | o :: os, o' :: os', s, t, ho, ho', e => by
    rw [texts, texts, intercalate_cons, intercalate_cons, List.append_assoc, List.append_assoc] at e
    obtain ⟨h1, h2⟩ := cut hf ho.1 ho'.1 e
    obtain ⟨h3, h4⟩ := cutMore hf ho.2 ho'.2 h2
    exact ⟨⟨h1, h3⟩, h4⟩
theorem cutMore (hf : FloatText D fl) : ∀ {os os' : List Op} {s t : List Char}, AllGatesList (Gate.Printable D) os →
    AllGatesList (Gate.Printable D) os' →
    ((texts fl np os).map (", ".toList ++ ·)).flatten ++ ']' :: s = ((texts fl np os').map (", ".toList ++ ·)).flatten ++ ']' :: t →
    Alikes fl os os' ∧ s = t
  | [], [], s, t, _, _, e => ⟨trivial, (List.cons.inj e).2⟩
  | [], o :: os, s, t, _, _, e => absurd (List.cons.inj e).1 (by decide)
  | o :: os, [], s, t, _, _, e => absurd (List.cons.inj e).1 (by decide)
  | o :: os, o' :: os', s, t, ho, ho', e => by
    simp only [texts, List.map_cons, List.flatten_cons, List.append_assoc] at e
    obtain ⟨h1, h2⟩ := cut hf ho.1 ho'.1 (List.append_cancel_left e)
    obtain ⟨h3, h4⟩ := cutMore hf ho.2 ho'.2 h2
    exact ⟨⟨h1, h3⟩, h4⟩
end

mutual
theorem Alike.text : ∀ {o o' : Op}, o.Alike fl o' → o.text fl np = o'.text fl np
  | .prim g, .prim h, e => Gate.Alike.text e
  | .comp k ops, .comp k' ops', e => by
    simp only [Op.text, (CompKind.sameClass_iff _ _).2 e.1, Alikes.texts e.2]
  | .prim _, .comp _ _, e => by simp [Op.Alike] at e
  | .comp _ _, .prim _, e => by simp [Op.Alike] at e
theorem Alikes.texts : ∀ {os os' : List Op}, Alikes fl os os' → texts fl np os = texts fl np os'
  | [], [], _ => rfl
  | o :: os, o' :: os', e => by simp only [Op.texts, Alike.text e.1, Alikes.texts e.2]
  | [], _ :: _, e => by simp [Op.Alikes] at e
  | _ :: _, [], e => by simp [Op.Alikes] at e
end

end Op

end Verif
