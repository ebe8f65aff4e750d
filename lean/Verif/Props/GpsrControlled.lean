import Verif.Props.Gpsr

/-!
# Property theorems about the parameter-shift gradients of controlled gates

C25 and C61.  `C25_controlled_wrong` (in `Props/Gpsr.lean`) shows that the gradient of a controlled rotation can be wrong.  Here
its error is computed for all circuits.  The expectation value has the frequencies `1/2` and `1` in the angle of a
controlled rotation, and its derivative is given by the four-term rule
`(E(x + π/2) - E(x - π/2)) / 2 - (√2 - 1)/4 · (E(x + π) - E(x - π))`; the code computes only the first two terms.
-/

namespace Verif
set_option autoImplicit false
open NDArray
variable {n : ℕ} {values : Values} (so : SetOrder) (eigh : Eigh) (draw : Draw) {gs : List Gate}
  {nss : List (List StdNoise)} {st : State} {obs : List Observable} {Os : List (Matrix (Lab n) (Lab n) ℂ)}

theorem zipWith_error_sum {D u d : List ℝ} (h1 : u.length = D.length) (h2 : d.length = D.length) (c : ℝ) :
    (List.zipWith (fun d e => d + c * e) D (List.zipWith (fun u d => u - d) u d)).sum = D.sum + c * (u.sum - d.sum) := by
  induction D generalizing u d with
  | nil =>
    obtain rfl := List.length_eq_zero_iff.1 h1
    obtain rfl := List.length_eq_zero_iff.1 h2
    simp
  | cons a D ih =>
    rcases u with _ | ⟨x, u⟩
    · cases h1
    rcases d with _ | ⟨y, d⟩
    · cases h2
    have := ih (u := u) (d := d) (by simpa using h1) (by simpa using h2)
    simp only [List.zipWith_cons_cons, List.sum_cons, this]
    ring

theorem zipWith_error_getD {D u d : List ℝ} (h1 : u.length = D.length) (h2 : d.length = D.length) (c : ℝ) (i : ℕ) :
    (List.zipWith (fun d e => d + c * e) D (List.zipWith (fun u d => u - d) u d)).getD i 0
      = D.getD i 0 + c * (u.getD i 0 - d.getD i 0) := by
  induction D generalizing u d i with
  | nil =>
    obtain rfl := List.length_eq_zero_iff.1 h1
    obtain rfl := List.length_eq_zero_iff.1 h2
    simp
  | cons a D ih =>
    rcases u with _ | ⟨x, u⟩
    · cases h1
    rcases d with _ | ⟨y, d⟩
    · cases h2
    cases i with
    | zero => simp
    | succ i => simpa using ih (u := u) (d := d) (by simpa using h1) (by simpa using h2) i

theorem BaseSetting.returnsAt {so : SetOrder} (h : BaseSetting so n values gs nss st obs Os) {E : Values → Py (List ℝ)}
    {p : String} (hp : p ∈ values.keys)
    (hE : ∀ x, E (values.upd p x) = gatesExpectation so st obs (.list gs) (values.upd p x)) (δ : ℝ) :
    ReturnsAt E values p δ (valuesOf n values gs nss st Os p (values.real p + δ)) :=
  ⟨_, h.numeric.real hp, by rw [hE, h.eval]; rfl⟩

theorem ReturnsAt.unique {E : Values → Py (List ℝ)} {p : String} {δ : ℝ} {l l' : List ℝ} (h : ReturnsAt E values p δ l)
    (h' : ReturnsAt E values p δ l') : l = l' := by
  obtain ⟨x, hx, h⟩ := h
  obtain ⟨x', hx', h'⟩ := h'
  rw [hx] at hx'
  cases hx'
  rw [h] at h'
  exact Except.ok.inj h'

theorem IsPartial.unique {E : Values → Py (List ℝ)} {p : String} {d d' : List ℝ} (h : IsPartial E values p d)
    (h' : IsPartial E values p d') : d = d' := by
  obtain ⟨x, f, hx, hf, hl, hd⟩ := h
  obtain ⟨x', f', hx', hf', hl', hd'⟩ := h'
  rw [hx] at hx'
  cases hx'
  obtain rfl : f = f' := funext fun t => by
    have := hf t
    rw [hf' t] at this
    exact (Except.ok.inj this).symm
  refine List.ext_getElem ((hl x).symm.trans (hl' x)) fun i h1 h2 => ?_
  have := (hd i).unique (hd' i)
  simpa [List.getD_eq_getElem?_getD, h1, h2] using this

theorem sqrt_two_sub_one_ne : (Real.sqrt 2 - 1) / 4 ≠ 0 := by
  have := Real.one_lt_sqrt_two
  intro h
  linarith

/-! ## Parameters used once -/

/-- **C25** (backward pass, every parameter name is used by at most one gate, controlled or not): the error of
`analytical_gpsr_bwd`, for all circuits.  With the true partial derivatives `D p`, and the expectation values `up p` and
`down p` with the parameter changed by `π` and `-π`, the component of `p` is `Σ D p + (√2 - 1)/4 · (Σ up p - Σ down p)`. -/
theorem C25_bwd_error {circuit : Op} (hp : circuit.Plain) (h : BaseSetting so n values circuit.gates nss st obs Os)
    (hs : SingleUse circuit.gates) (hk : values ≠ []) (hr : ∀ g ∈ circuit.gates, g.Registered)
    (hro : ∀ o ∈ obs, Op.AllRegistered o.ops) :
    ∃ D up down : String → List ℝ,
      (∀ p ∈ values.map Prod.fst,
        IsPartial (fun v => expectation so eigh draw st circuit obs v .gpsr 0) values p (D p) ∧
        ReturnsAt (fun v => expectation so eigh draw st circuit obs v .gpsr 0) values p Real.pi (up p) ∧
        ReturnsAt (fun v => expectation so eigh draw st circuit obs v .gpsr 0) values p (-Real.pi) (down p)) ∧
      gpsrBwd eigh (jittedExpectation so st obs) (.list circuit.gates) values
        = .ok ((values.map Prod.fst).map fun p =>
          (D p).sum + (Real.sqrt 2 - 1) / 4 * ((up p).sum - (down p).sum)) := by
  have hE : ∀ (p : String) (x : ℝ), expectation so eigh draw st circuit obs (values.upd p x) .gpsr 0
      = gatesExpectation so st obs (.list circuit.gates) (values.upd p x) := fun _ _ => expectation_gates so eigh draw hp _
  refine ⟨gradOf4 n values circuit.gates nss st Os, fun p => valuesOf n values circuit.gates nss st Os p (values.real p + Real.pi),
    fun p => valuesOf n values circuit.gates nss st Os p (values.real p + -Real.pi), fun p hp' =>
      ⟨h.partial4 hp' (hE p), h.returnsAt hp' (hE p) _, h.returnsAt hp' (hE p) _⟩, ?_⟩
  rw [plain_bwd h.numeric hk (extractGateNames_le h hs) eigh (f := valuesOf n values circuit.gates nss st Os)
    fun p _ t => by rw [jittedExpectation_eq so _ hr hro, h.eval]; rfl]
  refine congrArg Except.ok (List.map_congr_left fun p _ => ?_)
  rw [h.halfDiff_eq hs, zipWith_error_sum (by simp [valuesOf, gradOf4]) (by simp [valuesOf, gradOf4]),
    sub_eq_add_neg (values.real p)]

/-- **C25** (backward pass): when it is exact.  `analytical_gpsr_bwd` returns the exact gradient (summed over the
observables) if and only if, for every parameter, the sums of the expectation values with the parameter changed by `π` and
by `-π` agree. -/
theorem C25_bwd_iff {circuit : Op} (hp : circuit.Plain) (h : BaseSetting so n values circuit.gates nss st obs Os)
    (hs : SingleUse circuit.gates) (hk : values ≠ []) (hr : ∀ g ∈ circuit.gates, g.Registered)
    (hro : ∀ o ∈ obs, Op.AllRegistered o.ops) :
    (∃ D : String → List ℝ,
      (∀ p ∈ values.map Prod.fst,
        IsPartial (fun v => expectation so eigh draw st circuit obs v .gpsr 0) values p (D p)) ∧
      gpsrBwd eigh (jittedExpectation so st obs) (.list circuit.gates) values
        = .ok ((values.map Prod.fst).map fun p => (D p).sum)) ↔
    ∀ p ∈ values.map Prod.fst, ∀ up down,
      ReturnsAt (fun v => expectation so eigh draw st circuit obs v .gpsr 0) values p Real.pi up →
      ReturnsAt (fun v => expectation so eigh draw st circuit obs v .gpsr 0) values p (-Real.pi) down →
      up.sum = down.sum := by
  obtain ⟨D, up, down, h1, h2⟩ := C25_bwd_error so eigh draw hp h hs hk hr hro
  constructor
  · rintro ⟨D', h3, h4⟩ p hp' u d hu hd
    rw [h2] at h4
    have h5 := List.map_inj_left.1 (Except.ok.inj h4) p hp'
    rw [(h3 p hp').unique (h1 p hp').1] at h5
    rw [hu.unique (h1 p hp').2.1, hd.unique (h1 p hp').2.2]
    have h6 : (Real.sqrt 2 - 1) / 4 * ((up p).sum - (down p).sum) = 0 := by linarith
    exact sub_eq_zero.1 ((mul_eq_zero.1 h6).resolve_left sqrt_two_sub_one_ne)
  · intro h3
    refine ⟨D, fun p hp' => (h1 p hp').1, ?_⟩
    rw [h2]
    refine congrArg Except.ok (List.map_congr_left fun p hp' => ?_)
    rw [h3 p hp' _ _ (h1 p hp').2.1 (h1 p hp').2.2, sub_self, mul_zero, add_zero]

/-- **C25** (JVP, every parameter name is used by at most one gate, controlled or not): the error of the JVP, for all
circuits and tangents, in the same terms. -/
theorem C25_jvp_error {circuit : Op} (hp : circuit.Plain) (h : BaseSetting so n values circuit.gates nss st obs Os)
    (hs : SingleUse circuit.gates) (hk : values ≠ []) (fresh : ℕ → String) (ts : List ℝ) :
    ∃ (D up down : String → List ℝ) (fwd : List ℝ),
      (∀ p ∈ values.map Prod.fst,
        IsPartial (fun v => expectation so eigh draw st circuit obs v .gpsr 0) values p (D p) ∧
        ReturnsAt (fun v => expectation so eigh draw st circuit obs v .gpsr 0) values p Real.pi (up p) ∧
        ReturnsAt (fun v => expectation so eigh draw st circuit obs v .gpsr 0) values p (-Real.pi) (down p)) ∧
      expectation so eigh draw st circuit obs values .gpsr 0 = .ok fwd ∧ fwd.length = obs.length ∧
      gpsrJvp eigh fresh (gatesExpectation so st obs) (.list circuit.gates) values ts
        = .ok (fwd, List.ofFn fun i : Fin fwd.length =>
          (List.zipWith (fun p t => ((D p).getD i 0 + (Real.sqrt 2 - 1) / 4 * ((up p).getD i 0 - (down p).getD i 0)) * t)
            (values.map Prod.fst) ts).sum) := by
  have hE : ∀ (p : String) (x : ℝ), expectation so eigh draw st circuit obs (values.upd p x) .gpsr 0
      = gatesExpectation so st obs (.list circuit.gates) (values.upd p x) := fun _ _ => expectation_gates so eigh draw hp _
  refine ⟨gradOf4 n values circuit.gates nss st Os, fun p => valuesOf n values circuit.gates nss st Os p (values.real p + Real.pi),
    fun p => valuesOf n values circuit.gates nss st Os p (values.real p + -Real.pi), _, fun p hp' =>
      ⟨h.partial4 hp' (hE p), h.returnsAt hp' (hE p) _, h.returnsAt hp' (hE p) _⟩,
    (expectation_gates so eigh draw hp _).trans h.eval_self, by simp [h.fixed.length_eq], ?_⟩
  rw [plain_jvp h.numeric hk (extractGateNames_le h hs) eigh fresh (f := valuesOf n values circuit.gates nss st Os)
    h.eval_self fun p _ t => by rw [h.eval]; rfl]
  have key : ∀ (p : String) (i : ℕ), (halfDiff (valuesOf n values circuit.gates nss st Os p) (values.real p)).getD i 0
      = (gradOf4 n values circuit.gates nss st Os p).getD i 0 + (Real.sqrt 2 - 1) / 4 *
        ((valuesOf n values circuit.gates nss st Os p (values.real p + Real.pi)).getD i 0
          - (valuesOf n values circuit.gates nss st Os p (values.real p + -Real.pi)).getD i 0) := by
    intro p i
    rw [h.halfDiff_eq hs, zipWith_error_getD (by simp [valuesOf, gradOf4]) (by simp [valuesOf, gradOf4]),
      sub_eq_add_neg (values.real p)]
  simp only [key]
  rfl

theorem ofFn_getD_ext {m : ℕ} {f g : ℕ → ℝ} (h : (List.ofFn fun i : Fin m => f i) = List.ofFn fun i : Fin m => g i) {i : ℕ}
    (hi : i < m) : f i = g i := congrFun (List.ofFn_injective h) ⟨i, hi⟩

theorem zipWith_pick {keys : List String} (hn : keys.Nodup) {p : String} (hp : p ∈ keys) (c : String → ℝ) :
    (List.zipWith (fun q t => c q * t) keys (keys.map fun q => if q = p then 1 else 0)).sum = c p := by
  induction keys with
  | nil => cases hp
  | cons q keys ih =>
    rw [List.nodup_cons] at hn
    rw [List.map_cons, List.zipWith_cons_cons, List.sum_cons]
    by_cases hq : q = p
    · subst hq
      have : List.zipWith (fun q t => c q * t) keys (keys.map fun r => if r = q then 1 else 0) = keys.map fun _ => 0 := by
        rw [List.zipWith_map_right, List.zipWith_self]
        refine List.map_congr_left fun r hr => ?_
        rw [if_neg (by rintro rfl; exact hn.1 hr), mul_zero]
      rw [this]
      simp
    · rw [if_neg hq, mul_zero, zero_add]
      exact ih hn.2 ((List.mem_cons.1 hp).resolve_left (Ne.symm hq))

/-- **C25** (JVP): when it is exact.  The JVP is the exact directional derivative for all tangents if and only if, for
every parameter, the expectation values with the parameter changed by `π` and by `-π` agree. -/
theorem C25_jvp_iff {circuit : Op} (hp : circuit.Plain) (h : BaseSetting so n values circuit.gates nss st obs Os)
    (hs : SingleUse circuit.gates) (hk : values ≠ []) (fresh : ℕ → String) :
    (∃ (D : String → List ℝ) (fwd : List ℝ),
      (∀ p ∈ values.map Prod.fst,
        IsPartial (fun v => expectation so eigh draw st circuit obs v .gpsr 0) values p (D p)) ∧
      ∀ ts, gpsrJvp eigh fresh (gatesExpectation so st obs) (.list circuit.gates) values ts
        = .ok (fwd, List.ofFn fun i : Fin fwd.length =>
          (List.zipWith (fun p t => (D p).getD i 0 * t) (values.map Prod.fst) ts).sum)) ↔
    ∀ p ∈ values.map Prod.fst, ∀ l,
      ReturnsAt (fun v => expectation so eigh draw st circuit obs v .gpsr 0) values p Real.pi l ↔
      ReturnsAt (fun v => expectation so eigh draw st circuit obs v .gpsr 0) values p (-Real.pi) l := by
  constructor
  · rintro ⟨D', fwd', h3, h4⟩ p hp'
    obtain ⟨D, up, down, fwd, h1, h2, hlen, h5⟩ := C25_jvp_error so eigh draw hp h hs hk fresh
      ((values.map Prod.fst).map fun q => if q = p then 1 else 0)
    rw [h4] at h5
    have h6 := Except.ok.inj h5
    obtain rfl : fwd' = fwd := congrArg Prod.fst h6
    have hlu : ∀ {δ l}, ReturnsAt (fun v => expectation so eigh draw st circuit obs v .gpsr 0) values p δ l →
        l.length = fwd'.length := by
      rintro δ l ⟨x, -, hx⟩
      beta_reduce at hx
      rw [expectation_gates so eigh draw hp, h.eval] at hx
      rw [← Except.ok.inj hx, hlen, List.length_map, h.fixed.length_eq]
    have heq : up p = down p := by
      refine List.ext_getElem ((hlu (h1 p hp').2.1).trans (hlu (h1 p hp').2.2).symm) fun i hi hi' => ?_
      have h7 := ofFn_getD_ext (f := fun i => (List.zipWith (fun p t => (D' p).getD i 0 * t) (values.map Prod.fst)
          ((values.map Prod.fst).map fun q => if q = p then 1 else 0)).sum)
        (g := fun i => (List.zipWith (fun p t => ((D p).getD i 0 + (Real.sqrt 2 - 1) / 4 *
          ((up p).getD i 0 - (down p).getD i 0)) * t) (values.map Prod.fst)
          ((values.map Prod.fst).map fun q => if q = p then 1 else 0)).sum) (congrArg Prod.snd h6)
        (hi.trans_eq (hlu (h1 p hp').2.1))
      have h8 := zipWith_pick (keys := values.map Prod.fst) h.numeric.nodup hp' fun q => (D' q).getD i 0
      have h9 := zipWith_pick (keys := values.map Prod.fst) h.numeric.nodup hp' fun q =>
        (D q).getD i 0 + (Real.sqrt 2 - 1) / 4 * ((up q).getD i 0 - (down q).getD i 0)
      try beta_reduce at h7
      rw [h8, h9, (h3 p hp').unique (h1 p hp').1] at h7
      have h10 : (Real.sqrt 2 - 1) / 4 * ((up p).getD i 0 - (down p).getD i 0) = 0 := by linarith
      have := sub_eq_zero.1 ((mul_eq_zero.1 h10).resolve_left sqrt_two_sub_one_ne)
      simpa [List.getD_eq_getElem?_getD, hi, hi'] using this
    intro l
    constructor
    · intro hl
      rw [hl.unique (h1 p hp').2.1, heq]; exact (h1 p hp').2.2
    · intro hl
      rw [hl.unique (h1 p hp').2.2, ← heq]; exact (h1 p hp').2.1
  · intro h3
    have hE : ∀ (p : String) (x : ℝ), expectation so eigh draw st circuit obs (values.upd p x) .gpsr 0
      = gatesExpectation so st obs (.list circuit.gates) (values.upd p x) := fun _ _ => expectation_gates so eigh draw hp _
    obtain ⟨-, -, -, fwd', -, h2', -⟩ := C25_jvp_error so eigh draw hp h hs hk fresh []
    refine ⟨gradOf4 n values circuit.gates nss st Os, fwd', fun p hp' => h.partial4 hp' (hE p), fun ts => ?_⟩
    obtain ⟨D, up, down, fwd, h1, h2, -, h5⟩ := C25_jvp_error so eigh draw hp h hs hk fresh ts
    rw [h2] at h2'
    cases h2'
    rw [h5]
    refine congrArg (fun l => Except.ok (_, l)) (congrArg List.ofFn (funext fun i => congrArg List.sum ?_))
    refine List.ext_getElem (by simp) fun j hj hj' => ?_
    simp only [List.getElem_zipWith]
    have hm : (values.map Prod.fst)[j]'(by simp at hj ⊢; omega) ∈ values.map Prod.fst := List.getElem_mem _
    have h6 := h1 _ hm
    rw [((h3 _ hm _).1 h6.2.1).unique h6.2.2, sub_self, mul_zero, add_zero, h6.1.unique (h.partial4 hm (hE _))]

/-! ## Shared parameters -/

theorem turned_eq_shifted {g : Gate} (hr : g.Registered) (δ : ℝ) : g.turned δ = shifted g δ := by
  rcases g with ⟨cls, _⟩
  cases cls with
  | phase => exact hr.elim
  | _ => rfl

/-- The expectation values with the angle of the gate at index `k` changed by `δ`. -/
noncomputable def turnedVals (n : ℕ) (values : Values) (gs : List Gate) (nss : List (List StdNoise)) (st : State)
    (Os : List (Matrix (Lab n) (Lab n) ℂ)) (k : ℕ) (δ : ℝ) : List ℝ :=
  Os.map fun O => turnedVal n values gs nss st ((gs[k]?.bind Gate.paramName).getD "") k δ O

theorem turnedVals_eq {p : String} {k : ℕ} (hk : k ∈ paramIndices gs p) (δ : ℝ) :
    turnedVals n values gs nss st Os k δ = Os.map fun O => turnedVal n values gs nss st p k δ O := by
  have h := (List.mem_filter.1 hk).2
  rw [beq_iff_eq] at h
  rw [turnedVals, h]
  rfl

theorem BaseSetting.turned {so : SetOrder} (h : BaseSetting so n values gs nss st obs Os)
    (hr : ∀ g ∈ gs, (∃ p, g.Uses p) → g.Registered) {k : ℕ} (hk : k < gs.length) (hu : ∃ p, gs[k].Uses p) (δ : ℝ) :
    gatesExpectation so st obs (.list (gs.set k (gs[k].turned δ))) values
      = .ok (turnedVals n values gs nss st Os k δ) := by
  obtain ⟨p, hu⟩ := hu
  rw [turned_eq_shifted (hr _ (List.getElem_mem hk) ⟨p, hu⟩), h.eval_shifted hr hk hu,
    turnedVals_eq (mem_paramIndices.2 ⟨hk, hu⟩)]
  rfl

open Classical in
theorem sum_paramIndices (p : String) (e : ℕ → ℝ) :
    ((paramIndices gs p).map e).sum = ∑ k : Fin gs.length, if gs[k].Uses p then e k else 0 := by
  have h1 : ((List.range gs.length).map fun k => if ((gs[k]?.bind Gate.paramName) == some p) then e k else 0).sum
      = ((paramIndices gs p).map e).sum := by
    rw [paramIndices, sum_filter_list _ (fun k => (gs[k]?.bind Gate.paramName) == some p)]
    · refine congrArg List.sum (List.map_congr_left fun k hk => ?_)
      rw [if_pos (List.mem_filter.1 hk).2]
    · intro k _ hk
      rw [hk]; rfl
  rw [← h1]
  change ∑ k ∈ Finset.range gs.length, _ = _
  rw [Finset.sum_range]
  refine Finset.sum_congr rfl fun k _ => ?_
  have : ((gs[(k : ℕ)]?.bind Gate.paramName) == some p) = true ↔ gs[k].Uses p := by
    rw [List.getElem?_eq_getElem k.isLt, beq_iff_eq]
    exact (Gate.uses_iff _ _).symm
  by_cases hu : gs[k].Uses p
  · rw [if_pos hu, if_pos (this.2 hu)]
  · rw [if_neg hu, if_neg (mt this.1 hu)]

theorem list_sum_swap {α β : Type} (l : List α) (m : List β) (f : α → β → ℝ) :
    (l.map fun a => (m.map fun b => f a b).sum).sum = (m.map fun b => (l.map fun a => f a b).sum).sum := by
  induction l with
  | nil => simp
  | cons a l ih => simp [ih, List.sum_map_add]

theorem list_sum_sub {α : Type} (l : List α) (f g : α → ℝ) :
    (l.map fun a => f a - g a).sum = (l.map f).sum - (l.map g).sum := by
  induction l with
  | nil => simp
  | cons a l ih => simp only [List.map_cons, List.sum_cons, ih]; ring

open Classical in
/-- **C25** (backward pass, shared parameter names): the error of `analytical_gpsr_bwd` when some parameter name is used by
several gates, controlled or not.  With the true partial derivatives `D p`, and the expectation values `f k δ` with the
angle of gate `k` alone changed by `δ`, the component of `p` is `Σ D p` plus, for every *controlled* gate `k` of the
parameter `p`, the error `(√2 - 2)/4 · (Σ f k (π/2) - Σ f k (-π/2)) + (√2 - 1)/4 · (Σ f k π - Σ f k (-π))`. -/
theorem C25_shared_bwd_error {circuit : Op} (hp : circuit.Plain) (h : BaseSetting so n values circuit.gates nss st obs Os)
    (hs : ¬ SingleUse circuit.gates) (hall : ∀ p ∈ values.map Prod.fst, ∃ g ∈ circuit.gates, g.Uses p)
    (hr : ∀ g ∈ circuit.gates, g.Registered) (hro : ∀ o ∈ obs, Op.AllRegistered o.ops) :
    ∃ (D : String → List ℝ) (f : ℕ → ℝ → List ℝ),
      (∀ p ∈ values.map Prod.fst,
        IsPartial (fun v => expectation so eigh draw st circuit obs v .gpsr 0) values p (D p)) ∧
      (∀ k (hk : k < circuit.gates.length), (∃ p, circuit.gates[k].Uses p) → ∀ δ,
        gatesExpectation so st obs (.list (circuit.gates.set k (circuit.gates[k].turned δ))) values = .ok (f k δ)) ∧
      gpsrBwd eigh (jittedExpectation so st obs) (.list circuit.gates) values
        = .ok ((values.map Prod.fst).map fun p => (D p).sum + ∑ k : Fin circuit.gates.length,
          if circuit.gates[k].Uses p ∧ isControlled circuit.gates[k].control = true then
            (Real.sqrt 2 - 2) / 4 * ((f k (Real.pi / 2)).sum - (f k (-(Real.pi / 2))).sum)
              + (Real.sqrt 2 - 1) / 4 * ((f k Real.pi).sum - (f k (-Real.pi)).sum)
          else 0) := by
  refine ⟨gradOf4 n values circuit.gates nss st Os, turnedVals n values circuit.gates nss st Os,
    fun p hp' => h.partial4 hp' fun _ => expectation_gates so eigh draw hp _,
    fun k hk hu δ => h.turned (fun g hg _ => hr g hg) hk hu δ, ?_⟩
  rw [h.bwd_repeated hs hr eigh hall fun _ hr' _ => jittedExpectation_eq so _ hr' hro]
  refine congrArg Except.ok (List.map_congr_left fun p _ => ?_)
  have e1 : (∑ k : Fin circuit.gates.length, if circuit.gates[k].Uses p ∧ isControlled circuit.gates[k].control = true then
            (Real.sqrt 2 - 2) / 4 * ((turnedVals n values circuit.gates nss st Os k (Real.pi / 2)).sum
                - (turnedVals n values circuit.gates nss st Os k (-(Real.pi / 2))).sum)
              + (Real.sqrt 2 - 1) / 4 * ((turnedVals n values circuit.gates nss st Os k Real.pi).sum
                - (turnedVals n values circuit.gates nss st Os k (-Real.pi)).sum)
          else 0) = ((paramIndices circuit.gates p).map fun k =>
        (shiftWeight (ctlAt circuit.gates k) - 1 / 2) * ((turnedVals n values circuit.gates nss st Os k (Real.pi / 2)).sum
            - (turnedVals n values circuit.gates nss st Os k (-(Real.pi / 2))).sum)
          + (Real.sqrt 2 - 1) / 4 * ((turnedVals n values circuit.gates nss st Os k Real.pi).sum
            - (turnedVals n values circuit.gates nss st Os k (-Real.pi)).sum)).sum := by
    rw [sum_paramIndices]
    refine Finset.sum_congr rfl fun k _ => ?_
    by_cases hu : circuit.gates[k].Uses p
    · have hm : (k : ℕ) ∈ paramIndices circuit.gates p := mem_paramIndices.2 ⟨k.isLt, hu⟩
      rw [if_pos hu, ctlAt_eq k.isLt]
      rcases hc : isControlled circuit.gates[(k : ℕ)].control
      · rw [if_neg (by simp [hc])]
        have : turnedVals n values circuit.gates nss st Os k Real.pi
            = turnedVals n values circuit.gates nss st Os k (-Real.pi) := by
          rw [turnedVals_eq hm, turnedVals_eq hm]
          exact List.map_congr_left fun O _ => h.turned_pi hm (by rw [ctlAt_eq k.isLt, hc]) O
        rw [this, shiftWeight, if_neg (by simp)]
        ring
      · rw [if_pos ⟨hu, by simpa using hc⟩, shiftWeight, if_pos rfl]
        ring
    · rw [if_neg hu, if_neg fun h => hu h.1]
  rw [e1, h.codeGrad_eq, List.sum_map_add, list_sum_swap]
  refine congrArg₂ (· + ·) rfl (congrArg List.sum (List.map_congr_left fun k hk => ?_))
  rw [turnedVals_eq hk, turnedVals_eq hk, turnedVals_eq hk, turnedVals_eq hk, List.sum_map_add, List.sum_map_mul_left,
    List.sum_map_mul_left, list_sum_sub, list_sum_sub]

open Classical in
/-- **C25** (JVP, shared parameter names): the error of the JVP.  `c p` says whether the last gate of the parameter `p` is
controlled: the spectral gap of this gate is used for all gates of the parameter.  So a controlled last gate adds an error
also to the contributions of uncontrolled gates. -/
theorem C25_shared_jvp_error {circuit : Op} (hp : circuit.Plain) (h : BaseSetting so n values circuit.gates nss st obs Os)
    (hs : ¬ SingleUse circuit.gates) (hall : ∀ p ∈ values.map Prod.fst, ∃ g ∈ circuit.gates, g.Uses p)
    (hr : ∀ g ∈ circuit.gates, (∃ p, g.Uses p) → g.Registered) {fresh : ℕ → String} (hf : Function.Injective fresh)
    (ts : List ℝ) :
    ∃ (D : String → List ℝ) (f : ℕ → ℝ → List ℝ) (c : String → Bool) (fwd : List ℝ),
      (∀ p ∈ values.map Prod.fst,
        IsPartial (fun v => expectation so eigh draw st circuit obs v .gpsr 0) values p (D p)) ∧
      (∀ k (hk : k < circuit.gates.length), (∃ p, circuit.gates[k].Uses p) → ∀ δ,
        gatesExpectation so st obs (.list (circuit.gates.set k (circuit.gates[k].turned δ))) values = .ok (f k δ)) ∧
      (∀ p k (hk : k < circuit.gates.length), circuit.gates[k].Uses p →
        (∀ j (hj : j < circuit.gates.length), k < j → ¬ circuit.gates[j].Uses p) →
        c p = isControlled circuit.gates[k].control) ∧
      expectation so eigh draw st circuit obs values .gpsr 0 = .ok fwd ∧ fwd.length = obs.length ∧
      gpsrJvp eigh fresh (gatesExpectation so st obs) (.list circuit.gates) values ts
        = .ok (fwd, List.ofFn fun i : Fin fwd.length => (List.zipWith (fun p t =>
          ((D p).getD i 0 + ∑ k : Fin circuit.gates.length, if circuit.gates[k].Uses p then
            (if c p then (Real.sqrt 2 - 2) / 4 else 0) * ((f k (Real.pi / 2)).getD i 0 - (f k (-(Real.pi / 2))).getD i 0)
            + (if isControlled circuit.gates[k].control then (Real.sqrt 2 - 1) / 4 else 0)
              * ((f k Real.pi).getD i 0 - (f k (-Real.pi)).getD i 0)
          else 0) * t) (values.map Prod.fst) ts).sum) := by
  obtain ⟨fwd, h1, hlen, h2⟩ := h.jvp_repeated hs hr eigh hall hf ts fun _ _ _ => rfl
  refine ⟨gradOf4 n values circuit.gates nss st Os, turnedVals n values circuit.gates nss st Os, lastCtl circuit.gates, fwd,
    fun p hp' => h.partial4 hp' fun _ => expectation_gates so eigh draw hp _,
    fun k hk hu δ => h.turned hr hk hu δ, fun p k hk hu hl => lastCtl_eq hk hu hl,
    by rw [expectation_gates so eigh draw hp, h1], hlen, ?_⟩
  have key : ∀ (p : String) (i : Fin fwd.length),
      (codeGrad n values circuit.gates nss st Os (fun _ => shiftWeight (lastCtl circuit.gates p)) p).getD i 0
      = (gradOf4 n values circuit.gates nss st Os p).getD i 0 + ∑ k : Fin circuit.gates.length,
          if circuit.gates[k].Uses p then
            (if lastCtl circuit.gates p then (Real.sqrt 2 - 2) / 4 else 0)
              * ((turnedVals n values circuit.gates nss st Os k (Real.pi / 2)).getD i 0
                - (turnedVals n values circuit.gates nss st Os k (-(Real.pi / 2))).getD i 0)
            + (if isControlled circuit.gates[k].control then (Real.sqrt 2 - 1) / 4 else 0)
              * ((turnedVals n values circuit.gates nss st Os k Real.pi).getD i 0
                - (turnedVals n values circuit.gates nss st Os k (-Real.pi)).getD i 0)
          else 0 := by
    intro p i
    have hi : (i : ℕ) < Os.length := i.isLt.trans_eq (hlen.trans h.fixed.length_eq)
    have hget : ∀ F : Matrix (Lab n) (Lab n) ℂ → ℝ, (Os.map F).getD i 0 = F Os[i] := by
      intro F
      simp [List.getD_eq_getElem?_getD, hi]
    rw [h.codeGrad_eq, gradOf4, hget, hget, sum_paramIndices]
    refine congrArg₂ (· + ·) rfl (Finset.sum_congr rfl fun k _ => ?_)
    by_cases hu : circuit.gates[k].Uses p
    · have hm : (k : ℕ) ∈ paramIndices circuit.gates p := mem_paramIndices.2 ⟨k.isLt, hu⟩
      rw [if_pos hu, if_pos hu, turnedVals_eq hm, turnedVals_eq hm, turnedVals_eq hm, turnedVals_eq hm, hget, hget, hget, hget]
      refine congrArg₂ (· + ·) (congrArg (· * _) ?_) ?_
      · rw [shiftWeight]
        split_ifs <;> ring
      · rcases hc : isControlled circuit.gates[(k : ℕ)].control
        · rw [h.turned_pi hm (by rw [ctlAt_eq k.isLt, hc])]
          simp
        · rw [if_pos (by simpa using hc)]
    · rw [if_neg hu, if_neg hu]
  simp only [key] at h2
  exact h2

/-! ## C61: the JVP and the backward pass -/

/-- **C61** (every parameter name is used by at most one gate): the backward pass returns the sums, and the JVP the
contractions with the tangents, of the same numbers `G p`, for controlled and uncontrolled gates. -/
theorem C61_single (h : BaseSetting so n values gs nss st obs Os)
    (hs : SingleUse gs) (hk : values ≠ []) (hr : ∀ g ∈ gs, g.Registered) (hro : ∀ o ∈ obs, Op.AllRegistered o.ops)
    (fresh : ℕ → String) :
    ∃ (G : String → List ℝ) (fwd : List ℝ), fwd.length = obs.length ∧ (∀ p, (G p).length = obs.length) ∧
      gpsrBwd eigh (jittedExpectation so st obs) (.list gs) values = .ok ((values.map Prod.fst).map fun p => (G p).sum) ∧
      ∀ ts, gpsrJvp eigh fresh (gatesExpectation so st obs) (.list gs) values ts
        = .ok (fwd, List.ofFn fun i : Fin fwd.length =>
          (List.zipWith (fun p t => (G p).getD i 0 * t) (values.map Prod.fst) ts).sum) := by
  obtain ⟨fwd, hfwd, hlen⟩ : ∃ fwd, gatesExpectation so st obs (.list gs) values = .ok fwd ∧ fwd.length = obs.length :=
    ⟨_, h.eval_self, by simp [h.fixed.length_eq]⟩
  refine ⟨fun p => halfDiff (valuesOf n values gs nss st Os p) (values.real p), fwd, hlen, fun p => ?_, ?_, fun ts => ?_⟩
  · simp [halfDiff, valuesOf, h.fixed.length_eq]
  · exact plain_bwd h.numeric hk (extractGateNames_le h hs) eigh (f := valuesOf n values gs nss st Os)
      fun p _ t => by rw [jittedExpectation_eq so _ hr hro, h.eval]; rfl
  · exact plain_jvp h.numeric hk (extractGateNames_le h hs) eigh fresh (f := valuesOf n values gs nss st Os)
      hfwd (fun p _ t => by rw [h.eval]; rfl) ts

/-- **C61** (shared parameter names): the same, if the gates of each parameter are either all controlled or all
uncontrolled.  Without this hypothesis the claim is false (`C61_last_gap_wrong`). -/
theorem C61_shared_partial (h : BaseSetting so n values gs nss st obs Os)
    (hs : ¬ SingleUse gs) (hall : ∀ p ∈ values.map Prod.fst, ∃ g ∈ gs, g.Uses p)
    (hr : ∀ g ∈ gs, g.Registered) (hro : ∀ o ∈ obs, Op.AllRegistered o.ops)
    (hsame : ∀ g ∈ gs, ∀ g' ∈ gs, ∀ p, g.Uses p → g'.Uses p → isControlled g.control = isControlled g'.control)
    {fresh : ℕ → String} (hf : Function.Injective fresh) :
    ∃ (G : String → List ℝ) (fwd : List ℝ), fwd.length = obs.length ∧ (∀ p, (G p).length = obs.length) ∧
      gpsrBwd eigh (jittedExpectation so st obs) (.list gs) values = .ok ((values.map Prod.fst).map fun p => (G p).sum) ∧
      ∀ ts, gpsrJvp eigh fresh (gatesExpectation so st obs) (.list gs) values ts
        = .ok (fwd, List.ofFn fun i : Fin fwd.length =>
          (List.zipWith (fun p t => (G p).getD i 0 * t) (values.map Prod.fst) ts).sum) := by
  have hw : ∀ p, codeGrad n values gs nss st Os (fun k => shiftWeight (ctlAt gs k)) p
      = codeGrad n values gs nss st Os (fun _ => shiftWeight (lastCtl gs p)) p := by
    intro p
    refine List.map_congr_left fun O _ => congrArg List.sum (List.map_congr_left fun k hk => congrArg (· * _) ?_)
    have hl : (paramIndices gs p).getLastD 0 ∈ paramIndices gs p := by
      rw [List.getLastD_eq_getLast?, List.getLast?_eq_some_getLast (List.ne_nil_of_mem hk), Option.getD_some]
      exact List.getLast_mem _
    obtain ⟨h1, h2⟩ := mem_paramIndices.1 hk
    obtain ⟨h3, h4⟩ := mem_paramIndices.1 hl
    beta_reduce
    rw [lastCtl, ctlAt_eq h1, ctlAt_eq h3, hsame _ (List.getElem_mem h1) _ (List.getElem_mem h3) p h2 h4]
  obtain ⟨fwd, hfwd, hlen⟩ : ∃ fwd, gatesExpectation so st obs (.list gs) values = .ok fwd ∧ fwd.length = obs.length :=
    ⟨_, h.eval_self, by simp [h.fixed.length_eq]⟩
  refine ⟨codeGrad n values gs nss st Os fun k => shiftWeight (ctlAt gs k), fwd, hlen, fun p => ?_,
    h.bwd_repeated hs hr eigh hall fun _ hr' _ => jittedExpectation_eq so _ hr' hro, fun ts => ?_⟩
  · simp [codeGrad, h.fixed.length_eq]
  · obtain ⟨fwd, h1, -, h2⟩ := h.jvp_repeated hs (fun g hg _ => hr g hg) eigh hall hf ts fun _ _ _ => rfl
    rw [hfwd] at h1
    cases h1
    rw [h2]
    simp only [← hw]
    rfl

/-! ## A controlled and an uncontrolled gate with the same parameter -/

/-- The circuit `[RX("a", 0), RX("a", 1, control=0)]`. -/
noncomputable def mixedRX : Op := mkSeq [.prim (Gate.RX (.str "a") (.int 0)), .prim (Gate.RX (.str "a") (.int 1) (.int 0))]

theorem mixedRX_plain : mixedRX.Plain := .seq (.cons (.prim _) (.cons (.prim _) .nil))

theorem mixedRX_gates : mixedRX.gates = [Gate.RX (.str "a") (.int 0), Gate.RX (.str "a") (.int 1) (.int 0)] := rfl

/-- The state `|00⟩`. -/
def zeroZero : NDArray ℂ := ⟨[2, 2], [1, 0, 0, 0]⟩

theorem zeroZero_isKet : IsKet 2 zeroZero := ⟨rfl, rfl⟩

theorem zeroZero_get (i j : Fin 2) : zeroZero.get (lab2 i j).bits = if i = 0 ∧ j = 0 then 1 else 0 := by
  rw [lab2_bits]; fin_cases i <;> fin_cases j <;> rfl

/-- The observable `Z(0)` on two qubits. -/
theorem obsZ_fixed2 : obsZ.Fixed so 2 False (gateMat 2 StdGate.Z.mat [0] []) := fun _ =>
  ⟨.one (.gate ⟨.Z, ⟨.Z _ _ _, rfl, ⟨.inr (.inl rfl), by decide⟩⟩, rfl, rfl⟩), False.elim⟩

/-- The gates of `mixedRX` with the angles changed. -/
noncomputable def mixedGates (s t : ℝ) : List Gate :=
  [⟨.parametric (.str "a") s, "X", [0], some [.none], none, false⟩, ⟨.parametric (.str "a") t, "X", [1], some [.int 0], none, false⟩]

theorem mixedRX_eq : mixedRX.gates = mixedGates 0 0 := rfl

theorem mixed_std {v : Values} {x : ℝ} (h : v.lookup "a" = some (.num x)) (s t : ℝ) :
    (⟨.parametric (.str "a") s, "X", [0], some [.none], none, false⟩ : Gate).Std 2 v (.RX (x + s)) ∧
    (⟨.parametric (.str "a") t, "X", [1], some [.int 0], none, false⟩ : Gate).Std 2 v (.RX (x + t)) :=
  ⟨(NamedRot.RX "a" s 0 _ _).std ⟨.inr (.inl rfl), by change ValidDims 2 [0]; decide⟩ h,
    (NamedRot.RX "a" t 1 _ _).std ⟨.inr (.inr ⟨[0], rfl⟩), by change ValidDims 2 [0, 1]; decide⟩ h⟩

theorem mixed_value {v : Values} {x : ℝ} (h : v.lookup "a" = some (.num x)) (s t : ℝ) :
    gatesExpectation so (.vec zeroZero) [obsZ] (.list (mixedGates s t)) v = .ok [Real.cos (x + s)] := by
  obtain ⟨h1, h2⟩ := mixed_std h s t
  rw [gatesExpectation_pure (n := 2) (O := gateMat 2 StdGate.Z.mat [0] []) (by simp [mixedGates]) (by
    simp only [mixedGates, List.mem_cons, List.not_mem_nil, or_false, forall_eq_or_imp, forall_eq]
    exact ⟨h1.ok, h2.ok⟩) (by simp [mixedGates]) zeroZero_isKet (obsZ_fixed2 so)]
  rw [mixedGates, gatesMat, gatesMat, gatesMat, h1.mat, h2.mat, one_mul, sum_lab2]
  have e1 : stdMat 2 (⟨.parametric (.str "a") s, "X", [0], some [.none], none, false⟩ : Gate) (.RX (x + s))
    = gateMat 2 (StdGate.RX (x + s)).mat [0] [] := rfl
  have e2 : stdMat 2 (⟨.parametric (.str "a") t, "X", [1], some [.int 0], none, false⟩ : Gate) (.RX (x + t))
    = gateMat 2 (StdGate.RX (x + t)).mat [1] [0] := rfl
  rw [e1, e2]
  simp only [← Matrix.mulVec_mulVec]
  simp only [mulVec_lab2, gateMat_lab2_first, gateMat_lab2_ctl, ket, zeroZero_get, StdGate.mat, matE]
  refine congrArg (fun z => Except.ok [z]) ?_
  have hc : Real.cos (x + s) = 2 * Real.cos ((x + s) / 2) ^ 2 - 1 := by
    rw [← Real.cos_two_mul]; congr 1; ring
  have h3 := Real.sin_sq_add_cos_sq ((x + s) / 2)
  have h4 := Real.sin_sq_add_cos_sq ((x + t) / 2)
  rw [hc]
  generalize Real.cos ((x + s) / 2) = c at h3 ⊢
  generalize Real.sin ((x + s) / 2) = d at h3 ⊢
  generalize Real.cos ((x + t) / 2) = c' at h4 ⊢
  generalize Real.sin ((x + t) / 2) = d' at h4 ⊢
  norm_num [Complex.add_re, Complex.mul_re, Complex.mul_im, Complex.add_im]
  linear_combination (-d ^ 2) * h4 - h3

theorem mixedSetting {v : Values} {x : ℝ} (hv : v.Numeric) (h : v.lookup "a" = some (.num x)) :
    BaseSetting so 2 v mixedRX.gates [[], []] (.vec zeroZero) [obsZ] [gateMat 2 StdGate.Z.mat [0] []] where
  ne := by simp [mixedRX_gates]
  std := by
    simp only [mixedRX_eq, mixedGates, List.mem_cons, List.not_mem_nil, or_false, forall_eq_or_imp, forall_eq]
    exact ⟨⟨_, (mixed_std h 0 0).1⟩, ⟨_, (mixed_std h 0 0).2⟩⟩
  noise := .cons (.none rfl) (.cons (.none rfl) .nil)
  on := zeroZero_isKet
  numeric := hv
  obs_ne := by simp
  fixed := by
    refine .cons (fun v => ⟨(obsZ_fixed2 so v).1, fun hm => absurd hm ?_⟩) .nil
    rintro (⟨ρ, h⟩ | h)
    · cases h
    · exact h (by simp [mixedRX_gates, Gate.RX, mkGate])

theorem mixed_not_single : ¬ SingleUse mixedRX.gates := by
  rw [mixedRX_gates, SingleUse, List.pairwise_cons]
  intro h
  exact h.1 (Gate.RX (.str "a") (.int 1) (.int 0)) (by simp) "a" rfl rfl

theorem mixed_registered : ∀ g ∈ mixedRX.gates, g.Registered := by
  simp [mixedRX_gates, Gate.Registered, Gate.RX, mkGate]

/-- **C61 is false of the code**, and so are C24 and C25 in a further way: for `[RX("a", 0), RX("a", 1, control=0)]` on `|00⟩` and the
observable `Z(0)`, the expectation value is `cos x`: the controlled gate has no influence on it, and the backward pass
returns the derivative `-sin x`.  The JVP returns `-√2/2 · sin x`: it uses the spectral gap `1` of the last gate for the
uncontrolled gate, too. -/
theorem C61_last_gap_wrong {fresh : ℕ → String} (hf : Function.Injective fresh) (x : ℝ) :
    let values : Values := [("a", .num x)]
    IsPartial (fun v => expectation so eigh draw (.vec zeroZero) mixedRX [obsZ] v .gpsr 0) values "a" [-Real.sin x] ∧
    gpsrBwd eigh (jittedExpectation so (.vec zeroZero) [obsZ]) (.list mixedRX.gates) values = .ok [-Real.sin x] ∧
    gpsrJvp eigh fresh (gatesExpectation so (.vec zeroZero) [obsZ]) (.list mixedRX.gates) values [1]
      = .ok ([Real.cos x], [-(Real.sqrt 2 / 2) * Real.sin x]) := by
  intro values
  have hset := mixedSetting so (v := values) (x := x) ⟨by simp [values], by simp [values]⟩ rfl
  have hall : ∀ p ∈ values.map Prod.fst, ∃ g ∈ mixedRX.gates, g.Uses p := by
    simp only [values, List.map_cons, List.map_nil, List.mem_singleton, forall_eq]
    exact ⟨Gate.RX (.str "a") (.int 0), by simp [mixedRX_gates], rfl⟩
  have hpart : IsPartial (fun v => expectation so eigh draw (.vec zeroZero) mixedRX [obsZ] v .gpsr 0) values "a"
      [-Real.sin x] := by
    refine ⟨x, fun t => [Real.cos t], rfl, fun t => ?_, fun t => rfl, fun i => ?_⟩
    · refine (expectation_gates so eigh draw mixedRX_plain _).trans ?_
      rw [mixedRX_eq, mixed_value so (x := t) rfl, add_zero]
    · cases i with
      | zero => simpa using Real.hasDerivAt_cos x
      | succ i => simpa using hasDerivAt_const x (0 : ℝ)
  have hturn : ∀ δ, (mixedRX.gates.set 0 (mixedRX.gates[0].turned δ) = mixedGates (0 + δ) 0) ∧
      mixedRX.gates.set 1 (mixedRX.gates[1].turned δ) = mixedGates 0 (0 + δ) := fun δ => ⟨rfl, rfl⟩
  have hu0 : ∃ p, mixedRX.gates[0].Uses p := ⟨"a", rfl⟩
  have hu1 : ∃ p, mixedRX.gates[1].Uses p := ⟨"a", rfl⟩
  have hc0 : isControlled mixedRX.gates[0].control = false := rfl
  have hc1 : isControlled mixedRX.gates[1].control = true := rfl
  have ha0 : mixedRX.gates[0].Uses "a" := rfl
  have ha1 : mixedRX.gates[1].Uses "a" := rfl
  have hf0 : ∀ {f : ℕ → ℝ → List ℝ}, (∀ k (hk : k < mixedRX.gates.length), (∃ p, mixedRX.gates[k].Uses p) → ∀ δ,
        gatesExpectation so (.vec zeroZero) [obsZ] (.list (mixedRX.gates.set k (mixedRX.gates[k].turned δ))) values = .ok (f k δ)) →
      (∀ δ, f 0 δ = [Real.cos (x + δ)]) ∧ ∀ δ, f 1 δ = [Real.cos x] := by
    intro f h
    constructor
    · intro δ
      have := h 0 (by decide) hu0 δ
      rw [(hturn δ).1, mixed_value so (x := x) rfl, zero_add] at this
      exact (Except.ok.inj this).symm
    · intro δ
      have := h 1 (by decide) hu1 δ
      rw [(hturn δ).2, mixed_value so (x := x) rfl, add_zero] at this
      exact (Except.ok.inj this).symm
  have hkeys : values.map Prod.fst = ["a"] := rfl
  refine ⟨hpart, ?_, ?_⟩
  · obtain ⟨D, f, h1, h2, h3⟩ := C25_shared_bwd_error so eigh draw mixedRX_plain hset mixed_not_single hall mixed_registered
      obsZ_registered
    obtain ⟨e0, e1⟩ := hf0 h2
    rw [h3, hkeys, List.map_cons, List.map_nil, (h1 "a" (by simp [values])).unique hpart]
    refine congrArg (fun z => Except.ok [z]) ?_
    change _ + ∑ k : Fin 2, _ = _
    rw [Fin.sum_univ_two]
    rw [if_neg (fun h => by have := h.2; exact absurd (hc0.symm.trans this) (by decide))]
    simp [e1]
  · obtain ⟨D, f, c, fwd, h1, h2, h3, h4, -, h5⟩ := C25_shared_jvp_error so eigh draw mixedRX_plain hset mixed_not_single hall
      (fun g hg _ => mixed_registered g hg) hf [1]
    obtain ⟨e0, e1⟩ := hf0 h2
    have hc : c "a" = true := (h3 "a" 1 (by decide) ha1 (fun j hj hlt => by
      have : j < 2 := hj
      omega)).trans hc1
    obtain rfl : fwd = [Real.cos x] := by
      have := (expectation_gates so eigh draw mixedRX_plain values).symm.trans h4
      rw [mixedRX_eq, mixed_value so (x := x) rfl, add_zero] at this
      exact (Except.ok.inj this).symm
    rw [h5, hkeys]
    refine congrArg (fun z => Except.ok ([Real.cos x], z)) ?_
    change (List.ofFn fun i : Fin 1 => _) = _
    rw [List.ofFn_succ, List.ofFn_zero]
    refine congrArg (fun z => [z]) ?_
    rw [List.zipWith_cons_cons, List.zipWith_nil_left, List.sum_singleton, (h1 "a" (by simp [values])).unique hpart]
    change (_ + ∑ k : Fin 2, _) * _ = _
    rw [Fin.sum_univ_two]
    simp only [Fin.val_zero, Fin.val_one, Fin.isValue, e0, e1, hc]
    refine (congrArg (fun z => (_ + z) * 1) (congrArg₂ (· + ·) (if_pos ha0) (if_pos ha1))).trans ?_
    have hpi : Real.cos (x + Real.pi) = Real.cos (x + -Real.pi) := by
      rw [Real.cos_add_pi, ← sub_eq_add_neg, Real.cos_sub_pi]
    have h2 : Real.cos (x + Real.pi / 2) = -Real.sin x := Real.cos_add_pi_div_two x
    have h3 : Real.cos (x + -(Real.pi / 2)) = Real.sin x := by rw [← sub_eq_add_neg, Real.cos_sub_pi_div_two]
    simp only [hpi, h2, h3, List.getD_cons_zero, sub_self, mul_zero, add_zero, if_true]
    ring

/-- The two gradients of `C61_last_gap_wrong` differ, e.g. at `x = π/2`. -/
example : -(Real.sqrt 2 / 2) * Real.sin (Real.pi / 2) ≠ -Real.sin (Real.pi / 2) := by
  rw [Real.sin_pi_div_two]
  have := Real.sqrt_lt_sqrt (by norm_num : (0 : ℝ) ≤ 2) (by norm_num : (2 : ℝ) < 4)
  rw [show (4 : ℝ) = 2 ^ 2 by norm_num, Real.sqrt_sq (by norm_num)] at this
  intro h
  linarith

/-! ## Non-vacuity -/

theorem ctlSetting {v : Values} {x : ℝ} (hv : v.Numeric) (h : v.lookup "a" = some (.num x)) :
    BaseSetting so 2 v ctlRX.gates [[]] (.vec plusZero) [obsX0] [gateMat 2 StdGate.X.mat [0] []] where
  ne := by simp [ctlRX_gates]
  std := by
    simp only [ctlRX_gates, List.mem_singleton, forall_eq]
    exact ⟨_, ctlRX_std h⟩
  noise := .cons (.none rfl) .nil
  on := plusZero_isKet
  numeric := hv
  obs_ne := by simp
  fixed := by
    refine .cons (fun v => ⟨(obsX0_fixed so v).1, fun hm => absurd hm ?_⟩) .nil
    rintro (⟨ρ, h⟩ | h)
    · cases h
    · exact h (by simp [ctlRX_gates, Gate.RX, mkGate])

theorem ctl_single : SingleUse ctlRX.gates := by
  rw [ctlRX_gates, SingleUse]; simp

/-- Non-vacuity of `C25_bwd_error`, `C25_bwd_iff`, `C25_jvp_error`, `C25_jvp_iff` and `C61_single`: a controlled rotation. -/
example : ctlRX.Plain ∧ BaseSetting so 2 [("a", .num 1)] ctlRX.gates [[]] (.vec plusZero) [obsX0]
      [gateMat 2 StdGate.X.mat [0] []] ∧ SingleUse ctlRX.gates ∧ ([("a", .num 1)] : Values) ≠ [] ∧
    (∀ g ∈ ctlRX.gates, g.Registered) ∧ ∀ o ∈ [obsX0], Op.AllRegistered o.ops :=
  ⟨ctlRX_plain, ctlSetting so ⟨by simp, by simp⟩ rfl, ctl_single, by simp, ctlRX_registered, obsX0_registered⟩

/-- The criterion of `C25_bwd_iff` fails for it at `x = 1`: the values are `-sin (1/2)` and `sin (1/2)`. -/
example (so : SetOrder) (eigh : Eigh) (draw : Draw) :
    ReturnsAt (fun v => expectation so eigh draw (.vec plusZero) ctlRX [obsX0] v .gpsr 0) [("a", .num 1)] "a" Real.pi
      [-Real.sin (1 / 2)] ∧
    ReturnsAt (fun v => expectation so eigh draw (.vec plusZero) ctlRX [obsX0] v .gpsr 0) [("a", .num 1)] "a" (-Real.pi)
      [Real.sin (1 / 2)] := by
  constructor
  · refine ⟨1, rfl, (expectation_gates so eigh draw ctlRX_plain _).trans ((ctlRX_value so rfl).trans ?_)⟩
    rw [show (1 + Real.pi) / 2 = 1 / 2 + Real.pi / 2 by ring, Real.cos_add_pi_div_two]
  · refine ⟨1, rfl, (expectation_gates so eigh draw ctlRX_plain _).trans ((ctlRX_value so rfl).trans ?_)⟩
    rw [show (1 + -Real.pi) / 2 = 1 / 2 - Real.pi / 2 by ring, Real.cos_sub_pi_div_two]

/-- Non-vacuity of `C25_shared_bwd_error` and `C25_shared_jvp_error`. -/
example : mixedRX.Plain ∧ BaseSetting so 2 [("a", .num 1)] mixedRX.gates [[], []] (.vec zeroZero) [obsZ]
      [gateMat 2 StdGate.Z.mat [0] []] ∧ ¬ SingleUse mixedRX.gates ∧
    (∀ p ∈ ([("a", .num 1)] : Values).map Prod.fst, ∃ g ∈ mixedRX.gates, g.Uses p) ∧
    (∀ g ∈ mixedRX.gates, g.Registered) ∧ (∀ o ∈ [obsZ], Op.AllRegistered o.ops) ∧
    ∃ fresh : ℕ → String, Function.Injective fresh := by
  refine ⟨mixedRX_plain, mixedSetting so ⟨by simp, by simp⟩ rfl, mixed_not_single, ?_, mixed_registered, obsZ_registered, ?_⟩
  · simp only [List.map_cons, List.map_nil, List.mem_singleton, forall_eq]
    exact ⟨Gate.RX (.str "a") (.int 0), by simp [mixedRX_gates], rfl⟩
  · exact ⟨fun i => String.ofList (List.replicate i 'x'), fun i j h => by
      simpa using congrArg List.length (String.ofList_injective h)⟩

/-- Non-vacuity of `C61_shared_partial`: two controlled rotations with the same parameter. -/
example : ∃ gs : List Gate, BaseSetting so 2 [("a", .num 1)] gs [[], []] (.vec plusZero) [obsX0]
      [gateMat 2 StdGate.X.mat [0] []] ∧ ¬ SingleUse gs ∧
    (∀ p ∈ ([("a", .num 1)] : Values).map Prod.fst, ∃ g ∈ gs, g.Uses p) ∧
    (∀ g ∈ gs, g.Registered) ∧ (∀ o ∈ [obsX0], Op.AllRegistered o.ops) ∧
    (∀ g ∈ gs, ∀ g' ∈ gs, ∀ p, g.Uses p → g'.Uses p → isControlled g.control = isControlled g'.control) ∧
    ∃ g ∈ gs, isControlled g.control = true := by
  have hm : ∀ g ∈ [Gate.RX (.str "a") (.int 1) (.int 0), Gate.RX (.str "a") (.int 1) (.int 0)],
      g = Gate.RX (.str "a") (.int 1) (.int 0) := by simp
  refine ⟨[Gate.RX (.str "a") (.int 1) (.int 0), Gate.RX (.str "a") (.int 1) (.int 0)], ⟨by simp, fun g hg => ?_,
    .cons (.none rfl) (.cons (.none rfl) .nil), plusZero_isKet, ⟨by simp, by simp⟩, by simp, ?_⟩, ?_, ?_, fun g hg => ?_,
    obsX0_registered, fun g hg g' hg' _ _ _ => by rw [hm g hg, hm g' hg'],
    Gate.RX (.str "a") (.int 1) (.int 0), by simp, rfl⟩
  · rw [hm g hg]; exact ⟨_, ctlRX_std rfl⟩
  · refine .cons (fun v => ⟨(obsX0_fixed so v).1, fun hm => absurd hm ?_⟩) .nil
    rintro (⟨ρ, h⟩ | h)
    · cases h
    · exact h (by simp [Gate.RX, mkGate])
  · intro h
    rw [SingleUse, List.pairwise_cons] at h
    exact h.1 (Gate.RX (.str "a") (.int 1) (.int 0)) (by simp) "a" rfl rfl
  · simp only [List.map_cons, List.map_nil, List.mem_singleton, forall_eq]
    exact ⟨Gate.RX (.str "a") (.int 1) (.int 0), by simp, rfl⟩
  · rw [hm g hg]; trivial

end Verif
