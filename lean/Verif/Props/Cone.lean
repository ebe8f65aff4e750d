import Verif.Lemmas.Cone
import Verif.Props.NoiseBound
import Verif.Props.GpsrControlled

/-!
# C89: only the light cone of an observable matters
-/

set_option autoImplicit false

namespace Verif
open NDArray
variable {n : ℕ} (so : SetOrder) (eigh : Eigh) (draw : Draw) {values : Values}
  {nss : List (List StdNoise)} {st : State} {obs : List Observable} {Os : List (LMat n)} {S : List ℕ}

theorem zip_mem {gs : List Gate} (hs : ∀ g ∈ gs, ∃ s, g.Std n values s) (hn : List.Forall₂ Gate.NoiseIs gs nss) :
    ∀ x ∈ gs.zip nss, (∃ s, x.1.Std n values s) ∧ x.1.NoiseIs x.2 :=
  fun x hx => ⟨hs x.1 (List.of_mem_zip hx).1, (List.forall₂_iff_zip.1 hn).2 hx⟩

/-- The noise of the gates in the cone. -/
theorem cone_noise {gs : List Gate} (hn : List.Forall₂ Gate.NoiseIs gs nss) :
    ∃ nss', List.Forall₂ Gate.NoiseIs (lightCone S gs) nss' ∧
      (coneOf (fun x : Gate × List StdNoise => x.1.qubits) S (gs.zip nss)).1 = (lightCone S gs).zip nss' := by
  have e : gs = (gs.zip nss).map Prod.fst := (List.map_fst_zip hn.length_eq.le).symm
  have h := coneOf_map (Prod.fst : Gate × List StdNoise → Gate) Gate.qubits S (gs.zip nss)
  rw [← e] at h
  have h1 : lightCone S gs = (coneOf (fun x : Gate × List StdNoise => x.1.qubits) S (gs.zip nss)).1.map Prod.fst :=
    congrArg Prod.fst h
  have hm : ∀ x ∈ (coneOf (fun x : Gate × List StdNoise => x.1.qubits) S (gs.zip nss)).1, x.1.NoiseIs x.2 :=
    fun x hx => (List.forall₂_iff_zip.1 hn).2 ((coneOf_sublist _ _ _).subset hx)
  rw [h1]
  generalize (coneOf (fun x : Gate × List StdNoise => x.1.qubits) S (gs.zip nss)).1 = l at hm
  refine ⟨l.map Prod.snd, ?_, ?_⟩
  · rw [List.forall₂_map_left_iff, List.forall₂_map_right_iff, List.forall₂_same]
    exact hm
  · rw [List.zip_map']; simp

theorem lightCone_subset {gs : List Gate} : ∀ g ∈ lightCone S gs, g ∈ gs := fun _ hg => (coneOf_sublist _ _ _).subset hg

theorem BaseSetting.inert {gs : List Gate} (h : BaseSetting so n values gs nss st obs Os) (hS : ∀ o ∈ obs, o.ActsOn S) :
    ∀ O ∈ Os, Inert n S O := by
  have := h.fixed
  clear h
  induction this with
  | nil => simp
  | @cons o O obs Os ho _ ih =>
    intro O' hO'
    rcases List.mem_cons.1 hO' with rfl | hO'
    · exact Op.MeansSum.inert (ho []).1 (hS o (by simp))
    · exact ih (fun o ho => hS o (by simp [ho])) O' hO'

theorem Mixed.cone {gs : List Gate} (hm : Mixed st (lightCone S gs)) : Mixed st gs :=
  hm.imp_right fun h h' => h fun g hg => h' g (lightCone_subset g hg)

theorem ExactMode.cone {mode : DiffMode} {circuit small : Op} (hi : small.gates = lightCone S circuit.gates)
    (hm : ExactMode mode values st circuit) : ExactMode mode values st small :=
  hm.imp_right (Or.imp_right fun ⟨h1, h2, h3⟩ => ⟨h1, h2, fun hm => h3 (hi ▸ hm).cone⟩)

/-- **C89** (light cone): let all observables act on the qubits of `S` only, and let `small` be the circuit of the gates in
the backward light cone of `S`, in the same order.  Then, in every mode without shots, both circuits have the same
expectation values.  (The cone must not be empty: `expectation` refuses circuits without gates, C46.) -/
theorem C89_cone {mode : DiffMode} {circuit small : Op} (hp : circuit.Plain) (hp' : small.Plain)
    (hS : ∀ o ∈ obs, o.ActsOn S) (hi : small.gates = lightCone S circuit.gates) (hne : small.gates ≠ [])
    (hm : ExactMode mode values st circuit) (h : BaseSetting so n values circuit.gates nss st obs Os) :
    ∃ xs, xs.length = obs.length ∧ expectation so eigh draw st circuit obs values mode 0 = .ok xs ∧
      expectation so eigh draw st small obs values mode 0 = .ok xs := by
  obtain ⟨nss', hn', e⟩ := cone_noise (S := S) h.noise
  have h' : BaseSetting so n values small.gates nss' st obs Os :=
    { ne := hne
      std := fun g hg => h.std g (lightCone_subset g (hi ▸ hg))
      noise := hi ▸ hn'
      on := h.on
      numeric := h.numeric
      obs_ne := h.obs_ne
      fixed := h.fixed.imp fun o O hO values => ⟨(hO values).1, fun hm => (hO values).2 (hi ▸ hm).cone⟩ }
  refine ⟨_, ?_, expectation_exact so eigh draw hm hp h, ?_⟩
  · simp [h.fixed.length_eq]
  · rw [expectation_exact so eigh draw (hm.cone hi) hp' h', hi, ← e]
    refine congrArg Except.ok (List.map_congr_left fun O hO => ?_)
    obtain ⟨O', -, h2⟩ := cone_run (h.inert so hS O hO) (zip_mem h.std h.noise)
    rw [expVal, expVal, (h2 _).1, (h2 _).2]

theorem noisyRun_same {values values' : Values} {l : List (Gate × List StdNoise)} (h : ∀ x ∈ l, ∃ s, x.1.Std n values s)
    (he : ∀ x ∈ l, ∀ p, x.1.Uses p → values'.lookup p = values.lookup p) (ρ : LMat n) :
    noisyRun n .unitary values' l ρ = noisyRun n .unitary values l ρ := by
  induction l generalizing ρ with
  | nil => rfl
  | cons x l ih =>
    obtain ⟨g, ns⟩ := x
    obtain ⟨s, hs⟩ := h (g, ns) (by simp)
    have hs' := Gate.Std.congr hs (he (g, ns) (by simp))
    rw [noisyRun, noisyRun, hs.mat, hs'.mat, ih (fun x hx => h x (by simp [hx])) fun x hx => he x (by simp [hx])]

theorem BaseSetting.upd {gs : List Gate} (h : BaseSetting so n values gs nss st obs Os) (p : String) (x : ℝ) :
    BaseSetting so n (values.upd p x) gs nss st obs Os where
  ne := h.ne
  std := h.std_upd p x
  noise := h.noise
  on := h.on
  numeric := ⟨by
    have := Values.keys_set values p x
    simp only [Values.keys] at this
    rw [this]; exact h.numeric.nodup, by
    intro e he
    obtain ⟨e', he', rfl⟩ := List.mem_map.1 he
    beta_reduce
    split_ifs
    exacts [⟨x, rfl⟩, h.numeric.num e' he']⟩
  obs_ne := h.obs_ne
  fixed := h.fixed

theorem ExactMode.upd {mode : DiffMode} {circuit : Op} (hm : ExactMode mode values st circuit) (p : String) (x : ℝ) :
    ExactMode mode (values.upd p x) st circuit := by
  rcases hm with hm | ⟨hm, hf⟩ | ⟨hm, hf, hx⟩
  exacts [.inl hm, .inr (.inl ⟨hm, hf.upd p x⟩), .inr (.inr ⟨hm, hf.upd p x, hx⟩)]

/-- **C89** (parameters outside the cone): the expectation values do not depend on a parameter that no gate of the light cone
uses. -/
theorem C89_constant {mode : DiffMode} {circuit : Op} (hp : circuit.Plain) (hS : ∀ o ∈ obs, o.ActsOn S)
    (hm : ExactMode mode values st circuit) (h : BaseSetting so n values circuit.gates nss st obs Os)
    {p : String} (hu : ∀ g ∈ lightCone S circuit.gates, ¬ g.Uses p) (x : ℝ) :
    ∃ xs, xs.length = obs.length ∧ expectation so eigh draw st circuit obs values mode 0 = .ok xs ∧
      expectation so eigh draw st circuit obs (values.upd p x) mode 0 = .ok xs := by
  obtain ⟨nss', hn', e⟩ := cone_noise (S := S) h.noise
  have h' := h.upd so p x
  refine ⟨_, ?_, expectation_exact so eigh draw hm hp h, ?_⟩
  · simp [h.fixed.length_eq]
  · rw [expectation_exact so eigh draw (hm.upd p x) hp h']
    refine congrArg Except.ok (List.map_congr_left fun O hO => ?_)
    obtain ⟨_, _, h2⟩ := cone_run (h.inert so hS O hO) (zip_mem h.std h.noise)
    obtain ⟨_, _, h3⟩ := cone_run (h.inert so hS O hO) (zip_mem h'.std h.noise)
    rw [expVal, expVal, (h2 _).1, (h3 _).1, ← (h2 _).2, ← (h3 _).2, e, noisyRun_same]
    · intro x hx
      exact h.std _ (lightCone_subset _ (List.of_mem_zip hx).1)
    · intro y hy q hq
      refine Values.lookup_set_of_ne ?_ x
      rintro rfl
      exact hu _ (List.of_mem_zip hy).1 hq

/-- **C89** (derivatives outside the cone are zero). -/
theorem C89_derivative {mode : DiffMode} {circuit : Op} (hp : circuit.Plain) (hS : ∀ o ∈ obs, o.ActsOn S)
    (hm : ExactMode mode values st circuit) (h : BaseSetting so n values circuit.gates nss st obs Os)
    {p : String} (hk : p ∈ values.map Prod.fst) (hu : ∀ g ∈ lightCone S circuit.gates, ¬ g.Uses p) :
    IsPartial (fun v => expectation so eigh draw st circuit obs v mode 0) values p (List.replicate obs.length 0) := by
  obtain ⟨xs, h1, h2, -⟩ := C89_constant so eigh draw hp hS hm h hu 0
  refine ⟨values.real p, fun _ => xs, h.numeric.real hk, fun t => ?_, fun t => by simp [h1], fun i => ?_⟩
  · obtain ⟨ys, -, h3, h4⟩ := C89_constant so eigh draw hp hS hm h hu t
    rw [h2] at h3
    cases h3
    exact h4
  · have : (List.replicate obs.length (0 : ℝ)).getD i 0 = 0 := by
      rw [List.getD_eq_getElem?_getD, List.getElem?_replicate]
      split_ifs <;> rfl
    rw [this]
    exact hasDerivAt_const _ _

/-- **C89** (the gradient that GPSR returns): for parameters used at most once, `analytical_gpsr_bwd` returns exactly `0` for
every parameter that no gate of the cone uses, also for controlled rotations, for which its other components are not
reliable (C25). -/
theorem C89_gradient {circuit : Op} (hp : circuit.Plain) (hS : ∀ o ∈ obs, o.ActsOn S)
    (h : BaseSetting so n values circuit.gates nss st obs Os) (hs : SingleUse circuit.gates)
    (hr : ∀ g ∈ circuit.gates, g.Registered) (hro : ∀ o ∈ obs, Op.AllRegistered o.ops)
    {p : String} (hk : p ∈ values.map Prod.fst) (hu : ∀ g ∈ lightCone S circuit.gates, ¬ g.Uses p) :
    ∃ G : String → ℝ, gpsrBwd eigh (jittedExpectation so st obs) (.list circuit.gates) values = .ok ((values.map Prod.fst).map G) ∧
      G p = 0 := by
  have hne : values ≠ [] := by rintro rfl; simp at hk
  let draw : Draw := fun _ _ => 0
  obtain ⟨D, up, down, h1, h2⟩ := C25_bwd_error so eigh draw hp h hs hne hr hro
  refine ⟨_, h2, ?_⟩
  obtain ⟨h3, h4, h5⟩ := h1 p hk
  beta_reduce at h3 h4 h5 ⊢
  rw [h3.unique (C89_derivative so eigh draw hp hS (.inl rfl) h hk hu)]
  obtain ⟨x, hx, h4⟩ := h4
  obtain ⟨y, hy, h5⟩ := h5
  obtain ⟨xs, -, e1, e2⟩ := C89_constant so eigh draw hp hS (.inl rfl) h hu (x + Real.pi)
  obtain ⟨ys, -, e3, e4⟩ := C89_constant so eigh draw hp hS (.inl rfl) h hu (y + -Real.pi)
  rw [e1] at e3
  cases e3
  beta_reduce at h4 h5
  rw [e2] at h4
  rw [e4] at h5
  rw [← Except.ok.inj h4, ← Except.ok.inj h5]
  simp

/-- **C89** (measurement outcomes): the joint distribution of the outcomes on the qubits of `S` after `run` is the same for
the circuit and for its light cone, which may be empty. -/
theorem C89_outcomes {circuit small : Op} (hc : circuit.Circuit n values nss) (hstd : ∀ g ∈ circuit.gates, ∃ s, g.Std n values s)
    (hp' : small.Plain) (hi : small.gates = lightCone S circuit.gates) (hst : st.On n) :
    ∃ r r', run so circuit st values = .ok (some r) ∧ run so small st values = .ok (some r') ∧ r.On n ∧ r'.On n ∧
      ∀ a : Lab n, ∑ b with ∀ q ∈ S, b.bit q = a.bit q, r.mat n b b = ∑ b with ∀ q ∈ S, b.bit q = a.bit q, r'.mat n b b := by
  obtain ⟨nss', hn', e⟩ := cone_noise (S := S) hc.noise
  obtain ⟨r, h1, -, h2⟩ := circuit_run so hc hst
  have hr' : ∃ r', run so small st values = .ok (some r') ∧ r'.On n ∧
      r'.mat n = noisyRun n .unitary values ((lightCone S circuit.gates).zip nss') (st.mat n) := by
    by_cases hne : small.gates = []
    · refine ⟨st, C46_run_partial so hp' hne st, hst, ?_⟩
      rw [← hi, hne]; rfl
    · obtain ⟨r', h3, -, h4⟩ := circuit_run so (circuit := small) (nss := nss')
        ⟨hp', hne, fun g hg => hc.ok g (lightCone_subset g (hi ▸ hg)), hi ▸ hn'⟩ hst
      exact ⟨r', h3, h4.on, by rw [h4.mat (hi ▸ hn'), hi]⟩
  obtain ⟨r', h3, h4, h5⟩ := hr'
  refine ⟨r, r', h1, h3, h2.on, h4, fun a => ?_⟩
  have hsum : ∀ M : LMat n, ∑ b with ∀ q ∈ S, b.bit q = a.bit q, M b b
      = (Matrix.diagonal (fun b : Lab n => if ∀ q ∈ S, b.bit q = a.bit q then (1 : ℂ) else 0) * M).trace := by
    intro M
    rw [Matrix.trace, Finset.sum_filter]
    refine Finset.sum_congr rfl fun b _ => ?_
    simp [Matrix.diagonal_mul]
  obtain ⟨_, _, h6⟩ := cone_run (inert_diagonal S (fun b : Lab n => if ∀ q ∈ S, b.bit q = a.bit q then (1 : ℂ) else 0) (by
    intro b b' hb
    have : (∀ q ∈ S, b.bit q = a.bit q) ↔ ∀ q ∈ S, b'.bit q = a.bit q :=
      forall₂_congr fun q hq => by rw [hb q hq]
    simp only [this])) (zip_mem hstd hc.noise)
  rw [hsum, hsum, h2.mat hc.noise, h5, (h6 _).1, ← e, (h6 _).2]

/-! ### A concrete case -/

/-- `[RX("a", 0), X(1, control=0), RY("b", 1) with a bit flip]`. -/
noncomputable def coneCircuit : Op := mkSeq [.prim (Gate.RX (.str "a") (.int 0)), .prim (Gate.X (.int 1) (.int 0)),
  .prim (Gate.RY (.str "b") (.int 1) (noise := some [⟨.bitFlip, .float (1 / 4)⟩]))]

/-- The same without the last gate. -/
noncomputable def coneSmall : Op := mkSeq [.prim (Gate.RX (.str "a") (.int 0)), .prim (Gate.X (.int 1) (.int 0))]

/-- Non-vacuity of C89: for `Z(0)` the last gate of `coneCircuit`, which is noisy and has a parameter, is outside the cone. -/
example (x y : ℝ) :
    let values : Values := [("a", .num x), ("b", .num y)]
    BaseSetting so 2 values coneCircuit.gates [[], [], [.bitFlip (1 / 4)]] (.vec zeroZero) [obsZ] [gateMat 2 StdGate.Z.mat [0] []] ∧
    coneCircuit.Plain ∧ coneSmall.Plain ∧ coneSmall.gates = lightCone [0] coneCircuit.gates ∧ coneSmall.gates ≠ [] ∧
    (∀ o ∈ [obsZ], o.ActsOn [0]) ∧ ExactMode .gpsr values (.vec zeroZero) coneCircuit ∧
    "b" ∈ values.map Prod.fst ∧ (∀ g ∈ lightCone [0] coneCircuit.gates, ¬ g.Uses "b") ∧ SingleUse coneCircuit.gates ∧
    ∀ g ∈ coneCircuit.gates, g.Registered := by
  have hcone : lightCone [0] coneCircuit.gates = [Gate.RX (.str "a") (.int 0), Gate.X (.int 1) (.int 0)] := by
    have : coneCircuit.gates = [Gate.RX (.str "a") (.int 0), Gate.X (.int 1) (.int 0),
      Gate.RY (.str "b") (.int 1) (noise := some [⟨.bitFlip, .float (1 / 4)⟩])] := rfl
    rw [this]
    have q1 : (Gate.RX (.str "a") (.int 0)).qubits = [0] := rfl
    have q2 : (Gate.X (.int 1) (.int 0)).qubits = [0, 1] := rfl
    have q3 : (Gate.RY (.str "b") (.int 1) (noise := some [⟨.bitFlip, .float (1 / 4)⟩])).qubits = [1] := rfl
    generalize Gate.RY (.str "b") (.int 1) (noise := some [⟨.bitFlip, .float (1 / 4)⟩]) = g at q3
    simp [lightCone, coneOf, q1, q2, q3]
  refine ⟨?_, .seq (.cons (.prim _) (.cons (.prim _) (.cons (.prim _) .nil))), .seq (.cons (.prim _) (.cons (.prim _) .nil)),
    hcone.symm, ?_, ?_, .inl rfl, by simp, ?_, ?_, ?_⟩
  · refine ⟨?_, ?_, ?_, zeroZero_isKet, ⟨by simp, ?_⟩, by simp, ?_⟩
    · show ([_, _, _] : List Gate) ≠ []
      simp
    · intro g hg
      change g ∈ [Gate.RX (.str "a") (.int 0), Gate.X (.int 1) (.int 0),
        Gate.RY (.str "b") (.int 1) (noise := some [⟨.bitFlip, .float (1 / 4)⟩])] at hg
      simp only [List.mem_cons, List.not_mem_nil, or_false] at hg
      rcases hg with rfl | rfl | rfl
      · exact ⟨_, (NamedRot.RX "a" 0 0 _ _).std ⟨.inr (.inl rfl), by change ValidDims 2 [0]; decide⟩ (x := x) rfl⟩
      · exact ⟨.X, .X _ _ _, rfl, ⟨.inr (.inr ⟨[0], rfl⟩), by change ValidDims 2 [0, 1]; decide⟩⟩
      · exact ⟨_, (NamedRot.RY "b" 0 1 _ _).std ⟨.inr (.inl rfl), by change ValidDims 2 [1]; decide⟩ (x := y) (by simp [List.lookup])⟩
    · refine .cons (.none rfl) (.cons (.none rfl) (.cons (.some rfl (.cons ?_ .nil) (.inr ⟨1, rfl⟩)) .nil))
      exact .bitFlip ⟨by norm_num, by norm_num⟩
    · intro e he
      simp only [List.mem_cons, List.not_mem_nil, or_false] at he
      rcases he with rfl | rfl
      exacts [⟨x, rfl⟩, ⟨y, rfl⟩]
    · refine .cons (fun v => ⟨(obsZ_fixed2 so v).1, fun _ => ⟨.one (.gate ⟨.Z, ⟨.Z _ _ _, rfl, ⟨.inr (.inl rfl), by decide⟩⟩, rfl, rfl⟩),
        ((obsZ_fixed so True v).2 trivial).2⟩⟩) .nil
  · show ([_, _] : List Gate) ≠ []
    simp
  · intro o ho g hg q hq
    rw [List.mem_singleton] at ho
    subst ho
    change g ∈ [Gate.Z (.int 0)] at hg
    rw [List.mem_singleton] at hg
    subst hg
    exact hq
  · rw [hcone]
    intro g hg
    simp only [List.mem_cons, List.not_mem_nil, or_false] at hg
    rcases hg with rfl | rfl <;> simp [Gate.Uses, Gate.RX, Gate.X, mkGate]
  · show SingleUse [_, _, _]
    simp [SingleUse, Gate.Uses, Gate.RX, Gate.RY, Gate.X, mkGate]
  · intro g hg
    change g ∈ [Gate.RX (.str "a") (.int 0), Gate.X (.int 1) (.int 0),
        Gate.RY (.str "b") (.int 1) (noise := some [⟨.bitFlip, .float (1 / 4)⟩])] at hg
    simp only [List.mem_cons, List.not_mem_nil, or_false] at hg
    rcases hg with rfl | rfl | rfl <;> simp [Gate.Registered, Gate.RX, Gate.RY, Gate.X, mkGate]

end Verif
