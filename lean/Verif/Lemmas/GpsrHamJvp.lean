import Verif.Lemmas.GpsrHam
import Verif.Model.GpsrShots

/-! # The JVPs refuse Hamiltonian evolutions -/

namespace Verif
set_option autoImplicit false
open NDArray

/-! ## Loops that raise -/

theorem mapM_ok_all {α β : Type} {f : α → Py β} {l : List α} {r : List β} (h : l.mapM f = .ok r) :
    ∀ a ∈ l, ∃ u, f a = .ok u := by
  induction l generalizing r with
  | nil => simp
  | cons a l ih =>
    rw [List.mapM_cons] at h
    rcases ha : f a with e | u
    · rw [ha] at h; cases h
    · rcases hl : l.mapM f with e | us
      · rw [ha, hl] at h; cases h
      · intro b hb
        rcases List.mem_cons.1 hb with rfl | hb
        · exact ⟨u, ha⟩
        · exact ih hl b hb

theorem mapM_not_ok {α β : Type} {f : α → Py β} {l : List α} {a : α} (ha : a ∈ l) (h : ∀ u, f a ≠ .ok u) :
    ∀ r, l.mapM f ≠ .ok r := fun _ hr => by
  obtain ⟨u, hu⟩ := mapM_ok_all hr a ha
  exact h u hu

theorem bind_modelled {α β : Type} {m : Py α} {f : α → Py β} (hm : m ≠ .error .unsupported)
    (hf : ∀ a, m = .ok a → f a ≠ .error .unsupported) : (m >>= f) ≠ .error .unsupported := by
  rcases m with e | a
  · intro h
    have : e = .unsupported := by injection h
    exact hm (by rw [this])
  · exact hf a rfl

theorem mapM_modelled {α β : Type} {f : α → Py β} {l : List α} (h : ∀ a ∈ l, f a ≠ .error .unsupported) :
    l.mapM f ≠ .error .unsupported := by
  induction l with
  | nil => intro h; cases h
  | cons a l ih =>
    rw [List.mapM_cons]
    refine bind_modelled (h a (by simp)) fun _ _ => bind_modelled (ih fun b hb => h b (by simp [hb])) fun _ _ => ?_
    intro h; cases h

theorem raises_of {α : Type} {m : Py α} (h1 : ∀ u, m ≠ .ok u) (h2 : m ≠ .error .unsupported) :
    ∃ e, e ≠ .unsupported ∧ m = .error e := by
  rcases m with e | u
  · exact ⟨e, fun h => h2 (by rw [h]), rfl⟩
  · exact absurd rfl (h1 u)

/-! ## The operators of the gates -/

theorem evolution_ok {values : Values} {tg : TArg} {c : CArg} {u : NDArray ℂ}
    (h : (Gate.HamiltonianEvolution tg c).unitary values = .ok u) : ∃ H t, EvolutionValues values H t := by
  simp only [Gate.HamiltonianEvolution, mkGate, Gate.unitary, Values.get, Bool.false_eq_true, if_false] at h
  rcases ht : values.lookup "time_evolution" with _ | v
  · simp only [ht] at h; cases h
  · rcases v with x | a | d
    · rcases hh : values.lookup "hamiltonian" with _ | w
      · simp only [ht, hh] at h; cases h
      · rcases w with y | b | d
        · simp only [ht, hh] at h; cases h
        · exact ⟨b, x, hh, ht⟩
        · simp only [ht, hh] at h; cases h
    · simp only [ht] at h; cases h
    · simp only [ht] at h; cases h

theorem applyGates_evolution {so : SetOrder} {st r : State} {gates : GateArg} {values : Values} (hg : gates.Evolves)
    (h : applyGates so st gates values = .ok r) : ∃ H t, EvolutionValues values H t := by
  cases gates with
  | single g =>
    obtain ⟨tg, c, rfl⟩ := hg
    rcases hu : (Gate.HamiltonianEvolution tg c).unitary values with e | u
    · simp only [applyGates, prepareSequenceReduce, Gate.operator, hu] at h; cases h
    · exact evolution_ok hu
  | list gs =>
    obtain ⟨tg, c, hm⟩ := hg
    rcases hu : gs.mapM (fun g => g.operator .unitary values) with e | us
    · simp only [applyGates, prepareSequenceReduce, Bool.false_eq_true, if_false, hu] at h; cases h
    · obtain ⟨u, hu⟩ := mapM_ok_all hu _ hm
      exact evolution_ok hu

/-- All values are numbers. -/
def AllNum (values : Values) : Prop := ∀ e ∈ values, ∃ x, e.2 = .num x

theorem AllNum.lookup {values : Values} (h : AllNum values) {k : String} {v : PyVal} (hk : values.lookup k = some v) :
    ∃ x, v = .num x := by
  induction values with
  | nil => cases hk
  | cons e values ih =>
    obtain ⟨k', w⟩ := e
    rw [List.lookup_cons] at hk
    split at hk
    · obtain ⟨x, hx⟩ := h (k', w) (by simp)
      exact ⟨x, by injection hk with hk; rw [← hk]; exact hx⟩
    · exact ih (fun e he => h e (by simp [he])) hk

theorem AllNum.not_evolution {values : Values} (h : AllNum values) {H : NDArray ℂ} {t : ℝ} : ¬ EvolutionValues values H t := by
  intro hv
  obtain ⟨x, hx⟩ := h.lookup hv.ham
  cases hx

theorem AllNum.get {values : Values} (h : AllNum values) (k : String) :
    values.get k = .error .keyError ∨ ∃ x, values.get k = .ok (.num x) := by
  rcases hk : values.lookup k with _ | v
  · exact .inl (by simp only [Values.get, hk])
  · obtain ⟨x, rfl⟩ := h.lookup hk
    exact .inr ⟨x, by simp only [Values.get, hk]⟩

theorem AllNum.evolution_modelled {values : Values} (h : AllNum values) (tg : TArg) (c : CArg) :
    (Gate.HamiltonianEvolution tg c).unitary values ≠ .error .unsupported := by
  simp only [Gate.HamiltonianEvolution, mkGate, Gate.unitary, Bool.false_eq_true, if_false]
  rcases h.get "time_evolution" with h1 | ⟨x, h1⟩ <;> rcases h.get "hamiltonian" with h2 | ⟨y, h2⟩ <;>
    simp only [h1, h2, bind, Except.bind, PyVal.addShift] <;> intro h <;> cases h

theorem AllNum.parse {values : Values} (h : AllNum values) (p : Param) (s : ℝ) :
    parseValues p s values = .error .keyError ∨ ∃ x, parseValues p s values = .ok x := by
  cases p with
  | num x => exact .inr ⟨_, rfl⟩
  | str k =>
    rcases h.get k with h1 | ⟨x, h1⟩
    · exact .inl (by simp only [parseValues, h1]; rfl)
    · exact .inr ⟨x + s, by simp only [parseValues, h1]; rfl⟩

theorem AllNum.rot_modelled {values : Values} (h : AllNum values) (p : Param) (s : ℝ) {nm : String} (ts : List ℕ) (c : Ctl)
    (nz : Option (List NoiseInstance)) (hnm : nm = "X" ∨ nm = "Y" ∨ nm = "Z" ∨ nm = "I") :
    (⟨.parametric p s, nm, ts, c, nz, false⟩ : Gate).unitary values ≠ .error .unsupported := by
  have hrot : ∀ (a b c d : ℂ) (θ : ℝ), ∃ u, rotUnitary (mat2 a b c d) θ = .ok u := fun _ _ _ _ _ => ⟨_, rfl⟩
  rcases hnm with rfl | rfl | rfl | rfl
  all_goals
    simp only [Gate.unitary, Gate.generator, Bool.false_eq_true, if_false, bind, Except.bind]
    rcases h.parse p s with h1 | ⟨x, h1⟩
    · rw [h1]; intro h; cases h
    · rw [h1]
      intro h
      cases h

theorem Gate.Is.modelled {values v : Values} {g : Gate} {s : StdGate} (hg : g.Is values s) (h : AllNum v) (nm : String) :
    g.unitary v ≠ .error .unsupported ∧ (newNamed g nm).unitary v ≠ .error .unsupported := by
  cases hg with
  | RX ts c nz hp he => exact ⟨h.rot_modelled _ _ _ _ _ (by simp), h.rot_modelled _ _ _ _ _ (by simp)⟩
  | RY ts c nz hp he => exact ⟨h.rot_modelled _ _ _ _ _ (by simp), h.rot_modelled _ _ _ _ _ (by simp)⟩
  | RZ ts c nz hp he => exact ⟨h.rot_modelled _ _ _ _ _ (by simp), h.rot_modelled _ _ _ _ _ (by simp)⟩
  | @PHASE p _ s _ ts c nz hp he =>
    refine ⟨?_, h.rot_modelled _ _ _ _ _ (by simp)⟩
    simp only [Gate.unitary, Bool.false_eq_true, if_false, bind, Except.bind]
    rcases h.parse p s with h1 | ⟨x, h1⟩ <;> rw [h1] <;> intro h <;> cases h
  | _ => constructor <;> (intro h; cases h)

theorem spectralGap_modelled (eigh : Eigh) (g : Gate) : g.spectralGap eigh ≠ .error .unsupported := by
  have hd : ∀ nm, operationsDict nm ≠ .error .unsupported := by
    intro nm
    simp only [operationsDict]
    split_ifs <;> intro h <;> cases h
  have hv : ∀ a, eigvalsh eigh a ≠ .error .unsupported := by
    intro a
    simp only [eigvalsh]
    split
    · split_ifs <;> intro h <;> cases h
    · intro h; cases h
  have he : g.eigenvalsGenerator eigh ≠ .error .unsupported :=
    bind_modelled (hd _) fun _ _ => bind_modelled (hv _) fun _ _ => by intro h; cases h
  obtain ⟨cls, _⟩ := g
  cases cls with
  | parametric => exact bind_modelled he fun _ _ => by intro h; cases h
  | phase => exact bind_modelled he fun _ _ => by intro h; cases h
  | _ => intro h; cases h

/-! ## Stacking the values -/

theorem stackValues_evolution {values : Values} {H : NDArray ℂ} {t : ℝ} (h : EvolutionValues values H t) :
    (∀ r, stackValues values ≠ .ok r) ∧ stackValues values ≠ .error .unsupported := by
  have mem : ∀ {values : Values} {k : String} {v : PyVal}, values.lookup k = some v → (k, v) ∈ values := by
    intro values k v hk
    induction values with
    | nil => cases hk
    | cons e values ih =>
      obtain ⟨k', w⟩ := e
      rw [List.lookup_cons] at hk
      split at hk
      · rename_i hb
        injection hk with hk
        rw [← hk, beq_iff_eq.1 hb]; simp
      · simp [ih hk]
  have h1 := mem h.ham
  have h2 := mem h.time
  have hne : values ≠ [] := by rintro rfl; cases h1
  have hnum : (values.any fun e => e.2.isNum) = true := List.any_eq_true.2 ⟨_, h2, rfl⟩
  rw [stackValues, if_neg hne]
  constructor
  · refine mapM_not_ok h1 fun u => ?_
    simp only
    split_ifs <;> intro h <;> cases h
  · refine mapM_modelled fun e _ => ?_
    rcases e.2 with x | a | d
    · intro h; cases h
    · simp only [hnum, if_true]
      split_ifs <;> intro h <;> cases h
    · intro h; cases h

theorem stackValues_all {values : Values} (h : AllNum values) : stackValues values ≠ .error .unsupported := by
  rw [stackValues]
  by_cases hne : values = []
  · rw [if_pos hne]; intro h; cases h
  · rw [if_neg hne]
    refine mapM_modelled fun e he => ?_
    obtain ⟨x, hx⟩ := h e he
    rw [hx]
    intro h; cases h

theorem allNum_shiftAt (keys : List String) (xs : List ℝ) (i : ℕ) (δ : ℝ) : AllNum (shiftAt keys xs i δ) := by
  intro e he
  obtain ⟨e', -, rfl⟩ := List.mem_map.1 he
  exact ⟨_, rfl⟩

/-! ## Renamed gates -/

theorem evolves_renamed {gs : List Gate} (h : (GateArg.list gs).Evolves) (fresh : ℕ → String) (keys : List String) :
    (GateArg.list (createRenamed fresh gs keys)).Evolves := by
  obtain ⟨tg, c, hm⟩ := h
  refine ⟨tg, c, ?_⟩
  obtain ⟨i, hi, he⟩ := List.getElem_of_mem hm
  rw [createRenamed]
  refine List.mem_mapIdx.2 ⟨i, hi, ?_⟩
  rw [he]
  rfl

theorem renamed_modelled {values v : Values} {gs : List Gate}
    (hg : ∀ g ∈ gs, (∃ s, g.Is values s) ∨ ∃ tg c, g = Gate.HamiltonianEvolution tg c) (h : AllNum v)
    (fresh : ℕ → String) (keys : List String) :
    ∀ g ∈ createRenamed fresh gs keys, g.unitary v ≠ .error .unsupported := by
  intro g' hg'
  obtain ⟨i, hi, he⟩ := List.mem_mapIdx.1 hg'
  rw [← he]
  rcases hg gs[i] (List.getElem_mem hi) with ⟨s, hs⟩ | ⟨tg, c, hs⟩
  · split
    · split_ifs
      · exact (hs.modelled h _).2
      · exact (hs.modelled h "").1
    · exact (hs.modelled h "").1
  · rw [hs]
    exact h.evolution_modelled tg c

/-! ## The scan -/

/-- The temporary names, with the names of the original parameters. -/
theorem vmap_ne {gs : List Gate} {keys : List String} (h : hasRepeated gs keys = .ok true) :
    (keys.flatMap fun p => (paramIndices gs p).map fun i => (i, p)) ≠ [] := by
  rw [hasRepeated] at h
  split_ifs at h with hk
  injection h with h
  obtain ⟨p, hp, hl⟩ := List.any_eq_true.1 h
  have hl : 1 < (paramIndices gs p).length := by simpa using hl
  intro he
  have := List.flatMap_eq_nil_iff.1 he p hp
  rw [List.map_eq_nil_iff] at this
  rw [this] at hl
  simp at hl

theorem vmap_vals {values : Values} {gs : List Gate}
    (hg : ∀ g ∈ gs, (∃ s, g.Is values s) ∨ ∃ tg c, g = Gate.HamiltonianEvolution tg c) {keys : List String} {vals : List PyVal}
    (h : (keys.flatMap fun p => (paramIndices gs p).map fun i => (i, p)).mapM (fun e => values.get e.2) = .ok vals) :
    ∀ v ∈ vals, ∃ x, v = .num x := by
  have key : ∀ (l : List (ℕ × String)) (vals : List PyVal), l.mapM (fun e => values.get e.2) = .ok vals →
      (∀ e ∈ l, ∃ x, values.get e.2 = .ok (.num x)) → ∀ v ∈ vals, ∃ x, v = .num x := by
    intro l
    induction l with
    | nil => intro vals h _; cases h; simp
    | cons a l ih =>
      intro vals h hl
      rw [List.mapM_cons] at h
      obtain ⟨x, hx⟩ := hl a (by simp)
      rcases hm : l.mapM (fun e => values.get e.2) with e | us
      · rw [hx, hm] at h; cases h
      · rw [hx, hm] at h
        cases h
        intro v hv
        rcases List.mem_cons.1 hv with rfl | hv
        · exact ⟨x, rfl⟩
        · exact ih us hm (fun e he => hl e (by simp [he])) v hv
  refine key _ vals h fun e he => ?_
  obtain ⟨p, -, hp⟩ := List.mem_flatMap.1 he
  obtain ⟨i, hi, rfl⟩ := List.mem_map.1 hp
  have hi := (List.mem_filter.1 hi).2
  rcases hgi : gs[i]? with _ | g
  · rw [hgi] at hi; simp at hi
  · rw [hgi] at hi
    have hu : g.paramName = some p := by simpa using hi
    rcases hg g (List.mem_of_getElem? hgi) with ⟨s, hs⟩ | ⟨tg, c, hs⟩
    · have : ∃ x, values.lookup p = some (.num x) := by
        cases hs with
        | RX ts c nz hp he => cases hp <;> simp_all [Gate.paramName]
        | RY ts c nz hp he => cases hp <;> simp_all [Gate.paramName]
        | RZ ts c nz hp he => cases hp <;> simp_all [Gate.paramName]
        | PHASE ts c nz hp he => cases hp <;> simp_all [Gate.paramName]
        | _ => simp [Gate.paramName] at hu
      obtain ⟨x, hx⟩ := this
      exact ⟨x, by simp only [Values.get, hx]⟩
    · rw [hs] at hu; cases hu

theorem gpsrRule_modelled_two (up down : List ℝ) : gpsrRule initialGap gpsrShift up down ≠ .error .unsupported := by
  rw [initialGap, gpsrRule_two]; intro h; cases h

/-- What is used about the function that computes the (shifted) expectation values: it needs the values of the
Hamiltonian evolutions, and raises when an operator cannot be computed. -/
structure NeedsValues (F : GateArg → Values → Py (List ℝ)) : Prop where
  evolution : ∀ gates values r, gates.Evolves → F gates values = .ok r → ∃ H t, EvolutionValues values H t
  modelled : ∀ gs values, (∀ g ∈ gs, g.unitary values ≠ .error .unsupported) →
    (∃ g ∈ gs, ∀ u, g.unitary values ≠ .ok u) → F (.list gs) values ≠ .error .unsupported

theorem NeedsValues.renamed {F : GateArg → Values → Py (List ℝ)} (hF : NeedsValues F) {values v : Values} {gs : List Gate}
    (he : (GateArg.list gs).Evolves) (hv : AllNum v) (fresh : ℕ → String) (keys : List String) :
    (∀ r, F (.list (createRenamed fresh gs keys)) v ≠ .ok r) ∧
    ((∀ g ∈ gs, (∃ s, g.Is values s) ∨ ∃ tg c, g = Gate.HamiltonianEvolution tg c) →
      F (.list (createRenamed fresh gs keys)) v ≠ .error .unsupported) := by
  have he' := evolves_renamed he fresh keys
  constructor
  · intro r hr
    obtain ⟨H, t, h⟩ := hF.evolution _ _ _ he' hr
    exact hv.not_evolution h
  · intro hg
    refine hF.modelled _ _ (renamed_modelled hg hv fresh keys) ?_
    obtain ⟨tg, c, hm⟩ := he'
    refine ⟨_, hm, fun u hu => ?_⟩
    obtain ⟨H, t, h⟩ := evolution_ok hu
    exact hv.not_evolution h

theorem bind_not_ok {α β : Type} {m : Py α} {f : α → Py β} (h : ∀ a, m = .ok a → ∀ r, f a ≠ .ok r) : ∀ r, (m >>= f) ≠ .ok r := by
  intro r hr
  rcases m with e | a
  · cases hr
  · exact h a rfl r hr

/-- The temporary names. -/
def tempNames (fresh : ℕ → String) (gs : List Gate) (keys : List String) : List String :=
  (keys.flatMap fun p => (paramIndices gs p).map fun i => (i, p)).map fun e => fresh e.1

theorem tempNames_pos {gs : List Gate} {keys : List String} (fresh : ℕ → String) (h : hasRepeated gs keys = .ok true) :
    0 < (tempNames fresh gs keys).length := by
  rw [tempNames, List.length_map]; exact List.length_pos_iff.2 (vmap_ne h)

theorem jvpScan_evolution {F : GateArg → Values → Py (List ℝ)} (hF : NeedsValues F) {gs : List Gate}
    (he : (GateArg.list gs).Evolves) (fresh : ℕ → String) {keys : List String} (h : hasRepeated gs keys = .ok true)
    (xs gaps : List ℝ) : ∀ r, jvpScan F (.list (createRenamed fresh gs keys)) (tempNames fresh gs keys) xs gaps ≠ .ok r :=
  mapM_not_ok (List.mem_range.2 (tempNames_pos fresh h)) fun u => bind_not_ok
    (fun a ha => absurd ha ((hF.renamed (values := []) he (allNum_shiftAt _ _ _ _) fresh keys).1 a)) u

/-- The JVP never returns a value. -/
theorem gpsrJvp_evolution {F : GateArg → Values → Py (List ℝ)} (hF : NeedsValues F) (eigh : Eigh) (fresh : ℕ → String)
    {gates : GateArg} (he : gates.Evolves) (values : Values) (ts : List ℝ) :
    ∀ r, gpsrJvp eigh fresh F gates values ts ≠ .ok r := by
  simp only [gpsrJvp]
  refine bind_not_ok fun fwd hf => ?_
  obtain ⟨H, t, hv⟩ := hF.evolution _ _ _ he hf
  have s1 := (stackValues_evolution hv).1
  cases gates with
  | single g => exact bind_not_ok fun a ha => absurd ha (s1 a)
  | list gs =>
    simp only
    by_cases hlt : (extractGateNames gs).length > values.keys.length
    · simp only [if_pos hlt]
      refine bind_not_ok fun b hb => ?_
      cases b with
      | false => exact bind_not_ok fun _ _ => bind_not_ok fun a ha => absurd ha (s1 a)
      | true =>
        exact bind_not_ok fun _ _ => bind_not_ok fun _ _ => bind_not_ok fun _ _ => bind_not_ok fun a ha =>
          absurd ha (jvpScan_evolution hF he fresh hb _ _ a)
    · simp only [if_neg hlt]
      exact bind_not_ok fun a ha => absurd ha (s1 a)

theorem hasRepeated_modelled (gs : List Gate) (keys : List String) : hasRepeated gs keys ≠ .error .unsupported := by
  rw [hasRepeated]; split_ifs <;> intro h <;> cases h

theorem gapFromGates_modelled (gs : List Gate) (keys : List String) : spectralGapFromGates gs keys ≠ .error .unsupported := by
  rcases keys with _ | ⟨k, ks⟩
  · intro h; cases h
  · simp only [spectralGapFromGates]; split_ifs <;> intro h <;> cases h

theorem get_modelled (values : Values) (k : String) : values.get k ≠ .error .unsupported := by
  rw [Values.get]; split <;> intro h <;> cases h

/-- The error is one that Python raises. -/
theorem gpsrJvp_modelled {F : GateArg → Values → Py (List ℝ)} (hF : NeedsValues F) (eigh : Eigh) (fresh : ℕ → String)
    {gates : GateArg} (he : gates.Evolves) (values : Values) (ts : List ℝ) {fwd : List ℝ} (hf : F gates values = .ok fwd)
    (hg : ∀ gs, gates = .list gs → ∀ g ∈ gs, (∃ s, g.Is values s) ∨ ∃ tg c, g = Gate.HamiltonianEvolution tg c) :
    gpsrJvp eigh fresh F gates values ts ≠ .error .unsupported := by
  simp only [gpsrJvp]
  refine bind_modelled (by rw [hf]; intro h; cases h) fun fwd hf => ?_
  obtain ⟨H, t, hv⟩ := hF.evolution _ _ _ he hf
  obtain ⟨s1, s2⟩ := stackValues_evolution hv
  cases gates with
  | single g => exact bind_modelled s2 fun a ha => absurd ha (s1 a)
  | list gs =>
    have hg := hg gs rfl
    simp only
    by_cases hlt : (extractGateNames gs).length > values.keys.length
    · simp only [if_pos hlt]
      refine bind_modelled (hasRepeated_modelled _ _) fun b hb => ?_
      cases b with
      | false =>
        exact bind_modelled (gapFromGates_modelled _ _) fun _ _ => bind_modelled s2 fun a ha => absurd ha (s1 a)
      | true =>
        refine bind_modelled (mapM_modelled fun e _ => get_modelled _ _) fun vals hvals => bind_modelled
          (mapM_modelled fun e _ => ?_) fun gaps _ => bind_modelled (stackValues_all ?_) fun xs _ => bind_modelled ?_
            fun a ha => absurd ha (jvpScan_evolution hF he fresh hb _ _ a)
        · refine bind_modelled (mapM_modelled fun i _ => ?_) fun _ _ => by intro h; cases h
          split
          · exact spectralGap_modelled eigh _
          · intro h; cases h
        · intro e he
          exact vmap_vals hg hvals _ (List.of_mem_zip he).2
        · refine mapM_modelled fun i _ => ?_
          have hF1 := fun δ => (hF.renamed (values := values) he
            (allNum_shiftAt (tempNames fresh gs values.keys) xs i δ) fresh values.keys)
          exact bind_modelled ((hF1 _).2 hg) fun a ha => absurd ha ((hF1 _).1 a)
    · simp only [if_neg hlt]
      exact bind_modelled s2 fun a ha => absurd ha (s1 a)

/-! ## The same for the estimates from shots -/

section
variable {κ : Type} {F : κ → GateArg → Values → Py (List ℝ)}

theorem shotsScan_evolution (hF : ∀ key, NeedsValues (F key)) (split : κ → ℕ → ℕ → κ) {gs : List Gate}
    (he : (GateArg.list gs).Evolves) (fresh : ℕ → String) {keys : List String} (h : hasRepeated gs keys = .ok true)
    (xs gaps : List ℝ) (key : κ) :
    ∀ r, shotsScan split F (.list (createRenamed fresh gs keys)) (tempNames fresh gs keys) xs gaps key ≠ .ok r := by
  have hp := tempNames_pos fresh h
  have hm : (0, split key (tempNames fresh gs keys).length 0)
      ∈ (List.range (tempNames fresh gs keys).length).zip (splitKeys split key (tempNames fresh gs keys).length) := by
    rw [splitKeys, List.zip_map_right, List.mem_map]
    refine ⟨(0, 0), ?_, rfl⟩
    rw [List.mem_iff_getElem]
    exact ⟨0, by simpa using hp, by simp⟩
  exact mapM_not_ok hm fun u => bind_not_ok
    (fun a ha => absurd ha (((hF _).renamed (values := []) he (allNum_shiftAt _ _ _ _) fresh keys).1 a)) u

theorem shotsJvp_evolution (hF : ∀ key, NeedsValues (F key)) (split : κ → ℕ → ℕ → κ) (eigh : Eigh) (fresh : ℕ → String)
    {gates : GateArg} (he : gates.Evolves) (values : Values) (ts : List ℝ) (key : κ) :
    ∀ r, shotsJvp eigh fresh split F gates values ts key ≠ .ok r := by
  simp only [shotsJvp]
  refine bind_not_ok fun fwd hf => ?_
  obtain ⟨H, t, hv⟩ := (hF _).evolution _ _ _ he hf
  have s1 := (stackValues_evolution hv).1
  cases gates with
  | single g => exact bind_not_ok fun a ha => absurd ha (s1 a)
  | list gs =>
    simp only
    by_cases hlt : (extractGateNames gs).length > values.keys.length
    · simp only [if_pos hlt]
      refine bind_not_ok fun b hb => ?_
      cases b with
      | false => exact bind_not_ok fun _ _ => bind_not_ok fun a ha => absurd ha (s1 a)
      | true =>
        exact bind_not_ok fun _ _ => bind_not_ok fun _ _ => bind_not_ok fun _ _ => bind_not_ok fun a ha =>
          absurd ha (shotsScan_evolution hF split he fresh hb _ _ _ a)
    · simp only [if_neg hlt]
      exact bind_not_ok fun a ha => absurd ha (s1 a)

theorem shotsJvp_modelled (hF : ∀ key, NeedsValues (F key)) (split : κ → ℕ → ℕ → κ) (eigh : Eigh) (fresh : ℕ → String)
    {gates : GateArg} (he : gates.Evolves) (values : Values) (ts : List ℝ) (key : κ) {fwd : List ℝ}
    (hf : F key gates values = .ok fwd)
    (hg : ∀ gs, gates = .list gs → ∀ g ∈ gs, (∃ s, g.Is values s) ∨ ∃ tg c, g = Gate.HamiltonianEvolution tg c) :
    shotsJvp eigh fresh split F gates values ts key ≠ .error .unsupported := by
  simp only [shotsJvp]
  refine bind_modelled (by rw [hf]; intro h; cases h) fun fwd hf => ?_
  obtain ⟨H, t, hv⟩ := (hF _).evolution _ _ _ he hf
  obtain ⟨s1, s2⟩ := stackValues_evolution hv
  cases gates with
  | single g => exact bind_modelled s2 fun a ha => absurd ha (s1 a)
  | list gs =>
    have hg := hg gs rfl
    simp only
    by_cases hlt : (extractGateNames gs).length > values.keys.length
    · simp only [if_pos hlt]
      refine bind_modelled (hasRepeated_modelled _ _) fun b hb => ?_
      cases b with
      | false =>
        exact bind_modelled (gapFromGates_modelled _ _) fun _ _ => bind_modelled s2 fun a ha => absurd ha (s1 a)
      | true =>
        refine bind_modelled (mapM_modelled fun e _ => get_modelled _ _) fun vals hvals => bind_modelled
          (mapM_modelled fun e _ => ?_) fun gaps _ => bind_modelled (stackValues_all ?_) fun xs _ => bind_modelled ?_
            fun a ha => absurd ha (shotsScan_evolution hF split he fresh hb _ _ _ a)
        · refine bind_modelled (mapM_modelled fun i _ => ?_) fun _ _ => by intro h; cases h
          split
          · exact spectralGap_modelled eigh _
          · intro h; cases h
        · intro e he
          exact vmap_vals hg hvals _ (List.of_mem_zip he).2
        · refine mapM_modelled fun e _ => ?_
          have hF1 := fun k δ => ((hF k).renamed (values := values) he
            (allNum_shiftAt (tempNames fresh gs values.keys) xs e.1 δ) fresh values.keys)
          exact bind_modelled ((hF1 _ _).2 hg) fun a ha => absurd ha ((hF1 _ _).1 a)
    · simp only [if_neg hlt]
      exact bind_modelled s2 fun a ha => absurd ha (s1 a)

end

/-! ## The functions that are differentiated -/

theorem applyGates_modelled (so : SetOrder) (st : State) {gs : List Gate} {values : Values}
    (h : ∀ g ∈ gs, g.unitary values ≠ .error .unsupported) (hn : ∃ g ∈ gs, ∀ u, g.unitary values ≠ .ok u) :
    ∃ e, e ≠ .unsupported ∧ applyGates so st (.list gs) values = .error e := by
  obtain ⟨g, hg, hn⟩ := hn
  obtain ⟨e, he, hm⟩ := raises_of (mapM_not_ok (f := fun g : Gate => g.operator .unitary values) hg hn) (mapM_modelled h)
  refine ⟨e, he, ?_⟩
  simp only [applyGates, prepareSequenceReduce, Bool.false_eq_true, if_false, hm]
  rfl

theorem gatesExpectation_needs (so : SetOrder) (st : State) (obs : List Observable) :
    NeedsValues (gatesExpectation so st obs) := by
  constructor
  · intro gates values r he hr
    rcases obs with _ | ⟨o, obs⟩
    · cases hr
    · simp only [gatesExpectation, List.mapM_cons] at hr
      rcases ha : applyGates so st gates values with e | s
      · rw [ha] at hr; cases hr
      · exact applyGates_evolution he ha
  · intro gs values h hn
    obtain ⟨e, he, ha⟩ := applyGates_modelled so st h hn
    rcases obs with _ | ⟨o, obs⟩
    · intro h; cases h
    · simp only [gatesExpectation, List.mapM_cons, ha]
      intro h
      have : e = .unsupported := by injection h
      exact he this

theorem finiteShots_needs (so : SetOrder) (eigh : Eigh) (st : State) (obs : List Observable) (us : List ℝ) :
    NeedsValues (finiteShotsGates so eigh st obs us) := by
  constructor
  · intro gates values r he hr
    rcases ha : applyGates so st gates values with e | s
    · rw [finiteShotsGates, ha] at hr; cases hr
    · exact applyGates_evolution he ha
  · intro gs values h hn
    obtain ⟨e, he, ha⟩ := applyGates_modelled so st h hn
    rw [finiteShotsGates, ha]
    intro h
    have : e = .unsupported := by injection h
    exact he this

end Verif
