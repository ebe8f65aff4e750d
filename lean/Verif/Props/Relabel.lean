import Mathlib.Data.Matrix.Mul
import Verif.Props.Noise

/-!
# Relabelling qubits (C51)
-/

namespace Verif
open NDArray
variable {n : ℕ} {values : Values}

/-- The new number of qubit `q`. -/
def relabelQ (σ : Equiv.Perm (Fin n)) (q : ℕ) : ℕ := if h : q < n then (σ ⟨q, h⟩).val else q

/-- Relabel an entry of a control tuple. -/
def CIdx.relabel (σ : Equiv.Perm (Fin n)) : CIdx → CIdx
  | .none => .none
  | .int q => .int (relabelQ σ q)
  | .npInt q => .npInt (relabelQ σ q)

/-- Relabel the target and control qubits of a gate. -/
def Gate.relabel (σ : Equiv.Perm (Fin n)) (g : Gate) : Gate :=
  { g with target := g.target.map (relabelQ σ), control := g.control.map fun l => l.map (CIdx.relabel σ) }

/-- `s'` is the state `s` with qubit `q` moved to position `σ q`. -/
def State.Relabelled (σ : Equiv.Perm (Fin n)) : State → State → Prop
  | .vec a, .vec a' => IsKet n a ∧ IsKet n a' ∧ ∀ b : Lab n, a'.get b.bits = a.get (Lab.bits fun q => b (σ q))
  | .dm ρ, .dm ρ' => IsDM n ρ ∧ IsDM n ρ' ∧ ∀ b c : Lab n,
      ρ'.array.get (b.bits ++ c.bits) = ρ.array.get (Lab.bits (fun q => b (σ q)) ++ Lab.bits fun q => c (σ q))
  | _, _ => False

/-- Relabelling basis labels. -/
def labEquiv (σ : Equiv.Perm (Fin n)) : Lab n ≃ Lab n := σ.symm.arrowCongr (Equiv.refl _)

theorem labEquiv_apply (σ : Equiv.Perm (Fin n)) (b : Lab n) : labEquiv σ b = fun q => b (σ q) := rfl

theorem bit_relabel (σ : Equiv.Perm (Fin n)) (b : Lab n) {q : ℕ} (hq : q < n) :
    b.bit (relabelQ σ q) = (labEquiv σ b).bit q := by
  simp [Lab.bit, relabelQ, hq, labEquiv_apply]

theorem relabelQ_inj (σ : Equiv.Perm (Fin n)) {q r : ℕ} (hq : q < n) (hr : r < n) (h : relabelQ σ q = relabelQ σ r) : q = r := by
  simp only [relabelQ, hq, hr, dif_pos] at h
  simpa using σ.injective (Fin.ext h)

theorem relabelQ_lt (σ : Equiv.Perm (Fin n)) {q : ℕ} (hq : q < n) : relabelQ σ q < n := by
  simp [relabelQ, hq]

theorem validDims_relabel (σ : Equiv.Perm (Fin n)) {l : List ℕ} (h : ValidDims n l) : ValidDims n (l.map (relabelQ σ)) := by
  refine ⟨(List.nodup_map_iff_inj_on h.nodup).2 fun q hq r hr e => relabelQ_inj σ (h.lt q hq) (h.lt r hr) e, ?_⟩
  intro q hq
  obtain ⟨r, hr, rfl⟩ := List.mem_map.1 hq
  exact relabelQ_lt σ (h.lt r hr)

theorem gateMat_relabel (σ : Equiv.Perm (Fin n)) (U : ℕ → ℕ → ℂ) {ts cs : List ℕ} (hv : ValidDims n (cs ++ ts)) :
    gateMat n U (ts.map (relabelQ σ)) (cs.map (relabelQ σ)) = (gateMat n U ts cs).submatrix (labEquiv σ) (labEquiv σ) := by
  have hc : ∀ q ∈ cs, q < n := fun q hq => hv.lt q (by simp [hq])
  have ht : ∀ q ∈ ts, q < n := fun q hq => hv.lt q (by simp [hq])
  funext b b'
  have h1 : (∀ c ∈ cs.map (relabelQ σ), b.bit c = 1) ↔ ∀ c ∈ cs, (labEquiv σ b).bit c = 1 := by
    simp only [List.mem_map, forall_exists_index, and_imp, forall_apply_eq_imp_iff₂]
    exact forall₂_congr fun c h => by rw [bit_relabel σ b (hc c h)]
  have h2 : ∀ b : Lab n, b.idx (ts.map (relabelQ σ)) = (labEquiv σ b).idx ts := by
    intro b
    rw [Lab.idx, Lab.idx, List.map_map]
    exact congrArg _ (List.map_congr_left fun q hq => bit_relabel σ b (ht q hq))
  have h3 : Lab.AgreeOff (ts.map (relabelQ σ)) b b' ↔ Lab.AgreeOff ts (labEquiv σ b) (labEquiv σ b') := by
    constructor
    · intro h q hq
      refine h (σ q) fun hm => hq ?_
      obtain ⟨r, hr, he⟩ := List.mem_map.1 hm
      have := relabelQ_inj σ (ht r hr) q.2 (by rw [he]; simp [relabelQ])
      exact this ▸ hr
    · intro h q hq
      have := h (σ.symm q) fun hm => hq (List.mem_map.2 ⟨_, hm, by simp [relabelQ]⟩)
      simpa [labEquiv_apply] using this
  simp only [gateMat, Matrix.submatrix_apply, h1, h2, h3, (labEquiv σ).apply_eq_iff_eq]

theorem ctlInts_relabel (σ : Equiv.Perm (Fin n)) (c : Ctl) :
    ctlInts (c.map fun l => l.map (CIdx.relabel σ)) = (ctlInts c).map (relabelQ σ) := by
  cases c with
  | none => rfl
  | some l =>
    simp only [ctlInts, Option.map_some, Option.getD_some]
    induction l with
    | nil => rfl
    | cons x l ih => cases x <;> simp [CIdx.relabel, ih]

theorem validOn_relabel (σ : Equiv.Perm (Fin n)) {g : Gate} (h : g.ValidOn n) : (g.relabel σ).ValidOn n := by
  constructor
  · rcases h.ctl with h | h | ⟨cs, h⟩
    · exact .inl (by simp [Gate.relabel, h])
    · exact .inr (.inl (by simp [Gate.relabel, h, CIdx.relabel]))
    · refine .inr (.inr ⟨cs.map (relabelQ σ), ?_⟩)
      simp [Gate.relabel, h, CIdx.relabel, Function.comp_def]
  · simp only [Gate.relabel, ctlInts_relabel]
    rw [← List.map_append]
    exact validDims_relabel σ h.dims

theorem operator_relabel (σ : Equiv.Perm (Fin n)) (g : Gate) (ot : OpType) : (g.relabel σ).operator ot values = g.operator ot values := rfl

theorem ok_relabel (σ : Equiv.Perm (Fin n)) {ot : OpType} {g : Gate} (h : g.Ok n ot values) : (g.relabel σ).Ok n ot values := by
  obtain ⟨⟨U, hU, ho⟩, hv⟩ := h
  exact ⟨⟨U, hU, by simpa [Gate.relabel] using ho⟩, validOn_relabel σ hv⟩

theorem mat_relabel (σ : Equiv.Perm (Fin n)) {ot : OpType} {g : Gate} (h : g.Ok n ot values) :
    (g.relabel σ).mat n ot values = (g.mat n ot values).submatrix (labEquiv σ) (labEquiv σ) := by
  obtain ⟨⟨U, hU, ho⟩, hv⟩ := h
  have hU' : (g.relabel σ).operator ot values = .ok U := hU
  simp only [Gate.mat, hU, hU']
  simp only [Gate.relabel, ctlInts_relabel]
  exact gateMat_relabel σ _ hv.dims

theorem gatesMat_relabel (σ : Equiv.Perm (Fin n)) {ot : OpType} {gs : List Gate} (h : ∀ g ∈ gs, g.Ok n ot values) :
    gatesMat n ot values (gs.map (Gate.relabel σ)) = (gatesMat n ot values gs).submatrix (labEquiv σ) (labEquiv σ) := by
  induction gs with
  | nil => simp [gatesMat]
  | cons g gs ih =>
    rw [List.map_cons, gatesMat, gatesMat, ih fun x hx => h x (by simp [hx]), mat_relabel σ (h g (by simp)),
      Matrix.submatrix_mul_equiv]

theorem conjBy_submatrix (e : Lab n ≃ Lab n) (M ρ : Matrix (Lab n) (Lab n) ℂ) :
    conjBy (M.submatrix e e) (ρ.submatrix e e) = (conjBy M ρ).submatrix e e := by
  rw [conjBy, conjBy, Matrix.conjTranspose_submatrix, Matrix.submatrix_mul_equiv, Matrix.submatrix_mul_equiv]

theorem chan_relabel (σ : Equiv.Perm (Fin n)) (s : StdNoise) {t : ℕ} (ht : t < n) (ρ : Matrix (Lab n) (Lab n) ℂ) :
    s.chan n (relabelQ σ t) (ρ.submatrix (labEquiv σ) (labEquiv σ)) = (s.chan n t ρ).submatrix (labEquiv σ) (labEquiv σ) := by
  have ho : ∀ M, onQubit n M (relabelQ σ t) = (onQubit n M t).submatrix (labEquiv σ) (labEquiv σ) := fun M =>
    gateMat_relabel σ (matE M) (ts := [t]) (cs := []) ⟨by simp, by simpa using ht⟩
  cases s <;> simp only [StdNoise.chan, ho, conjBy_submatrix, Matrix.submatrix_add, Matrix.submatrix_smul, Pi.add_apply, Pi.smul_apply]

theorem noisyStep_relabel (σ : Equiv.Perm (Fin n)) {g : Gate} {s : StdGate} {ns : List StdNoise} (h : g.Std n values s)
    (ρ : Matrix (Lab n) (Lab n) ℂ) :
    noisyStep n (stdMat n (g.relabel σ) s) ((g.relabel σ).target.headD 0) ns (ρ.submatrix (labEquiv σ) (labEquiv σ))
      = (noisyStep n (stdMat n g s) (g.target.headD 0) ns ρ).submatrix (labEquiv σ) (labEquiv σ) := by
  have hm : stdMat n (g.relabel σ) s = (stdMat n g s).submatrix (labEquiv σ) (labEquiv σ) := by
    simp only [stdMat, Gate.relabel, ctlInts_relabel]
    exact gateMat_relabel σ _ h.valid.dims
  obtain ⟨t, ts, hts⟩ : ∃ t ts, g.target = t :: ts := by
    cases hg : g.target with
    | nil => have := h.arity; rw [hg] at this; cases s <;> simp [StdGate.arity] at this
    | cons t ts => exact ⟨t, ts, rfl⟩
  have ht : t < n := h.valid.dims.lt t (by simp [hts])
  have h1 : (g.relabel σ).target.headD 0 = relabelQ σ t := by simp [Gate.relabel, hts]
  have h2 : g.target.headD 0 = t := by simp [hts]
  rw [h1, h2, noisyStep, noisyStep, hm, conjBy_submatrix]
  generalize conjBy (stdMat n g s) ρ = X
  induction ns generalizing X with
  | nil => rfl
  | cons x ns ih => rw [List.foldl_cons, List.foldl_cons, chan_relabel σ x ht, ih]

theorem std_relabel (σ : Equiv.Perm (Fin n)) {g : Gate} {s : StdGate} (h : g.Std n values s) : (g.relabel σ).Std n values s := by
  refine ⟨?_, by simpa [Gate.relabel] using h.arity, validOn_relabel σ h.valid⟩
  cases h.is with
  | I => exact .I _ _ _
  | X => exact .X _ _ _
  | Y => exact .Y _ _ _
  | Z => exact .Z _ _ _
  | H => exact .H _ _ _
  | S => exact .S _ _ _
  | T => exact .T _ _ _
  | SWAP => exact .SWAP _ _ _
  | RX _ _ _ hp hh => exact .RX _ _ _ hp hh
  | RY _ _ _ hp hh => exact .RY _ _ _ hp hh
  | RZ _ _ _ hp hh => exact .RZ _ _ _ hp hh
  | PHASE _ _ _ hp hh => exact .PHASE _ _ _ hp hh

theorem noiseIs_relabel (σ : Equiv.Perm (Fin n)) {g : Gate} {ns : List StdNoise} (h : g.NoiseIs ns) : (g.relabel σ).NoiseIs ns := by
  cases h with
  | none h => exact .none h
  | some h hn ht =>
    refine .some h hn (ht.imp id ?_)
    rintro ⟨t, ht⟩
    exact ⟨relabelQ σ t, by simp [Gate.relabel, ht]⟩

theorem relabelled_vec (σ : Equiv.Perm (Fin n)) {a a' : NDArray ℂ} :
    State.Relabelled σ (.vec a) (.vec a') ↔ IsKet n a ∧ IsKet n a' ∧ ket n a' = fun b => ket n a (labEquiv σ b) :=
  and_congr_right fun _ => and_congr_right fun _ => funext_iff.symm

theorem relabelled_dm (σ : Equiv.Perm (Fin n)) {ρ ρ' : DensityMatrix ℂ} :
    State.Relabelled σ (.dm ρ) (.dm ρ') ↔ IsDM n ρ ∧ IsDM n ρ' ∧ dmMat n ρ'.array = (dmMat n ρ.array).submatrix (labEquiv σ) (labEquiv σ) :=
  and_congr_right fun _ => and_congr_right fun _ => by
    rw [← Matrix.ext_iff]; rfl

/-- **C51** (noiseless gates of any class): relabelling the qubits of all gates and of the state relabels the result. -/
theorem C51_relabel (so : SetOrder) (σ : Equiv.Perm (Fin n)) {ot : OpType} {gs : List Gate} (hne : gs ≠ [])
    (h : ∀ g ∈ gs, g.Ok n ot values) (hnz : ∀ g ∈ gs, g.noise = none) {s s' : State} (hs : s.Relabelled σ s')
    (merge merge' : Bool) :
    ∃ r r', applyGates so s (.list gs) values ot false merge = .ok r ∧
      applyGates so s' (.list (gs.map (Gate.relabel σ))) values ot false merge' = .ok r' ∧ r.Relabelled σ r' := by
  have h' : ∀ g ∈ gs.map (Gate.relabel σ), g.Ok n ot values := by
    intro g hg; obtain ⟨g', hg', rfl⟩ := List.mem_map.1 hg; exact ok_relabel σ (h g' hg')
  have hnz' : ∀ g ∈ gs.map (Gate.relabel σ), g.noise = none := by
    intro g hg; obtain ⟨g', hg', rfl⟩ := List.mem_map.1 hg; exact hnz g' hg'
  have hne' : gs.map (Gate.relabel σ) ≠ [] := by simpa using hne
  cases s with
  | vec a =>
    cases s' with
    | dm _ => exact hs.elim
    | vec a' =>
      obtain ⟨ha, ha', haa⟩ := (relabelled_vec σ).1 hs
      obtain ⟨r, h1, h2, h3⟩ := applyGates_vec so hne h hnz ha merge
      obtain ⟨r', k1, k2, k3⟩ := applyGates_vec so hne' h' hnz' ha' merge'
      refine ⟨_, _, h1, k1, (relabelled_vec σ).2 ⟨h2, k2, ?_⟩⟩
      rw [k3, h3, gatesMat_relabel σ h, haa]
      have : (fun b => ket n a (labEquiv σ b)) ∘ (labEquiv σ).symm = ket n a := by funext x; simp
      rw [Matrix.submatrix_mulVec_equiv, this]
      rfl
  | dm ρ =>
    cases s' with
    | vec _ => exact hs.elim
    | dm ρ' =>
      obtain ⟨ha, ha', haa⟩ := (relabelled_dm σ).1 hs
      obtain ⟨r, h1, h2, h3⟩ := applyGates_dm so hne h hnz ha merge
      obtain ⟨r', k1, k2, k3⟩ := applyGates_dm so hne' h' hnz' ha' merge'
      refine ⟨_, _, h1, k1, (relabelled_dm σ).2 ⟨h2, k2, ?_⟩⟩
      rw [k3, h3, gatesMat_relabel σ h, haa]
      exact conjBy_submatrix _ _ _

/-- Non-vacuity: exchanging the two qubits of `|01⟩` gives `|10⟩`. -/
example : State.Relabelled (Equiv.swap (0 : Fin 2) 1) (.vec ⟨[2, 2], [0, 1, 0, 0]⟩) (.vec ⟨[2, 2], [0, 0, 1, 0]⟩) := by
  refine ⟨⟨rfl, rfl⟩, ⟨rfl, rfl⟩, ?_⟩
  intro b
  have hb : ∀ x y : Fin 2, (⟨[2, 2], [0, 0, 1, 0]⟩ : NDArray ℂ).get (Lab.bits ![x, y])
      = (⟨[2, 2], [0, 1, 0, 0]⟩ : NDArray ℂ).get (Lab.bits fun q => (![x, y] : Lab 2) (Equiv.swap (0 : Fin 2) 1 q)) := by
    intro x y
    fin_cases x <;> fin_cases y <;> simp [Lab.bits, NDArray.get, ravel]
  have h2 : b = ![b 0, b 1] := by ext i; fin_cases i <;> rfl
  rw [h2]; exact hb _ _

theorem relabel_noisy_dm (so : SetOrder) (σ : Equiv.Perm (Fin n)) {xs : List (Gate × StdGate × List StdNoise)} (hne : xs ≠ [])
    (h : ∀ x ∈ xs, x.1.Std n values x.2.1 ∧ x.1.NoiseIs x.2.2) {ρ ρ' : DensityMatrix ℂ}
    (hs : State.Relabelled σ (.dm ρ) (.dm ρ')) (merge merge' : Bool) :
    ∃ r r', applyGates so (.dm ρ) (.list (xs.map Prod.fst)) values .unitary false merge = .ok r ∧
      applyGates so (.dm ρ') (.list (xs.map fun x => x.1.relabel σ)) values .unitary false merge' = .ok r' ∧
      r.Relabelled σ r' := by
  obtain ⟨ha, ha', haa⟩ := (relabelled_dm σ).1 hs
  obtain ⟨r, h1, h2, h3⟩ := applyGates_stdRun so (values := values) hne h ha merge
  obtain ⟨r', k1, k2, k3⟩ := applyGates_stdRun so (values := values) (xs := xs.map fun x => (x.1.relabel σ, x.2)) (by simpa using hne)
    (by
      intro x hx; obtain ⟨y, hy, rfl⟩ := List.mem_map.1 hx
      exact ⟨std_relabel σ (h y hy).1, noiseIs_relabel σ (h y hy).2⟩) ha' merge'
  rw [List.map_map] at k1
  refine ⟨_, _, h1, k1, (relabelled_dm σ).2 ⟨h2, k2, ?_⟩⟩
  rw [k3, h3, haa]
  clear h1 h2 h3 k1 k2 k3 haa hne hs ha
  generalize dmMat n ρ.array = M
  induction xs generalizing M with
  | nil => rfl
  | cons x xs ih =>
    simp only [stdRun, List.map_cons, List.foldl_cons] at ih ⊢
    rw [noisyStep_relabel σ (h x (by simp)).1]
    exact ih (fun y hy => h y (by simp [hy])) _

/-- **C51** (noisy gates): the same for public gates with noise, on state vectors and density matrices. -/
theorem C51_relabel_noisy (so : SetOrder) (σ : Equiv.Perm (Fin n)) {xs : List (Gate × StdGate × List StdNoise)} (hne : xs ≠ [])
    (h : ∀ x ∈ xs, x.1.Std n values x.2.1 ∧ x.1.NoiseIs x.2.2) {s s' : State} (hs : s.Relabelled σ s') (merge merge' : Bool) :
    ∃ r r', applyGates so s (.list (xs.map Prod.fst)) values .unitary false merge = .ok r ∧
      applyGates so s' (.list (xs.map fun x => x.1.relabel σ)) values .unitary false merge' = .ok r' ∧
      r.Relabelled σ r' := by
  cases s with
  | dm ρ =>
    cases s' with
    | vec _ => exact hs.elim
    | dm ρ' => exact relabel_noisy_dm so σ hne h hs merge merge'
  | vec a =>
    cases s' with
    | dm _ => exact hs.elim
    | vec a' =>
      by_cases hz : ∀ g ∈ xs.map Prod.fst, g.noise = none
      · have := C51_relabel so σ (values := values) (ot := .unitary) (gs := xs.map Prod.fst) (by simpa using hne)
          (by intro g hg; obtain ⟨x, hx, rfl⟩ := List.mem_map.1 hg; exact (h x hx).1.ok) hz hs merge merge'
        rwa [List.map_map] at this
      · have hz' : ¬ ∀ g ∈ xs.map fun x => x.1.relabel σ, g.noise = none := by
          intro hh
          refine hz fun g hg => ?_
          obtain ⟨x, hx, rfl⟩ := List.mem_map.1 hg
          exact hh (x.1.relabel σ) (List.mem_map.2 ⟨x, hx, rfl⟩)
        rw [applyGates_vec_noisy so hz, applyGates_vec_noisy so hz']
        obtain ⟨ha, ha', haa⟩ := (relabelled_vec σ).1 hs
        refine relabel_noisy_dm so σ hne h ((relabelled_dm σ).2 ⟨(densityMat_isDM ha).1, (densityMat_isDM ha').1, ?_⟩) merge merge'
        rw [(densityMat_isDM ha).2, (densityMat_isDM ha').2, haa]
        rfl

/-- Non-vacuity: a noisy controlled gate and its relabelling. -/
example : (Gate.X (.int 1) (.int 0) (some [⟨.bitFlip, .float (1 / 4)⟩])).Std 3 [] .X ∧
    (Gate.X (.int 1) (.int 0) (some [⟨.bitFlip, .float (1 / 4)⟩])).NoiseIs [.bitFlip (1 / 4)] :=
  ⟨⟨.X _ _ _, rfl, ⟨.inr (.inr ⟨[0], rfl⟩), by decide⟩⟩,
    .some rfl (.cons (.bitFlip (by norm_num)) .nil) (.inr ⟨1, rfl⟩)⟩

end Verif
