import Verif.AbsGrad
import Verif.Lemmas.Deriv
import Verif.Props.PureMixed

/-! # Lemmas about the parameter-shift rule -/

namespace Verif
set_option autoImplicit false
open NDArray
variable {n : ℕ}

/-! ## Rotations -/

theorem conjBy_rot (c s : ℝ) (G X : Matrix (Lab n) (Lab n) ℂ) :
    conjBy ((c : ℂ) • (1 : Matrix (Lab n) (Lab n) ℂ) + (-(Complex.I * s)) • G) X
      = ((c : ℂ) * c) • X + ((s : ℂ) * s) • conjBy G X + ((c : ℂ) * s * Complex.I) • (X * G.conjTranspose - G * X) := by
  simp only [conjBy, Matrix.conjTranspose_add, Matrix.conjTranspose_smul, Matrix.conjTranspose_one, Matrix.add_mul,
    Matrix.mul_add, Matrix.smul_mul, Matrix.mul_smul, Matrix.one_mul, Matrix.mul_one, smul_smul, smul_sub]
  have h1 : star (c : ℂ) = c := Complex.conj_ofReal c
  have h2 : star (-(Complex.I * (s : ℂ))) = Complex.I * s := by simp
  rw [h1, h2]
  ext i j
  simp only [Matrix.add_apply, Matrix.smul_apply, Matrix.sub_apply, smul_eq_mul]
  linear_combination ((G * X * G.conjTranspose) i j * (-(s:ℂ) * s)) * Complex.I_mul_I

theorem isRot_of {M : ℝ → Matrix (Lab n) (Lab n) ℂ} {s : ℝ} (G : Matrix (Lab n) (Lab n) ℂ)
    (h : ∀ x X, conjBy (M x) X = conjBy ((Real.cos ((x + s) / 2) : ℂ) • (1 : Matrix (Lab n) (Lab n) ℂ)
      + (-(Complex.I * (Real.sin ((x + s) / 2) : ℝ))) • G) X) : IsRot s M := by
  refine ⟨fun X => (1 / 2 : ℂ) • (X + conjBy G X), fun X => (1 / 2 : ℂ) • (X + (-1 : ℂ) • conjBy G X),
    fun X => (Complex.I / 2) • (X * G.conjTranspose - G * X), (IsLin.id.plus (isLin_conjBy G)).scale _,
    (IsLin.id.plus ((isLin_conjBy G).scale _)).scale _, ?_, ?_⟩
  · refine IsLin.scale ⟨fun A B => ?_, fun c A => ?_⟩ _
    · rw [Matrix.add_mul, Matrix.mul_add]; abel
    · rw [Matrix.smul_mul, Matrix.mul_smul, smul_sub]
  · intro x X
    rw [h, conjBy_rot]
    have e1 : ((Real.cos ((x + s) / 2) : ℝ) : ℂ) * (Real.cos ((x + s) / 2) : ℝ) = 1 / 2 + (Real.cos (x + s) : ℝ) / 2 := by
      have := Real.cos_sq ((x + s) / 2)
      rw [show 2 * ((x + s) / 2) = x + s by ring, sq] at this
      rw [← Complex.ofReal_mul, this]; push_cast; ring
    have e2 : ((Real.sin ((x + s) / 2) : ℝ) : ℂ) * (Real.sin ((x + s) / 2) : ℝ) = 1 / 2 - (Real.cos (x + s) : ℝ) / 2 := by
      have h1 := csq_add_ssq ((x + s) / 2)
      rw [e1] at h1
      linear_combination h1
    have e3 : ((Real.cos ((x + s) / 2) : ℝ) : ℂ) * (Real.sin ((x + s) / 2) : ℝ) = (Real.sin (x + s) : ℝ) / 2 := by
      have := Real.sin_two_mul ((x + s) / 2)
      rw [show 2 * ((x + s) / 2) = x + s by ring] at this
      rw [this]; push_cast; ring
    rw [e1, e2, e3]
    ext i j
    simp only [Matrix.add_apply, Matrix.smul_apply, Matrix.sub_apply, smul_eq_mul]
    ring

/-- The four families of rotations. -/
inductive RotFam : (ℝ → StdGate) → Prop
  | RX : RotFam .RX
  | RY : RotFam .RY
  | RZ : RotFam .RZ
  | PHASE : RotFam .PHASE

theorem matE_two (a b c d : ℂ) : ∀ i j, i < 2 → j < 2 → matE !![a, b; c, d] i j
    = if i = 0 then (if j = 0 then a else b) else (if j = 0 then c else d) := by
  intro i j hi hj
  rcases (by omega : i = 0 ∨ i = 1) with rfl | rfl <;> rcases (by omega : j = 0 ∨ j = 1) with rfl | rfl <;> simp [matE]

theorem rot_gateMat {U : ℕ → ℕ → ℂ} {G : ℕ → ℕ → ℂ} {c : ℂ} {s : ℝ} (t : ℕ)
    (h : ∀ i j, i < 2 → j < 2 → U i j = c * oneE i j + (-(Complex.I * s)) * G i j) :
    gateMat n U [t] [] = c • (1 : Matrix (Lab n) (Lab n) ℂ) + (-(Complex.I * s)) • gateMat n G [t] [] := by
  rw [gateMat_congr (V := fun i j => c * oneE i j + (-(Complex.I * s)) * G i j) (by simpa using h),
    gateMat_add (fun i j => c * oneE i j) (fun i j => (-(Complex.I * s)) * G i j), gateMat_smul, gateMat_smul, gateMat_one]

theorem RotFam.isRot {R : ℝ → StdGate} (h : RotFam R) (s : ℝ) (t : ℕ) :
    IsRot s fun x => gateMat n (R (x + s)).mat [t] [] := by
  have ent : ∀ {a b c d : ℂ} {i j : ℕ}, i < 2 → j < 2 → matE !![a, b; c, d] i j
      = if i = 0 then (if j = 0 then a else b) else (if j = 0 then c else d) := fun hi hj => matE_two _ _ _ _ _ _ hi hj
  cases h with
  | RX =>
    refine isRot_of (gateMat n StdGate.X.mat [t] []) fun x X => ?_
    rw [rot_gateMat (c := (Real.cos ((x + s) / 2) : ℝ)) (s := Real.sin ((x + s) / 2)) (G := StdGate.X.mat) t]
    intro i j hi hj
    rw [StdGate.mat, StdGate.mat, ent hi hj, ent hi hj, oneE]
    rcases (by omega : i = 0 ∨ i = 1) with rfl | rfl <;> rcases (by omega : j = 0 ∨ j = 1) with rfl | rfl <;> simp
  | RY =>
    refine isRot_of (gateMat n StdGate.Y.mat [t] []) fun x X => ?_
    rw [rot_gateMat (c := (Real.cos ((x + s) / 2) : ℝ)) (s := Real.sin ((x + s) / 2)) (G := StdGate.Y.mat) t]
    intro i j hi hj
    rw [StdGate.mat, StdGate.mat, ent hi hj, ent hi hj, oneE]
    rcases (by omega : i = 0 ∨ i = 1) with rfl | rfl <;> rcases (by omega : j = 0 ∨ j = 1) with rfl | rfl <;>
      simp
    · linear_combination (-(Complex.sin ((x + s) / 2))) * Complex.I_mul_I
    · linear_combination (Complex.sin ((x + s) / 2)) * Complex.I_mul_I
  | RZ =>
    refine isRot_of (gateMat n StdGate.Z.mat [t] []) fun x X => ?_
    rw [rot_gateMat (c := (Real.cos ((x + s) / 2) : ℝ)) (s := Real.sin ((x + s) / 2)) (G := StdGate.Z.mat) t]
    intro i j hi hj
    rw [StdGate.mat, StdGate.mat, ent hi hj, ent hi hj, oneE, exp_half, exp_neg_half]
    rcases (by omega : i = 0 ∨ i = 1) with rfl | rfl <;> rcases (by omega : j = 0 ∨ j = 1) with rfl | rfl <;> simp
    all_goals ring
  | PHASE =>
    refine isRot_of (gateMat n StdGate.Z.mat [t] []) fun x X => ?_
    rw [← rot_gateMat (U := fun i j => Complex.exp (-Complex.I * (x + s : ℝ) / 2) * (StdGate.PHASE (x + s)).mat i j)
      (c := (Real.cos ((x + s) / 2) : ℝ)) (s := Real.sin ((x + s) / 2)) (G := StdGate.Z.mat) t, gateMat_smul, conjBy_smul]
    · have : Complex.exp (-Complex.I * (x + s : ℝ) / 2) * star (Complex.exp (-Complex.I * (x + s : ℝ) / 2)) = 1 := by
        rw [mul_comm]; exact conj_exp_mul _ (by simp)
      rw [this, one_smul]
    · intro i j hi hj
      have hh : Complex.exp (-Complex.I * (x + s : ℝ) / 2) * Complex.exp (Complex.I * (x + s : ℝ))
          = Complex.exp (Complex.I * (x + s : ℝ) / 2) := by
        rw [← Complex.exp_add]; congr 1; ring
      rw [StdGate.mat, StdGate.mat, ent hi hj, ent hi hj, oneE]
      rcases (by omega : i = 0 ∨ i = 1) with rfl | rfl <;> rcases (by omega : j = 0 ∨ j = 1) with rfl | rfl
      · simp only [if_true, mul_one]; rw [exp_neg_half]; ring
      · simp
      · simp
      · simp only [one_ne_zero, if_false, if_true, mul_one]; rw [hh, exp_half]; ring

/-! ## Controlled gates -/

theorem isLin_mul (P Q : Matrix (Lab n) (Lab n) ℂ) : IsLin fun X => P * X * Q :=
  ⟨fun A B => by rw [Matrix.mul_add, Matrix.add_mul], fun c A => by rw [Matrix.mul_smul, Matrix.smul_mul]⟩

/-- A controlled gate is an affine function of its matrix. -/
theorem gateMat_affine (V W : ℕ → ℕ → ℂ) (a b : ℂ) (ts cs : List ℕ) :
    gateMat n (fun i j => a * V i j + b * W i j) ts cs = gateMat n (fun _ _ => 0) ts cs
      + a • (gateMat n V ts cs - gateMat n (fun _ _ => 0) ts cs) + b • (gateMat n W ts cs - gateMat n (fun _ _ => 0) ts cs) := by
  ext x y
  simp only [Matrix.add_apply, Matrix.smul_apply, Matrix.sub_apply, gateMat, smul_eq_mul]
  split_ifs <;> ring

theorem cexp_I (x : ℝ) : Complex.exp (Complex.I * x) = (Real.cos x : ℝ) + Complex.I * (Real.sin x : ℝ) := by
  rw [mul_comm, Complex.exp_mul_I]; push_cast; ring

/-- A `PHASE` gate with any controls. -/
theorem phase_isRot (s : ℝ) (t : ℕ) (cs : List ℕ) : IsRot s fun x => gateMat n (StdGate.PHASE (x + s)).mat [t] cs := by
  set V := matE !![(1 : ℂ), 0; 0, 0] with hV
  set W := matE !![(0 : ℂ), 0; 0, 1] with hW
  have hU : ∀ x : ℝ, gateMat n (StdGate.PHASE x).mat [t] cs
      = gateMat n V [t] cs + Complex.exp (Complex.I * x) • (gateMat n W [t] cs - gateMat n (fun _ _ => 0) [t] cs) := by
    intro x
    rw [gateMat_congr (V := fun i j => 1 * V i j + Complex.exp (Complex.I * x) * W i j), gateMat_affine, one_smul,
      add_sub_cancel]
    simp only [List.length_singleton, pow_one]
    intro i j hi hj
    rw [StdGate.mat, hV, hW, matE_two _ _ _ _ _ _ hi hj, matE_two _ _ _ _ _ _ hi hj, matE_two _ _ _ _ _ _ hi hj]
    split_ifs <;> simp
  set K := gateMat n V [t] cs
  set L := gateMat n W [t] cs - gateMat n (fun _ _ => 0) [t] cs
  refine ⟨fun X => K * X * K.conjTranspose + L * X * L.conjTranspose,
    fun X => L * X * K.conjTranspose + K * X * L.conjTranspose,
    fun X => Complex.I • (L * X * K.conjTranspose + (-1 : ℂ) • (K * X * L.conjTranspose)),
    (isLin_mul _ _).plus (isLin_mul _ _), (isLin_mul _ _).plus (isLin_mul _ _),
    ((isLin_mul _ _).plus ((isLin_mul _ _).scale _)).scale _, fun x X => ?_⟩
  beta_reduce
  rw [hU, cexp_I]
  have h1 : star (((Real.cos (x + s) : ℝ) : ℂ) + Complex.I * (Real.sin (x + s) : ℝ))
      = (Real.cos (x + s) : ℝ) - Complex.I * (Real.sin (x + s) : ℝ) := by
    simp only [Complex.star_def, map_add, map_mul, Complex.conj_ofReal, Complex.conj_I]; ring
  have h2 := csq_add_ssq (x + s)
  simp only [conjBy, Matrix.conjTranspose_add, Matrix.conjTranspose_smul, Matrix.add_mul, Matrix.mul_add, Matrix.smul_mul,
    Matrix.mul_smul, smul_smul, h1]
  generalize ((Real.cos (x + s) : ℝ) : ℂ) = c at h2 ⊢
  generalize ((Real.sin (x + s) : ℝ) : ℂ) = d at h2 ⊢
  ext i j
  simp only [Matrix.add_apply, Matrix.smul_apply, smul_eq_mul]
  linear_combination ((L * X * L.conjTranspose) i j) * h2 - ((L * X * L.conjTranspose) i j) * d * d * Complex.I_mul_I

/-! ## Dictionaries -/

theorem Values.lookup_set (values : Values) (p q : String) (x : ℝ) :
    (values.upd p x).lookup q = if q = p then (values.lookup p).map fun _ => .num x else values.lookup q := by
  induction values with
  | nil => split_ifs <;> rfl
  | cons e values ih =>
    obtain ⟨k, v⟩ := e
    change List.lookup q ((if k = p then (p, PyVal.num x) else (k, v)) :: Values.upd values p x) = _
    by_cases hk : k = p
    · subst hk
      rw [if_pos rfl]
      by_cases hq : q = k
      · subst hq; simp [List.lookup]
      · have : (q == k) = false := by simpa using hq
        simp only [List.lookup, this, if_neg hq]
        rw [ih, if_neg hq]
    · rw [if_neg hk]
      by_cases hq : q = p
      · subst hq
        have : (q == k) = false := by simpa using fun e => hk e.symm
        simp only [List.lookup, this, if_true]
        rw [ih, if_pos rfl]
      · simp only [List.lookup, if_neg hq]
        rcases (q == k) with _ | _
        · simp only; rw [ih, if_neg hq]
        · rfl

theorem Values.lookup_set_self {values : Values} {p : String} {v : PyVal} (h : values.lookup p = some v) (x : ℝ) :
    (values.upd p x).lookup p = some (.num x) := by rw [Values.lookup_set, if_pos rfl, h]; rfl

theorem Values.lookup_set_of_ne {values : Values} {p q : String} (h : q ≠ p) (x : ℝ) :
    (values.upd p x).lookup q = values.lookup q := by rw [Values.lookup_set, if_neg h]

theorem Values.Numeric.lookup {values : Values} (h : values.Numeric) {p : String} (hp : p ∈ values.keys) :
    ∃ x, values.lookup p = some (.num x) := by
  induction values with
  | nil => cases hp
  | cons e values ih =>
    obtain ⟨k, v⟩ := e
    by_cases hk : p = k
    · subst hk
      obtain ⟨x, hx⟩ := h.num (p, v) (by simp)
      exact ⟨x, by simp only [List.lookup, beq_self_eq_true]; rw [← hx]⟩
    · have : (p == k) = false := by simpa using hk
      simp only [List.lookup, this]
      refine ih ⟨(List.nodup_cons.1 h.nodup).2, fun e he => h.num e (by simp [he])⟩ ?_
      simpa [Values.keys, hk] using hp

theorem Values.shiftKey_eq {values : Values} {p : String} {x : ℝ} (h : values.lookup p = some (.num x)) (δ : ℝ) :
    values.shiftKey p δ = .ok (values.upd p (x + δ)) := by
  simp only [Values.shiftKey, Values.get, h, bind, Except.bind, PyVal.shift, pure, Except.pure, Values.upd]

theorem Values.keys_set (values : Values) (p : String) (x : ℝ) : (values.upd p x).keys = values.keys := by
  simp only [Values.keys, Values.upd, List.map_map]
  refine List.map_congr_left fun e _ => ?_
  simp only [Function.comp]
  split_ifs with h
  · exact h.symm
  · rfl

/-! ## Gates with a named parameter -/

/-- A rotation with a named parameter. -/
inductive NamedRot : Gate → String → ℝ → (ℝ → StdGate) → Prop
  | RX (p sh t c nz) : NamedRot ⟨.parametric (.str p) sh, "X", [t], c, nz, false⟩ p sh .RX
  | RY (p sh t c nz) : NamedRot ⟨.parametric (.str p) sh, "Y", [t], c, nz, false⟩ p sh .RY
  | RZ (p sh t c nz) : NamedRot ⟨.parametric (.str p) sh, "Z", [t], c, nz, false⟩ p sh .RZ
  | PHASE (p sh t c nz) : NamedRot ⟨.phase (.str p) sh, "I", [t], c, nz, false⟩ p sh .PHASE

theorem NamedRot.fam {g : Gate} {p : String} {sh : ℝ} {R : ℝ → StdGate} (h : NamedRot g p sh R) : RotFam R := by
  cases h <;> constructor

theorem NamedRot.target {g : Gate} {p : String} {sh : ℝ} {R : ℝ → StdGate} (h : NamedRot g p sh R) :
    ∃ t, g.target = [t] := by
  cases h <;> exact ⟨_, rfl⟩

theorem NamedRot.uses {g : Gate} {p : String} {sh : ℝ} {R : ℝ → StdGate} (h : NamedRot g p sh R) : g.Uses p := by
  cases h <;> rfl

theorem NamedRot.std {g : Gate} {p : String} {sh : ℝ} {R : ℝ → StdGate} (h : NamedRot g p sh R) (hv : g.ValidOn n)
    {values : Values} {x : ℝ} (hx : values.lookup p = some (.num x)) : g.Std n values (R (x + sh)) := by
  cases h with
  | RX => exact ⟨.RX _ _ _ (.str hx) rfl, rfl, hv⟩
  | RY => exact ⟨.RY _ _ _ (.str hx) rfl, rfl, hv⟩
  | RZ => exact ⟨.RZ _ _ _ (.str hx) rfl, rfl, hv⟩
  | PHASE => exact ⟨.PHASE _ _ _ (.str hx) rfl, rfl, hv⟩

theorem Gate.Std.named {values : Values} {g : Gate} {s : StdGate} (h : g.Std n values s) {p : String} (hu : g.Uses p) :
    ∃ sh R, NamedRot g p sh R := by
  obtain ⟨his, har, -⟩ := h
  cases his with
  | RX ts c nz hp he =>
    cases hp with
    | num => exact hu.elim
    | str hp => cases hu; obtain ⟨t, rfl⟩ := List.length_eq_one_iff.1 har; exact ⟨_, _, .RX ..⟩
  | RY ts c nz hp he =>
    cases hp with
    | num => exact hu.elim
    | str hp => cases hu; obtain ⟨t, rfl⟩ := List.length_eq_one_iff.1 har; exact ⟨_, _, .RY ..⟩
  | RZ ts c nz hp he =>
    cases hp with
    | num => exact hu.elim
    | str hp => cases hu; obtain ⟨t, rfl⟩ := List.length_eq_one_iff.1 har; exact ⟨_, _, .RZ ..⟩
  | PHASE ts c nz hp he =>
    cases hp with
    | num => exact hu.elim
    | str hp => cases hu; obtain ⟨t, rfl⟩ := List.length_eq_one_iff.1 har; exact ⟨_, _, .PHASE ..⟩
  | _ => exact hu.elim

theorem Gate.Std.lookup {values : Values} {g : Gate} {s : StdGate} (h : g.Std n values s) {p : String} (hu : g.Uses p) :
    ∃ x, values.lookup p = some (.num x) := by
  obtain ⟨his, har, -⟩ := h
  cases his with
  | RX ts c nz hp he =>
    cases hp with
    | num => exact hu.elim
    | str hp => cases hu; exact ⟨_, hp⟩
  | RY ts c nz hp he =>
    cases hp with
    | num => exact hu.elim
    | str hp => cases hu; exact ⟨_, hp⟩
  | RZ ts c nz hp he =>
    cases hp with
    | num => exact hu.elim
    | str hp => cases hu; exact ⟨_, hp⟩
  | PHASE ts c nz hp he =>
    cases hp with
    | num => exact hu.elim
    | str hp => cases hu; exact ⟨_, hp⟩
  | _ => exact hu.elim

theorem Gate.Is.congr {values values' : Values} {g : Gate} {s : StdGate} (h : g.Is values s)
    (he : ∀ q, g.Uses q → values'.lookup q = values.lookup q) : g.Is values' s := by
  cases h with
  | RX ts c nz hp h =>
    cases hp with
    | num => exact .RX _ _ _ (.num _) h
    | str hp => exact .RX _ _ _ (.str ((he _ rfl).trans hp)) h
  | RY ts c nz hp h =>
    cases hp with
    | num => exact .RY _ _ _ (.num _) h
    | str hp => exact .RY _ _ _ (.str ((he _ rfl).trans hp)) h
  | RZ ts c nz hp h =>
    cases hp with
    | num => exact .RZ _ _ _ (.num _) h
    | str hp => exact .RZ _ _ _ (.str ((he _ rfl).trans hp)) h
  | PHASE ts c nz hp h =>
    cases hp with
    | num => exact .PHASE _ _ _ (.num _) h
    | str hp => exact .PHASE _ _ _ (.str ((he _ rfl).trans hp)) h
  | _ => constructor

theorem Gate.Std.congr {values values' : Values} {g : Gate} {s : StdGate} (h : g.Std n values s)
    (he : ∀ q, g.Uses q → values'.lookup q = values.lookup q) : g.Std n values' s := ⟨h.is.congr he, h.arity, h.valid⟩

theorem Gate.uses_iff (g : Gate) (p : String) : g.Uses p ↔ g.paramName = some p := by
  obtain ⟨cls, _⟩ := g
  rcases cls with _ | ⟨p, _⟩ | ⟨p, _⟩ | _ <;> [simp [Gate.Uses, Gate.paramName]; skip; skip; simp [Gate.Uses, Gate.paramName]]
  all_goals cases p <;> simp [Gate.Uses, Gate.paramName]

theorem Gate.Uses.unique {g : Gate} {p q : String} (h : g.Uses p) (h' : g.Uses q) : p = q := by
  rw [Gate.uses_iff] at h h'; rw [h] at h'; exact Option.some.inj h'

/-! ## The gates as steps with a parameter -/

/-- The gate `g` (with noise `ns`) as a step depending on the value of the parameter `p`. -/
noncomputable def stepOf (n : ℕ) (values : Values) (p : String) (e : Gate × List StdNoise) : PStep n :=
  ⟨e.1.paramName == some p, fun x => e.1.mat n .unitary (values.upd p x), e.1.target.headD 0, e.2⟩

theorem stepOf_good {values : Values} {p : String} {g : Gate} {s : StdGate} (h : g.Std n values s)
    (hc : g.Uses p → ctlInts g.control = [] ∨ ∃ q s, g.cls = .phase q s) (ns : List StdNoise) : (stepOf n values p (g, ns)).Good := by
  by_cases hu : g.Uses p
  · have : (g.paramName == some p) = true := by simpa using (Gate.uses_iff g p).1 hu
    simp only [PStep.Good, stepOf, this, if_true]
    obtain ⟨sh, R, hR⟩ := h.named hu
    obtain ⟨x, hx⟩ := h.lookup hu
    obtain ⟨t, ht⟩ := hR.target
    refine ⟨sh, ?_⟩
    have e : (fun x => g.mat n .unitary (values.upd p x)) = fun x => gateMat n (R (x + sh)).mat [t] (ctlInts g.control) := by
      funext y
      rw [(hR.std h.valid (Values.lookup_set_self hx y)).mat, stdMat, ht]
    rw [e]
    rcases hc hu with hc | ⟨q, s', hc⟩
    · rw [hc]; exact hR.fam.isRot sh t
    · cases hR with
      | PHASE => exact phase_isRot _ _ _
      | _ => cases hc
  · have : (g.paramName == some p) = false := by
      simpa using fun h => hu ((Gate.uses_iff g p).2 h)
    simp only [PStep.Good, stepOf, this, Bool.false_eq_true, if_false]
    have key : ∀ x, g.mat n .unitary (values.upd p x) = stdMat n g s := fun x =>
      (h.congr fun q hq => Values.lookup_set_of_ne (by rintro rfl; exact hu hq) x).mat
    intro x y
    rw [key, key]

theorem evalAt_steps (values : Values) (p : String) (l : List (Gate × List StdNoise)) (x : ℝ)
    (ρ : Matrix (Lab n) (Lab n) ℂ) :
    matRun n (evalAt (l.map (stepOf n values p)) x) ρ = noisyRun n .unitary (values.upd p x) l ρ := by
  rw [noisyRun_matRun, evalAt, List.map_map]; rfl

/-- If at most one gate has the parameter `p`, the sum of the parameter-shift contributions is the difference of the runs
with the shifted parameter. -/
theorem shiftTerm_single {l : List (PStep n)} (h : ∀ e ∈ l, e.Good)
    (hu : ∀ i j : ℕ, (l[i]?.map PStep.rot).getD false = true → (l[j]?.map PStep.rot).getD false = true → i = j)
    (x : ℝ) (ρ : Matrix (Lab n) (Lab n) ℂ) :
    ∑ k ∈ Finset.range l.length, shiftTerm l x ρ k =
      (1 / 2 : ℂ) • (matRun n (evalAt l (x + Real.pi / 2)) ρ - matRun n (evalAt l (x - Real.pi / 2)) ρ) := by
  have hconst : ∀ (k : ℕ) (y : ℝ), (∀ i, i ≠ k → (l[i]?.map PStep.rot).getD false = false) → altAt l x k y = evalAt l y := by
    intro k y hk
    refine List.ext_getElem? fun j => ?_
    rw [altAt, evalAt, List.getElem?_mapIdx, List.getElem?_map]
    rcases hj : l[j]? with _ | e
    · rfl
    · simp only [Option.map_some]
      by_cases hjk : j = k
      · rw [if_pos hjk]
      · rw [if_neg hjk]
        have h1 := hk j hjk
        rw [hj] at h1
        have h2 := h e (List.mem_of_getElem? hj)
        simp only [Option.map_some, Option.getD_some] at h1
        simp only [PStep.Good, h1, Bool.false_eq_true, if_false] at h2
        rw [h2 x y]
  by_cases hex : ∃ k : ℕ, (l[k]?.map PStep.rot).getD false = true
  · obtain ⟨k, hk⟩ := hex
    have hoth : ∀ i, i ≠ k → (l[i]?.map PStep.rot).getD false = false := by
      intro i hi
      by_contra hne
      exact hi (hu i k (by simpa using hne) hk)
    rw [Finset.sum_eq_single k]
    · rw [shiftTerm, if_pos hk, hconst k _ hoth, hconst k _ hoth]
    · intro i _ hi
      rw [shiftTerm, hoth i hi]; rfl
    · intro hk'
      rw [Finset.mem_range, not_lt] at hk'
      rw [List.getElem?_eq_none hk'] at hk
      cases hk
  · have hoth : ∀ i : ℕ, (l[i]?.map PStep.rot).getD false = false := by
      intro i
      by_contra hne
      exact hex ⟨i, by simpa using hne⟩
    rw [Finset.sum_eq_zero fun k _ => by rw [shiftTerm, hoth k]; rfl]
    rw [← hconst l.length _ fun i _ => hoth i, ← hconst l.length _ fun i _ => hoth i]
    have : ∀ y, altAt l x l.length y = evalAt l x := by
      intro y
      refine List.ext_getElem? fun j => ?_
      rw [altAt, evalAt, List.getElem?_mapIdx, List.getElem?_map]
      rcases hj : l[j]? with _ | e
      · rfl
      · have : j < l.length := (List.getElem?_eq_some_iff.1 hj).1
        simp only [Option.map_some]
        rw [if_neg (by omega)]
    rw [this, this, sub_self, smul_zero]

/-! ## Expectation values of runs -/

theorem expVal_deriv (O : Matrix (Lab n) (Lab n) ℂ) {f : ℝ → Matrix (Lab n) (Lab n) ℂ} {f' : Matrix (Lab n) (Lab n) ℂ}
    {x : ℝ} (h : MatDeriv f f' x) : HasDerivAt (fun t => expVal O (f t)) (expVal O f') x := by
  have key : HasDerivAt (fun t => (O * f t).trace) (O * f').trace x := by
    simp only [Matrix.trace, Matrix.diag, Matrix.mul_apply]
    exact HasDerivAt.fun_sum fun i _ => HasDerivAt.fun_sum fun j _ => (h j i).const_mul _
  exact Complex.reCLM.hasFDerivAt.comp_hasDerivAt x key

theorem expVal_add (O A B : Matrix (Lab n) (Lab n) ℂ) : expVal O (A + B) = expVal O A + expVal O B := by
  simp [expVal, Matrix.mul_add]

theorem expVal_sub (O A B : Matrix (Lab n) (Lab n) ℂ) : expVal O (A - B) = expVal O A - expVal O B := by
  simp [expVal, Matrix.mul_sub]

theorem expVal_half (O A : Matrix (Lab n) (Lab n) ℂ) : expVal O ((1 / 2 : ℂ) • A) = expVal O A / 2 := by
  have : (1 / 2 : ℂ) = ((1 / 2 : ℝ) : ℂ) := by norm_num
  rw [expVal, Matrix.mul_smul, Matrix.trace_smul, this, smul_eq_mul, Complex.re_ofReal_mul, expVal]
  ring

theorem expVal_zero (O : Matrix (Lab n) (Lab n) ℂ) : expVal O 0 = 0 := by simp [expVal]

theorem expVal_sum (O : Matrix (Lab n) (Lab n) ℂ) {α : Type} (s : Finset α) (f : α → Matrix (Lab n) (Lab n) ℂ) :
    expVal O (∑ a ∈ s, f a) = ∑ a ∈ s, expVal O (f a) := by
  classical
  induction s using Finset.induction_on with
  | empty => simp [expVal_zero]
  | insert a s ha ih => rw [Finset.sum_insert ha, expVal_add, ih, Finset.sum_insert ha]

theorem State.Evolved.mat {values : Values} {gs : List Gate} {nss : List (List StdNoise)} {st r : State}
    (hn : List.Forall₂ Gate.NoiseIs gs nss)
    (h : State.Evolved n values gs nss st r) : r.mat n = noisyRun n .unitary values (gs.zip nss) (st.mat n) := by
  cases st <;> cases r
  · rw [noisyRun_noiseless hn h.1, vec_mat_conj h.2.2]; rfl
  · exact h.2.2
  · exact h.elim
  · exact h.2

theorem Observable.Fixed.single {so : SetOrder} {values : Values} {gs : List Gate} {nss : List (List StdNoise)}
    {st r : State} {o : Observable} {O : Matrix (Lab n) (Lab n) ℂ} (ho : o.Fixed so n (Mixed st gs) O)
    (h : State.Evolved n values gs nss st r) (hr : r.On n) : expectSingle so values o r = .ok (expVal O (r.mat n)) := by
  obtain ⟨h1, h2⟩ := ho values
  cases r with
  | vec a => exact expectSingle_vec so (Op.MeansSum.mono (fun _ _ h => StdLeaf.any h) h1) hr
  | dm ρ =>
    obtain ⟨h3, h4⟩ := h2 (by
      cases st with
      | vec a => exact .inr h.1
      | dm ρ => exact .inl ⟨_, rfl⟩)
    exact Observable.Simple.single_dm so ⟨h1, h3, h4⟩ hr

theorem gatesExpectation_eq (so : SetOrder) {values : Values} {gs : List Gate} {nss : List (List StdNoise)} {st : State}
    (hne : gs ≠ []) (hok : ∀ g ∈ gs, g.Ok n .unitary values) (hn : List.Forall₂ Gate.NoiseIs gs nss) (hst : st.On n)
    {obs : List Observable} {Os : List (Matrix (Lab n) (Lab n) ℂ)} (hobs : obs ≠ [])
    (ho : List.Forall₂ (fun o O => o.Fixed so n (Mixed st gs) O) obs Os) :
    gatesExpectation so st obs (.list gs) values
      = .ok (Os.map fun O => expVal O (noisyRun n .unitary values (gs.zip nss) (st.mat n))) := by
  obtain ⟨r, h1, h2⟩ := applyGates_evolved so hne hok hn hst true
  have hm : (obs.mapM fun o => do
      let st ← applyGates so st (.list gs) values
      expectSingle so values o st) = .ok (Os.map fun O => expVal O (noisyRun n .unitary values (gs.zip nss) (st.mat n))) := by
    refine mapM_forall₂ (ho.imp fun o O hO => ?_)
    simp only [h1, bind, Except.bind]
    rw [hO.single h2 h2.on, h2.mat hn]
  have hx : (Os.map fun O => expVal O (noisyRun n .unitary values (gs.zip nss) (st.mat n))) ≠ [] := by
    intro h
    rw [List.map_eq_nil_iff] at h
    subst h; cases ho; exact hobs rfl
  rw [gatesExpectation]
  simp only [bind, Except.bind] at hm ⊢
  rw [hm]
  simp only [stackReal, if_neg hx]

/-! ## `jax.jit` is transparent -/

theorem jitGate_eq {g : Gate} (h : g.Registered) : jitGate g = .ok g := by
  obtain ⟨cls, _⟩ := g
  cases cls with
  | phase => exact h.elim
  | hamEvo s => cases h; rfl
  | _ => rfl

mutual
theorem jitOp_eq (o : Op) (h : o.Registered) : jitOp o = .ok o := by
  cases o with
  | prim g => simp only [jitOp, jitGate_eq (by simpa only [Op.Registered] using h)]; rfl
  | comp k ops =>
    simp only [Op.Registered] at h
    have hj := jitOps_eq ops h.2
    cases k with
    | circ n fs => exact absurd rfl (h.1 n fs)
    | _ => simp only [jitOp, hj]; rfl
theorem jitOps_eq (os : List Op) (h : Op.AllRegistered os) : jitOps os = .ok os := by
  cases os with
  | nil => rfl
  | cons o os =>
    simp only [Op.AllRegistered] at h
    simp only [jitOps, jitOp_eq o h.1, jitOps_eq os h.2]; rfl
end

theorem mapM_ok_id {α : Type} {f : α → Py α} {l : List α} (h : ∀ a ∈ l, f a = .ok a) : l.mapM f = .ok l := by
  induction l with
  | nil => rfl
  | cons a l ih => rw [List.mapM_cons, h a (by simp), ih fun b hb => h b (by simp [hb])]; rfl

theorem jittedExpectation_eq (so : SetOrder) {st : State} {obs : List Observable} {gs : List Gate} (values : Values)
    (hg : ∀ g ∈ gs, g.Registered) (ho : ∀ o ∈ obs, Op.AllRegistered o.ops) :
    jittedExpectation so st obs (.list gs) values = gatesExpectation so st obs (.list gs) values := by
  have h1 : jitArg (.list gs) = .ok (.list gs) := by
    simp only [jitArg, mapM_ok_id fun g h => jitGate_eq (hg g h)]; rfl
  have h2 : (obs.mapM fun o => do pure ({ o with ops := ← jitOps o.ops } : Observable)) = Except.ok (ε := Err) obs :=
    mapM_ok_id fun o h => by simp only [jitOps_eq o.ops (ho o h)]; rfl
  simp only [jittedExpectation, h1, bind, Except.bind] at h2 ⊢
  rw [h2]

end Verif
