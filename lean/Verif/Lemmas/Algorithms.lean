import Verif.SpecAlgorithms
import Verif.Props.Identities

/-! # Lemmas: gates applied to amplitudes, and product states -/

set_option autoImplicit false

namespace Verif
open NDArray
variable {n : ℕ} {values : Values}

/-- Running a noiseless circuit of standard gates. -/
theorem run_realizes (so : SetOrder) {c : Op} (hc : c.Plain) {xs : List Placed} (h : Realizes n values c.gates xs) {a : NDArray ℂ}
    (ha : IsKet n a) :
    ∃ r, run so c (.vec a) values = .ok (some (.vec r)) ∧ IsKet n r ∧ ket n r = (placedMat n xs).mulVec (ket n a) := by
  by_cases hne : c.gates = []
  · refine ⟨a, by rw [run, hc.call so, hne]; simp [Op.callSeq], ha, ?_⟩
    rw [hne] at h
    cases h
    simp [placedMat]
  · have hn : List.Forall₂ Gate.NoiseIs c.gates (c.gates.map fun _ => []) := by
      rw [List.forall₂_map_right_iff, List.forall₂_same]
      exact fun g hg => .none (h.gate g hg).2
    obtain ⟨r, h1, h2⟩ := callSeq_evolved so hne (fun g hg => (h.gate g hg).1) hn (s := .vec a) ha
    cases r with
    | vec r => exact ⟨r, by rw [run, hc.call so]; exact h1, h2.2.1, by rw [← h.mat]; exact h2.2.2⟩
    | dm r => exact absurd (fun g hg => (h.gate g hg).2) h2.1

theorem placedMat_append (xs ys : List Placed) : placedMat n (xs ++ ys) = placedMat n ys * placedMat n xs := by
  induction xs with
  | nil => simp [placedMat]
  | cons x xs ih => rw [List.cons_append, placedMat, placedMat, ih, Matrix.mul_assoc]

theorem placedMat_mulVec_append (xs ys : List Placed) (v : Lab n → ℂ) :
    (placedMat n (xs ++ ys)).mulVec v = (placedMat n ys).mulVec ((placedMat n xs).mulVec v) := by
  rw [placedMat_append, Matrix.mulVec_mulVec]

theorem placedMat_mulVec_cons (x : Placed) (xs : List Placed) (v : Lab n → ℂ) :
    (placedMat n (x :: xs)).mulVec v = (placedMat n xs).mulVec ((x.mat n).mulVec v) := by
  rw [placedMat, Matrix.mulVec_mulVec]

theorem agreeOff_single (t : Fin n) (x y : Lab n) : Lab.AgreeOff [t.val] x y ↔ y = Function.update x t 0 ∨ y = Function.update x t 1 := by
  constructor
  · intro h
    have hy : y = Function.update x t (y t) := by
      funext q
      by_cases hq : q = t
      · subst hq; simp
      · rw [Function.update_of_ne hq]
        exact (h q (by simpa using fun e => hq (Fin.ext e))).symm
    rcases Fin.exists_fin_two.1 ⟨y t, rfl⟩ with e | e
    · left; rw [hy, e]
    · right; rw [hy, e]
  · rintro (rfl | rfl) q hq <;> rw [Function.update_of_ne (fun e => hq (by simp [e]))]

/-- A one-qubit gate with controls, on amplitudes. -/
theorem mulVec_single (U : ℕ → ℕ → ℂ) (t : Fin n) (cs : List ℕ) (v : Lab n → ℂ) (x : Lab n) :
    (gateMat n U [t.val] cs).mulVec v x = if ∀ c ∈ cs, x.bit c = 1 then
      U (x t).val 0 * v (Function.update x t 0) + U (x t).val 1 * v (Function.update x t 1) else v x := by
  rw [mulVec_gateMat]
  refine if_congr Iff.rfl ?_ rfl
  have hne : Function.update x t 0 ≠ Function.update x t 1 := fun h => by
    have := congrFun h t
    simp at this
  have hs : (Finset.univ.filter fun y => Lab.AgreeOff [t.val] x y) = {Function.update x t 0, Function.update x t 1} := by
    ext y
    simp [agreeOff_single]
  have hb : ∀ y : Lab n, y.idx [t.val] = (y t).val := fun y => by rw [idx_single]; exact Lab.bit_fin y t
  rw [hs, Finset.sum_pair hne, hb, hb, hb]
  simp

/-- The product state with the given amplitudes of each qubit. -/
noncomputable def prodKet (φ : Fin n → Fin 2 → ℂ) : Lab n → ℂ := fun x => ∏ q, φ q (x q)

/-- The amplitudes of one qubit after a gate. -/
noncomputable def act1 (U : ℕ → ℕ → ℂ) (f : Fin 2 → ℂ) : Fin 2 → ℂ := fun i => U i.val 0 * f 0 + U i.val 1 * f 1

theorem prodKet_update (φ : Fin n → Fin 2 → ℂ) (t : Fin n) (x : Lab n) (i : Fin 2) :
    prodKet φ (Function.update x t i) = φ t i * ∏ q ∈ Finset.univ.erase t, φ q (x q) := by
  rw [prodKet, ← Finset.mul_prod_erase _ _ (Finset.mem_univ t), Function.update_self]
  congr 1
  exact Finset.prod_congr rfl fun q hq => by rw [Function.update_of_ne (Finset.ne_of_mem_erase hq)]

theorem prodKet_update' (φ : Fin n → Fin 2 → ℂ) (t : Fin n) (f : Fin 2 → ℂ) (x : Lab n) :
    prodKet (Function.update φ t f) x = f (x t) * ∏ q ∈ Finset.univ.erase t, φ q (x q) := by
  rw [prodKet, ← Finset.mul_prod_erase _ _ (Finset.mem_univ t), Function.update_self]
  congr 1
  exact Finset.prod_congr rfl fun q hq => by rw [Function.update_of_ne (Finset.ne_of_mem_erase hq)]

/-- A one-qubit gate on a product state. -/
theorem mulVec_prodKet (U : ℕ → ℕ → ℂ) (t : Fin n) (φ : Fin n → Fin 2 → ℂ) :
    (gateMat n U [t.val] []).mulVec (prodKet φ) = prodKet (Function.update φ t (act1 U (φ t))) := by
  funext x
  rw [mulVec_single, if_pos (by simp), prodKet_update, prodKet_update, prodKet_update', act1]
  ring

/-- A controlled gate on a product state in which the control is a basis state. -/
theorem mulVec_prodKet_ctl (U : ℕ → ℕ → ℂ) {t c : Fin n} (htc : t ≠ c) (φ : Fin n → Fin 2 → ℂ) (b : Fin 2)
    (hb : φ c = fun i => if i = b then 1 else 0) :
    (gateMat n U [t.val] [c.val]).mulVec (prodKet φ) = if b = 1 then prodKet (Function.update φ t (act1 U (φ t))) else prodKet φ := by
  have hz : ∀ (ψ : Fin n → Fin 2 → ℂ) (x : Lab n), ψ c = φ c → x c ≠ b → prodKet ψ x = 0 := fun ψ x h hx =>
    Finset.prod_eq_zero (Finset.mem_univ c) (by rw [h, hb]; simp [hx])
  funext x
  rw [mulVec_single]
  have hbit : (∀ q ∈ [c.val], x.bit q = 1) ↔ x c = 1 := by
    simp only [List.mem_singleton, forall_eq, Lab.bit_fin]
    exact ⟨fun h => Fin.ext h, fun h => by rw [h]; rfl⟩
  rw [if_congr hbit rfl rfl]
  have hu : ∀ i, Function.update x t i c = x c := fun i => Function.update_of_ne htc.symm _ _
  by_cases hx : x c = b
  · by_cases h1 : b = 1
    · rw [if_pos (hx.trans h1), if_pos h1, prodKet_update, prodKet_update, prodKet_update', act1]
      ring
    · rw [if_neg (fun h => h1 (hx.symm.trans h)), if_neg h1]
  · have e : (if b = 1 then prodKet (Function.update φ t (act1 U (φ t))) else prodKet φ) x = 0 := by
      split
      · exact hz _ _ (Function.update_of_ne htc.symm _ _) hx
      · exact hz _ _ rfl hx
    rw [e]
    split
    · rw [hz φ _ rfl (by rwa [hu]), hz φ _ rfl (by rwa [hu])]; ring
    · exact hz φ _ rfl hx

/-- A basis state is a product state. -/
theorem prodKet_basis (b : Lab n) : prodKet (fun q i => if i = b q then (1 : ℂ) else 0) = fun x => if x = b then 1 else 0 := by
  funext x
  by_cases h : x = b
  · subst h; simp [prodKet]
  · rw [if_neg h]
    obtain ⟨q, hq⟩ := Function.ne_iff.1 h
    exact Finset.prod_eq_zero (Finset.mem_univ q) (by simp [hq])

end Verif
