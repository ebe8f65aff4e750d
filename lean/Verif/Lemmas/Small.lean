import Verif.Lemmas.StdGates

/-! # One-qubit registers, for concrete cases -/

namespace Verif
open NDArray

/-- The label of a basis state of a one-qubit register. -/
def lab1 (i : Fin 2) : Lab 1 := fun _ => i

theorem lab1_bits (i : Fin 2) : (lab1 i).bits = [i.val] := by simp [Lab.bits, lab1]

theorem sum_lab1 {M : Type} [AddCommMonoid M] (f : Lab 1 → M) : ∑ b, f b = f (lab1 0) + f (lab1 1) := by
  have : ∑ b, f b = ∑ i : Fin 2, f (lab1 i) :=
    (Fintype.sum_equiv (Equiv.funUnique (Fin 1) (Fin 2)).symm (fun i => f (lab1 i)) f fun i => rfl).symm
  rw [this, Fin.sum_univ_two]

theorem lab1_inj (i j : Fin 2) : lab1 i = lab1 j ↔ i = j := ⟨fun h => congrFun h 0, fun h => h ▸ rfl⟩

theorem gateMat_lab1 {K : Type} [CommRing K] (U : ℕ → ℕ → K) (i j : Fin 2) : gateMat 1 U [0] [] (lab1 i) (lab1 j) = U i j := by
  rw [gateMat_nil_apply, if_pos]
  · simp [Lab.idx, Lab.bit, lab1, binVal]
  · rw [Lab.agreeOff_iff]; intro q hq h; exact absurd (by simpa using hq) (by simpa using h)

/-- The array of the basis state with label `b`. -/
def basisKet (K : Type) [Zero K] [One K] {n : ℕ} (b : Lab n) : NDArray K :=
  ofFn (List.replicate n 2) fun idx => if idx = b.bits then 1 else 0

theorem basisKet_isKet {K : Type} [Zero K] [One K] {n : ℕ} (b : Lab n) : IsKet n (basisKet K b) := ⟨rfl, wf_ofFn _ _⟩

theorem ket_basisKet {K : Type} [Zero K] [One K] {n : ℕ} (b : Lab n) : ket n (basisKet K b) = Pi.single b 1 := by
  funext x
  rw [ket, basisKet, get_ofFn (forall₂_replicate.2 x.isBits_bits), Pi.single_apply]
  simp only [Lab.bits_injective.eq_iff]

end Verif
