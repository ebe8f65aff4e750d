import Verif.Props.LipschitzVec

/-!
# Noise in circuits that contain Hamiltonian evolutions, started from a state vector (C87)
-/

set_option autoImplicit false

namespace Verif
open NDArray
open scoped ComplexOrder
variable {n : ℕ} (so : SetOrder) (eigh : Eigh) (draw : Draw) {values : Values} {nss : List (List StdNoise)}

/-- **C87** (Hamiltonian evolutions, state vectors): the bounds of `C87_evolution` for normalised state vectors. The ideal circuit keeps
a state vector, the noisy one works with its density matrix. -/
theorem C87_evolution_vector {circuit ideal : Op} (h : circuit.Proper n values nss) (hp : ideal.Plain)
    (hi : ideal.gates = circuit.gates.map Gate.noiseless) (hf : values.Flat) {a : NDArray ℂ} (ha : IsKet n a)
    (h1 : ((State.vec a).mat n).trace = 1) {obs : List Observable} {Os : List (LMat n)} (hne : obs ≠ [])
    (ho : List.Forall₂ (fun o O => o.Simple so n values O) obs Os) :
    ∃ xs ys, expectation so eigh draw (.vec a) circuit obs values .ad 0 = .ok xs ∧
      expectation so eigh draw (.vec a) ideal obs values .ad 0 = .ok ys ∧ xs.length = Os.length ∧ ys.length = Os.length ∧
      ∀ i O lo hi, Os[i]? = some O → O.IsHermitian → SpectrumIn O lo hi →
        |xs.getD i 0 - ys.getD i 0| ≤ (nss.flatten.map StdNoise.strength).sum * (hi - lo) ∧
        ((∀ ns ∈ nss, ∀ s ∈ ns, s.IsMixture) →
          |xs.getD i 0 - ys.getD i 0| ≤ (1 - (nss.flatten.map fun s => 1 - s.strength).prod) * (hi - lo)) := by
  obtain ⟨xs, ys, k1, k2, k⟩ := C87_evolution so eigh draw h hp hi hf (densityMat_isDM ha).1
    (by rw [densityMat_mat ha]; exact vec_posSemidef a) (by rw [densityMat_mat ha]; exact h1) hne (ho.imp fun _ _ h => h.readAs so)
  obtain ⟨_, p1, p2⟩ := C22_pure_partial so eigh draw h.circuit hf ha hne ho
  obtain ⟨_, q1, q2⟩ := C22_pure_partial so eigh draw (h.noiseless hp hi).circuit hf ha hne ho
  obtain rfl := Except.ok.inj (p2.symm.trans k1)
  obtain rfl := Except.ok.inj (q2.symm.trans k2)
  exact ⟨_, _, p1, q1, k⟩

/-- A rotation with a bit flip of probability `1/3`, then a Hamiltonian evolution. -/
noncomputable def flipEvo : Op := gateCircuit 1 [Gate.RX (.str "a") (.int 0) (.tuple [.none]) (some [⟨.bitFlip, .float (1 / 3)⟩]),
  Gate.HamiltonianEvolution (.int 0)]

/-- The same without the bit flip. -/
noncomputable def idealEvo : Op := gateCircuit 1 [Gate.RX (.str "a") (.int 0), Gate.HamiltonianEvolution (.int 0)]

/-- Non-vacuity: the value of `Z` on `|0⟩` changes by at most `2/3`. -/
example (x t : ℝ) : ∃ xs ys,
    expectation so eigh draw (.vec zero1) flipEvo [obsZ] [("a", .num x), ("hamiltonian", .arr matX), ("time_evolution", .num t)] .ad 0 = .ok xs ∧
    expectation so eigh draw (.vec zero1) idealEvo [obsZ] [("a", .num x), ("hamiltonian", .arr matX), ("time_evolution", .num t)] .ad 0
      = .ok ys ∧ |xs.getD 0 0 - ys.getD 0 0| ≤ 2 / 3 := by
  have hc : flipEvo.Proper 1 [("a", .num x), ("hamiltonian", .arr matX), ("time_evolution", .num t)] [[.bitFlip (1 / 3)], []] := by
    refine ⟨gateCircuit_plain _ _, by simp [flipEvo, gateCircuit_gates], ?_, ?_⟩
    · rw [flipEvo, gateCircuit_gates]
      intro g hg
      simp only [List.mem_cons, List.not_mem_nil, or_false] at hg
      rcases hg with rfl | rfl
      · exact .inl ⟨.RX x, .RX _ _ _ (.str rfl) (by simp), rfl, ⟨.inr (.inl rfl), by decide⟩⟩
      · exact .inr ⟨.int 0, .tuple [.none], matX, t, rfl, ⟨rfl, rfl⟩, ⟨rfl, rfl⟩, matX_herm, .inr (.inl rfl), by decide⟩
    · rw [flipEvo, gateCircuit_gates]
      exact .cons (.some rfl (.cons (.bitFlip (by norm_num)) .nil) (.inr ⟨0, rfl⟩)) (.cons (.none rfl) .nil)
  obtain ⟨xs, ys, k1, k2, -, -, k⟩ := C87_evolution_vector so eigh draw hc (ideal := idealEvo) (gateCircuit_plain _ _)
    (by rw [flipEvo, idealEvo, gateCircuit_gates, gateCircuit_gates]; rfl) (.inl rfl) zero1_isKet
    (by simp [State.mat, Matrix.trace, sum_lab1, ket, zero1_get]) (by simp) (.cons (obsZ_simple so) .nil)
  have hs : SpectrumIn (gateMat 1 StdGate.Z.mat [0] []) (-1) 1 := by
    intro x v hv hx
    have h7 := congrArg (Matrix.mulVec (gateMat 1 StdGate.Z.mat [0] [])) hx
    have hU := (gateMat_unitary (n := 1) (ts := [0]) (cs := []) (by decide) StdGate.Z.isUnitary).1
    rw [gateZ_hermitian] at hU
    rw [Matrix.mulVec_mulVec, hU, Matrix.one_mulVec, Matrix.mulVec_smul, hx, smul_smul] at h7
    obtain ⟨b, hb⟩ := Function.ne_iff.1 hv
    have h8 := congrFun h7 b
    have h9 : ((x * x : ℝ) : ℂ) = (1 : ℝ) := by
      apply mul_right_cancel₀ hb
      rw [Pi.smul_apply, smul_eq_mul] at h8
      push_cast
      rw [← h8, one_mul]
    have h9 := Complex.ofReal_injective h9
    constructor <;> nlinarith
  refine ⟨xs, ys, k1, k2, ?_⟩
  have := (k 0 _ (-1) 1 rfl gateZ_hermitian hs).1
  simp [StdNoise.strength] at this
  simp
  linarith

end Verif
