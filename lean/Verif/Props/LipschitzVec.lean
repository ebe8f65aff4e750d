import Verif.Props.LipschitzHam

/-!
# C88: changes of the evolution time and of the Hamiltonian on state vectors
-/

set_option autoImplicit false

namespace Verif
open NDArray
open scoped Matrix.Norms.L2Operator ComplexOrder
variable {n : ℕ} (so : SetOrder) (eigh : Eigh) (draw : Draw) {v v' : Values} {nss : List (List StdNoise)}

theorem Observable.Simple.readAs {o : Observable} {O : LMat n} (h : o.Simple so n v O) : o.ReadAs so n v O := by
  have hl := h.listed.mono fun _ _ h => StdLeaf.sort h
  obtain ⟨S, m, e1, -⟩ := expectDM_eq so hl (ρ := densityMat (basisKet ℂ fun _ => 0)) (densityMat_isDM (n := n) (basisKet_isKet _)).1
  refine ⟨O, S, 1, hl, e1, ?_, rfl⟩
  rw [pySorted_of_le ((h.sorted S e1).imp le_of_lt)]
  refine (List.map_congr_left fun q hq => ?_).trans (List.map_id S)
  simp [relabelQ]

theorem densityMat_mat {a : NDArray ℂ} (ha : IsKet n a) : dmMat n (densityMat a).array = (State.vec a).mat n := by
  rw [(densityMat_isDM ha).2]
  ext x y
  simp [State.mat, Matrix.vecMulVec, ket]

/-- **C88** (evolution time, state vectors): the bound of `C88_time` for normalised state vectors; the circuit may be noisy. -/
theorem C88_time_vector {circuit : Op} {H : NDArray ℂ} {s t N : ℝ} (h : circuit.Proper n v nss) (hv : EvolutionValues v H s)
    (ht : v'.lookup "time_evolution" = some (.num t)) (hr : ∀ p, p ≠ "time_evolution" → v'.lookup p = v.lookup p)
    (hu : ∀ g ∈ circuit.gates, ¬ g.Uses "time_evolution") (hf : v.Flat) (hf' : v'.Flat)
    (hN : ∀ k, IsOp k H → ‖hamMat k H‖ ≤ N) (hN0 : 0 ≤ N) {a : NDArray ℂ} (ha : IsKet n a) (h1 : ((State.vec a).mat n).trace = 1)
    {obs : List Observable} {Os : List (LMat n)} (hne : obs ≠ []) (ho : List.Forall₂ (fun o O => o.Simple so n v O) obs Os)
    (ho' : List.Forall₂ (fun o O => o.Simple so n v' O) obs Os) :
    ∃ xs ys, expectation so eigh draw (.vec a) circuit obs v .ad 0 = .ok xs ∧
      expectation so eigh draw (.vec a) circuit obs v' .ad 0 = .ok ys ∧ xs.length = Os.length ∧ ys.length = Os.length ∧
      ∀ i O, Os[i]? = some O → |ys.getD i 0 - xs.getD i 0| ≤ 2 * ‖O‖ * (evolutionCount circuit.gates * N * |t - s|) := by
  have h' := (h.retime hv ⟨(hr _ (by decide)).trans hv.ham, ht⟩ hr hu).2
  obtain ⟨xs, ys, k1, k2, k⟩ := C88_time so eigh draw h hv ht hr hu hf hf' hN hN0 (densityMat_isDM ha).1
    (by rw [densityMat_mat ha]; exact vec_posSemidef a) (by rw [densityMat_mat ha]; exact h1) hne
    (ho.imp fun _ _ h => h.readAs so) (ho'.imp fun _ _ h => h.readAs so)
  obtain ⟨_, p1, p2⟩ := C22_pure_partial so eigh draw h.circuit hf ha hne ho
  obtain ⟨_, q1, q2⟩ := C22_pure_partial so eigh draw h'.circuit hf' ha hne ho'
  obtain rfl := Except.ok.inj (p2.symm.trans k1)
  obtain rfl := Except.ok.inj (q2.symm.trans k2)
  exact ⟨_, _, p1, q1, k⟩

/-- Non-vacuity: for one evolution with the Hamiltonian `X` on `|0⟩` the value of `Z` changes by at most `2 |t - s|`. -/
example (s t : ℝ) : ∃ xs ys, expectation so eigh draw (.vec zero1) onceEvo [obsZ] (onceValues s) .ad 0 = .ok xs ∧
    expectation so eigh draw (.vec zero1) onceEvo [obsZ] (onceValues t) .ad 0 = .ok ys ∧
    |ys.getD 0 0 - xs.getD 0 0| ≤ 2 * |t - s| := by
  obtain ⟨-, -, hk, hX, hO⟩ := C88_time_attained so eigh draw
  have hc : onceEvo.Proper 1 (onceValues s) [[]] := by
    refine ⟨.seq (.cons (.prim _) .nil), by simp [onceEvo_gates, evoGates], ?_, ?_⟩
    · simp only [onceEvo_gates, evoGates, List.nil_append, List.mem_cons, List.not_mem_nil, or_false, forall_eq]
      exact .inr ⟨.int 0, .tuple [.none], matX, s, rfl, ⟨rfl, rfl⟩, ⟨rfl, rfl⟩, matX_herm, .inr (.inl rfl), by
        change ValidDims 1 [0]; decide⟩
    · rw [onceEvo_gates]
      exact .cons (.none rfl) .nil
  obtain ⟨xs, ys, k1, k2, -, -, k⟩ := C88_time_vector so eigh draw (v' := onceValues t) (t := t) (N := 1) (H := matX) (s := s) hc ⟨rfl, rfl⟩ rfl
    (fun p hp => by
      have hp' : (p == "time_evolution") = false := by simpa using hp
      simp [onceValues, List.lookup, hp'])
    (by
      simp only [onceEvo_gates, evoGates, List.nil_append, List.mem_cons, List.not_mem_nil, or_false, forall_eq]
      exact fun h => h)
    (.inl rfl) (.inl rfl) (fun k hk => by
      have h2 : (2 : ℕ) ^ k = 2 ^ 1 := by
        have := hk.shape
        simpa [matX, mat2] using this.symm
      obtain rfl := Nat.pow_right_injective le_rfl h2
      exact hX)
    zero_le_one zero1_isKet (by
      simp [State.mat, Matrix.trace, sum_lab1, ket, zero1_get])
    (by simp) (.cons (obsZ_simple so) .nil) (.cons (obsZ_simple so) .nil)
  refine ⟨xs, ys, k1, k2, (k 0 _ rfl).trans ?_⟩
  rw [hk]
  have := abs_nonneg (t - s)
  push_cast
  nlinarith

end Verif
