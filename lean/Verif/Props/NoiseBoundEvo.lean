import Verif.Lemmas.Lipschitz
import Verif.Props.NoiseBound
import Verif.Props.EvolvingCircuits
import Verif.Props.DmExact

/-!
# Noise in circuits that contain Hamiltonian evolutions (C87)
-/

set_option autoImplicit false

namespace Verif
open NDArray
open scoped ComplexOrder
variable {n : ℕ} (so : SetOrder) (eigh : Eigh) (draw : Draw) {values : Values} {nss : List (List StdNoise)}

theorem Gate.Proper.isometric {g : Gate} (h : g.Proper n values) : g.Isometric n values := by
  rcases h with ⟨s, h⟩ | ⟨tg, c, H, t, h⟩
  · exact h.isometric
  · obtain rfl := h.eq
    refine ⟨?_, fun q hq => h.dims.lt q (List.mem_append_right _ hq)⟩
    rw [(hamEvo_ok h.vals h.op h.ctl h.dims).2]
    exact (C40_unitary h.herm t rfl h.dims).2

theorem Gate.Proper.noiseless {g : Gate} (h : g.Proper n values) : g.noiseless.Proper n values := by
  rcases h with ⟨s, h⟩ | ⟨tg, c, H, t, h⟩
  · exact .inl ⟨s, h.noiseless⟩
  · refine .inr ⟨tg, c, H, t, ?_, h.vals, h.op, h.herm, h.ctl, h.dims⟩
    rw [h.eq]; rfl

theorem Op.Proper.noiseless {circuit ideal : Op} (h : circuit.Proper n values nss) (hp : ideal.Plain)
    (hi : ideal.gates = circuit.gates.map Gate.noiseless) : ideal.Proper n values (nss.map fun _ => []) := by
  refine ⟨hp, by simpa [hi] using h.ne, fun g hg => ?_, ?_⟩
  · rw [hi] at hg
    obtain ⟨g', hg', rfl⟩ := List.mem_map.1 hg
    exact (h.gates g' hg').noiseless
  · rw [hi]
    have := h.noise
    clear h hi
    generalize circuit.gates = gs at this ⊢
    induction this with
    | nil => exact .nil
    | cons _ _ ih => exact .cons (.none rfl) ih

/-- **C87** (Hamiltonian evolutions): the bound of `C87_robust`, and the one of `C87_mixture` if no channel damps, for circuits that may
contain Hamiltonian evolutions with Hermitian matrices, on density matrices; `O` is what the code reads the observable as. -/
theorem C87_evolution {circuit ideal : Op} (h : circuit.Proper n values nss) (hp : ideal.Plain)
    (hi : ideal.gates = circuit.gates.map Gate.noiseless) (hf : values.Flat) {ρ : DensityMatrix ℂ} (hρ : IsDM n ρ)
    (hpos : (dmMat n ρ.array).PosSemidef) (ht : (dmMat n ρ.array).trace = 1) {obs : List Observable} {Os : List (LMat n)}
    (hne : obs ≠ []) (ho : List.Forall₂ (fun o O => o.ReadAs so n values O) obs Os) :
    ∃ xs ys, expectation so eigh draw (.dm ρ) circuit obs values .ad 0 = .ok xs ∧
      expectation so eigh draw (.dm ρ) ideal obs values .ad 0 = .ok ys ∧ xs.length = Os.length ∧ ys.length = Os.length ∧
      ∀ i O lo hi, Os[i]? = some O → O.IsHermitian → SpectrumIn O lo hi →
        |xs.getD i 0 - ys.getD i 0| ≤ (nss.flatten.map StdNoise.strength).sum * (hi - lo) ∧
        ((∀ ns ∈ nss, ∀ s ∈ ns, s.IsMixture) →
          |xs.getD i 0 - ys.getD i 0| ≤ (1 - (nss.flatten.map fun s => 1 - s.strength).prod) * (hi - lo)) := by
  have h' := h.noiseless hp hi
  have out : ∀ {c : Op} {nss : List (List StdNoise)} (_ : c.Proper n values nss),
      expectation so eigh draw (.dm ρ) c obs values .ad 0
        = .ok (Os.map fun O => expVal O (noisyRun n .unitary values (c.gates.zip nss) (dmMat n ρ.array))) := by
    intro c nss hc
    obtain ⟨q, q1, q2, q3⟩ := C68_value so eigh draw hc.circuit hf hρ hne ho
    obtain ⟨r, r1, -, r2⟩ := circuit_run so hc.circuit (st := .dm ρ) hρ
    obtain rfl := Option.some.inj (Except.ok.inj (q1.symm.trans r1))
    have hm := r2.mat hc.noise
    change dmMat n q.array = noisyRun n .unitary values _ (dmMat n ρ.array) at hm
    rw [q3, hm]
    rfl
  refine ⟨_, _, out h, out h', by simp, by simp, ?_⟩
  intro i O lo hi' hO hH hs
  simp only [List.getD_eq_getElem?_getD, List.getElem?_map, hO, Option.map_some, Option.getD_some, hi]
  have hg : ∀ g ∈ circuit.gates, g.Isometric n values := fun g hg => (h.gates g hg).isometric
  refine ⟨?_, fun hmix => ?_⟩
  · have := run_near hg h.noise hpos ht
    exact near_expVal hH hs this.1 this.2
  · obtain ⟨h1, A, hA, e⟩ := run_mixture hg h.noise hmix hpos ht
    exact mixture_expVal hH hs h1 hA e

/-- Non-vacuity: a noisy rotation and a controlled evolution with the Hamiltonian `X`: without the bit flip of probability `1/3`, the
value of `Z₀` changes by at most `2/3`. -/
example (hso : so.SmallSorted) {ρ : DensityMatrix ℂ} (hρ : IsDM 3 ρ) (hpos : (dmMat 3 ρ.array).PosSemidef)
    (ht : (dmMat 3 ρ.array).trace = 1) :
    ∃ x y, expectation so eigh draw (.dm ρ) (gateCircuit 3 [Gate.RX (.str "a") (.int 1) (.tuple [.none]) (some [⟨.bitFlip, .float (1 / 3)⟩]),
        Gate.HamiltonianEvolution (.int 2) (.int 0)]) [Observable.new (.list [.prim (Gate.Z (.int 0))])]
        [("a", .num 5), ("hamiltonian", .arr matX), ("time_evolution", .num 3)] .ad 0 = .ok [x] ∧
      expectation so eigh draw (.dm ρ) (gateCircuit 3 [Gate.RX (.str "a") (.int 1) (.tuple [.none]),
        Gate.HamiltonianEvolution (.int 2) (.int 0)]) [Observable.new (.list [.prim (Gate.Z (.int 0))])]
        [("a", .num 5), ("hamiltonian", .arr matX), ("time_evolution", .num 3)] .ad 0 = .ok [y] ∧ |x - y| ≤ 2 / 3 := by
  have hc : (gateCircuit 3 [Gate.RX (.str "a") (.int 1) (.tuple [.none]) (some [⟨.bitFlip, .float (1 / 3)⟩]),
      Gate.HamiltonianEvolution (.int 2) (.int 0)]).Proper 3
      [("a", .num 5), ("hamiltonian", .arr matX), ("time_evolution", .num 3)] [[.bitFlip (1 / 3)], []] := by
    refine ⟨gateCircuit_plain _ _, by simp [gateCircuit_gates], ?_, ?_⟩
    · rw [gateCircuit_gates]
      intro g hg
      simp only [List.mem_cons, List.not_mem_nil, or_false] at hg
      rcases hg with rfl | rfl
      · exact .inl ⟨.RX 5, .RX _ _ _ (.str rfl) (by simp), rfl, ⟨.inr (.inl rfl), by decide⟩⟩
      · exact .inr ⟨.int 2, .int 0, matX, 3, rfl, ⟨rfl, rfl⟩, ⟨rfl, rfl⟩, matX_herm, .inr (.inr ⟨[0], rfl⟩), by decide⟩
    · rw [gateCircuit_gates]
      exact .cons (.some rfl (.cons (.bitFlip (by norm_num)) .nil) (.inr ⟨1, rfl⟩)) (.cons (.none rfl) .nil)
  have lZ : StdLeaf 3 [("a", .num 5), ("hamiltonian", .arr matX), ("time_evolution", .num 3)] (Gate.Z (.int 0))
      (gateMat 3 StdGate.Z.mat [0] []) := ⟨.Z, ⟨.Z _ _ _, rfl, ⟨.inr (.inl rfl), by decide⟩⟩, rfl, rfl⟩
  have ho := C68_small so hso (n := 3) (by norm_num) (o := Observable.new (.list [.prim (Gate.Z (.int 0))])) (.one (.gate lZ.sort))
  have hH : (gateMat 3 StdGate.Z.mat [0] []).IsHermitian :=
    gateMat_herm (n := 3) (S := !![1, 0; 0, -1]) (t := 0) (cs := []) (by ext i j; fin_cases i <;> fin_cases j <;> simp) (by decide)
  obtain ⟨xs, ys, h1, h2, h3, h4, h5⟩ := C87_evolution so eigh draw hc (gateCircuit_plain 3 [Gate.RX (.str "a") (.int 1) (.tuple [.none]),
    Gate.HamiltonianEvolution (.int 2) (.int 0)]) (by rw [gateCircuit_gates, gateCircuit_gates]; rfl) (.inl rfl) hρ hpos ht
    (by simp) (.cons ho .nil)
  obtain ⟨x, rfl⟩ := List.length_eq_one_iff.1 h3
  obtain ⟨y, rfl⟩ := List.length_eq_one_iff.1 h4
  have h6 := (h5 0 _ (-1) 1 rfl ?_ ?_).1
  · refine ⟨x, y, h1, h2, ?_⟩
    simp [StdNoise.strength] at h6
    linarith
  · exact hH
  · intro x v hv hx
    have h7 := congrArg (Matrix.mulVec (gateMat 3 StdGate.Z.mat [0] [])) hx
    have hU := (gateMat_unitary (n := 3) (ts := [0]) (cs := []) (by decide) StdGate.Z.isUnitary).1
    rw [hH] at hU
    rw [Matrix.mulVec_mulVec, hU, Matrix.one_mulVec, Matrix.mulVec_smul, hx, smul_smul] at h7
    obtain ⟨b, hb⟩ := Function.ne_iff.1 hv
    have h8 := congrFun h7 b
    have h9 : ((x * x : ℝ) : ℂ) = (1 : ℝ) := by
      apply mul_right_cancel₀ hb
      rw [Pi.smul_apply, smul_eq_mul] at h8
      push_cast
      rw [← h8, one_mul]
    have h9 := Complex.ofReal_injective h9
    constructor <;> nlinarith

end Verif
