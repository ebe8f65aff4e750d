import Verif.Props.Constructors
import Verif.Props.Noise

/-!
# C62: the noise argument of the gate constructors
-/

set_option autoImplicit false

namespace Verif

variable {n : ℕ} {values : Values}

/-- The public gate constructors as functions of the arguments `target`, `control` and `noise`, with the textbook gate they are named
after. -/
inductive NoisyCtor (values : Values) : (TArg → CArg → Option (List NoiseInstance) → Gate) → StdGate → Prop
  | I : NoisyCtor values (fun t c nz => Gate.I t c nz) .I
  | X : NoisyCtor values (fun t c nz => Gate.X t c nz) .X
  | Y : NoisyCtor values (fun t c nz => Gate.Y t c nz) .Y
  | Z : NoisyCtor values (fun t c nz => Gate.Z t c nz) .Z
  | H : NoisyCtor values (fun t c nz => Gate.H t c nz) .H
  | S : NoisyCtor values (fun t c nz => Gate.S t c nz) .S
  | T : NoisyCtor values (fun t c nz => Gate.T t c nz) .T
  | RX {p : Param} {θ : ℝ} (h : p.Resolves values θ) : NoisyCtor values (fun t c nz => Gate.RX p t c nz) (.RX θ)
  | RY {p : Param} {θ : ℝ} (h : p.Resolves values θ) : NoisyCtor values (fun t c nz => Gate.RY p t c nz) (.RY θ)
  | RZ {p : Param} {θ : ℝ} (h : p.Resolves values θ) : NoisyCtor values (fun t c nz => Gate.RZ p t c nz) (.RZ θ)
  | PHASE {p : Param} {θ : ℝ} (h : p.Resolves values θ) : NoisyCtor values (fun t c nz => Gate.PHASE p t c nz) (.PHASE θ)

/-- What a constructor does with its arguments. -/
theorem NoisyCtor.fields {f : TArg → CArg → Option (List NoiseInstance) → Gate} {s : StdGate} (h : NoisyCtor values f s) (t : TArg)
    (c : CArg) (nz : Option (List NoiseInstance)) :
    (f t c nz).Is values s ∧ (f t c nz).target = parseTarget t ∧ (f t c nz).control = parseControl c ∧ (f t c nz).noise = nz ∧
      s.arity = 1 := by
  cases h
  case I => exact ⟨.I _ _ _, rfl, rfl, rfl, rfl⟩
  case X => exact ⟨.X _ _ _, rfl, rfl, rfl, rfl⟩
  case Y => exact ⟨.Y _ _ _, rfl, rfl, rfl, rfl⟩
  case Z => exact ⟨.Z _ _ _, rfl, rfl, rfl, rfl⟩
  case H => exact ⟨.H _ _ _, rfl, rfl, rfl, rfl⟩
  case S => exact ⟨.S _ _ _, rfl, rfl, rfl, rfl⟩
  case T => exact ⟨.T _ _ _, rfl, rfl, rfl, rfl⟩
  case RX p θ h => exact ⟨.RX _ _ _ h (by simp), rfl, rfl, rfl, rfl⟩
  case RY p θ h => exact ⟨.RY _ _ _ h (by simp), rfl, rfl, rfl, rfl⟩
  case RZ p θ h => exact ⟨.RZ _ _ _ h (by simp), rfl, rfl, rfl, rfl⟩
  case PHASE p θ h => exact ⟨.PHASE _ _ _ h (by simp), rfl, rfl, rfl, rfl⟩

/-- **C62** (noise): a constructor called with `noise=(…)` gives the textbook gate on the named target and controls, followed by the
channels of the tuple, first one first, on the target qubit; the result is a density matrix also for a state vector. -/
theorem C62_noise (so : SetOrder) {f : TArg → CArg → Option (List NoiseInstance) → Gate} {s : StdGate} (h : NoisyCtor values f s)
    {t : TArg} {c : CArg} {q : ℕ} {cs : List ℕ} (ht : t.Names [q]) (hc : c.Names cs) (hv : ValidDims n (cs ++ [q]))
    {nis : List NoiseInstance} {ns : List StdNoise} (hn : List.Forall₂ NoiseInstance.Is nis ns) {st : State} (hst : st.On n)
    (group merge : Bool) :
    ∃ r : DensityMatrix ℂ, applyGates so st (.single (f t c (some nis))) values .unitary group merge = .ok (.dm r) ∧ IsDM n r ∧
      dmMat n r.array = ns.foldl (fun ρ x => x.chan n q ρ) (conjBy (gateMat n s.mat [q] cs) (st.mat n)) := by
  obtain ⟨h1, h2, h3, h4, h5⟩ := h.fields t c (some nis)
  obtain ⟨h6, h7⟩ := hc.parse
  rw [ht.parse] at h2
  have hstd : (f t c (some nis)).Std n values s :=
    ⟨h1, by rw [h2, h5]; rfl, ⟨by rw [h3]; exact h6, by rw [h2, h3, h7]; exact hv⟩⟩
  have hm : stdMat n (f t c (some nis)) s = gateMat n s.mat [q] cs := by rw [stdMat, h2, h3, h7]
  obtain ⟨r, e1, e2, e3, e4⟩ := C12_channels so (xs := [(f t c (some nis), s, ns)]) (by simp)
    (by simp only [List.mem_singleton, forall_eq]; exact ⟨hstd, .some h4 hn (.inr ⟨q, h2⟩)⟩) hst merge
  obtain ⟨ρ, rfl⟩ := e4.2 (.inr ⟨_, List.mem_singleton.2 rfl, by simp [h4]⟩)
  refine ⟨ρ, by rw [applyGates_singleton so _ _ _ _ group merge false merge]; exact e1, e2, e3.trans ?_⟩
  simp only [stdRun, List.foldl_cons, List.foldl_nil, noisyStep, hm, h2, List.headD_cons]

/-- Non-vacuity: `PHASE(0.5, 1, 0, noise=(bit flip 1/4, phase damping 1/2))` on two qubits. -/
example : ∃ f nis, NoisyCtor [] f (.PHASE 0.5) ∧ (CArg.int 0).Names [0] ∧ (TArg.int 1).Names [1] ∧ ValidDims 2 ([0] ++ [1]) ∧
    List.Forall₂ NoiseInstance.Is nis [.bitFlip (1 / 4), .phaseDamping (1 / 2)] :=
  ⟨_, [⟨.bitFlip, .float (1 / 4)⟩, ⟨.phaseDamping, .float (1 / 2)⟩], .PHASE (.num _), .int 0, .int 1, by decide,
    .cons (.bitFlip (by norm_num)) (.cons (.phaseDamping (by norm_num)) .nil)⟩

end Verif
