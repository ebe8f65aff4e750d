import Verif.Lemmas.Transforms
import Verif.Props.States

/-!
# C102: textbook algorithms, for every number of qubits

GHZ states, the Hadamard transform, the algorithm of Bernstein and Vazirani, the quantum Fourier transform, Grover's search.
-/

set_option autoImplicit false

namespace Verif
open NDArray
variable {n : ℕ} {values : Values} (so : SetOrder)

/-! ## The circuits can be written down -/

/-- A call of a constructor for the placed gate. -/
noncomputable def Placed.toGate (x : Placed) : Gate :=
  let c : CArg := if x.controls = [] then .tuple [.none] else .tuple (x.controls.map .int)
  let t : TArg := .tuple x.targets
  match x.gate with
  | .I => Gate.I t c
  | .X => Gate.X t c
  | .Y => Gate.Y t c
  | .Z => Gate.Z t c
  | .H => Gate.H t c
  | .S => Gate.S t c
  | .T => Gate.T t c
  | .SWAP => Gate.SWAP t c
  | .RX θ => Gate.RX (.num θ) t c
  | .RY θ => Gate.RY (.num θ) t c
  | .RZ θ => Gate.RZ (.num θ) t c
  | .PHASE θ => Gate.PHASE (.num θ) t c

/-- The circuit of the placed gates. -/
noncomputable def placedCircuit (n : ℕ) (xs : List Placed) : Op := mkCircuit n (.list (xs.map fun x => .prim x.toGate)) []

theorem placedCircuit_plain (n : ℕ) (xs : List Placed) : (placedCircuit n xs).Plain := by
  refine .circ _ _ ?_
  show Op.PlainList (xs.map fun x => .prim x.toGate)
  induction xs with
  | nil => exact .nil
  | cons x xs ih => exact .cons (.prim _) ih

theorem placedCircuit_gates (n : ℕ) (xs : List Placed) : (placedCircuit n xs).gates = xs.map Placed.toGate := by
  show Op.gatesList (xs.map fun x => .prim x.toGate) = _
  induction xs with
  | nil => rfl
  | cons x xs ih => rw [List.map_cons, Op.gatesList, ih]; rfl

/-- Every list of placed gates that fits the register is realised by calls of the constructors. -/
theorem placedCircuit_realizes (n : ℕ) (values : Values) {xs : List Placed}
    (h : ∀ x ∈ xs, ValidDims n (x.controls ++ x.targets) ∧ x.targets.length = x.gate.arity) :
    Realizes n values (placedCircuit n xs).gates xs := by
  rw [placedCircuit_gates, Realizes, List.forall₂_map_left_iff, List.forall₂_same]
  intro x hx
  obtain ⟨hv, ha⟩ := h x hx
  have hc : WfCtl (parseControl (if x.controls = [] then .tuple [.none] else .tuple (x.controls.map .int))) := by
    split
    · exact .inr (.inl rfl)
    · exact .inr (.inr ⟨_, rfl⟩)
  have hi : ctlInts (parseControl (if x.controls = [] then .tuple [.none] else .tuple (x.controls.map .int))) = x.controls := by
    split
    · next e => rw [e]; rfl
    · simp [parseControl, ctlInts, List.filterMap_map, Function.comp_def]
  have hv' : ValidDims n (ctlInts (parseControl (if x.controls = [] then .tuple [.none] else .tuple (x.controls.map .int))) ++ x.targets) := by
    rw [hi]; exact hv
  obtain ⟨g, ts, cs⟩ := x
  cases g
  case I => exact ⟨⟨.I _ _ _, ha, ⟨hc, hv'⟩⟩, rfl, hi, rfl⟩
  case X => exact ⟨⟨.X _ _ _, ha, ⟨hc, hv'⟩⟩, rfl, hi, rfl⟩
  case Y => exact ⟨⟨.Y _ _ _, ha, ⟨hc, hv'⟩⟩, rfl, hi, rfl⟩
  case Z => exact ⟨⟨.Z _ _ _, ha, ⟨hc, hv'⟩⟩, rfl, hi, rfl⟩
  case H => exact ⟨⟨.H _ _ _, ha, ⟨hc, hv'⟩⟩, rfl, hi, rfl⟩
  case S => exact ⟨⟨.S _ _ _, ha, ⟨hc, hv'⟩⟩, rfl, hi, rfl⟩
  case T => exact ⟨⟨.T _ _ _, ha, ⟨hc, hv'⟩⟩, rfl, hi, rfl⟩
  case SWAP => exact ⟨⟨.SWAP _ _ _, ha, ⟨hc, hv'⟩⟩, rfl, hi, rfl⟩
  case RX θ => exact ⟨⟨.RX _ _ _ (.num θ) (by simp), ha, ⟨hc, hv'⟩⟩, rfl, hi, rfl⟩
  case RY θ => exact ⟨⟨.RY _ _ _ (.num θ) (by simp), ha, ⟨hc, hv'⟩⟩, rfl, hi, rfl⟩
  case RZ θ => exact ⟨⟨.RZ _ _ _ (.num θ) (by simp), ha, ⟨hc, hv'⟩⟩, rfl, hi, rfl⟩
  case PHASE θ => exact ⟨⟨.PHASE _ _ _ (.num θ) (by simp), ha, ⟨hc, hv'⟩⟩, rfl, hi, rfl⟩

/-! ## The Hadamard transform -/

/-- **C102**: a Hadamard gate on every qubit turns the amplitudes `a` into `2^{-n/2} Σ_y (-1)^{x·y} a_y`. -/
theorem C102_hadamard {c : Op} (hc : c.Plain) (h : Realizes n values c.gates (hadamards n)) {a : NDArray ℂ} (ha : IsKet n a) :
    ∃ r, run so c (.vec a) values = .ok (some (.vec r)) ∧ IsKet n r ∧
      ∀ x, ket n r x = (1 / (√2 : ℝ)) ^ n * ∑ y, (-1) ^ (x.dot y) * ket n a y := by
  obtain ⟨r, h1, h2, h3⟩ := run_realizes so hc h ha
  refine ⟨r, h1, h2, fun x => ?_⟩
  rw [h3, hadamards_mulVec, Finset.mul_sum]
  exact Finset.sum_congr rfl fun y _ => by ring

theorem hadamards_fit {k : ℕ} (hk : k ≤ n) : ∀ x ∈ hadamards k, ValidDims n (x.controls ++ x.targets) ∧ x.targets.length = x.gate.arity := by
  intro x hx
  obtain ⟨q, hq, rfl⟩ := List.mem_map.1 hx
  have := List.mem_range.1 hq
  exact ⟨⟨by simp, by simp; omega⟩, rfl⟩

/-- Non-vacuity, for every number of qubits. -/
example (n : ℕ) : (placedCircuit n (hadamards n)).Plain ∧ Realizes n values (placedCircuit n (hadamards n)).gates (hadamards n) :=
  ⟨placedCircuit_plain n _, placedCircuit_realizes n values (hadamards_fit le_rfl)⟩

/-! ## GHZ states -/

/-- **C102**: the GHZ circuit on `zero_state(n)` gives `(|0…0⟩ + |1…1⟩)/√2`. -/
theorem C102_ghz (hn : 1 ≤ n) {c : Op} (hc : c.Plain) (h : Realizes n values c.gates (ghzCircuit n)) {a : NDArray ℂ}
    (ha : zeroState n = .ok a) :
    ∃ r, run so c (.vec a) values = .ok (some (.vec r)) ∧ IsKet n r ∧
      ∀ x, ket n r x = if x = 0 ∨ x = 1 then ((1 / √2 : ℝ) : ℂ) else 0 := by
  obtain ⟨a', z1, z2, -, z3⟩ := C30_zero_state n
  obtain rfl : a' = a := by rw [z1] at ha; cases ha; rfl
  obtain ⟨r, h1, h2, h3⟩ := run_realizes so hc h z2
  refine ⟨r, h1, h2, fun y => ?_⟩
  have hlog : (List.range (n - 1)).map (fun i => (⟨.X, [i + 1], [i]⟩ : Placed)) = (cnotChain (n - 1)).map Logic.placed := by
    simp [cnotChain, Logic.placed]
  have hfit : ∀ l ∈ cnotChain (n - 1), l.Fits n := by
    intro l hl
    have := h.valid l.placed (by rw [ghzCircuit, hlog]; exact List.mem_cons_of_mem _ (List.mem_map_of_mem hl))
    exact this
  have h0n : 0 < n := by omega
  have hket : ket n a' = prodKet fun q i => if i = (0 : Lab n) q then 1 else 0 := by
    rw [prodKet_basis]; funext x; exact z3 x
  rw [h3, ghzCircuit, hlog, placedMat_mulVec_cons, hket]
  have hH := mulVec_prodKet StdGate.H.mat (⟨0, h0n⟩ : Fin n) (fun q i => if i = (0 : Lab n) q then 1 else 0)
  rw [Placed.mat]
  simp only at hH ⊢
  rw [hH]
  set v := prodKet (Function.update (fun (q : Fin n) i => if i = (0 : Lab n) q then (1 : ℂ) else 0) ⟨0, h0n⟩
    (act1 StdGate.H.mat fun i => if i = (0 : Lab n) ⟨0, h0n⟩ then 1 else 0)) with hv
  classical
  have hvx : ∀ x, v x = if ∀ q, 0 < q → q < n → x.bit q = 0 then (1 / (√2 : ℝ) : ℂ) else 0 := by
    intro x
    rw [hv, prodKet_update', act1_H_basis]
    by_cases hx : ∀ q, 0 < q → q < n → x.bit q = 0
    · rw [if_pos hx, Finset.prod_eq_one]
      · simp
      · intro q hq
        have hq0 : q.val ≠ 0 := fun e => Finset.ne_of_mem_erase hq (Fin.ext e)
        have hb := hx q.val (by omega) q.is_lt
        rw [Lab.bit_fin] at hb
        rw [if_pos (Fin.ext hb)]
    · rw [if_neg hx]
      push Not at hx
      obtain ⟨q, q0, qn, hq⟩ := hx
      rw [Finset.prod_eq_zero (i := (⟨q, qn⟩ : Fin n)) ?_ ?_, mul_zero]
      rotate_left
      · rw [if_neg]
        intro e
        apply hq
        rw [Lab.bit, dif_pos qn, e]; rfl
      · refine Finset.mem_erase.2 ⟨fun e => ?_, Finset.mem_univ _⟩
        have := congrArg Fin.val e
        simp only at this; omega
  -- every label is computed from one by the chain
  have hb : Function.Bijective (logicRun (n := n) (cnotChain (n - 1))) := by
    refine Finite.injective_iff_bijective.1 fun x y hxy => ?_
    have e1 := logic_mulVec hfit (fun z => if z = x then 1 else 0) x
    have e2 := logic_mulVec hfit (fun z => if z = x then 1 else 0) y
    rw [hxy, e2, if_pos rfl] at e1
    by_contra hne
    rw [if_neg (Ne.symm hne)] at e1
    exact zero_ne_one e1
  obtain ⟨x, rfl⟩ := hb.2 y
  rw [logic_mulVec hfit, hvx]
  have hbit0 : ∀ q, q < n → (0 : Lab n).bit q = 0 := fun q hq => by rw [Lab.bit, dif_pos hq]; rfl
  have hbit1 : ∀ q, q < n → (1 : Lab n).bit q = 1 := fun q hq => by rw [Lab.bit, dif_pos hq]; rfl
  have hiff : (∀ q, 0 < q → q < n → x.bit q = 0) ↔ logicRun (cnotChain (n - 1)) x = 0 ∨ logicRun (cnotChain (n - 1)) x = 1 := by
    constructor
    · intro hx
      have hcopy := fun q hq => cnotChain_copy (k := n - 1) (by omega) x hx q hq
      have := Lab.bit_lt_two x 0
      obtain e | e : x.bit 0 = 0 ∨ x.bit 0 = 1 := by omega
      · left
        refine Lab.ext_bit fun q hq => ?_
        rw [hcopy q hq, e, ite_self, hbit0 q hq]
      · right
        refine Lab.ext_bit fun q hq => ?_
        rw [hcopy q hq, e, if_pos (by omega), hbit1 q hq]
    · -- the labels with `0` and `1` first and zeros after are mapped to the two
      have hz : ∀ b : Fin 2, ∀ y : Lab n, (∀ q, q < n → y.bit q = b.val) → logicRun (cnotChain (n - 1)) x = y →
          ∀ q, 0 < q → q < n → x.bit q = 0 := by
        intro b y hy e
        let x' : Lab n := fun q => if q.val = 0 then b else 0
        have hx' : ∀ q, q < n → x'.bit q = if q = 0 then b.val else 0 := fun q hq => by
          rw [Lab.bit, dif_pos hq]
          by_cases h : q = 0 <;> simp [x', h]
        have : logicRun (cnotChain (n - 1)) x' = y := by
          refine Lab.ext_bit fun q hq => ?_
          rw [cnotChain_copy (by omega) x' (fun q h0 hq => by rw [hx' q hq, if_neg (by omega)]) q hq, if_pos (by omega), hx' 0 h0n,
            if_pos rfl, hy q hq]
        obtain rfl := hb.1 (e.trans this.symm)
        intro q q0 hq
        rw [hx' q hq, if_neg (by omega)]
      rintro (e | e)
      · exact hz 0 0 (fun q hq => hbit0 q hq) e
      · exact hz 1 1 (fun q hq => hbit1 q hq) e
  rw [if_congr hiff rfl rfl]
  push_cast
  rfl

theorem ghz_fit (hn : 1 ≤ n) : ∀ x ∈ ghzCircuit n, ValidDims n (x.controls ++ x.targets) ∧ x.targets.length = x.gate.arity := by
  intro x hx
  rcases List.mem_cons.1 hx with rfl | hx
  · exact ⟨⟨by simp, by simp; omega⟩, rfl⟩
  · obtain ⟨q, hq, rfl⟩ := List.mem_map.1 hx
    have := List.mem_range.1 hq
    exact ⟨⟨by simp, by simp; omega⟩, rfl⟩

/-- Non-vacuity, for every number of qubits. -/
example (hn : 1 ≤ n) : (placedCircuit n (ghzCircuit n)).Plain ∧ Realizes n values (placedCircuit n (ghzCircuit n)).gates (ghzCircuit n) :=
  ⟨placedCircuit_plain n _, placedCircuit_realizes n values (ghz_fit hn)⟩

/-! ## Bernstein and Vazirani -/

theorem oracle_prodKet {L : List (Fin n)} (hL : L.Nodup) (φ : Fin (n + 1) → Fin 2 → ℂ)
    (hφ : φ (Fin.last n) 1 = -φ (Fin.last n) 0) :
    (placedMat (n + 1) (L.map fun q => ⟨.X, [n], [q.val]⟩)).mulVec (prodKet φ)
      = prodKet fun q i => if (∃ p ∈ L, p.castSucc = q) ∧ i = 1 then -φ q i else φ q i := by
  induction L generalizing φ with
  | nil => simp [placedMat]
  | cons a L ih =>
    have hne : Fin.last n ≠ a.castSucc := (Fin.castSucc_lt_last a).ne'
    have hk := mulVec_kickback StdGate.X.mat hne φ (ω := -1) (by
      funext i
      rcases Fin.exists_fin_two.1 ⟨i, rfl⟩ with e | e <;> rw [e] <;> simp [act1, StdGate.mat, matE, hφ])
    rw [List.map_cons, placedMat_mulVec_cons, Placed.mat]
    simp only [Fin.val_last, Fin.val_castSucc] at hk ⊢
    rw [hk, ih (List.nodup_cons.1 hL).2 _ (by rw [Function.update_of_ne hne]; exact hφ)]
    congr 1
    funext q i
    by_cases hq : q = a.castSucc
    · subst hq
      have : ¬ ∃ p ∈ L, p.castSucc = a.castSucc := by
        rintro ⟨p, hp, e⟩
        rw [Fin.castSucc_inj] at e
        exact (List.nodup_cons.1 hL).1 (e ▸ hp)
      simp only [this, false_and, if_false, Function.update_self, List.mem_cons, exists_eq_or_imp, true_or, true_and, neg_one_mul]
    · rw [Function.update_of_ne hq]
      have : (∃ p ∈ a :: L, p.castSucc = q) ↔ ∃ p ∈ L, p.castSucc = q := by
        simp only [List.mem_cons, exists_eq_or_imp, or_iff_right (fun e => hq e.symm : ¬ a.castSucc = q)]
      simp only [this]

/-- **C102**: the circuit of Bernstein and Vazirani, started in `product_state("0…01")`, ends in `product_state` of the hidden
string followed by `1`. -/
theorem C102_bernstein_vazirani (s : Lab n) {c : Op} (hc : c.Plain) (h : Realizes (n + 1) values c.gates (bernsteinVazirani s))
    {a : NDArray ℂ} (ha : productState (Lab.str (Fin.snoc 0 1 : Lab (n + 1))) = .ok a) :
    ∃ r, run so c (.vec a) values = .ok (some (.vec r)) ∧ productState (Lab.str (Fin.snoc s 1 : Lab (n + 1))) = .ok r := by
  obtain ⟨a', k1, k2, k3⟩ := C28_product_state (Fin.snoc 0 1 : Lab (n + 1))
  obtain rfl : a' = a := by rw [k1] at ha; cases ha; rfl
  obtain ⟨d, d1, d2, d3⟩ := C28_product_state (Fin.snoc s 1 : Lab (n + 1))
  obtain ⟨r, h1, h2, h3⟩ := run_realizes so hc h k2
  refine ⟨r, h1, ?_⟩
  have hket : ket (n + 1) a' = prodKet fun q i => if i = (Fin.snoc 0 1 : Lab (n + 1)) q then 1 else 0 := by
    rw [prodKet_basis]; funext x; exact k3 x
  have hket' : ket (n + 1) d = prodKet fun q i => if i = (Fin.snoc s 1 : Lab (n + 1)) q then 1 else 0 := by
    rw [prodKet_basis]; funext x; exact d3 x
  rw [d1, ket_ext d2 h2]
  rw [h3, hket, hket', bernsteinVazirani, placedMat_mulVec_append, placedMat_mulVec_append, hadamards_prodKet le_rfl,
    oracle_prodKet ((List.nodup_finRange n).filter _), hadamards_prodKet le_rfl]
  · congr 1
    simp only [Fin.is_lt, if_true]
    funext q
    refine Fin.lastCases ?_ (fun p => ?_) q
    · have : ¬ ∃ p ∈ (List.finRange n).filter (fun q => decide (s q = 1)), p.castSucc = Fin.last n := by
        rintro ⟨p, -, e⟩
        exact (Fin.castSucc_lt_last p).ne e
      simp only [this, false_and, if_false, Fin.snoc_last]
      rw [act1_HH]
    · have : (∃ p' ∈ (List.finRange n).filter (fun q => decide (s q = 1)), p'.castSucc = p.castSucc) ↔ s p = 1 := by
        simp only [List.mem_filter, List.mem_finRange, true_and, decide_eq_true_eq, Fin.castSucc_inj]
        exact ⟨fun ⟨p', h, e⟩ => e ▸ h, fun h => ⟨p, h, rfl⟩⟩
      simp only [this, Fin.snoc_castSucc, Pi.zero_apply]
      rcases Fin.exists_fin_two.1 ⟨s p, rfl⟩ with e | e
      · rw [e]
        simp only [Fin.zero_eq_one_iff, OfNat.ofNat_ne_one, false_and, if_false]
        rw [act1_HH]
      · rw [e]
        simp only [true_and]
        have : (fun i => if i = 1 then -act1 StdGate.H.mat (fun i => if i = 0 then 1 else 0) i
            else act1 StdGate.H.mat (fun i => if i = 0 then 1 else 0) i)
            = act1 StdGate.H.mat (fun i => if i = 1 then 1 else 0) := by
          funext i
          rw [act1_H_basis, act1_H_basis]
          rcases Fin.exists_fin_two.1 ⟨i, rfl⟩ with e | e <;> rw [e] <;> simp
        rw [this, act1_HH]
  · simp only [Fin.val_last, Nat.lt_succ_self, if_true, Fin.snoc_last]
    rw [act1_H_basis, act1_H_basis]
    simp

/-- **C102**: every sample of that circuit is the hidden string followed by `1`: one evaluation of the oracle is enough. -/
theorem C102_bernstein_vazirani_sample (s : Lab n) {c : Op} (hc : c.Plain)
    (h : Realizes (n + 1) values c.gates (bernsteinVazirani s)) {a : NDArray ℂ}
    (ha : productState (Lab.str (Fin.snoc 0 1 : Lab (n + 1))) = .ok a) {draw : Draw} {k : ℤ} (hk : 1 ≤ k)
    (hd : ∀ j, draw k.toNat j ∈ Set.Ico (0 : ℝ) 1) :
    ∃ r, sample so draw (.vec a) c values k = .ok r ∧ r.counts = [(Lab.str (Fin.snoc s 1 : Lab (n + 1)), k.toNat)] := by
  obtain ⟨r, h1, h2⟩ := C102_bernstein_vazirani so s hc h ha
  exact C28_sample so draw (by omega) _ h2 h1 hk hd

theorem bernsteinVazirani_fit (s : Lab n) :
    ∀ x ∈ bernsteinVazirani s, ValidDims (n + 1) (x.controls ++ x.targets) ∧ x.targets.length = x.gate.arity := by
  intro x hx
  rw [bernsteinVazirani, List.mem_append, List.mem_append] at hx
  rcases hx with (hx | hx) | hx
  · exact hadamards_fit le_rfl x hx
  · obtain ⟨q, -, rfl⟩ := List.mem_map.1 hx
    have := q.is_lt
    exact ⟨⟨by simp; omega, by simp⟩, rfl⟩
  · exact hadamards_fit le_rfl x hx

/-- Non-vacuity, for every number of qubits and every hidden string. -/
example (s : Lab n) : (placedCircuit (n + 1) (bernsteinVazirani s)).Plain ∧
    Realizes (n + 1) values (placedCircuit (n + 1) (bernsteinVazirani s)).gates (bernsteinVazirani s) :=
  ⟨placedCircuit_plain _ _, placedCircuit_realizes _ values (bernsteinVazirani_fit s)⟩

/-! ## The quantum Fourier transform -/

/-- **C102**: the circuit of the quantum Fourier transform turns the amplitudes `a` into
`2^{-n/2} Σ_y exp(2πi·xy/2^n) a_y`. -/
theorem C102_qft {c : Op} (hc : c.Plain) (h : Realizes n values c.gates (qftCircuit n)) {a : NDArray ℂ} (ha : IsKet n a) :
    ∃ r, run so c (.vec a) values = .ok (some (.vec r)) ∧ IsKet n r ∧
      ∀ x, ket n r x = (1 / (√2 : ℝ)) ^ n *
        ∑ y : Lab n, Complex.exp (2 * Real.pi * Complex.I * (x.value * y.value / 2 ^ n)) * ket n a y := by
  obtain ⟨r, h1, h2, h3⟩ := run_realizes so hc h ha
  refine ⟨r, h1, h2, fun x => ?_⟩
  rw [h3, qft_mulVec, Finset.mul_sum]
  exact Finset.sum_congr rfl fun y _ => by ring

theorem qft_fit (n : ℕ) : ∀ x ∈ qftCircuit n, ValidDims n (x.controls ++ x.targets) ∧ x.targets.length = x.gate.arity := by
  intro x hx
  rw [qftCircuit, List.mem_append] at hx
  rcases hx with hx | hx
  · obtain ⟨j, hj, hx⟩ := List.mem_flatMap.1 hx
    have := List.mem_range.1 hj
    rcases List.mem_cons.1 hx with rfl | hx
    · exact ⟨⟨by simp, by simp; omega⟩, rfl⟩
    · obtain ⟨d, hd, rfl⟩ := List.mem_map.1 hx
      have := List.mem_range.1 hd
      exact ⟨⟨by simp; omega, by simp; omega⟩, rfl⟩
  · obtain ⟨i, hi, rfl⟩ := List.mem_map.1 hx
    have := List.mem_range.1 hi
    exact ⟨⟨by simp; omega, by simp; omega⟩, rfl⟩

/-- Non-vacuity, for every number of qubits. -/
example (n : ℕ) : (placedCircuit n (qftCircuit n)).Plain ∧ Realizes n values (placedCircuit n (qftCircuit n)).gates (qftCircuit n) :=
  ⟨placedCircuit_plain n _, placedCircuit_realizes n values (qft_fit n)⟩

/-! ## Grover's search -/

/-- The angle of Grover's search. -/
noncomputable def groverAngle (n : ℕ) : ℝ := Real.arcsin (1 / √(2 ^ n))

theorem groverAngle_sin (n : ℕ) : Real.sin (groverAngle n) = 1 / √(2 ^ n) := by
  have h : (1 : ℝ) ≤ √(2 ^ n) := Real.one_le_sqrt.2 (one_le_pow₀ (by norm_num))
  exact Real.sin_arcsin (by have := div_nonneg zero_le_one (zero_le_one.trans h); linarith) ((div_le_one (by linarith)).2 h)

theorem groverAngle_cos (n : ℕ) : Real.cos (groverAngle n) * √(2 ^ n) = √(2 ^ n - 1) := by
  rw [groverAngle, Real.cos_arcsin, ← Real.sqrt_mul' _ (by positivity), div_pow, one_pow, Real.sq_sqrt (by positivity), sub_mul,
    div_mul_cancel₀ _ (by positivity), one_mul]

/-- **C102**: after `k` iterations of Grover's search, started in `zero_state(n)`, the amplitude of the marked string is
`± sin((2k+1)θ)` and that of every other string `± cos((2k+1)θ)/√(2^n - 1)`, where `sin θ = 2^{-n/2}`. -/
theorem C102_grover (hn : 1 ≤ n) (w : Lab n) (k : ℕ) {c : Op} (hc : c.Plain) (h : Realizes n values c.gates (groverCircuit w k))
    {a : NDArray ℂ} (ha : zeroState n = .ok a) :
    ∃ r, run so c (.vec a) values = .ok (some (.vec r)) ∧ IsKet n r ∧ ∀ x, ket n r x = (-1) ^ k *
      if x = w then (Real.sin ((2 * k + 1) * groverAngle n) : ℂ)
      else (Real.cos ((2 * k + 1) * groverAngle n) / √(2 ^ n - 1) : ℝ) := by
  obtain ⟨a', z1, z2, -, z3⟩ := C30_zero_state n
  obtain rfl : a' = a := by rw [z1] at ha; cases ha; rfl
  obtain ⟨r, h1, h2, h3⟩ := run_realizes so hc h z2
  refine ⟨r, h1, h2, fun x => ?_⟩
  have hket : ket n a' = fun z => if z = 0 then 1 else 0 := funext z3
  rw [h3, hket]
  exact grover_mulVec hn w k (by rw [groverAngle_sin, div_mul_cancel₀ _ (by positivity)]) (groverAngle_cos n) x

/-- **C102**: after `⌊π/4θ⌋` iterations the marked string is found with probability at least `1 - 2^{-n}`. -/
theorem C102_grover_success (hn : 1 ≤ n) (w : Lab n) {c : Op} (hc : c.Plain)
    (h : Realizes n values c.gates (groverCircuit w ⌊Real.pi / (4 * groverAngle n)⌋₊)) {a : NDArray ℂ} (ha : zeroState n = .ok a) :
    ∃ r, run so c (.vec a) values = .ok (some (.vec r)) ∧ 1 - 1 / 2 ^ n ≤ (State.vec r).prob n w := by
  obtain ⟨r, h1, h2, h3⟩ := C102_grover so hn w _ hc h ha
  refine ⟨r, h1, ?_⟩
  rw [prob_vec, h3, if_pos rfl]
  set k := ⌊Real.pi / (4 * groverAngle n)⌋₊
  set θ := groverAngle n with hθ
  have hs : Real.sin θ = 1 / √(2 ^ n) := groverAngle_sin n
  have hpos : 0 < θ := Real.arcsin_pos.2 (by positivity)
  have hle : θ ≤ Real.pi / 2 := Real.arcsin_le_pi_div_two _
  have k1 : (k : ℝ) * (4 * θ) ≤ Real.pi := (le_div_iff₀ (by positivity)).1 (Nat.floor_le (by positivity))
  have k2 : Real.pi < (k + 1) * (4 * θ) := (div_lt_iff₀ (by positivity)).1 (Nat.lt_floor_add_one _)
  have hcos : Real.cos ((2 * k + 1) * θ) ^ 2 ≤ 1 / 2 ^ n := by
    have e : Real.cos ((2 * k + 1) * θ) = Real.sin (Real.pi / 2 - (2 * k + 1) * θ) := (Real.sin_pi_div_two_sub _).symm
    have hs2 : Real.sin θ ^ 2 = 1 / 2 ^ n := by rw [hs, div_pow, one_pow, Real.sq_sqrt (by positivity)]
    rw [e, ← hs2]
    have a1 : Real.sin (Real.pi / 2 - (2 * k + 1) * θ) ≤ Real.sin θ :=
      Real.sin_le_sin_of_le_of_le_pi_div_two (by linarith) hle (by linarith)
    have a2 : -Real.sin θ ≤ Real.sin (Real.pi / 2 - (2 * k + 1) * θ) := by
      rw [← Real.sin_neg]
      exact Real.sin_le_sin_of_le_of_le_pi_div_two (by linarith) (by linarith) (by linarith)
    exact sq_le_sq' a2 a1
  have hn2 : ‖((-1) ^ k * (Real.sin ((2 * k + 1) * θ) : ℂ))‖ ^ 2 = Real.sin ((2 * k + 1) * θ) ^ 2 := by
    rw [norm_mul, norm_pow, norm_neg, norm_one, one_pow, one_mul, Complex.norm_real, Real.norm_eq_abs, sq_abs]
  have := Real.sin_sq_add_cos_sq ((2 * k + 1) * θ)
  rw [hn2]
  linarith

theorem signFlip_fit (hn : 1 ≤ n) (w : Lab n) :
    ∀ x ∈ signFlip w, ValidDims n (x.controls ++ x.targets) ∧ x.targets.length = x.gate.arity := by
  intro x hx
  rw [signFlip, List.mem_append, List.mem_append] at hx
  have hnot : x ∈ ((List.finRange n).filter fun q => w q = 0).map (fun q => (⟨.X, [q.val], []⟩ : Placed)) →
      ValidDims n (x.controls ++ x.targets) ∧ x.targets.length = x.gate.arity := by
    intro hx
    obtain ⟨q, -, rfl⟩ := List.mem_map.1 hx
    exact ⟨⟨by simp, by simp⟩, rfl⟩
  rcases hx with (hx | hx) | hx
  · exact hnot hx
  · rw [List.mem_singleton] at hx
    subst hx
    refine ⟨⟨?_, ?_⟩, rfl⟩
    · simp only [List.nodup_append, List.nodup_range, List.nodup_cons, List.not_mem_nil, not_false_eq_true, List.nodup_nil, and_self, true_and]
      simp; omega
    · simp; omega
  · exact hnot hx

theorem grover_fit (hn : 1 ≤ n) (w : Lab n) (k : ℕ) :
    ∀ x ∈ groverCircuit w k, ValidDims n (x.controls ++ x.targets) ∧ x.targets.length = x.gate.arity := by
  intro x hx
  rw [groverCircuit, List.mem_append] at hx
  rcases hx with hx | hx
  · exact hadamards_fit le_rfl x hx
  · obtain ⟨l, hl, hx⟩ := List.mem_flatten.1 hx
    rw [List.eq_of_mem_replicate hl, groverStep] at hx
    simp only [List.mem_append] at hx
    rcases hx with ((hx | hx) | hx) | hx
    · exact signFlip_fit hn w x hx
    · exact hadamards_fit le_rfl x hx
    · exact signFlip_fit hn _ x hx
    · exact hadamards_fit le_rfl x hx

/-- Non-vacuity, for every number of qubits, every marked string and every number of iterations. -/
example (hn : 1 ≤ n) (w : Lab n) (k : ℕ) : (placedCircuit n (groverCircuit w k)).Plain ∧
    Realizes n values (placedCircuit n (groverCircuit w k)).gates (groverCircuit w k) :=
  ⟨placedCircuit_plain n _, placedCircuit_realizes n values (grover_fit hn w k)⟩

end Verif
