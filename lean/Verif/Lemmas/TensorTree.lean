import Verif.Lemmas.Composite
import Verif.Lemmas.Tensor
import Verif.Lemmas.Noise

/-! # `tensor` of operation trees -/

namespace Verif
open NDArray
variable {n : ℕ} {values : Values}

/-- A gate on the register of the qubits `F`, placed on those qubits of a larger register. -/
theorem gateMat_lift {U V : ℕ → ℕ → ℂ} {F ts cs : List ℕ} (hF : ValidDims n F) (hsub : ∀ q ∈ cs ++ ts, q ∈ F)
    (hV : ∀ x y : Lab F.length, V (binVal x.bits) (binVal y.bits) = gateMatOn F U ts cs x y) :
    gateMat n V (pySorted F) [] = gateMat n U ts cs := by
  have hps := perm_pySorted F
  have hbits : ∀ b : Lab n, IsBits F.length ((pySorted F).map b.bit) := fun b => by
    have := b.isBits_map_bit (pySorted F); rwa [hps.length_eq] at this
  let R : Lab n → Lab F.length := fun b => Lab.ofBits F.length ((pySorted F).map b.bit)
  have hRbits : ∀ b, (R b).bits = (pySorted F).map b.bit := fun b => Lab.bits_ofBits (hbits b)
  have hRbit : ∀ b, ∀ q ∈ F, (R b).bit (posIn F q) = b.bit q := by
    intro b q hq
    rw [← Lab.getD_bits, hRbits, ← idxOf_pySorted hF.nodup hq, List.getD_eq_getElem?_getD, List.getElem?_map,
      List.getElem?_eq_getElem (List.idxOf_lt_length_of_mem (hps.mem_iff.2 hq))]
    simp
  have hidx : ∀ b, b.idx (pySorted F) = binVal (R b).bits := fun b => by rw [hRbits]; rfl
  have hall : ∀ (b : Lab n) (l : List ℕ), (∀ q ∈ l, q ∈ F) → (R b).idx (l.map (posIn F)) = b.idx l := by
    intro b l hl
    rw [Lab.idx, Lab.idx, List.map_map]
    exact congrArg binVal (List.map_congr_left fun q hq => hRbit b q (hl q hq))
  have hpos : ∀ i < F.length, ∃ q ∈ F, posIn F q = i := by
    intro i hi
    have hi' : i < (pySorted F).length := by rwa [hps.length_eq]
    refine ⟨(pySorted F)[i], hps.mem_iff.1 (List.getElem_mem hi'), ?_⟩
    rw [← idxOf_pySorted hF.nodup (hps.mem_iff.1 (List.getElem_mem hi'))]
    exact (hps.nodup_iff.2 hF.nodup).idxOf_getElem _ _
  have hRext : ∀ b b' : Lab n, R b = R b' ↔ ∀ q ∈ F, b.bit q = b'.bit q := by
    intro b b'
    constructor
    · intro h q hq; rw [← hRbit b q hq, h, hRbit b' q hq]
    · intro h
      apply Lab.ext_bit
      intro i hi
      obtain ⟨q, hq, rfl⟩ := hpos i hi
      rw [hRbit b q hq, hRbit b' q hq, h q hq]
  have hts : ∀ q ∈ ts, q ∈ F := fun q hq => hsub q (by simp [hq])
  have hcs : ∀ q ∈ cs, q ∈ F := fun q hq => hsub q (by simp [hq])
  funext b b'
  rw [gateMat_nil_apply, hidx, hidx, hV, gateMatOn, gateMat, gateMat, hall b ts hts, hall b' ts hts]
  have hc : (∀ c ∈ cs.map (posIn F), (R b).bit c = 1) ↔ ∀ c ∈ cs, b.bit c = 1 := by
    simp only [List.mem_map, forall_exists_index, and_imp, forall_apply_eq_imp_iff₂]
    exact forall₂_congr fun c hc => by rw [hRbit b c (hcs c hc)]
  have ha : Lab.AgreeOff (ts.map (posIn F)) (R b) (R b') ↔ ∀ q ∈ F, q ∉ ts → b.bit q = b'.bit q := by
    rw [Lab.agreeOff_iff]
    constructor
    · intro h q hq hqt
      have := h (posIn F q) (posIn_lt hF.nodup hq) (by
        rw [List.mem_map]; rintro ⟨p, hp, hpq⟩; exact hqt (posIn_inj hF.nodup (hts p hp) hq hpq ▸ hp))
      rwa [hRbit b q hq, hRbit b' q hq] at this
    · intro h i hi hit
      obtain ⟨q, hq, rfl⟩ := hpos i hi
      rw [hRbit b q hq, hRbit b' q hq]
      exact h q hq fun hq' => hit (List.mem_map_of_mem hq')
  simp only [hc, ha, hRext]
  have hoff : Lab.AgreeOff (pySorted F) b b' ↔ ∀ q, q < n → q ∉ F → b.bit q = b'.bit q := by
    rw [Lab.agreeOff_iff]; simp only [hps.mem_iff]
  by_cases h1 : ∀ c ∈ cs, b.bit c = 1
  · rw [if_pos h1, if_pos h1]
    have : Lab.AgreeOff ts b b' ↔ Lab.AgreeOff (pySorted F) b b' ∧ ∀ q ∈ F, q ∉ ts → b.bit q = b'.bit q := by
      rw [hoff, Lab.agreeOff_iff]
      constructor
      · intro h; exact ⟨fun q hq hqF => h q hq fun hqt => hqF (hts q hqt), fun q hq hqt => h q (hF.lt q hq) hqt⟩
      · rintro ⟨h, h'⟩ q hq hqt
        by_cases hqF : q ∈ F
        · exact h' q hqF hqt
        · exact h q hq hqF
    rw [if_congr this rfl rfl, ite_and]
  · rw [if_neg h1, if_neg h1]
    have : b = b' ↔ Lab.AgreeOff (pySorted F) b b' ∧ ∀ q ∈ F, b.bit q = b'.bit q := by
      rw [hoff]
      constructor
      · rintro rfl; simp
      · rintro ⟨h, h'⟩
        apply Lab.ext_bit
        intro q hq
        by_cases hqF : q ∈ F
        · exact h' q hqF
        · exact h q hq hqF
    rw [if_congr this rfl rfl, ite_and]

theorem smul_entries {k : ℕ} {a : NDArray ℂ} (h : IsOp k a) (c : ℂ) :
    IsOp k (smul c a) ∧ entries (smul c a) = fun i j => c * entries a i j := by
  refine ⟨⟨h.shape, by simpa [WF, smul] using h.wf⟩, ?_⟩
  funext i j
  simp only [entries, NDArray.get, smul, List.getD_eq_getElem?_getD, List.getElem?_map]
  rcases a.data[ravel a.shape [i, j]]? with _ | x <;> simp

theorem add_entries {k : ℕ} {a b : NDArray ℂ} (ha : IsOp k a) (hb : IsOp k b) :
    ∃ r, NDArray.add a b = .ok r ∧ IsOp k r ∧ entries r = fun i j => entries a i j + entries b i j := by
  have hw : a.data.length = b.data.length := by rw [ha.wf, hb.wf, ha.shape, hb.shape]
  refine ⟨⟨a.shape, List.zipWith (· + ·) a.data b.data⟩, by rw [NDArray.add, if_pos (by rw [ha.shape, hb.shape])],
    ⟨ha.shape, ?_⟩, ?_⟩
  · simp only [WF, List.length_zipWith, ← hw, min_self]; exact ha.wf
  · funext i j
    simp only [entries, NDArray.get, List.getD_eq_getElem?_getD, ha.shape, hb.shape, List.getElem?_zipWith]
    by_cases hi : ravel [2 ^ k, 2 ^ k] [i, j] < a.data.length
    · rw [List.getElem?_eq_getElem hi, List.getElem?_eq_getElem (hw ▸ hi)]; simp
    · rw [List.getElem?_eq_none (by omega), List.getElem?_eq_none (by omega)]; simp

mutual
theorem qubitSupport_tree (so : SetOrder) : ∀ o : Op, (∀ g ∈ o.gates, g.ValidOn n) →
    ∃ S, o.qubitSupport so = .ok S ∧ S.Nodup ∧ ∀ q, q ∈ S ↔ ∃ g ∈ o.gates, q ∈ g.qubits
  | .prim g, h => by
    have hg := h g (by simp [Op.gates])
    refine ⟨pySorted g.qubits, ?_, (perm_pySorted _).nodup_iff.2 hg.dims.nodup, ?_⟩
    · simp only [Op.qubitSupport]; exact qubitSupport_eq hg.ctl hg.dims.nodup
    · intro q; simp [Op.gates, (perm_pySorted _).mem_iff]
  | .comp k ops, h => by
    obtain ⟨S, h1, h2⟩ := supportList_tree so ops (by simpa only [Op.gates] using h)
    refine ⟨so.order S, by simp only [Op.qubitSupport, h1, bind, Except.bind, pure, Except.pure], so.nodup S, ?_⟩
    intro q; rw [so.mem, h2]; simp only [Op.gates]
theorem supportList_tree (so : SetOrder) : ∀ os : List Op, (∀ g ∈ Op.gatesList os, g.ValidOn n) →
    ∃ S, Op.supportList so os = .ok S ∧ ∀ q, q ∈ S ↔ ∃ g ∈ Op.gatesList os, q ∈ g.qubits
  | [], _ => ⟨[], by simp only [Op.supportList], by simp [Op.gatesList]⟩
  | o :: os, h => by
    simp only [Op.gatesList, List.mem_append] at h
    obtain ⟨S, h1, -, h2⟩ := qubitSupport_tree so o fun g hg => h g (.inl hg)
    obtain ⟨T, k1, k2⟩ := supportList_tree so os fun g hg => h g (.inr hg)
    refine ⟨S ++ T, by simp only [Op.supportList, h1, k1, bind, Except.bind, pure, Except.pure], ?_⟩
    intro q
    simp only [List.mem_append, h2, k2, Op.gatesList, or_and_right, exists_or]
end

theorem reduce_matmul {F : List ℕ} (hF : ValidDims n F) {rs : List (NDArray ℂ)} (hne : rs ≠ [])
    (hrs : ∀ r ∈ rs, IsOp F.length r) :
    ∃ r, pyReduce NDArray.matmul (rs.map .ok) = .ok r ∧ IsOp F.length r ∧
      gateMat n (entries r) (pySorted F) [] = (rs.map fun r => gateMat n (entries r) (pySorted F) []).prod := by
  have hps := perm_pySorted F
  have hF' : ValidDims n ([] ++ pySorted F) := ⟨hps.nodup_iff.2 hF.nodup, fun q hq => hF.lt q (hps.mem_iff.1 hq)⟩
  cases rs with
  | nil => exact absurd rfl hne
  | cons a rs =>
    have ha : IsOp F.length a := hrs a (by simp)
    have hr : ∀ r ∈ rs, IsOp F.length r := fun r h => hrs r (by simp [h])
    simp only [List.map_cons, pyReduce, bind, Except.bind, List.prod_cons]
    clear hrs hne
    induction rs generalizing a with
    | nil => exact ⟨a, rfl, ha, by simp⟩
    | cons b rs ih =>
      obtain ⟨c, h1, h2, h3⟩ := matmul_isOp ha (hr b (by simp))
      obtain ⟨r, k1, k2, k3⟩ := ih c h2 fun r h => hr r (by simp [h])
      refine ⟨r, ?_, k2, ?_⟩
      · rw [List.map_cons, List.foldlM_cons]
        simp only [bind, Except.bind, h1]
        exact k1
      · rw [k3, List.map_cons, List.prod_cons, ← mul_assoc, gateMat_mul _ _ hF', hps.length_eq]
        refine congrArg (· * _) (gateMat_congr fun i j hi hj => h3 i j ?_ ?_)
        · rwa [← hps.length_eq]
        · rwa [← hps.length_eq]

theorem reduce_addOps {F : List ℕ} {rs : List (NDArray ℂ)} (hne : rs ≠ []) (hrs : ∀ r ∈ rs, IsOp F.length r) :
    ∃ r, pyReduce NDArray.add (rs.map .ok) = .ok r ∧ IsOp F.length r ∧
      gateMat n (entries r) (pySorted F) [] = (rs.map fun r => gateMat n (entries r) (pySorted F) []).sum := by
  cases rs with
  | nil => exact absurd rfl hne
  | cons a rs =>
    have ha : IsOp F.length a := hrs a (by simp)
    have hr : ∀ r ∈ rs, IsOp F.length r := fun r h => hrs r (by simp [h])
    simp only [List.map_cons, pyReduce, bind, Except.bind, List.sum_cons]
    clear hrs hne
    induction rs generalizing a with
    | nil => exact ⟨a, rfl, ha, by simp⟩
    | cons b rs ih =>
      obtain ⟨c, h1, h2, h3⟩ := add_entries ha (hr b (by simp))
      obtain ⟨r, k1, k2, k3⟩ := ih c h2 fun r h => hr r (by simp [h])
      refine ⟨r, ?_, k2, ?_⟩
      · rw [List.map_cons, List.foldlM_cons]
        simp only [bind, Except.bind, h1]
        exact k1
      · rw [k3, List.map_cons, List.sum_cons, ← add_assoc, h3, gateMat_add]

/-- What `tensor` places on the register for a gate: its matrix, on its targets in increasing order. -/
def SortLeaf (n : ℕ) (values : Values) (g : Gate) (M : Matrix (Lab n) (Lab n) ℂ) : Prop :=
  ∃ U, g.unitary values = .ok U ∧ IsOp g.target.length U ∧ g.ValidOn n ∧
    M = gateMat n (entries U) (pySorted g.target) (ctlInts g.control)

theorem StdLeaf.sort {g : Gate} {M : Matrix (Lab n) (Lab n) ℂ} (h : StdLeaf n values g M) : SortLeaf n values g M := by
  obtain ⟨s, h1, h2, rfl⟩ := h
  obtain ⟨U, hU, hop, hent⟩ := h1.is.unitary
  rw [← h1.arity] at hop hent
  refine ⟨U, hU, hop, h1.valid, ?_⟩
  have := gateMat_std_sorted (n := n) (cs := ctlInts g.control) h1.arity id
  rw [List.map_id, List.map_id] at this
  rw [stdMat, ← this]
  refine (gateMat_congr fun i j hi hj => hent i j ?_ ?_).symm
  · simpa [(perm_pySorted _).length_eq] using hi
  · simpa [(perm_pySorted _).length_eq] using hj

section mono
variable {L L' : Gate → Matrix (Lab n) (Lab n) ℂ → Prop} (hL : ∀ g M, L g M → L' g M)
include hL

mutual
theorem Op.Listed.mono {o : Op} {M : Matrix (Lab n) (Lab n) ℂ} : Op.Listed L values o M → Op.Listed L' values o M
  | .gate h => .gate (hL _ _ h)
  | .seq h => .seq (Op.ListedSeq.mono h)
  | .circ k fs h => .circ k fs (Op.ListedSeq.mono h)
  | .scale hp h => .scale hp (Op.ListedSeq.mono h)
  | .add h => .add (Op.ListedSum.mono h)
theorem Op.ListedSeq.mono {o : List Op} {M : Matrix (Lab n) (Lab n) ℂ} : Op.ListedSeq L values o M → Op.ListedSeq L' values o M
  | .one h => .one (Op.Listed.mono h)
  | .cons h hs => .cons (Op.Listed.mono h) (Op.ListedSeq.mono hs)
theorem Op.ListedSum.mono {o : List Op} {M : Matrix (Lab n) (Lab n) ℂ} : Op.ListedSum L values o M → Op.ListedSum L' values o M
  | .one h => .one (Op.Listed.mono h)
  | .cons h hs => .cons (Op.Listed.mono h) (Op.ListedSum.mono hs)
end
end mono

section leaves
variable {L : Gate → Matrix (Lab n) (Lab n) ℂ → Prop} {P : Gate → Prop} (hL : ∀ g M, L g M → P g)
include hL

mutual
theorem Op.Listed.leaves {o : Op} {M : Matrix (Lab n) (Lab n) ℂ} : Op.Listed L values o M → ∀ g ∈ o.gates, P g
  | .gate h => by simpa [Op.gates] using hL _ _ h
  | .seq h => by simpa only [Op.gates] using Op.ListedSeq.leaves h
  | .circ k fs h => by simpa only [Op.gates] using Op.ListedSeq.leaves h
  | .scale hp h => by simpa only [Op.gates] using Op.ListedSeq.leaves h
  | .add h => by simpa only [Op.gates] using Op.ListedSum.leaves h
theorem Op.ListedSeq.leaves {o : List Op} {M : Matrix (Lab n) (Lab n) ℂ} :
    Op.ListedSeq L values o M → ∀ g ∈ Op.gatesList o, P g
  | .one h => by simpa [Op.gatesList] using Op.Listed.leaves h
  | .cons h hs => by
    intro g hg
    simp only [Op.gatesList, List.mem_append] at hg
    exact hg.elim (Op.Listed.leaves h g) (Op.ListedSeq.leaves hs g)
theorem Op.ListedSum.leaves {o : List Op} {M : Matrix (Lab n) (Lab n) ℂ} :
    Op.ListedSum L values o M → ∀ g ∈ Op.gatesList o, P g
  | .one h => by simpa [Op.gatesList] using Op.Listed.leaves h
  | .cons h hs => by
    intro g hg
    simp only [Op.gatesList, List.mem_append] at hg
    exact hg.elim (Op.Listed.leaves h g) (Op.ListedSum.leaves hs g)
end
end leaves

theorem fullSupport_some {so : SetOrder} {o : Op} {F : List ℕ} (hv : ∀ g ∈ o.gates, g.ValidOn n)
    (hF : ∀ g ∈ o.gates, ∀ q ∈ g.qubits, q ∈ F) : Op.fullSupport (o.qubitSupport so) (some F) = .ok F := by
  obtain ⟨S, h1, -, h2⟩ := qubitSupport_tree so o hv
  simp only [Op.fullSupport, h1, bind, Except.bind, pure, Except.pure]
  rw [if_pos]
  simp only [List.all_eq_true, decide_eq_true_eq]
  intro q hq
  obtain ⟨g, hg, hqg⟩ := (h2 q).1 hq
  exact hF g hg q hqg

theorem SortLeaf.valid {g : Gate} {M : Matrix (Lab n) (Lab n) ℂ} (h : SortLeaf n values g M) : g.ValidOn n := h.choose_spec.2.2.1

mutual
theorem tensor_listed (so : SetOrder) {o : Op} {M : Matrix (Lab n) (Lab n) ℂ} {F : List ℕ} (hF : ValidDims n F)
    (hq : ∀ g ∈ o.gates, ∀ q ∈ g.qubits, q ∈ F) : Op.Listed (SortLeaf n values) values o M →
    ∃ r, o.tensor so values (some F) = .ok r ∧ IsOp F.length r ∧ gateMat n (entries r) (pySorted F) [] = M
  | .gate (g := g) hl => by
    obtain ⟨U, hU, hop, hv, rfl⟩ := hl
    have hsub : ∀ q ∈ ctlInts g.control ++ g.target, q ∈ F := hq g (by simp [Op.gates])
    obtain ⟨r, h1, h2, h3⟩ := tensor_mat hU hop hv.ctl hv.dims.nodup hF.nodup hsub
    refine ⟨r, by simpa only [Op.tensor] using h1, h2, gateMat_lift hF ?_ h3⟩
    intro q hq'
    refine hsub q ?_
    simpa [(perm_pySorted _).mem_iff] using hq'
  | .seq (ops := ops) h => by
    simp only [Op.gates] at hq
    obtain ⟨rs, h1, h2, h3, h4⟩ := tensorList_listed so hF hq h
    obtain ⟨r, k1, k2, k3⟩ := reduce_matmul hF h2 h3
    have hs := fullSupport_some (so := so) (o := .comp .seq ops) (n := n) (F := F)
      (by simpa only [Op.gates] using Op.ListedSeq.leaves (L := SortLeaf n values) (fun _ _ => SortLeaf.valid) h) (by simpa only [Op.gates] using hq)
    exact ⟨r, by simp only [Op.tensor, hs, bind, Except.bind, h1, k1], k2, by rw [k3, h4]⟩
  | .circ (ops := ops) k fs h => by
    simp only [Op.gates] at hq
    obtain ⟨rs, h1, h2, h3, h4⟩ := tensorList_listed so hF hq h
    obtain ⟨r, k1, k2, k3⟩ := reduce_matmul hF h2 h3
    have hs := fullSupport_some (so := so) (o := .comp (.circ k fs) ops) (n := n) (F := F)
      (by simpa only [Op.gates] using Op.ListedSeq.leaves (L := SortLeaf n values) (fun _ _ => SortLeaf.valid) h) (by simpa only [Op.gates] using hq)
    exact ⟨r, by simp only [Op.tensor, hs, bind, Except.bind, h1, k1], k2, by rw [k3, h4]⟩
  | .scale (ops := ops) (x := x) (p := p) hp h => by
    simp only [Op.gates] at hq
    obtain ⟨rs, h1, h2, h3, h4⟩ := tensorList_listed so hF hq h
    obtain ⟨r, k1, k2, k3⟩ := reduce_matmul hF h2 h3
    have hs := fullSupport_some (so := so) (o := .comp (.scale p) ops) (n := n) (F := F)
      (by simpa only [Op.gates] using Op.ListedSeq.leaves (L := SortLeaf n values) (fun _ _ => SortLeaf.valid) h) (by simpa only [Op.gates] using hq)
    refine ⟨smul (x : ℂ) r, ?_, (smul_entries k2 _).1, ?_⟩
    · simp only [Op.tensor, hs, scaleParam_eq hp, bind, Except.bind, h1, k1, pure, Except.pure]
    · rw [(smul_entries k2 _).2, gateMat_smul, k3, h4]
  | .add (ops := ops) h => by
    simp only [Op.gates] at hq
    obtain ⟨rs, h1, h2, h3, h4⟩ := tensorSum_listed so hF hq h
    obtain ⟨r, k1, k2, k3⟩ := reduce_addOps (n := n) h2 h3
    have hs := fullSupport_some (so := so) (o := .comp .add ops) (n := n) (F := F)
      (by simpa only [Op.gates] using Op.ListedSum.leaves (L := SortLeaf n values) (fun _ _ => SortLeaf.valid) h) (by simpa only [Op.gates] using hq)
    exact ⟨r, by simp only [Op.tensor, hs, bind, Except.bind, h1, k1], k2, by rw [k3, h4]⟩
theorem tensorList_listed (so : SetOrder) {os : List Op} {M : Matrix (Lab n) (Lab n) ℂ} {F : List ℕ} (hF : ValidDims n F)
    (hq : ∀ g ∈ Op.gatesList os, ∀ q ∈ g.qubits, q ∈ F) : Op.ListedSeq (SortLeaf n values) values os M →
    ∃ rs : List (NDArray ℂ), Op.tensorList so values os F = rs.map .ok ∧ rs ≠ [] ∧ (∀ r ∈ rs, IsOp F.length r) ∧
      (rs.map fun r => gateMat n (entries r) (pySorted F) []).prod = M
  | .one h => by
    obtain ⟨r, h1, h2, h3⟩ := tensor_listed so hF (by simpa [Op.gatesList] using hq) h
    exact ⟨[r], by simp only [Op.tensorList, h1, List.map_cons, List.map_nil], by simp, by simpa using h2, by simpa using h3⟩
  | .cons h hs => by
    simp only [Op.gatesList, List.mem_append] at hq
    obtain ⟨r, h1, h2, h3⟩ := tensor_listed so hF (fun g hg => hq g (.inl hg)) h
    obtain ⟨rs, k1, k2, k3, k4⟩ := tensorList_listed so hF (fun g hg => hq g (.inr hg)) hs
    exact ⟨r :: rs, by simp only [Op.tensorList, h1, k1, List.map_cons], by simp, by simpa using ⟨h2, k3⟩,
      by rw [List.map_cons, List.prod_cons, h3, k4]⟩
theorem tensorSum_listed (so : SetOrder) {os : List Op} {M : Matrix (Lab n) (Lab n) ℂ} {F : List ℕ} (hF : ValidDims n F)
    (hq : ∀ g ∈ Op.gatesList os, ∀ q ∈ g.qubits, q ∈ F) : Op.ListedSum (SortLeaf n values) values os M →
    ∃ rs : List (NDArray ℂ), Op.tensorList so values os F = rs.map .ok ∧ rs ≠ [] ∧ (∀ r ∈ rs, IsOp F.length r) ∧
      (rs.map fun r => gateMat n (entries r) (pySorted F) []).sum = M
  | .one h => by
    obtain ⟨r, h1, h2, h3⟩ := tensor_listed so hF (by simpa [Op.gatesList] using hq) h
    exact ⟨[r], by simp only [Op.tensorList, h1, List.map_cons, List.map_nil], by simp, by simpa using h2, by simpa using h3⟩
  | .cons h hs => by
    simp only [Op.gatesList, List.mem_append] at hq
    obtain ⟨r, h1, h2, h3⟩ := tensor_listed so hF (fun g hg => hq g (.inl hg)) h
    obtain ⟨rs, k1, k2, k3, k4⟩ := tensorSum_listed so hF (fun g hg => hq g (.inr hg)) hs
    exact ⟨r :: rs, by simp only [Op.tensorList, h1, k1, List.map_cons], by simp, by simpa using ⟨h2, k3⟩,
      by rw [List.map_cons, List.sum_cons, h3, k4]⟩
end

end Verif
