import Verif.Lemmas.SparseTree
import Verif.Model.SparseTensor
import Verif.AbsSparse

/-! # The sparse `tensor` methods have the dense meaning -/

set_option autoImplicit false

namespace Verif
open NDArray

namespace Bcoo
variable {K : Type} [CommRing K] (lay : Layout)

theorem kron_dense {a b : Bcoo K} {m n p q : ℕ} (hsa : a.shape = [m, n]) (hsb : b.shape = [p, q]) :
    ∃ r, a.kron lay b = .ok r ∧ NDArray.kron a.todense b.todense = .ok r.todense ∧ (a.WF → b.WF → r.WF) ∧
      r.shape = [m * p, n * q] := by
  obtain ⟨r, hr⟩ : ∃ r, a.kron lay b = .ok r := by rw [Bcoo.kron, hsa, hsb]; exact ⟨_, rfl⟩
  refine ⟨r, hr, ?_, ?_, ?_⟩
  · rw [Bcoo.kron, hsa, hsb] at hr
    cases hr
    rw [lay.dense, NDArray.kron, shape_todense, shape_todense, hsa, hsb]
    refine congrArg Except.ok (ofFn_congr fun idx hidx => ?_)
    have hidx' : List.Forall₂ (· < ·) idx [m * p, n * q] := hidx
    rcases idx with _ | ⟨i, _ | ⟨j, _ | ⟨l, t⟩⟩⟩ <;> simp at hidx'
    obtain ⟨hi, hj⟩ := hidx'
    have hp : 0 < p := Nat.pos_of_ne_zero fun h => by simp [h] at hi
    have hq : 0 < q := Nat.pos_of_ne_zero fun h => by simp [h] at hj
    have h1 : List.Forall₂ (· < ·) [i / p, j / q] a.shape := by
      rw [hsa]
      exact .cons (Nat.div_lt_of_lt_mul (by rwa [mul_comm] at hi)) (.cons (Nat.div_lt_of_lt_mul (by rwa [mul_comm] at hj)) .nil)
    have h2 : List.Forall₂ (· < ·) [i % p, j % q] b.shape := by
      rw [hsb]
      exact .cons (Nat.mod_lt _ hp) (.cons (Nat.mod_lt _ hq) .nil)
    simp only [List.getD_cons_zero, List.getD_cons_succ]
    rw [get_todense _ h1, get_todense _ h2, list_sum_mul_sum, bcoo_sum_flatMap]
    refine congrArg List.sum (List.map_congr_left fun e he => ?_)
    rw [List.map_map]
    refine congrArg List.sum (List.map_congr_left fun f hf => ?_)
    simp only [Function.comp_def]
    by_cases h : inRange [m, n] e.1 && inRange [p, q] f.1
    · rw [if_pos h]
      simp only [Bool.and_eq_true, inRange_iff] at h
      obtain ⟨he', hf'⟩ := h
      rcases e with ⟨ei, ev⟩
      rcases f with ⟨fi, fv⟩
      simp only at he' hf' ⊢
      rcases ei with _ | ⟨a0, _ | ⟨a1, _ | ⟨_, _⟩⟩⟩ <;> simp at he'
      rcases fi with _ | ⟨b0, _ | ⟨b1, _ | ⟨_, _⟩⟩⟩ <;> simp at hf'
      simp only [List.getD_cons_zero, List.getD_cons_succ, List.cons.injEq, and_true]
      have key : ∀ {x y z w : ℕ}, y < w → (x * w + y = z ↔ x = z / w ∧ y = z % w) := by
        intro x y z w h
        constructor
        · rintro rfl
          rw [mul_comm, Nat.mul_add_div (by omega), Nat.div_eq_of_lt h, Nat.mul_add_mod, Nat.mod_eq_of_lt h]; simp
        · rintro ⟨rfl, rfl⟩; exact Nat.div_add_mod' z w
      simp only [key hf'.1, key hf'.2]
      by_cases c1 : a0 = i / p <;> by_cases c2 : a1 = j / q <;> by_cases c3 : b0 = i % p <;> by_cases c4 : b1 = j % q <;>
        simp [c1, c2, c3, c4]
    · rw [if_neg h]
      have hne : ¬ (m * p = i ∧ n * q = j) := by rintro ⟨h, -⟩; omega
      have : ¬ (e.1 = [i / p, j / q] ∧ f.1 = [i % p, j % q]) := by
        rintro ⟨h3, h4⟩
        apply h
        rw [Bool.and_eq_true, inRange_iff, inRange_iff, h3, h4]
        exact ⟨hsa ▸ h1, hsb ▸ h2⟩
      by_cases c1 : e.1 = [i / p, j / q]
      · have c2 : f.1 ≠ [i % p, j % q] := fun h => this ⟨c1, h⟩
        simp only [List.cons.injEq, and_true, if_neg hne, if_neg c2, mul_zero]
      · simp only [List.cons.injEq, and_true, if_neg hne, if_neg c1, zero_mul]
  · rw [Bcoo.kron, hsa, hsb] at hr
    cases hr
    refine fun _ _ => lay.wf _ ?_
    intro e he
    simp only [List.mem_flatMap, List.mem_map] at he
    obtain ⟨e', _, f', _, rfl⟩ := he
    simp only
    split_ifs <;> rfl
  · rw [Bcoo.kron, hsa, hsb] at hr
    cases hr
    exact lay.shape _

theorem permuteBasis_dense {b : Bcoo K} (hb : b.WF) (supp : List ℕ) (inv : Bool) :
    (b.permuteBasis supp inv).map todense = Verif.permuteBasis b.todense supp inv := by
  rw [Bcoo.permuteBasis, Verif.permuteBasis]
  split_ifs <;> first | rfl | exact transpose_dense hb _

theorem transpose_prod {b r : Bcoo K} {perm : List ℕ} (h : b.transpose perm = .ok r) : r.shape.prod = b.shape.prod := by
  rw [Bcoo.transpose] at h
  split_ifs at h with hp
  cases h
  refine ((hp.map fun p => b.shape.getD p 0).prod_eq).trans (congrArg List.prod ?_)
  refine List.ext_getElem (by simp) fun i h1 h2 => ?_
  simp [List.getD_eq_getElem?_getD, h2]

theorem permuteBasis_prod {b r : Bcoo K} {supp : List ℕ} {inv : Bool} (h : b.permuteBasis supp inv = .ok r) :
    r.shape.prod = b.shape.prod := by
  rw [Bcoo.permuteBasis] at h
  simp only at h
  split at h
  · cases h; rfl
  · exact transpose_prod h

theorem permuteBasis_wf {b r : Bcoo K} (hb : b.WF) {supp : List ℕ} {inv : Bool} (h : b.permuteBasis supp inv = .ok r) :
    r.WF := by
  rw [Bcoo.permuteBasis] at h
  simp only at h
  split at h
  · cases h; exact hb
  · exact wf_transpose h

/-- A sparse square matrix of qubits and its dense content. -/
def SqRel (b : Bcoo K) (m : NDArray K) : Prop := b.Sq ∧ m = b.todense

theorem kron_rel {a b : Bcoo K} {m m' : NDArray K} (h : SqRel a m) (h' : SqRel b m') :
    PyRel SqRel (a.kron lay b) (NDArray.kron m m') := by
  obtain ⟨⟨ha, k, hk, hs⟩, rfl⟩ := h
  obtain ⟨⟨hb, k', hk', hs'⟩, rfl⟩ := h'
  obtain ⟨r, h1, h2, h3, h4⟩ := kron_dense lay hs hs'
  rw [h1, h2]
  exact .ok ⟨⟨h3 ha hb, k + k', by omega, by rw [h4, pow_add]⟩, rfl⟩

theorem expandOperator_rel {b : Bcoo K} (hb : b.Sq) (supp full : List ℕ) :
    PyRel SqRel (b.expandOperator lay supp full) (Verif.expandOperator b.todense supp full) := by
  rw [Bcoo.expandOperator, Verif.expandOperator]
  simp only
  split_ifs with hsub
  · refine PyRel.bind (P := SqRel) ?_ fun k m hk => ?_
    · refine PyRel.foldlM (R := SqRel) ?_ (fun a c x y h h' => kron_rel lay h h') ⟨hb, rfl⟩
      rw [List.forall₂_iff_get]
      refine ⟨by simp, fun i h1 h2 => ?_⟩
      simp only [List.get_eq_getElem, List.getElem_replicate, matI]
      exact ⟨⟨wf_eye 2, 1, le_rfl, rfl⟩, (todense_eye 2).symm⟩
    · obtain ⟨⟨hw, j, hj, hs⟩, rfl⟩ := hk
      have hne : List.replicate (intLog2 k.shape.prod) 2 ≠ [] := by
        have : intLog2 k.shape.prod = j + j := by
          rw [hs]
          simp only [List.prod_cons, List.prod_nil, mul_one, ← pow_add]
          exact Nat.log_pow (by norm_num) _
        rw [this]
        simp; omega
      have hd := reshape_dense k hne
      refine PyRel.bind (P := fun (b : Bcoo K) m => b.WF ∧ b.shape.prod = 2 ^ (j + j) ∧ m = b.todense) ?_ fun r m hr => ?_
      · rw [hilbertReshape, show k.todense.size = k.shape.prod from rfl, ← hd]
        rcases h : k.reshape (List.replicate (intLog2 k.shape.prod) 2) with e | r
        · exact .err _ _
        · refine .ok ⟨(wf_reshape h).1, ?_, rfl⟩
          rw [(wf_reshape h).2, hs]
          simp only [List.prod_cons, List.prod_nil, mul_one, ← pow_add, List.prod_replicate]
          rw [show intLog2 (2 ^ (j + j)) = j + j from Nat.log_pow (by norm_num) _]
      · obtain ⟨hw', hp, rfl⟩ := hr
        refine PyRel.bind (P := fun (b : Bcoo K) m => b.WF ∧ b.shape.prod = 2 ^ (j + j) ∧ m = b.todense) ?_ fun t m ht => ?_
        · rw [← permuteBasis_dense hw']
          rcases h : r.permuteBasis _ true with e | t
          · exact .err _ _
          · exact .ok ⟨permuteBasis_wf hw' h, (permuteBasis_prod h).trans hp, rfl⟩
        · obtain ⟨hwt, hpt, rfl⟩ := ht
          rw [← reshape_dense t (by simp)]
          rcases h : t.reshape _ with e | u
          · exact .err _ _
          · refine .ok ⟨⟨(wf_reshape h).1, (pySorted full).length, ?_, (wf_reshape h).2⟩, rfl⟩
            rw [Bcoo.reshape] at h
            split_ifs at h with hprod
            rw [hpt] at hprod
            simp only [List.prod_cons, List.prod_nil, mul_one, ← pow_add] at hprod
            have := Nat.pow_right_injective (le_refl 2) hprod
            omega
  · exact .err _ _

theorem controlled_rel {b : Bcoo K} (hb : b.Sq) (ts : List ℕ) (c : Ctl) :
    PyRel SqRel (b.controlled ts c) (Verif.controlled b.todense ts c) := by
  obtain ⟨hw, k, hk, hs⟩ := hb
  rw [Bcoo.controlled]
  rcases h : Verif.controlled b.todense ts c with e | r
  · exact .err _ _
  · have : r.WF ∧ ∃ k', 1 ≤ k' ∧ r.shape = [2 ^ k', 2 ^ k'] := by
      rw [Verif.controlled, prepareControlled] at h
      rcases hc : controlTuple c with e | cs
      · rw [hc] at h; cases h
      · rw [hc] at h
        simp only [except_bind] at h
        have h0 : intLog2 (b.todense.shape.getD 0 0) = k := by
          rw [shape_todense, hs]; exact Nat.log_pow (by norm_num) _
        rw [h0] at h
        by_cases h1 : k = ts.length
        · rw [if_neg (not_not.2 h1)] at h
          simp only [except_bind] at h
          split_ifs at h with h2
          cases h
          exact ⟨NDArray.wf_ofFn _ _, cs.length + ts.length, by omega, rfl⟩
        · rw [if_pos h1] at h
          cases h
    obtain ⟨hr, k', hk', hs'⟩ := this
    exact .ok ⟨⟨wf_fromdense r, k', hk', hs'⟩, (todense_fromdense hr).symm⟩

end Bcoo

namespace Arr
variable (lay : Layout)

theorem opRel_iff {b : Bcoo ℂ} {m : NDArray ℂ} (h : Bcoo.SqRel b m) : OpRel (.sparse b) m := ⟨b, h.1, rfl, h.2⟩

theorem map_rel {x : Py (Bcoo ℂ)} {y : Py (NDArray ℂ)} (h : PyRel Bcoo.SqRel x y) : PyRel OpRel (x.map .sparse) y := by
  rcases h with ⟨e, e', rfl, rfl⟩ | ⟨b, m, rfl, rfl, h⟩
  · exact .err _ _
  · exact .ok (opRel_iff h)

theorem tensor_rel {g : Gate} (hg : g.SparseOk) (values : Values) (full : Option (List ℕ)) :
    PyRel OpRel (g.tensorArr lay values full) (g.asDense.tensor values full) := by
  rw [Gate.tensorArr, Gate.tensor]
  refine PyRel.bind (unitary_rel lay hg values) fun a m ham => ?_
  obtain ⟨b, hb, rfl, rfl⟩ := ham
  simp only
  have key : ∀ (u : Bcoo ℂ) (m : NDArray ℂ), Bcoo.SqRel u m → PyRel OpRel (match full with
      | none => pure (.sparse u)
      | some F => do (u.expandOperator lay (← g.qubitSupport) F).map .sparse) (match full with
      | none => pure m
      | some F => do expandOperator m (← g.asDense.qubitSupport) F) := by
    rintro u _ ⟨hu, rfl⟩
    cases full with
    | none => exact .ok ⟨u, hu, rfl, rfl⟩
    | some F =>
      refine PyRel.bind (PyRel.same (x := g.qubitSupport)) fun S S' hS => ?_
      subst hS
      exact map_rel (Bcoo.expandOperator_rel lay hu S F)
  show PyRel _ _ (if isControlled g.control then _ else _)
  split_ifs
  · exact PyRel.bind (Bcoo.controlled_rel hb _ _) key
  · exact key b _ ⟨hb, rfl⟩

theorem opRel_add {a a' : Arr} {m m' : NDArray ℂ} (h : OpRel a m) (h' : OpRel a' m') :
    PyRel OpRel (Arr.add lay a a') (m.add m') := by
  obtain ⟨r, ⟨hr, k, hk, hs⟩, rfl, rfl⟩ := h
  obtain ⟨r', ⟨hr', k', hk', hs'⟩, rfl, rfl⟩ := h'
  simp only [Arr.add]
  by_cases e : r.shape = r'.shape
  · obtain ⟨t, h1, h2, h3, h4⟩ := Bcoo.add_dense lay e
    rw [h1, h2]
    exact .ok ⟨t, ⟨h3 hr hr', k, hk, h4.trans hs⟩, rfl, rfl⟩
  · rw [Bcoo.add, if_neg e, NDArray.add, if_neg (show ¬ r.todense.shape = r'.todense.shape from e)]
    exact .err _ _

theorem opRel_scale (x : ℝ) {a : Arr} {m : NDArray ℂ} (h : OpRel a m) : OpRel (a.scale x) (NDArray.smul (x : ℂ) m) := by
  obtain ⟨r, ⟨hr, k, hk, hs⟩, rfl, rfl⟩ := h
  exact ⟨r.smul (x : ℂ), ⟨Bcoo.wf_mapData _ hr, k, hk, hs⟩, rfl, by rw [Bcoo.todense_smul]⟩

end Arr

namespace Op
variable (lay : Layout) (so : SetOrder) (values : Values)

mutual
theorem qubitSupport_asDense : ∀ o : Op, (o.mapGates Gate.asDense).qubitSupport so = o.qubitSupport so
  | .prim g => by rw [Op.mapGates, Op.qubitSupport, Op.qubitSupport]; rfl
  | .comp k ops => by rw [Op.mapGates, Op.qubitSupport, Op.qubitSupport, supportList_asDense ops]
theorem supportList_asDense : ∀ os : List Op, supportList so (mapGatesList Gate.asDense os) = supportList so os
  | [] => rfl
  | o :: os => by
    rw [mapGatesList, supportList, supportList, qubitSupport_asDense o, supportList_asDense os]
end

theorem pyReduce_single {α : Type} (f : α → α → Py α) (x : Py α) : pyReduce f [x] = x := by
  rw [pyReduce]
  rcases x with e | a <;> rfl

theorem product_rel {l : List (Py Arr)} {m : List (Py (NDArray ℂ))} (h : List.Forall₂ (PyRel Arr.OpRel) l m)
    (hl : l.length ≤ 1) : PyRel Arr.OpRel (pyReduce Arr.jnpMatmul l) (pyReduce NDArray.matmul m) := by
  rcases h with _ | ⟨h, _ | ⟨_, _⟩⟩
  · exact .err _ _
  · rw [pyReduce_single, pyReduce_single]; exact h
  · simp at hl

theorem tensorListArr_length (F : List ℕ) : ∀ os : List Op, (tensorListArr lay so values os F).length = os.length
  | [] => by rw [tensorListArr]; rfl
  | o :: os => by rw [tensorListArr, List.length_cons, List.length_cons, tensorListArr_length F os]

mutual
theorem tensorArr_rel : ∀ (o : Op), (∀ g ∈ o.gates, g.SparseOk) → o.SingleProducts → ∀ full : Option (List ℕ),
    PyRel Arr.OpRel (o.tensorArr lay so values full) ((o.mapGates Gate.asDense).tensor so values full)
  | .prim g, hg, _, full => by
    rw [Op.tensorArr, Op.mapGates, Op.tensor]
    exact Arr.tensor_rel lay (hg g (by simp [Op.gates])) values full
  | .comp k ops, hg, hs, full => by
    have hl := fun F => tensorListArr_rel ops (by simpa only [Op.gates] using hg) (by rw [Op.SingleProducts] at hs; exact hs.2) F
    have hq : ∀ k, (Op.comp k (mapGatesList Gate.asDense ops)).qubitSupport so = (Op.comp k ops).qubitSupport so := fun k => by
      have := qubitSupport_asDense so (.comp k ops)
      rwa [Op.mapGates] at this
    rw [Op.SingleProducts] at hs
    rw [Op.mapGates]
    cases k with
    | seq =>
      rw [Op.tensorArr, Op.tensor, hq]
      refine PyRel.bind PyRel.same fun F F' hF => ?_
      subst hF
      exact product_rel (hl F) (by rw [tensorListArr_length]; exact hs.1 (by simp) (by simp))
    | circ n fs =>
      rw [Op.tensorArr, Op.tensor, hq]
      refine PyRel.bind PyRel.same fun F F' hF => ?_
      subst hF
      exact product_rel (hl F) (by rw [tensorListArr_length]; exact hs.1 (by simp) (by simp))
    | scale p =>
      rw [Op.tensorArr, Op.tensor, hq]
      refine PyRel.bind PyRel.same fun x x' hx => ?_
      subst hx
      refine PyRel.bind PyRel.same fun F F' hF => ?_
      subst hF
      refine PyRel.bind (P := Arr.OpRel) ?_ fun a m h => .ok (Arr.opRel_scale x h)
      exact product_rel (hl F) (by rw [tensorListArr_length]; exact hs.1 (by simp) (by simp))
    | add =>
      rw [Op.tensorArr, Op.tensor, hq]
      refine PyRel.bind PyRel.same fun F F' hF => ?_
      subst hF
      exact PyRel.pyReduce (hl F) fun _ _ _ _ => Arr.opRel_add lay
    | obs =>
      rw [Op.tensorArr, Op.tensor, hq]
      refine PyRel.bind PyRel.same fun F F' hF => ?_
      subst hF
      exact PyRel.pyReduce (hl F) fun _ _ _ _ => Arr.opRel_add lay
theorem tensorListArr_rel : ∀ (os : List Op), (∀ g ∈ Op.gatesList os, g.SparseOk) → Op.AllSingleProducts os →
    ∀ F : List ℕ, List.Forall₂ (PyRel Arr.OpRel) (tensorListArr lay so values os F)
      (tensorList so values (mapGatesList Gate.asDense os) F)
  | [], _, _, F => by rw [tensorListArr, mapGatesList, tensorList]; exact .nil
  | o :: os, hg, hs, F => by
    simp only [Op.gatesList, List.mem_append] at hg
    rw [Op.AllSingleProducts] at hs
    rw [tensorListArr, mapGatesList, tensorList]
    exact .cons (tensorArr_rel o (fun g h => hg g (.inl h)) hs.1 _) (tensorListArr_rel os (fun g h => hg g (.inr h)) hs.2 F)
end

/-- The computation returns sparse arrays only. -/
def SparseRes (x : Py Arr) : Prop := ∀ r, x = .ok r → ∃ b, r = .sparse b

theorem SparseRes.reduce {f : Arr → Arr → Py Arr} (hf : ∀ a b r, f (.sparse a) (.sparse b) = .ok r → ∃ b, r = .sparse b)
    {l : List (Py Arr)} (hl : ∀ x ∈ l, SparseRes x) : SparseRes (pyReduce f l) := by
  have fold : ∀ (l : List (Py Arr)), (∀ x ∈ l, SparseRes x) → ∀ b, SparseRes (l.foldlM (fun acc y => do f acc (← y)) (.sparse b)) := by
    intro l
    induction l with
    | nil => intro _ b r h; cases h; exact ⟨b, rfl⟩
    | cons x l ih =>
      intro hl b r h
      rw [List.foldlM_cons] at h
      rcases hx : x with e | a
      · rw [hx] at h; cases h
      · obtain ⟨a, rfl⟩ := hl x (by simp) _ hx
        rw [hx] at h
        replace h : (f (.sparse b) (.sparse a) >>= fun st => l.foldlM (fun acc y => do f acc (← y)) st) = .ok r := h
        rcases hr : f (.sparse b) (.sparse a) with e | q
        · rw [hr] at h; cases h
        · obtain ⟨q, rfl⟩ := hf _ _ _ hr
          rw [hr] at h
          exact ih (fun x hx => hl x (by simp [hx])) q r h
  cases l with
  | nil => intro r h; cases h
  | cons x l =>
    intro r h
    rw [pyReduce] at h
    rcases hx : x with e | a
    · rw [hx] at h; cases h
    · obtain ⟨a, rfl⟩ := hl x (by simp) _ hx
      rw [hx] at h
      exact fold l (fun x hx => hl x (by simp [hx])) a r h

theorem SparseRes.bind {α : Type} {x : Py α} {f : α → Py Arr} (h : ∀ a, SparseRes (f a)) : SparseRes (x >>= f) := by
  rcases x with e | a
  · intro r h; cases h
  · exact h a

theorem sparseRes_matmul : ∀ a b r, Arr.jnpMatmul (.sparse a) (.sparse b) = .ok r → ∃ b, r = .sparse b := by
  intro a b r h; cases h

theorem sparseRes_add : ∀ a b r, Arr.add lay (.sparse a) (.sparse b) = .ok r → ∃ b, r = .sparse b := by
  intro a b r h
  rw [Arr.add] at h
  rcases hx : Bcoo.add lay a b with e | q
  · rw [hx] at h; cases h
  · rw [hx] at h; cases h; exact ⟨q, rfl⟩

theorem SparseRes.scale {x : Py Arr} (h : SparseRes x) (c : ℝ) : SparseRes (x >>= fun m => pure (m.scale c)) := by
  rcases x with e | a
  · intro r h; cases h
  · obtain ⟨b, rfl⟩ := h a rfl
    intro r h; cases h; exact ⟨_, rfl⟩

mutual
theorem tensorArr_sparse : ∀ (o : Op), (∀ g ∈ o.gates, g.SparseOk) → ∀ full : Option (List ℕ),
    SparseRes (o.tensorArr lay so values full)
  | .prim g, hg, full => by
    rw [Op.tensorArr]
    intro r h
    rcases Arr.tensor_rel lay (hg g (by simp [Op.gates])) values full with ⟨e, e', h1, h2⟩ | ⟨a, m, h1, h2, b, hb, rfl, hm⟩
    · rw [h1] at h; cases h
    · rw [h1] at h; cases h; exact ⟨b, rfl⟩
  | .comp k ops, hg, full => by
    have hl := fun F => tensorListArr_sparse ops (by simpa only [Op.gates] using hg) F
    cases k with
    | seq =>
      rw [Op.tensorArr]
      exact SparseRes.bind fun F => SparseRes.reduce sparseRes_matmul (hl F)
    | circ n fs =>
      rw [Op.tensorArr]
      exact SparseRes.bind fun F => SparseRes.reduce sparseRes_matmul (hl F)
    | scale p =>
      rw [Op.tensorArr]
      exact SparseRes.bind fun x => SparseRes.bind fun F => SparseRes.scale (SparseRes.reduce sparseRes_matmul (hl F)) x
    | add =>
      rw [Op.tensorArr]
      exact SparseRes.bind fun F => SparseRes.reduce (sparseRes_add lay) (hl F)
    | obs =>
      rw [Op.tensorArr]
      exact SparseRes.bind fun F => SparseRes.reduce (sparseRes_add lay) (hl F)
theorem tensorListArr_sparse : ∀ (os : List Op), (∀ g ∈ Op.gatesList os, g.SparseOk) → ∀ F : List ℕ,
    ∀ x ∈ tensorListArr lay so values os F, SparseRes x
  | [], _, F => by rw [tensorListArr]; simp
  | o :: os, hg, F => by
    simp only [Op.gatesList, List.mem_append] at hg
    rw [tensorListArr]
    intro x hx
    rcases List.mem_cons.1 hx with rfl | hx
    · exact tensorArr_sparse o (fun g h => hg g (.inl h)) _
    · exact tensorListArr_sparse os (fun g h => hg g (.inr h)) F x hx
end

/-- With sparse gates only, a product of two or more matrices is never computed. -/
theorem product_fails {x y : Py Arr} {l : List (Py Arr)} (hx : SparseRes x) :
    ∃ e, pyReduce Arr.jnpMatmul (x :: y :: l) = .error e ∧ (∀ a b, x = .ok a → y = .ok b → e = .typeError) := by
  rw [pyReduce]
  rcases x with e | a
  · exact ⟨e, rfl, fun a b h => by cases h⟩
  · obtain ⟨b, rfl⟩ := hx a rfl
    simp only [except_bind, List.foldlM_cons]
    rcases y with e | c
    · exact ⟨e, rfl, fun a b _ h => by cases h⟩
    · exact ⟨.typeError, rfl, fun _ _ _ _ => rfl⟩

end Op
end Verif
