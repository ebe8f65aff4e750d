import Verif.Model.Hea
import Verif.Model.Gpsr
import Verif.Props.Params

/-! # C35: the hardware-efficient ansatz -/

set_option autoImplicit false

namespace Verif
open NDArray

variable {n : ℕ}

/-- The rotation functions a caller passes: public constructors of rotation gates. -/
noncomputable def Rot.fns (rs : List Rot) : List (Param → TArg → Gate) :=
  rs.map fun r p t => r.gate p t (.tuple [.none]) none

namespace Hea

/-- One block: the rotations of qubit `i` with names number `c`, `c + 1`, …, then the ring of controlled NOTs. -/
noncomputable def block (fresh : ℕ → String) (n : ℕ) (rs : List Rot) (pre : String) (i c : ℕ) : List Gate :=
  (rs.mapIdx fun j r => r.gate (.str (pre ++ fresh (c + j))) (.int i) (.tuple [.none]) none) ++
    (List.range n).map fun i => Gate.X (.int ((i + 1) % n)) (.int (i % n))

theorem rot_paramAttr (r : Rot) (p : Param) (t : TArg) (c nz) : (r.gate p t c nz).paramAttr = .ok p := by
  cases r <;> rfl

theorem mapM_ok_of_forall {α β : Type} {f : α → Py β} {l : List α} (h : ∀ a ∈ l, ∃ b, f a = .ok b) :
    ∃ bs, l.mapM f = .ok bs := by
  induction l with
  | nil => exact ⟨[], rfl⟩
  | cons a l ih =>
    obtain ⟨b, hb⟩ := h a (by simp)
    obtain ⟨bs, hbs⟩ := ih fun x hx => h x (by simp [hx])
    exact ⟨b :: bs, by rw [List.mapM_cons, hb, hbs]; rfl⟩

theorem heaBlock_eq (fresh : ℕ → String) (rs : List Rot) (pre : String) (i c : ℕ) :
    heaBlock fresh n (Rot.fns rs) pre i c = .ok (block fresh n rs pre i c, c + rs.length) := by
  have hm : ((Rot.fns rs).mapIdx fun j fn => fn (.str (pre ++ fresh (c + j))) (.int i))
      = rs.mapIdx fun j r => r.gate (.str (pre ++ fresh (c + j))) (.int i) (.tuple [.none]) none := by
    refine List.ext_getElem (by simp [Rot.fns]) fun k h1 h2 => by simp [Rot.fns]
  obtain ⟨bs, hb⟩ := mapM_ok_of_forall (f := Gate.paramAttr)
    (l := rs.mapIdx fun j r => r.gate (.str (pre ++ fresh (c + j))) (.int i) (.tuple [.none]) none) (by
      intro g hg
      obtain ⟨j, hj, rfl⟩ := List.mem_mapIdx.1 hg
      exact ⟨_, rot_paramAttr _ _ _ _ _⟩)
  have hl : (Rot.fns rs).length = rs.length := by simp [Rot.fns]
  rw [heaBlock]
  simp only [hm, hl, hb]
  rfl

theorem ok_bind {α β : Type} (a : α) (f : α → Py β) : ((Except.ok a : Py α) >>= f) = f a := rfl

theorem ok_pure {α : Type} (a : α) : (pure a : Py α) = .ok a := rfl

theorem layer_eq (fresh : ℕ → String) (rs : List Rot) (pre : String) (m : ℕ) (st : List Gate × ℕ) :
    (List.range m).foldlM (init := st) (fun st i => do
      let (ops, count) ← heaBlock fresh n (Rot.fns rs) pre i st.2
      pure (st.1 ++ ops, count) : List Gate × ℕ → ℕ → Py (List Gate × ℕ))
    = .ok (st.1 ++ (List.range m).flatMap (fun i => block fresh n rs pre i (st.2 + i * rs.length)),
        st.2 + m * rs.length) := by
  induction m with
  | zero => simp; rfl
  | succ m ih =>
    rw [List.range_succ, List.foldlM_append, ih]
    simp only [List.foldlM_cons, List.foldlM_nil, List.flatMap_append, List.flatMap_cons, List.flatMap_nil]
    simp only [ok_bind, heaBlock_eq, ok_pure]
    simp [Nat.succ_mul, Nat.add_assoc]

theorem hea_eq (fresh : ℕ → String) (L : ℕ) (rs : List Rot) (pre : String) :
    hea fresh n L (Rot.fns rs) pre = .ok ((List.range L).flatMap fun l => (List.range n).flatMap fun i =>
      block fresh n rs pre i ((l * n + i) * rs.length)) := by
  have key : ∀ L, (List.range L).foldlM (init := (([] : List Gate), 0)) (fun st _ =>
      (List.range n).foldlM (init := st) fun st i => do
        let (ops, count) ← heaBlock fresh n (Rot.fns rs) pre i st.2
        pure (st.1 ++ ops, count) : List Gate × ℕ → ℕ → Py (List Gate × ℕ))
      = .ok ((List.range L).flatMap (fun l => (List.range n).flatMap fun i =>
          block fresh n rs pre i ((l * n + i) * rs.length)), L * n * rs.length) := by
    intro L
    induction L with
    | zero => simp; rfl
    | succ L ih =>
      rw [List.range_succ, List.foldlM_append, ih]
      simp only [List.foldlM_cons, List.foldlM_nil, List.flatMap_append, List.flatMap_cons, List.flatMap_nil]
      simp only [ok_bind]
      refine (congrArg (· >>= pure) (layer_eq fresh rs pre n _)).trans ?_
      simp only [ok_bind, ok_pure]
      simp [Nat.succ_mul, Nat.add_mul]
  rw [hea, key]
  rfl

theorem flatMap_length {α β : Type} {f : α → List β} {k : ℕ} (l : List α) (h : ∀ a ∈ l, (f a).length = k) :
    (l.flatMap f).length = l.length * k := by
  induction l with
  | nil => simp
  | cons a l ih => rw [List.flatMap_cons, List.length_append, h a (by simp), ih fun x hx => h x (by simp [hx]),
      List.length_cons, Nat.succ_mul, Nat.add_comm]

theorem block_length (fresh : ℕ → String) (rs : List Rot) (pre : String) (i c : ℕ) :
    (block fresh n rs pre i c).length = rs.length + n := by simp [block]

theorem flatMap_getElem? {β : Type} {f : ℕ → List β} {k : ℕ} (m : ℕ) (h : ∀ a, (f a).length = k) {a j : ℕ}
    (ha : a < m) (hj : j < k) : ((List.range m).flatMap f)[a * k + j]? = (f a)[j]? := by
  induction m with
  | zero => omega
  | succ m ih =>
    rw [List.range_succ, List.flatMap_append]
    have hl : ((List.range m).flatMap f).length = m * k := by
      rw [flatMap_length (k := k) _ fun x _ => h x, List.length_range]
    rcases Nat.lt_or_ge a m with h' | h'
    · rw [List.getElem?_append_left, ih h']
      rw [hl]
      calc a * k + j < (a + 1) * k := by rw [Nat.succ_mul]; omega
        _ ≤ m * k := Nat.mul_le_mul_right _ h'
    · obtain rfl : a = m := by omega
      rw [List.getElem?_append_right (by rw [hl]; omega), hl]
      simp

theorem rot_name (r : Rot) (s : String) (t c nz) : (r.gate (.str s) t c nz).paramName = some s := by
  cases r <;> rfl

theorem block_names (fresh : ℕ → String) (rs : List Rot) (pre : String) (i c : ℕ) :
    (block fresh n rs pre i c).filterMap Gate.paramName
      = (List.range' c rs.length).map fun k => pre ++ fresh k := by
  rw [block, List.filterMap_append]
  have h1 : ((List.range n).map fun i => Gate.X (.int ((i + 1) % n)) (.int (i % n))).filterMap Gate.paramName = [] := by
    rw [List.filterMap_eq_nil_iff]
    intro g hg
    obtain ⟨i, -, rfl⟩ := List.mem_map.1 hg
    rfl
  rw [h1, List.append_nil]
  have h2 : (rs.mapIdx fun j r => r.gate (.str (pre ++ fresh (c + j))) (.int i) (.tuple [.none]) none).filterMap
      Gate.paramName = rs.mapIdx fun j _ => pre ++ fresh (c + j) := by
    induction rs generalizing c with
    | nil => rfl
    | cons r rs ih =>
      rw [List.mapIdx_cons, List.mapIdx_cons, List.filterMap_cons, rot_name]
      simp only [Function.comp_def]
      have := ih (c + 1)
      simp only [Nat.add_assoc, Nat.add_comm 1] at this
      simpa using this
  rw [h2]
  exact List.ext_getElem (by simp) fun k a b => by simp

theorem names_eq (fresh : ℕ → String) (L : ℕ) (rs : List Rot) (pre : String) :
    ((List.range L).flatMap fun l => (List.range n).flatMap fun i =>
      block fresh n rs pre i ((l * n + i) * rs.length)).filterMap Gate.paramName
      = (List.range (L * n * rs.length)).map fun k => pre ++ fresh k := by
  have row : ∀ m c, ((List.range m).flatMap fun i => List.range' (c + i * rs.length) rs.length)
      = List.range' c (m * rs.length) := by
    intro m c
    induction m with
    | zero => simp
    | succ m ih =>
      rw [List.range_succ, List.flatMap_append, ih, Nat.succ_mul]
      simp
  have inner : ∀ l, ((List.range n).flatMap fun i => block fresh n rs pre i ((l * n + i) * rs.length)).filterMap
      Gate.paramName = (List.range' (l * (n * rs.length)) (n * rs.length)).map fun k => pre ++ fresh k := by
    intro l
    rw [List.filterMap_flatMap]
    simp only [block_names]
    rw [← row n (l * (n * rs.length)), List.map_flatMap]
    simp only [Nat.add_mul, Nat.mul_assoc]
  rw [List.filterMap_flatMap]
  simp only [inner]
  rw [← List.map_flatMap]
  have : ((List.range L).flatMap fun l => List.range' (l * (n * rs.length)) (n * rs.length))
      = List.range (L * n * rs.length) := by
    induction L with
    | zero => simp
    | succ L ih =>
      rw [List.range_succ, List.flatMap_append, ih]
      rw [Nat.succ_mul, Nat.add_mul, List.range_eq_range', List.range_eq_range', ← List.range'_append_1]
      simp [Nat.mul_assoc]
  rw [this]

theorem mem_iff (fresh : ℕ → String) (L : ℕ) (rs : List Rot) (pre : String) {g : Gate}
    (hg : g ∈ (List.range L).flatMap fun l => (List.range n).flatMap fun i =>
      block fresh n rs pre i ((l * n + i) * rs.length)) :
    (∃ r : Rot, ∃ i < n, ∃ s, g = r.gate (.str s) (.int i) (.tuple [.none]) none) ∨
    ∃ i < n, g = Gate.X (.int ((i + 1) % n)) (.int (i % n)) := by
  obtain ⟨l, -, hg⟩ := List.mem_flatMap.1 hg
  obtain ⟨i, hi, hg⟩ := List.mem_flatMap.1 hg
  rcases List.mem_append.1 hg with h | h
  · obtain ⟨j, hj, rfl⟩ := List.mem_mapIdx.1 h
    exact .inl ⟨_, i, List.mem_range.1 hi, _, rfl⟩
  · obtain ⟨k, hk, rfl⟩ := List.mem_map.1 h
    exact .inr ⟨k, List.mem_range.1 hk, rfl⟩

end Hea

/-- **C35, the gates**: for every number of qubits and layers and every list of rotation constructors, `hea` returns
`layers * n * (len(rot_fns) + n)` gates.  The block of layer `l` and qubit `i` consists of the rotations in the given
order on qubit `i`, each with a new name that starts with the prefix, followed by the ring of NOT gates with control `k`
and target `k + 1` modulo `n`. -/
theorem C35_gates (fresh : ℕ → String) (n L : ℕ) (rs : List Rot) (pre : String) :
    ∃ gs, hea fresh n L (Rot.fns rs) pre = .ok gs ∧ gs.length = L * n * (rs.length + n) ∧
      ∀ l < L, ∀ i < n,
        (∀ (j : ℕ) (hj : j < rs.length), ∃ k, gs[(l * n + i) * (rs.length + n) + j]?
          = some ((rs[j]).gate (.str (pre ++ fresh k)) (.int i) (.tuple [.none]) none)) ∧
        ∀ k < n, gs[(l * n + i) * (rs.length + n) + (rs.length + k)]?
          = some (Gate.X (.int ((k + 1) % n)) (.int k)) := by
  refine ⟨_, Hea.hea_eq fresh L rs pre, ?_, ?_⟩
  · rw [Hea.flatMap_length (k := n * (rs.length + n)), List.length_range, Nat.mul_assoc]
    intro l _
    rw [Hea.flatMap_length (k := rs.length + n), List.length_range]
    exact fun i _ => Hea.block_length _ _ _ _ _
  · intro l hl i hi
    have key : ∀ j < rs.length + n, ((List.range L).flatMap fun l => (List.range n).flatMap fun i =>
        Hea.block fresh n rs pre i ((l * n + i) * rs.length))[(l * n + i) * (rs.length + n) + j]?
        = (Hea.block fresh n rs pre i ((l * n + i) * rs.length))[j]? := by
      intro j hj
      have e : (l * n + i) * (rs.length + n) + j = l * (n * (rs.length + n)) + (i * (rs.length + n) + j) := by ring
      rw [e, Hea.flatMap_getElem? (k := n * (rs.length + n)) L _ hl,
        Hea.flatMap_getElem? (k := rs.length + n) n (fun i => Hea.block_length _ _ _ _ _) hi hj]
      · calc i * (rs.length + n) + j < (i + 1) * (rs.length + n) := by rw [Nat.succ_mul]; omega
          _ ≤ n * (rs.length + n) := Nat.mul_le_mul_right _ hi
      · intro l
        rw [Hea.flatMap_length (k := rs.length + n), List.length_range]
        exact fun i _ => Hea.block_length _ _ _ _ _
    refine ⟨fun j hj => ⟨(l * n + i) * rs.length + j, ?_⟩, fun k hk => ?_⟩
    · rw [key j (by omega), Hea.block, List.getElem?_append_left (by simpa using hj)]
      simp [hj]
    · rw [key _ (by omega), Hea.block, List.getElem?_append_right (by simp)]
      simp [hk, Nat.mod_eq_of_lt hk]

/-- **C35, parameter names**: if `uuid4` never repeats a string, the parameter names of the gates are pairwise
distinct, there is one for each rotation, and each starts with the prefix. -/
theorem C35_names {fresh : ℕ → String} (hinj : Function.Injective fresh) (n L : ℕ) (rs : List Rot) (pre : String)
    {gs : List Gate} (h : hea fresh n L (Rot.fns rs) pre = .ok gs) :
    (gs.filterMap Gate.paramName).Nodup ∧ (gs.filterMap Gate.paramName).length = L * n * rs.length ∧
    (∀ s ∈ gs.filterMap Gate.paramName, ∃ t, s = pre ++ t) ∧
    ∀ g ∈ gs, (∃ (r : Rot) (t : TArg), ∃ s ∈ gs.filterMap Gate.paramName, g = r.gate (.str s) t (.tuple [.none]) none) ∨
      ∃ t c, g = Gate.X t c := by
  rw [Hea.hea_eq] at h
  cases h
  refine ⟨?_, ?_, ?_, ?_⟩
  · rw [Hea.names_eq]
    refine (List.nodup_range).map fun a b hab => hinj ?_
    simpa [String.ext_iff] using hab
  · rw [Hea.names_eq]; simp
  · rw [Hea.names_eq]
    intro s hs
    obtain ⟨k, -, rfl⟩ := List.mem_map.1 hs
    exact ⟨_, rfl⟩
  · intro g hg
    rcases Hea.mem_iff fresh L rs pre hg with ⟨r, i, -, s, rfl⟩ | ⟨i, -, rfl⟩
    · exact .inl ⟨r, _, s, List.mem_filterMap.2 ⟨_, hg, Hea.rot_name _ _ _ _ _⟩, rfl⟩
    · exact .inr ⟨_, _, rfl⟩

/-- Distinct strings. -/
def unaryName (k : ℕ) : String := String.ofList (List.replicate k 'a')

theorem unaryName_injective : Function.Injective unaryName := by
  intro a b h
  have := congrArg (fun s => s.toList.length) h
  simpa [unaryName] using this

/-- The default rotations on three qubits, two layers: 36 gates and 18 names. -/
example : ∃ gs, hea unaryName 3 2 (Rot.fns [.RX, .RY, .RX]) "v_" = .ok gs ∧ gs.length = 36 ∧
    (gs.filterMap Gate.paramName).Nodup ∧ (gs.filterMap Gate.paramName).length = 18 := by
  obtain ⟨gs, h, hl, -⟩ := C35_gates unaryName 3 2 [.RX, .RY, .RX] "v_"
  obtain ⟨h1, h2, -⟩ := C35_names unaryName_injective 3 2 [.RX, .RY, .RX] "v_" h
  exact ⟨gs, h, hl, h1, h2⟩

/-- **C35, qubit indices, for a number of qubits other than one**: every gate acts on distinct qubits of the register;
under values for its parameters it is a standard gate.  The full property (every `n`) is false: `C35_single_false`. -/
theorem C35_valid_partial {fresh : ℕ → String} {n : ℕ} (hn : n ≠ 1) (L : ℕ) (rs : List Rot) (pre : String)
    {gs : List Gate} (h : hea fresh n L (Rot.fns rs) pre = .ok gs) {values : Values}
    (hv : ∀ s ∈ gs.filterMap Gate.paramName, ∃ x, values.lookup s = some (.num x)) :
    ∀ g ∈ gs, g.noise = none ∧ ∃ s, g.Std n values s := by
  rw [Hea.hea_eq] at h
  cases h
  intro g hg
  rcases Hea.mem_iff fresh L rs pre hg with ⟨r, i, hi, s, rfl⟩ | ⟨i, hi, rfl⟩
  · obtain ⟨x, hx⟩ := hv s (List.mem_filterMap.2 ⟨_, hg, Hea.rot_name _ _ _ _ _⟩)
    refine ⟨by cases r <;> rfl, r.std x, r.is _ _ _ (.str hx), by cases r <;> rfl, ?_⟩
    have ht : (r.gate (.str s) (.int i) (.tuple [.none]) none).target = [i] := by cases r <;> rfl
    have hc : (r.gate (.str s) (.int i) (.tuple [.none]) none).control = some [.none] := by cases r <;> rfl
    refine ⟨by rw [hc]; exact .inr (.inl rfl), ?_⟩
    rw [ht, hc]
    exact ⟨by simp [ctlInts], by simpa [ctlInts] using hi⟩
  · refine ⟨rfl, .X, .X _ _ _, rfl, .inr (.inr ⟨[i % n], rfl⟩), ?_⟩
    show ValidDims n [i % n, (i + 1) % n]
    refine ⟨?_, ?_⟩
    · simp only [List.nodup_cons, List.mem_singleton, List.not_mem_nil, not_false_eq_true, List.nodup_nil, and_true]
      rw [Nat.mod_eq_of_lt hi]
      rcases Nat.lt_or_ge (i + 1) n with h | h
      · rw [Nat.mod_eq_of_lt h]; omega
      · rw [show i + 1 = n by omega, Nat.mod_self]; omega
    · have := Nat.mod_lt i (show 0 < n by omega)
      have := Nat.mod_lt (i + 1) (show 0 < n by omega)
      intro q hq
      simp at hq
      rcases hq with rfl | rfl <;> assumption

/-- The hypotheses can be met: two qubits, one layer, one rotation, with values for the two names. -/
example : ∃ gs, hea unaryName 2 1 (Rot.fns [.RY]) "v_" = .ok gs ∧ gs.length = 6 ∧
    ∀ g ∈ gs, g.noise = none ∧ ∃ s, g.Std 2 [("v_", .num 1), ("v_a", .num 2)] s := by
  obtain ⟨gs, h, hl, -⟩ := C35_gates unaryName 2 1 [.RY] "v_"
  refine ⟨gs, h, hl, C35_valid_partial (by decide) 1 [.RY] "v_" h ?_⟩
  rw [Hea.hea_eq] at h
  cases h
  rw [Hea.names_eq]
  intro s hs
  obtain ⟨k, hk, rfl⟩ := List.mem_map.1 hs
  rcases (by simp at hk; omega : k = 0 ∨ k = 1) with rfl | rfl
  · exact ⟨1, rfl⟩
  · exact ⟨2, rfl⟩

/-- **C35, refused lists**: a function among `rot_fns` whose gates have no parameter (those of `Primitive` and of Hamiltonian
evolutions) raises an AttributeError as soon as there is a qubit and a layer. -/
theorem C35_refused (fresh : ℕ → String) {n L : ℕ} (hn : 0 < n) (hL : 0 < L) {fns : List (Param → TArg → Gate)} {f : Param → TArg → Gate}
    (hf : f ∈ fns) (h : ∀ p t, (f p t).cls = .primitive ∨ ∃ s, (f p t).cls = .hamEvo s) (pre : String) :
    hea fresh n L fns pre = .error .attributeError := by
  have hm : ∀ ops : List Gate, (∃ g ∈ ops, g.cls = .primitive ∨ ∃ s, g.cls = .hamEvo s) →
      ops.mapM Gate.paramAttr = .error .attributeError := by
    intro ops
    induction ops with
    | nil => rintro ⟨g, hg, -⟩; cases hg
    | cons o ops ih =>
      rintro ⟨g, hg, hc⟩
      rw [List.mapM_cons]
      have ho : Gate.paramAttr o = .error .attributeError ∨ ∃ p, Gate.paramAttr o = .ok p := by
        rw [Gate.paramAttr]
        cases o.cls <;> simp
      rcases ho with ho | ⟨p, ho⟩
      · rw [ho]; rfl
      · have hgo : g ∈ ops := by
          rcases List.mem_cons.1 hg with rfl | hg
          · exfalso
            rcases hc with hc | ⟨s, hc⟩ <;> rw [Gate.paramAttr, hc] at ho <;> cases ho
          · exact hg
        rw [ho, ih ⟨g, hgo, hc⟩]
        rfl
  have hb : ∀ i count, heaBlock fresh n fns pre i count = .error .attributeError := by
    intro i count
    obtain ⟨j, hj, rfl⟩ := List.getElem_of_mem hf
    rw [heaBlock, hm]
    · rfl
    · exact ⟨fns[j] (.str (pre ++ fresh (count + j))) (.int i), List.mem_mapIdx.2 ⟨j, hj, rfl⟩, h _ _⟩
  obtain ⟨n, rfl⟩ := Nat.exists_eq_succ_of_ne_zero hn.ne'
  obtain ⟨L, rfl⟩ := Nat.exists_eq_succ_of_ne_zero hL.ne'
  simp only [hea, List.range_succ_eq_map, List.foldlM_cons, hb]
  rfl

/-- Non-vacuity of `C35_refused`: `lambda param, target: X(target)`. -/
example (fresh : ℕ → String) : hea fresh 2 1 [fun p t => Gate.RX p t, fun _ t => Gate.X t] "v_" = .error .attributeError :=
  C35_refused fresh (by decide) (by decide) (f := fun _ t => Gate.X t) (by simp) (fun _ _ => .inl rfl) _

/-- **C35 is false for one qubit**: with at least one layer the result contains a NOT gate whose control is its
target, whatever the rotations, and applying that gate to any state raises a TypeError. -/
theorem C35_single_false (fresh : ℕ → String) (L : ℕ) (hL : 0 < L) (rs : List Rot) (pre : String) :
    ∃ gs, hea fresh 1 L (Rot.fns rs) pre = .ok gs ∧
      ∃ g ∈ gs, g = Gate.X (.int 0) (.int 0) ∧ ¬ g.ValidOn 1 ∧
        ∀ (so : SetOrder) (a : NDArray ℂ) (values : Values),
          applyGates so (.vec a) (.single g) values = .error .typeError := by
  obtain ⟨gs, h, hl, hg⟩ := C35_gates fresh 1 L rs pre
  refine ⟨gs, h, Gate.X (.int 0) (.int 0), List.mem_of_getElem? ((hg 0 hL 0 Nat.one_pos).2 0 Nat.one_pos), rfl, ?_, ?_⟩
  · intro hv
    have := hv.dims.nodup
    simp [Gate.X, mkGate, parseControl, parseTarget, ctlInts] at this
  · intro so a values
    obtain ⟨U, hU, hop⟩ := (Gate.Is.X (values := values) [0] (some [.int 0]) none).unitary
    obtain ⟨op', hs', hw', hprep, hent⟩ := prepareOperator_eq hop.1.shape hop.1.wf [0] [0]
    have h1 : applyOperator a U [0] (some [.int 0]) = .error .typeError := by
      have hprep' : prepareOperator U [0] (some [.int 0]) = _ := hprep
      rw [applyOperator, hprep']
      simp only [Hea.ok_bind, tensordot]
      rw [if_neg (by simp)]
      rfl
    have h2 : (Gate.X (.int 0) (.int 0)).operator .unitary values = .ok U := hU
    simp only [applyGates, prepareSequenceReduce, h2, Hea.ok_bind]
    show (reduceApply [(U, [0], some [.int 0])] a >>= fun r => .ok (State.vec r)) = _
    simp only [reduceApply, List.foldlM_cons, h1]
    rfl

end Verif
