import Verif.Lemmas.MapArr
import Verif.Model.Trace

/-!
# The traced program commutes with maps of tracers

The program is written for an arbitrary kind of numbers, so that it commutes with every map that respects the primitive operations.
-/

set_option autoImplicit false

namespace Verif
open NDArray

/-! ## Naturality of sequencing -/

theorem bind_nat {α β γ δ : Type} {x : Py α} {x' : Py β} {φ : α → β} {g : α → Py γ} {g' : β → Py δ} {ψ : γ → δ}
    (hx : x' = x.map φ) (h : ∀ a, g' (φ a) = (g a).map ψ) : (x' >>= g') = (x >>= g).map ψ := by
  subst hx
  cases x with
  | error e => rfl
  | ok a => exact h a

theorem foldlM_nat {α α' β β' : Type} {f : β → α → Py β} {f' : β' → α' → Py β'} {φ : α → α'} {ψ : β → β'}
    (h : ∀ b a, f' (ψ b) (φ a) = (f b a).map ψ) (l : List α) (b : β) :
    (l.map φ).foldlM f' (ψ b) = (l.foldlM f b).map ψ := by
  induction l generalizing b with
  | nil => rfl
  | cons a l ih =>
    rw [List.map_cons, List.foldlM_cons, List.foldlM_cons]
    exact bind_nat (h b a) ih

theorem mapM_nat {α α' β β' : Type} {f : α → Py β} {f' : α' → Py β'} {φ : α → α'} {ψ : β → β'}
    (h : ∀ a, f' (φ a) = (f a).map ψ) (l : List α) : (l.map φ).mapM f' = (l.mapM f).map (List.map ψ) := by
  induction l with
  | nil => rfl
  | cons a l ih =>
    rw [List.map_cons, List.mapM_cons, List.mapM_cons]
    exact bind_nat (h a) fun b => bind_nat ih fun bs => rfl

theorem mapM_nat_id {α β β' : Type} {f : α → Py β} {f' : α → Py β'} {ψ : β → β'}
    (h : ∀ a, f' a = (f a).map ψ) (l : List α) : l.mapM f' = (l.mapM f).map (List.map ψ) := by
  have := mapM_nat (φ := id) h l
  rwa [List.map_id] at this

theorem pyReduce_nat {α β : Type} {f : α → α → Py α} {f' : β → β → Py β} {φ : α → β}
    (h : ∀ a b, f' (φ a) (φ b) = (f a b).map φ) (l : List (Py α)) :
    pyReduce f' (l.map fun x => x.map φ) = (pyReduce f l).map φ := by
  cases l with
  | nil => rfl
  | cons x l =>
    simp only [List.map_cons, pyReduce]
    refine bind_nat rfl fun a => ?_
    exact foldlM_nat (φ := fun x : Py α => x.map φ) (fun b y => bind_nat rfl fun c => h b c) l a

/-! ## More array operations -/

namespace NDArray
section
variable {R K : Type} [CommRing R] [CommRing K] (f : R →+* K)

theorem mapArr_shape {R K : Type} (f : R → K) (a : NDArray R) : (a.mapArr f).shape = a.shape := rfl

theorem mapArr_comp {R K L : Type} (f : R → K) (g : K → L) (a : NDArray R) :
    (a.mapArr f).mapArr g = a.mapArr fun x => g (f x) := by
  simp [mapArr]

theorem smul_mapArr (c : R) (a : NDArray R) : smul (f c) (a.mapArr f) = (smul c a).mapArr f := by
  simp [smul, mapArr]

theorem add_mapArr (a b : NDArray R) : (a.mapArr f).add (b.mapArr f) = (a.add b).map (mapArr f) := by
  simp only [NDArray.add]
  by_cases h : a.shape = b.shape
  · rw [if_pos h, if_pos (by exact h)]
    simp [Except.map, mapArr, List.map_zipWith, List.zipWith_map]
  · rw [if_neg h, if_neg (by exact h)]; rfl

theorem eye_mapArr (n : ℕ) : (eye n : NDArray K) = (eye n : NDArray R).mapArr f := by
  rw [eye, eye, ofFn_mapArr]
  congr 1
  funext idx
  split_ifs <;> simp

theorem kron_mapArr (a b : NDArray R) : kron (a.mapArr f) (b.mapArr f) = (kron a b).map (mapArr f) := by
  simp only [kron, mapArr_shape]
  split
  · simp only [get_mapArr, Except.map, ofFn_mapArr, map_mul]
  · rfl

theorem trace_mapArr (a : NDArray R) : (a.mapArr f).trace = a.trace.map f := by
  simp only [NDArray.trace, mapArr_shape]
  split
  · simp [get_mapArr, Except.map, map_list_sum, Function.comp_def]
  · rfl

theorem flatten_mapArr {R K : Type} (f : R → K) (a : NDArray R) : (a.mapArr f).flatten = a.flatten.mapArr f := rfl

theorem dot_mapArr (a b : NDArray R) : dot (a.mapArr f) (b.mapArr f) = (dot a b).map f := by
  simp only [dot]
  by_cases h : a.shape.length = 1 ∧ a.shape = b.shape
  · rw [if_pos h, if_pos (by exact h)]
    simp [Except.map, mapArr, map_list_sum, List.map_zipWith, List.zipWith_map]
  · rw [if_neg h, if_neg (by exact h)]; rfl

theorem hilbertReshape_mapArr (a : NDArray R) : hilbertReshape (a.mapArr f) = (hilbertReshape a).map (mapArr f) := by
  rw [hilbertReshape, reshape_mapArr]; rfl

theorem expandOperator_mapArr (a : NDArray R) (S F : List ℕ) :
    expandOperator (a.mapArr f) S F = (expandOperator a S F).map (mapArr f) := by
  simp only [expandOperator]
  split_ifs
  · refine bind_nat (φ := mapArr f) ?_ fun k => bind_nat (hilbertReshape_mapArr f k) fun k =>
      bind_nat (permuteBasis_mapArr f k _ _) fun k => reshape_mapArr f k _
    have h1 : ∀ m : ℕ, List.replicate m (matI : NDArray K) = (List.replicate m (matI : NDArray R)).map (mapArr f) := by
      intro m
      rw [List.map_replicate, matI, matI, eye_mapArr f]
    rw [h1]
    exact foldlM_nat (fun b a => kron_mapArr f b a) _ a
  · rfl

theorem prepareControlled_mapArr (a : NDArray R) (ts : List ℕ) (c : Ctl) :
    prepareControlled (a.mapArr f) ts c = prepareControlled a ts c := rfl

theorem controlled_mapArr (a : NDArray R) (ts : List ℕ) (c : Ctl) :
    controlled (a.mapArr f) ts c = (controlled a ts c).map (mapArr f) := by
  simp only [controlled, prepareControlled_mapArr]
  refine bind_nat (φ := id) (by cases prepareControlled a ts c <;> rfl) fun x => ?_
  obtain ⟨dim, ind⟩ := x
  simp only [id, mapArr_shape]
  split_ifs
  · simp only [Except.map, ofFn_mapArr, get_mapArr]
    congr 2
    funext idx
    split_ifs <;> simp
  · rfl

theorem sumArrays_mapArr (l : List (NDArray R)) : sumArrays (l.map (mapArr f)) = (sumArrays l).map (mapArr f) := by
  cases l with
  | nil => rfl
  | cons a l => exact foldlM_nat (fun b a => add_mapArr f b a) l a

variable [StarRing R] [StarRing K] (hf : ∀ x, f (star x) = star (f x))
include hf

theorem applyKrausSum_mapArr (ks : List (NDArray R)) (a : NDArray R) (t : List ℕ) :
    applyKrausSum (ks.map (mapArr f)) (a.mapArr f) t = (applyKrausSum ks a t).map fun r => ⟨r.array.mapArr f⟩ := by
  simp only [applyKrausSum]
  exact bind_nat (mapM_nat (fun k => applyKrausOperator_mapArr f hf k a t) ks) fun l =>
    bind_nat (sumArrays_mapArr f l) fun s => rfl

theorem applyOperatorWithNoise_mapArr (so : SetOrder) (st : DensityMatrix R) (o : NDArray R) (ts : List ℕ) (c : Ctl)
    (noise : Option (List (Py (List (NDArray R))))) :
    applyOperatorWithNoise so ⟨st.array.mapArr f⟩ (o.mapArr f) ts c
        (noise.map fun l => l.map fun k => k.map fun ks => ks.map (mapArr f))
      = (applyOperatorWithNoise so st o ts c noise).map fun r => ⟨r.array.mapArr f⟩ := by
  simp only [applyOperatorWithNoise]
  refine bind_nat (φ := fun r : DensityMatrix R => (⟨r.array.mapArr f⟩ : DensityMatrix K))
    (applyOperatorDM_mapArr f hf so st o ts c) fun g => ?_
  cases noise with
  | none => rfl
  | some ns =>
    simp only [Option.map_some]
    refine foldlM_nat (ψ := fun r : DensityMatrix R => (⟨r.array.mapArr f⟩ : DensityMatrix K)) (fun dm kraus => ?_) ns g
    refine bind_nat rfl fun ks => ?_
    exact bind_nat (mapM_nat (fun k => expandOperator_mapArr f k ts _) ks) fun ks =>
      applyKrausSum_mapArr f hf ks dm.array _

end
end NDArray

theorem reduceApply_mapArr {R K : Type} [CommRing R] [CommRing K] (f : R →+* K) (ops : List (NDArray R × List ℕ × Ctl))
    (st : NDArray R) :
    reduceApply (ops.map fun o => (o.1.mapArr f, o.2)) (st.mapArr f) = (reduceApply ops st).map (mapArr f) := by
  simp only [reduceApply]
  exact foldlM_nat (fun st o => applyOperator_mapArr f st o.1 o.2.1 o.2.2) ops st

section merge
variable {M N : Type} {mul : M → M → Py M} {mul' : N → N → Py N} {φ : M → N}

theorem mergeLoop_nat (h : ∀ a b, mul' (φ a) (φ b) = (mul a b).map φ) (l : List (M × List ℕ × Ctl)) (m : M × List ℕ × Ctl)
    (acc : List (M × List ℕ × Ctl)) :
    mergeLoop mul' (l.map fun o => (φ o.1, o.2)) (φ m.1, m.2) (acc.map fun o => (φ o.1, o.2))
      = (mergeLoop mul l m acc).map (List.map fun o => (φ o.1, o.2)) := by
  induction l generalizing m acc with
  | nil => simp [mergeLoop, Except.map]
  | cons o l ih =>
    obtain ⟨o, t, c⟩ := o
    obtain ⟨mo, mt, mc⟩ := m
    simp only [List.map_cons, mergeLoop]
    split_ifs
    · exact bind_nat (h mo o) fun mo => ih (mo, mt, mc) acc
    · have := ih (o, t, c) (acc ++ [(mo, mt, mc)])
      rwa [List.map_append] at this

theorem mergeOperators_nat (h : ∀ a b, mul' (φ a) (φ b) = (mul a b).map φ) (l : List (M × List ℕ × Ctl)) :
    mergeOperators mul' (l.map fun o => (φ o.1, o.2)) = (mergeOperators mul l).map (List.map fun o => (φ o.1, o.2)) := by
  simp only [mergeOperators, List.length_map, ← List.map_reverse]
  split_ifs
  · rfl
  · rcases l.reverse with _ | ⟨m, rest⟩
    · rfl
    · simp only [List.map_cons]
      refine bind_nat (mergeLoop_nat h rest m []) fun x => ?_
      rw [← List.map_reverse]; rfl

theorem prepareSequenceReduce_nat {opOf : Gate → Py M} {opOf' : Gate → Py N} (h : ∀ a b, mul' (φ a) (φ b) = (mul a b).map φ)
    (hop : ∀ g, opOf' g = (opOf g).map φ) (ga : GateArg) (group merge : Bool) :
    prepareSequenceReduce opOf' mul' ga group merge
      = (prepareSequenceReduce opOf mul ga group merge).map fun x => (x.1.map fun o => (φ o.1, o.2), x.2) := by
  cases ga with
  | single g =>
    simp only [prepareSequenceReduce]
    exact bind_nat (hop g) fun o => rfl
  | list gs =>
    simp only [prepareSequenceReduce]
    refine bind_nat (mapM_nat_id hop _) fun ops => ?_
    have hz : ∀ (ops : List M) (gs : List Gate),
        List.zipWith (fun o (g : Gate) => (o, g.target, g.control)) (ops.map φ) gs
          = (List.zipWith (fun o (g : Gate) => (o, g.target, g.control)) ops gs).map fun o => (φ o.1, o.2) := by
      intro ops gs
      simp [List.map_zipWith, List.zipWith_map_left]
    rw [hz]
    split_ifs
    all_goals first
      | rfl
      | exact bind_nat (mergeOperators_nat h _) fun m => rfl
end merge

/-! ## Maps of tracers -/

/-- A map of numbers that respects the primitive operations. -/
structure Tracer.Hom (A B : Tracer) where
  fR : A.R →+* B.R
  fK : A.K →+* B.K
  constR : ∀ x, fR (A.constR x) = B.constR x
  const : ∀ x, fK (A.const x) = B.const x
  star : ∀ z, fK (star z) = star (fK z)
  real : ∀ x, fK (A.real x) = B.real (fR x)
  re : ∀ z, fR (A.re z) = B.re (fK z)
  cos : ∀ x, fR (A.cos x) = B.cos (fR x)
  sin : ∀ x, fR (A.sin x) = B.sin (fR x)
  exp : ∀ z, fK (A.exp z) = B.exp (fK z)
  expm : ∀ a, B.expm (a.mapArr fK) = (A.expm a).map (mapArr fK)

theorem TDict.lookup_map {R S K L : Type} (f : R → S) (g : K → L) (d : TDict R K) (k : String) :
    List.lookup k (TDict.mapVals f g d) = (d.lookup k).map (TVal.map f g) := by
  induction d with
  | nil => rfl
  | cons e d ih =>
    change List.lookup k ((e.1, e.2.map f g) :: TDict.mapVals f g d) = _
    rw [List.lookup_cons, List.lookup_cons, ih]
    split <;> rfl

theorem TDict.get_map {R S K L : Type} (f : R → S) (g : K → L) (d : TDict R K) (k : String) :
    (d.mapVals f g).get k = (d.get k).map (TVal.map f g) := by
  simp only [TDict.get, TDict.lookup_map]
  cases d.lookup k <;> rfl

namespace Tracer.Hom
variable {A B : Tracer} (φ : A.Hom B)

theorem parse (p : Param) (s : ℝ) (d : TDict A.R A.K) : parseT B p s (d.mapVals φ.fR φ.fK) = (parseT A p s d).map φ.fR := by
  cases p with
  | num x => simp only [parseT, Except.map, φ.constR]
  | str k =>
    simp only [parseT]
    refine bind_nat (TDict.get_map φ.fR φ.fK d k) fun v => ?_
    cases v with
    | num x => simp only [TVal.map, Except.map, map_add, φ.constR]
    | arr a => rfl

theorem const_arr (a : NDArray ℂ) : a.mapArr B.const = (a.mapArr A.const).mapArr φ.fK := by
  rw [mapArr_comp]
  congr 1
  funext x
  exact (φ.const x).symm

theorem rot (gen : NDArray ℂ) (θ : A.R) : rotUnitaryT B gen (φ.fR θ) = (rotUnitaryT A gen θ).map (mapArr φ.fK) := by
  simp only [rotUnitaryT]
  rw [← φ.constR, ← map_mul, ← φ.cos, ← φ.sin, ← φ.real, ← φ.real, ← φ.const, ← map_mul, ← map_neg, φ.const_arr,
    eye_mapArr φ.fK, smul_mapArr, smul_mapArr, add_mapArr]

theorem unitary (g : Gate) (d : TDict A.R A.K) : g.unitaryT B (d.mapVals φ.fR φ.fK) = (g.unitaryT A d).map (mapArr φ.fK) := by
  simp only [Gate.unitaryT]
  split_ifs
  · rfl
  rcases g.cls with _ | ⟨p, s⟩ | ⟨p, s⟩ | s
  · simp only
    rcases g.generator with e | a
    · rfl
    · simp only [Except.map, φ.const_arr]
  · simp only
    refine bind_nat (φ := id) (by cases g.generator <;> rfl) fun gen => bind_nat (φ.parse p s d) fun θ => φ.rot gen θ
  · simp only
    refine bind_nat (φ.parse p s d) fun θ => ?_
    simp only [Except.map, mapArr, List.map_cons, List.map_nil, map_one, map_zero, φ.exp, map_mul, φ.const, φ.real]
  · simp only
    refine bind_nat (φ.parse _ s d) fun t => bind_nat (TDict.get_map φ.fR φ.fK d _) fun v => ?_
    cases v with
    | num x => rfl
    | arr h =>
      refine Eq.trans (congrArg B.expm ?_) (φ.expm _)
      simp [mapArr, φ.const, φ.real]

theorem tensor_gate (g : Gate) (d : TDict A.R A.K) (full : Option (List ℕ)) :
    g.tensorT B (d.mapVals φ.fR φ.fK) full = (g.tensorT A d full).map (mapArr φ.fK) := by
  simp only [Gate.tensorT]
  refine bind_nat (φ.unitary g d) fun u => ?_
  split_ifs
  · refine bind_nat (controlled_mapArr φ.fK u _ _) fun u => ?_
    cases full with
    | none => rfl
    | some full =>
      simp only
      exact bind_nat (φ := id) (by cases g.qubitSupport <;> rfl) fun S => expandOperator_mapArr φ.fK u S full
  · refine bind_nat (φ := mapArr φ.fK) rfl fun u => ?_
    cases full with
    | none => rfl
    | some full =>
      simp only
      exact bind_nat (φ := id) (by cases g.qubitSupport <;> rfl) fun S => expandOperator_mapArr φ.fK u S full

theorem noise (n : Option (List NoiseInstance)) :
    noiseKrausT B n = (noiseKrausT A n).map fun l => l.map fun k => k.map fun ks => ks.map (mapArr φ.fK) := by
  cases n with
  | none => rfl
  | some l =>
    simp only [noiseKrausT, Option.map_some, List.map_map]
    congr 2
    funext i
    simp only [Function.comp_apply]
    rcases i.kraus with e | ks
    · rfl
    · simp only [Except.map, List.map_map]
      congr 1
      refine List.map_congr_left fun a _ => ?_
      exact φ.const_arr a

theorem reduceNoise (so : SetOrder) (ops : List (NDArray A.K × List ℕ × Ctl)) (noise : List (Option (List NoiseInstance)))
    (ρ : DensityMatrix A.K) :
    reduceApplyNoiseT B so (ops.map fun o => (o.1.mapArr φ.fK, o.2)) noise ⟨ρ.array.mapArr φ.fK⟩
      = (reduceApplyNoiseT A so ops noise ρ).map fun r => ⟨r.array.mapArr φ.fK⟩ := by
  simp only [reduceApplyNoiseT]
  have : (ops.map fun o => (o.1.mapArr φ.fK, o.2)).zip noise
      = (ops.zip noise).map fun x => ((x.1.1.mapArr φ.fK, x.1.2), x.2) := by
    rw [List.zip_map_left]
    rfl
  rw [this]
  refine foldlM_nat (ψ := fun r : DensityMatrix A.K => (⟨r.array.mapArr φ.fK⟩ : DensityMatrix B.K)) (fun st o => ?_) _ ρ
  rw [φ.noise]
  exact applyOperatorWithNoise_mapArr φ.fK φ.star so st o.1.1 o.1.2.1 o.1.2.2 _

theorem gates (so : SetOrder) (st : TState A.K) (ga : GateArg) (d : TDict A.R A.K) :
    applyGatesT B so (st.map φ.fK) ga (d.mapVals φ.fR φ.fK) = (applyGatesT A so st ga d).map (TState.map φ.fK) := by
  simp only [applyGatesT]
  refine bind_nat (prepareSequenceReduce_nat (matmul_mapArr φ.fK) (fun g => φ.unitary g d) ga false true) fun x => ?_
  obtain ⟨ops, noise⟩ := x
  cases st with
  | vec a =>
    simp only [TState.map]
    split_ifs
    · rw [densityMat_mapArr φ.fK φ.star]
      exact bind_nat (φ.reduceNoise so ops noise (densityMat a)) fun r => rfl
    · exact bind_nat (reduceApply_mapArr φ.fK ops a) fun r => rfl
  | dm ρ =>
    simp only [TState.map]
    exact bind_nat (φ.reduceNoise so ops noise ρ) fun r => rfl

theorem scaleParam (p : Param) (d : TDict A.R A.K) : scaleParamT B p (d.mapVals φ.fR φ.fK) = (scaleParamT A p d).map φ.fR := by
  cases p with
  | num x => simp only [scaleParamT, Except.map, φ.constR]
  | str k =>
    simp only [scaleParamT]
    refine bind_nat (TDict.get_map φ.fR φ.fK d k) fun v => ?_
    cases v <;> rfl

theorem support_id {α : Type} (x : Py α) : x = x.map id := by cases x <;> rfl

mutual
theorem tensor (so : SetOrder) (d : TDict A.R A.K) : ∀ (o : Op) (full : Option (List ℕ)),
    Op.tensorT B so (d.mapVals φ.fR φ.fK) o full = (Op.tensorT A so d o full).map (mapArr φ.fK)
  | .prim g, full => by
    simp only [Op.tensorT]
    exact φ.tensor_gate g d full
  | .comp .seq ops, full => by
    simp only [Op.tensorT]
    exact bind_nat (support_id _) fun F => by
      rw [id, tensorList so d ops F]
      exact pyReduce_nat (matmul_mapArr φ.fK) _
  | .comp (.circ n fs) ops, full => by
    simp only [Op.tensorT]
    exact bind_nat (support_id _) fun F => by
      rw [id, tensorList so d ops F]
      exact pyReduce_nat (matmul_mapArr φ.fK) _
  | .comp (.scale p) ops, full => by
    simp only [Op.tensorT]
    refine bind_nat (φ.scaleParam p d) fun x => bind_nat (support_id _) fun F => ?_
    rw [id, tensorList so d ops F]
    refine bind_nat (pyReduce_nat (matmul_mapArr φ.fK) _) fun m => ?_
    rw [← φ.real, smul_mapArr]; rfl
  | .comp .add ops, full => by
    simp only [Op.tensorT]
    exact bind_nat (support_id _) fun F => by
      rw [id, tensorList so d ops F]
      exact pyReduce_nat (add_mapArr φ.fK) _
  | .comp .obs ops, full => by
    simp only [Op.tensorT]
    exact bind_nat (support_id _) fun F => by
      rw [id, tensorList so d ops F]
      exact pyReduce_nat (add_mapArr φ.fK) _
theorem tensorList (so : SetOrder) (d : TDict A.R A.K) : ∀ (os : List Op) (full : List ℕ),
    Op.tensorListT B so (d.mapVals φ.fR φ.fK) os full = (Op.tensorListT A so d os full).map fun x => x.map (mapArr φ.fK)
  | [], full => by simp only [Op.tensorListT, List.map_nil]
  | o :: os, full => by
    simp only [Op.tensorListT, List.map_cons]
    rw [tensor so d o (some full), tensorList so d os full]
end

theorem expectDM (so : SetOrder) (d : TDict A.R A.K) (ops : List Op) (ρ : DensityMatrix A.K) :
    Op.expectDMT B so (d.mapVals φ.fR φ.fK) ops ⟨ρ.array.mapArr φ.fK⟩ = (Op.expectDMT A so d ops ρ).map φ.fR := by
  simp only [Op.expectDMT]
  refine bind_nat (φ.tensor so d _ none) fun m => bind_nat (support_id _) fun S =>
    bind_nat (applyOperator_mapArr φ.fK ρ.array m S none) fun r =>
    bind_nat (reshape_mapArr φ.fK r _) fun r => bind_nat (trace_mapArr φ.fK r) fun t => ?_
  rw [← φ.re]; rfl

theorem innerReal (a : NDArray A.K) (st : Option (TState A.K)) :
    Op.innerRealT B (a.mapArr φ.fK) (st.map (TState.map φ.fK)) = (Op.innerRealT A a st).map φ.fR := by
  rcases st with _ | st
  · rfl
  cases st with
  | dm ρ => rfl
  | vec b =>
    simp only [Option.map_some, TState.map, Op.innerRealT, flatten_mapArr, conj_mapArr φ.fK φ.star]
    refine bind_nat (dot_mapArr φ.fK _ _) fun t => ?_
    rw [← φ.re]; rfl

theorem addStates (s t : Option (TState A.K)) :
    Op.addStatesT (T := B) (s.map (TState.map φ.fK)) (t.map (TState.map φ.fK))
      = (Op.addStatesT (T := A) s t).map (Option.map (TState.map φ.fK)) := by
  rcases s with _ | ⟨a⟩ | ρ <;> rcases t with _ | ⟨b⟩ | ρ <;> try rfl
  simp only [Option.map_some, TState.map, Op.addStatesT]
  exact bind_nat (add_mapArr φ.fK a b) fun r => rfl

theorem scaleState (x : A.R) (s : Option (TState A.K)) :
    Op.scaleStateT B (φ.fR x) (s.map (TState.map φ.fK)) = (Op.scaleStateT A x s).map (Option.map (TState.map φ.fK)) := by
  rcases s with _ | ⟨a⟩ | ρ <;> try rfl
  simp only [Option.map_some, TState.map, Op.scaleStateT, Except.map]
  rw [← φ.real, smul_mapArr]

theorem result (x : A.R) : (some (.vec ⟨[], [B.real (φ.fR x)]⟩) : Option (TState B.K))
    = Option.map (TState.map φ.fK) (some (.vec ⟨[], [A.real x]⟩)) := by
  simp only [Option.map_some, TState.map, mapArr, List.map_cons, List.map_nil, φ.real]

mutual
theorem call (so : SetOrder) (d : TDict A.R A.K) : ∀ (o : Op) (st : Option (TState A.K)),
    Op.callT B so (d.mapVals φ.fR φ.fK) o (st.map (TState.map φ.fK)) = (Op.callT A so d o st).map (Option.map (TState.map φ.fK))
  | .prim g, st => by
    simp only [Op.callT]
    have hs : ∀ s : TState A.K,
        (some <$> applyGatesT B so (s.map φ.fK) (.single g) (d.mapVals φ.fR φ.fK) : Py (Option (TState B.K)))
          = (some <$> applyGatesT A so s (.single g) d : Py (Option (TState A.K))).map (Option.map (TState.map φ.fK)) := by
      intro s
      rw [φ.gates]
      cases applyGatesT A so s (.single g) d <;> rfl
    rcases st with _ | s
    · simp only [Option.map_none]
      refine bind_nat (support_id _) fun S => bind_nat (support_id _) fun z => ?_
      simp only [id, φ.const_arr]
      exact hs (.vec (z.mapArr A.const))
    · exact hs s
  | .comp .seq ops, st => by simp only [Op.callT]; exact callSeq so d ops st
  | .comp (.circ _ _) ops, st => by simp only [Op.callT]; exact callSeq so d ops st
  | .comp (.scale p) ops, st => by
    simp only [Op.callT]
    exact bind_nat (φ.scaleParam p d) fun x => bind_nat (callSeq so d ops st) fun s => φ.scaleState x s
  | .comp .add ops, st => by
    simp only [Op.callT]
    rw [callList so d ops st]
    exact pyReduce_nat φ.addStates _
  | .comp .obs ops, st => by
    rcases st with _ | ⟨a⟩ | ρ
    · simp only [Op.callT, Option.map_none]; rfl
    · have := callList so d ops (some (.vec a))
      simp only [Op.callT, Option.map_some, TState.map]
      simp only [Option.map_some, TState.map] at this
      rw [this]
      refine bind_nat (pyReduce_nat φ.addStates _) fun s => bind_nat (φ.innerReal a s) fun x => ?_
      rw [φ.result]; rfl
    · simp only [Op.callT, Option.map_some, TState.map]
      refine bind_nat (φ.expectDM so d ops ρ) fun x => ?_
      rw [φ.result]; rfl
theorem callSeq (so : SetOrder) (d : TDict A.R A.K) : ∀ (os : List Op) (st : Option (TState A.K)),
    Op.callSeqT B so (d.mapVals φ.fR φ.fK) os (st.map (TState.map φ.fK))
      = (Op.callSeqT A so d os st).map (Option.map (TState.map φ.fK))
  | [], st => by simp only [Op.callSeqT]; rfl
  | o :: os, st => by
    simp only [Op.callSeqT]
    exact bind_nat (call so d o st) fun s => callSeq so d os s
theorem callList (so : SetOrder) (d : TDict A.R A.K) : ∀ (os : List Op) (st : Option (TState A.K)),
    Op.callListT B so (d.mapVals φ.fR φ.fK) os (st.map (TState.map φ.fK))
      = (Op.callListT A so d os st).map fun x => x.map (Option.map (TState.map φ.fK))
  | [], st => by simp only [Op.callListT, List.map_nil]
  | o :: os, st => by
    simp only [Op.callListT, List.map_cons]
    rw [call so d o st, callList so d os st]
end

theorem run (so : SetOrder) (circuit : Op) (st : TState A.K) (d : TDict A.R A.K) :
    runT B so circuit (st.map φ.fK) (d.mapVals φ.fR φ.fK) = (runT A so circuit st d).map (Option.map (TState.map φ.fK)) :=
  φ.call so d circuit (some st)

theorem single (so : SetOrder) (d : TDict A.R A.K) (o : Observable) (st : TState A.K) :
    expectSingleT B so (d.mapVals φ.fR φ.fK) o (st.map φ.fK) = (expectSingleT A so d o st).map φ.fR := by
  cases st with
  | vec a =>
    have := φ.callList so d o.ops (some (.vec a))
    simp only [Option.map_some, TState.map] at this
    simp only [expectSingleT, TState.map, this]
    exact bind_nat (pyReduce_nat φ.addStates _) fun s => φ.innerReal a s
  | dm ρ => exact φ.expectDM so d o.ops ρ

/-- The traced expectation commutes with maps of tracers. -/
theorem expectation (so : SetOrder) (st : TState A.K) (circuit : Op) (obs : List Observable) (dc do' : TDict A.R A.K) :
    adExpectationT B so (st.map φ.fK) circuit obs (dc.mapVals φ.fR φ.fK) (do'.mapVals φ.fR φ.fK)
      = (adExpectationT A so st circuit obs dc do').map (List.map φ.fR) := by
  simp only [adExpectationT]
  refine bind_nat (φ := List.map φ.fR) (mapM_nat_id (fun o => ?_) obs) fun outs => ?_
  · exact bind_nat (support_id _) fun gs => bind_nat (φ.gates so st (.list gs) dc) fun s => φ.single so do' o s
  · rw [List.isEmpty_map]
    split_ifs <;> rfl

theorem process {R S K L : Type} (f : R → S) (g : K → L) (a : TArgs R K) :
    (a.mapVals f g).process = a.process.map fun x => (x.1.mapVals f g, x.2.mapVals f g) := by
  cases a with
  | split dc do' => rfl
  | flat d =>
    have h : ∀ k, List.lookup k (TDict.mapVals f g d) = (d.lookup k).map (TVal.map f g) := TDict.lookup_map f g d
    simp only [TArgs.mapVals, TArgs.process, h]
    rcases d.lookup "circuit" with _ | c <;> rcases d.lookup "observables" with _ | o <;> rfl

theorem const_state (st : State) : st.const B = (st.const A).map φ.fK := by
  cases st with
  | vec a => exact congrArg TState.vec (φ.const_arr a)
  | dm ρ => exact congrArg (fun a => TState.dm ⟨a⟩) (φ.const_arr ρ.array)

/-- The traced API function commutes with maps of tracers. -/
theorem api (so : SetOrder) (st : TState A.K) (circuit : Op) (obs : List Observable) (a : TArgs A.R A.K) :
    expectationT B so (st.map φ.fK) circuit obs (a.mapVals φ.fR φ.fK)
      = (expectationT A so st circuit obs a).map (List.map φ.fR) := by
  simp only [expectationT]
  refine bind_nat (process φ.fR φ.fK a) fun x => ?_
  exact φ.expectation so _ circuit obs x.1 x.2

end Tracer.Hom
end Verif
