import Verif.Model.Adjoint
import Verif.Props.Gpsr
import Verif.Props.ExpectModes

/-!
# The backward rule of the adjoint method

C55.
-/

set_option autoImplicit false

namespace Verif
open NDArray
variable (so : SetOrder) (eigh : Eigh) (draw : Draw)

/-- **C55 is false of the code** (all inputs): for every circuit, state, observable and parameter values, the backward rule
raises, or returns `None` for every parameter. -/
theorem C55_never_a_number (traced : Bool) (res : AdjointRes) (tangent : ℝ) :
    (∃ e, adjointBwd so traced res tangent = .error e) ∨
      adjointBwd so traced res tangent = .ok (res.values.map fun e => (e.1, none)) := by
  rw [adjointBwd, foriLoop]
  cases traced with
  | true => exact .inl ⟨_, rfl⟩
  | false =>
    rcases hg : res.gates with _ | ⟨g, gs⟩
    · exact .inl ⟨.indexError, rfl⟩
    · refine .inr ?_
      have : intRange (((g :: gs).length : ℤ) - 1) 0 = [] := by
        rw [intRange, Int.toNat_of_nonpos (by push_cast [List.length_cons]; omega)]; rfl
      simp only [Bool.false_eq_true, if_false, this, List.foldlM_nil]
      rfl

/-- **C55** (what holds): the forward rule returns the expectation value of `diff_mode=ADJOINT`, with the states and gates the
backward rule needs. -/
theorem C55_forward_partial (state : State) (circuit : Op) (o : Observable) (values : Values) :
    (adjointFwd so state circuit o values).map Prod.fst = adjointSingle so state circuit values o ∧
    ∀ x res, adjointFwd so state circuit o values = .ok (x, res) → res.gates = circuit.iter ∧ res.values = values ∧
      applyOps so state circuit.iter values = .ok res.out ∧ o.forward so values (some res.out) = .ok res.projected := by
  simp only [adjointFwd, adjointSingle, except_bind]
  rcases h1 : applyOps so state circuit.iter values with e | out
  · exact ⟨rfl, fun _ _ h => (by cases h)⟩
  · simp only
    rcases h2 : o.forward so values (some out) with e | proj
    · exact ⟨rfl, fun _ _ h => (by cases h)⟩
    · simp only
      rcases out with a | ρ
      · simp only
        rcases Op.innerReal a proj with e | y
        · exact ⟨rfl, fun _ _ h => (by cases h)⟩
        · exact ⟨rfl, fun _ _ h => (by cases h; exact ⟨rfl, rfl, rfl, h2⟩)⟩
      · exact ⟨rfl, fun _ _ h => (by cases h)⟩

/-- Under `jax.jit`-style tracing (the default) the backward rule always raises. -/
theorem C55_traced_raises (res : AdjointRes) (tangent : ℝ) : adjointBwd so true res tangent = .error .typeError := rfl

/-- **C55** with a corrected loop: every step on a gate with a named parameter raises as long as the entry of the parameter
is `None`, which is how all entries start. -/
theorem C55_body_raises {gates : List Op} {values : Values} {tangent : ℝ} {i : ℤ} {g : Gate} {p : String}
    (hi : pyIndex gates i = .ok (.prim g)) (hp : g.trainable = some p) {grads : GradDict} (hg : grads.lookup p = some none)
    (out : State) (projected : Option State) :
    ∃ e, adjointBody so gates values tangent i (out, projected, grads) = .error e := by
  simp only [adjointBody, hi, hp, except_bind]
  rcases applyGates so out (.single g) values .dagger with e | out'
  · exact ⟨e, rfl⟩
  · simp only
    rcases applyGates so out' (.single g) values .jacobian with e | mu
    · exact ⟨e, rfl⟩
    · rcases mu with mu | mu
      · simp only
        rcases Op.innerReal mu projected with e | x
        · exact ⟨e, rfl⟩
        · simp only [GradDict.accumulate, hg]
          exact ⟨_, rfl⟩
      · exact ⟨_, rfl⟩

example : pyIndex [Op.prim (Gate.RX (.str "a") (.int 0))] 0 = .ok (.prim (Gate.RX (.str "a") (.int 0))) ∧
    (Gate.RX (.str "a") (.int 0)).trainable = some "a" ∧
    (([("a", .num 1)] : Values).map fun e => (e.1, (none : Option ℝ))).lookup "a" = some none := ⟨rfl, rfl, rfl⟩

/-- **C55 is false of the code** (witness): for two rotations `RX("a")` on `|0⟩` and the observable `Z` the expectation
value `cos 2a` has the derivative `-2 sin 2a`, the forward rule returns the right value, and the backward rule does not
return the derivative, traced or not. -/
theorem C55_false (x : ℝ) : let values : Values := [("a", .num x)]
    IsPartial (fun v => expectation so eigh draw (.vec zero1) twiceRX [obsZ] v .adjoint 0) values "a" [-2 * Real.sin (2 * x)] ∧
    ∃ res, adjointFwd so (.vec zero1) twiceRX obsZ values = .ok (Real.cos (2 * x), res) ∧
      ∀ traced tangent grads, adjointBwd so traced res tangent = .ok grads →
        grads.lookup "a" ≠ some (some (tangent * (-2 * Real.sin (2 * x)))) := by
  intro values
  have exp : ∀ t, expectation so eigh draw (.vec zero1) twiceRX [obsZ] [("a", .num t)] .adjoint 0
      = .ok [Real.cos (2 * t)] := by
    intro t
    have hf : Values.Flat [("a", .num t)] := by simp [Values.Flat]
    rw [← C20_ad_adjoint_partial so eigh draw hf zero1 twiceRX (by
        simp [twiceRX, mkSeq, Op.iter, Op.flattenList, Op.flatten, Gate.RX, mkGate]) [obsZ],
      C20_ad_gpsr so eigh draw hf]
    exact (expectation_gates so eigh draw twiceRX_plain _).trans (twice_value so rfl)
  have val : ∀ t, adjointSingle so (.vec zero1) twiceRX [("a", .num t)] obsZ = .ok (Real.cos (2 * t)) := by
    intro t
    have h := exp t
    simp only [expectation, adjointExpectation, List.mapM_cons, List.mapM_nil] at h
    rcases hx : adjointSingle so (.vec zero1) twiceRX [("a", .num t)] obsZ with e | y
    · rw [hx] at h; cases h
    · rw [hx] at h
      have h' : stackReal [y] = .ok [Real.cos (2 * t)] := h
      simp only [stackReal, List.cons_ne_nil, if_false, Except.ok.injEq, List.cons.injEq, and_true] at h'
      rw [h']
  refine ⟨⟨x, fun t => [Real.cos (2 * t)], rfl, fun t => ?_, fun t => rfl, fun i => ?_⟩, ?_⟩
  · have : values.upd "a" t = [("a", .num t)] := by simp [Values.upd, values]
    rw [this]; exact exp t
  · cases i with
    | zero =>
      have h1 : HasDerivAt (fun t : ℝ => 2 * t) (2 * 1) x := (hasDerivAt_id x).const_mul 2
      have h2 := h1.cos
      simpa [mul_comm] using h2
    | succ i => simpa using hasDerivAt_const x (0 : ℝ)
  · have hv := val x
    simp only [adjointSingle, except_bind] at hv
    simp only [adjointFwd, except_bind]
    rcases h1 : applyOps so (.vec zero1) twiceRX.iter [("a", .num x)] with e | out
    · rw [h1] at hv; cases hv
    · rw [h1] at hv
      simp only at hv
      rcases h2 : obsZ.forward so [("a", .num x)] (some out) with e | proj
      · rw [h2] at hv; cases hv
      · rw [h2] at hv
        simp only at hv
        rcases out with a | ρ
        · simp only at hv
          refine ⟨⟨.vec a, proj, twiceRX.iter, values⟩, by simp only [values, h1, h2, hv]; rfl, fun traced tangent grads h => ?_⟩
          rcases C55_never_a_number so traced ⟨.vec a, proj, twiceRX.iter, values⟩ tangent with ⟨e, h'⟩ | h'
          · rw [h'] at h; cases h
          · rw [h'] at h
            cases h
            simp [values]
        · cases hv

end Verif
