# Formal model of pasqal-io/horqrux in Lean 4 — design

The plan was written before the proofs; the later sections are kept current.

## Layers

1. `Verif/Np.lean` — a small model of the numpy/jax array operations horqrux calls. An array is a shape
   (`List Nat`) plus row-major data (`List K`); `reshape`, `transpose`, `moveaxis`, `tensordot`, `kron`,
   `eye`, `matmul`, … follow the numpy definitions, with argument errors as `Except` values.
   Scalars are exact (`K` any commutative star-ring in the array layer, `ℂ`/`ℝ` above): floating point is not modelled.
2. `Verif/Model/*.lean` — function-by-function model of `/repo/horqrux`, each definition citing file and lines.
   Python exceptions are `Except Err`. Python `set` iteration order, `uuid4`, `jax.random` uniforms,
   `jnp.linalg.eigh` and `str(float)` are explicit parameters whose assumed contract is stated where used.
3. `Verif/Spec.lean` — a short specification independent of the code: basis labels `Fin n → Fin 2`,
   the textbook matrix of a (controlled) gate on a register, conjugation, Kraus sums, Born rule.
4. `Verif/Lemmas/*.lean` — refinement proofs model → spec, and linear algebra over the spec.
5. `Verif/Props/*.lean` — the property theorems, one group per file, each with a non-vacuity `example`.

Proof method: one refinement theorem per primitive code path (dense vector, density matrix, sparse, `tensor`,
`expand_operator`), stating that the index bookkeeping of the code computes the spec matrix for every register size and
arity (induction on lists / register size). The user-level properties are then consequences by induction over gate lists
or operation trees, or by real analysis (parameter-shift rules).

## Plan per property

| id | modelled | method |
|----|----------|--------|
| C01, C02 | `apply_operator` (dense), `_controlled`, `is_controlled` | refinement to `gateMat`, all n, k, controls |
| C62, C63 | constructors, `parse_idx`; refusals of `apply_operator` | refinement through the constructor; C63 false: exact condition + witness |
| C64 | `apply_operator` with negative qubit numbers | refinement for vectors; false for density matrices: exact result + witness |
| C65 | parameter-shift gradients of circuits with `HamiltonianEvolution` are refused or right | JVPs refuse: proved; backward pass: exact factor for two-level Hamiltonians, witness of a wrong value |
| C66, C67 | finite-shot `expectation`, `sample` | mean, variance and Chebyshev bound from pairwise independent shots; multinomial law from independent shots |
| C68 | density-matrix `expectation` | exact operator measured for every set order; agreement with state vectors iff Hermitian parts agree |
| C69 | `apply_operator` on density matrices, all integers as qubits, any `np.argsort` | exact acceptance condition and effect |
| C70, C71 | `Observable` of scaled Pauli strings in `expectation`, exact and with shots | refinement to the Pauli sum; spectral bounds by the C*-algebra factorisation of positive matrices |
| C72 | the workflow of `docs/vqe.md`: `hea`, `QuantumCircuit`, `expectation` in three modes, GPSR backward pass | composition of C36, C37, C19–C23, C70, C71 |
| C73 | `run`, `sample`, `expectation` as functions of the values dictionary | congruence by induction over operation trees; witness for the order of `vparams` |
| C74 | the JVP rule of `differentiation/gpsr/analytical.py` applied to itself (`jax.hessian`) | product rule with one angle per gate; induction on the number of directions for all circuits at once |
| C75 | `expectation` as a function of one entry of `values` | each rotation is `I, cos, sin` of half the angle: span of waves closed under products; a polynomial with `2m` zeros too many vanishes |
| C76 | the model classes of `docs/dqc.md` (`hea`, `group_by_index`, `apply_gates`, `inner`) | C07, C12, C20, C75 put together |
| C77 | `parse_values`, `_unitary` and `apply_gates` for array-valued parameters (`Model/ArrayParams.lean`) | numpy broadcasting computed for every shape with at most two axes |
| C78 | `DigitalNoiseInstance.kraus` and `apply_gates` with noise, compared with the laws in `SpecNoiseLaws.lean` | 2×2 blocks of the density matrix (`Lemmas/NoiseEntry.lean`), one normal form for all channels |
| C79 | `apply_gates`, `run`, `sample`, `expectation` on circuits with a gate that does not fit the register | a success of `reduce(apply_operator)` implies that each merged operation fits (`Lemmas/Fit.lean`) |
| C80 | `Primitive.__call__`, `OpSequence.__call__` without a state | false: negation; exact description of the state used; `_partial` when the first gate uses all qubits |
| C81 | `is_parametric` and the classes that read `values` | case analysis; false for `HamiltonianEvolution`: negation |
| C82 | docs/differentiation.md:30-62 (spec `SpecShift.lean`) and the values of `expectation` | expansion in eigenvectors of the generator; C75 and uniqueness of trigonometric polynomials |
| C83 | the example of docs/differentiation.md:116-134 (a rotation as an observable, nested values) | Hermitian part of `gateMat` is diagonal |
| C84 | `run`, `sample`, `expectation`, `apply_gates` of two circuits that differ by one textbook identity | `SameGates` (SpecIdentities.lean): a list of identities between placed gates, each with any further controls; proved between `gateMat`s by writing both sides as one matrix on the two qubits |
| C85 | `expectation` as a function of a parameter vector `dict(zip(names, x))`, `analytical_gpsr_bwd` | Mathlib's `ContDiff`, `HasFDerivAt`; `IsPartial` (AbsGrad.lean); `dictAt` (Props/Smooth.lean) is the dictionary of a vector |
| C86 | `finite_shots` as a function of the parameters, for fixed random numbers | continuity of the probabilities, finitely many thresholds; Mathlib's `HasFDerivAt` |
| C87 | `expectation` of a circuit beside the circuit with all noise removed | `StdNoise.strength`, `SpectrumIn` (SpecNoiseBound.lean); induction over the run: noisy state = noiseless state + positive part - positive part of bounded trace |
| C88 | `expectation` at two parameter dictionaries | a change of an angle by d moves every state by at most d / 2 (difference of positive parts, Lemmas/Lipschitz.lean); Mathlib's `HasDerivAt.le_of_lip'`; for the evolution time, exp(-iHt) moves by at most the norm of H times the change of t (Props/LipschitzEvo.lean), and for two Hamiltonians exp(-iHt) and exp(-iH't) differ by at most the time times the norm of the difference (Props/LipschitzHam.lean) |
| C89 | `expectation`, `run` and `analytical_gpsr_bwd` of a circuit beside its light cone | `coneOf`, `lightCone`, `Observable.ActsOn` (SpecCone.lean); Heisenberg picture: an operator that commutes with all gates on other qubits is pulled back through the channels (Lemmas/Cone.lean) |
| C90 | `run`, `sample`, `expectation`, `overlap`, `equivalent_state` on pairs of states | `IsEffect`, `WithinDist` (SpecOverlap.lean); unitarity of the circuit matrix, linearity of the noisy run, effects pulled back through the Kraus operators |
| C91 | `run`, `sample`, `expectation` and the parameter-shift rules with array values (`jnp.stack`, `squeeze`, `.at[].add`) | numbers: the same functions of Model/Api and Model/Gpsr on scalars (C23, C24 for what those compute) |
| C92 | `jax.jvp` of `expectation` (AD) and `run`: the whole program on nested pairs of value and tangent | analysis: `fderiv`, `deriv`, `iteratedDeriv` of the functions that `expectation` and `run` compute on plain numbers (agreement with Model/Api proved) |
| C93 | `run`, `expectation` and `jax.jvp` with `HamiltonianEvolution` as a function of the time | analysis: `HasDerivAt` with the commutators `vonNeumann`, `heisenberg` of the Hamiltonian on the register (`registerHam`) |
| C94 | `sample` against `expectation` | probability: mean and variance of the averages of functions of bit strings (`SampleResult.mean`, `pauliValue`) |
| C95 | `random_state` as a function of its draws | the set of reachable states, bounds on overlaps, mean probabilities |
| C96 | `validate_permutation_matrix`, `checkify_valid_permutation` on the matrices that `align_eigenvectors` builds | matchings of eigenvectors as permutations; means of the estimates |
| C97 | `jax.jvp` of `expectation` (AD) in the initial state and in the entries of the Hamiltonian | `noisyRun` on the tangent of the state; commutators with the Hamiltonian |
| C98 | `tree_flatten`/`tree_unflatten` under `jax.grad` | pairing of the gradient with a direction; derivatives from C97 |
| C99 | `==` generated by `@dataclass` (`Model/Equality.lean`) | qubits, names, matrix, call and expectation of the two objects |
| C100 | compilation cache (`Model/JitCache.lean`) | the argument the traced program computes with is the one given |
| C101 | `run`, `sample` of circuits of X and SWAP gates | `Logic`, `Logic.act`, `logicRun` (SpecAlgorithms.lean): bits after classical gates; product_state and counts of the computed bits |
| C102 | `run`, `sample` of H, X, Z, PHASE and SWAP gates, `zero_state`, `product_state` | `hadamards`, `ghzCircuit`, `bernsteinVazirani`, `qftCircuit`, `groverCircuit`, `Lab.value`, `Lab.dot` (SpecAlgorithms.lean); closed forms of the amplitudes |
| C103 | `apply_gates` on state vectors with the three numerical operations as parameters (`Arith.run`), and `_ad_expectation_single_observable` for sums of scaled gate sequences with rounded numbers (`Flops.energy`) | `Arith.Accurate`, `ketNorm`, `matOf`, `Gate.UnitaryOn` (SpecRounding.lean), `RoundsTo`, `Flops.Accurate`, `dotError`, `OpsWithin` (SpecFloat.lean), Mathlib's operator norm |
| C104 | `HamiltonianEvolution`, `Add.tensor`, `run` of circuits of standard gates | `pauliRotation`, `trotterCircuit`, `pauliCommutators`, `evolve` (SpecTrotter.lean), `pauliSum` (SpecPauli.lean), `ketNorm`, `TraceNormLe` |
| C105 | `finite_shots_gpsr_backward`, `finite_shots_jvp`, keys | `IndepDraws`, `DistinctKeys`, `DistinctKeysRep`, `usePlaces`, `quantumVariance` (AbsKeys.lean), `SpectrumIn`, `Gate.turned` |
| C106 | `expectation`, `analytical_gpsr_bwd` in a training loop | `IsPartial`, `SpectrumIn`, `useCount`, `smoothness` |
| C107 | `__repr__` of all classes (written or generated by `@dataclass`) | `Op.Alike`, `FloatText`, `Gate.Printable` (AbsPrinting.lean), `Op.PyEq` |
| C108 | `finite_shots_gpsr_backward`, `expectation` | `IsPartial`, `SpectrumIn`, `MutualDraws`, `FreshKeys` (AbsKeys.lean), `FreshKeysRep`, `smoothness`, `gradNoise`, `gradNoiseRep` |
| C109 | `jax.vmap` of `expectation` and `run` (Model/Batch.lean) | `BVal.at`, `BState.at`, `mappedShapes` (the loop over slices) |
| C110 | `loss_fn`, `value_and_grad(loss_fn)` and the training loops of docs/dqc.md (Model/Batch.lean, Model/ReverseLosses.lean) | `fitLoss`, `laplaceLoss`, `gradVec`, `exactStep` with Mathlib's `fderiv`, `iteratedDeriv` |
| C111 | `jax.jit` of `expectation`, `run`, `analytical_gpsr_bwd` with closed-over circuit (Model/Jit.lean) | the plain functions; `IsPartial` |
| C112 | `jax.vjp`, `jax.grad` of `expectation` in mode AD and of `run` (Model/Reverse.lean) | derivatives along directions (AbsReverse.lean), `IsPartial` |
| C113 | `apply_gates` on density matrices with inexact arithmetic (Model/RoundedNoise.lean) | `TraceNormLe`, `ArithDM.Accurate`, `ArithDM.EntryAccurate` (SpecRoundedNoise.lean); `Flops.Accurate`, `KrausWithin`, `noiseError`, `traceError` (SpecFloat.lean) |
| C03 | `merge_operators`, `prepare_sequence_reduce`, `apply_gates` | induction over the gate list, `gateMat` multiplicative |
| C04 | `group_by_index` | false as stated (multi-target gates): prove negation by witness; `_partial` for single-target gates by induction over the stable sort |
| C05–C07 | gate matrices, `dagger` | unitarity by computation in ℂ for all angles; induction over circuits |
| C08 | `apply_operator` (DensityMatrix), `permute_basis`, `_dagger`, `density_mat` | refinement to `M ρ Mᴴ`, for every completion order |
| C09, C10 | `utils_noise.py` | algebra over ℝ/ℂ for all probabilities |
| C11–C13 | `apply_operator_with_noise`, `apply_kraus_*` | refinement to Kraus sums; trace/Hermiticity/PSD by Mathlib |
| C14, C16 | `controlled`, `prepare_controlled`, `expand_operator`, `Primitive.tensor` | refinement of mask/axis code to `gateMat` |
| C15 | `OpSequence.tensor` | false (product in listing order): negation by witness, `_partial` for the true order |
| C17, C18 | `Add`, `Scale`, `Observable` | structural; C18 false: negation + `_partial` |
| C19–C22 | `expectation`, AD/adjoint/GPSR forward values | refinement; C21/C22 false in corners: negation + `_partial` |
| C23–C25, C61 | GPSR code, `spectral_gap` | real analysis (`HasDerivAt`); C24/C25/C61 false in corners: negation + `_partial`; error terms of C25 for all circuits |
| C26–C28 | `sample`, `sample_from_probs` with the jax `choice` algorithm over given uniforms | induction, Lebesgue measure |
| C29, C54 | `shots.py` with `eigh` as contract | linear algebra |
| C30, C31, C52 | state constructors, `overlap`, `probabilities` | algebra; C31 false: negation + `_partial` |
| C32, C33 | BCOO model as coordinate lists | refinement `todense`; C33 false in corners |
| C34 | flatten/unflatten functions under JAX's calling convention | equality; false for `QuantumCircuit`, `HamiltonianEvolution` |
| C35, C36 | `hea`, `vparams`, `param_names` | induction |
| C37, C38, C46–C50 | decision logic of the API | case analysis |
| C39, C40, C41 | `jacobian`, `HamiltonianEvolution`, rotations | `HasDerivAt`, matrix exponential, trig identities |
| C42–C45, C51 | circuits | spec-level linear algebra |
| C53 | `apply_kraus_operator` with partial targets | false: negation; `_partial` full support; exact result for all distinct targets (`Lemmas/KrausExact.lean`) |
| C57 | `gpsr/shots.py` | relate every random run to the exact run of C23/C24 (`Lifts`), linearity of the mean |
| C58 | `new_named_parametric` | false: witness for all parameter values |
| C59 | `tensor` on sparse operations | relation sparse/dense along the tree; false for products |
| C60 | `apply_gates` with `op_type=JACOBIAN` | `HasDerivAt`; exact characterisation, false with controls |
| C55 | adjoint backward rule | false (loop runs zero times): negation; value of the repaired loop for all circuits |

## Trusted base

* Lean's kernel (the build is `lake build`; no compiled code is trusted: no `native_decide`, no `bv_decide`, no
  `implemented_by`, no `unsafe`).
* The axioms `propext`, `Classical.choice` and `Quot.sound`. `#print axioms` gives exactly these three for every theorem
  listed in `MANIFEST.json`; the development adds none.
* The reading of the code: each definition in `Verif/Model` cites the lines it models and says where it simplifies.
* The specification: `Spec.lean`, `SpecGates.lean`, `SpecNoise.lean`, `SpecNoiseLaws.lean`, `SpecPauli.lean`, `SpecStates.lean`, `SpecShots.lean`, `SpecShift.lean`, `SpecIdentities.lean`, `SpecNoiseBound.lean`, `SpecCone.lean`, `SpecOverlap.lean`, `SpecAlgorithms.lean`, `SpecRounding.lean`, `SpecFloat.lean`, `SpecTrotter.lean` (textbook objects), and the `Abs*.lean`
  files (how gates, operation trees, gradients and sparse runs of the model are read in that vocabulary).
* The numpy/JAX layer `Np.lean`. It is a definition, not an axiom; the facts about JAX that it and the models rely on are
  listed under "Assumptions about JAX and Python".

## What is modelled

| source in `/repo/horqrux` | module |
|---|---|
| numpy/jax arrays: reshape, transpose, moveaxis, tensordot, matmul, kron, eye, conj, add, dot, trace | `Np.lean` |
| `utils/operator_utils.py`: `_dagger`, `_controlled`, `controlled`, `prepare_controlled`, `permute_basis`, `expand_operator`, `is_controlled`, `density_mat`, `_unitary`, `_jacobian` | `Model/OperatorUtils.lean`, `Model/Gates.lean` |
| `utils/operator_utils.py`: state constructors, `inner`, `overlap`, `equivalent_state`, `is_normalized`, `probabilities`, `num_qubits` | `Model/States.lean`, `Model/Api.lean` |
| `apply.py`: `apply_operator` (array, density matrix), Kraus application, noise, grouping, merging, `apply_gates` | `Model/Apply.lean`, `Model/ApplyGates.lean` |
| `apply.py`: `apply_operator` (array, density matrix) with negative qubit numbers | `Model/NegIndex.lean` |
| `noise/` | `Model/Noise.lean` |
| `primitives/`, `matrices.py`, `analog.py` | `Model/Gates.lean` |
| `composite/`, `circuit.py` (`QuantumCircuit`, `hea`) | `Model/Composite.lean`, `Model/Hea.lean` |
| `api.py`, `differentiation/ad.py`, forward passes, `utils/values_utils.py` | `Model/Api.lean` |
| `shots.py`, sampling with JAX's `choice` | `Model/Shots.lean`; the discarded alignment check: `Model/AlignCheck.lean` |
| `differentiation/gpsr/` (backward and JVP rules, spectral gaps, shifts, shifting and stacking array values) | `Model/Gpsr.lean` |
| `differentiation/gpsr/shots.py` (finite-shot forward, backward and JVP rules, key splitting) | `Model/GpsrShots.lean` |
| repeated differentiation of `analytical_gpsr_fwd` (the custom rule applied to its own calls; the order in which JAX sorts dictionary keys is left open: every order is covered) | `Model/GpsrHigher.lean` |
| array-valued parameters: `parse_values`, `Parametric._unitary`, `PHASE._unitary`, `HamiltonianEvolution._unitary` and `apply_gates` (operators with at most two axes; op types UNITARY and DAGGER) | `Model/ArrayParams.lean` |
| array values in `run`, `sample`, `expectation` and the JVP rules of the parameter-shift modes (stacking, `squeeze`, shifting rows; values of size one, `Scale` factors are numbers) | `Model/ArrayValues.lean` |
| `jax.jvp` of `run` and of `expectation` in AD mode, in the parameters, the entries of the Hamiltonian and the entries of the initial state: the code executed on (nested) pairs of value and tangent with JAX's rule for each scalar operation and for `expm` | `Model/Trace.lean` |
| `differentiation/adjoint.py` (forward and backward rule) | `Model/Adjoint.lean` |
| `tree_flatten` / `tree_unflatten` of all registered classes, and `jax.jit` as a pytree round trip, `jax.grad` as a pytree round trip with the leaves replaced by derivatives | `Model/Pytree.lean` |
| the `==` generated by `@dataclass` (numbers are compared exactly; `DensityMatrix` is left out, its arrays have no truth value) | `Model/Equality.lean` |
| `__repr__` of all classes, written or generated by `@dataclass` (texts are lists of characters; the texts of floats and numpy integers are parameters) | `Model/Printing.lean` |
| the compilation cache of `jax.jit` as used by `jitted_analytical_exp` and `jitted_finite_shots` (`differentiation/gpsr/`): structures compared with `==`, leaves taken from the new call | `Model/JitCache.lean` |
| `utils/conversion.py` (`to_sparse`, `to_dense`) | `Model/Conversion.lean` |
| `apply_gates` with inexact arithmetic, given by the matrix operations (`Arith`) or by additions and multiplications of numbers in any order of summation (`Flops`) | `Model/Rounding.lean` |
| expectation values of sums of scaled gate sequences in state vectors with inexact arithmetic | `Model/RoundedEnergy.lean` |
| `apply_gates` on density matrices, with noise, with inexact arithmetic; `apply_operator` on density matrices, `expand_operator`, `apply_kraus_operator` the sum over Kraus operators, `density_mat` and `_ad_expectation_single_observable` on density matrices with rounded numbers | `Model/RoundedNoise.lean` |
| `jax.vmap` of `expectation` and `run`; the loss functions of docs/dqc.md | `Model/Batch.lean` (assumes that the batching rules of JAX act at every position of the batch) |
| `jax.jit` of `expectation`, `run` and `analytical_gpsr_bwd` with a closed-over circuit | `Model/Jit.lean` (a program is identified with the function that it computes; recompilation depends on names and shapes only) |
| `jax.vjp` and `jax.grad` of `expectation` in mode AD and of `run` (reverse mode) | `Model/Reverse.lean` (every number is a value with its pullback; the order in which cotangents are added up is not modelled; the rule of `expm` is the transpose of its derivative) |
| `value_and_grad(loss_fn)` and the training loops of docs/dqc.md | `Model/ReverseLosses.lean` (one entry of the array of parameters for every name; any optimizer) |
| the `BCOO` code paths of all of the above | `Model/Sparse.lean`, `Model/SparseTensor.lean` (`tensor` of trees) |

## Not modelled (common to all properties)

Overflow, underflow, fused operations and the accuracy of sine and cosine (`Model/Rounding.lean` covers any arithmetic of a given accuracy, and rounding to `p` bits with unbounded exponents, for noiseless runs, `Model/RoundedNoise.lean` for noisy runs and expectation values on density matrices; `Model/RoundedEnergy.lean` for expectation values of sums of scaled gate sequences), dtypes, hashes and retracing for other dtypes or shapes in the compilation cache (`Model/JitCache.lean` covers the comparison of structures), `vmap` along other axes than the first, over arrays of size one or with empty batches (`Model/Batch.lean` covers the rest), GPU behaviour, array-valued
parameters with more than one entry outside `apply_gates` and in Jacobians, numpy broadcasting between arrays of different shapes outside
`Model/ArrayParams.lean` (reported as `unsupported`), negative qubit
numbers outside `apply_operator` (modelled for it in `Model/NegIndex.lean`), the tracing machinery of JAX's autodiff (its forward rules are modelled in `Model/Trace.lean`, its transpose rules for `expectation` and `run` in
`Model/Reverse.lean`, for the losses of the documentation in `Model/ReverseLosses.lean`), derivatives in array-valued parameters or `BCOO` operators, the PRNG (only its output range is used), performance, the example notebooks.

## Assumptions about JAX and Python

* Array primitives behave as defined in `Np.lean`; scalars are exact.
* `sorted`/`list.sort` are stable. `np.argsort` is only used on distinct numbers, where its result is unique (`C69_distinct`);
  C69 treats repeated ones with an arbitrary order of ties. The iteration order of a `set` is an arbitrary function of the set (`SetOrder`).
* The derivative rules of JAX for sum, product, conjugation, real part, `sin`, `cos`, `exp` and `expm` (the Fréchet derivative, computed from
  the exponential of a block matrix) are the ones in `Tracer.dual` (Model/Trace); that they are the right rules of calculus is proved (C92), that JAX uses them is assumed.
* `uuid4` never repeats (`fresh` is injective).
* `jax.random.choice(key, a, (n,), p=p)` is inverse-transform sampling over a cumulative sum with given uniforms.
* JAX keys are an arbitrary type with an arbitrary `split`; for the mean of an estimate only the law of each single draw matters
  (`UniformDraws`: the numbers drawn with any key are uniform on [0, 1)), not their joint law. C66 and C67 assume that the numbers
  drawn for one call are pairwise independent (`PairwiseUniform`) or independent (`IndepUniform`).
* `jnp.linalg.eigh` returns real eigenvalues in increasing order and a unitary eigenvector matrix (`Eigh`); nothing is
  assumed about the choice of eigenvectors in degenerate eigenspaces.
* `jax.scipy.linalg.expm` is `NormedSpace.exp`.
* `jax.jit` flattens and unflattens its pytree arguments and is otherwise transparent; unregistered classes raise TypeError.
* `jax.lax.fori_loop` traces its body with an abstract index, also for zero iterations (the other case is covered as well).
* `BCOO` arrays are coordinate lists; the layout of results (order, merged duplicates, padding) is an arbitrary `Layout`
  with the right dense content. `jnp.tensordot` and `jnp.matmul` refuse `BCOO` arguments
  outside `sparsify`; `sparsify(jnp.kron)`, `BCOO + BCOO` and scalar multiples work. JAX is not in the sandbox, so these are assumptions.
* Indices out of range in `.at[idx].set` are dropped. `.at[(1, 1)].set(x)` raises ValueError if `x` has an axis.
* Arithmetic on arrays follows numpy's broadcasting rule; incompatible shapes raise an error (its kind is not used by C77).

## Findings: where the code does not do what the properties say

Each is a theorem (negation with a witness, or for all inputs), and the property keeps a `_partial` theorem.

1. `group_by_index` sorts a batch by the target tuple, so it can reorder gates that do not commute (C04). `C04_pair_iff` says exactly when two uncontrolled gates are affected.
2. `OpSequence.tensor` multiplies in listing order, `__call__` executes in the reverse matrix order (C15, C22, C29).
3. `Scale(Add([A, B]))` flattens its argument with `list()`, giving a scaled product (C18).
4. `OpSequence.__iter__` drops `Scale` factors and turns `Add` into a sequence, and `expectation` uses it (C21).
5. `OpSequence.qubit_support` is an unsorted set; the density-matrix expectation uses it as target order (C22).
6. `Primitive.tensor` ignores the target order of gates with unsorted targets (C14: `HamiltonianEvolution`; the exported
   two-qubit gates are symmetric).
7. `apply_kraus_operator` with targets other than `(0, …, k-1)` is wrong (C53): the column side always acts on the first qubits, and a
   single target other than qubit 0 is treated as qubit 1 on the row side.
8. Noise on gates with several targets always raises (C50); noise with sparse states raises NotImplementedError (C50).
9. `_jacobian` adds and multiplies entrywise (C39); for sparse gates it raises (C32).
10. The adjoint backward rule is never called, its loop runs zero times, tracing makes it raise, and its accumulator starts
    with `None` (C55). With both repaired it is right for uncontrolled `PHASE` gates and still wrong for rotations (one half of
    the derivative for `RX` on `|0⟩` and `Z`), because of finding 9. `diff_mode=ADJOINT` raises AttributeError for noisy circuits (C20).
11. GPSR: the backward rule raises for `PHASE` (C23); unused keys of `values` give zero gradients or ValueError (C24); controlled
    rotations get a wrong gradient, whose error is computed for all circuits (C25); observables containing a `QuantumCircuit` silently become the identity in the
    backward pass (C23).
12. `overlap` is `Re(⟨a|b⟩²)` (C31).
13. `QuantumCircuit.tree_flatten` swaps children and auxiliary data; `HamiltonianEvolution` loses its shift; `_PHASE` is not
    registered (C34).
14. `to_sparse`/`to_dense` keep only the first operation of a `Scale`, drop feature parameters and shifts (C33).
15. `param_names` lists numeric constants and omits `Scale` parameters (C36).
16. `Primitive.n_qubits` is wrong for several targets or controls (C49).
17. `apply_gates(state, [])` raises TypeError (C46); `sample` on a density matrix and a circuit without gates changes the
    caller's object (C47).
18. `SQRTSWAP`, `ISWAP` and `ISQRTSWAP` raise KeyError (C48).
19. Nested `values` work only in AD mode without shots (C38); ADJOINT ignores `n_shots` (C37).
20. `hea(1, …)` contains `NOT(0, 0)` (C35).
21. `probabilities(DensityMatrix)` needs a `(d, d)` array (C52).
22. The `checkify` error for non-commuting observables is discarded: every such pair is estimated with a bias in some state.
    Commuting ones can be wrong too, also when their eigenvectors agree up to phases: the value read off is the eigenvalue if
    the real part of the phase exceeds 1/2 and 0 otherwise (C54).  Raising the error would not settle this: the check accepts
    some biased pairs (`Z(0)`, `H(0)`) and refuses some right ones (`Z(0)`, `I(0)`), depending on what `eigh` returns (C96).
23. `numpy.int64` controls are silently ignored (C56). A numpy integer next to a Python
    integer in the same tuple does count. `merge_operators` compares controls with `==`, for which numpy and Python integers
    are equal, and keeps the control of the last gate: a numpy control takes effect, or a Python control is lost, depending
    on the gate that follows, so that merging changes the result (`C56_merge_false`).
24. A `PHASE` gate whose parameter name is shared, or that occurs in a circuit with a shared name, becomes a global phase in the
    renamed circuit of the JVP, so its derivative is silently dropped (C58).
25. A sparse gate on a dense state raises TypeError; sampling a sparse state raises NotImplementedError (C32).
26. `tensor` of a sequence of two or more sparse operations raises TypeError, since `jnp.matmul` refuses `BCOO` (C59).
27. With `op_type=JACOBIAN`, controlled gates act as the identity, not as zero, where a control is 0 (C60).
28. For shared parameters, the JVP takes the spectral gap of the last gate of a name for all its gates: if a controlled and an
    uncontrolled gate share a name, it differs from the backward pass and is wrong even for the uncontrolled gate (C61).
29. On a density matrix, a gate with a qubit outside the register is accepted if the gate uses every qubit of the register and
    its list of controls and targets is increasing: `X(1, control=0)` on one qubit turns `|1⟩⟨1|` into `|1⟩⟨0|` (C63).
30. A negative qubit number counts from the end on state vectors, but on density matrices a one-qubit gate on any negative
    number acts on qubit 0, and larger gates are refused or act on the first qubits (C64).
31. The documentation does not support `HamiltonianEvolution` in GPSR mode.  The JVP rules raise an error for such circuits, but
    the backward rule `analytical_gpsr_bwd` returns a number for the derivative with respect to the time: `sin(pi d/2)/d`
    times the derivative if the Hamiltonian has two eigenvalues at distance `d` -- 0 for every product of Pauli matrices
    (C65).
32. A repeated qubit can be accepted on density matrices: with a stable `np.argsort`, `X(0, control=0)` acts as `X(1, control=0)`
    on every density matrix of two or more qubits; on state vectors it raises an error (C69).
33. `QuantumCircuit.vparams` is documented as a list of names but is a set, so `dict(zip(circuit.vparams, vals))`, used throughout
    the documentation, assigns the numbers to the parameters in an order that depends on string hashes: the same circuit and
    the same list of numbers can give different energies in two Python processes (C73). The gradient is still that of the
    energy computed in the same process (C72).
34. Parameters cannot be batched, but `values = {"a": array([x, y])}` is accepted: broadcasting puts `x` into the first column and
    `y` into the second column of the matrix of the gate, which is not unitary (C77). `PHASE` refuses arrays of shape `(1,)`, which the
    other rotations accept.
35. `docs/noise.md` prints the closure property as `Σ K K† = 1`, which fails for amplitude damping (`Σ K† K = 1` is the one that
    holds), and prints the operator `K₁` of generalized amplitude damping with `√γ` at the bottom right; the code has it at the top
    right (C78).
36. Calling a circuit without a state ignores its number of qubits: the initial state is a zero state with as many qubits as the
    first gate has, so `QuantumCircuit(2, [X(0), X(1)])()` raises and `QuantumCircuit(2, [X(0)])()` returns one qubit (C80).
37. `HamiltonianEvolution.is_parametric` is False although its matrix is read from `values` (C81), so that no gradient rule of the
    library sees its parameters.
38. The documentation's example of a parametrised observable measures `RZ`, which is not Hermitian: only the Hermitian part counts, so that
    the value is `cos(y/2)` for every circuit and state (C83).
39. In AD mode with shots the gradient is silently zero with probability one (C86); the documentation warns that automatic
    differentiation does not apply, but nothing raises.
40. The JVP rules of the parameter-shift modes stack all values into one array: values of different shapes, such as a number and an
    array of shape `(1,)`, are refused although `expectation` accepts them (C91_mixed).
41. With values of shape `(1, 1)` the same rules `squeeze` to the wrong number of axes and shift all values at once, which gives the
    wrong derivative without an error (C91_matrix_wrong).
42. `random_state` draws moduli and phases with the same key, so the phases are functions of the moduli and whole regions of states are
    never returned (C95_gap).
43. `DensityMatrix` and the operation classes put their numbers into the auxiliary data of their pytrees, so `jax.grad` with respect to such
    an object silently returns the object itself, whatever function is differentiated (C98).
44. `==` does not compare the parameter of a `Scale` nor the `n_qubits` and `fparams` of a `QuantumCircuit`, and identifies numpy
    and Python integers among the controls: `Scale(X(0), 2) == Scale(X(0), 3)` (C99).
45. Functions compiled by `jax.jit` compare the static data of their arguments with `==`. Since the array of a `DensityMatrix` is static,
    the backward parameter-shift rules raise ValueError when called a second time with another density matrix; and a gate with a
    numpy control, once traced, replaces the equal gate with a Python control (C100).
46. The text of a gate shows neither its noise nor its storage format, that of a `Scale` not its factor, and names of parameters are shown without
    quotes, so that `RX("0.5", 0)` prints like `RX(0.5, 0)` (C107).
47. The default key is the same in every call, so a training loop that does not pass new keys reuses the same random numbers and may stop for ever
    where the gradient is not zero (C108).
48. The array of a `DensityMatrix` is auxiliary data of the pytree, not a leaf (utils/operator_utils.py:38-41), so `vmap(run)` of a noisy circuit
    returns an object that holds a leaked tracer, and a `DensityMatrix` argument is never mapped (`C109_run`).
49. Dictionaries are pytrees with sorted keys, so the compiled `analytical_gpsr_bwd` returns the gradient in the order of the sorted names, not in
    that of the dictionary that it is called with (`C111_bwd_false`); the compiled `run` of a noisy circuit returns an object that holds a leaked
    tracer (`C111_run`).

Also noticed while reading and not stated as properties: the docstring example of `SWAP` builds a nested target that cannot be
applied; `random_state` is seeded by the number of qubits only; `product_state` with a digit above 1 is the zero array
(`C30_digit_above_one`); `PauliChannel` accepts more than three probabilities; `eigenvals_generator` uses `2**len(control)` with
a control that always has length 1; `spectral_gap_from_gates` raises for every non-empty list of parameters.

## Checks on the theorems

* Every theorem has a concrete `example` beside it that meets its hypotheses, unless it has none or is itself a witness.
* `seeded/LOG.jsonl` records mutations: wrong programs made by editing the model in a scratch copy, with the theorems that
  stop holding. Theorems that survived a mutation falsifying their English claim were tightened; the log says which.

## Status

`MANIFEST.json` is the list of theorems per property. `proved`: the statement holds of the model for all inputs. `partial`: the
statement as written is false of the code (negation proved) or part of it is missing; the note says which.
