{"id": "C01", "title": "Gate application computes the textbook amplitudes", "statement": "Applying a 2^k x 2^k operator to a state vector of n qubits with apply_operator/apply_gates, with target tuple ts and control tuple cs, returns a state vector of the same shape whose amplitude at basis label b is: if every control bit of b is 1, the sum over all labels b' that agree with b outside ts of U[bits of b at ts, bits of b' at ts] * psi[b']; otherwise psi[b] unchanged.", "quantifier": "every register size n, operator size k, target order, number and order of control qubits, every operator and every state", "why_tests_cant": "tests use at most 7 qubits, random single targets and one control; axis bookkeeping (reshape, tensordot, moveaxis) must be right for every arity and order", "anchors": ["horqrux/apply.py: apply_operator (Array)", "horqrux/utils/operator_utils.py: _controlled, is_controlled"]}
{"id": "C02", "title": "Controls only gate the operation", "statement": "A controlled gate leaves every amplitude whose label has some control bit 0 exactly as it was, its effect does not depend on the order in which the control qubits are listed, and with no control (None or (None,)) it is the plain gate.", "quantifier": "every gate, register, state, and permutation of the control tuple", "why_tests_cant": "infinitely many control tuples; tests check one control", "anchors": ["horqrux/utils/operator_utils.py: _controlled, is_controlled", "horqrux/apply.py: apply_operator"]}
{"id": "C03", "title": "Merging adjacent operators never changes the result", "statement": "apply_gates(state, gates, merge_ops=True) returns the same state as apply_gates(state, gates, merge_ops=False).", "quantifier": "every list of well-formed noiseless gates, parameter values, operation type (unitary or dagger) and state (vector or density matrix)", "why_tests_cant": "holds for every gate sequence of every length; one test sequence exists", "anchors": ["horqrux/apply.py: merge_operators, prepare_sequence_reduce, apply_gates"]}
{"id": "C04", "title": "Grouping gates by qubit never changes the result", "statement": "apply_gates(state, gates, group_gates=True) returns the same state as group_gates=False.", "quantifier": "every list of well-formed gates and every state", "why_tests_cant": "depends on commutation of every pair that the stable sort reorders", "anchors": ["horqrux/apply.py: group_by_index, apply_gates"]}
{"id": "C05", "title": "The dagger operation type inverts a circuit", "statement": "Applying a list of gates and then the reversed list with op_type=DAGGER (same values) returns the original state.", "quantifier": "every list of gates built by the public constructors, all angles, controls and states", "why_tests_cant": "all circuits and angles", "anchors": ["horqrux/primitives/primitive.py: Primitive.dagger", "horqrux/apply.py: apply_gates", "horqrux/utils/operator_utils.py: _dagger"]}
{"id": "C06", "title": "Circuits preserve the norm", "statement": "Running a noiseless circuit of public gates on a state vector preserves the sum of squared moduli of its amplitudes.", "quantifier": "every circuit, angle assignment and state", "why_tests_cant": "all circuits", "anchors": ["horqrux/apply.py: apply_gates", "horqrux/api.py: run"]}
{"id": "C07", "title": "Every public gate is unitary", "statement": "The operator of I, X/NOT, Y, Z, H, S, T, SWAP, RX, RY, RZ and PHASE is unitary, for every angle and shift.", "quantifier": "every gate and every real angle", "why_tests_cant": "angles range over the reals", "anchors": ["horqrux/matrices.py", "horqrux/primitives/parametric.py: Parametric, _PHASE", "horqrux/utils/operator_utils.py: _unitary"]}
{"id": "C08", "title": "Density-matrix simulation agrees with state-vector simulation", "statement": "For noiseless circuits, running the circuit on density_mat(psi) gives density_mat of running it on psi; in general a gate maps rho to M rho M^dagger with M the full-register matrix of the gate.", "quantifier": "every circuit, register, state vector and density matrix, every enumeration order of the Python set used to complete the axis permutation", "why_tests_cant": "axis permutations over 2n axes for every n, arity and order", "anchors": ["horqrux/apply.py: apply_operator (DensityMatrix), apply_gates", "horqrux/utils/operator_utils.py: density_mat, permute_basis, _dagger"]}
{"id": "C09", "title": "Noise channels are trace preserving", "statement": "For every accepted error probability the Kraus operators of each DigitalNoiseType satisfy sum K^dagger K = 1.", "quantifier": "all seven noise types and all real probabilities in their accepted range", "why_tests_cant": "continuum of probabilities", "anchors": ["horqrux/noise/utils_noise.py", "horqrux/noise/noise.py: DigitalNoiseInstance.kraus"]}
{"id": "C10", "title": "Noise probabilities are validated exactly", "statement": "Asking for the Kraus operators raises ValueError exactly when a probability lies outside [0,1] (or the Pauli probabilities sum to more than 1), and otherwise succeeds, for well-typed arguments.", "quantifier": "all real probabilities and tuples", "why_tests_cant": "continuum of inputs including boundaries", "anchors": ["horqrux/noise/utils_noise.py"]}
{"id": "C11", "title": "Noisy simulation keeps physical states physical", "statement": "Running any circuit of noisy or noiseless public gates, Hamiltonian evolutions with Hermitian matrices included, preserves trace, Hermiticity and positive semidefiniteness of the density matrix. A Hamiltonian evolution preserves the trace at all times exactly when its matrix is Hermitian.", "quantifier": "every circuit, noise tuple, register and density matrix", "why_tests_cant": "all circuits and channels", "anchors": ["horqrux/apply.py: apply_operator_with_noise, apply_kraus_sum, apply_gates"]}
{"id": "C12", "title": "Channels act as documented", "statement": "A gate with a noise tuple maps rho to the noise channels applied in tuple order, on the target qubit only, after the gate; BitFlip/PhaseFlip/Depolarizing/PauliChannel give the documented convex mixtures of Pauli conjugations and the damping channels the documented Kraus sums.", "quantifier": "all noise tuples, targets, registers and density matrices", "why_tests_cant": "all channels, all probabilities, all registers", "anchors": ["horqrux/apply.py: apply_operator_with_noise, apply_kraus_operator, apply_kraus_sum", "horqrux/noise/utils_noise.py"]}
{"id": "C13", "title": "Zero error probability is noiseless", "statement": "A gate whose noise instances all have error probability zero acts on a density matrix (or state vector) exactly as the noiseless gate.", "quantifier": "all gates, registers and states, all seven noise types (GeneralizedAmplitudeDamping for damping rate zero)", "why_tests_cant": "all states", "anchors": ["horqrux/apply.py: apply_operator_with_noise"]}
{"id": "C14", "title": "A gate's tensor() is the matrix of applying it", "statement": "For a gate g on a register of n qubits, g.tensor(values, full_support=range(n)) times the flattened state equals the flattened result of apply_gates(state, g, values); more generally tensor over any support containing the gate's qubits is the gate's matrix on the sorted support.", "quantifier": "every gate, control tuple, support and state", "why_tests_cant": "controlled() and expand_operator() use bit masks and axis permutations that must agree with tensordot for all placements", "anchors": ["horqrux/primitives/primitive.py: Primitive.tensor, qubit_support", "horqrux/utils/operator_utils.py: controlled, prepare_controlled, expand_operator, permute_basis"]}
{"id": "C15", "title": "A sequence's tensor() is the matrix of running it", "statement": "OpSequence.tensor(values, full_support) times the flattened state equals the flattened result of running the sequence.", "quantifier": "every sequence and state", "why_tests_cant": "all sequences, order of non-commuting factors", "anchors": ["horqrux/composite/sequence.py: OpSequence.tensor, __call__"]}
{"id": "C16", "title": "expand_operator fills identities and rejects small supports", "statement": "expand_operator(op, support, full) is the operator acting as op on the (sorted) support and as identity elsewhere, raises ValueError exactly when support is not contained in full, and expanding in two steps equals expanding once.", "quantifier": "all operators, supports and full supports (arbitrary, non-contiguous integers)", "why_tests_cant": "all supports", "anchors": ["horqrux/utils/operator_utils.py: expand_operator, permute_basis, hilbert_reshape"]}
{"id": "C17", "title": "Add, Scale and Observable act linearly", "statement": "Calling Add (or Observable.forward) returns the sum of its operations applied to the state; calling Scale on one operation returns the parameter times the operation applied to the state; both are linear in the state vector.", "quantifier": "all operation trees, values and states", "why_tests_cant": "all nestings", "anchors": ["horqrux/composite/compose.py: Scale, Add, Observable"]}
{"id": "C18", "title": "Scaling a sum scales the sum", "statement": "Scale(Add([A, B, ...]), c) applied to a state returns c times (A + B + ...) applied to the state, as the class documentation promises for Sequence and Add arguments.", "quantifier": "all Add arguments, parameters and states", "why_tests_cant": "all operation lists", "anchors": ["horqrux/composite/compose.py: Scale.__init__, __call__", "horqrux/composite/sequence.py: OpSequence.__iter__"]}
{"id": "C19", "title": "expectation returns the quantum expectation value", "statement": "With diff_mode AD and n_shots=0, expectation returns, per observable in order, Re <psi|O|psi> at the circuit's output state vector (Re tr(O rho) for density matrices); for Hermitian observables this is the exact expectation.", "quantifier": "all circuits, observables, values and states", "why_tests_cant": "all inputs", "anchors": ["horqrux/api.py: expectation", "horqrux/differentiation/ad.py"]}
{"id": "C20", "title": "All differentiation modes agree on the forward value", "statement": "With n_shots=0 and flat values, expectation returns the same values (or raises the same way) for diff_mode AD, ADJOINT and GPSR on state vectors, and for AD and GPSR on density matrices.", "quantifier": "all circuits, observables, values and states", "why_tests_cant": "all inputs", "anchors": ["horqrux/api.py: expectation, adjoint_expectation", "horqrux/differentiation/adjoint.py", "horqrux/differentiation/gpsr/analytical.py: analytical_expectation"]}
{"id": "C21", "title": "expectation evaluates the circuit that run executes", "statement": "expectation(state, circuit, [O], values) equals the expectation of O in run(circuit, state, values).", "quantifier": "all circuits, including nested sequences, Scale and Add", "why_tests_cant": "all nestings", "anchors": ["horqrux/api.py: run, expectation", "horqrux/composite/sequence.py: OpSequence.__iter__, __call__"]}
{"id": "C22", "title": "Expectations of a pure state agree between vector and density-matrix simulation", "statement": "expectation(density_mat(psi), circuit, obs, values) equals expectation(psi, circuit, obs, values) for noiseless circuits.", "quantifier": "all circuits, observables, values and states, every Python set iteration order", "why_tests_cant": "set iteration order and operator order are not controlled by tests", "anchors": ["horqrux/differentiation/ad.py: _ad_expectation_single_observable", "horqrux/composite/sequence.py: qubit_support, tensor"]}
{"id": "C23", "title": "GPSR gradient of singly-used parameters is exact", "statement": "For circuits where every parameter is used by at most one uncontrolled RX/RY/RZ/PHASE gate, the parameter-shift gradient (analytical_gpsr_bwd and the jvp of analytical_gpsr_fwd) equals the true derivative of the expectation.", "quantifier": "all such circuits, with any other gates, noise, observables, values and states", "why_tests_cant": "derivatives are compared at sampled points with tolerance in tests", "anchors": ["horqrux/differentiation/gpsr/analytical.py", "horqrux/differentiation/gpsr/gpsr_utils.py"]}
{"id": "C24", "title": "GPSR gradient of repeated parameters is exact", "statement": "For circuits of uncontrolled RX/RY/RZ gates in which a parameter name is shared by several gates, the GPSR gradient equals the true derivative (sum over occurrences).", "quantifier": "all circuits, values dictionaries and states", "why_tests_cant": "all sharing patterns", "anchors": ["horqrux/differentiation/gpsr/analytical.py", "horqrux/differentiation/gpsr/gpsr_utils.py: prepare_param_gates_seq, alter_gate_sequence, extract_gate_names"]}
{"id": "C25", "title": "GPSR gradient of controlled rotations is exact", "statement": "The GPSR gradient with respect to the angle of a controlled rotation equals the true derivative (the documentation excludes only Scale and HamiltonianEvolution).", "quantifier": "all circuits with controlled rotations", "why_tests_cant": "all circuits", "anchors": ["horqrux/primitives/parametric.py: spectral_gap, eigenvals_generator", "horqrux/differentiation/gpsr/analytical.py"]}
{"id": "C26", "title": "Sampling returns a well-formed histogram", "statement": "sample(state, circuit, values, n_shots) raises ValueError iff n_shots < 1; otherwise the returned Counter's keys are distinct n-character bitstrings, counts are positive, and they sum to n_shots.", "quantifier": "all circuits, states, shot numbers and all random draws", "why_tests_cant": "all random seeds", "anchors": ["horqrux/api.py: sample", "horqrux/utils/operator_utils.py: sample_from_probs, probabilities"]}
{"id": "C27", "title": "Sampling follows the Born rule", "statement": "Each shot returns bitstring b only if its probability is non-zero, and the set of uniform draws that yield b has measure equal to |amplitude of b|^2 for normalised states (diagonal of rho for density matrices).", "quantifier": "all states, registers and uniform draws", "why_tests_cant": "statements about every draw and exact probabilities", "anchors": ["horqrux/utils/operator_utils.py: sample_from_probs, probabilities"]}
{"id": "C28", "title": "Bit order is consistent between product_state and sample", "statement": "product_state(b) is the unit vector at label b, running an X on qubit q flips exactly character q, and sampling product_state(b) returns only the key b.", "quantifier": "all bitstrings, registers and shot numbers", "why_tests_cant": "all bitstrings", "anchors": ["horqrux/utils/operator_utils.py: product_state, zero_state, sample_from_probs"]}
{"id": "C29", "title": "Finite-shot estimation is unbiased and bounded", "statement": "For one Hermitian observable, the probabilities used by finite_shots are non-negative and sum to the squared norm (trace), the mean of the sampled eigenvalues under them is exactly the expectation value, and every estimate lies between the smallest and largest eigenvalue.", "quantifier": "all circuits, states, Hermitian observables, draws, and every eigendecomposition returned by eigh", "why_tests_cant": "all draws and decompositions", "anchors": ["horqrux/shots.py: finite_shots, eigen_sample, eigen_probabilities, align_eigenvectors"]}
{"id": "C30", "title": "State constructors return normalised states", "statement": "product_state, zero_state, uniform_state and random_state return arrays with n axes of length 2 and squared norm 1.", "quantifier": "all register sizes and all random draws", "why_tests_cant": "all sizes", "anchors": ["horqrux/utils/operator_utils.py: product_state, zero_state, uniform_state, random_state"]}
{"id": "C31", "title": "overlap is the fidelity", "statement": "overlap(a, b) equals |<a|b>|^2, so equivalent_state identifies states that differ by a global phase.", "quantifier": "all pairs of states", "why_tests_cant": "all states and phases", "anchors": ["horqrux/utils/operator_utils.py: overlap, equivalent_state, inner, is_normalized"]}
{"id": "C32", "title": "Sparse simulation equals dense simulation", "statement": "Running a noiseless circuit with sparse=True on a sparse state and densifying the result equals the dense run on the densified inputs.", "quantifier": "all circuits, coordinate representations (including duplicate and unsorted coordinates) and states", "why_tests_cant": "all coordinate layouts", "anchors": ["horqrux/apply.py: apply_operator (BCOO), apply_gates (BCOO)", "horqrux/utils/operator_utils.py: _controlled (BCOO), _unitary (BCOO)"]}
{"id": "C33", "title": "to_sparse and to_dense preserve meaning", "statement": "to_sparse/to_dense on gates, sequences, Scale, Add, Observable and QuantumCircuit change only the storage format: same operations, same parameters, same feature parameters, and to_dense(to_sparse(x)) behaves as x.", "quantifier": "all operation trees", "why_tests_cant": "all trees", "anchors": ["horqrux/utils/conversion.py"]}
{"id": "C34", "title": "Pytree flattening round-trips", "statement": "Flattening and unflattening (as jax.tree_util and jit do) a gate, sequence, Scale, Add, Observable, QuantumCircuit, noise instance or density matrix returns an equal object.", "quantifier": "all objects", "why_tests_cant": "all objects", "anchors": ["horqrux/primitives/primitive.py: tree_flatten, tree_unflatten", "horqrux/circuit.py: tree_flatten, tree_unflatten", "horqrux/analog.py"]}
{"id": "C35", "title": "hea builds a valid ansatz", "statement": "hea(n, layers, rot_fns) returns layers*n*(len(rot_fns)+n) gates, all qubit indices in range with control different from target, and pairwise distinct parameter names with the given prefix. A rotation function whose gates have no parameter raises an AttributeError.", "quantifier": "all n, layer counts and rotation lists", "why_tests_cant": "all sizes", "anchors": ["horqrux/circuit.py: hea"]}
{"id": "C36", "title": "vparams lists exactly the trainable parameters", "statement": "QuantumCircuit.vparams is the set of parameter names used by the circuit's gates minus fparams, and n_vparams its size; fixed numeric angles are not parameters.", "quantifier": "all circuits", "why_tests_cant": "all circuits", "anchors": ["horqrux/circuit.py: vparams, n_vparams", "horqrux/composite/sequence.py: param_names"]}
{"id": "C37", "title": "expectation validates its arguments", "statement": "Negative n_shots raises ValueError (AD, GPSR), an unknown diff_mode raises ValueError, a density matrix with ADJOINT raises TypeError, an empty list of observables is refused (ValueError with n_shots = 0), and no other path is taken.", "quantifier": "all argument combinations", "why_tests_cant": "all combinations", "anchors": ["horqrux/api.py: expectation"]}
{"id": "C38", "title": "Circuit and observable parameter values can be separated", "statement": "When values has the two keys circuit and observables, expectation evaluates the circuit with the first dictionary and the observables with the second; otherwise the same dictionary is used for both.", "quantifier": "all dictionaries and differentiation modes", "why_tests_cant": "all dictionaries", "anchors": ["horqrux/utils/values_utils.py: _values_processing", "horqrux/api.py: expectation", "horqrux/differentiation/ad.py"]}
{"id": "C39", "title": "A parametric gate's jacobian is the derivative of its unitary", "statement": "For RX, RY, RZ and PHASE, jacobian(values) is the entrywise derivative of the gate's unitary with respect to its angle.", "quantifier": "all angles", "why_tests_cant": "all angles", "anchors": ["horqrux/primitives/parametric.py: Parametric.jacobian, _PHASE.jacobian", "horqrux/utils/operator_utils.py: _jacobian"]}
{"id": "C40", "title": "HamiltonianEvolution is Schroedinger evolution", "statement": "For Hermitian H, HamiltonianEvolution applies the unitary exp(-i H t); evolving for s then t equals evolving for s+t; t=0 is the identity; the field shift is added to the time; without a time or a Hamiltonian, or with one that is not a square matrix, an error is raised.", "quantifier": "all Hamiltonians, times, registers and states", "why_tests_cant": "all Hamiltonians", "anchors": ["horqrux/analog.py"]}
{"id": "C41", "title": "Rotation gates compose additively and parameters are substituted faithfully", "statement": "RX/RY/RZ/PHASE with angle a followed by angle b on the same qubits (same controls) equals the gate with angle a+b; a named parameter with value x equals the numeric angle x; a missing name raises KeyError; a name whose value is a nested dictionary raises TypeError.", "quantifier": "all angles, controls, registers and states", "why_tests_cant": "all angles", "anchors": ["horqrux/primitives/parametric.py: Parametric, parse_values", "horqrux/utils/operator_utils.py: _unitary"]}
{"id": "C42", "title": "Gates on disjoint qubits commute", "statement": "Two gates whose qubit supports are disjoint can be applied in either order with the same result, for state vectors and (noisy) density matrices.", "quantifier": "all gates, registers and states", "why_tests_cant": "all supports", "anchors": ["horqrux/apply.py: apply_gates"]}
{"id": "C43", "title": "Gates act locally on measurement statistics", "statement": "A (unitary or noisy) gate, or a circuit of such gates and Hamiltonian evolutions, does not change the joint probability distribution of the qubits outside its support.", "quantifier": "all gates, registers and states", "why_tests_cant": "all states", "anchors": ["horqrux/apply.py: apply_gates", "horqrux/utils/operator_utils.py: probabilities"]}
{"id": "C44", "title": "Simulation is linear in the state vector", "statement": "For noiseless gates apply_gates(a*psi + b*phi) = a*apply_gates(psi) + b*apply_gates(phi).", "quantifier": "all gate lists, states and complex coefficients", "why_tests_cant": "all states", "anchors": ["horqrux/apply.py: apply_gates"]}
{"id": "C45", "title": "Running nested sequences equals running the flattened gate list", "statement": "For OpSequence/QuantumCircuit trees with at least one gate, run equals applying list(iter(circuit)) with apply_gates, and running two circuits one after the other equals running their concatenation.", "quantifier": "all nestings", "why_tests_cant": "all nestings", "anchors": ["horqrux/composite/sequence.py", "horqrux/api.py: run"]}
{"id": "C46", "title": "The empty circuit is the identity everywhere", "statement": "An empty circuit leaves the state unchanged in run, sample and expectation.", "quantifier": "all states and observables", "why_tests_cant": "edge case over all states", "anchors": ["horqrux/composite/sequence.py", "horqrux/apply.py: prepare_sequence_reduce"]}
{"id": "C47", "title": "sample does not modify its input state", "statement": "Calling sample leaves the caller's state (array or DensityMatrix object) unchanged.", "quantifier": "all circuits and states", "why_tests_cant": "aliasing over all circuits", "anchors": ["horqrux/api.py: sample"]}
{"id": "C48", "title": "Every exported gate constructor yields a usable gate", "statement": "Each gate constructor exported by horqrux.primitives returns a gate that can be applied.", "quantifier": "all exported constructors", "why_tests_cant": "finite table but every state", "anchors": ["horqrux/primitives/primitive.py: SQRTSWAP, ISWAP, ISQRTSWAP", "horqrux/matrices.py: OPERATIONS_DICT"]}
{"id": "C49", "title": "A gate reports its qubits correctly", "statement": "gate.qubit_support is the sorted tuple of its distinct target and control qubits and gate.n_qubits is its length; name has prefix C iff it is controlled.", "quantifier": "all gates", "why_tests_cant": "all target and control tuples", "anchors": ["horqrux/primitives/primitive.py: n_qubits, qubit_support, name"]}
{"id": "C50", "title": "Noise is refused where unsupported", "statement": "Noisy gates on sparse states raise NotImplementedError, and noise on gates with several targets is either simulated correctly or refused.", "quantifier": "all gates and states", "why_tests_cant": "all gates", "anchors": ["horqrux/apply.py: apply_gates (BCOO), apply_operator_with_noise"]}
{"id": "C51", "title": "Simulation is equivariant under relabelling of qubits", "statement": "Relabelling all qubits of the gates by a permutation and permuting the axes of the state the same way permutes the axes of the result.", "quantifier": "all permutations, gate lists and states", "why_tests_cant": "all permutations", "anchors": ["horqrux/apply.py: apply_gates"]}
{"id": "C52", "title": "probabilities is a probability distribution", "statement": "probabilities(state) has 2^n non-negative entries summing to 1 for normalised state vectors and for density matrices of trace 1, in label order.", "quantifier": "all states", "why_tests_cant": "all states", "anchors": ["horqrux/utils/operator_utils.py: probabilities"]}
{"id": "C53", "title": "Kraus application is defined for any target subset", "statement": "apply_kraus_operator(K, rho, target) returns K rho K^dagger with K acting on the given target qubits.", "quantifier": "all targets and density matrices", "why_tests_cant": "all targets", "anchors": ["horqrux/apply.py: apply_kraus_operator"]}
{"id": "C54", "title": "Multi-observable finite-shot estimates are consistent", "statement": "finite_shots with several commuting observables returns for each observable an estimate whose mean is its expectation, and refuses observables that do not share an eigenbasis.", "quantifier": "all lists of observables and eigendecompositions", "why_tests_cant": "all decompositions", "anchors": ["horqrux/shots.py: align_eigenvectors, permutation_matrix, checkify_valid_permutation"]}
{"id": "C55", "title": "The adjoint backward rule returns the gradient", "statement": "The custom adjoint backward rule returns for every parameter the derivative of the expectation.", "quantifier": "all circuits", "why_tests_cant": "all circuits", "anchors": ["horqrux/differentiation/adjoint.py: adjoint_expectation_single_observable_bwd"]}
{"id": "C56", "title": "Control qubits may be numpy integers", "statement": "A control (or target) qubit given as numpy.int64, which the constructors accept, means the same as the equal Python int.", "quantifier": "all gates, qubits and states", "why_tests_cant": "the wrong branch gives a well-formed gate; every state must be compared", "anchors": ["horqrux/primitives/primitive.py: parse_idx", "horqrux/utils/operator_utils.py: is_controlled"]}
{"id": "C57", "title": "Finite-shot parameter-shift gradients are unbiased", "statement": "With n_shots > 0, the backward rule and the JVP of the finite-shot expectation return unbiased estimates of the exact derivatives, for every number of shots and every key.", "quantifier": "all circuits, states, observables, parameter values, keys and numbers of shots", "why_tests_cant": "a bias is invisible in a single random estimate; the mean over all random numbers is an integral", "anchors": ["horqrux/differentiation/gpsr/shots.py: finite_shots_gpsr_backward", "horqrux/differentiation/gpsr/shots.py: finite_shots_jvp", "horqrux/shots.py: finite_shots"]}
{"id": "C58", "title": "PHASE gates keep their derivative when a parameter is shared", "statement": "The parameter-shift JVP returns the derivative of the expectation also for circuits in which a PHASE gate shares its parameter name with another gate.", "quantifier": "all circuits and parameter values", "why_tests_cant": "a finite set of parameter values can hit zeros of the difference", "anchors": ["horqrux/differentiation/gpsr/gpsr_utils.py: new_named_parametric", "horqrux/differentiation/gpsr/analytical.py: analytical_gpsr_jvp"]}
{"id": "C59", "title": "Matrices of sparse operations equal the dense ones", "statement": "tensor(values, full_support) of an operation built from sparse gates returns a sparse matrix with the entries of the matrix of the same dense operation, whenever that exists.", "quantifier": "all trees of noiseless sparse gates, parameter values, supports and sparse layouts", "why_tests_cant": "all trees, supports and coordinate layouts", "anchors": ["horqrux/primitives/primitive.py: Primitive.tensor", "horqrux/utils/operator_utils.py: expand_operator, controlled (BCOO), permute_basis (BCOO)", "horqrux/composite/sequence.py: OpSequence.tensor", "horqrux/composite/compose.py: Scale.tensor, Add.tensor"]}
{"id": "C60", "title": "Applying a gate with op_type JACOBIAN differentiates the state", "statement": "apply_gates(state, gate, values, op_type=OperationType.JACOBIAN) is the derivative, with respect to the angle of a rotation gate, of apply_gates(state, gate, values); for gates without an angle it raises AttributeError.", "quantifier": "all rotation gates, targets, controls, angles and states", "why_tests_cant": "all angles and states; derivatives are limits", "anchors": ["horqrux/apply.py: apply_gates, apply_operator", "horqrux/primitives/parametric.py: Parametric.jacobian, _PHASE.jacobian"]}
{"id": "C61", "title": "Forward and backward parameter-shift gradients agree", "statement": "For every circuit of standard gates with named parameters that survives jax.jit, analytical_gpsr_bwd and analytical_gpsr_jvp compute the same gradient: there are numbers G_p (one list per parameter, one entry per observable) such that the backward pass returns the sums of G_p and the JVP returns sum_p t_p G_p for all tangents t.", "quantifier": "all circuits, controls, noise, states, observables, parameter values and tangents", "why_tests_cant": "all circuits, parameter values and tangents", "anchors": ["horqrux/differentiation/gpsr/analytical.py: analytical_gpsr_bwd, analytical_gpsr_jvp", "horqrux/differentiation/gpsr/gpsr_utils.py: create_renamed_operators", "horqrux/primitives/parametric.py: spectral_gap"]}
{"id": "C62", "title": "Gate constructors read their qubit arguments as documented", "statement": "Every exported gate constructor called with its target as an int or a tuple and its control as None, (None,), an int or a tuple of ints (or left out) gives a gate that acts on state vectors and density matrices as the textbook gate on exactly those targets and controls; with noise=(...) on a one-qubit gate it is followed by these channels in order on the target; a wrong number of targets, a repeated qubit or a qubit outside the register is refused when the gate is applied to a state vector.", "quantifier": "all constructors, all target and control arguments of the documented forms, all registers, states and parameter values", "why_tests_cant": "all combinations of argument forms, registers and states", "anchors": ["horqrux/primitives/primitive.py: Primitive.__post_init__, parse_idx", "horqrux/primitives/parametric.py", "horqrux/apply.py: apply_operator"]}
{"id": "C63", "title": "Qubits outside the register are refused on density matrices", "statement": "Applying a gate with the wrong number of targets, or with a target or control that is not a qubit of the register, to a density matrix raises an error, as it does for a state vector.", "quantifier": "all gates, targets, controls and density matrices", "why_tests_cant": "all combinations of qubits and register sizes; only some of them are accepted by mistake", "anchors": ["horqrux/apply.py: apply_operator (DensityMatrix)", "horqrux/utils/operator_utils.py: permute_basis"]}
{"id": "C64", "title": "Negative qubit numbers mean the same on state vectors and density matrices", "statement": "apply_operator accepts the qubit numbers -n, ..., n-1 and reads a negative number as the qubit counted from the end of the register, as numpy axes are read; numbers outside that range, or two numbers for the same qubit, are refused; state vectors and density matrices agree.", "quantifier": "all operators, registers, states, and integer targets and controls", "why_tests_cant": "all combinations of signs, registers and states; the tests only use natural numbers", "anchors": ["horqrux/apply.py: apply_operator", "horqrux/utils/operator_utils.py: permute_basis", "horqrux/primitives/primitive.py: parse_idx"]}
{"id": "C65", "title": "GPSR gradients of circuits with Hamiltonian evolutions are refused or right", "statement": "For a circuit with a HamiltonianEvolution, which the documentation declares unsupported in GPSR mode, the JVP rules of the exact and of the finite-shot expectation raise an error, and the backward rule raises an error or returns the partial derivatives, with respect to the evolution time and to the parameters of the other gates.", "quantifier": "all circuits containing a Hamiltonian evolution, values, states and observables (backward rule: one uncontrolled evolution between standard gates, Hamiltonians with two eigenvalues)", "why_tests_cant": "continuous parameters, all Hamiltonians and all circuits; no test differentiates such a circuit in GPSR mode", "anchors": ["docs/differentiation.md: Usage restrictions", "horqrux/differentiation/gpsr/analytical.py: analytical_gpsr_bwd", "horqrux/differentiation/gpsr/analytical.py: analytical_gpsr_jvp", "horqrux/differentiation/gpsr/shots.py: finite_shots_jvp", "horqrux/analog.py: HamiltonianEvolution"]}
{"id": "C66", "title": "Statistical errors fall with the number of shots", "statement": "With k pairwise independent shots, the estimate of expectation for an observable with Hermitian matrix O (as multiplied by tensor()) has mean tr(O rho) and variance (tr(O^2 rho) - tr(O rho)^2)/k at the output rho of run, and the count of a bit string in sample has mean k p and variance k p (1-p); so deviations of at least c have probability at most variance/c^2.", "quantifier": "all noisy circuits of standard gates, states, Hermitian observables, numbers of shots, and all probability spaces with pairwise independent uniform numbers", "why_tests_cant": "a statement about the distribution of all random draws and all numbers of shots; tests compare single runs with loose tolerances", "anchors": ["horqrux/shots.py: finite_shots", "horqrux/shots.py: eigen_sample", "horqrux/api.py: sample"]}
{"id": "C67", "title": "Sampled histograms are multinomially distributed", "statement": "With k independent shots of a normalised output state, sample returns the counts c with probability k!/prod(c_b!) prod(p_b^c_b), where p_b is the probability of the bit string b.", "quantifier": "all circuits that run, normalised outputs (vectors and density matrices), numbers of shots, count vectors, and all probability spaces with independent uniform numbers", "why_tests_cant": "a statement about the joint distribution of all draws", "anchors": ["horqrux/api.py: sample", "horqrux/utils/operator_utils.py: probabilities"]}
{"id": "C68", "title": "What expectations on density matrices measure", "statement": "On a density matrix, expectation (AD, no shots) returns Re tr(O' rho), where O' is the observable with all sequences multiplied in listing order and with its i-th smallest qubit renamed to the i-th qubit in set-iteration order; it agrees with the state-vector value on all pure inputs exactly if O' and the observable O have the same Hermitian part; on registers of at most 8 qubits no qubit is renamed.", "quantifier": "all circuits of gates (noisy for the value, noiseless for the equivalence), density matrices, lists of observables, and set iteration orders", "why_tests_cant": "depends on the iteration order of Python sets, which the tests exercise only for small registers where it is increasing, and the equivalence quantifies over all input states", "anchors": ["horqrux/differentiation/ad.py: _ad_expectation_single_observable", "horqrux/composite/sequence.py: OpSequence.qubit_support", "horqrux/composite/compose.py: Add.tensor"]}
{"id": "C69", "title": "Which qubit numbers a gate accepts on density matrices, and what it then does", "statement": "On an n-qubit density matrix, a gate whose controls and targets are distinct qubits of the register is applied, whatever order np.argsort gives to equal keys and Python to set elements; any other integers (repeated, negative, too large) are refused unless np.argsort leaves 'controls, targets, remaining qubits' in place, in particular if a smaller qubit of the register is unused, and if they are accepted the gate acts on the first qubits.", "quantifier": "all integers as controls and targets, operators, density matrices, sorting functions with np.argsort's documented behaviour, and set iteration orders", "why_tests_cant": "np.argsort's treatment of equal keys and set order are implementation details that vary between platforms; tests see one of them and only valid qubits", "anchors": ["horqrux/apply.py: apply_operator", "horqrux/utils/operator_utils.py: permute_basis"]}
{"id": "C70", "title": "A Hamiltonian written as scaled Pauli strings is measured as that Hamiltonian", "statement": "For Observable([Scale(string, c), ...]), where each string is a Pauli gate or an OpSequence of Pauli gates on distinct qubits, the exact expectation is <psi|H|psi> with H = sum c_k P_k at the output psi of run; this number is real. With at most 8 qubits the same holds for density matrices and noisy circuits, as tr(H rho).", "quantifier": "all numbers of qubits, lists of real coefficients and Pauli strings (any length, any listing order), circuits, values, states; density matrices: up to 8 qubits, CPython's order of sets of small integers", "why_tests_cant": "the Hamiltonians of tests are a few literals on a few qubits, compared with another simulator up to rounding", "anchors": ["docs/vqe.md", "horqrux/composite/compose.py: Observable", "horqrux/composite/compose.py: Scale", "horqrux/api.py: expectation"]}
{"id": "C71", "title": "Variational principle", "statement": "For a normalised pure or mixed state, any circuit of standard gates (noisy or not) and Hamiltonian evolutions, and an observable that is Hermitian, the returned expectation lies between the smallest and the largest eigenvalue of the observable; so does every finite-shot estimate, whatever the random numbers.", "quantifier": "all qubit numbers, circuits, noise, states (positive, trace one), Hermitian observables, shot numbers, random draws", "why_tests_cant": "a statement about all parameter values; optimisers in tests visit a few of them", "anchors": ["docs/vqe.md", "horqrux/api.py: expectation", "horqrux/differentiation/gpsr/shots.py: finite_shots_fwd"]}
{"id": "C72", "title": "The VQE workflow of the documentation computes the energy and its exact gradient", "statement": "For QuantumCircuit(n, hea(n, L)) with values dict(zip(names, vals)), names any enumeration of the circuit's variational parameters, a normalised state vector and a Pauli Hamiltonian H: expectation returns E = <psi|H|psi> at the normalised output psi in modes AD, GPSR and ADJOINT; E is at least the ground-state energy; the GPSR backward pass returns exactly the partial derivatives of E.", "quantifier": "all n >= 2, L >= 1, lists of rotations without PHASE, enumerations of the parameter names, real values, Pauli Hamiltonians, normalised states, fresh-name supplies", "why_tests_cant": "end-to-end statement for all sizes and angles; tests check a single molecule to a few digits", "anchors": ["docs/vqe.md", "horqrux/circuit.py: hea, QuantumCircuit.vparams", "horqrux/api.py: expectation", "horqrux/differentiation/gpsr/analytical.py"]}
{"id": "C73", "title": "Results depend only on the dictionary entries that are read, not on its order", "statement": "run, sample and expectation (every mode, exact or with shots) give the same result or the same error for two dictionaries that agree on the parameter names occurring in the circuit and the observables (and, in mode AD without shots, on the keys 'circuit' and 'observables'); in particular for two orders of the same dictionary. But the documented recipe dict(zip(circuit.vparams, vals)) does depend on the iteration order of the set vparams.", "quantifier": "all circuits, observables, states, dictionaries, modes, shot numbers, draws", "why_tests_cant": "quantifies over all extra entries and all orders; string hashes change from one Python process to the next", "anchors": ["horqrux/circuit.py: QuantumCircuit.vparams", "horqrux/api.py", "horqrux/composite/sequence.py", "horqrux/primitives/parametric.py", "docs/vqe.md"]}
{"id": "C74", "title": "Derivatives of any order of the GPSR mode are exact", "statement": "Differentiating the GPSR expectation values repeatedly (jax.hessian, nested jax.grad: the custom JVP rule applied to its own calls of analytical_gpsr_fwd, with new temporary names each time) in any list of directions gives the exact iterated directional derivatives of the expectation values; the Hessian entries are the partial derivatives of the partial derivatives and the Hessian is symmetric.", "quantifier": "all circuits of standard gates (noise, mixed states, controls on fixed gates) whose parameters are each used by one uncontrolled rotation or PHASE, or in which parameters of RX/RY/RZ are repeated and every value is used; all observables, values, lists of directions, fresh-name supplies", "why_tests_cant": "all orders of differentiation and all circuits; the tests compare one Hessian with a tolerance", "anchors": ["horqrux/differentiation/gpsr/analytical.py:161-248", "docs/vqe.md", "tests/differentiation/test_gpsr.py"]}
{"id": "C75", "title": "Expectation values are trigonometric polynomials of each parameter", "statement": "As a function of one parameter used by m gates (rotations or PHASE; rotations without controls), each expectation value returned in an exact mode is a trigonometric polynomial of degree at most m: it has period 2*pi and is determined by its values at 2m+1 points. With controlled rotations the same holds with half-integer frequencies and period 4*pi, and 2*pi is not enough. A feature map [RX(p, i) for i in range(k)] contributes degree k.", "quantifier": "all circuits of standard gates (noise, mixed states), observables, states, values, parameter names; modes GPSR, AD, and ADJOINT on state vectors", "why_tests_cant": "a statement on all real parameter values and all circuits; tests evaluate a few angles", "anchors": ["horqrux/api.py: expectation", "horqrux/primitives/parametric.py", "docs/dqc.md"]}
{"id": "C76", "title": "The DQC models of the documentation compute the mean magnetization of their circuit", "statement": "FunctionFitter and PDESolver of docs/dqc.md (feature-map gates and hardware-efficient ansatz grouped by index, apply_gates, inner product with the sum of Z observables, real part) return <psi|sum_q Z_q|psi> of the normalised output state; run and expectation give the same value in modes AD, GPSR and ADJOINT; it lies in [-k, k] for k observable qubits; in each input it is a trigonometric polynomial whose degree is the number of feature gates reading it, in each trainable parameter one of degree 1.", "quantifier": "all n >= 2 qubits and L >= 1 layers, lists of rotations without PHASE, feature maps, inputs, parameter values, normalised initial states, fresh-name supplies, set orders", "why_tests_cant": "end-to-end statement for all inputs; the documentation fits one function on one grid", "anchors": ["docs/dqc.md:41-67", "docs/dqc.md:158-198", "horqrux/circuit.py: hea", "horqrux/apply.py: group_by_index, apply_gates"]}
{"id": "C77", "title": "Array-valued parameters act as numbers if they have size one, and are never a batch", "statement": "apply_gates gives the same result or error if numbers in values are replaced by arrays of size one with at most two axes (PHASE: without axes; with axes it raises ValueError). A rotation whose parameter is an array with an axis of length other than 1 and 2 is refused. An array [x, y] is accepted silently: each column of the 2x2 matrix uses its own angle, so that the amplitudes with target bit 0 are rotated by x and those with target bit 1 by y; for RX the result keeps all norms iff sin((x-y)/2) = 0.", "quantifier": "all circuits of fixed gates, rotations, PHASE and HamiltonianEvolution, noise, states, density matrices, options, op types UNITARY and DAGGER, angles", "why_tests_cant": "tests pass arrays of shape (1,) only, for a single circuit", "anchors": ["horqrux/utils/operator_utils.py:147-151", "horqrux/primitives/parametric.py:48-55,202-207", "horqrux/analog.py:28-31", "tests/differentiation/test_gpsr.py:34-37", "tests/test_analog.py:45-50"]}
{"id": "C78", "title": "Algebra of noise channels", "statement": "Consecutive channels of one kind in a noise tuple act as one channel with the textbook parameter (bit flips p+q-2pq, depolarizing p+q-4pq/3, damping p+q-pq, Pauli channels by convolution, generalized amplitude damping with averaged p), bit flip, phase flip and depolarizing noise are Pauli channels, amplitude damping is generalized amplitude damping with p=1, phase damping is a phase flip with probability (1-sqrt(1-g))/2. Two channels commute for all states iff drift*(1-shrink') = drift'*(1-shrink). Noise maps the mean of Z on its target from z to shrink*z+drift. The maximally mixed state is kept, and the purity never increased, exactly by noise without drift. Loss of phase in the last gate changes no outcome probability. X with bit flip noise p on a product state gives the flipped string with probability 1-p. The formulas printed in docs/noise.md are compared with the code: sum K K^dagger = 1 holds iff there is no drift, and the printed generalized amplitude damping is that of the code iff p = 0 or gamma = 0.", "quantifier": "all circuits of gates of any class with any accepted noise, all states and density matrices, all numbers of qubits, all accepted probabilities", "why_tests_cant": "real parameters and states; the laws are identities between channels", "anchors": ["horqrux/noise/utils_noise.py:9-257", "horqrux/apply.py:243-281", "docs/noise.md:18-75,92-107"]}
{"id": "C79", "title": "Circuits with a gate that does not fit the register are refused", "statement": "For a state vector, apply_gates (any grouping and merging) accepts a non-empty list of noiseless standard gates exactly when every gate has as many targets as its matrix needs and its controls and targets are distinct qubits of the register; run accepts a circuit under the same condition, also when it contains Hamiltonian evolutions (the matrix in values must then have the size of their targets); with one gate that does not fit, sample and expectation raise in every mode and for every number of shots.", "quantifier": "all registers, circuits (nested or not), state vectors, observables, shots, random numbers", "why_tests_cant": "positions of the bad gate, register sizes and circuits are unbounded", "anchors": ["horqrux/apply.py:34-104,298-427", "horqrux/api.py:25-162"]}
{"id": "C80", "title": "Calling an operation without a state starts from the zero state of the register", "statement": "Calling a circuit without a state gives what running it on zero_state of its register gives.", "quantifier": "all circuits of gates", "why_tests_cant": "tests call without a state for a few single gates only", "anchors": ["horqrux/primitives/primitive.py:56-61", "horqrux/composite/sequence.py:32-33", "horqrux/circuit.py:27-32"]}
{"id": "C81", "title": "is_parametric says whether a gate reads the dictionary of values", "statement": "gate.is_parametric is True exactly when the gate's matrix depends on values; the name it reads is then the one that the gradient code differentiates by, and without that name the gate raises KeyError.", "quantifier": "all gates, parameters, targets, controls, noise and dictionaries", "why_tests_cant": "the property is only used inside the gradient code and depends on the class and the parameter of the gate", "anchors": ["horqrux/primitives/primitive.py:154-156", "horqrux/primitives/parametric.py:133-135", "horqrux/analog.py:28-31"]}
{"id": "C82", "title": "The generalised parameter-shift rule of the documentation gives the derivative", "statement": "For f(x) = <psi|U(x)^dagger C U(x)|psi> with U(x) = exp(-i x G/2) and Hermitian G, a solution R of the linear system of docs/differentiation.md for all spectral gaps and shifts with a regular sine matrix gives f'(x) = sum_s Delta_s R_s. Applied to the expectation values that the code returns, the rule with gaps 2,4,..,2m and any distinct shifts in (0, pi) is exact in a parameter used by m rotations without controls, and with gaps 1,..,2m and distinct shifts in (0, 2 pi) with any controls; for one controlled rotation (f(x+pi/2)-f(x-pi/2))/2 - (sqrt(2)-1)/4 (f(x+pi)-f(x-pi)) is the derivative.", "quantifier": "all generators, cost operators, states, gaps, shifts; all circuits of standard gates with noise, observables, parameters, modes without shots", "why_tests_cant": "spectra, shifts and numbers of gates are unbounded and the derivative is a limit", "anchors": ["docs/differentiation.md:30-62", "horqrux/differentiation/gpsr/gpsr_utils.py:65-79"]}
{"id": "C83", "title": "What a rotation gate measures when it is used as an observable", "statement": "expectation measures the Hermitian part (O+O^dagger)/2 of an observable O. For Observable([g]) with a rotation g by theta it returns |psi|^2 - (1-cos(theta/2)) P, P the probability that all controls of g are 1 (PHASE: cos(theta), controls and target 1); without controls this is cos(theta/2) times the norm, whatever the circuit, also with noise and on density matrices. So in the documentation's example of a parametrised observable the derivative with respect to the observable's parameter is -sin(y/2)/2 and does not depend on the circuit.", "quantifier": "all circuits, states, angles, controls, nested or flat values", "why_tests_cant": "the independence from the circuit and the state cannot be sampled", "anchors": ["docs/differentiation.md:116-134", "horqrux/differentiation/ad.py", "horqrux/composite/compose.py:109-146"]}
{"id": "C84", "title": "Textbook circuit identities hold in every circuit", "statement": "Replacing consecutive noiseless gates of a circuit according to a textbook identity (self-inverse gates, SS=Z, TT=S, HXH=Z, HZH=X, Y from S and X, Z/S/T as phase gates, conjugated rotations, periods 4 pi and 2 pi, swap as three controlled nots, swap conjugation, symmetric controlled Z and phase, controlled not from controlled Z and its reversal, propagation of X and Z through a controlled not, controlled phase as controlled RZ and a phase on the control; each with any further controls) changes neither the output of apply_gates and run nor the counts of sample nor the values of expectation.", "quantifier": "all registers, qubits, additional controls, angles; all gates before and after, with any noise; state vectors and density matrices; all modes, shots and random numbers", "why_tests_cant": "placements, controls, surrounding circuits and angles are unbounded", "anchors": ["horqrux/primitives/primitive.py", "horqrux/primitives/parametric.py", "horqrux/apply.py:133-265", "horqrux/api.py:25-162"]}
{"id": "C85", "title": "Expectation values are smooth in all parameters, with the returned gradient as differential", "statement": "As a function of all parameters together, every value returned by expectation without shots is infinitely differentiable (analytic); its differential is the sum over the parameters of the partial derivatives, so that every sufficiently small step against a non-zero gradient, in particular the list returned by analytical_gpsr_bwd for circuits with single-use parameters, lowers the energy.", "quantifier": "all circuits of standard gates with any controls and standard noise, all observables, pure and mixed states, all modes without shots (GPSR descent: parameters used by at most one uncontrolled rotation), all parameter values", "why_tests_cant": "smoothness, differentials and small-step descent are limits over a continuum of parameter vectors, in any number of parameters", "anchors": ["horqrux/api.py:94-162", "horqrux/differentiation/gpsr/analytical.py", "horqrux/primitives/parametric.py"]}
{"id": "C86", "title": "Finite-shot estimates are locally constant, so automatic differentiation of them returns zero", "statement": "For given random numbers the values that expectation returns with shots are functions of the parameters which, at every parameter vector and with probability one, do not change under small changes of the parameters: their derivative is zero whatever the derivative of the expectation value (the documentation's warning that automatic differentiation does not apply with shots).", "quantifier": "all circuits of standard gates with any controls and standard noise, all physical states, all observables without parameters, all numbers of shots, AD and GPSR mode, all parameter vectors, all laws of the random numbers with uniform marginals", "why_tests_cant": "local constancy with probability one is a statement about all random numbers and all neighbourhoods; a test sees one seed", "anchors": ["horqrux/shots.py:68-184", "horqrux/api.py:122-134", "docs/differentiation.md:8-12"]}
{"id": "C87", "title": "Noise changes an expectation value by at most its strength times the spread of the observable", "statement": "In every mode without shots, removing all noise from a circuit changes the returned expectation value of an observable whose eigenvalues lie in [lo, hi] by at most (sum of the strengths of all channels) * (hi - lo), where the strength is the error probability (bit flip, phase flip, depolarizing, Pauli channel), the damping rate (amplitude damping, generalized amplitude damping), or (1 - sqrt(1 - gamma)) / 2 (phase damping). If there is no amplitude damping the factor improves to the probability 1 - prod (1 - strength) that at least one error occurs. Both bounds also hold, with automatic differentiation on density matrices and state vectors, for circuits that contain Hamiltonian evolutions with Hermitian matrices. Equality is attained for every strength.", "quantifier": "all circuits of standard gates with any controls and any number of standard noise channels per gate, all physical pure and mixed initial states, all lists of fixed Hermitian observables, all parameter values, AD, adjoint and GPSR mode", "why_tests_cant": "a bound over all noisy circuits, states and observables at once; a test sees single circuits and would not notice a channel that is slightly too strong", "anchors": ["horqrux/noise/utils_noise.py:9-257", "horqrux/apply.py:243-281", "horqrux/api.py:63-134", "docs/noise.md:18-75,92-107"]}
{"id": "C88", "title": "Expectation values are Lipschitz in the parameters with constant (number of uses) times half the spread of the observable", "statement": "In every mode without shots, changing the parameters of a circuit changes the returned expectation value of an observable whose eigenvalues lie in [lo, hi] by at most (hi - lo) / 2 * sum over parameters p of (number of gates that use p) * |change of p|; hence every partial derivative with respect to p is at most (number of gates that use p) * (hi - lo) / 2 in modulus. The bound is attained. On density matrices and state vectors, changing the time of Hamiltonian evolutions with a Hermitian matrix H changes the value of an observable read as O by at most 2 * norm(O) * (number of Hamiltonian evolutions) * norm(H) * |change of the time|. Hence the derivative with respect to the time is at most 2 * norm(O) * (number of Hamiltonian evolutions) * norm(H) in modulus, and this is attained. Replacing the Hermitian matrix H by H' changes the value by at most 2 * norm(O) * (number of Hamiltonian evolutions) * |time| * norm(H' - H).", "quantifier": "all circuits of standard gates with any controls and any standard noise, all physical pure and mixed states, all lists of fixed Hermitian observables, all pairs of parameter vectors, AD, adjoint and GPSR mode", "why_tests_cant": "a bound for all pairs of parameter vectors and all circuits; a test can only sample pairs, and a wrong factor in an angle (theta instead of theta / 2) changes every constant", "anchors": ["horqrux/primitives/parametric.py:18-240", "horqrux/api.py:63-134", "horqrux/apply.py:243-281"]}
{"id": "C89", "title": "Only the light cone of an observable matters", "statement": "Let the observables act on the qubits S only. Expectation values are the same for the circuit and for the circuit of the gates in the backward light cone of S (a gate is in the cone if it shares a qubit with S or with a later gate of the cone), in every mode without shots; they do not depend on parameters that no gate of the cone uses, the derivatives with respect to such parameters are 0, and the GPSR gradient returns exactly 0 for them (parameters used once). After run, the joint distribution of the outcomes on S is the same for the circuit and its cone.", "quantifier": "all circuits of standard gates with any controls and any standard noise (also on gates outside the cone), all pure and mixed states, all lists of fixed observables (sums, products, scaled), all parameter values, AD, adjoint and GPSR mode", "why_tests_cant": "a statement about all circuits of any depth and all sets of qubits; an error in how a control, a noise channel or an axis is addressed leaks influence across qubits only for particular layouts", "anchors": ["horqrux/apply.py:68-300", "horqrux/api.py:63-162", "horqrux/differentiation/gpsr/analytical.py:60-130"]}
{"id": "C90", "title": "Circuits preserve overlaps, ignore global phases, respect mixtures and never increase distinguishability", "statement": "Running one noiseless circuit on two state vectors keeps their inner product, so inner, overlap and equivalent_state answer the same before and after. Multiplying the input state vector by a global phase changes neither the density operator or the probabilities of the output of run, nor the counts of sample, nor the result of expectation in any mode and for any number of shots. If a state is the combination p s + q t of two states, then the output of run and the exact expectation values are the same combinations of those of s and t. If no measurement distinguishes two states with an advantage above eps, then none distinguishes the outputs of run on them with a larger advantage; without noise the outputs are exactly as distinguishable as the inputs.", "quantifier": "all circuits of standard gates (phases and mixtures of states: gates of any class) with any controls and any standard noise, all state vectors and density matrices, all unit complex phases, all observables with a meaning, all modes, shot numbers and random numbers, all measurement effects", "why_tests_cant": "statements about pairs of states, all phases and all measurements; tests compare single outputs with references and never two runs", "anchors": ["horqrux/apply.py:303-418", "horqrux/api.py:25-162", "horqrux/shots.py:17-184", "horqrux/utils/operator_utils.py:433-533"]}
{"id": "C91", "title": "Parameter values given as arrays of size one act as numbers in run, sample, expectation and parameter-shift gradients", "statement": "Replacing a number in values by an array with that single entry (any number of axes, as in jnp.array([x])) changes no result and no error of run, sample or expectation in any mode and for any number of shots, and no gradient of the backward parameter-shift rules. The forward (JVP) rules give the same tangents when all values are scalars or all are arrays of shape (1,), so that they are the exact derivatives wherever they are for numbers.", "quantifier": "all circuits and observables built from primitive gates, rotations with parameters and PHASE with numbers, all values of size one with any number of axes (JVP: all scalars or all of shape (1,)), all modes, shots and random numbers; expectation: flat values, or separate dictionaries in AD mode", "why_tests_cant": "the tests use arrays of shape (1,) and scalars for a few circuits; the statement is about every array shape of size one, every circuit and both results and errors", "anchors": ["tests/differentiation/test_gpsr.py:34-37", "horqrux/differentiation/gpsr/analytical.py:161-248", "horqrux/differentiation/gpsr/shots.py:145-241", "horqrux/primitives/parametric.py:48-77", "horqrux/api.py:25-162"]}
{"id": "C92", "title": "Derivatives by automatic differentiation are the exact derivatives of expectation values and states, to every order", "statement": "For every circuit, every state (vector or density matrix, with or without noise) and all observables, the tangents that jax.jvp returns for expectation in AD mode without shots are the exact directional derivatives of the expectation values, the tangents for run are the derivatives of the entries of the state, and nested calls of jax.jvp give the exact higher and mixed derivatives. Differentiation may be with respect to the parameters, the entries of the Hamiltonian and the entries of the initial state. The expectation values are analytic functions of them, whatever parameters are shared, controlled, shifted, used in PHASE gates, in Hamiltonian evolutions or as Scale factors. An exception of the function is raised for all parameter values or for none, and its derivative raises the same one. In the settings where the parameter-shift rule is exact, both gradients agree.", "quantifier": "all circuits (any composite of gates, Scale, Add, nested sequences), all observables, all states, all dictionaries (flat or split), all analytic dependences of the parameters, the Hamiltonian and the initial state on any number of variables, all directions, all orders", "why_tests_cant": "the tests compare AD with parameter-shift or finite differences for a few circuits at random angles and to limited precision; a claim about all circuits, all orders and exactness cannot be tested", "anchors": ["horqrux/differentiation/ad.py:23-105", "horqrux/api.py:25-30", "horqrux/api.py:92-162", "horqrux/primitives/parametric.py:48-77", "horqrux/primitives/parametric.py:202-207", "horqrux/analog.py:28-31", "horqrux/utils/operator_utils.py:147-151", "tests/differentiation/test_gpsr.py:40-110"]}
{"id": "C93", "title": "HamiltonianEvolution obeys the Schr\u00f6dinger, von Neumann and Heisenberg equations in its time parameter", "statement": "For a circuit whose last gate is an uncontrolled HamiltonianEvolution with a Hermitian matrix, let K be this matrix on the targets and the identity on the other qubits. As functions of the parameter time_evolution, the state vector returned by run satisfies d\u03c8/dt = -iK\u03c8, the returned density matrix (with or without noise before) satisfies d\u03c1/dt = -i[K, \u03c1], and the expectation values returned by expectation satisfy d\u27e8O\u27e9/dt = \u27e8i[K, O]\u27e9 in the returned state; the tangents by automatic differentiation are these numbers. If gates with noise follow, they carry the change -i[K, \u03c1] to the end. Expectation values of observables that commute with K do not depend on the time. Eigenvectors of K are only multiplied by exp(-iEt).", "quantifier": "all numbers of qubits, all targets, all Hermitian matrices (the Schr\u00f6dinger equation: all matrices), all times, all gates before the evolution with or without noise, all states, all fixed observables", "why_tests_cant": "a test compares the evolved state with a matrix exponential at a few times; differential equations, and conservation laws for all times and states, are statements about uncountably many executions", "anchors": ["horqrux/analog.py:14-34", "horqrux/api.py:25-30", "horqrux/api.py:92-162", "horqrux/differentiation/ad.py:23-105"]}
{"id": "C94", "title": "Expectation values can be measured with sample: averages over bit strings are unbiased and agree with expectation", "statement": "The average of any function f of the bit strings in the histogram returned by sample has mean \u03a3 p(b) f(b) and variance (\u03a3 p(b) f(b)\u00b2 - (\u03a3 p(b) f(b))\u00b2)/k for k pairwise independent shots, p(b) being the probability of b at the output of run. Hence for an Ising Hamiltonian (Pauli strings without X and Y) the average of its energy function is an unbiased estimate of tr(H\u03c1) with variance (tr(H\u00b2\u03c1) - tr(H\u03c1)\u00b2)/k. For an arbitrary Pauli string P, append H on the qubits of X and RX(\u03c0/2) on the qubits of Y and sample: the average parity of the bits has mean tr(P\u03c1) and variance (1 - tr(P\u03c1)\u00b2)/k at the output \u03c1 of the original circuit, the same mean and variance as the estimate of expectation with k shots; for noiseless state vectors the mean is the number expectation returns without shots.", "quantifier": "all circuits of standard gates with or without noise, all states, all functions of bit strings, all Pauli strings and Ising Hamiltonians on any number of qubits, all numbers of shots, all probability spaces with pairwise independent uniform numbers", "why_tests_cant": "relates two different code paths (sampling bit strings and diagonalising the observable) in distribution; a test sees single draws of a few circuits", "anchors": ["horqrux/api.py:33-62", "horqrux/api.py:92-162", "horqrux/shots.py:157-184", "horqrux/utils/operator_utils.py:492-515"]}
{"id": "C95", "title": "random_state can return a state near every state vector", "statement": "For every normalised vector of 2^n amplitudes and every eps > 0 there are draws for which random_state returns a state within eps of it, up to a global phase; all lists of positive basis probabilities occur; for independent uniform draws every basis state has mean probability 1/2^n.", "quantifier": "all numbers of qubits, all target states, all draws from the open unit interval", "why_tests_cant": "quantifies over all outcomes of the random draws and all states; a test sees the one state that the fixed seed produces", "anchors": ["horqrux/utils/operator_utils.py:471-485"]}
{"id": "C96", "title": "The alignment check of finite shots tells right estimates from wrong ones", "statement": "The check that align_eigenvectors runs on its permutation matrices (validate_permutation_matrix, checkify_valid_permutation) is passed exactly when the eigenvectors of every observable are matched one-to-one with those of the first, and then the finite-shot estimate of each observable has the right mean; conversely right estimates pass it.", "quantifier": "all numbers of qubits, lists of observables, circuits of standard gates, states and decompositions that eigh may return", "why_tests_cant": "depends on all eigenvector decompositions that eigh may return (degenerate eigenvalues, phases), of which a test sees one; the check's result is discarded by the code, so no test can observe it", "anchors": ["horqrux/shots.py:106-118", "horqrux/shots.py:121-136", "horqrux/shots.py:139-154"]}
{"id": "C97", "title": "Derivatives by AD with respect to the initial state and to the Hamiltonian have their textbook values", "statement": "For a circuit with documented noise and observables that are read correctly, jax.jvp of expectation (AD, no shots) with a tangent of the initial state returns the values of the observables at the image under the circuit of the tangent of the state: |phi><psi| + |psi><phi| for a state vector psi with tangent phi, the tangent itself for a density matrix. For noiseless circuits C and Hermitian O this is 2 Re <phi|C* O C|psi>. With a tangent B of the Hamiltonian of a final Hamiltonian evolution of duration t that is Hermitian and commutes with the Hamiltonian, it returns t times the expectation values of i [B, O].", "quantifier": "all numbers of qubits, circuits, documented noise, states, tangents, observables; for the Hamiltonian: all gates before the evolution, all targets, all commuting Hermitian directions", "why_tests_cant": "a test differentiates a few states in a few directions, at finite precision; the statement is about all circuits, states and directions", "anchors": ["horqrux/differentiation/ad.py:23-105", "horqrux/api.py:92-162", "horqrux/analog.py:28-31", "horqrux/utils/operator_utils.py:52-66"]}
{"id": "C98", "title": "jax.grad with respect to horqrux objects returns gradients", "statement": "jax.grad of a function with respect to a horqrux object (an operation, a circuit, a density matrix, a state vector) returns its gradient with respect to the numbers in that object, or raises an error.", "quantifier": "all functions, operations, circuits, density matrices and arrays", "why_tests_cant": "the tests only differentiate with respect to arrays; that no gradient comes back for an object, whatever function is differentiated, is a statement about all functions", "anchors": ["horqrux/utils/operator_utils.py:33-46", "horqrux/primitives/primitive.py:66-75", "horqrux/primitives/parametric.py:57-75", "horqrux/circuit.py:52-62", "horqrux/composite/sequence.py:19-27", "docs/differentiation.md:65"]}
{"id": "C99", "title": "Operations that compare equal are interchangeable", "statement": "If two operations, observables or circuits compare equal with ==, they act on the same qubits, have the same parameter names, the same matrix and the same effect on every state for all parameter values.", "quantifier": "all pairs of operations, all states and parameter values", "why_tests_cant": "comparing a few objects cannot show that every attribute with an effect is compared; the attributes that are not are those no test varies", "anchors": ["horqrux/primitives/primitive.py:27-36", "horqrux/primitives/parametric.py:33-43", "horqrux/analog.py:12-23", "horqrux/composite/sequence.py:15-17", "horqrux/composite/compose.py:18-31", "horqrux/circuit.py:15-32", "horqrux/noise/noise.py:43-47"]}
{"id": "C100", "title": "Compiled functions compute with the objects they are called with", "statement": "A function compiled by jax.jit, such as the expectation values of the backward parameter-shift gradients, computes with the state, gates and observables it is called with, whatever it was called with before.", "quantifier": "all sequences of earlier calls, all states, gates and observables", "why_tests_cant": "the result of a call depends on the calls before it, and the cache compares objects with == rather than by what they do; tests call compiled functions with few objects", "anchors": ["horqrux/differentiation/gpsr/analytical.py:57", "horqrux/differentiation/gpsr/shots.py:24", "horqrux/utils/operator_utils.py:33-46", "horqrux/primitives/primitive.py:66-75", "horqrux/composite/compose.py: Scale.tree_flatten", "horqrux/circuit.py:52-62"]}
{"id": "C101", "title": "Circuits of nots and swaps compute their Boolean function", "statement": "A circuit of NOT, CNOT, Toffoli and (controlled) SWAP gates, nested in any way, carries the amplitude of every bit string to the bit string that the classical reversible circuit computes from it; the function is a bijection; product_state of the input is carried exactly to product_state of the output; and every sample of the circuit started in product_state(bits) is the computed bit string.", "quantifier": "all numbers of qubits, all such circuits with any number of controls, all states, all input bit strings and all numbers of shots", "why_tests_cant": "there are 2^n inputs and unboundedly many circuits; tests check truth tables of one or two gates", "anchors": ["horqrux/primitives/primitive.py:185-356", "horqrux/apply.py:30-180", "horqrux/utils/operator_utils.py:381-410", "horqrux/api.py:20-84", "horqrux/circuit.py:15-75"]}
{"id": "C102", "title": "Textbook algorithms give their textbook results", "statement": "Written with the gates of the library and run on any number of qubits: the Hadamard transform is 2^{-n/2} sum_y (-1)^{x.y} a_y; the GHZ circuit prepares (|0..0>+|1..1>)/sqrt 2; the circuit of Bernstein and Vazirani samples the hidden string with certainty; the quantum Fourier transform circuit computes 2^{-n/2} sum_y exp(2 pi i x y/2^n) a_y; Grover's search gives the amplitudes +-sin((2k+1)theta) and +-cos((2k+1)theta)/sqrt(2^n-1) after k iterations and finds the marked string with probability at least 1-2^{-n} after floor(pi/4 theta) iterations.", "quantifier": "all numbers of qubits, all states (Hadamard and Fourier transform), all hidden and marked strings, all numbers of iterations and shots", "why_tests_cant": "the circuits grow with n and their results depend on the qubit ordering, the control handling and the phases of every gate; tests run one or two small n", "anchors": ["horqrux/primitives/primitive.py:162-383", "horqrux/primitives/parametric.py:201-245", "horqrux/apply.py:30-180", "horqrux/utils/operator_utils.py:381-410", "horqrux/api.py:20-84"]}
{"id": "C103", "title": "Rounding errors grow at most linearly with the number of gates", "statement": "If every gate matrix, every product of two matrices and every application of a matrix to a state is computed with relative error at most eps (operator norm), then the state that apply_gates returns for k unitary gates differs from the exact one by at most ((1+eps)^(3k) - 1) times the length of the initial state (at most 6*k*eps when 3*k*eps <= 1), with and without grouping and merging; expectation values differ by at most ||O||((1+eps)^(6k) - 1), and the probabilities of all outcomes together by at most (1+eps)^(6k) - 1. Some arithmetic of that accuracy is off by exactly ((1+eps)^k - 1). With complex numbers made of two real numbers of p >= 8 significant bits, rounded to nearest, sums added up in any order, gates on at most two qubits and gate matrices right up to 6*2^-p, the state after k gates is off by at most 144*k*2^-p (if 72*k*2^-p <= 1), whatever the number of qubits. The expectation value of sum_j c_j U_j (J scaled sequences of at most L such gates, as the Hamiltonians of the documentation are), with the sequences, the scalings, the sum and the inner product rounded as well, is off by at most 2^(1-p)*(144*k + 72*L + J + 2^n + 6)*sum_j |c_j| for a normalised state on n qubits (if 2^-p times the bracket is at most 1).", "quantifier": "all arithmetics of accuracy eps >= 0, all non-empty lists of noiseless gates with unitary matrices on valid qubits, all states, numbers of qubits, flags and observables; all precisions p >= 8 and orders of summation", "why_tests_cant": "tests compare floats of a few short circuits within a tolerance; they do not say how the tolerance must grow with the circuit, nor that merging cannot amplify errors", "anchors": ["horqrux/apply.py:298-330", "horqrux/apply.py:345-427", "horqrux/differentiation/ad.py:32-42", "horqrux/composite/compose.py:33-35", "horqrux/utils/operator_utils.py:446-448"]}
{"id": "C104", "title": "Digital simulation of Hamiltonian evolution converges with the number of steps", "statement": "For a Hamiltonian sum c_k P_k of Pauli strings: the circuit of basis changes, controlled nots and one RZ(theta) acts as exp(-i theta/2 P); Add([Scale(OpSequence(P_k), c_k)]).tensor() on the whole register is the matrix of the sum; the state after r steps of the first-order product formula differs from the state after HamiltonianEvolution with that matrix and time t by at most t^2/(2r) times the sum of 2|c_j c_k| over the pairs of non-commuting strings (times the length of the initial state), expectation values of O by at most 2||O|| times that; r >= t^2 L/(2 eps) steps reach accuracy eps; if the strings commute pairwise, both circuits return the same array already for r = 1. Started from a density matrix of trace norm T, the returned density matrices differ by at most twice the same bound times T in the trace norm, expectation values of O by ||O|| times that.", "quantifier": "all numbers of qubits, all lists of strings of X, Y, Z on distinct qubits, all real coefficients and times, all numbers of steps, all states and observables, all circuits that realise the listed gates", "why_tests_cant": "tests compare one evolution with one circuit within a tolerance; the dependence of the error on the time, the number of steps and the commutators is a statement about all of them", "anchors": ["horqrux/analog.py:12-37", "horqrux/composite/compose.py:49-65", "horqrux/composite/compose.py:91-112", "horqrux/primitives/parametric.py:92-190", "horqrux/apply.py:345-427"]}
{"id": "C105", "title": "Variance and accuracy of finite-shot gradients", "statement": "For one observable O, if numbers drawn with different keys are independent and the keys obtained by splitting are different: with k shots, the i-th entry of finite_shots_gpsr_backward has variance (V+ + V-)/(4k), where V+ and V- are the quantum variances tr(O^2 rho) - tr(O rho)^2 on the outputs of the circuit with the i-th parameter shifted by pi/2 and -pi/2 (for a shared name: the sum over the gates with that name, each turned alone); different entries are uncorrelated; if the eigenvalues of O lie in [lo, hi], an entry misses the exact derivative by at least c with probability at most m (hi - lo)^2/(8 k c^2), where m is the number of gates with the name of the entry. The tangent of the JVP of finite_shots_fwd has variance sum t_i^2 (V+_i + V-_i)/(4k), and is uncorrelated with the forward value.", "quantifier": "all circuits of uncontrolled parametric gates (C57's setting; for the JVP without shared names), values, states, numbers of shots, keys and ways of splitting them, probability spaces", "why_tests_cant": "tests run one key and compare within a loose tolerance; reusing a key leaves every mean right and only changes the variance, which no single run shows", "anchors": ["horqrux/differentiation/gpsr/shots.py:56-110", "horqrux/differentiation/gpsr/shots.py:211-241", "horqrux/shots.py:68-103"]}
{"id": "C106", "title": "Plain gradient descent on an expectation value lowers it at every step, with an explicit step size", "statement": "Let lo and hi bound the spectrum of the observable and L = (hi - lo)/2 times the sum over the parameters of (number of gates with the parameter)^2. The gradient of expectation is Lipschitz: the derivative with respect to p changes between two points by at most m_p (hi - lo)/2 sum_q m_q |y_q - x_q|. A step of size eta against the gradient lowers the returned energy by at least eta (1 - L eta/2) |gradient|^2. With 0 < eta <= 1/L the energies of the training loop never increase, and among the first T points one has squared gradient norm at most 2 (e_0 - lo)/(eta T). The same holds for the loop that subtracts eta times the list returned by analytical_gpsr_bwd. For every eta > 2/L there is a circuit and a point with nonzero gradient where the step increases the energy.", "quantifier": "all circuits of standard gates with any controls, any noise, any sharing of parameters, all physical states, Hermitian observables, starting points, step sizes and numbers of steps, in every exact mode (GPSR backward pass: uncontrolled gates; every parameter in one gate, or every dictionary entry used)", "why_tests_cant": "a test trains one circuit with one optimiser and looks at the final loss; it cannot show that no start makes the loss go up, nor where the admissible step size ends", "anchors": ["horqrux/api.py:92-162", "horqrux/differentiation/gpsr/analytical.py:60-131", "docs/vqe.md:55-80"]}
{"id": "C107", "title": "Operations with the same text (repr) do the same", "statement": "If two gates, sequences, sums, scaled operations, observables or circuits print the same, they have the same matrix and do the same to every state. Exactly: the texts are equal just when the operations are trees of the same classes whose gates have the same generator, qubits, shift and spelling of the parameter (and noise and storage format for Hamiltonian evolutions). So the claim holds, with == in both directions, for operations without Scale whose gates are noiseless and dense and whose parameters are not named like numbers; it fails for noise, which the text of a gate omits, for the factor of Scale, which the text omits, and for a parameter called '0.5', which prints like the number.", "quantifier": "all trees of gates and composites, all targets, controls (no numpy integers), floats, parameter names without commas, and all injective texts of floats", "why_tests_cant": "tests print one gate at most; ambiguity is about pairs of operations with the same text", "anchors": ["horqrux/primitives/primitive.py:158-159", "horqrux/primitives/parametric.py:87-91", "horqrux/noise/noise.py:65-66", "horqrux/composite/sequence.py:14-17"]}
{"id": "C108", "title": "Training with finite-shot gradients lowers the energy in the mean, if every step has its own key", "statement": "Subtract from the parameters \u03b7 times the gradient that finite_shots_gpsr_backward estimates with k shots. One step lowers the mean energy by at least \u03b7(1 - L\u03b7/2)|gradient|\u00b2, up to L\u03b7\u00b2/2 times the noise bound m\u00b7(hi-lo)\u00b2/(8k), m being the number of parameters or, if names are shared, of gates with a parameter name; L as in C106, eigenvalues in [lo, hi]. With 0 < \u03b7 \u2264 1/L and a new key in every step the mean of |gradient|\u00b2 over the first T points is at most 2(e0-lo)/(\u03b7T) plus L\u03b7 times the noise bound. With the same key in every step (the default key) this fails: for RX('a',0), Z(0) and one shot, training stays at its starting point x for ever with probability cos\u00b2(x)/2, for every step size.", "quantifier": "all registers, circuits of standard gates with any noise in which every parameter belongs to one or several gates without controls, observables, states, starting points, step sizes, shot numbers; all probability spaces with independent draws", "why_tests_cant": "a statement about means over all random numbers and all training lengths; a test sees one seed", "anchors": ["horqrux/differentiation/gpsr/shots.py:27-110", "horqrux/api.py:95-165", "docs/vqe.md"]}
{"id": "C109", "title": "Mapped functions (jax.vmap) compute what a loop computes, except that density matrices do not come out of run", "statement": "jax.vmap of expectation (mode AD) and of run over a batch of parameter values, Hamiltonians or state vectors is accepted exactly when some argument is mapped and all mapped arguments have the same first axis. It then returns at position b what the plain call returns on the slices at b, and raises what the plain call raises. Derivatives of any order inside the mapped function are those of the plain calls. If the circuit returns a density matrix (noise, or a density matrix as input), the mapped run does not return the stack of them but an object that holds a leaked tracer, because the array of a DensityMatrix is not a pytree leaf; expectation is not affected.", "quantifier": "all circuits, observables, states, dictionaries of numbers and matrices, batch sizes, numbers of nested derivatives, set iteration orders", "why_tests_cant": "the tests map apply_gates once over Hamiltonian evolutions with one or two random elements; a batch exercises few values, and no test maps a noisy circuit", "anchors": ["horqrux/api.py:32-92", "horqrux/utils/operator_utils.py:33-46", "tests/test_analog.py:44-51", "docs/dqc.md:62-65"]}
{"id": "C110", "title": "The loss functions of the documentation and their gradients are exact", "statement": "Let the parameters be analytic functions of a vector. Either the model raises one exception for all parameters and inputs, and so does its differentiated loss; or JAX's derivative of the loss of docs/dqc.md is exact: for the function fitter the mean of half the squared errors of the expectation values on the data, for the solver of the Laplace equation the mean of the squared boundary residuals and of (u_xx + u_yy)\u00b2, where the second derivatives of the expectation value are computed by jax.hessian inside the batch and then differentiated again. value_and_grad(loss_fn), as reverse mode computes it, returns the loss and all its partial derivatives, and the training loops compute the iterates of the optimizer with the exact gradients, for every optimizer and number of epochs.", "quantifier": "all circuits, observables, states, analytic parameters, directions, data, batch sizes other than 0", "why_tests_cant": "the documentation only shows that training runs; a wrong third derivative inside a batch is visible in no test", "anchors": ["docs/dqc.md:54-90", "docs/dqc.md:180-250", "horqrux/differentiation/adjoint.py:32-38", "docs/dqc.md:89-101", "docs/dqc.md:250-263"]}
{"id": "C111", "title": "Compiled functions return what the plain functions return, in the same order", "statement": "`jax.jit` of `expectation` in mode AD, after any earlier calls, raises the exception of `expectation` or returns its numbers for the numbers of this call; the same holds for derivatives of every order inside the compiled function. Whether `expectation` raises, which exception, and how many numbers it returns depends on the names and shapes, but on no number. The compiled `run` raises what `run` raises or returns the state vector of `run`; if `run` returns a density matrix, the result of the compiled function is unusable. The compiled `analytical_gpsr_bwd` returns the gradient that `analytical_gpsr_bwd` returns.", "quantifier": "all circuits, observables, states, dictionaries of values, earlier calls, orders of derivatives", "why_tests_cant": "a function may be compiled once with other numbers and other insertion orders of the dictionary than those of a later call; tests compile with few", "anchors": ["docs/vqe.md:109-118", "docs/dqc.md:91", "docs/dqc.md:256", "horqrux/differentiation/gpsr/analytical.py:57-130", "horqrux/utils/operator_utils.py:33-46", "horqrux/api.py:32-92"]}
{"id": "C112", "title": "Reverse mode (jax.grad) returns the gradient of the expectation values", "statement": "`jax.vjp` of `expectation` in mode AD, which runs the program forward and pulls cotangents back through every operation, raises the exception that `expectation` raises, or returns the expectation values together with a gradient whose pairing with any direction in the parameters, the entries of the Hamiltonian and the entries of the state is the derivative of the weighted sum of the expectation values along this direction. `jax.grad` with respect to the dictionary returns the partial derivative for every parameter, however often its name is used; for circuits that the parameter-shift rule covers this is the gradient of `analytical_gpsr_bwd`. The gradient with respect to a state vector \u03c8 is the conjugate of 2 C\u2020OC\u03c8. Cotangents of another length than the expectation values raise a ValueError. jax.vjp of run returns the state and the gradient of the real part of the sum of its entries with the given cotangents.", "quantifier": "all circuits, lists of observables, states, dictionaries of values (flat or split), cotangents, directions", "why_tests_cant": "tests compare gradients of a few circuits numerically; reverse mode accumulates cotangents over every use of a number, so an error in one rule shows only for circuits and directions that use it", "anchors": ["horqrux/differentiation/ad.py:23-105", "horqrux/api.py:92-162", "horqrux/primitives/parametric.py:48-55", "horqrux/analog.py:28-31", "docs/differentiation.md:90-135"]}
{"id": "C113", "title": "Noise does not amplify rounding errors", "statement": "If every gate matrix, every product of two operators, every \u03c1 \u21a6 O\u03c1O\u2020 and every noise channel of a run on a density matrix is computed with relative error at most \u03b5, then after k unitary gates with m noise channels in all the returned matrix differs from the exact one, in the trace norm, by at most ((1+\u03b5)^(4k+m) \u2212 1) times the trace norm of the initial matrix (its trace, for a positive matrix), which is at most 2(4k+m)\u03b5 times it while (4k+m)\u03b5 \u2264 1: with and without grouping and merging. The same bound holds for expectation values (times the norm of the observable), for the sum over all outcomes of the differences of the probabilities, and for noisy circuits started from a state vector. If errors are measured instead by the root of the sum of the squared entries, with relative error \u03b7, the same holds with \u03b5 = \u221a(2^n)\u00b7\u03b7. With real operations rounded to p \u2265 8 significant bits, in any order of summation, gates on at most two qubits, gate matrices right up to 6\u00b72^(\u2212p) and Kraus operators right up to this fraction, the error is at most 672(4k+m)\u00b72^(3n/2)\u00b72^(\u2212p) times the trace norm of the initial matrix while half of this factor is at most 1. The number that expectation returns, with the evaluation of the observable O on s qubits rounded in the same way from a matrix right up to 6\u00b72^(\u2212p), is then off by at most ((672(4k+m)+18)\u00b72^(3n/2)\u00b7\u2016O\u2016 + 19\u00b72^s)\u00b72^(\u2212p) times this trace norm. From a state vector, forming its density matrix with rounded products counts as one more step: 4k+m+1 in place of 4k+m, with the squared length of the vector as trace norm. Some arithmetic with relative error \u03b5 returns exactly (1+\u03b5)^(k+m) times the exact matrix.", "quantifier": "all arithmetics, relative errors, registers, lists of unitary gates with noise, initial matrices, flags", "why_tests_cant": "tests compare results with a fixed tolerance for a few circuits; that the errors of one step are not amplified by any later gate or channel, for any circuit and any pattern of errors, cannot be sampled", "anchors": ["horqrux/apply.py:137-179", "horqrux/apply.py:214-276", "horqrux/apply.py:345-384", "horqrux/apply.py:468-497", "horqrux/differentiation/ad.py:58-68", "horqrux/utils/operator_utils.py:52-66"]}
