{
 "claims": [
  {
   "property": "C01",
   "status": "proved",
   "theorems": [
    "Verif.C01_apply_operator",
    "Verif.C01_apply_operator_rejects",
    "Verif.C01_apply_gates",
    "Verif.C01_apply_gate"
   ],
   "note": "dense state vectors; any register, operator size, target order, control tuple; ill-sized or out-of-range/duplicate qubits raise"
  },
  {
   "property": "C02",
   "status": "proved",
   "theorems": [
    "Verif.C02_control_off",
    "Verif.C02_constructors",
    "Verif.C02_control_order",
    "Verif.C02_no_control",
    "Verif.C02_none_among_controls"
   ],
   "note": ""
  },
  {
   "property": "C03",
   "status": "proved",
   "theorems": [
    "Verif.C03_merge"
   ],
   "note": "state vectors and density matrices, all operation types, noisy and empty lists too"
  },
  {
   "property": "C04",
   "status": "partial",
   "theorems": [
    "Verif.C04_group_false",
    "Verif.C04_group_partial",
    "Verif.C04_group_noisy_partial",
    "Verif.C04_commuting_partial",
    "Verif.C04_pair_iff"
   ],
   "note": "false as stated: witness [X(1), SWAP((0,1))] proved; holds when uncontrolled gates have pairwise equal or disjoint targets, or commuting matrices; for two uncontrolled gates it holds exactly when they are not exchanged or commute"
  },
  {
   "property": "C05",
   "status": "proved",
   "theorems": [
    "Verif.C05_dagger_inverts",
    "Verif.C05_dagger_inverts_dm",
    "Verif.C05_evolution"
   ],
   "note": "C05_evolution includes Hamiltonian evolutions with Hermitian matrices"
  },
  {
   "property": "C06",
   "status": "proved",
   "theorems": [
    "Verif.C06_norm",
    "Verif.C06_run",
    "Verif.C06_evolution"
   ],
   "note": "C06_evolution includes Hamiltonian evolutions with Hermitian matrices"
  },
  {
   "property": "C07",
   "status": "proved",
   "theorems": [
    "Verif.C07_constructors_unitary",
    "Verif.C07_shifted_unitary"
   ],
   "note": ""
  },
  {
   "property": "C08",
   "status": "proved",
   "theorems": [
    "Verif.C08_apply_operator_dm",
    "Verif.C08_dm_agrees",
    "Verif.C08_run"
   ],
   "note": ""
  },
  {
   "property": "C09",
   "status": "proved",
   "theorems": [
    "Verif.C09_trace_preserving"
   ],
   "note": ""
  },
  {
   "property": "C10",
   "status": "proved",
   "theorems": [
    "Verif.C10_validation",
    "Verif.C10_ill_typed",
    "Verif.C10_circuit_refused",
    "Verif.C10_run"
   ],
   "note": ""
  },
  {
   "property": "C100",
   "status": "partial",
   "theorems": [
    "Verif.C100_history_partial",
    "Verif.C100_op_partial",
    "Verif.C100_shared_iff",
    "Verif.C100_expectation_partial",
    "Verif.C100_density_refused",
    "Verif.C100_density_false",
    "Verif.C100_numpy_sees",
    "Verif.C100_numpy_false"
   ],
   "note": "False: arrays of density matrices are static, and comparing two of them raises ValueError, so that no second density matrix can be used; a gate with a numpy control replaces the equal gate with a Python control. True (C100_expectation_partial, any earlier calls) without numpy controls, circuits, PHASE gates and shifted Hamiltonian evolutions (the last three fail on the first call already, C34, C35), if the state or all earlier ones are vectors; C100_shared_iff says which operations share a program."
  },
  {
   "property": "C101",
   "status": "proved",
   "theorems": [
    "Verif.C101_amplitudes",
    "Verif.C101_reversible",
    "Verif.C101_product_state",
    "Verif.C101_sample"
   ],
   "note": "noiseless circuits; controls as Python integers or tuples (Realizes)"
  },
  {
   "property": "C102",
   "status": "proved",
   "theorems": [
    "Verif.C102_hadamard",
    "Verif.C102_ghz",
    "Verif.C102_bernstein_vazirani",
    "Verif.C102_bernstein_vazirani_sample",
    "Verif.C102_qft",
    "Verif.C102_grover",
    "Verif.C102_grover_success"
   ],
   "note": "for every nesting of the circuit (Plain, Realizes); placedCircuit builds each circuit from constructor calls for every n"
  },
  {
   "property": "C103",
   "status": "proved",
   "theorems": [
    "Verif.C103_exact",
    "Verif.C103_run",
    "Verif.C103_linear",
    "Verif.C103_expectation",
    "Verif.C103_probabilities",
    "Verif.C103_attained",
    "Verif.C103_flops",
    "Verif.C103_complex",
    "Verif.C103_bits",
    "Verif.C103_precision",
    "Verif.C103_exact_flops",
    "Verif.C103_energy",
    "Verif.C103_energy_precision",
    "Verif.C103_exact_energy"
   ],
   "note": "the arithmetic is a parameter (Arith). C103_flops derives its accuracy from that of additions and multiplications of numbers, for any order of summation; overflow, underflow and fused operations are not modelled, and the accuracy of the gate matrices (sine and cosine) is a hypothesis. State vectors and noiseless gates. C103_energy rounds the evaluation of the observable and the inner product too, for observables that are sums of scaled gate sequences; for other observables and for the probabilities the final evaluation in the computed state is exact"
  },
  {
   "property": "C104",
   "status": "proved",
   "theorems": [
    "Verif.C104_rotation",
    "Verif.C104_hamiltonian",
    "Verif.C104_error",
    "Verif.C104_steps",
    "Verif.C104_exact",
    "Verif.C104_expectation",
    "Verif.C104_circuits",
    "Verif.C104_density",
    "Verif.C104_density_expectation",
    "Verif.C104_density_exact"
   ],
   "note": "state vectors and density matrices, without noise, exact arithmetic; strings without identity factors for the circuits (C104_hamiltonian allows them)"
  },
  {
   "property": "C105",
   "status": "proved",
   "theorems": [
    "Verif.C105_bwd",
    "Verif.C105_accuracy",
    "Verif.C105_jvp",
    "Verif.C105_repeated",
    "Verif.C105_accuracy_repeated"
   ],
   "note": "one observable; independence of numbers drawn with different keys and distinctness of split keys are hypotheses about JAX's generator"
  },
  {
   "property": "C106",
   "status": "proved",
   "theorems": [
    "Verif.C106_gradient",
    "Verif.C106_descent",
    "Verif.C106_converges",
    "Verif.C106_gpsr",
    "Verif.C106_step_needed"
   ],
   "note": "plain gradient descent in exact arithmetic; Adam (optax), which the documentation uses, is not part of the repository and not modelled"
  },
  {
   "property": "C107",
   "status": "partial",
   "theorems": [
    "Verif.C107_iff",
    "Verif.C107_equal_partial",
    "Verif.C107_same_partial",
    "Verif.C107_noise_false",
    "Verif.C107_scale_false",
    "Verif.C107_param_false",
    "Verif.C107_comma_false"
   ],
   "note": "false for gates with noise, for Scale and for parameters named like numbers (C107_noise_false, C107_scale_false, C107_param_false); C107_iff says exactly what a text shows. Texts of floats are a parameter (injective on the floats); targets are Python integers"
  },
  {
   "property": "C108",
   "status": "proved",
   "theorems": [
    "Verif.C108_step",
    "Verif.C108_converges",
    "Verif.C108_step_repeated",
    "Verif.C108_converges_repeated",
    "Verif.C108_same_key"
   ],
   "note": "The keys produced by splitting are assumed different, draws with different keys independent. With shared names every name belongs to some gate (otherwise the rule fails, C24, C57)"
  },
  {
   "property": "C109",
   "status": "proved",
   "theorems": [
    "Verif.C109_block",
    "Verif.C109_size",
    "Verif.C109_expectation",
    "Verif.C109_run",
    "Verif.C109_derivatives"
   ],
   "note": "vmap executes the program once on numbers of a batch, on which the primitive operations act at every position (assumption on JAX's batching rules). in_axes other than 0, slices that are arrays of size one and empty batches are not covered"
  },
  {
   "property": "C11",
   "status": "proved",
   "theorems": [
    "Verif.C11_physical",
    "Verif.C11_run",
    "Verif.C11_evolution",
    "Verif.C11_evolution_iff"
   ],
   "note": "C11_evolution: circuits with Hamiltonian evolutions; C11_evolution_iff: there the matrix has to be Hermitian"
  },
  {
   "property": "C110",
   "status": "proved",
   "theorems": [
    "Verif.C110_fit",
    "Verif.C110_pde",
    "Verif.C110_fit_reverse",
    "Verif.C110_pde_reverse",
    "Verif.C110_train"
   ],
   "note": "Forward-mode rules of JAX on batches (Model/Trace.lean, Model/Batch.lean) and reverse mode of `value_and_grad` (Model/ReverseLosses.lean); optimizers of optax are arbitrary functions. The name of the input is not among those of the parameters; `jax.hessian` is computed forward over forward"
  },
  {
   "property": "C111",
   "status": "partial",
   "theorems": [
    "Verif.C111_expectation",
    "Verif.C111_derivatives",
    "Verif.C111_run",
    "Verif.C111_control_flow",
    "Verif.C111_bwd_partial",
    "Verif.C111_bwd_false"
   ],
   "note": "The sentence on gradients is false of the code: jax passes dictionaries with sorted keys, and `analytical_gpsr_bwd` returns the gradient in the order of the dictionary that it sees (C111_bwd_false). C111_bwd_partial is what holds instead: the compiled function returns the partial derivatives in the order of the sorted names. All other sentences are proved. A program is identified with the function it computes; derivatives inside compiled functions are functions to pairs"
  },
  {
   "property": "C112",
   "status": "proved",
   "theorems": [
    "Verif.C112_vjp",
    "Verif.C112_grad",
    "Verif.C112_gpsr",
    "Verif.C112_vector",
    "Verif.C112_run",
    "Verif.C112_twice"
   ],
   "note": "Reverse mode is modelled by running the program on pairs of value and pullback with JAX's transpose rules for sum, product, conjugation, real part, sin, cos, exp and expm (Model/Reverse.lean); the rule of expm is the transpose of its derivative. Parameters are numbers; arrays are Hamiltonians and states"
  },
  {
   "property": "C113",
   "status": "proved",
   "theorems": [
    "Verif.C113_exact",
    "Verif.C113_run",
    "Verif.C113_linear",
    "Verif.C113_density",
    "Verif.C113_density_least",
    "Verif.C113_expectation",
    "Verif.C113_probabilities",
    "Verif.C113_vector",
    "Verif.C113_stretched",
    "Verif.C113_sharp",
    "Verif.C113_entries",
    "Verif.C113_entries_stretched",
    "Verif.C113_flops",
    "Verif.C113_flops_exact",
    "Verif.C113_precision",
    "Verif.C113_energy",
    "Verif.C113_energy_exact",
    "Verif.C113_energy_precision",
    "Verif.C113_start",
    "Verif.C113_vector_flops",
    "Verif.C113_vector_exact",
    "Verif.C113_vector_precision"
   ],
   "note": "The arithmetic of a run on a density matrix is a parameter (Model/RoundedNoise.lean); its accuracy is assumed per gate and per channel, in the trace norm or entry by entry (C113_entries: root of the sum of squares, at the cost of a factor \u221a(2^n)), or derived from the rounding of single additions and multiplications (C113_flops, C113_precision; exponents unbounded, no fused operations). For gates that bound does not depend on the register; for noise it grows like 2^n, since the code expands Kraus operators to the whole register. With exact arithmetic the model is apply_gates (C113_exact). C113_expectation and C113_probabilities evaluate the returned matrix exactly; C113_energy and C113_energy_precision round the evaluation of the observable as well, from a computed matrix of the observable with entries right up to \u03c4. C113_vector forms the density matrix of the initial state vector exactly; C113_vector_flops and C113_vector_precision round this step too"
  },
  {
   "property": "C12",
   "status": "proved",
   "theorems": [
    "Verif.C12_channels",
    "Verif.C12_channels_any",
    "Verif.C12_run"
   ],
   "note": ""
  },
  {
   "property": "C13",
   "status": "proved",
   "theorems": [
    "Verif.C13_zero_noise",
    "Verif.C13_zero_noise_vec",
    "Verif.C13_run"
   ],
   "note": ""
  },
  {
   "property": "C14",
   "status": "partial",
   "theorems": [
    "Verif.C14_tensor_false",
    "Verif.C14_tensor",
    "Verif.C14_tensor_own_support",
    "Verif.C14_tensor_rejects",
    "Verif.C14_tensor_apply",
    "Verif.C14_tensor_sorted",
    "Verif.C14_tensor_any_partial"
   ],
   "note": "proved for every exported gate; false for HamiltonianEvolution with unsorted targets (witness proved), proved for sorted targets"
  },
  {
   "property": "C15",
   "status": "partial",
   "theorems": [
    "Verif.C15_support_refused",
    "Verif.C15_tensor_not_run",
    "Verif.C15_tensor_listed",
    "Verif.C15_tensor_partial",
    "Verif.C15_tensor_commuting_partial"
   ],
   "note": "false as stated (sequences are multiplied in listing order; witness proved); proved for the listing-order product, and for execution order when the gates of sequences commute"
  },
  {
   "property": "C16",
   "status": "proved",
   "theorems": [
    "Verif.C16_expand",
    "Verif.C16_expand_rejects",
    "Verif.C16_expand_twice"
   ],
   "note": ""
  },
  {
   "property": "C17",
   "status": "proved",
   "theorems": [
    "Verif.C17_add",
    "Verif.C17_observable",
    "Verif.C17_scale",
    "Verif.C17_scale_gate",
    "Verif.C17_tree",
    "Verif.C17_linear",
    "Verif.C17_add_refused",
    "Verif.C17_scale_refused",
    "Verif.C17_observable_refused",
    "Verif.C17_factor_refused"
   ],
   "note": ""
  },
  {
   "property": "C18",
   "status": "partial",
   "theorems": [
    "Verif.C18_scale_add_wrong",
    "Verif.C18_scale_add_is_product",
    "Verif.C18_scale_add_partial",
    "Verif.C18_right_iff"
   ],
   "note": "false as stated: Scale(Add([X, Z])) is a scaled product (witness proved); right in all states iff the product of the gates is their sum"
  },
  {
   "property": "C19",
   "status": "partial",
   "theorems": [
    "Verif.C19_expectation",
    "Verif.C19_hermitian",
    "Verif.C19_expectation_dm_partial",
    "Verif.C19_observable_call"
   ],
   "note": "state vectors proved in full; density matrices for observables whose sequences commute and whose qubit set is iterated in increasing order (false otherwise, see C22)"
  },
  {
   "property": "C20",
   "status": "partial",
   "theorems": [
    "Verif.C20_ad_gpsr",
    "Verif.C20_ad_adjoint_partial",
    "Verif.C20_adjoint_noise",
    "Verif.C20_adjoint_noisy"
   ],
   "note": "AD and GPSR agree always; AD and ADJOINT for noiseless circuits on state vectors; false with noise (ADJOINT raises for every circuit with a noisy gate, proved)"
  },
  {
   "property": "C21",
   "status": "partial",
   "theorems": [
    "Verif.C21_scale_wrong",
    "Verif.C21_add_wrong",
    "Verif.C21_expectation_run_partial",
    "Verif.C21_executed",
    "Verif.C21_scale_refused"
   ],
   "note": "false for circuits containing Scale or Add (witnesses proved; what is executed instead is stated for all trees); proved for trees of gates, OpSequence and QuantumCircuit"
  },
  {
   "property": "C22",
   "status": "partial",
   "theorems": [
    "Verif.C22_listing_order_wrong",
    "Verif.C22_set_order_wrong",
    "Verif.C22_pure_partial",
    "Verif.C22_listed",
    "Verif.C22_agree_iff"
   ],
   "note": "false as stated: two witnesses (listing-order products; unsorted qubit sets); with sorted qubit sets it holds in all states iff the two products have the same Hermitian part"
  },
  {
   "property": "C23",
   "status": "partial",
   "theorems": [
    "Verif.C23_bwd_partial",
    "Verif.C23_jvp",
    "Verif.C23_phase_refused",
    "Verif.C23_circuit_wrong",
    "Verif.C23_no_values_refused",
    "Verif.C23_no_values_jvp_refused"
   ],
   "note": "an empty dictionary of values is refused by both rules; JVP proved in full (RX, RY, RZ uncontrolled, PHASE with any controls); backward pass proved for RX/RY/RZ; it raises TypeError for every circuit with a PHASE gate, and observables that contain a QuantumCircuit give a wrong gradient (both proved)"
  },
  {
   "property": "C24",
   "status": "partial",
   "theorems": [
    "Verif.C24_bwd_partial",
    "Verif.C24_jvp_partial",
    "Verif.C24_unused_wrong",
    "Verif.C24_unused_raises"
   ],
   "note": "proved when every key of values is used by a gate; with an unused key the gradient is 0 or ValueError is raised (proved)"
  },
  {
   "property": "C25",
   "status": "partial",
   "theorems": [
    "Verif.C25_controlled_wrong",
    "Verif.C25_controlled_gap",
    "Verif.C25_bwd_error",
    "Verif.C25_bwd_iff",
    "Verif.C25_jvp_error",
    "Verif.C25_jvp_iff",
    "Verif.C25_shared_bwd_error",
    "Verif.C25_shared_jvp_error",
    "Verif.C23_jvp"
   ],
   "note": "false, and characterised exactly for all circuits: the error of both gradients is computed (parameters used once and shared), and for parameters used once they are exact iff the expectation values at +pi and -pi agree; a witness is wrong by a factor sqrt(2). Controlled PHASE is exact (C23_jvp); controlled gates with numeric angles are covered by C23"
  },
  {
   "property": "C26",
   "status": "proved",
   "theorems": [
    "Verif.C26_refused",
    "Verif.C26_histogram",
    "Verif.C26_distribution_size"
   ],
   "note": ""
  },
  {
   "property": "C27",
   "status": "proved",
   "theorems": [
    "Verif.C27_born"
   ],
   "note": ""
  },
  {
   "property": "C28",
   "status": "proved",
   "theorems": [
    "Verif.C28_product_state",
    "Verif.C28_flip",
    "Verif.C28_sample"
   ],
   "note": ""
  },
  {
   "property": "C29",
   "status": "partial",
   "theorems": [
    "Verif.C29_probabilities",
    "Verif.C29_listed",
    "Verif.C29_unbiased_partial",
    "Verif.C29_listing_order_wrong"
   ],
   "note": "proved for observables whose sequences may be multiplied in either order; for others the estimate is of the listing-order product (witness proved)"
  },
  {
   "property": "C30",
   "status": "proved",
   "theorems": [
    "Verif.C30_product_state",
    "Verif.C30_zero_state",
    "Verif.C30_uniform_state",
    "Verif.C30_random_state",
    "Verif.C30_digit_above_one",
    "Verif.C30_digits",
    "Verif.C30_other_characters"
   ],
   "note": "random_state for draws in (0,1)"
  },
  {
   "property": "C31",
   "status": "partial",
   "theorems": [
    "Verif.C31_overlap_false",
    "Verif.C31_overlap_value",
    "Verif.C31_overlap_partial",
    "Verif.C31_is_normalized",
    "Verif.C31_phase",
    "Verif.C31_equivalent_sound"
   ],
   "note": "false for overlap: it is Re(<a|b>^2) (witness proved); holds when the inner product is real; is_normalized proved"
  },
  {
   "property": "C32",
   "status": "proved",
   "theorems": [
    "Verif.C32_apply_gates",
    "Verif.C32_apply_gate",
    "Verif.C32_apply_gates_means",
    "Verif.C32_call",
    "Verif.C32_expectation",
    "Verif.C32_states",
    "Verif.C32_mixed",
    "Verif.C32_dense",
    "Verif.C32_dense_gate",
    "Verif.C32_dense_state_refused",
    "Verif.C32_hamevo_false",
    "Verif.C32_jacobian_refused",
    "Verif.C32_sample_refused"
   ],
   "note": "all gates that can be built with sparse=True (HamiltonianEvolution cannot; converted with to_sparse it fails: witness proved); the layout of sparse results is arbitrary. Limits proved: dense states, jacobians and sampling are refused"
  },
  {
   "property": "C33",
   "status": "partial",
   "theorems": [
    "Verif.C33_convertible_partial",
    "Verif.C33_gate",
    "Verif.C33_scale_false",
    "Verif.C33_add_false",
    "Verif.C33_fparams_false",
    "Verif.C33_shift_false"
   ],
   "note": "false as stated: Scale keeps only its first operation, Scale of Add becomes a sequence, feature parameters and evolution shifts are dropped, empty Scale raises IndexError (all proved); proved for every tree without these"
  },
  {
   "property": "C34",
   "status": "partial",
   "theorems": [
    "Verif.C34_iff",
    "Verif.C34_op_partial",
    "Verif.C34_noise_density",
    "Verif.C34_circuit_false",
    "Verif.C34_shift_false",
    "Verif.C34_jit_phase",
    "Verif.C34_jit_model"
   ],
   "note": "false for QuantumCircuit (swapped children and aux data) and for evolution shifts (proved); proved for all other trees, noise instances and density matrices; C34_iff: an equal object comes back exactly if the tree has neither"
  },
  {
   "property": "C35",
   "status": "partial",
   "theorems": [
    "Verif.C35_gates",
    "Verif.C35_names",
    "Verif.C35_valid_partial",
    "Verif.C35_refused",
    "Verif.C35_single_false"
   ],
   "note": "false for one qubit: the circuit contains NOT(0, 0), which cannot be applied (proved); gate list and parameter names proved for all sizes, validity for n different from 1"
  },
  {
   "property": "C36",
   "status": "partial",
   "theorems": [
    "Verif.C36_listed",
    "Verif.C36_iff",
    "Verif.C36_vparams_partial",
    "Verif.C36_numeric_listed",
    "Verif.C36_numeric_wrong",
    "Verif.C36_needed",
    "Verif.C36_not_listed"
   ],
   "note": "false as stated: numeric angles are listed, Scale parameters and Hamiltonian names are not (proved); holds for trees of named rotations; C36_listed gives the list for every circuit, C36_iff when it is right"
  },
  {
   "property": "C37",
   "status": "proved",
   "theorems": [
    "Verif.C37_negative_shots",
    "Verif.C37_unknown_mode",
    "Verif.C37_adjoint_density_matrix",
    "Verif.C37_accepted",
    "Verif.C37_adjoint_ignores_shots",
    "Verif.C37_no_observables"
   ],
   "note": ""
  },
  {
   "property": "C38",
   "status": "partial",
   "theorems": [
    "Verif.C38_nested_partial",
    "Verif.C38_nested_value_partial",
    "Verif.C38_nested_refused",
    "Verif.C38_named_refused"
   ],
   "note": "holds for AD without shots; every other mode refuses nested values for every circuit that uses a name (C38_named_refused)"
  },
  {
   "property": "C39",
   "status": "partial",
   "theorems": [
    "Verif.C39_jacobian_false",
    "Verif.C39_jacobian_iff",
    "Verif.C39_jacobian_partial"
   ],
   "note": "false for RX, RY, RZ except where sin(\u03b8/2)=0 (characterised exactly); proved for PHASE"
  },
  {
   "property": "C40",
   "status": "proved",
   "theorems": [
    "Verif.C40_evolution",
    "Verif.C40_shift",
    "Verif.C40_unitary",
    "Verif.C40_compose",
    "Verif.C40_zero",
    "Verif.C40_refused"
   ],
   "note": "state vectors and density matrices, any targets and controls"
  },
  {
   "property": "C41",
   "status": "proved",
   "theorems": [
    "Verif.C41_compose",
    "Verif.C41_substitution",
    "Verif.C41_missing_name",
    "Verif.C41_nested_value"
   ],
   "note": ""
  },
  {
   "property": "C42",
   "status": "proved",
   "theorems": [
    "Verif.C42_disjoint_commute",
    "Verif.C42_disjoint_commute_noisy",
    "Verif.C42_circuits"
   ],
   "note": "noiseless gates of any class; noisy standard gates; C42_circuits: whole circuits, noisy or with Hamiltonian evolutions, through run"
  },
  {
   "property": "C43",
   "status": "proved",
   "theorems": [
    "Verif.C43_locality",
    "Verif.C43_locality_vec",
    "Verif.C43_evolution"
   ],
   "note": "C43_evolution: circuits with Hamiltonian evolutions"
  },
  {
   "property": "C44",
   "status": "proved",
   "theorems": [
    "Verif.C44_linear"
   ],
   "note": ""
  },
  {
   "property": "C45",
   "status": "proved",
   "theorems": [
    "Verif.C45_run_iter",
    "Verif.C45_concat",
    "Verif.C45_run_apply_gates"
   ],
   "note": ""
  },
  {
   "property": "C46",
   "status": "partial",
   "theorems": [
    "Verif.C46_run_partial",
    "Verif.C46_expectation_refused",
    "Verif.C46_sample_partial"
   ],
   "note": "run and sample proved; expectation on an empty circuit raises TypeError (proved)"
  },
  {
   "property": "C47",
   "status": "partial",
   "theorems": [
    "Verif.C47_vec_partial",
    "Verif.C47_gates_partial",
    "Verif.C47_empty_circuit"
   ],
   "note": "false for density matrices and circuits without gates (proved); holds otherwise"
  },
  {
   "property": "C48",
   "status": "partial",
   "theorems": [
    "Verif.C48_swap_gates_unusable",
    "Verif.C48_usable_partial"
   ],
   "note": "false: SQRTSWAP, ISWAP and ISQRTSWAP always raise KeyError; the other constructors are usable"
  },
  {
   "property": "C49",
   "status": "partial",
   "theorems": [
    "Verif.C49_qubit_support",
    "Verif.C49_name",
    "Verif.C49_n_qubits_false",
    "Verif.C49_n_qubits_partial",
    "Verif.C49_n_qubits_iff"
   ],
   "note": "qubit_support and name proved; n_qubits is false (witnesses), holds for one target and an explicit None or single int control"
  },
  {
   "property": "C50",
   "status": "proved",
   "theorems": [
    "Verif.C50_multi_target_refused",
    "Verif.C50_sparse_refused",
    "Verif.C50_sparse_refused_single",
    "Verif.C50_run",
    "Verif.C50_adjoint_refused"
   ],
   "note": ""
  },
  {
   "property": "C51",
   "status": "proved",
   "theorems": [
    "Verif.C51_relabel",
    "Verif.C51_relabel_noisy"
   ],
   "note": ""
  },
  {
   "property": "C52",
   "status": "partial",
   "theorems": [
    "Verif.C52_probabilities_vec",
    "Verif.C52_probabilities_dm_partial",
    "Verif.C52_probabilities_dm_false"
   ],
   "note": "state vectors proved; density matrices only when the array is a matrix, otherwise refused or wrong (proved)"
  },
  {
   "property": "C53",
   "status": "partial",
   "theorems": [
    "Verif.C53_kraus_false",
    "Verif.C53_kraus_partial",
    "Verif.C53_kraus_exact",
    "Verif.C53_single_target",
    "Verif.C53_kraus_iff"
   ],
   "note": "false as stated: witness proved; the exact result for every list of distinct targets is proved, and that the documented formula holds for all Kraus operators and density matrices iff the targets are (0..k-1) in order (the full register included)"
  },
  {
   "property": "C54",
   "status": "partial",
   "theorems": [
    "Verif.C54_aligned_partial",
    "Verif.C54_exact",
    "Verif.C54_right_iff",
    "Verif.C54_noncommuting_biased",
    "Verif.C54_phases",
    "Verif.C54_noncommuting_wrong",
    "Verif.C54_commuting_wrong"
   ],
   "note": "false: non-commuting observables are not refused, and every such pair is estimated with a bias in some state (proved for all pairs); commuting ones can be wrong too (witness). Characterised exactly: the operator that is estimated is computed (C54_exact), it is right in all states iff it equals the observable; right when the returned eigenvectors are permutations of the first ones"
  },
  {
   "property": "C55",
   "status": "partial",
   "theorems": [
    "Verif.C55_never_a_number",
    "Verif.C55_traced_raises",
    "Verif.C55_body_raises",
    "Verif.C55_false",
    "Verif.C55_forward_partial",
    "Verif.C55_repaired_value",
    "Verif.C55_repaired_phase_partial",
    "Verif.C55_repaired_false"
   ],
   "note": "false for all inputs: the rule raises or returns None for every parameter (proved); the forward rule is right; with the loop and the accumulator repaired the rule is computed for all circuits: right for PHASE gates without controls, half the derivative for RX, because jacobian is wrong (C39)"
  },
  {
   "property": "C56",
   "status": "partial",
   "theorems": [
    "Verif.C56_numpy_control_false",
    "Verif.C56_numpy_control_ignored",
    "Verif.C56_unmerged_ignored",
    "Verif.C56_mixed_control",
    "Verif.C56_merged_control",
    "Verif.C56_merged_numpy_first",
    "Verif.C56_merged_numpy_last",
    "Verif.C56_merge_false",
    "Verif.C56_numpy_target_partial"
   ],
   "note": "false: a control tuple of numpy.int64 is ignored, except when merging puts the gate under the equal Python control of a later gate; merging then changes the result; targets are fine"
  },
  {
   "property": "C57",
   "status": "partial",
   "theorems": [
    "Verif.C57_bwd_partial",
    "Verif.C57_bwd_repeated_partial",
    "Verif.C57_jvp_partial",
    "Verif.C57_jvp_repeated_partial",
    "Verif.C57_unused_wrong"
   ],
   "note": "proved for observables with aligned eigenvectors (hypothesis ShotSetting), uncontrolled named gates, and every key of values used when names are shared; otherwise false (C54 and C57_unused_wrong)"
  },
  {
   "property": "C58",
   "status": "partial",
   "theorems": [
    "Verif.C58_shared_phase_wrong",
    "Verif.C24_jvp_partial",
    "Verif.C58_bwd_refused"
   ],
   "note": "the backward rule raises for every circuit with a PHASE gate (proved for all circuits and values); the forward rule is false: the JVP is 0 for all parameter values of a witness circuit whose derivative is sin 2x (proved); the restricted statement (no named PHASE gate in a circuit with shared names) is C24_jvp_partial"
  },
  {
   "property": "C59",
   "status": "partial",
   "theorems": [
    "Verif.C59_gate",
    "Verif.C59_gate_means",
    "Verif.C59_tensor_partial",
    "Verif.C59_product_refused",
    "Verif.C59_sequence_false"
   ],
   "note": "gates, sums, multiples and observables proved; every sequence or circuit of two or more sparse operations raises (jnp.matmul refuses BCOO): proved for all such trees"
  },
  {
   "property": "C60",
   "status": "partial",
   "theorems": [
    "Verif.C60_apply_jacobian_iff",
    "Verif.C60_phase_partial",
    "Verif.C60_controlled_false",
    "Verif.C60_no_angle"
   ],
   "note": "characterised exactly: holds for all states iff the gate has no controls and is PHASE, or sin(angle/2)=0; controlled gates keep the identity on the amplitudes with a control bit 0"
  },
  {
   "property": "C61",
   "status": "partial",
   "theorems": [
    "Verif.C61_single",
    "Verif.C61_shared_partial",
    "Verif.C61_last_gap_wrong",
    "Verif.C61_missing_refused"
   ],
   "note": "proved for parameters used once, and for shared names if the gates of each name are all controlled or all uncontrolled; false otherwise: the JVP uses the spectral gap of the last gate for all gates of a name (witness proved for all angles)"
  },
  {
   "property": "C62",
   "status": "proved",
   "theorems": [
    "Verif.C62_vec",
    "Verif.C62_dm",
    "Verif.C62_default",
    "Verif.C62_noise",
    "Verif.C62_rejects"
   ],
   "note": "all twelve working dense constructors; explicit None control included; SQRTSWAP, ISWAP and ISQRTSWAP raise KeyError (C48), numpy integers are C56"
  },
  {
   "property": "C63",
   "status": "partial",
   "theorems": [
    "Verif.C63_arity",
    "Verif.C63_outside_iff",
    "Verif.C63_refused_partial",
    "Verif.C63_outside_false"
   ],
   "note": "wrong number of targets proved; for distinct qubits the exact condition is proved: refused unless controls ++ targets is increasing, contains the whole register and has at most 2n entries; false in that case (X(1, control=0) on one qubit sends |1><1| to |1><0|); repeated qubits: see C69, since the result depends on how np.argsort orders equal keys"
  },
  {
   "property": "C64",
   "status": "partial",
   "theorems": [
    "Verif.C64_vec",
    "Verif.C64_vec_rejects",
    "Verif.C64_vec_nat",
    "Verif.C64_dm_nat",
    "Verif.C64_dm_partial",
    "Verif.C64_dm_one",
    "Verif.C64_dm_false"
   ],
   "note": "proved for state vectors, including the refusals; false for density matrices: a one-qubit gate on any negative number acts on qubit 0 (proved for all n, with X(-1) on |00> as witness), and for larger gates with distinct numbers the exact outcome is proved"
  },
  {
   "property": "C65",
   "status": "partial",
   "theorems": [
    "Verif.C65_jvp_refused",
    "Verif.C65_jvp_raises",
    "Verif.C65_shots_jvp_refused",
    "Verif.C65_shots_jvp_raises",
    "Verif.C65_bwd_difference",
    "Verif.C65_bwd_factor",
    "Verif.C65_bwd_partial",
    "Verif.C65_bwd_zero",
    "Verif.C65_bwd_iff",
    "Verif.C65_bwd_others",
    "Verif.C65_bwd_false"
   ],
   "note": "the JVPs refuse every such circuit (proved); false for the backward rule: it reports sin(pi d/2)/d times the time derivative for a Hamiltonian with two eigenvalues at distance d, so it is right only for d = 1; for any Hamiltonian it reports half the difference of the values at t+pi/2 and t-pi/2; the derivatives of the other parameters are right"
  },
  {
   "property": "C66",
   "status": "proved",
   "theorems": [
    "Verif.C66_estimate",
    "Verif.C66_counts"
   ],
   "note": "one observable; its matrix is the one in listing order (see C29 for when it is the observable itself); the uniform numbers are assumed pairwise independent"
  },
  {
   "property": "C67",
   "status": "proved",
   "theorems": [
    "Verif.C67_multinomial"
   ],
   "note": "the uniform numbers are assumed independent"
  },
  {
   "property": "C68",
   "status": "proved",
   "theorems": [
    "Verif.C68_value",
    "Verif.C68_readable",
    "Verif.C68_iff",
    "Verif.C68_iff_hermitian",
    "Verif.C68_small",
    "Verif.C68_pure_small"
   ],
   "note": "exact value for every set iteration order, and the necessary and sufficient condition for agreement with state vectors; C68_small assumes that sets of integers below 8 are iterated in increasing order (CPython)"
  },
  {
   "property": "C69",
   "status": "proved",
   "theorems": [
    "Verif.C69_distinct",
    "Verif.C69_valid",
    "Verif.C69_accepts_iff",
    "Verif.C69_refused",
    "Verif.C69_refused_gap",
    "Verif.C69_first",
    "Verif.C69_stable_iff",
    "Verif.C69_repeated"
   ],
   "note": "exact for all integer qubit numbers and every np.argsort; what an accepted gate does is stated for gates not larger than the register"
  },
  {
   "property": "C70",
   "status": "proved",
   "theorems": [
    "Verif.C70_operator",
    "Verif.C70_vector",
    "Verif.C70_small"
   ],
   "note": "C70_small assumes that sets of integers below 8 are iterated in increasing order (CPython); for larger registers see C68"
  },
  {
   "property": "C71",
   "status": "proved",
   "theorems": [
    "Verif.C71_bound",
    "Verif.C71_shots",
    "Verif.C71_evolution",
    "Verif.C71_evolution_shots"
   ],
   "note": "the observable is one that the code reads as a fixed Hermitian matrix (C70 gives all Pauli sums)"
  },
  {
   "property": "C72",
   "status": "proved",
   "theorems": [
    "Verif.C72_vqe"
   ],
   "note": "Python dictionary built from any enumeration of the set of names; PHASE excluded because the backward pass refuses it (C23); the optimiser is not modelled"
  },
  {
   "property": "C73",
   "status": "proved",
   "theorems": [
    "Verif.C73_applyGates",
    "Verif.C73_run",
    "Verif.C73_expectation",
    "Verif.C73_order",
    "Verif.C73_set_order"
   ],
   "note": "C73_set_order is the counterexample for dict(zip(circuit.vparams, vals))"
  },
  {
   "property": "C74",
   "status": "proved",
   "theorems": [
    "Verif.C74_nested",
    "Verif.C74_hessian"
   ],
   "note": "circuits for which the first derivatives are right (C23, C24); JAX is modelled as applying the custom rule to each inner call with the tangents of its arguments"
  },
  {
   "property": "C75",
   "status": "proved",
   "theorems": [
    "Verif.C75_trig",
    "Verif.C75_half",
    "Verif.C75_periodic",
    "Verif.C75_periodic_four_pi",
    "Verif.C75_controlled_not_periodic",
    "Verif.C75_determined",
    "Verif.C75_feature_map"
   ],
   "note": "C75_controlled_not_periodic is the witness that controlled rotations need half-integer frequencies"
  },
  {
   "property": "C76",
   "status": "proved",
   "theorems": [
    "Verif.C76_value",
    "Verif.C76_spectrum"
   ],
   "note": "the Python classes of the documentation are modelled by the functions they call"
  },
  {
   "property": "C77",
   "status": "proved",
   "theorems": [
    "Verif.C77_size_one",
    "Verif.C77_phase",
    "Verif.C77_entries",
    "Verif.C77_refused",
    "Verif.C77_two",
    "Verif.C77_two_norm"
   ],
   "note": "stated as what the code does; the silent acceptance of [x, y] is finding 34"
  },
  {
   "property": "C78",
   "status": "proved",
   "theorems": [
    "Verif.C78_laws",
    "Verif.C78_order",
    "Verif.C78_mean_z",
    "Verif.C78_mixed",
    "Verif.C78_purity",
    "Verif.C78_unital_iff",
    "Verif.C78_dephasing",
    "Verif.C78_noisy_x",
    "Verif.C78_docs_closure",
    "Verif.C78_docs_gad"
   ],
   "note": "the two differences between docs/noise.md and the code are finding 35"
  },
  {
   "property": "C79",
   "status": "proved",
   "theorems": [
    "Verif.C79_apply_gates",
    "Verif.C79_run",
    "Verif.C79_sample",
    "Verif.C79_expectation",
    "Verif.C79_evolution"
   ],
   "note": "state vectors and noiseless gates; for density matrices see C63, C64, C68"
  },
  {
   "property": "C80",
   "status": "partial",
   "theorems": [
    "Verif.C80_first_gate",
    "Verif.C80_accepted_iff",
    "Verif.C80_default_partial",
    "Verif.C80_register_false",
    "Verif.C80_none"
   ],
   "note": "false as stated: the state has as many qubits as the first gate (witness C80_register_false); proved: which state is used, when the call is accepted, and the result when the first gate uses all qubits"
  },
  {
   "property": "C81",
   "status": "partial",
   "theorems": [
    "Verif.C81_reads_partial",
    "Verif.C81_evolution_false"
   ],
   "note": "false for HamiltonianEvolution, which reads values but is never parametric (proved); proved for all standard gates"
  },
  {
   "property": "C82",
   "status": "proved",
   "theorems": [
    "Verif.C82_formula",
    "Verif.C82_uncontrolled",
    "Verif.C82_controlled",
    "Verif.C82_four_term"
   ],
   "note": "the general formula for matrices, and the rule applied to the values the code returns; the code itself uses one gap (C23, C25)"
  },
  {
   "property": "C83",
   "status": "proved",
   "theorems": [
    "Verif.C83_hermitian_part",
    "Verif.C83_gate",
    "Verif.C83_rotation",
    "Verif.C83_evolution",
    "Verif.C83_docs"
   ],
   "note": "C83_gate: state vectors; C83_rotation: physical states of both kinds, noisy circuits"
  },
  {
   "property": "C84",
   "status": "proved",
   "theorems": [
    "Verif.C84_apply_gates",
    "Verif.C84_circuit"
   ],
   "note": "identities listed in SpecIdentities.lean; expectation for flat values; grouping by index excluded (C04)"
  },
  {
   "property": "C85",
   "status": "proved",
   "theorems": [
    "Verif.C85_smooth",
    "Verif.C85_differential",
    "Verif.C85_descent",
    "Verif.C85_gpsr_descent"
   ],
   "note": "all modes without shots; the GPSR statement in the setting of C23"
  },
  {
   "property": "C86",
   "status": "proved",
   "theorems": [
    "Verif.C86_constant",
    "Verif.C86_gradient_lost"
   ],
   "note": "derivative of the executed program with its random numbers fixed; C86_gradient_lost: exact derivative -2, estimate has derivative 0"
  },
  {
   "property": "C87",
   "status": "proved",
   "theorems": [
    "Verif.C87_robust",
    "Verif.C87_mixture",
    "Verif.C87_attained",
    "Verif.C87_evolution",
    "Verif.C87_evolution_vector"
   ],
   "note": "bounds for exact (shot-free) modes; C87_evolution: circuits with Hamiltonian evolutions, mode AD on density matrices and (C87_evolution_vector) state vectors; attained by X(0) with a bit flip and with amplitude damping for every p"
  },
  {
   "property": "C88",
   "status": "proved",
   "theorems": [
    "Verif.C88_lipschitz",
    "Verif.C88_gradient",
    "Verif.C88_attained",
    "Verif.C88_time",
    "Verif.C88_time_gradient",
    "Verif.C88_time_attained",
    "Verif.C88_hamiltonian",
    "Verif.C88_time_vector"
   ],
   "note": "C88_time, C88_time_gradient, C88_hamiltonian: AD mode on density matrices (C88_time_vector: state vectors), the names time_evolution and hamiltonian used by no other gate; controlled rotations and PHASE included; C88_attained: two RX gates with one parameter reach the bound 2"
  },
  {
   "property": "C89",
   "status": "proved",
   "theorems": [
    "Verif.C89_cone",
    "Verif.C89_constant",
    "Verif.C89_derivative",
    "Verif.C89_gradient",
    "Verif.C89_outcomes"
   ],
   "note": "C89_cone needs a non-empty cone because expectation refuses circuits without gates (C46); C89_outcomes (run) does not"
  },
  {
   "property": "C90",
   "status": "proved",
   "theorems": [
    "Verif.C90_inner",
    "Verif.C90_phase_run",
    "Verif.C90_phase_sample",
    "Verif.C90_phase",
    "Verif.C90_mixture_run",
    "Verif.C90_mixture",
    "Verif.C90_contract",
    "Verif.C90_noiseless",
    "Verif.C90_strict"
   ],
   "note": "C90_strict: with noise the distinguishability can drop from 1 to 0"
  },
  {
   "property": "C91",
   "status": "partial",
   "theorems": [
    "Verif.C91_run",
    "Verif.C91_expectation",
    "Verif.C91_separate",
    "Verif.C91_bwd",
    "Verif.C91_shots_bwd",
    "Verif.C91_jvp",
    "Verif.C91_shots_jvp",
    "Verif.C91_gradient",
    "Verif.C91_gradient_repeated",
    "Verif.C91_mixed",
    "Verif.C91_matrix_wrong"
   ],
   "note": "Proved as stated. Partial because the natural wider statement is false of the code: the JVP rules refuse values of different shapes that the forward pass accepts (C91_mixed), and with values of shape (1,1) they shift all values at once and return a wrong derivative (C91_matrix_wrong). Arrays of more than one entry in the JVP rules and array-valued Scale factors are not modelled."
  },
  {
   "property": "C92",
   "status": "proved",
   "theorems": [
    "Verif.C92_chain",
    "Verif.C92_jvp",
    "Verif.C92_grad",
    "Verif.C92_agree",
    "Verif.C92_gpsr",
    "Verif.C92_hessian",
    "Verif.C92_higher",
    "Verif.C92_run",
    "Verif.C92_twice"
   ],
   "note": "JAX is modelled by running the program on pairs of value and tangent with JAX's rules for sum, product, conjugation, real part, sin, cos, exp and expm (Model/Trace). Reverse mode is C112. Parameters are numbers; arrays are Hamiltonians."
  },
  {
   "property": "C93",
   "status": "proved",
   "theorems": [
    "Verif.C93_schroedinger",
    "Verif.C93_vonNeumann",
    "Verif.C93_response",
    "Verif.C93_heisenberg",
    "Verif.C93_jvp",
    "Verif.C93_conserved",
    "Verif.C93_stationary"
   ],
   "note": "Expectation values in gpsr mode and, for flat dictionaries, in AD mode; the parameter-shift value for the time is wrong (C65)."
  },
  {
   "property": "C94",
   "status": "proved",
   "theorems": [
    "Verif.C94_mean",
    "Verif.C94_ising",
    "Verif.C94_pauli",
    "Verif.C94_agree",
    "Verif.C94_exact"
   ],
   "note": "The draws are explicit numbers in [0,1) in the model; sample itself always uses PRNGKey(0), so two calls are not independent."
  },
  {
   "property": "C95",
   "status": "partial",
   "theorems": [
    "Verif.C95_random_false",
    "Verif.C95_gap",
    "Verif.C95_equal_moduli",
    "Verif.C95_moduli_partial",
    "Verif.C95_mean"
   ],
   "note": "false: moduli and phases are drawn with the same key, so the phases are functions of the moduli. The probability of (|x> - |y>)/sqrt 2 never exceeds 0.972, for any n and labels x, y; equal moduli only occur for uniform_state up to a phase. True: all positive moduli occur, and the mean of every basis probability is 1/2^n."
  },
  {
   "property": "C96",
   "status": "partial",
   "theorems": [
    "Verif.C96_passes_iff",
    "Verif.C96_eigenvalues",
    "Verif.C96_right_iff",
    "Verif.C96_sound_partial",
    "Verif.C96_passes_wrong",
    "Verif.C96_refuses_right"
   ],
   "note": "first half true: passed iff the matching is a permutation, and then all sampled values are eigenvalues. Second half false both ways: Z(0), H(0) can pass and be biased, Z(0), I(0) can be refused and right. C96_right_iff says exactly when estimates of an invertible observable are right; C96_sound_partial: passing is sufficient for observables commuting with a first observable without repeated eigenvalues. The code discards the result of the check."
  },
  {
   "property": "C97",
   "status": "proved",
   "theorems": [
    "Verif.C97_state",
    "Verif.C97_vector",
    "Verif.C97_hamiltonian"
   ],
   "note": "Uses the model of jax.jvp of C92. Directions that do not commute with the Hamiltonian are covered by C92_jvp (the tangent is the derivative) without a closed formula."
  },
  {
   "property": "C98",
   "status": "partial",
   "theorems": [
    "Verif.C98_array",
    "Verif.C98_circuit",
    "Verif.C98_op",
    "Verif.C98_density",
    "Verif.C98_density_false"
   ],
   "note": "True for arrays (C98_array) and QuantumCircuit objects (TypeError, C98_circuit). False for density matrices: the array is auxiliary data of the pytree, so jax.grad returns the density matrix itself, whatever the function; C98_density_false is a case where that is not the gradient. The same holds for operations (C98_op): the operation itself comes back; with a PHASE gate TypeError is raised."
  },
  {
   "property": "C99",
   "status": "partial",
   "theorems": [
    "Verif.C99_equivalence",
    "Verif.C99_equal_partial",
    "Verif.C99_circuits_partial",
    "Verif.C99_scale_iff",
    "Verif.C99_scale_false",
    "Verif.C99_circuit_iff",
    "Verif.C99_circuit_false",
    "Verif.C99_numpy_false",
    "Verif.C99_object"
   ],
   "note": "False: Scale compares its operations but not its parameter, QuantumCircuit neither n_qubits nor fparams, and numpy and Python controls are equal though they act differently (C56). True (C99_equal_partial) for operations with the same Scale parameters and without numpy controls; expectation values too (C99_circuits_partial)."
  }
 ]
}