{
 "claims": [
  {
   "property": "C01",
   "status": "proved",
   "theorems": [
    "Qadence.C01_int_to_basis_round_trip",
    "Qadence.C01_basis_to_int_round_trip",
    "Qadence.C01_int_to_basis_rejects",
    "Qadence.C01_basis_to_int_rejects_empty"
   ],
   "note": "Round trips between integers and bitstrings in both endiannesses, and rejection of inputs which do not fit."
  },
  {
   "property": "C02",
   "status": "proved",
   "theorems": [
    "Qadence.C02_default_width_minimal"
   ],
   "note": "The default width is the least width which can hold the integer."
  },
  {
   "property": "C03",
   "status": "proved",
   "theorems": [
    "Qadence.C03_nqubits_to_basis",
    "Qadence.C03_little_is_reversed_big"
   ],
   "note": "The basis list enumerates all bitstrings in numeric order; little endian is the reversal of each."
  },
  {
   "property": "C04",
   "status": "proved",
   "theorems": [
    "Qadence.C04_invert_wavefunction",
    "Qadence.C04_invert_preserves_inner_products",
    "Qadence.C04_invert_batch_involution"
   ],
   "note": "Inverting wave functions is an involution, permutes by reversing bitstrings, preserves inner products."
  },
  {
   "property": "C05",
   "status": "proved",
   "theorems": [
    "Qadence.C05_invert_counter",
    "Qadence.C05_samples_to_integers",
    "Qadence.C05_samples_to_integers_mixed_lengths_loses_shots"
   ],
   "note": "Counters keep their counts; samples_to_integers loses shots for mixed-length keys (counterexample theorem)."
  },
  {
   "property": "C06",
   "status": "proved",
   "theorems": [
    "Qadence.C06_count_bitstrings"
   ],
   "note": "count_bitstrings counts each sampled row once."
  },
  {
   "property": "C07",
   "status": "partial",
   "theorems": [
    "Qadence.C07_mul_block",
    "Qadence.C07_mul_scalar",
    "Qadence.C07_rmul_scalar",
    "Qadence.C07_mul_scalar_merges",
    "Qadence.C07_truediv",
    "Qadence.C07_truediv_block",
    "Qadence.C07_add",
    "Qadence.C07_sub",
    "Qadence.C07_neg_pos",
    "Qadence.C07_pow_partial",
    "Qadence.C07_counterexample_zero_pow_zero",
    "Qadence.C07_matmul",
    "Qadence.C07_matmul_tensor",
    "Qadence.C07_imul",
    "Qadence.C07_imul_scalar",
    "Qadence.C07_iadd",
    "Qadence.C07_isub",
    "Qadence.C07_imatmul",
    "Qadence.C07_sum"
   ],
   "note": "Every operator is proved equal to the operation on matrices. False part: Zero() ** 0 returns Zero (counterexample theorem), hence C07_pow_partial."
  },
  {
   "property": "C08",
   "status": "partial",
   "theorems": [
    "Qadence.C08_block_to_tensor_partial",
    "Qadence.C08_evolution_to_tensor_partial",
    "Qadence.C08_counterexample_tdagger",
    "Qadence.C08_counterexample_n_state",
    "Qadence.C08_counterexample_projector",
    "Qadence.C08_counterexample_unsorted",
    "Qadence.C08_counterexample_little_endian",
    "Qadence.C08_counterexample_gap",
    "Qadence.C08_counterexample_outside"
   ],
   "note": "Matrix of the operator for all blocks in the fragment, both endiannesses, including HamEvo with block generators. Counterexample theorems: TDagger (TypeError), N(state=\"0\"), Projector with ket != bra, unsorted or non-consecutive or little-endian multi-qubit Projector/MatrixBlock, blocks outside of the given support. block_to_diagonal and batched parameters are not modelled."
  },
  {
   "property": "C09",
   "status": "proved",
   "theorems": [
    "Qadence.C09_flatten_same_operator",
    "Qadence.C09_flatten_wellFormed",
    "Qadence.C09_flatten_no_nesting",
    "Qadence.C09_flatten_idempotent",
    "Qadence.C09_counterexample_tags_lost"
   ],
   "note": "Same operator, well-formedness, no nested composites of a flattened kind, idempotent; tags of spliced composites are lost (counterexample theorem)."
  },
  {
   "property": "C10",
   "status": "partial",
   "theorems": [
    "Qadence.C10_scale_pushed_same_operator_partial",
    "Qadence.C10_counterexample_empty_chain",
    "Qadence.C10_scales_on_leaves",
    "Qadence.C10_wellFormed"
   ],
   "note": "Holds if no scaled chain or kron is empty; a scaled empty chain loses its scale (counterexample theorem)."
  },
  {
   "property": "C11",
   "status": "partial",
   "theorems": [
    "Qadence.C11_fill_identities_partial",
    "Qadence.C11_fill_primitive_total",
    "Qadence.C11_counterexample_interleaved",
    "Qadence.C11_fill_identities_gap_free",
    "Qadence.C11_fill_circuit"
   ],
   "note": "If the pass returns a block then it is padded and has the same operator; it raises AssertionError on interleaved or gapped krons (counterexample theorem); total on gap-free blocks."
  },
  {
   "property": "C12",
   "status": "partial",
   "theorems": [
    "Qadence.C12_chain_single_qubit_ops_partial",
    "Qadence.C12_counterexample_shared_object",
    "Qadence.C12_counterexample_operator"
   ],
   "note": "Holds if all primitive blocks are distinct Python objects; with a shared object gates are lost (counterexample theorems)."
  },
  {
   "property": "C13",
   "status": "proved",
   "theorems": [
    "Qadence.C13_unroll_exact",
    "Qadence.C13_unroll_no_sum",
    "Qadence.C13_counterexample_nested_scale"
   ],
   "note": "Sum of weighted terms equals the operator; no sums are left except below a scale of a scale (counterexample theorem shows the limit)."
  },
  {
   "property": "C14",
   "status": "partial",
   "theorems": [
    "Qadence.C14_dagger_adjoint_partial",
    "Qadence.C14_dagger_involution",
    "Qadence.C14_dagger_qubits",
    "Qadence.C14_counterexample_projector",
    "Qadence.C14_counterexample_matrix",
    "Qadence.C14_counterexample_u"
   ],
   "note": "Adjoint and involution for all blocks whose leaves are not U, Projector or MatrixBlock with asymmetric payload; counterexample theorems for these three. HamEvo with tensor generators is not modelled."
  },
  {
   "property": "C15",
   "status": "partial",
   "theorems": [
    "Qadence.C15_reassign_renames",
    "Qadence.C15_reassign_conjugates_partial",
    "Qadence.C15_reassign_keeps_tags",
    "Qadence.C15_reassign_missing",
    "Qadence.C15_invert_endianness",
    "Qadence.C15_invert_endianness_involution",
    "Qadence.C15_counterexample_hamevo",
    "Qadence.C15_reassign_embeds_partial"
   ],
   "note": "Proved for all blocks without Hamiltonian evolution: reassign renames, conjugates the operator, keeps tags; invert_endianness is an involution. False for HamEvo, whose generator is not renamed (counterexample theorem)."
  },
  {
   "property": "C16",
   "status": "proved",
   "theorems": [
    "Qadence.C16_commuting"
   ],
   "note": "Any two parts of a Hamiltonian reported as commuting commute, for every register size. The check only accepts one Pauli per qubit, so commuting Hamiltonians can be reported as non-commuting; this is not part of the claim."
  },
  {
   "property": "C17",
   "status": "proved",
   "theorems": [
    "Qadence.C17_transpile_nil",
    "Qadence.C17_transpile_cons",
    "Qadence.C17_transpile_last",
    "Qadence.C17_transpile_append",
    "Qadence.C17_transpile_total",
    "Qadence.C17_transpile_preserves",
    "Qadence.C17_pipeline_same_operator"
   ],
   "note": "Fold laws for all lists of passes, errors propagate, operator preserving passes compose."
  },
  {
   "property": "C18",
   "status": "partial",
   "theorems": [
    "Qadence.C18_support_sound",
    "Qadence.C18_support_composite",
    "Qadence.C18_support_nodup",
    "Qadence.C18_counterexample_unsorted",
    "Qadence.C18_kron_disjoint",
    "Qadence.C18_kron_parts_commute",
    "Qadence.C18_composite_size",
    "Qadence.C18_circuit_fits_partial",
    "Qadence.C18_circuit_accepts_iff",
    "Qadence.C18_counterexample_parametric_control",
    "Qadence.C18_counterexample_t_gate",
    "Qadence.C18_counterexample_toffoli"
   ],
   "note": "Support soundness, composition, kron disjointness and circuit acceptance. False parts with counterexample theorems: supports of primitive blocks need not be sorted, n_qubits of parametric controls, S/T and Toffoli is not a sufficient register size, so a circuit can be too small for its block."
  },
  {
   "property": "C19",
   "status": "partial",
   "theorems": [
    "Qadence.C19_sum_of_local_supports_is_union",
    "Qadence.C19_sum_nodup",
    "Qadence.C19_local_comm_assoc",
    "Qadence.C19_idempotent",
    "Qadence.C19_global_sum",
    "Qadence.C19_is_disjoint",
    "Qadence.C19_global_never_disjoint",
    "Qadence.C19_constructor",
    "Qadence.C19_counterexample_global_not_associative"
   ],
   "note": "Union laws hold for local supports, as sets of qubits. False parts: associativity with \"global\" (counterexample theorem); the order of the resulting tuple is the unspecified order of a Python set."
  },
  {
   "property": "C20",
   "status": "partial",
   "theorems": [
    "Qadence.C20_equal_partial",
    "Qadence.C20_same_equal",
    "Qadence.C20_reflexive",
    "Qadence.C20_no_exception",
    "Qadence.C20_symmetric_partial",
    "Qadence.C20_counterexample_multiplicity",
    "Qadence.C20_counterexample_deep",
    "Qadence.C20_counterexample_number",
    "Qadence.C20_counterexample_projector",
    "Qadence.C20_counterexample_matrix",
    "Qadence.C20_counterexample_generator",
    "Qadence.C20_counterexample_parameter",
    "Qadence.C20_counterexample_u",
    "Qadence.C20_cz_mcz"
   ],
   "note": "All nested blocks of gates without U, with or without parameters: equal blocks are the same up to the order of krons and sums and denote the same operator, symmetric; reflexive and complete for all blocks without U. Hypotheses (Faithful): no N, projector, matrix block or evolution, no part twice, no part found only inside another part, no parameter compared with an expression containing it; each is a counterexample theorem."
  },
  {
   "property": "C21",
   "status": "partial",
   "theorems": [
    "Qadence.C21_round_trip_partial",
    "Qadence.C21_loads_iff",
    "Qadence.C21_loaded",
    "Qadence.C21_exact",
    "Qadence.C21_same_operator",
    "Qadence.C21_equal",
    "Qadence.C21_second_trip",
    "Qadence.C21_counterexample_classes",
    "Qadence.C21_unreadable_angle",
    "Qadence.C21_register_iff",
    "Qadence.C21_counterexample_register",
    "Qadence.C21_circuit_partial",
    "Qadence.C21_counterexample_gate_tag",
    "Qadence.C21_counterexample_circuit_tag"
   ],
   "note": "For all nested blocks of I, X, Y, Z, H, S, SDagger, T, TDagger, SWAP, RX, RY, RZ, CNOT, CZ, scales and composites with any valid noise: same gates, qubits, parameters, noise, order, tags of the root and of composites; same operator; equal for ==. Iff: any other gate at any depth raises. Registers survive iff the smallest distance is 1 or 0. False parts (counterexample theorems): the other gate classes, tags of nested gates and scales, tag of a root gate in circuits, spacing of registers. Reading of expressions is a hypothesis (C70)."
  },
  {
   "property": "C22",
   "status": "proved",
   "theorems": [
    "Qadence.C22_blocks_by_tag"
   ],
   "note": "Exactly the blocks carrying the tag, in depth-first order, each once per position; not inside scale blocks, as in the code."
  },
  {
   "property": "C23",
   "status": "proved",
   "theorems": [
    "Qadence.C23_construct_iff",
    "Qadence.C23_valid_after_any_history",
    "Qadence.C23_failure_changes_nothing",
    "Qadence.C23_append_is_concatenation"
   ],
   "note": "State machine over histories of constructions, appends and filters."
  },
  {
   "property": "C24",
   "status": "proved",
   "theorems": [
    "Qadence.C24_filter"
   ],
   "note": "Filter soundness, completeness and totality on valid handlers."
  },
  {
   "property": "C25",
   "status": "partial",
   "theorems": [
    "Qadence.C25_equal_content_compares_equal_partial",
    "Qadence.C25_symmetric_partial",
    "Qadence.C25_equal_length_partial",
    "Qadence.C25_counterexample_prefix_compares_equal",
    "Qadence.C25_counterexample_not_transitive",
    "Qadence.C25_dict_round_trip"
   ],
   "note": "Equality ignores the length: prefix handlers compare equal and equality is not transitive (counterexample theorems). Proved: reflexive, symmetric, correct for equal lengths, dictionary round trip."
  },
  {
   "property": "C26",
   "status": "proved",
   "theorems": [
    "Qadence.Readout.C26_probability",
    "Qadence.Readout.C26_closest",
    "Qadence.Readout.C26_fixed",
    "Qadence.Readout.C26_argsort"
   ],
   "note": "All dimensions, all real vectors of unit sum, every argsort. Exact real arithmetic."
  },
  {
   "property": "C27",
   "status": "partial",
   "theorems": [
    "Qadence.Readout.C27_nonneg_partial",
    "Qadence.Readout.C27_total_partial",
    "Qadence.Readout.C27_counterexample_total",
    "Qadence.Readout.C27_counterexample_division",
    "Qadence.Readout.C27_counter_partial",
    "Qadence.Readout.C27_counterexample_negative"
   ],
   "note": "Non-negativity of renormalize_counts, distance of its total from the number of shots, and total and non-negativity of the final counter under the stated hypothesis. The claim itself is false: counterexample theorems for the total, for a division by zero and for the total of the final counter."
  },
  {
   "property": "C28",
   "status": "proved",
   "theorems": [
    "Qadence.PSR.C28_single_gap",
    "Qadence.PSR.C28_second_order",
    "Qadence.PSR.C28_counterexample_default_shift"
   ],
   "note": "All coefficients, gaps, admissible shifts and points; second order. The default shift is not admissible for gap 16 (counterexample theorem). Exact real arithmetic."
  },
  {
   "property": "C29",
   "status": "proved",
   "theorems": [
    "Qadence.PSR.C29_multi_gap",
    "Qadence.PSR.C29_multi_gap_formula",
    "Qadence.PSR.C29_nested",
    "Qadence.PSR.C29_second_order",
    "Qadence.PSR.C29_general",
    "Qadence.PSR.C29_counterexample_small_gap",
    "Qadence.PSR.C29_counterexample_rounding"
   ],
   "note": "multi_gap_psr for all numbers of gaps, shifts with a solvable system, nested and mixed. general_psr in addition under the hypothesis that eigenvalue differences are multiples of 0.0001; without it counterexample theorems (rounding, small gaps)."
  },
  {
   "property": "C30",
   "status": "proved",
   "theorems": [
    "Qadence.FiniteDiff.C30_negative_index",
    "Qadence.FiniteDiff.C30_first",
    "Qadence.FiniteDiff.C30_second",
    "Qadence.FiniteDiff.C30_third",
    "Qadence.FiniteDiff.C30_mixed",
    "Qadence.FiniteDiff.C30_polynomial",
    "Qadence.FiniteDiff.C30_no_index",
    "Qadence.FiniteDiff.C30_first_sharp"
   ],
   "note": "All functions polynomial along the coordinate, all steps, and all nested mixed derivatives of polynomials in several variables with default steps. Exact real arithmetic."
  },
  {
   "property": "C31",
   "status": "proved",
   "theorems": [
    "Qadence.Measure.C31_mean",
    "Qadence.Measure.C31_range",
    "Qadence.Measure.C31_counterexample_unequal_shots",
    "Qadence.Measure.C31_born",
    "Qadence.Measure.C31_unbiased"
   ],
   "note": "All counters with a common number of shots, all supports; exact for Born frequencies, unbiased for independent shots. With different numbers of shots the result is wrong (counterexample theorem)."
  },
  {
   "property": "C32",
   "status": "proved",
   "theorems": [
    "Qadence.Measure.C32_marginal",
    "Qadence.Measure.C32_get_counts",
    "Qadence.Measure.C32_empty",
    "Qadence.Measure.C32_out_of_range"
   ],
   "note": "All counters, all supports in range; errors for empty counters and indices out of range."
  },
  {
   "property": "C33",
   "status": "partial",
   "theorems": [
    "Qadence.Measure.C33_rotate",
    "Qadence.Measure.C33_tomography_partial",
    "Qadence.Measure.C33_counterexample_identity",
    "Qadence.Measure.C33_counterexample_number",
    "Qadence.Measure.C33_counterexample_nested",
    "Qadence.Measure.C33_counterexample_inner_scale",
    "Qadence.Measure.C33_counterexample_identity_batch"
   ],
   "note": "Rotations exact for all Pauli strings; exact estimates for sums of scaled Pauli strings and all batches. False parts (counterexample theorems): identity or N inside a string, nested krons, factors inside krons, identity terms with batches."
  },
  {
   "property": "C34",
   "status": "partial",
   "theorems": [
    "Qadence.Decompose.C34_filled",
    "Qadence.Decompose.C34_pauli_exp_partial",
    "Qadence.Decompose.C34_counterexample_gap",
    "Qadence.Decompose.C34_counterexample_identity",
    "Qadence.Decompose.C34_counterexample_number",
    "Qadence.Decompose.C34_counterexample_one_part",
    "Qadence.Decompose.C34_counterexample_nested"
   ],
   "note": "Exact for all products of X, Y, Z on different qubits without gaps; C34_filled describes the operator for all letters and supports. False parts (counterexample theorems): gaps in the support, I, N, krons with one part, nested krons."
  },
  {
   "property": "C35",
   "status": "partial",
   "theorems": [
    "Qadence.Decompose.C35_counterexample_odd_y",
    "Qadence.Decompose.C35_order_ignored",
    "Qadence.Decompose.C35_counterexample_order_ignored",
    "Qadence.Decompose.C35_schedule_partial",
    "Qadence.Decompose.C35_commuting_partial",
    "Qadence.Decompose.C35_digital_decomposition_partial"
   ],
   "note": "Schedule with shares adding up to the total time, palindromic for orders 2 and 4, exact for commuting terms, for every number of terms; hypothesis for orders 2 and 4: even number of Y in all terms but the last. False parts (counterexample theorems): odd number of Y; the order asked for is ignored for non-commuting generators."
  },
  {
   "property": "C36",
   "status": "partial",
   "theorems": [
    "Qadence.C36_all_parameters_collected",
    "Qadence.C36_gate_value",
    "Qadence.C36_same_expression_same_value",
    "Qadence.C36_gate_total",
    "Qadence.C36_gate_value_batch",
    "Qadence.C36_constants_partial",
    "Qadence.C36_counterexample_alias",
    "Qadence.C36_expression_level_partial",
    "Qadence.C36_inputs_win_partial",
    "Qadence.C36_counterexample_names"
   ],
   "note": "All parameters are collected; gate-level values, supplied values win, same expression same value, totality, elementwise values on batches. False parts (counterexample theorems): constants -1 and -2 alias, names with dots alias at expression level. The constant and expression-level parts therefore assume that names do not clash. Constant arrays and time-dependent durations are not modelled."
  },
  {
   "property": "C37",
   "status": "proved",
   "theorems": [
    "Qadence.C37_split",
    "Qadence.C37_split_empty",
    "Qadence.C37_mismatched_lengths_accepted"
   ],
   "note": "For all dictionaries whose tensor lengths are 1 or the batch size; other lengths are accepted silently (shown by a theorem)."
  },
  {
   "property": "C38",
   "status": "partial",
   "theorems": [
    "Qadence.C38_distinct_names_partial",
    "Qadence.C38_counterexample_minus_one_minus_two",
    "Qadence.C38_counterexample_small_float",
    "Qadence.C38_counterexample_complex"
   ],
   "note": "False: -1 and -2, 1 and 2^-61, 1j and 1000003 share their names (counterexample theorems). Proved: different real constants on a common binary grid get different names unless they are -1 and -2."
  },
  {
   "property": "C39",
   "status": "proved",
   "theorems": [
    "Qadence.C39_pairs_once",
    "Qadence.C39_distances",
    "Qadence.C39_rescale",
    "Qadence.C39_spacing",
    "Qadence.C39_from_coordinates",
    "Qadence.C39_from_coordinates_spacing",
    "Qadence.C39_line",
    "Qadence.C39_coincident_nodes_ignore_spacing"
   ],
   "note": "For all planar registers in exact real arithmetic: distances cover each pair once, rescaling multiplies distances by the absolute factor, the spacing becomes the smallest distance, line registers. With coincident nodes the spacing is silently ignored (shown by a theorem). The layouts computed by networkx are inputs."
  },
  {
   "property": "C40",
   "status": "proved",
   "theorems": [
    "Qadence.C40_operator",
    "Qadence.C40_rejects_wrong_length",
    "Qadence.C40_total",
    "Qadence.C40_rejects_unsupported"
   ],
   "note": "Operator for all registers, interactions (including custom functions), detunings and strengths; wrong lengths and unsupported arguments rejected; totality. Random strengths are arbitrary numbers."
  },
  {
   "property": "C41",
   "status": "partial",
   "theorems": [
    "Qadence.Ansatz.C41_hea_digital",
    "Qadence.Ansatz.C41_hea_digital_rotations",
    "Qadence.Ansatz.C41_hea_sdaqc",
    "Qadence.Ansatz.C41_ala",
    "Qadence.Ansatz.C41_hamiltonian_partial",
    "Qadence.Ansatz.C41_counterexample_hamiltonian_pairs",
    "Qadence.Ansatz.C41_counterexample_hamiltonian_prefix",
    "Qadence.Ansatz.C41_counterexample_iia",
    "Qadence.Ansatz.C41_iia_gates_partial",
    "Qadence.Ansatz.C41_iia_rotations_partial"
   ],
   "note": "Proved for hea (digital: all names, and rotation/entangler numbering; SDAQC), ala, hamiltonian_factory with node labels below 100 and ascending pairs, and iia up to depth 10. False parts (counterexample theorems): hamiltonian_factory pair names and prefixes clash, iia names clash from depth 12 on."
  },
  {
   "property": "C42",
   "status": "partial",
   "theorems": [
    "Qadence.Ansatz.C42_ala_layer",
    "Qadence.Ansatz.C42_ala_layer_valid",
    "Qadence.Ansatz.C42_ala_two_layers",
    "Qadence.Ansatz.C42_ala_layer_total",
    "Qadence.Ansatz.C42_counterexample_ala_small",
    "Qadence.Ansatz.C42_ala",
    "Qadence.Ansatz.C42_ala_total",
    "Qadence.Ansatz.C42_hea_layer",
    "Qadence.Ansatz.C42_hea_layer_valid",
    "Qadence.Ansatz.C42_hea_partial",
    "Qadence.Ansatz.C42_counterexample_periodic_odd",
    "Qadence.Ansatz.C42_counterexample_one_qubit",
    "Qadence.Ansatz.C42_hea_layer_total",
    "Qadence.Ansatz.C42_hea_total"
   ],
   "note": "Pairs linked and disjointness of every kron for every n, block size and depth; totality for n >= 2 (hea) and blocks shorter than the register (ala). False parts (counterexample theorems): hea periodic on an odd register misses the wrap-around link, hea on one qubit raises, ala on registers not longer than a block raises."
  },
  {
   "property": "C43",
   "status": "proved",
   "theorems": [
    "Qadence.Ansatz.C43_identity",
    "Qadence.Ansatz.C43_initial_identity",
    "Qadence.Ansatz.C43_total"
   ],
   "note": "The operator at the initial values is the identity for all register sizes, depths, rotation lists and entanglers, digital and digital-analog; the constructor succeeds. Periodic on one qubit (a gate controlled by its own target) is excluded."
  },
  {
   "property": "C44",
   "status": "proved",
   "theorems": [
    "Qadence.QFT.C44_fourier",
    "Qadence.QFT.C44_dft",
    "Qadence.QFT.C44_inverse",
    "Qadence.QFT.C44_refuses",
    "Qadence.QFT.C44_counterexample_short_support",
    "Qadence.QFT.C44_sdaqc",
    "Qadence.QFT.C44_sdaqc_default",
    "Qadence.QFT.C44_sdaqc_refuses",
    "Qadence.QFT.C44_sdaqc_four"
   ],
   "note": "Digital: every n, every support, all options; the inverse is the adjoint, the composition is the identity, the operator is the Fourier matrix. Digital-analog: equal to the digital operator for every n except 4 (refused by the code), covering ZZ or NN build Hamiltonians, slice times outside the dropped range. A support shorter than n_qubits raises (counterexample theorem)."
  },
  {
   "property": "C45",
   "status": "partial",
   "theorems": [
    "Qadence.DAQC.C45_counterexample_set_order",
    "Qadence.DAQC.C45_counterexample_N_state",
    "Qadence.DAQC.C45_ix_map",
    "Qadence.DAQC.C45_invertible",
    "Qadence.DAQC.C45_singular_four",
    "Qadence.DAQC.C45_exact",
    "Qadence.DAQC.C45_ignore_phases",
    "Qadence.DAQC.C45_error_bound",
    "Qadence.DAQC.C45_refuses",
    "Qadence.DAQC.C45_uncovered",
    "Qadence.DAQC.C45_refuses_parameter",
    "Qadence.DAQC.C45_default_build"
   ],
   "note": "Exact for every n except 4 (refused by the code), all ZZ and NN targets and builds, all couplings and times, with an error bound for dropped slices; index map bijective; sign matrix invertible except for n = 4. False parts (counterexample theorems): pairs whose set is not iterated in ascending order (possible from 9 qubits on), N operators with state 0."
  },
  {
   "property": "C46",
   "status": "partial",
   "theorems": [
    "Qadence.FeatureMap.C46_scaling_affine_partial",
    "Qadence.FeatureMap.C46_scaling_bijection_partial",
    "Qadence.FeatureMap.C46_scaling_error",
    "Qadence.FeatureMap.C46_scaling_degenerate",
    "Qadence.FeatureMap.C46_scaling_defaults",
    "Qadence.FeatureMap.C46_scaling_identity",
    "Qadence.FeatureMap.C46_counterexample_isclose",
    "Qadence.FeatureMap.C46_feature_map_accepts",
    "Qadence.FeatureMap.C46_feature_map_operator",
    "Qadence.FeatureMap.C46_exp_fourier",
    "Qadence.FeatureMap.C46_parallel_split",
    "Qadence.FeatureMap.C46_series_support",
    "Qadence.FeatureMap.C46_fm_qubits_parallel",
    "Qadence.FeatureMap.C46_fm_qubits_rest",
    "Qadence.FeatureMap.C46_uploads",
    "Qadence.FeatureMap.C46_encode_parallel",
    "Qadence.FeatureMap.C46_encode_series",
    "Qadence.FeatureMap.C46_build_idx_fms",
    "Qadence.FeatureMap.C46_build_idx_operator"
   ],
   "note": "Affine bijection for all ranges whose factor is one or not within 1e-9 of one, with an error bound for all ranges; exact acceptance conditions, angles and operators of feature maps; splitting and numbers of uploads for all sizes. False part (counterexample theorem): factors close to one are replaced by one."
  },
  {
   "property": "C47",
   "status": "partial",
   "theorems": [
    "Qadence.C47_exact",
    "Qadence.C47_compute_uncompute_partial",
    "Qadence.C47_compute_uncompute_counts_partial",
    "Qadence.C47_swap_test",
    "Qadence.C47_swap_test_counts",
    "Qadence.C47_hadamard_test_partial",
    "Qadence.C47_hadamard_test_counts_partial",
    "Qadence.C47_unit_interval",
    "Qadence.C47_methods_agree_partial",
    "Qadence.C47_counts_range",
    "Qadence.C47_counterexample_counts",
    "Qadence.C47_counterexample_u",
    "Qadence.C47_counterexample_size"
   ],
   "note": "All methods, all registers, all batches of parameter values. EXACT and swap test for all circuits of gates; compute-uncompute and Hadamard test for kets whose dagger is right (C14) and, for the Hadamard test, blocks with the right n_qubits (C18). Hamiltonian evolutions are not covered. False parts (counterexample theorems): U with different outer angles, single T on a higher qubit, finite-shot estimates outside [0, 1]."
  },
  {
   "property": "C48",
   "status": "proved",
   "theorems": [
    "Qadence.States.C48_product_block",
    "Qadence.States.C48_zero_block",
    "Qadence.States.C48_one_block",
    "Qadence.States.C48_uniform_block",
    "Qadence.States.C48_ghz_block",
    "Qadence.States.C48_unit_vectors",
    "Qadence.States.C48_is_normalized",
    "Qadence.States.C48_normalize",
    "Qadence.States.C48_pmf",
    "Qadence.States.C48_product_state",
    "Qadence.States.C48_product_states",
    "Qadence.States.C48_no_qubits",
    "Qadence.States.C48_rand_product_state",
    "Qadence.States.C48_rand_haar_fast",
    "Qadence.States.C48_density_mat",
    "Qadence.States.C48_overlap"
   ],
   "note": "Blocks and state functions for all n and all bitstrings, both endiannesses; normalisation of all of them; pmf, density matrix, overlap of states. product_state: for a simulation which returns the amplitudes of the specified operator."
  },
  {
   "property": "C49",
   "status": "partial",
   "theorems": [
    "Qadence.C49_end_events_current",
    "Qadence.C49_runs_iff",
    "Qadence.C49_manager",
    "Qadence.C49_epoch_end_schedule",
    "Qadence.C49_counterexample_zero",
    "Qadence.C49_counterexample_epoch_start"
   ],
   "note": "Proved for events at the end of a phase, under arbitrary interference, and the exact schedule at train_epoch_end. Counterexample theorems: called_every = 0 does not disable train_start/train_end callbacks (and their condition is ignored); callbacks at the start of an epoch see the previous epoch number. One process; test events are not modelled."
  },
  {
   "property": "C50",
   "status": "proved",
   "theorems": [
    "Qadence.C50_early_stopping",
    "Qadence.C50_missing_metric",
    "Qadence.C50_best_value",
    "Qadence.C50_counterexample_mode",
    "Qadence.C50_save_best",
    "Qadence.C50_best_is_best",
    "Qadence.C50_no_criterion"
   ],
   "note": "Characterisation of the stop requests over all histories including NaN and infinities; the stored checkpoint is the best accepted one for every strict order criterion. Modes other than min/max never improve (counterexample theorem)."
  },
  {
   "property": "C51",
   "status": "partial",
   "theorems": [
    "Qadence.C51_step_decay",
    "Qadence.C51_cyclic_triangle",
    "Qadence.C51_cyclic_bounds",
    "Qadence.C51_cyclic_period",
    "Qadence.C51_cyclic_limits",
    "Qadence.C51_cosine_closed_form",
    "Qadence.C51_cosine_partial",
    "Qadence.C51_counterexample_cosine_compounds"
   ],
   "note": "Cyclic: triangle formula, bounds, period, limits; step decay: closed form. False part: cosine annealing compounds (counterexample theorem); proved: closed form of what it does, single call, bounds. Exact real arithmetic."
  },
  {
   "property": "C52",
   "status": "partial",
   "theorems": [
    "Qadence.C52_highest",
    "Qadence.C52_member",
    "Qadence.C52_training_run_partial",
    "Qadence.C52_counterexample_kind",
    "Qadence.C52_counterexample_device"
   ],
   "note": "Highest index among the candidates for all directories; full statement for directories written by a training run whose class names do not contain the other kind; counterexample theorems for class names containing the kind and for a single file of another device."
  },
  {
   "property": "C53",
   "status": "partial",
   "theorems": [
    "Qadence.C53_set_get",
    "Qadence.C53_get_set",
    "Qadence.C53_num",
    "Qadence.C53_too_short",
    "Qadence.C53_rejects_partial",
    "Qadence.C53_counterexample_too_long",
    "Qadence.C53_counterexample_partial_update"
   ],
   "note": "Round trips, frozen parameters, short vectors rejected. False part: long vectors are accepted silently (counterexample theorem)."
  },
  {
   "property": "C54",
   "status": "partial",
   "theorems": [
    "Qadence.C54_no_epoch_after_stop",
    "Qadence.C54_epochs",
    "Qadence.C54_counterexample_extra_epoch",
    "Qadence.C54_validation_schedule"
   ],
   "note": "No epoch after a stop or interrupt under arbitrary interference; validation schedule; the number of epochs is max_iter + 1, one more than configured (counterexample theorem)."
  },
  {
   "property": "C55",
   "status": "partial",
   "theorems": [
    "Qadence.C55_chain_accepts",
    "Qadence.C55_kron_accepts",
    "Qadence.C55_kron_disjoint_partial",
    "Qadence.C55_duration_partial",
    "Qadence.C55_duration_integers",
    "Qadence.C55_kron_duration",
    "Qadence.C55_chain_duration",
    "Qadence.C55_counterexample_tolerance",
    "Qadence.C55_counterexample_parameter_values",
    "Qadence.C55_counterexample_hidden_global",
    "Qadence.C55_counterexample_gap",
    "Qadence.C55_counterexample_nested_chain"
   ],
   "note": "Which chains and krons are accepted is characterised for all parts; durations add up over chains and are the common value over krons up to the tolerance (exactly for integers). Disjointness for blocks without global parts inside chains. False parts (counterexample theorems): tolerance, values of parameters at construction, hidden global blocks, gaps, nested chains."
  },
  {
   "property": "C56",
   "status": "partial",
   "theorems": [
    "Qadence.C56_van_der_waals",
    "Qadence.C56_dipolar",
    "Qadence.C56_unknown_level",
    "Qadence.C56_scaling",
    "Qadence.C56_rescaled_register",
    "Qadence.C56_drive",
    "Qadence.C56_execution_partial",
    "Qadence.C56_device_partial",
    "Qadence.C56_kron_sequence",
    "Qadence.C56_counterexample_kron_interactions",
    "Qadence.C56_counterexample_kron_drops",
    "Qadence.C56_counterexample_interaction_support",
    "Qadence.C56_analog_rot",
    "Qadence.C56_counterexample_kron",
    "Qadence.C56_analog_rotations"
   ],
   "note": "Interaction (NN and XY) and drive Hamiltonians equal the documented sums for every register in the plane, each pair once, scaling with the inverse sixth power; conversion of all nested analog blocks whose krons have exactly one rotation. False parts (counterexample theorems): krons run in sequence, drop interaction parts, raise without rotations; local supports of interaction blocks are ignored."
  },
  {
   "property": "C57",
   "status": "partial",
   "theorems": [
    "Qadence.C57_rotation_is_exponential",
    "Qadence.C57_rotation_additive",
    "Qadence.C57_rotation_adjoint",
    "Qadence.C57_rotation_unitary",
    "Qadence.C57_u_euler",
    "Qadence.C57_u_entries",
    "Qadence.C57_u_unitary",
    "Qadence.C57_phase_additive",
    "Qadence.C57_phase_unitary",
    "Qadence.C57_phase_rz",
    "Qadence.C57_constants_unitary",
    "Qadence.C57_constants_hermitian",
    "Qadence.C57_constants_relations",
    "Qadence.C57_sdagger_adjoint",
    "Qadence.C57_counterexample_tdagger",
    "Qadence.C57_swap_three_cnots",
    "Qadence.C57_cswap_three_toffolis"
   ],
   "note": "All identities for all angles; the table entry for T_dagger is T itself, not its adjoint (counterexample theorem)."
  },
  {
   "property": "C58",
   "status": "partial",
   "theorems": [
    "Qadence.ZNE.C58_exact_partial",
    "Qadence.ZNE.C58_counterexample_repeated_levels"
   ],
   "note": "Exact for pairwise distinct levels. With repeated levels the least squares problem is singular and the smallest solution is not the polynomial (counterexample theorem)."
  },
  {
   "property": "C59",
   "status": "partial",
   "theorems": [
    "Qadence.Info.C59_reshape_partial",
    "Qadence.Info.C59_counterexample_scalar_parameter",
    "Qadence.Info.C59_losses",
    "Qadence.Info.C59_slopes",
    "Qadence.Info.C59_discretize",
    "Qadence.Info.C59_negative_threshold",
    "Qadence.Info.C59_rates",
    "Qadence.Info.C59_rates_sum",
    "Qadence.Info.C59_content",
    "Qadence.Info.C59_flat",
    "Qadence.Info.C59_sharp",
    "Qadence.Info.C59_max_IC",
    "Qadence.Info.C59_sensitivity",
    "Qadence.Info.C59_sensitivity_total",
    "Qadence.Info.C59_q_value",
    "Qadence.Info.C59_bounds_partial",
    "Qadence.Info.C59_q_below_sixth",
    "Qadence.Info.C59_counterexample_crossed_bounds",
    "Qadence.Info.C59_sensitivity_bound"
   ],
   "note": "Rates are non-negative and sum to at most 1, the content lies in [0,1] (1 is reached: C59_sharp), the discretisation is exclusive for thresholds >= 0; the content is within 0.0031 of the entropy of the turns, max_IC, sensitivity_IC and q_value do what they say, and the gradient bounds are characterised. False: parameters of shape () raise TypeError, negative thresholds are not exclusive, and at IC = 1 the lower bound exceeds the upper one (theorems). Real arithmetic; inv_cdf is any function with the order and symmetry of the normal quantile."
  },
  {
   "property": "C60",
   "status": "partial",
   "theorems": [
    "Qadence.Shadow.C60_groups",
    "Qadence.Shadow.C60_estimators",
    "Qadence.Shadow.C60_snapshot",
    "Qadence.Shadow.C60_counterexample_one_qubit",
    "Qadence.Shadow.C60_mean_partial",
    "Qadence.Shadow.C60_conditional",
    "Qadence.Shadow.C60_median",
    "Qadence.Shadow.C60_estimate",
    "Qadence.Shadow.C60_layout",
    "Qadence.Shadow.C60_numbers",
    "Qadence.Shadow.C60_counterexample_biased",
    "Qadence.Shadow.C60_counterexample_order",
    "Qadence.Shadow.C60_counterexample_repeated",
    "Qadence.Shadow.C60_counterexample_scaled",
    "Qadence.Shadow.C60_plan",
    "Qadence.Shadow.C60_counterexample_options",
    "Qadence.Shadow.C60_counterexample_group_size"
   ],
   "note": "Proved: groups are disjoint slices of N/K snapshots; for words written in the order of their support the estimators are the means over the matching snapshots of a group; the circuits of the snapshots rotate measured words to Z strings; the exact mean value of a group estimator is (1-(1-3^-w)^(N/K)) times the expectation value, and it is unbiased given bases which measure the word; medians, coefficients, layout, numbers of snapshots and groups. False (theorems): unbiasedness, order of letters, repeated letters, nested scale factors, single qubits, missing options, size of the groups."
  },
  {
   "property": "C61",
   "status": "proved",
   "theorems": [
    "Qadence.PSR.C61_gates",
    "Qadence.PSR.C61_evolution"
   ],
   "note": "Gates: no further hypotheses. Evolutions: Hermitian generator, complete list of eigenvalues, differences on the rounding grid, admissible default shifts. Chain rule to user parameters is done by torch and not modelled."
  },
  {
   "property": "C62",
   "status": "partial",
   "theorems": [
    "Qadence.C62_replaced",
    "Qadence.C62_total",
    "Qadence.C62_operator",
    "Qadence.C62_identity_partial",
    "Qadence.C62_counterexample_tag",
    "Qadence.C62_set_noise_partial",
    "Qadence.C62_noise_operator",
    "Qadence.C62_counterexample_scaled"
   ],
   "note": "apply_fn_to_blocks for all functions and all blocks; set_noise exact for all blocks without scale blocks, operator and qubits unchanged for all. False parts (counterexample theorems): gates below scale blocks keep their noise; tags of composite blocks are lost."
  },
  {
   "property": "C63",
   "status": "partial",
   "theorems": [
    "Qadence.C63_rotation",
    "Qadence.C63_noiseless_partial",
    "Qadence.C63_sixth_root",
    "Qadence.C63_counterexample_interacting",
    "Qadence.C63_counterexample_interaction",
    "Qadence.C63_counterexample_kron",
    "Qadence.C63_counterexample_pattern"
   ],
   "note": "Unchanged for chains of rotations without interacting atoms; C63_rotation gives the exact evolution on every register. False for interacting atoms (counterexample theorem): the coordinates would have to be scaled by the sixth root (C63_sixth_root). Interaction blocks raise, krons are not stretched, add_pattern is lost (counterexample theorems)."
  },
  {
   "property": "C64",
   "status": "partial",
   "theorems": [
    "Qadence.Measure.C64_samples_partial",
    "Qadence.Measure.C64_refused",
    "Qadence.Measure.C64_counterexample_identity"
   ],
   "note": "Exact for sums of scaled Z strings; refusals. False part (counterexample theorem): identities inside sums are measured as Z."
  },
  {
   "property": "C65",
   "status": "partial",
   "theorems": [
    "Qadence.FeatureMap.C65_strategy_partial",
    "Qadence.FeatureMap.C65_counterexample_strategy"
   ],
   "note": "Proved for operations which fit the strategy. False otherwise (counterexample theorem): the isinstance tests are applied to classes and never succeed."
  },
  {
   "property": "C66",
   "status": "partial",
   "theorems": [
    "Qadence.Decompose.C66_counterexample_u",
    "Qadence.Decompose.C66_counterexample_scale",
    "Qadence.Decompose.C66_counterexample_kron",
    "Qadence.Decompose.C66_digitalize_partial"
   ],
   "note": "Same operator, no new qubits, no exception for all blocks without U whose evolutions are covered by C35. False parts (counterexample theorems): U gates, evolutions inside scale blocks, krons next to evolutions with gaps."
  },
  {
   "property": "C67",
   "status": "proved",
   "theorems": [
    "Qadence.C67_circuit_unitary",
    "Qadence.C67_gates_unitary",
    "Qadence.C67_norm_preserved",
    "Qadence.C67_not_unitary"
   ],
   "note": "All blocks of chain, kron and factors of modulus one over gates with real angles and evolutions with Hermitian generators; C67_not_unitary shows that sums, projectors and number operators have to be excluded."
  },
  {
   "property": "C68",
   "status": "partial",
   "theorems": [
    "Qadence.C68_js_divergence",
    "Qadence.C68_overlap",
    "Qadence.C68_counterexample_orthogonal",
    "Qadence.C68_counterexample_phase",
    "Qadence.C68_counterexample_zero_count",
    "Qadence.C68_norm_difference_partial",
    "Qadence.C68_counterexample_norm_difference",
    "Qadence.C68_counterexample_norm_shape"
   ],
   "note": "js_divergence fully, for all counters with positive counts. norm_difference only for counters with the same outcomes in the same order. False parts (counterexample theorems): norm_difference compares by position; the overlap derived from the divergence is not a squared inner product; counts of zero give nan."
  },
  {
   "property": "C69",
   "status": "partial",
   "theorems": [
    "Qadence.C69_grid",
    "Qadence.C69_pairs",
    "Qadence.C69_sizes",
    "Qadence.C69_counterexample_shared",
    "Qadence.C69_counterexample_hadamard",
    "Qadence.C69_bra_only",
    "Qadence.C69_counterexample_zip",
    "Qadence.C69_counterexample_ket_only",
    "Qadence.C69_counterexample_bra_only",
    "Qadence.C69_many",
    "Qadence.C69_counterexample_scalar"
   ],
   "note": "All methods for different feature parameters; exact and Jensen-Shannon for a shared one; exact for a parameter of the bra only. False parts (counterexample theorems): shared parameter with merged circuits, parameters on one side only, values without batch dimension."
  },
  {
   "property": "C70",
   "status": "partial",
   "theorems": [
    "Qadence.Serial.C70_language",
    "Qadence.Serial.C70_unambiguous",
    "Qadence.Serial.C70_characters",
    "Qadence.Serial.C70_fuel",
    "Qadence.Serial.C70_counterexample_builtin",
    "Qadence.Serial.C70_round_trip_partial",
    "Qadence.Serial.C70_injective",
    "Qadence.Serial.C70_constants_rejected",
    "Qadence.Serial.C70_counterexample_pi",
    "Qadence.Serial.C70_counterexample_exponent",
    "Qadence.Serial.C70_counterexample_time",
    "Qadence.Serial.C70_counterexample_name",
    "Qadence.Serial.C70_counterexample_same_name"
   ],
   "note": "The language of the grammar is characterised exactly, for all strings; round trip for all expressions of parameters, integers, fractions, decimal numbers and functions with names accepted by the grammar. False parts (counterexample theorems): every expression with a constant such as pi is rejected on reading (C70_constants_rejected, for all such expressions), numbers with an exponent, the time parameter, names with other characters, two parameters of the same name; calls of arbitrary builtin functions are let through."
  },
  {
   "property": "C71",
   "status": "partial",
   "theorems": [
    "Qadence.C71_accepts",
    "Qadence.C71_weights",
    "Qadence.C71_soft_weight_partial",
    "Qadence.C71_counterexample_soft_weight",
    "Qadence.C71_counterexample_foreign_qubit",
    "Qadence.C71_operator",
    "Qadence.C71_within_limits",
    "Qadence.C71_limits",
    "Qadence.C71_too_many_qubits",
    "Qadence.C71_device_partial",
    "Qadence.C71_counterexample_default"
   ],
   "note": "Acceptance, operator and limits for all patterns, registers not larger than the pattern and real parameter values. False parts (counterexample theorems): half of the value at the limit, which is the default; parameters as weights are softened (bound in C71_soft_weight_partial), negative ones act as positive; weights of non-existing qubits are dropped silently."
  },
  {
   "property": "C72",
   "status": "partial",
   "theorems": [
    "Pyq.C72_operator_partial",
    "Pyq.C72_circuit_partial",
    "Pyq.C72_noise",
    "Pyq.C72_gate_converted",
    "Pyq.C72_converted",
    "Pyq.C72_counterexample_n_state",
    "Pyq.C72_counterexample_negative_constant",
    "Pyq.C72_counterexample_imaginary",
    "Pyq.C72_counterexample_pi",
    "Pyq.C72_counterexample_function_name"
   ],
   "note": "Exceptions are genuine defects with counterexample theorems: N with state 0, and scale factors which are lost or changed on their way through strings and the sympy parser (negative constants, imaginary factors, parameters named pi or like functions). The meaning of the PyQTorch operations is assumed (Spec/Pyq.lean). Not covered: time-dependent generators, noise operators of evolutions, generators given as tensors or symbols."
  },
  {
   "property": "C73",
   "status": "partial",
   "theorems": [
    "Qadence.Obs.C73_total_magnetization",
    "Qadence.Obs.C73_zz",
    "Qadence.Obs.C73_ising",
    "Qadence.Obs.C73_built",
    "Qadence.Obs.C73_config",
    "Qadence.Obs.C73_observable",
    "Qadence.Obs.C73_support",
    "Qadence.Obs.C73_expectation",
    "Qadence.Obs.C73_named_configs",
    "Qadence.Obs.C73_ising_config_partial",
    "Qadence.Obs.C73_observable_built",
    "Qadence.Obs.C73_counterexample_ising_config",
    "Qadence.Obs.C73_counterexample_trainable"
   ],
   "note": "Named Hamiltonians for all coefficients; operator, support, tag and expectation value of observables for all configurations; the prepared Ising configuration equals the Ising Hamiltonian from three qubits on. Missing because the code is wrong there: one and two qubits, for which the Z operator of qubit 0 is lacking (counterexample). A Parameter keeps its own trainability despite trainable_transform (counterexample)."
  },
  {
   "property": "C74",
   "status": "proved",
   "theorems": [
    "Qadence.Density.C74_purity",
    "Qadence.Density.C74_purity_one",
    "Qadence.Density.C74_entropy",
    "Qadence.Density.C74_entropy_exact",
    "Qadence.Density.C74_fidelity",
    "Qadence.Density.C74_fidelity_symm",
    "Qadence.Density.C74_fidelity_self",
    "Qadence.Density.C74_fidelity_pure",
    "Qadence.Density.C74_fidelity_bounds",
    "Qadence.Density.C74_fidelity_batch",
    "Qadence.Density.C74_equivalent",
    "Qadence.Density.C74_equivalent_exact",
    "Qadence.Density.C74_counterexample_norm"
   ],
   "note": "Eigendecompositions of torch are a parameter of the model of which only correctness on Hermitian matrices is assumed (met by the spectral theorem, torch_exists). Exact real arithmetic. The counterexample shows that the normalisation required by equivalent_state is not checked. partial_trace only calls pyqtorch and is not modelled."
  },
  {
   "property": "C75",
   "status": "partial",
   "theorems": [
    "Qadence.Cloud.C75_check_status",
    "Qadence.Cloud.C75_get_result",
    "Qadence.Cloud.C75_counterexample_short_timeout",
    "Qadence.Cloud.C75_sizes_accepted",
    "Qadence.Cloud.C75_validation_partial",
    "Qadence.Cloud.C75_counterexample_matrix",
    "Qadence.Cloud.C75_counterexample_empty",
    "Qadence.Cloud.C75_accepted",
    "Qadence.Cloud.C75_upload"
   ],
   "note": "Polling, statuses, upload and the exact set of accepted shapes are proved for all inputs. Missing because the code is wrong there: a value with several dimensions is accepted beside any other value and an empty dictionary is refused (counterexamples, `all` instead of `any`); a timeout below the refresh time never asks (counterexample)."
  },
  {
   "property": "C76",
   "status": "partial",
   "theorems": [
    "Qadence.Data.C76_infinite_samples",
    "Qadence.Data.C76_infinite_refused",
    "Qadence.Data.C76_counterexample_same_order",
    "Qadence.Data.C76_epoch",
    "Qadence.Data.C76_epoch_infinite",
    "Qadence.Data.C76_dict_loader",
    "Qadence.Data.C76_counterexample_dict",
    "Qadence.Data.C76_trainer_history",
    "Qadence.Data.C76_counterexample_test_default",
    "Qadence.Data.C76_counterexample_test_batches",
    "Qadence.Data.C76_average",
    "Qadence.Data.C76_average_samples_partial",
    "Qadence.Data.C76_counterexample_last_batch",
    "Qadence.Data.C76_metrics",
    "Qadence.Data.C76_to_device",
    "Qadence.Data.C76_to_device_keys",
    "Qadence.Data.C76_counterexample_batch_size",
    "Qadence.Data.C76_nevergrad",
    "Qadence.Data.C76_counterexample_nevergrad"
   ],
   "note": "Proved for all inputs: samples, windows, epochs, dictionaries of loaders, number of batches after every history, averages, names of metrics, moving of data, Nevergrad. Missing because the code is wrong there (counterexamples): passes are not reshuffled; test() ignores the test loader of the trainer and test(loader) stops after the number of training batches; with an infinite first loader in a dictionary only the first batches of the others are used; a smaller last batch has the same weight; moving a loader loses its batch size; the parameters after training without gradients are a candidate never evaluated. Workers and samplers of torch are not modelled."
  },
  {
   "property": "C77",
   "status": "partial",
   "theorems": [
    "Qadence.Pulses.C77_from_area",
    "Qadence.Pulses.C77_from_duration_partial",
    "Qadence.Pulses.C77_counterexample_negative_detuning",
    "Qadence.Pulses.C77_xy_rotation_partial",
    "Qadence.Pulses.C77_z_rotation_partial",
    "Qadence.Pulses.C77_counterexample_negative_angle",
    "Qadence.Pulses.C77_counterexample_rz_zero",
    "Qadence.Pulses.C77_analog_rotation_partial",
    "Qadence.Pulses.C77_counterexample_phase",
    "Qadence.Pulses.C77_counterexample_analog_sign",
    "Qadence.Pulses.C77_delay",
    "Qadence.Pulses.C77_sequence_partial",
    "Qadence.Pulses.C77_analog_items",
    "Qadence.Pulses.C77_counterexample_configured_amplitude",
    "Qadence.Pulses.C77_refused"
   ],
   "note": "Rounding, areas, durations, amplitude bounds, delays, order and refusals are proved in full. The operations are proved for the absolute value of digital angles and, for analog rotations, phase at most 0 and amplitude and detuning each 0 or at least 1e-11; outside of this they are refuted (negative angles, positive phases, negative detunings made 1000 times larger, RZ(0), configured amplitudes). Missing: the ramp of AnalogEntanglement, interaction during pulses, modulation."
  },
  {
   "property": "C78",
   "status": "partial",
   "theorems": [
    "Qadence.QModel.C78_shape",
    "Qadence.QModel.C78_run_possible",
    "Qadence.QModel.C78_inputs_partial",
    "Qadence.QModel.C78_counterexample_fixed_is_input",
    "Qadence.QModel.C78_values",
    "Qadence.QModel.C78_noise_history",
    "Qadence.QModel.C78_settings_partial",
    "Qadence.QModel.C78_counterexample_noise_sticks",
    "Qadence.QModel.C78_reset",
    "Qadence.QModel.C78_set_trainable",
    "Qadence.QModel.C78_counterexample_training_lost",
    "Qadence.QModel.C78_load",
    "Qadence.QModel.C78_reload_partial",
    "Qadence.QModel.C78_counterexample_constants_trainable",
    "Qadence.QModel.C78_counterexample_load_resets",
    "Qadence.QModel.C78_counterexample_reload",
    "Qadence.QModel.C78_calls_keep"
   ],
   "note": "Parameters, runs, resets, loads and trainability are proved for all histories. Proved in part and refuted otherwise: settings of calls (noise of an expectation sticks), advertised inputs (stale after set_as_fixed), reload (constants become trainable; trained values dropped without as_torch; no reload without observable; mitigation lost). set_as_variational and set_as_fixed throw away trained values. Missing: devices and dtypes, separate values for circuit and observables, tensors with several entries per parameter."
  },
  {
   "property": "C79",
   "status": "partial",
   "theorems": [
    "Qadence.QModel.C79_columns",
    "Qadence.QModel.C79_vector",
    "Qadence.QModel.C79_init",
    "Qadence.QModel.C79_forward_partial",
    "Qadence.QModel.C79_counterexample_wrong_name",
    "Qadence.QModel.C79_counterexample_ignored",
    "Qadence.QModel.C79_counterexample_noise_sticks",
    "Qadence.QModel.C79_reload_partial",
    "Qadence.QModel.C79_counterexample_mode_lost"
   ],
   "note": "Columns, vectors, refusals and construction are proved in full; the forward pass for inputs which are the feature parameters in any order (other names are accepted by the code and refuted); reload with parameters. Refuted: observable and mitigation arguments, sticky noise, differentiation mode after reload. Derivatives are C30 and autograd."
  },
  {
   "property": "C80",
   "status": "partial",
   "theorems": [
    "Qadence.PSR.C80_rule",
    "Qadence.PSR.C80_backward",
    "Qadence.PSR.C80_forward",
    "Qadence.PSR.C80_chain",
    "Qadence.PSR.C80_counterexample_generator",
    "Qadence.PSR.C80_counterexample_observable",
    "Qadence.PSR.C80_counterexample_nested_scale",
    "Qadence.PSR.C80_counterexample_composite_observable",
    "Qadence.PSR.C80_adjoint_single",
    "Qadence.PSR.C80_counterexample_adjoint_shape"
   ],
   "note": "Backward pass end to end on the circuit semantics, forward pass, chain rule (given joint differentiability). Each parameter occurs in one block (gate parameters have their own names). Analog blocks, measurement protocols and torch's broadcasting are not modelled. Refuted: generators, observables, several observables with adjoint."
  },
  {
   "property": "C81",
   "status": "partial",
   "theorems": [
    "Qadence.PulserRun.C81_run",
    "Qadence.PulserRun.C81_run_evolution",
    "Qadence.PulserRun.C81_run_little",
    "Qadence.PulserRun.C81_history",
    "Qadence.PulserRun.C81_counterexample_second_run",
    "Qadence.PulserRun.C81_first_run",
    "Qadence.PulserRun.C81_missing_values",
    "Qadence.PulserRun.C81_noisy",
    "Qadence.PulserRun.C81_counterexample_sticky_noise",
    "Qadence.PulserRun.C81_counterexample_noiseless_after_noisy",
    "Qadence.PulserRun.C81_counterexample_noisy_initial",
    "Qadence.PulserRun.C81_sample_noise",
    "Qadence.PulserRun.C81_sample",
    "Qadence.PulserRun.C81_refused",
    "Qadence.PulserRun.C81_value_transpose",
    "Qadence.PulserRun.C81_value_symmetric",
    "Qadence.PulserRun.C81_value_real_state",
    "Qadence.PulserRun.C81_value_conj",
    "Qadence.PulserRun.C81_value_block",
    "Qadence.PulserRun.C81_counterexample_Y",
    "Qadence.PulserRun.C81_value_density",
    "Qadence.PulserRun.C81_expectation",
    "Qadence.PulserRun.C81_counterexample_little"
   ],
   "note": "Call histories, results and expectation values with Pulser's emulator as an arbitrary function; a sequence can be measured once and a channel declared once (Pulser's rules, trusted). `build` gives a new object. Mitigation, the shapes of noisy results and cloud sampling are not part of it. Refuted: Y observables, noise after noisy runs, noisy initial states, second run without values, little endianness."
  },
  {
   "property": "C82",
   "status": "proved",
   "theorems": [
    "Qadence.RydbergHEA.C82_layer_block",
    "Qadence.RydbergHEA.C82_refused",
    "Qadence.RydbergHEA.C82_layer",
    "Qadence.RydbergHEA.C82_commuting",
    "Qadence.RydbergHEA.C82_hea",
    "Qadence.RydbergHEA.C82_counterexample_positions",
    "Qadence.RydbergHEA.C82_names",
    "Qadence.RydbergHEA.C82_counterexample_prefix",
    "Qadence.RydbergHEA.C82_counterexample_layers",
    "Qadence.RydbergHEA.C82_durations_distinct",
    "Qadence.RydbergHEA.C82_counterexample_labels"
   ],
   "note": "Block, operator, commutation, names. Refuted: interaction from positions, prefix on all names, weights per layer, labels other than 0..n-1."
  },
  {
   "property": "C83",
   "status": "proved",
   "theorems": [
    "Qadence.AnalogSwap.C83_swap",
    "Qadence.AnalogSwap.C83_parameter",
    "Qadence.AnalogSwap.C83_twice",
    "Qadence.AnalogSwap.C83_symmetric",
    "Qadence.AnalogSwap.C83_same"
   ],
   "note": "Exact operator for all registers and pairs of qubits; the phase -1 is global but visible in superposition with other branches, e.g. under control."
  },
  {
   "property": "C84",
   "status": "proved",
   "theorems": [
    "Qadence.RydbergFM.C84_accepts",
    "Qadence.RydbergFM.C84_errors",
    "Qadence.RydbergFM.C84_default_weights",
    "Qadence.RydbergFM.C84_weight_names",
    "Qadence.RydbergFM.C84_operator",
    "Qadence.RydbergFM.C84_no_background",
    "Qadence.RydbergFM.C84_tower",
    "Qadence.RydbergFM.C84_van_der_waals",
    "Qadence.RydbergFM.C84_counterexample_detuning",
    "Qadence.RydbergFM.C84_counterexample_conversion",
    "Qadence.RydbergFM.C84_analog",
    "Qadence.RydbergFM.C84_analog_scalings"
   ],
   "note": "Acceptance, errors, operator for diagonal backgrounds, tower, names, analog feature map. Refuted: independence of the detuning under interaction; conversion without the scale pass."
  },
  {
   "property": "C85",
   "status": "partial",
   "theorems": [
    "Qadence.Distributed.C85_port",
    "Qadence.Distributed.C85_no_gpu",
    "Qadence.Distributed.C85_single_node",
    "Qadence.Distributed.C85_too_many",
    "Qadence.Distributed.C85_multi_node",
    "Qadence.Distributed.C85_counterexample_idle_gpus",
    "Qadence.Distributed.C85_counterexample_remainder",
    "Qadence.Distributed.C85_counterexample_cpu_nodes",
    "Qadence.Distributed.C85_torchrun",
    "Qadence.Distributed.C85_torchrun_nprocs",
    "Qadence.Distributed.C85_counterexample_torchrun_cpu",
    "Qadence.Distributed.C85_counterexample_second_training",
    "Qadence.Distributed.C85_counterexample_cpu_then_gpu",
    "Qadence.Distributed.C85_rank_range",
    "Qadence.Distributed.C85_data_single_node",
    "Qadence.Distributed.C85_counterexample_data_nodes",
    "Qadence.Distributed.C85_data_other",
    "Qadence.Distributed.C85_model",
    "Qadence.Distributed.C85_batch",
    "Qadence.Distributed.C85_counterexample_batch",
    "Qadence.Distributed.C85_reduce",
    "Qadence.Distributed.C85_all_reduce",
    "Qadence.Distributed.C85_counterexample_order",
    "Qadence.Distributed.C85_stop",
    "Qadence.Distributed.C85_aggregate",
    "Qadence.Distributed.C85_counterexample_loss_metric"
   ],
   "note": "Groups on one node, on Slurm with all GPUs, under torchrun with GPUs; splitting on one node; reductions. Refuted: CPU nodes, torchrun on CPU, idle GPUs, remainders, data over several nodes, second training, other batches, unordered metrics. Communication of torch.distributed is not modelled."
  },
  {
   "property": "C86",
   "status": "partial",
   "theorems": [
    "Qadence.QCNN.C86_accepts",
    "Qadence.QCNN.C86_layers",
    "Qadence.QCNN.C86_layer_acts",
    "Qadence.QCNN.C86_deferred",
    "Qadence.QCNN.C86_cells",
    "Qadence.QCNN.C86_names",
    "Qadence.QCNN.C86_distinct",
    "Qadence.QCNN.C86_correlated",
    "Qadence.QCNN.C86_correlated_cells",
    "Qadence.QCNN.C86_counterexample_correlated",
    "Qadence.QCNN.C86_counterexample_correlated_gates",
    "Qadence.QCNN.C86_counterexample_repeated",
    "Qadence.QCNN.C86_depth_zero",
    "Qadence.QCNN.C86_feature_map",
    "Qadence.QCNN.C86_feature_map_refused",
    "Qadence.QCNN.C86_inputs",
    "Qadence.QCNN.C86_observable"
   ],
   "note": "The documented sharing of parameters by corresponding gates is false (C86_counterexample_correlated: neighbouring cells with fewer than six operations never share; C86_counterexample_correlated_gates: gates nine numbers apart do), and on four or six qubits the second layer cannot be repeated (C86_counterexample_repeated). Entanglers are the classes of the ansatz model; operations are rotations."
  },
  {
   "property": "C87",
   "status": "partial",
   "theorems": [
    "Qadence.QNNConfig.C87_config_accepted",
    "Qadence.QNNConfig.C87_strategies",
    "Qadence.QNNConfig.C87_circuit",
    "Qadence.QNNConfig.C87_tags",
    "Qadence.QNNConfig.C87_hea_digital",
    "Qadence.QNNConfig.C87_iia_digital",
    "Qadence.QNNConfig.C87_hea_sdaqc",
    "Qadence.QNNConfig.C87_defaults",
    "Qadence.QNNConfig.C87_arguments",
    "Qadence.QNNConfig.C87_wrong_entangler",
    "Qadence.QNNConfig.C87_names",
    "Qadence.QNNConfig.C87_rotations",
    "Qadence.QNNConfig.C87_counterexample_prefix",
    "Qadence.QNNConfig.C87_counterexample_ala_layers",
    "Qadence.QNNConfig.C87_ala",
    "Qadence.QNNConfig.C87_counterexample_ala_ignores",
    "Qadence.QNNConfig.C87_ala_names",
    "Qadence.QNNConfig.C87_counterexample_iia_sdaqc",
    "Qadence.QNNConfig.C87_iia_sdaqc",
    "Qadence.QNNConfig.C87_register_ignored",
    "Qadence.QNNConfig.C87_counterexample_rydberg"
   ],
   "note": "False for alternating layer ansaetze: with two or more feature map blocks construction always fails since the layers lose m_block_qubits (C87_counterexample_ala_layers), and depth and operations have no effect (C87_counterexample_ala_ignores). The default entangler of the digital-analog identity initialised ansatz is refused (C87_counterexample_iia_sdaqc). Layers of a Rydberg ansatz share the detuning weights with it (C87_counterexample_rydberg). A prefix fm_0 collides (C87_counterexample_prefix). Distinctness of names is not proved for identity initialised ansaetze (see C41)."
  },
  {
   "property": "C88",
   "status": "partial",
   "theorems": [
    "Qadence.PyqRun.C88_batched",
    "Qadence.PyqRun.C88_batched_state",
    "Qadence.PyqRun.C88_run_batch",
    "Qadence.PyqRun.C88_batched_batch",
    "Qadence.PyqRun.C88_no_observables",
    "Qadence.PyqRun.C88_missing_parameter",
    "Qadence.PyqRun.C88_sizes_refused",
    "Qadence.PyqRun.C88_columns_refused",
    "Qadence.PyqRun.C88_looped",
    "Qadence.PyqRun.C88_looped_eq_batched",
    "Qadence.PyqRun.C88_looped_batch_refused",
    "Qadence.PyqRun.C88_counterexample_loop_truncates",
    "Qadence.PyqRun.C88_run_little",
    "Qadence.PyqRun.C88_counterexample_endianness_ignored",
    "Qadence.PyqRun.C88_counterexample_batch_permuted",
    "Qadence.PyqRun.C88_counterexample_batch_truncated",
    "Qadence.PyqRun.C88_validate",
    "Qadence.PyqRun.C88_counterexample_pyq_shape",
    "Qadence.PyqRun.C88_pyq_shape_one",
    "Qadence.PyqRun.C88_run_state_refused",
    "Qadence.PyqRun.C88_counterexample_columns"
   ],
   "note": "False with separate dictionaries of gate parameters (diff_mode gpsr or none; not ad, where both dictionaries contain all inputs): the loop stops with the shorter one and returns one row if the observables have no parameters (C88_counterexample_loop_truncates). Little endianness is ignored by expectation for two or more qubits (C88_counterexample_endianness_ignored), and for one qubit permutes or truncates the batch (C88_counterexample_batch_permuted, C88_counterexample_batch_truncated). The documented PyQTorch shape of initial states is refused (C88_counterexample_pyq_shape). With a given state the batched expectation may fail where the loop succeeds (C88_counterexample_columns)."
  },
  {
   "property": "C89",
   "status": "partial",
   "theorems": [
    "Qadence.Execution.C89_forms_agree",
    "Qadence.Execution.C89_larger_register",
    "Qadence.Execution.C89_smaller_register",
    "Qadence.Execution.C89_refused",
    "Qadence.Execution.C89_composite_fits",
    "Qadence.Execution.C89_block_fits",
    "Qadence.Execution.C89_counterexample_control",
    "Qadence.Execution.C89_counterexample_list",
    "Qadence.Execution.C89_list_error",
    "Qadence.Execution.C89_list_first_error",
    "Qadence.Execution.C89_list_empty",
    "Qadence.Execution.C89_parameters_run",
    "Qadence.Execution.C89_parameters_expectation",
    "Qadence.Execution.C89_gradients"
   ],
   "note": "run of a list never returns, since a tensor is added to a tuple (C89_counterexample_list). A single parametric controlled gate is run on as many qubits as it has, even if it acts on later ones (C89_counterexample_control, see C18). The docstring of expectation promises Register.line for a block alone, the code makes an all-to-all register (read in the code, not modelled)."
  },
  {
   "property": "C90",
   "status": "proved",
   "theorems": [
    "Qadence.TorchDeriv.C90_derivative_sum",
    "Qadence.TorchDeriv.C90_derivative",
    "Qadence.TorchDeriv.C90_batch_independent",
    "Qadence.TorchDeriv.C90_public",
    "Qadence.TorchDeriv.C90_outputs_refused",
    "Qadence.TorchDeriv.C90_assertion_needed",
    "Qadence.TorchDeriv.C90_counterexample_mixed",
    "Qadence.TorchDeriv.C90_product"
   ],
   "note": "Automatic differentiation itself is trusted. The restriction to models which treat rows separately is needed (C90_counterexample_mixed), and so is the assertion on the outputs (C90_assertion_needed). Empty tuples of indices are not covered."
  }
 ]
}
