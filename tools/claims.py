# (property, status, theorems, note); executed by manifest.py
def add(prop, status, ns, theorems, note):
    claims.append({"property": prop, "status": status,
                   "theorems": [ns + "." + t for t in theorems], "note": note})

C = "Verif.Counts"
add("C01", "proved", C, ["C01_marginal_conserves_shots"], "All counts dictionaries, all proper qubit subsets.")
add("C02", "proved", C, ["C02_marginal_entries", "C02_marginal_entries_empty", "C02_marginal_order_irrelevant", "C02_full", "C02_finding_pad", "C02_finding_repeated"],
    "Exact dictionary content for every proper subset and both pad settings.")
add("C03", "proved", C, ["C03_marginal_tower"], "")
add("C04", "proved", C, ["C04_combine_is_pointwise_sum", "C04_combine_comm_assoc"], "")
add("C05", "proved", C, ["C05_build_is_pointwise_sum", "C05_build_order_and_split"], "")
add("C06", "proved", C, ["C06_count_keys"], "")
add("C07", "partial", C, ["C07_expectation_counts_partial", "C07_expectation_key_mirrored", "C07_identity_key_missing"],
    "The documented statement is false of the code (negation proved); the value is right under the mirrored key.")

C = "Verif.RepCode"
add("C08", "proved", C, ["C08_noiseless"], "Circuits generated by the model of __init__, classical simulator, all d >= 2, T >= 1.")
add("C09", "proved", C, ["C09_process_injective", "C09_process_keeps_counts"], "")
add("C10", "proved", C, ["C10_single_fault", "C10_measurement_flip", "C10_no_fault", "C10_string2nodes"],
    "Any qubit, any location in the circuit.")
add("C11", "proved", C, ["C11_postselection", "C11_trivial_syndrome_boundaries_agree", "C11_lookuptable", "C11_logical_prob", "C11_finding_unknown_algorithm"],
    "The matching algorithm (networkx) is a parameter of get_logical_prob.")
add("C72", "proved", C, ["C72_even_defects"], "")

C = "Verif.MeasMit"
add("C12", "proved", C, ["C12_tensored", "C12_tensored_succeeds", "C12_complete"],
    "Circuits of the model of tensored_meas_cal / complete_meas_cal run on ideal qubits.")
add("C13", "proved", C, ["C13_entries", "C13_columns", "C13_succeeds", "C13_name_designates_label",
    "C13_finding_larger_register"],
    "For measured strings as long as the calibrated register; with a larger classical register the code reads the wrong characters (finding proved).")
add("C14", "proved", C, ["C14_order_irrelevant"], "Any two add_data histories ending in a rebuild.")
add("C15", "proved", C, ["C15_inverts", "C15_conserves_total", "C15_inverts_list"],
    "pinv is any matrix satisfying the Moore-Penrose equations; exact arithmetic over any field.")
add("C16", "proved", C, ["C16_kronecker", "C16_inverts"], "")
add("C17", "partial", C, ["C17_subset_partial", "C17_documented_false", "C17_whole_list", "C17_columns"],
    "The documented statement is false of the code (negation proved); the calibration of the mirrored qubits is returned.")

C = "Verif.Accred"
add("C31", "proved", C, ["C31_pad_undone", "C31_finding_permuted_measurement", "C31_finding_mid_circuit"],
    "Includes layer_parser; transpile is taken to preserve meaning. Fails for permuted measurements (finding proved).")
add("C32", "proved", C, ["C32_involution"], "")
add("C33", "proved", C, ["C33_traps_zero"], "")
add("C34", "proved", C, ["C34_accept_iff", "C34_history", "C34_bound", "C34_bound_antitone", "C34_finding_outputs_shared",
    "C34_finding_checks_not_raised", "C34_finding_stale_bound"], "Exact arithmetic; confidence value not modelled.")

C = "Verif.Dihedral"
add("C35", "proved", C, ["C35_set_get", "C35_get", "C35_rejects"], "")
add("C36", "proved", C, ["C36_add", "C36_smul", "C36_mul_monomial", "C36_mul_monomial_coefficients", "C36_mul_monomial_accepts",
    "C36_finding_degree_four_dropped", "C36_finding_nine_variables"], "Set enumeration order is a parameter; CPython's order is modelled for the acceptance part.")
add("C37", "proved", C, ["C37_cnot", "C37_phase", "C37_flip", "C37_identity", "C37_circuit", "C37_rejects", "C37_finding_equal_qubits"],
    "State-vector semantics of the gates; all circuits.")
add("C38", "proved", C, ["C38_compose", "C38_dot", "C38_returns", "C38_compose_cpython", "C38_finding_nine_qubits", "C38_finding_rmul"], "")
add("C39", "proved", C, ["C39_round_trip", "C39_resynthesis"], "All n; the one- and two-qubit tables are checked completely, the general algorithm by invariants.")
add("C40", "proved", C, ["C40_eq_iff", "C40_circuits"], "")
add("C73", "proved", C, ["C73_adjoint", "C73_conjugate", "C73_transpose"], "QuantumCircuit.inverse and reverse_ops of qiskit are modelled on the gate list.")
add("C74", "proved", C, ["C74_tensor", "C74_expand", "C74_finding_order"], "")
add("C75", "proved", C, ["C75_valid", "C75_all", "C75_uniform", "C75_mean", "C75_ends"], "rng.randint is uniform and independent; the determinant is exact.")

C = "Verif.RB"
add("C41", "proved", C, ["C41_identity", "C41_cnotdihedral", "C42_family"],
    "Holds for every group whose class obeys the laws `Lawful`; proved to hold for the library's CNOT-dihedral class (up to eight qubits per subset). terra's Clifford class and the random generators are outside the repository and enter as this assumption.")
add("C42", "proved", C, ["C42_family", "C42_names", "C42_unique", "C42_seed_changes", "C42_finding_seed_zero", "C42_finding_generator", "C42_finding_lengths_dropped"], "")
add("C43", "proved", C, ["C43_accepts", "C43_values", "C43_multiplier_list", "C43_multiplier_scalar", "C43_finding_scalar_unchecked", "C43_finding_none_raises"], "")
add("C44", "proved", C, ["C44_documented", "C44_other", "C44_finding_missing_comma"], "")
C = "Verif.RB.Utils"
add("C45", "proved", C, ["C45_epc1q", "C45_epg1q", "C45_epc2q", "C45_roundtrip", "C45_finding_not_recovered"], "Real arithmetic.")
add("C76", "proved", C, ["C76_gates_per_clifford", "C76_finding_duplicate_basis", "C76_count_gates", "C76_agree", "C76_finding_repeated_basis"], "The deprecated QasmQobj input of gates_per_clifford runs the same loop over the instructions of its experiments.")
add("C77", "proved", C, ["C77_one", "C77_two", "C77_default", "C77_rejects"], "Real arithmetic.")
add("C78", "proved", C, ["C78_twoQ_agrees"], "Real arithmetic.")
C = "Verif.RB.Fit"
add("C46", "proved", C, ["C46_value", "C46_add", "C46_batching", "C46_range", "C46_order", "C46_twice"], "Counts in one classical register; exact rational arithmetic.")
add("C47", "proved", C, ["C47_epc", "C47_interleaved", "C47_interleaved_mono", "C47_dihedral", "C47_purity", "C47_finding_purity_err"], "Formulas applied to the fitted parameters; curve_fit is not modelled.")
add("C79", "proved", C, ["C79_guess_exact", "C79_finding_negative_decay", "C79_finding_amplitude"], "Real arithmetic.")
C = "Verif.RB.Purity"
add("C80", "proved", C, ["C80_pauli_index", "C80_covered", "C80_sign", "C80_average", "C80_purity"], "")

C = "Verif.Expval"
add("C18", "proved", C, ["C18_readback", "C18_labels"], "Circuits as X-gate and measurement lists.")
add("C19", "proved", C, ["C19_subset", "C19_full", "C19_stochastic", "C19_finding_order"], "Exact field arithmetic.")
add("C20", "proved", C, ["C20_expectation_value", "C20_stddev"], "Exact field arithmetic; counts in one classical register.")
add("C21", "proved", C, ["C21_vector", "C21_vector_qubits", "C21_rejects", "C21_distribution", "C21_distribution_qubits", "C21_finding_clbit_order"], "")
add("C22", "proved", C, ["C22_complete", "C22_complete_all", "exists_invCorrect", "C22_finding_diagonal_order"], "numpy's matrix inverse enters as a function assumed correct on invertible matrices (shown to exist).")
add("C23", "proved", C, ["C23_tensored", "C23_finding_fewer_bits"], "Matrix inverse as in C22.")
add("C24", "proved", C, ["C24_kronecker", "C24_inverse", "C24_finding_lists"], "")
add("C25", "proved", C, ["C25_single", "C25_product"], "")
add("C81", "proved", C, ["C81_required_shots", "C81_required_pos", "C81_overhead", "C81_complete", "C81_tensored"], "Real arithmetic.")
add("C82", "proved", C, ["C82_fidelity", "C82_fidelity_all"], "")
add("C83", "proved", C, ["C83_calibration_data"], "Results as counts per circuit index.")
C = "Verif.Expval.Ctmp"
add("C26", "proved", C, ["C26_one_generator", "C26_generator_matrix", "C26_sampling", "C26_mitigator"], "Exact arithmetic; the sparse storage and cache are not modelled here.")
add("C29", "proved", C, ["C29_standard", "C29_well_formed", "C29_rejects", "C29_finding_pairs"], "")
add("C30", "proved", C, ["C30_two_qubit", "C30_fit", "C30_rate", "C30_finding_one_qubit_swapped", "C30_finding_single_qubit", "C30_finding_flip"], "The matrix logarithm is a parameter.")
add("C27", "proved", C, ["C27_series", "C27_unbiased"], "Real arithmetic, exact Poisson law.")
add("C28", "proved", C, ["C28_step", "C28_support", "C28_chain", "C28_batches", "C28_signed_sum", "C28_step_law", "C28_walk_law"], "Uniform random numbers as Lebesgue measure on [0,1).")
C = "Verif.Tomo"
add("C48", "proved", C, ["C48_state", "C48_process", "C48_rejects", "C48_finding_sic_needs_labels", "C48_finding_tuple_order"], "")
add("C49", "proved", C, ["C49_measurement", "C49_preparation", "C49_process"], "State-vector semantics; exact complex arithmetic.")
add("C50", "proved", C, ["C50_povm", "C50_rejects"], "")
add("C52", "proved", C, ["C52_unchanged", "C52_spectrum", "C52_matrix", "C52_rejects", "C52_finding_negative_trace"], "la.eigh is specified, not modelled; exact arithmetic; threshold 0, the value lstsq_fit uses.")
add("C51", "proved", C, ["C51_span", "C51_inversion", "C51_fit"], "scipy's lstsq and eigh are specified (minimiser, eigendecomposition), not modelled; exact arithmetic.")
add("C53", "proved", C, ["C53_weights", "C53_rejects", "C53_fitter", "C53_finding_single_outcome"], "Real arithmetic.")
add("C84", "proved", C, ["C84_inversion", "C84_fit", "complete_pauli", "complete_sic"], "As C51.")
add("C54", "proved", C, ["C54_partial_trace"], "")
add("C57", "proved", C, ["C57_pools", "C57_order", "C57_rejects", "C57_finding_last_result", "C57_finding_registers"], "Single-register circuits; the multi-register branch is modelled and its defect shown.")
add("C85", "proved", C, ["C85_constraints", "C85_constraints_state", "C85_objective", "C85_state", "C85_process"], "The convex solver is specified by its optimum.")
add("C55", "proved", C, ["C55_inversion", "C55_predicts", "C55_rejects", "C55_circuits", "C55_finding_names"], "numpy's inverse as exact matrix inverse; exact arithmetic.")
add("C86", "proved", C, ["C86_circuits", "C86_finding_duplicate"], "")
add("C87", "proved", C, ["C87_gauge", "C87_singular", "C87_optimum", "C87_zero", "C87_spam_matrix", "C87_finding_start", "C87_finding_spam_order"], "The optimiser itself is not modelled.")
add("C56", "proved", C, ["C56_split", "C56_split_rejects", "C56_pack", "C56_unpack", "C56_decomposition", "C56_round_trip"], "One qubit; scipy's schur is specified (shown to exist for Hermitian matrices); exact arithmetic.")
add("C88", "proved", C, ["C88_objective", "C88_zero", "C88_optimum"], "One qubit; the optimiser is not modelled.")
add("C89", "proved", C, ["C89_completely_positive", "C89_equalities", "C89_inequalities", "C89_bounded", "C89_trace", "C89_finding_states", "C89_finding_negative"], "One qubit; conversion between Choi and transfer matrices by definition.")
C = "Verif.QV"
add("C58", "proved", C, ["C58_heavy_outputs", "C58_counts", "C58_mean", "C58_success", "C58_ideal_accepted", "C58_ideal_twice"], "Real arithmetic; erf as the integral.")
add("C59", "proved", C, ["C59_trials", "C59_sums", "C59_volumes", "C59_batching", "C59_data_accepted", "C59_incomplete_raises"], "")
add("C60", "proved", C, ["C60_circuit", "C60_all", "C60_names", "C60_finding_order", "C60_finding_mapping", "C60_finding_idle", "C60_finding_equal_lengths"], "The random model circuit is an input.")

C = "Verif.Discr"
add("C61", "proved", C, ["C61_count", "C61_base", "C61_base_given", "C61_inferred", "C61_apply", "C61_finding_base_one", "C61_finding_widths", "C61_finding_averaged"],
    "Classifier: any function of one feature row.  Readout values in any type.")
add("C62", "proved", C, ["C62_calibration", "C62_state", "C62_init", "C62_add_data", "C62_objects", "C62_finding_objects", "C62_finding_replaced", "C62_finding_twice", "C62_finding_averaged"],
    "A Schedule object is its name; standardisation and the fit are not modelled.")

C = "Verif.Ent"
add("C63", "proved", C, ["C63_schedule", "C63_spanning", "C63_finding_rounds", "C63_finding_exponential", "C63_finding_no_zero", "C63_finding_duplicate"],
    "CNOT errors as a total function.")
add("C64", "proved", C, ["C64_linear", "C64_layout", "C64_device", "C64_finding_too_many", "C64_finding_one"], "State-vector semantics; transpilation is not modelled.")
add("C65", "proved", C, ["C65_mqc_linear", "C65_mqc_layout", "C65_mqc_first", "C65_po_linear", "C65_po_layout"], "As C64; exact complex arithmetic.")
add("C66", "proved", C, ["C66_value", "C66_all", "C66_bound", "C66_even", "C66_finding_registers"], "Counts in any field.")
add("C90", "proved", C, ["C90_fidelity"], "Exact arithmetic.")
add("C91", "proved", C, ["C91_fourier", "C91_coefficient", "C91_mqc", "C91_po", "C91_finding_raw", "C91_finding_aliasing"], "np.fft.fft by its definition; exact arithmetic.")

C = "Verif.Char"
add("C67", "proved", C, ["C67_value", "C67_range", "C67_std", "C67_batching", "C67_add_data"], "Results as dictionaries from circuit name to counts; the fit itself (curve_fit) is not modelled.")
add("C68", "proved", C, ["C68_t1", "C68_counted", "C68_t2", "C68_t2_expected", "C68_no_echo", "C68_finding_even_echoes", "C68_finding_alternating"], "State-vector semantics with a phase per identity gate.")
add("C69", "proved", C, ["C69_t1", "C69_t2star", "C69_t2", "C69_zz", "C69_time_to_ngates"], "Exact arithmetic; rounding half to even.")
add("C92", "proved", C, ["C92_t2star", "C92_counted"], "As C68.")
add("C106", "proved", C, ["C106_t1", "C106_counted", "C106_t2star", "C106_t2"], "Density matrices with relaxation and dephasing during identity gates; other gates are instantaneous and perfect.")
add("C93", "proved", C, ["C93_zz", "C93_counted", "C93_refused", "C93_finding_list_float", "C93_finding_list_int"], "As C68.")
add("C94", "proved", C, ["C94_names", "C94_distinct"], "Names as strings.")
add("C95", "proved", C, ["C95_amp", "C95_amp_cx", "C95_counted"], "State-vector semantics; exact arithmetic.")
add("C96", "proved", C, ["C96_angle", "C96_angle_cx", "C96_counted", "C96_finding_artificial"], "State-vector semantics; exact arithmetic.")

C = "Verif.Log"
add("C70", "proved", C, ["C70_rows", "C70_bad_bound", "C70_finding_empty", "C70_finding_blank"], "Clock and strptime as parameters with their round trip as hypothesis; file selection and rotation are not modelled.")
add("C71", "proved", C, ["C71_all", "C71_keys", "C71_finding_blanks", "C71_finding_forged", "C71_finding_colon"], "As C70.")
add("C97", "proved", C, ["C97_logger", "C97_finding_twice", "C97_finding_none"], "Handlers of parent loggers are not modelled.")
add("C98", "proved", C, ["C98_config", "C98_finding_path"], "Lower-casing of ASCII letters only.")

C = "Verif.Calib"
add("C99", "proved", C, ["C99_pooled", "C99_series", "C99_batching", "C99_level", "C99_mixed", "C99_finding_single", "C99_finding_duplicate", "C99_finding_slots"], "Complex memories, exact arithmetic.")
add("C100", "proved", C, ["C100_line", "C100_signal", "C100_constant", "C100_finding_cancel"], "Exact arithmetic.")
add("C101", "proved", C, ["C101_rabi_guess", "C101_drag_guess", "C101_amplitudes", "C101_half_period", "C101_vertex", "C101_finding_edge"], "np.fft.fft by its definition; curve_fit is not modelled.")
add("C102", "proved", C, ["C102_rabi", "C102_rabi_names", "C102_drag", "C102_drag_names"], "Pulses by their parameters; terra's measure macro is a parameter; Schedule.append as documented by terra.")
add("C103", "proved", C, ["C103_u2", "C103_u3", "C103_follow", "C103_group", "C103_groups"], "The π/2 pulse is one Play instruction; frame semantics of ShiftPhase.")

C = "Verif.RepCode"
add("C104", "proved", C, ["C104_decoder_corrects", "C104_bound_sharp", "C104_logical_prob_zero", "C104_graph"], "networkx's shortest paths and maximum weight matching by their specification; errors are Pauli errors, which act on basis states.")
add("C105", "proved", C, ["C105_distance", "C105_estimate", "C105_raises", "C105_finding_infinite"], "Exact logarithm, -log 0 is infinity.")

C = "Verif.Dihedral"
add("C107", "proved", C, ["C107_entries", "C107_optimal", "C107_complete", "C107_every_element", "C107_sizes"], "Keys represented by the elements; exact division (the code's float division is exact below 2^53).")

C = "Verif.RB"
add("C108", "proved", C, ["C108_plain", "C108_xbasis", "C108_interleaved", "C108_interleaved_xbasis", "C108_epc", "C108_estimates", "C108_purity", "C108_purity_estimate"], "Noise is depolarising, of the same strength for all random elements of a subset; the curve is stated for exact probabilities (curve_fit is not modelled).")

C = "Verif.RB.Fit"
add("C110", "proved", C, ["C110_interleaved", "C110_epc", "C110_dihedral", "C110_purity", "C110_finding_epc", "C110_finding_dihedral", "C110_finding_purity"], "Real numbers; first-order propagation with derivatives.")
add("C111", "proved", C, ["C111_value", "C111_interleaved", "C111_dihedral", "C111_rate", "C111_rate_iff", "C111_no_pattern", "C111_finding_weights"], "curve_fit is an arbitrary function of its arguments.")
add("C112", "proved", C, ["C112_purity", "C112_value", "C112_new", "C112_fit", "C112_finding_epc", "C112_finding_order", "C112_finding_single"], "curve_fit is an arbitrary function of its arguments.")

C = "Verif.Accred"
add("C109", "proved", C, ["C109_sound", "C109_distance", "C109_bound", "C109_complete", "C109_finding_both_ends", "C109_finding_reported", "C109_finding_confidence"], "The noise is modelled by an isometry on qubits and environment after the preparation, after each two-qubit gate and before the measurement; one-qubit gates are noiseless (gate-independent noise on them can be absorbed in the others). Probability of acceptance exact, not estimated.")

C = "Verif.RB"
add("C113", "proved", C, ["C113_plain", "C113_xbasis", "C113_interleaved", "C113_interleaved_xbasis", "C113_clifford", "C113_ideal", "C113_interleaved_clifford", "C113_dihedral_z", "C113_dihedral_x", "C113_interleaved_dihedral_z", "C113_interleaved_dihedral_x", "C113_xbasis_ready", "C113_epc", "C113_dihedral", "C113_fidelity", "C113_interleaved_epc", "C113_finding_systematic"], "The noise of the random elements is the same for all of them; exact probabilities (curve_fit is not modelled); CNOT-dihedral subsets of at most 8 qubits, beyond which compose may raise (finding of C38).")
add("C114", "proved", C, ["C114_data", "C114_circuits", "C114_decay", "C114_ideal", "C114_inverse", "C114_unitarity", "C114_bounds", "C114_values", "C114_pepc"], "The noise of the random elements is the same for all of them; exact correlators (curve_fit is not modelled).")

C = "Verif.MeasMit"
add("C115", "proved", C, ["C115_dict", "C115_list", "C115_result", "C115_tensored", "C115_tensored_result", "C115_unique", "C115_exact", "C115_closer", "C115_faithful", "C115_tensored_faithful", "C115_agrees", "C115_raises", "C115_finding_none", "C115_finding_biased"], "scipy.optimize.minimize is a parameter: assumed to return a feasible point whose objective is within a tolerance of the minimum whenever a minimum exists; real numbers.")

C = "Verif.RepCode"
add("C116", "proved", C, ["C116_always", "C116_reported", "C116_expected", "C116_bound", "C116_threshold", "C116_places", "C116_independent", "C116_circuit_noise"], "Pauli errors and readout errors; networkx's shortest paths and matching by their specification; exact division.")
add("C117", "proved", C, ["C117_detects", "C117_detects_sharp", "C117_postselection_zero", "C117_undetected", "C117_accepted", "C117_postselected", "C117_lookup_optimal", "C117_lookup_beats_matching", "C117_lookup_decoder", "C117_finding_ties", "C117_finding_unseen"], "Pauli errors and readout errors; exact division.")

C = "Verif.Tomo"
add("C118", "proved", C, ["C118_estimate", "C118_fit", "C118_distribution", "C118_unbiased", "C118_accuracy", "C118_confidence", "C118_weighted", "C118_one_qubit", "C118_experiment", "C118_constrained", "C118_finding_constrained"], "scipy's lstsq and eigh by their specification; exact arithmetic; shots independent.")
add("C119", "proved", C, ["C119_estimate", "C119_fit", "C119_distribution", "C119_unbiased", "C119_accuracy", "C119_confidence", "C119_one_qubit", "C119_experiment", "C119_finding_trace_preserving"], "scipy's lstsq and eigh by their specification; exact arithmetic; shots independent.")

C = "Verif.QV"
add("C120", "proved", C, ["C120_report", "C120_distribution", "C120_estimate", "C120_wrong_success", "C120_missed_success", "C120_experiment", "C120_finding_confidence"], "Real arithmetic; shots and trials independent; erf as the integral.")

C = "Verif.Expval"
add("C121", "proved", C, ["C121_plain", "C121_complete", "C121_complete_all", "C121_tensored", "C121_required", "C121_calibration", "C121_calibration_error", "C121_end_to_end", "C121_experiment", "C121_tensored_circuits", "C121_tensored_calibration_error", "C121_tensored_end_to_end", "C121_tensored_experiment"], "Real arithmetic; shots independent; numpy's inverse by its specification; the end-to-end statements are for the complete and the tensored method on all qubits.")
add("C122", "proved", C, ["C122_complete", "C122_tensored", "C122_object", "C122_finding_correlated"], "Exact arithmetic; the constructors of the mitigators are represented by their arguments.")

C = "Verif.Tomo"
add("C123", "proved", C, ["C123_physical", "C123_best", "C123_exact", "C123_ideal", "C123_experiment"], "Exact arithmetic; scipy's two optimisers and schur by their specification, shown satisfiable together; one qubit, as in the code.")
add("C124", "proved", C, ["C124_history", "C124_auto", "C124_unknown", "C124_state", "C124_process", "C124_finding_keywords", "C124_finding_scs"], "The fit functions are represented by the call made; keyword arguments as a dictionary.")

C = "Verif.Expval.Ctmp"
add("C125", "proved", C, ["C125_accuracy", "C125_error_bar", "C125_experiment", "C125_finding_error_bar"], "Real arithmetic; shots and random numbers independent; the generator delivers Poisson, categorical and uniform numbers of the laws asked for.")

C = "Verif.MeasMit"
add("C126", "proved", C, ["C126_pinv", "C126_lsq", "C126_tensored", "C126_tensored_lsq", "C126_calibration", "C126_calibration_error", "C126_tensored_calibration", "C126_experiment"], "Exact arithmetic; shots independent; scipy's pinv and minimize by their specification.")

C = "Verif.RB"
add("C127", "proved", C, ["C127_new", "C127_finding_bias", "C127_one_qubit", "C127_one_qubit_decay", "C127_experiment"], "Exact arithmetic; shots independent; the correlators of the device agree between the circuits that measure the same Pauli string (as C114 proves for a device with noise after the elements).")
add("C128", "proved", C, ["C128_data", "C128_clifford", "C128_interleaved", "C128_experiment"], "Exact arithmetic; shots and seeds independent; the generator delivers uniform elements.")

C = "Verif.Discr"
add("C129", "proved", C, ["C129_scale", "C129_plain", "C129_apply", "C129_standardised", "C129_linear", "C129_quadratic", "C129_new", "C129_add", "C129_experiment", "C129_finding_stale", "C129_finding_held"], "Real arithmetic; StandardScaler modelled, the classifiers by their specification on non-singular data.")

C = "Verif.Ent"
add("C130", "proved", C, ["C130_po_linear", "C130_po_layout", "C130_mqc_linear", "C130_mqc_layout", "C130_pauli", "C130_experiment", "C130_finding_bound"], "Exact arithmetic and exact probabilities (no shots); noise strikes after the preparation (any state) and before the inverse (any Kraus operators); the rotation is noiseless.")
add("C131", "proved", C, ["C131_total", "C131_po_linear", "C131_po_layout", "C131_mqc_linear", "C131_mqc_layout", "C131_pauli_channel", "C131_experiment", "C131_finding_bias"], "Exact arithmetic; independent shots with the outcome probabilities of the circuits, no readout errors; raw fidelities; noise as in C130.")

C = "Verif.Tomo"
add("C132", "proved", C, ["C132_coherent", "C132_add", "C132_raises", "C132_circuits", "C132_spam", "C132_experiment", "C132_finding_again", "C132_finding_alias", "C132_finding_half", "C132_finding_matrices"], "PTM is a parameter (a real matrix, or an exception); the dictionaries are only changed through the gate sets.")

C = "Verif.Ent"
add("C133", "proved", C, ["C133_table", "C133_order", "C133_raises", "C133_experiment", "C133_finding_direction", "C133_finding_gates"], "Errors are rational numbers; the properties are the list of (qubits, parameter values) of the backend.")

C = "Verif.MeasMit"
add("C134", "proved", C, ["C134_matrix", "C134_labels", "C134_filter", "C134_same", "C134_experiment", "C134_finding_poisoned", "C134_finding_labels"], "Arrays and lists are not changed in place by the caller; what an interrupted build leaves in the matrix is marked but not modelled.")
add("C135", "proved", C, ["C135_counts", "C135_observable", "C135_default", "C135_experiment"], "Exact arithmetic; shots independent; the calibration states are prepared without error; scipy's pinv (on invertible matrices) and minimize by their specification.")

C = "Verif.Dihedral"
add("C136", "proved", C, ["C136_independent", "C136_raise", "C136_program", "C136_equal", "C136_equal_sizes", "C136_check", "C136_experiment", "C136_finding_check_of_product", "C136_finding_copy_constructor", "C136_finding_tensor_mixed", "C136_finding_tensor_of_products", "C136_finding_append_not_atomic"], "CPython's set order; qiskit's copy is a deep copy; what happens to an element with a two-dimensional shift afterwards is not modelled.")

C = "Verif.Tomo"
add("C137", "proved", C, ["C137_accurate", "C137_consistent", "C137_data", "C137_experiment"], "Exact arithmetic; runs independent; the device acts on each instruction by a fixed matrix; np.linalg.inv by its specification.")

C = "Verif.Log"
add("C138", "proved", C, ["C138_read", "C138_rows", "C138_sizes", "C138_full", "C138_experiment", "C138_finding_two_loggers", "C138_finding_same_time", "C138_finding_other_files", "C138_finding_hole"], "The RotatingFileHandler of the standard library as in Python 3.6 to 3.11; removing, renaming and writing one line are single steps; the path has no special characters of regular expressions and globs except the dot; the working directory and the settings do not change.")

C = "Verif.Expval.Obj"
add("C139", "proved", C, ["C139_history", "C139_read_only", "C139_experiment", "C139_finding_mitigation_matrix", "C139_finding_assignment_matrix", "C139_finding_tensored", "C139_finding_generator"], "np.linalg.inv (with pinv) and scipy.linalg.expm are deterministic functions of their argument; changing an array in place replaces all of it; what expectation_value of a CTMP mitigator asks of the random number generator stands for its result.")

C = "Verif.Dihedral"
add("C140", "proved", C, ["C140_poly", "C140_text", "C140_unique", "C140_operator", "C140_experiment", "C140_finding_variables"], "The reader in SpecText.lean knows nothing of the printer: it splits at +, * and commas and evaluates.")

C = "Verif.MeasMit"
add("C141", "proved", C, ["C141_counts", "C141_observable", "C141_default", "C141_experiment"], "Exact arithmetic; shots independent; the calibration states are prepared without error; no group is empty and the classical register is the default one; the noise of one group does not depend on the others; scipy's pinv (on invertible matrices) and minimize by their specification.")

C = "Verif.RepCode"
add("C142", "proved", C, ["C142_error_graph", "C142_default", "C142_code"], "The distance function is any symmetric partial function (so it covers graphs with and without weights); in C142_code it is networkx's shortest path, by its specification, in the unweighted graph.")
