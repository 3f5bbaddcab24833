{
 "claims": [
  {
   "property": "C01",
   "status": "proved",
   "theorems": [
    "Verif.Counts.C01_marginal_conserves_shots"
   ],
   "note": "All counts dictionaries, all proper qubit subsets."
  },
  {
   "property": "C02",
   "status": "proved",
   "theorems": [
    "Verif.Counts.C02_marginal_entries",
    "Verif.Counts.C02_marginal_entries_empty",
    "Verif.Counts.C02_marginal_order_irrelevant",
    "Verif.Counts.C02_full",
    "Verif.Counts.C02_finding_pad",
    "Verif.Counts.C02_finding_repeated"
   ],
   "note": "Exact dictionary content for every proper subset and both pad settings."
  },
  {
   "property": "C03",
   "status": "proved",
   "theorems": [
    "Verif.Counts.C03_marginal_tower"
   ],
   "note": ""
  },
  {
   "property": "C04",
   "status": "proved",
   "theorems": [
    "Verif.Counts.C04_combine_is_pointwise_sum",
    "Verif.Counts.C04_combine_comm_assoc"
   ],
   "note": ""
  },
  {
   "property": "C05",
   "status": "proved",
   "theorems": [
    "Verif.Counts.C05_build_is_pointwise_sum",
    "Verif.Counts.C05_build_order_and_split"
   ],
   "note": ""
  },
  {
   "property": "C06",
   "status": "proved",
   "theorems": [
    "Verif.Counts.C06_count_keys"
   ],
   "note": ""
  },
  {
   "property": "C07",
   "status": "partial",
   "theorems": [
    "Verif.Counts.C07_expectation_counts_partial",
    "Verif.Counts.C07_expectation_key_mirrored",
    "Verif.Counts.C07_identity_key_missing"
   ],
   "note": "The documented statement is false of the code (negation proved); the value is right under the mirrored key."
  },
  {
   "property": "C08",
   "status": "proved",
   "theorems": [
    "Verif.RepCode.C08_noiseless"
   ],
   "note": "Circuits generated by the model of __init__, classical simulator, all d >= 2, T >= 1."
  },
  {
   "property": "C09",
   "status": "proved",
   "theorems": [
    "Verif.RepCode.C09_process_injective",
    "Verif.RepCode.C09_process_keeps_counts"
   ],
   "note": ""
  },
  {
   "property": "C10",
   "status": "proved",
   "theorems": [
    "Verif.RepCode.C10_single_fault",
    "Verif.RepCode.C10_measurement_flip",
    "Verif.RepCode.C10_no_fault",
    "Verif.RepCode.C10_string2nodes"
   ],
   "note": "Any qubit, any location in the circuit."
  },
  {
   "property": "C100",
   "status": "proved",
   "theorems": [
    "Verif.Calib.C100_line",
    "Verif.Calib.C100_signal",
    "Verif.Calib.C100_constant",
    "Verif.Calib.C100_finding_cancel"
   ],
   "note": "Exact arithmetic."
  },
  {
   "property": "C101",
   "status": "proved",
   "theorems": [
    "Verif.Calib.C101_rabi_guess",
    "Verif.Calib.C101_drag_guess",
    "Verif.Calib.C101_amplitudes",
    "Verif.Calib.C101_half_period",
    "Verif.Calib.C101_vertex",
    "Verif.Calib.C101_finding_edge"
   ],
   "note": "np.fft.fft by its definition; curve_fit is not modelled."
  },
  {
   "property": "C102",
   "status": "proved",
   "theorems": [
    "Verif.Calib.C102_rabi",
    "Verif.Calib.C102_rabi_names",
    "Verif.Calib.C102_drag",
    "Verif.Calib.C102_drag_names"
   ],
   "note": "Pulses by their parameters; terra's measure macro is a parameter; Schedule.append as documented by terra."
  },
  {
   "property": "C103",
   "status": "proved",
   "theorems": [
    "Verif.Calib.C103_u2",
    "Verif.Calib.C103_u3",
    "Verif.Calib.C103_follow",
    "Verif.Calib.C103_group",
    "Verif.Calib.C103_groups"
   ],
   "note": "The π/2 pulse is one Play instruction; frame semantics of ShiftPhase."
  },
  {
   "property": "C104",
   "status": "proved",
   "theorems": [
    "Verif.RepCode.C104_decoder_corrects",
    "Verif.RepCode.C104_bound_sharp",
    "Verif.RepCode.C104_logical_prob_zero",
    "Verif.RepCode.C104_graph"
   ],
   "note": "networkx's shortest paths and maximum weight matching by their specification; errors are Pauli errors, which act on basis states."
  },
  {
   "property": "C105",
   "status": "proved",
   "theorems": [
    "Verif.RepCode.C105_distance",
    "Verif.RepCode.C105_estimate",
    "Verif.RepCode.C105_raises",
    "Verif.RepCode.C105_finding_infinite"
   ],
   "note": "Exact logarithm, -log 0 is infinity."
  },
  {
   "property": "C106",
   "status": "proved",
   "theorems": [
    "Verif.Char.C106_t1",
    "Verif.Char.C106_counted",
    "Verif.Char.C106_t2star",
    "Verif.Char.C106_t2"
   ],
   "note": "Density matrices with relaxation and dephasing during identity gates; other gates are instantaneous and perfect."
  },
  {
   "property": "C107",
   "status": "proved",
   "theorems": [
    "Verif.Dihedral.C107_entries",
    "Verif.Dihedral.C107_optimal",
    "Verif.Dihedral.C107_complete",
    "Verif.Dihedral.C107_every_element",
    "Verif.Dihedral.C107_sizes"
   ],
   "note": "Keys represented by the elements; exact division (the code's float division is exact below 2^53)."
  },
  {
   "property": "C108",
   "status": "proved",
   "theorems": [
    "Verif.RB.C108_plain",
    "Verif.RB.C108_xbasis",
    "Verif.RB.C108_interleaved",
    "Verif.RB.C108_interleaved_xbasis",
    "Verif.RB.C108_epc",
    "Verif.RB.C108_estimates",
    "Verif.RB.C108_purity",
    "Verif.RB.C108_purity_estimate"
   ],
   "note": "Noise is depolarising, of the same strength for all random elements of a subset; the curve is stated for exact probabilities (curve_fit is not modelled)."
  },
  {
   "property": "C109",
   "status": "proved",
   "theorems": [
    "Verif.Accred.C109_sound",
    "Verif.Accred.C109_distance",
    "Verif.Accred.C109_bound",
    "Verif.Accred.C109_complete",
    "Verif.Accred.C109_finding_both_ends",
    "Verif.Accred.C109_finding_reported",
    "Verif.Accred.C109_finding_confidence"
   ],
   "note": "The noise is modelled by an isometry on qubits and environment after the preparation, after each two-qubit gate and before the measurement; one-qubit gates are noiseless (gate-independent noise on them can be absorbed in the others). Probability of acceptance exact, not estimated."
  },
  {
   "property": "C11",
   "status": "proved",
   "theorems": [
    "Verif.RepCode.C11_postselection",
    "Verif.RepCode.C11_trivial_syndrome_boundaries_agree",
    "Verif.RepCode.C11_lookuptable",
    "Verif.RepCode.C11_logical_prob",
    "Verif.RepCode.C11_finding_unknown_algorithm"
   ],
   "note": "The matching algorithm (networkx) is a parameter of get_logical_prob."
  },
  {
   "property": "C110",
   "status": "proved",
   "theorems": [
    "Verif.RB.Fit.C110_interleaved",
    "Verif.RB.Fit.C110_epc",
    "Verif.RB.Fit.C110_dihedral",
    "Verif.RB.Fit.C110_purity",
    "Verif.RB.Fit.C110_finding_epc",
    "Verif.RB.Fit.C110_finding_dihedral",
    "Verif.RB.Fit.C110_finding_purity"
   ],
   "note": "Real numbers; first-order propagation with derivatives."
  },
  {
   "property": "C111",
   "status": "proved",
   "theorems": [
    "Verif.RB.Fit.C111_value",
    "Verif.RB.Fit.C111_interleaved",
    "Verif.RB.Fit.C111_dihedral",
    "Verif.RB.Fit.C111_rate",
    "Verif.RB.Fit.C111_rate_iff",
    "Verif.RB.Fit.C111_no_pattern",
    "Verif.RB.Fit.C111_finding_weights"
   ],
   "note": "curve_fit is an arbitrary function of its arguments."
  },
  {
   "property": "C112",
   "status": "proved",
   "theorems": [
    "Verif.RB.Fit.C112_purity",
    "Verif.RB.Fit.C112_value",
    "Verif.RB.Fit.C112_new",
    "Verif.RB.Fit.C112_fit",
    "Verif.RB.Fit.C112_finding_epc",
    "Verif.RB.Fit.C112_finding_order",
    "Verif.RB.Fit.C112_finding_single"
   ],
   "note": "curve_fit is an arbitrary function of its arguments."
  },
  {
   "property": "C113",
   "status": "proved",
   "theorems": [
    "Verif.RB.C113_plain",
    "Verif.RB.C113_xbasis",
    "Verif.RB.C113_interleaved",
    "Verif.RB.C113_interleaved_xbasis",
    "Verif.RB.C113_clifford",
    "Verif.RB.C113_ideal",
    "Verif.RB.C113_interleaved_clifford",
    "Verif.RB.C113_dihedral_z",
    "Verif.RB.C113_dihedral_x",
    "Verif.RB.C113_interleaved_dihedral_z",
    "Verif.RB.C113_interleaved_dihedral_x",
    "Verif.RB.C113_xbasis_ready",
    "Verif.RB.C113_epc",
    "Verif.RB.C113_dihedral",
    "Verif.RB.C113_fidelity",
    "Verif.RB.C113_interleaved_epc",
    "Verif.RB.C113_finding_systematic"
   ],
   "note": "The noise of the random elements is the same for all of them; exact probabilities (curve_fit is not modelled); CNOT-dihedral subsets of at most 8 qubits, beyond which compose may raise (finding of C38)."
  },
  {
   "property": "C114",
   "status": "proved",
   "theorems": [
    "Verif.RB.C114_data",
    "Verif.RB.C114_circuits",
    "Verif.RB.C114_decay",
    "Verif.RB.C114_ideal",
    "Verif.RB.C114_inverse",
    "Verif.RB.C114_unitarity",
    "Verif.RB.C114_bounds",
    "Verif.RB.C114_values",
    "Verif.RB.C114_pepc"
   ],
   "note": "The noise of the random elements is the same for all of them; exact correlators (curve_fit is not modelled)."
  },
  {
   "property": "C115",
   "status": "proved",
   "theorems": [
    "Verif.MeasMit.C115_dict",
    "Verif.MeasMit.C115_list",
    "Verif.MeasMit.C115_result",
    "Verif.MeasMit.C115_tensored",
    "Verif.MeasMit.C115_tensored_result",
    "Verif.MeasMit.C115_unique",
    "Verif.MeasMit.C115_exact",
    "Verif.MeasMit.C115_closer",
    "Verif.MeasMit.C115_faithful",
    "Verif.MeasMit.C115_tensored_faithful",
    "Verif.MeasMit.C115_agrees",
    "Verif.MeasMit.C115_raises",
    "Verif.MeasMit.C115_finding_none",
    "Verif.MeasMit.C115_finding_biased"
   ],
   "note": "scipy.optimize.minimize is a parameter: assumed to return a feasible point whose objective is within a tolerance of the minimum whenever a minimum exists; real numbers."
  },
  {
   "property": "C116",
   "status": "proved",
   "theorems": [
    "Verif.RepCode.C116_always",
    "Verif.RepCode.C116_reported",
    "Verif.RepCode.C116_expected",
    "Verif.RepCode.C116_bound",
    "Verif.RepCode.C116_threshold",
    "Verif.RepCode.C116_places",
    "Verif.RepCode.C116_independent",
    "Verif.RepCode.C116_circuit_noise"
   ],
   "note": "Pauli errors and readout errors; networkx's shortest paths and matching by their specification; exact division."
  },
  {
   "property": "C117",
   "status": "proved",
   "theorems": [
    "Verif.RepCode.C117_detects",
    "Verif.RepCode.C117_detects_sharp",
    "Verif.RepCode.C117_postselection_zero",
    "Verif.RepCode.C117_undetected",
    "Verif.RepCode.C117_accepted",
    "Verif.RepCode.C117_postselected",
    "Verif.RepCode.C117_lookup_optimal",
    "Verif.RepCode.C117_lookup_beats_matching",
    "Verif.RepCode.C117_lookup_decoder",
    "Verif.RepCode.C117_finding_ties",
    "Verif.RepCode.C117_finding_unseen"
   ],
   "note": "Pauli errors and readout errors; exact division."
  },
  {
   "property": "C118",
   "status": "proved",
   "theorems": [
    "Verif.Tomo.C118_estimate",
    "Verif.Tomo.C118_fit",
    "Verif.Tomo.C118_distribution",
    "Verif.Tomo.C118_unbiased",
    "Verif.Tomo.C118_accuracy",
    "Verif.Tomo.C118_confidence",
    "Verif.Tomo.C118_weighted",
    "Verif.Tomo.C118_one_qubit",
    "Verif.Tomo.C118_experiment",
    "Verif.Tomo.C118_constrained",
    "Verif.Tomo.C118_finding_constrained"
   ],
   "note": "scipy's lstsq and eigh by their specification; exact arithmetic; shots independent."
  },
  {
   "property": "C119",
   "status": "proved",
   "theorems": [
    "Verif.Tomo.C119_estimate",
    "Verif.Tomo.C119_fit",
    "Verif.Tomo.C119_distribution",
    "Verif.Tomo.C119_unbiased",
    "Verif.Tomo.C119_accuracy",
    "Verif.Tomo.C119_confidence",
    "Verif.Tomo.C119_one_qubit",
    "Verif.Tomo.C119_experiment",
    "Verif.Tomo.C119_finding_trace_preserving"
   ],
   "note": "scipy's lstsq and eigh by their specification; exact arithmetic; shots independent."
  },
  {
   "property": "C12",
   "status": "proved",
   "theorems": [
    "Verif.MeasMit.C12_tensored",
    "Verif.MeasMit.C12_tensored_succeeds",
    "Verif.MeasMit.C12_complete"
   ],
   "note": "Circuits of the model of tensored_meas_cal / complete_meas_cal run on ideal qubits."
  },
  {
   "property": "C120",
   "status": "proved",
   "theorems": [
    "Verif.QV.C120_report",
    "Verif.QV.C120_distribution",
    "Verif.QV.C120_estimate",
    "Verif.QV.C120_wrong_success",
    "Verif.QV.C120_missed_success",
    "Verif.QV.C120_experiment",
    "Verif.QV.C120_finding_confidence"
   ],
   "note": "Real arithmetic; shots and trials independent; erf as the integral."
  },
  {
   "property": "C121",
   "status": "proved",
   "theorems": [
    "Verif.Expval.C121_plain",
    "Verif.Expval.C121_complete",
    "Verif.Expval.C121_complete_all",
    "Verif.Expval.C121_tensored",
    "Verif.Expval.C121_required",
    "Verif.Expval.C121_calibration",
    "Verif.Expval.C121_calibration_error",
    "Verif.Expval.C121_end_to_end",
    "Verif.Expval.C121_experiment",
    "Verif.Expval.C121_tensored_circuits",
    "Verif.Expval.C121_tensored_calibration_error",
    "Verif.Expval.C121_tensored_end_to_end",
    "Verif.Expval.C121_tensored_experiment"
   ],
   "note": "Real arithmetic; shots independent; numpy's inverse by its specification; the end-to-end statements are for the complete and the tensored method on all qubits."
  },
  {
   "property": "C122",
   "status": "proved",
   "theorems": [
    "Verif.Expval.C122_complete",
    "Verif.Expval.C122_tensored",
    "Verif.Expval.C122_object",
    "Verif.Expval.C122_finding_correlated"
   ],
   "note": "Exact arithmetic; the constructors of the mitigators are represented by their arguments."
  },
  {
   "property": "C123",
   "status": "proved",
   "theorems": [
    "Verif.Tomo.C123_physical",
    "Verif.Tomo.C123_best",
    "Verif.Tomo.C123_exact",
    "Verif.Tomo.C123_ideal",
    "Verif.Tomo.C123_experiment"
   ],
   "note": "Exact arithmetic; scipy's two optimisers and schur by their specification, shown satisfiable together; one qubit, as in the code."
  },
  {
   "property": "C124",
   "status": "proved",
   "theorems": [
    "Verif.Tomo.C124_history",
    "Verif.Tomo.C124_auto",
    "Verif.Tomo.C124_unknown",
    "Verif.Tomo.C124_state",
    "Verif.Tomo.C124_process",
    "Verif.Tomo.C124_finding_keywords",
    "Verif.Tomo.C124_finding_scs"
   ],
   "note": "The fit functions are represented by the call made; keyword arguments as a dictionary."
  },
  {
   "property": "C125",
   "status": "proved",
   "theorems": [
    "Verif.Expval.Ctmp.C125_accuracy",
    "Verif.Expval.Ctmp.C125_error_bar",
    "Verif.Expval.Ctmp.C125_experiment",
    "Verif.Expval.Ctmp.C125_finding_error_bar"
   ],
   "note": "Real arithmetic; shots and random numbers independent; the generator delivers Poisson, categorical and uniform numbers of the laws asked for."
  },
  {
   "property": "C126",
   "status": "proved",
   "theorems": [
    "Verif.MeasMit.C126_pinv",
    "Verif.MeasMit.C126_lsq",
    "Verif.MeasMit.C126_tensored",
    "Verif.MeasMit.C126_tensored_lsq",
    "Verif.MeasMit.C126_calibration",
    "Verif.MeasMit.C126_calibration_error",
    "Verif.MeasMit.C126_tensored_calibration",
    "Verif.MeasMit.C126_experiment"
   ],
   "note": "Exact arithmetic; shots independent; scipy's pinv and minimize by their specification."
  },
  {
   "property": "C127",
   "status": "proved",
   "theorems": [
    "Verif.RB.C127_new",
    "Verif.RB.C127_finding_bias",
    "Verif.RB.C127_one_qubit",
    "Verif.RB.C127_one_qubit_decay",
    "Verif.RB.C127_experiment"
   ],
   "note": "Exact arithmetic; shots independent; the correlators of the device agree between the circuits that measure the same Pauli string (as C114 proves for a device with noise after the elements)."
  },
  {
   "property": "C128",
   "status": "proved",
   "theorems": [
    "Verif.RB.C128_data",
    "Verif.RB.C128_clifford",
    "Verif.RB.C128_interleaved",
    "Verif.RB.C128_experiment"
   ],
   "note": "Exact arithmetic; shots and seeds independent; the generator delivers uniform elements."
  },
  {
   "property": "C129",
   "status": "proved",
   "theorems": [
    "Verif.Discr.C129_scale",
    "Verif.Discr.C129_plain",
    "Verif.Discr.C129_apply",
    "Verif.Discr.C129_standardised",
    "Verif.Discr.C129_linear",
    "Verif.Discr.C129_quadratic",
    "Verif.Discr.C129_new",
    "Verif.Discr.C129_add",
    "Verif.Discr.C129_experiment",
    "Verif.Discr.C129_finding_stale",
    "Verif.Discr.C129_finding_held"
   ],
   "note": "Real arithmetic; StandardScaler modelled, the classifiers by their specification on non-singular data."
  },
  {
   "property": "C13",
   "status": "proved",
   "theorems": [
    "Verif.MeasMit.C13_entries",
    "Verif.MeasMit.C13_columns",
    "Verif.MeasMit.C13_succeeds",
    "Verif.MeasMit.C13_name_designates_label",
    "Verif.MeasMit.C13_finding_larger_register"
   ],
   "note": "For measured strings as long as the calibrated register; with a larger classical register the code reads the wrong characters (finding proved)."
  },
  {
   "property": "C130",
   "status": "proved",
   "theorems": [
    "Verif.Ent.C130_po_linear",
    "Verif.Ent.C130_po_layout",
    "Verif.Ent.C130_mqc_linear",
    "Verif.Ent.C130_mqc_layout",
    "Verif.Ent.C130_pauli",
    "Verif.Ent.C130_experiment",
    "Verif.Ent.C130_finding_bound"
   ],
   "note": "Exact arithmetic and exact probabilities (no shots); noise strikes after the preparation (any state) and before the inverse (any Kraus operators); the rotation is noiseless."
  },
  {
   "property": "C131",
   "status": "proved",
   "theorems": [
    "Verif.Ent.C131_total",
    "Verif.Ent.C131_po_linear",
    "Verif.Ent.C131_po_layout",
    "Verif.Ent.C131_mqc_linear",
    "Verif.Ent.C131_mqc_layout",
    "Verif.Ent.C131_pauli_channel",
    "Verif.Ent.C131_experiment",
    "Verif.Ent.C131_finding_bias"
   ],
   "note": "Exact arithmetic; independent shots with the outcome probabilities of the circuits, no readout errors; raw fidelities; noise as in C130."
  },
  {
   "property": "C132",
   "status": "proved",
   "theorems": [
    "Verif.Tomo.C132_coherent",
    "Verif.Tomo.C132_add",
    "Verif.Tomo.C132_raises",
    "Verif.Tomo.C132_circuits",
    "Verif.Tomo.C132_spam",
    "Verif.Tomo.C132_experiment",
    "Verif.Tomo.C132_finding_again",
    "Verif.Tomo.C132_finding_alias",
    "Verif.Tomo.C132_finding_half",
    "Verif.Tomo.C132_finding_matrices"
   ],
   "note": "PTM is a parameter (a real matrix, or an exception); the dictionaries are only changed through the gate sets."
  },
  {
   "property": "C133",
   "status": "proved",
   "theorems": [
    "Verif.Ent.C133_table",
    "Verif.Ent.C133_order",
    "Verif.Ent.C133_raises",
    "Verif.Ent.C133_experiment",
    "Verif.Ent.C133_finding_direction",
    "Verif.Ent.C133_finding_gates"
   ],
   "note": "Errors are rational numbers; the properties are the list of (qubits, parameter values) of the backend."
  },
  {
   "property": "C134",
   "status": "proved",
   "theorems": [
    "Verif.MeasMit.C134_matrix",
    "Verif.MeasMit.C134_labels",
    "Verif.MeasMit.C134_filter",
    "Verif.MeasMit.C134_same",
    "Verif.MeasMit.C134_experiment",
    "Verif.MeasMit.C134_finding_poisoned",
    "Verif.MeasMit.C134_finding_labels"
   ],
   "note": "Arrays and lists are not changed in place by the caller; what an interrupted build leaves in the matrix is marked but not modelled."
  },
  {
   "property": "C135",
   "status": "proved",
   "theorems": [
    "Verif.MeasMit.C135_counts",
    "Verif.MeasMit.C135_observable",
    "Verif.MeasMit.C135_default",
    "Verif.MeasMit.C135_experiment"
   ],
   "note": "Exact arithmetic; shots independent; the calibration states are prepared without error; scipy's pinv (on invertible matrices) and minimize by their specification."
  },
  {
   "property": "C136",
   "status": "proved",
   "theorems": [
    "Verif.Dihedral.C136_independent",
    "Verif.Dihedral.C136_raise",
    "Verif.Dihedral.C136_program",
    "Verif.Dihedral.C136_equal",
    "Verif.Dihedral.C136_equal_sizes",
    "Verif.Dihedral.C136_check",
    "Verif.Dihedral.C136_experiment",
    "Verif.Dihedral.C136_finding_check_of_product",
    "Verif.Dihedral.C136_finding_copy_constructor",
    "Verif.Dihedral.C136_finding_tensor_mixed",
    "Verif.Dihedral.C136_finding_tensor_of_products",
    "Verif.Dihedral.C136_finding_append_not_atomic"
   ],
   "note": "CPython's set order; qiskit's copy is a deep copy; what happens to an element with a two-dimensional shift afterwards is not modelled."
  },
  {
   "property": "C137",
   "status": "proved",
   "theorems": [
    "Verif.Tomo.C137_accurate",
    "Verif.Tomo.C137_consistent",
    "Verif.Tomo.C137_data",
    "Verif.Tomo.C137_experiment"
   ],
   "note": "Exact arithmetic; runs independent; the device acts on each instruction by a fixed matrix; np.linalg.inv by its specification."
  },
  {
   "property": "C138",
   "status": "proved",
   "theorems": [
    "Verif.Log.C138_read",
    "Verif.Log.C138_rows",
    "Verif.Log.C138_sizes",
    "Verif.Log.C138_full",
    "Verif.Log.C138_experiment",
    "Verif.Log.C138_finding_two_loggers",
    "Verif.Log.C138_finding_same_time",
    "Verif.Log.C138_finding_other_files",
    "Verif.Log.C138_finding_hole"
   ],
   "note": "The RotatingFileHandler of the standard library as in Python 3.6 to 3.11; removing, renaming and writing one line are single steps; the path has no special characters of regular expressions and globs except the dot; the working directory and the settings do not change."
  },
  {
   "property": "C139",
   "status": "proved",
   "theorems": [
    "Verif.Expval.Obj.C139_history",
    "Verif.Expval.Obj.C139_read_only",
    "Verif.Expval.Obj.C139_experiment",
    "Verif.Expval.Obj.C139_finding_mitigation_matrix",
    "Verif.Expval.Obj.C139_finding_assignment_matrix",
    "Verif.Expval.Obj.C139_finding_tensored",
    "Verif.Expval.Obj.C139_finding_generator"
   ],
   "note": "np.linalg.inv (with pinv) and scipy.linalg.expm are deterministic functions of their argument; changing an array in place replaces all of it; what expectation_value of a CTMP mitigator asks of the random number generator stands for its result."
  },
  {
   "property": "C14",
   "status": "proved",
   "theorems": [
    "Verif.MeasMit.C14_order_irrelevant"
   ],
   "note": "Any two add_data histories ending in a rebuild."
  },
  {
   "property": "C140",
   "status": "proved",
   "theorems": [
    "Verif.Dihedral.C140_poly",
    "Verif.Dihedral.C140_text",
    "Verif.Dihedral.C140_unique",
    "Verif.Dihedral.C140_operator",
    "Verif.Dihedral.C140_experiment",
    "Verif.Dihedral.C140_finding_variables"
   ],
   "note": "The reader in SpecText.lean knows nothing of the printer: it splits at +, * and commas and evaluates."
  },
  {
   "property": "C141",
   "status": "proved",
   "theorems": [
    "Verif.MeasMit.C141_counts",
    "Verif.MeasMit.C141_observable",
    "Verif.MeasMit.C141_default",
    "Verif.MeasMit.C141_experiment"
   ],
   "note": "Exact arithmetic; shots independent; the calibration states are prepared without error; no group is empty and the classical register is the default one; the noise of one group does not depend on the others; scipy's pinv (on invertible matrices) and minimize by their specification."
  },
  {
   "property": "C142",
   "status": "proved",
   "theorems": [
    "Verif.RepCode.C142_error_graph",
    "Verif.RepCode.C142_default",
    "Verif.RepCode.C142_code"
   ],
   "note": "The distance function is any symmetric partial function (so it covers graphs with and without weights); in C142_code it is networkx's shortest path, by its specification, in the unweighted graph."
  },
  {
   "property": "C15",
   "status": "proved",
   "theorems": [
    "Verif.MeasMit.C15_inverts",
    "Verif.MeasMit.C15_conserves_total",
    "Verif.MeasMit.C15_inverts_list"
   ],
   "note": "pinv is any matrix satisfying the Moore-Penrose equations; exact arithmetic over any field."
  },
  {
   "property": "C16",
   "status": "proved",
   "theorems": [
    "Verif.MeasMit.C16_kronecker",
    "Verif.MeasMit.C16_inverts"
   ],
   "note": ""
  },
  {
   "property": "C17",
   "status": "partial",
   "theorems": [
    "Verif.MeasMit.C17_subset_partial",
    "Verif.MeasMit.C17_documented_false",
    "Verif.MeasMit.C17_whole_list",
    "Verif.MeasMit.C17_columns"
   ],
   "note": "The documented statement is false of the code (negation proved); the calibration of the mirrored qubits is returned."
  },
  {
   "property": "C18",
   "status": "proved",
   "theorems": [
    "Verif.Expval.C18_readback",
    "Verif.Expval.C18_labels"
   ],
   "note": "Circuits as X-gate and measurement lists."
  },
  {
   "property": "C19",
   "status": "proved",
   "theorems": [
    "Verif.Expval.C19_subset",
    "Verif.Expval.C19_full",
    "Verif.Expval.C19_stochastic",
    "Verif.Expval.C19_finding_order"
   ],
   "note": "Exact field arithmetic."
  },
  {
   "property": "C20",
   "status": "proved",
   "theorems": [
    "Verif.Expval.C20_expectation_value",
    "Verif.Expval.C20_stddev"
   ],
   "note": "Exact field arithmetic; counts in one classical register."
  },
  {
   "property": "C21",
   "status": "proved",
   "theorems": [
    "Verif.Expval.C21_vector",
    "Verif.Expval.C21_vector_qubits",
    "Verif.Expval.C21_rejects",
    "Verif.Expval.C21_distribution",
    "Verif.Expval.C21_distribution_qubits",
    "Verif.Expval.C21_finding_clbit_order"
   ],
   "note": ""
  },
  {
   "property": "C22",
   "status": "proved",
   "theorems": [
    "Verif.Expval.C22_complete",
    "Verif.Expval.C22_complete_all",
    "Verif.Expval.exists_invCorrect",
    "Verif.Expval.C22_finding_diagonal_order"
   ],
   "note": "numpy's matrix inverse enters as a function assumed correct on invertible matrices (shown to exist)."
  },
  {
   "property": "C23",
   "status": "proved",
   "theorems": [
    "Verif.Expval.C23_tensored",
    "Verif.Expval.C23_finding_fewer_bits"
   ],
   "note": "Matrix inverse as in C22."
  },
  {
   "property": "C24",
   "status": "proved",
   "theorems": [
    "Verif.Expval.C24_kronecker",
    "Verif.Expval.C24_inverse",
    "Verif.Expval.C24_finding_lists"
   ],
   "note": ""
  },
  {
   "property": "C25",
   "status": "proved",
   "theorems": [
    "Verif.Expval.C25_single",
    "Verif.Expval.C25_product"
   ],
   "note": ""
  },
  {
   "property": "C26",
   "status": "proved",
   "theorems": [
    "Verif.Expval.Ctmp.C26_one_generator",
    "Verif.Expval.Ctmp.C26_generator_matrix",
    "Verif.Expval.Ctmp.C26_sampling",
    "Verif.Expval.Ctmp.C26_mitigator"
   ],
   "note": "Exact arithmetic; the sparse storage and cache are not modelled here."
  },
  {
   "property": "C27",
   "status": "proved",
   "theorems": [
    "Verif.Expval.Ctmp.C27_series",
    "Verif.Expval.Ctmp.C27_unbiased"
   ],
   "note": "Real arithmetic, exact Poisson law."
  },
  {
   "property": "C28",
   "status": "proved",
   "theorems": [
    "Verif.Expval.Ctmp.C28_step",
    "Verif.Expval.Ctmp.C28_support",
    "Verif.Expval.Ctmp.C28_chain",
    "Verif.Expval.Ctmp.C28_batches",
    "Verif.Expval.Ctmp.C28_signed_sum",
    "Verif.Expval.Ctmp.C28_step_law",
    "Verif.Expval.Ctmp.C28_walk_law"
   ],
   "note": "Uniform random numbers as Lebesgue measure on [0,1)."
  },
  {
   "property": "C29",
   "status": "proved",
   "theorems": [
    "Verif.Expval.Ctmp.C29_standard",
    "Verif.Expval.Ctmp.C29_well_formed",
    "Verif.Expval.Ctmp.C29_rejects",
    "Verif.Expval.Ctmp.C29_finding_pairs"
   ],
   "note": ""
  },
  {
   "property": "C30",
   "status": "proved",
   "theorems": [
    "Verif.Expval.Ctmp.C30_two_qubit",
    "Verif.Expval.Ctmp.C30_fit",
    "Verif.Expval.Ctmp.C30_rate",
    "Verif.Expval.Ctmp.C30_finding_one_qubit_swapped",
    "Verif.Expval.Ctmp.C30_finding_single_qubit",
    "Verif.Expval.Ctmp.C30_finding_flip"
   ],
   "note": "The matrix logarithm is a parameter."
  },
  {
   "property": "C31",
   "status": "proved",
   "theorems": [
    "Verif.Accred.C31_pad_undone",
    "Verif.Accred.C31_finding_permuted_measurement",
    "Verif.Accred.C31_finding_mid_circuit"
   ],
   "note": "Includes layer_parser; transpile is taken to preserve meaning. Fails for permuted measurements (finding proved)."
  },
  {
   "property": "C32",
   "status": "proved",
   "theorems": [
    "Verif.Accred.C32_involution"
   ],
   "note": ""
  },
  {
   "property": "C33",
   "status": "proved",
   "theorems": [
    "Verif.Accred.C33_traps_zero"
   ],
   "note": ""
  },
  {
   "property": "C34",
   "status": "proved",
   "theorems": [
    "Verif.Accred.C34_accept_iff",
    "Verif.Accred.C34_history",
    "Verif.Accred.C34_bound",
    "Verif.Accred.C34_bound_antitone",
    "Verif.Accred.C34_finding_outputs_shared",
    "Verif.Accred.C34_finding_checks_not_raised",
    "Verif.Accred.C34_finding_stale_bound"
   ],
   "note": "Exact arithmetic; confidence value not modelled."
  },
  {
   "property": "C35",
   "status": "proved",
   "theorems": [
    "Verif.Dihedral.C35_set_get",
    "Verif.Dihedral.C35_get",
    "Verif.Dihedral.C35_rejects"
   ],
   "note": ""
  },
  {
   "property": "C36",
   "status": "proved",
   "theorems": [
    "Verif.Dihedral.C36_add",
    "Verif.Dihedral.C36_smul",
    "Verif.Dihedral.C36_mul_monomial",
    "Verif.Dihedral.C36_mul_monomial_coefficients",
    "Verif.Dihedral.C36_mul_monomial_accepts",
    "Verif.Dihedral.C36_finding_degree_four_dropped",
    "Verif.Dihedral.C36_finding_nine_variables"
   ],
   "note": "Set enumeration order is a parameter; CPython's order is modelled for the acceptance part."
  },
  {
   "property": "C37",
   "status": "proved",
   "theorems": [
    "Verif.Dihedral.C37_cnot",
    "Verif.Dihedral.C37_phase",
    "Verif.Dihedral.C37_flip",
    "Verif.Dihedral.C37_identity",
    "Verif.Dihedral.C37_circuit",
    "Verif.Dihedral.C37_rejects",
    "Verif.Dihedral.C37_finding_equal_qubits"
   ],
   "note": "State-vector semantics of the gates; all circuits."
  },
  {
   "property": "C38",
   "status": "proved",
   "theorems": [
    "Verif.Dihedral.C38_compose",
    "Verif.Dihedral.C38_dot",
    "Verif.Dihedral.C38_returns",
    "Verif.Dihedral.C38_compose_cpython",
    "Verif.Dihedral.C38_finding_nine_qubits",
    "Verif.Dihedral.C38_finding_rmul"
   ],
   "note": ""
  },
  {
   "property": "C39",
   "status": "proved",
   "theorems": [
    "Verif.Dihedral.C39_round_trip",
    "Verif.Dihedral.C39_resynthesis"
   ],
   "note": "All n; the one- and two-qubit tables are checked completely, the general algorithm by invariants."
  },
  {
   "property": "C40",
   "status": "proved",
   "theorems": [
    "Verif.Dihedral.C40_eq_iff",
    "Verif.Dihedral.C40_circuits"
   ],
   "note": ""
  },
  {
   "property": "C41",
   "status": "proved",
   "theorems": [
    "Verif.RB.C41_identity",
    "Verif.RB.C41_cnotdihedral",
    "Verif.RB.C42_family"
   ],
   "note": "Holds for every group whose class obeys the laws `Lawful`; proved to hold for the library's CNOT-dihedral class (up to eight qubits per subset). terra's Clifford class and the random generators are outside the repository and enter as this assumption."
  },
  {
   "property": "C42",
   "status": "proved",
   "theorems": [
    "Verif.RB.C42_family",
    "Verif.RB.C42_names",
    "Verif.RB.C42_unique",
    "Verif.RB.C42_seed_changes",
    "Verif.RB.C42_finding_seed_zero",
    "Verif.RB.C42_finding_generator",
    "Verif.RB.C42_finding_lengths_dropped"
   ],
   "note": ""
  },
  {
   "property": "C43",
   "status": "proved",
   "theorems": [
    "Verif.RB.C43_accepts",
    "Verif.RB.C43_values",
    "Verif.RB.C43_multiplier_list",
    "Verif.RB.C43_multiplier_scalar",
    "Verif.RB.C43_finding_scalar_unchecked",
    "Verif.RB.C43_finding_none_raises"
   ],
   "note": ""
  },
  {
   "property": "C44",
   "status": "proved",
   "theorems": [
    "Verif.RB.C44_documented",
    "Verif.RB.C44_other",
    "Verif.RB.C44_finding_missing_comma"
   ],
   "note": ""
  },
  {
   "property": "C45",
   "status": "proved",
   "theorems": [
    "Verif.RB.Utils.C45_epc1q",
    "Verif.RB.Utils.C45_epg1q",
    "Verif.RB.Utils.C45_epc2q",
    "Verif.RB.Utils.C45_roundtrip",
    "Verif.RB.Utils.C45_finding_not_recovered"
   ],
   "note": "Real arithmetic."
  },
  {
   "property": "C46",
   "status": "proved",
   "theorems": [
    "Verif.RB.Fit.C46_value",
    "Verif.RB.Fit.C46_add",
    "Verif.RB.Fit.C46_batching",
    "Verif.RB.Fit.C46_range",
    "Verif.RB.Fit.C46_order",
    "Verif.RB.Fit.C46_twice"
   ],
   "note": "Counts in one classical register; exact rational arithmetic."
  },
  {
   "property": "C47",
   "status": "proved",
   "theorems": [
    "Verif.RB.Fit.C47_epc",
    "Verif.RB.Fit.C47_interleaved",
    "Verif.RB.Fit.C47_interleaved_mono",
    "Verif.RB.Fit.C47_dihedral",
    "Verif.RB.Fit.C47_purity",
    "Verif.RB.Fit.C47_finding_purity_err"
   ],
   "note": "Formulas applied to the fitted parameters; curve_fit is not modelled."
  },
  {
   "property": "C48",
   "status": "proved",
   "theorems": [
    "Verif.Tomo.C48_state",
    "Verif.Tomo.C48_process",
    "Verif.Tomo.C48_rejects",
    "Verif.Tomo.C48_finding_sic_needs_labels",
    "Verif.Tomo.C48_finding_tuple_order"
   ],
   "note": ""
  },
  {
   "property": "C49",
   "status": "proved",
   "theorems": [
    "Verif.Tomo.C49_measurement",
    "Verif.Tomo.C49_preparation",
    "Verif.Tomo.C49_process"
   ],
   "note": "State-vector semantics; exact complex arithmetic."
  },
  {
   "property": "C50",
   "status": "proved",
   "theorems": [
    "Verif.Tomo.C50_povm",
    "Verif.Tomo.C50_rejects"
   ],
   "note": ""
  },
  {
   "property": "C51",
   "status": "proved",
   "theorems": [
    "Verif.Tomo.C51_span",
    "Verif.Tomo.C51_inversion",
    "Verif.Tomo.C51_fit"
   ],
   "note": "scipy's lstsq and eigh are specified (minimiser, eigendecomposition), not modelled; exact arithmetic."
  },
  {
   "property": "C52",
   "status": "proved",
   "theorems": [
    "Verif.Tomo.C52_unchanged",
    "Verif.Tomo.C52_spectrum",
    "Verif.Tomo.C52_matrix",
    "Verif.Tomo.C52_rejects",
    "Verif.Tomo.C52_finding_negative_trace"
   ],
   "note": "la.eigh is specified, not modelled; exact arithmetic; threshold 0, the value lstsq_fit uses."
  },
  {
   "property": "C53",
   "status": "proved",
   "theorems": [
    "Verif.Tomo.C53_weights",
    "Verif.Tomo.C53_rejects",
    "Verif.Tomo.C53_fitter",
    "Verif.Tomo.C53_finding_single_outcome"
   ],
   "note": "Real arithmetic."
  },
  {
   "property": "C54",
   "status": "proved",
   "theorems": [
    "Verif.Tomo.C54_partial_trace"
   ],
   "note": ""
  },
  {
   "property": "C55",
   "status": "proved",
   "theorems": [
    "Verif.Tomo.C55_inversion",
    "Verif.Tomo.C55_predicts",
    "Verif.Tomo.C55_rejects",
    "Verif.Tomo.C55_circuits",
    "Verif.Tomo.C55_finding_names"
   ],
   "note": "numpy's inverse as exact matrix inverse; exact arithmetic."
  },
  {
   "property": "C56",
   "status": "proved",
   "theorems": [
    "Verif.Tomo.C56_split",
    "Verif.Tomo.C56_split_rejects",
    "Verif.Tomo.C56_pack",
    "Verif.Tomo.C56_unpack",
    "Verif.Tomo.C56_decomposition",
    "Verif.Tomo.C56_round_trip"
   ],
   "note": "One qubit; scipy's schur is specified (shown to exist for Hermitian matrices); exact arithmetic."
  },
  {
   "property": "C57",
   "status": "proved",
   "theorems": [
    "Verif.Tomo.C57_pools",
    "Verif.Tomo.C57_order",
    "Verif.Tomo.C57_rejects",
    "Verif.Tomo.C57_finding_last_result",
    "Verif.Tomo.C57_finding_registers"
   ],
   "note": "Single-register circuits; the multi-register branch is modelled and its defect shown."
  },
  {
   "property": "C58",
   "status": "proved",
   "theorems": [
    "Verif.QV.C58_heavy_outputs",
    "Verif.QV.C58_counts",
    "Verif.QV.C58_mean",
    "Verif.QV.C58_success",
    "Verif.QV.C58_ideal_accepted",
    "Verif.QV.C58_ideal_twice"
   ],
   "note": "Real arithmetic; erf as the integral."
  },
  {
   "property": "C59",
   "status": "proved",
   "theorems": [
    "Verif.QV.C59_trials",
    "Verif.QV.C59_sums",
    "Verif.QV.C59_volumes",
    "Verif.QV.C59_batching",
    "Verif.QV.C59_data_accepted",
    "Verif.QV.C59_incomplete_raises"
   ],
   "note": ""
  },
  {
   "property": "C60",
   "status": "proved",
   "theorems": [
    "Verif.QV.C60_circuit",
    "Verif.QV.C60_all",
    "Verif.QV.C60_names",
    "Verif.QV.C60_finding_order",
    "Verif.QV.C60_finding_mapping",
    "Verif.QV.C60_finding_idle",
    "Verif.QV.C60_finding_equal_lengths"
   ],
   "note": "The random model circuit is an input."
  },
  {
   "property": "C61",
   "status": "proved",
   "theorems": [
    "Verif.Discr.C61_count",
    "Verif.Discr.C61_base",
    "Verif.Discr.C61_base_given",
    "Verif.Discr.C61_inferred",
    "Verif.Discr.C61_apply",
    "Verif.Discr.C61_finding_base_one",
    "Verif.Discr.C61_finding_widths",
    "Verif.Discr.C61_finding_averaged"
   ],
   "note": "Classifier: any function of one feature row.  Readout values in any type."
  },
  {
   "property": "C62",
   "status": "proved",
   "theorems": [
    "Verif.Discr.C62_calibration",
    "Verif.Discr.C62_state",
    "Verif.Discr.C62_init",
    "Verif.Discr.C62_add_data",
    "Verif.Discr.C62_objects",
    "Verif.Discr.C62_finding_objects",
    "Verif.Discr.C62_finding_replaced",
    "Verif.Discr.C62_finding_twice",
    "Verif.Discr.C62_finding_averaged"
   ],
   "note": "A Schedule object is its name; standardisation and the fit are not modelled."
  },
  {
   "property": "C63",
   "status": "proved",
   "theorems": [
    "Verif.Ent.C63_schedule",
    "Verif.Ent.C63_spanning",
    "Verif.Ent.C63_finding_rounds",
    "Verif.Ent.C63_finding_exponential",
    "Verif.Ent.C63_finding_no_zero",
    "Verif.Ent.C63_finding_duplicate"
   ],
   "note": "CNOT errors as a total function."
  },
  {
   "property": "C64",
   "status": "proved",
   "theorems": [
    "Verif.Ent.C64_linear",
    "Verif.Ent.C64_layout",
    "Verif.Ent.C64_device",
    "Verif.Ent.C64_finding_too_many",
    "Verif.Ent.C64_finding_one"
   ],
   "note": "State-vector semantics; transpilation is not modelled."
  },
  {
   "property": "C65",
   "status": "proved",
   "theorems": [
    "Verif.Ent.C65_mqc_linear",
    "Verif.Ent.C65_mqc_layout",
    "Verif.Ent.C65_mqc_first",
    "Verif.Ent.C65_po_linear",
    "Verif.Ent.C65_po_layout"
   ],
   "note": "As C64; exact complex arithmetic."
  },
  {
   "property": "C66",
   "status": "proved",
   "theorems": [
    "Verif.Ent.C66_value",
    "Verif.Ent.C66_all",
    "Verif.Ent.C66_bound",
    "Verif.Ent.C66_even",
    "Verif.Ent.C66_finding_registers"
   ],
   "note": "Counts in any field."
  },
  {
   "property": "C67",
   "status": "proved",
   "theorems": [
    "Verif.Char.C67_value",
    "Verif.Char.C67_range",
    "Verif.Char.C67_std",
    "Verif.Char.C67_batching",
    "Verif.Char.C67_add_data"
   ],
   "note": "Results as dictionaries from circuit name to counts; the fit itself (curve_fit) is not modelled."
  },
  {
   "property": "C68",
   "status": "proved",
   "theorems": [
    "Verif.Char.C68_t1",
    "Verif.Char.C68_counted",
    "Verif.Char.C68_t2",
    "Verif.Char.C68_t2_expected",
    "Verif.Char.C68_no_echo",
    "Verif.Char.C68_finding_even_echoes",
    "Verif.Char.C68_finding_alternating"
   ],
   "note": "State-vector semantics with a phase per identity gate."
  },
  {
   "property": "C69",
   "status": "proved",
   "theorems": [
    "Verif.Char.C69_t1",
    "Verif.Char.C69_t2star",
    "Verif.Char.C69_t2",
    "Verif.Char.C69_zz",
    "Verif.Char.C69_time_to_ngates"
   ],
   "note": "Exact arithmetic; rounding half to even."
  },
  {
   "property": "C70",
   "status": "proved",
   "theorems": [
    "Verif.Log.C70_rows",
    "Verif.Log.C70_bad_bound",
    "Verif.Log.C70_finding_empty",
    "Verif.Log.C70_finding_blank"
   ],
   "note": "Clock and strptime as parameters with their round trip as hypothesis; file selection and rotation are not modelled."
  },
  {
   "property": "C71",
   "status": "proved",
   "theorems": [
    "Verif.Log.C71_all",
    "Verif.Log.C71_keys",
    "Verif.Log.C71_finding_blanks",
    "Verif.Log.C71_finding_forged",
    "Verif.Log.C71_finding_colon"
   ],
   "note": "As C70."
  },
  {
   "property": "C72",
   "status": "proved",
   "theorems": [
    "Verif.RepCode.C72_even_defects"
   ],
   "note": ""
  },
  {
   "property": "C73",
   "status": "proved",
   "theorems": [
    "Verif.Dihedral.C73_adjoint",
    "Verif.Dihedral.C73_conjugate",
    "Verif.Dihedral.C73_transpose"
   ],
   "note": "QuantumCircuit.inverse and reverse_ops of qiskit are modelled on the gate list."
  },
  {
   "property": "C74",
   "status": "proved",
   "theorems": [
    "Verif.Dihedral.C74_tensor",
    "Verif.Dihedral.C74_expand",
    "Verif.Dihedral.C74_finding_order"
   ],
   "note": ""
  },
  {
   "property": "C75",
   "status": "proved",
   "theorems": [
    "Verif.Dihedral.C75_valid",
    "Verif.Dihedral.C75_all",
    "Verif.Dihedral.C75_uniform",
    "Verif.Dihedral.C75_mean",
    "Verif.Dihedral.C75_ends"
   ],
   "note": "rng.randint is uniform and independent; the determinant is exact."
  },
  {
   "property": "C76",
   "status": "proved",
   "theorems": [
    "Verif.RB.Utils.C76_gates_per_clifford",
    "Verif.RB.Utils.C76_finding_duplicate_basis",
    "Verif.RB.Utils.C76_count_gates",
    "Verif.RB.Utils.C76_agree",
    "Verif.RB.Utils.C76_finding_repeated_basis"
   ],
   "note": "The deprecated QasmQobj input of gates_per_clifford runs the same loop over the instructions of its experiments."
  },
  {
   "property": "C77",
   "status": "proved",
   "theorems": [
    "Verif.RB.Utils.C77_one",
    "Verif.RB.Utils.C77_two",
    "Verif.RB.Utils.C77_default",
    "Verif.RB.Utils.C77_rejects"
   ],
   "note": "Real arithmetic."
  },
  {
   "property": "C78",
   "status": "proved",
   "theorems": [
    "Verif.RB.Utils.C78_twoQ_agrees"
   ],
   "note": "Real arithmetic."
  },
  {
   "property": "C79",
   "status": "proved",
   "theorems": [
    "Verif.RB.Fit.C79_guess_exact",
    "Verif.RB.Fit.C79_finding_negative_decay",
    "Verif.RB.Fit.C79_finding_amplitude"
   ],
   "note": "Real arithmetic."
  },
  {
   "property": "C80",
   "status": "proved",
   "theorems": [
    "Verif.RB.Purity.C80_pauli_index",
    "Verif.RB.Purity.C80_covered",
    "Verif.RB.Purity.C80_sign",
    "Verif.RB.Purity.C80_average",
    "Verif.RB.Purity.C80_purity"
   ],
   "note": ""
  },
  {
   "property": "C81",
   "status": "proved",
   "theorems": [
    "Verif.Expval.C81_required_shots",
    "Verif.Expval.C81_required_pos",
    "Verif.Expval.C81_overhead",
    "Verif.Expval.C81_complete",
    "Verif.Expval.C81_tensored"
   ],
   "note": "Real arithmetic."
  },
  {
   "property": "C82",
   "status": "proved",
   "theorems": [
    "Verif.Expval.C82_fidelity",
    "Verif.Expval.C82_fidelity_all"
   ],
   "note": ""
  },
  {
   "property": "C83",
   "status": "proved",
   "theorems": [
    "Verif.Expval.C83_calibration_data"
   ],
   "note": "Results as counts per circuit index."
  },
  {
   "property": "C84",
   "status": "proved",
   "theorems": [
    "Verif.Tomo.C84_inversion",
    "Verif.Tomo.C84_fit",
    "Verif.Tomo.complete_pauli",
    "Verif.Tomo.complete_sic"
   ],
   "note": "As C51."
  },
  {
   "property": "C85",
   "status": "proved",
   "theorems": [
    "Verif.Tomo.C85_constraints",
    "Verif.Tomo.C85_constraints_state",
    "Verif.Tomo.C85_objective",
    "Verif.Tomo.C85_state",
    "Verif.Tomo.C85_process"
   ],
   "note": "The convex solver is specified by its optimum."
  },
  {
   "property": "C86",
   "status": "proved",
   "theorems": [
    "Verif.Tomo.C86_circuits",
    "Verif.Tomo.C86_finding_duplicate"
   ],
   "note": ""
  },
  {
   "property": "C87",
   "status": "proved",
   "theorems": [
    "Verif.Tomo.C87_gauge",
    "Verif.Tomo.C87_singular",
    "Verif.Tomo.C87_optimum",
    "Verif.Tomo.C87_zero",
    "Verif.Tomo.C87_spam_matrix",
    "Verif.Tomo.C87_finding_start",
    "Verif.Tomo.C87_finding_spam_order"
   ],
   "note": "The optimiser itself is not modelled."
  },
  {
   "property": "C88",
   "status": "proved",
   "theorems": [
    "Verif.Tomo.C88_objective",
    "Verif.Tomo.C88_zero",
    "Verif.Tomo.C88_optimum"
   ],
   "note": "One qubit; the optimiser is not modelled."
  },
  {
   "property": "C89",
   "status": "proved",
   "theorems": [
    "Verif.Tomo.C89_completely_positive",
    "Verif.Tomo.C89_equalities",
    "Verif.Tomo.C89_inequalities",
    "Verif.Tomo.C89_bounded",
    "Verif.Tomo.C89_trace",
    "Verif.Tomo.C89_finding_states",
    "Verif.Tomo.C89_finding_negative"
   ],
   "note": "One qubit; conversion between Choi and transfer matrices by definition."
  },
  {
   "property": "C90",
   "status": "proved",
   "theorems": [
    "Verif.Ent.C90_fidelity"
   ],
   "note": "Exact arithmetic."
  },
  {
   "property": "C91",
   "status": "proved",
   "theorems": [
    "Verif.Ent.C91_fourier",
    "Verif.Ent.C91_coefficient",
    "Verif.Ent.C91_mqc",
    "Verif.Ent.C91_po",
    "Verif.Ent.C91_finding_raw",
    "Verif.Ent.C91_finding_aliasing"
   ],
   "note": "np.fft.fft by its definition; exact arithmetic."
  },
  {
   "property": "C92",
   "status": "proved",
   "theorems": [
    "Verif.Char.C92_t2star",
    "Verif.Char.C92_counted"
   ],
   "note": "As C68."
  },
  {
   "property": "C93",
   "status": "proved",
   "theorems": [
    "Verif.Char.C93_zz",
    "Verif.Char.C93_counted",
    "Verif.Char.C93_refused",
    "Verif.Char.C93_finding_list_float",
    "Verif.Char.C93_finding_list_int"
   ],
   "note": "As C68."
  },
  {
   "property": "C94",
   "status": "proved",
   "theorems": [
    "Verif.Char.C94_names",
    "Verif.Char.C94_distinct"
   ],
   "note": "Names as strings."
  },
  {
   "property": "C95",
   "status": "proved",
   "theorems": [
    "Verif.Char.C95_amp",
    "Verif.Char.C95_amp_cx",
    "Verif.Char.C95_counted"
   ],
   "note": "State-vector semantics; exact arithmetic."
  },
  {
   "property": "C96",
   "status": "proved",
   "theorems": [
    "Verif.Char.C96_angle",
    "Verif.Char.C96_angle_cx",
    "Verif.Char.C96_counted",
    "Verif.Char.C96_finding_artificial"
   ],
   "note": "State-vector semantics; exact arithmetic."
  },
  {
   "property": "C97",
   "status": "proved",
   "theorems": [
    "Verif.Log.C97_logger",
    "Verif.Log.C97_finding_twice",
    "Verif.Log.C97_finding_none"
   ],
   "note": "Handlers of parent loggers are not modelled."
  },
  {
   "property": "C98",
   "status": "proved",
   "theorems": [
    "Verif.Log.C98_config",
    "Verif.Log.C98_finding_path"
   ],
   "note": "Lower-casing of ASCII letters only."
  },
  {
   "property": "C99",
   "status": "proved",
   "theorems": [
    "Verif.Calib.C99_pooled",
    "Verif.Calib.C99_series",
    "Verif.Calib.C99_batching",
    "Verif.Calib.C99_level",
    "Verif.Calib.C99_mixed",
    "Verif.Calib.C99_finding_single",
    "Verif.Calib.C99_finding_duplicate",
    "Verif.Calib.C99_finding_slots"
   ],
   "note": "Complex memories, exact arithmetic."
  }
 ]
}