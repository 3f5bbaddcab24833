{
"Verif.Accred.C109_bound": [
"Classical.choice",
"Quot.sound",
"propext"
],
"Verif.Accred.C109_complete": [
"Classical.choice",
"Quot.sound",
"propext"
],
"Verif.Accred.C109_distance": [
"Classical.choice",
"Quot.sound",
"propext"
],
"Verif.Accred.C109_finding_both_ends": [
"Classical.choice",
"Quot.sound",
"propext"
],
"Verif.Accred.C109_finding_confidence": [
"Classical.choice",
"Quot.sound",
"propext"
],
"Verif.Accred.C109_finding_reported": [
"Classical.choice",
"Quot.sound",
"propext"
],
"Verif.Accred.C109_sound": [
"Classical.choice",
"Quot.sound",
"propext"
],
"Verif.Accred.C31_finding_mid_circuit": [
"Classical.choice",
"Quot.sound",
"propext"
],
"Verif.Accred.C31_finding_permuted_measurement": [
"Classical.choice",
"Quot.sound",
"propext"
],
"Verif.Accred.C31_pad_undone": [
"Classical.choice",
"Quot.sound",
"propext"
],
"Verif.Accred.C32_involution": [
"Classical.choice",
"Quot.sound",
"propext"
],
"Verif.Accred.C33_traps_zero": [
"Classical.choice",
"Quot.sound",
"propext"
],
"Verif.Accred.C34_accept_iff": [
"Classical.choice",
"Quot.sound",
"propext"
],
"Verif.Accred.C34_bound": [
"Classical.choice",
"Quot.sound",
"propext"
],
"Verif.Accred.C34_bound_antitone": [
"Classical.choice",
"Quot.sound",
"propext"
],
"Verif.Accred.C34_finding_checks_not_raised": [
"Classical.choice",
"Quot.sound",
"propext"
],
"Verif.Accred.C34_finding_outputs_shared": [
"Classical.choice",
"Quot.sound",
"propext"
],
"Verif.Accred.C34_finding_stale_bound": [
"Classical.choice",
"Quot.sound",
"propext"
],
"Verif.Accred.C34_history": [
"Classical.choice",
"Quot.sound",
"propext"
],
"Verif.Calib.C100_constant": [
"Classical.choice",
"Quot.sound",
"propext"
],
"Verif.Calib.C100_finding_cancel": [
"Classical.choice",
"Quot.sound",
"propext"
],
"Verif.Calib.C100_line": [
"Classical.choice",
"Quot.sound",
"propext"
],
"Verif.Calib.C100_signal": [
"Classical.choice",
"Quot.sound",
"propext"
],
"Verif.Calib.C101_amplitudes": [
"Classical.choice",
"Quot.sound",
"propext"
],
"Verif.Calib.C101_drag_guess": [
"Classical.choice",
"Quot.sound",
"propext"
],
"Verif.Calib.C101_finding_edge": [
"Classical.choice",
"Quot.sound",
"propext"
],
"Verif.Calib.C101_half_period": [
"Classical.choice",
"Quot.sound",
"propext"
],
"Verif.Calib.C101_rabi_guess": [
"Classical.choice",
"Quot.sound",
"propext"
],
"Verif.Calib.C101_vertex": [
"Classical.choice",
"Quot.sound",
"propext"
],
"Verif.Calib.C102_drag": [
"Classical.choice",
"Quot.sound",
"propext"
],
"Verif.Calib.C102_drag_names": [
"Classical.choice",
"Quot.sound",
"propext"
],
"Verif.Calib.C102_rabi": [
"Classical.choice",
"Quot.sound",
"propext"
],
"Verif.Calib.C102_rabi_names": [
"Classical.choice",
"Quot.sound",
"propext"
],
"Verif.Calib.C103_follow": [
"Classical.choice",
"Quot.sound",
"propext"
],
"Verif.Calib.C103_group": [
"Quot.sound",
"propext"
],
"Verif.Calib.C103_groups": [
"Classical.choice",
"Quot.sound",
"propext"
],
"Verif.Calib.C103_u2": [
"Classical.choice",
"Quot.sound",
"propext"
],
"Verif.Calib.C103_u3": [
"Classical.choice",
"Quot.sound",
"propext"
],
"Verif.Calib.C99_batching": [
"Classical.choice",
"Quot.sound",
"propext"
],
"Verif.Calib.C99_finding_duplicate": [
"Classical.choice",
"Quot.sound",
"propext"
],
"Verif.Calib.C99_finding_single": [
"Classical.choice",
"Quot.sound",
"propext"
],
"Verif.Calib.C99_finding_slots": [
"Classical.choice",
"Quot.sound",
"propext"
],
"Verif.Calib.C99_level": [
"Classical.choice",
"Quot.sound",
"propext"
],
"Verif.Calib.C99_mixed": [
"Classical.choice",
"Quot.sound",
"propext"
],
"Verif.Calib.C99_pooled": [
"Classical.choice",
"Quot.sound",
"propext"
],
"Verif.Calib.C99_series": [
"Classical.choice",
"Quot.sound",
"propext"
],
"Verif.Char.C106_counted": [
"Classical.choice",
"Quot.sound",
"propext"
],
"Verif.Char.C106_t1": [
"Classical.choice",
"Quot.sound",
"propext"
],
"Verif.Char.C106_t2": [
"Classical.choice",
"Quot.sound",
"propext"
],
"Verif.Char.C106_t2star": [
"Classical.choice",
"Quot.sound",
"propext"
],
"Verif.Char.C67_add_data": [
"Classical.choice",
"Quot.sound",
"propext"
],
"Verif.Char.C67_batching": [
"Classical.choice",
"Quot.sound",
"propext"
],
"Verif.Char.C67_range": [
"Classical.choice",
"Quot.sound",
"propext"
],
"Verif.Char.C67_std": [
"Classical.choice",
"Quot.sound",
"propext"
],
"Verif.Char.C67_value": [
"Classical.choice",
"Quot.sound",
"propext"
],
"Verif.Char.C68_counted": [
"Classical.choice",
"Quot.sound",
"propext"
],
"Verif.Char.C68_finding_alternating": [
"Classical.choice",
"Quot.sound",
"propext"
],
"Verif.Char.C68_finding_even_echoes": [
"Classical.choice",
"Quot.sound",
"propext"
],
"Verif.Char.C68_no_echo": [
"Classical.choice",
"Quot.sound",
"propext"
],
"Verif.Char.C68_t1": [
"Classical.choice",
"Quot.sound",
"propext"
],
"Verif.Char.C68_t2": [
"Classical.choice",
"Quot.sound",
"propext"
],
"Verif.Char.C68_t2_expected": [
"Classical.choice",
"Quot.sound",
"propext"
],
"Verif.Char.C69_t1": [
"Classical.choice",
"Quot.sound",
"propext"
],
"Verif.Char.C69_t2": [
"Classical.choice",
"Quot.sound",
"propext"
],
"Verif.Char.C69_t2star": [
"Classical.choice",
"Quot.sound",
"propext"
],
"Verif.Char.C69_time_to_ngates": [
"Classical.choice",
"Quot.sound",
"propext"
],
"Verif.Char.C69_zz": [
"Classical.choice",
"Quot.sound",
"propext"
],
"Verif.Char.C92_counted": [
"Classical.choice",
"Quot.sound",
"propext"
],
"Verif.Char.C92_t2star": [
"Classical.choice",
"Quot.sound",
"propext"
],
"Verif.Char.C93_counted": [
"Classical.choice",
"Quot.sound",
"propext"
],
"Verif.Char.C93_finding_list_float": [
"Classical.choice",
"Quot.sound",
"propext"
],
"Verif.Char.C93_finding_list_int": [
"Classical.choice",
"Quot.sound",
"propext"
],
"Verif.Char.C93_refused": [
"Classical.choice",
"Quot.sound",
"propext"
],
"Verif.Char.C93_zz": [
"Classical.choice",
"Quot.sound",
"propext"
],
"Verif.Char.C94_distinct": [
"Classical.choice",
"Quot.sound",
"propext"
],
"Verif.Char.C94_names": [
"Classical.choice",
"Quot.sound",
"propext"
],
"Verif.Char.C95_amp": [
"Classical.choice",
"Quot.sound",
"propext"
],
"Verif.Char.C95_amp_cx": [
"Classical.choice",
"Quot.sound",
"propext"
],
"Verif.Char.C95_counted": [
"Classical.choice",
"Quot.sound",
"propext"
],
"Verif.Char.C96_angle": [
"Classical.choice",
"Quot.sound",
"propext"
],
"Verif.Char.C96_angle_cx": [
"Classical.choice",
"Quot.sound",
"propext"
],
"Verif.Char.C96_counted": [
"Classical.choice",
"Quot.sound",
"propext"
],
"Verif.Char.C96_finding_artificial": [
"Classical.choice",
"Quot.sound",
"propext"
],
"Verif.Counts.C01_marginal_conserves_shots": [
"Classical.choice",
"Quot.sound",
"propext"
],
"Verif.Counts.C02_finding_pad": [
"Classical.choice",
"Quot.sound",
"propext"
],
"Verif.Counts.C02_finding_repeated": [
"Classical.choice",
"Quot.sound",
"propext"
],
"Verif.Counts.C02_full": [
"Quot.sound",
"propext"
],
"Verif.Counts.C02_marginal_entries": [
"Classical.choice",
"Quot.sound",
"propext"
],
"Verif.Counts.C02_marginal_entries_empty": [
"Classical.choice",
"Quot.sound",
"propext"
],
"Verif.Counts.C02_marginal_order_irrelevant": [
"Classical.choice",
"Quot.sound",
"propext"
],
"Verif.Counts.C03_marginal_tower": [
"Classical.choice",
"Quot.sound",
"propext"
],
"Verif.Counts.C04_combine_comm_assoc": [
"Classical.choice",
"Quot.sound",
"propext"
],
"Verif.Counts.C04_combine_is_pointwise_sum": [
"Classical.choice",
"Quot.sound",
"propext"
],
"Verif.Counts.C05_build_is_pointwise_sum": [
"Quot.sound",
"propext"
],
"Verif.Counts.C05_build_order_and_split": [
"Quot.sound",
"propext"
],
"Verif.Counts.C06_count_keys": [
"Classical.choice",
"Quot.sound",
"propext"
],
"Verif.Counts.C07_expectation_counts_partial": [
"Classical.choice",
"Quot.sound",
"propext"
],
"Verif.Counts.C07_expectation_key_mirrored": [
"Classical.choice",
"Quot.sound",
"propext"
],
"Verif.Counts.C07_identity_key_missing": [
"Classical.choice",
"Quot.sound",
"propext"
],
"Verif.Dihedral.C107_complete": [
"Classical.choice",
"Quot.sound",
"propext"
],
"Verif.Dihedral.C107_entries": [
"Classical.choice",
"Quot.sound",
"propext"
],
"Verif.Dihedral.C107_every_element": [
"Classical.choice",
"Quot.sound",
"propext"
],
"Verif.Dihedral.C107_optimal": [
"Classical.choice",
"Quot.sound",
"propext"
],
"Verif.Dihedral.C107_sizes": [
"Classical.choice",
"Quot.sound",
"propext"
],
"Verif.Dihedral.C136_check": [
"Classical.choice",
"Quot.sound",
"propext"
],
"Verif.Dihedral.C136_equal": [
"Classical.choice",
"Quot.sound",
"propext"
],
"Verif.Dihedral.C136_equal_sizes": [
"Classical.choice",
"Quot.sound",
"propext"
],
"Verif.Dihedral.C136_experiment": [
"Classical.choice",
"Quot.sound",
"propext"
],
"Verif.Dihedral.C136_finding_append_not_atomic": [
"Classical.choice",
"Quot.sound",
"propext"
],
"Verif.Dihedral.C136_finding_check_of_product": [
"Classical.choice",
"Quot.sound",
"propext"
],
"Verif.Dihedral.C136_finding_copy_constructor": [
"Classical.choice",
"Quot.sound",
"propext"
],
"Verif.Dihedral.C136_finding_tensor_mixed": [
"Classical.choice",
"Quot.sound",
"propext"
],
"Verif.Dihedral.C136_finding_tensor_of_products": [
"Classical.choice",
"Quot.sound",
"propext"
],
"Verif.Dihedral.C136_independent": [
"Classical.choice",
"Quot.sound",
"propext"
],
"Verif.Dihedral.C136_program": [
"Classical.choice",
"Quot.sound",
"propext"
],
"Verif.Dihedral.C136_raise": [
"Classical.choice",
"Quot.sound",
"propext"
],
"Verif.Dihedral.C140_experiment": [
"Classical.choice",
"Quot.sound",
"propext"
],
"Verif.Dihedral.C140_finding_variables": [
"Classical.choice",
"Quot.sound",
"propext"
],
"Verif.Dihedral.C140_operator": [
"Classical.choice",
"Quot.sound",
"propext"
],
"Verif.Dihedral.C140_poly": [
"Classical.choice",
"Quot.sound",
"propext"
],
"Verif.Dihedral.C140_text": [
"Classical.choice",
"Quot.sound",
"propext"
],
"Verif.Dihedral.C140_unique": [
"Classical.choice",
"Quot.sound",
"propext"
],
"Verif.Dihedral.C35_get": [
"Classical.choice",
"Quot.sound",
"propext"
],
"Verif.Dihedral.C35_rejects": [
"Quot.sound",
"propext"
],
"Verif.Dihedral.C35_set_get": [
"Classical.choice",
"Quot.sound",
"propext"
],
"Verif.Dihedral.C36_add": [
"Classical.choice",
"Quot.sound",
"propext"
],
"Verif.Dihedral.C36_finding_degree_four_dropped": [
"Classical.choice",
"Quot.sound",
"propext"
],
"Verif.Dihedral.C36_finding_nine_variables": [
"propext"
],
"Verif.Dihedral.C36_mul_monomial": [
"Classical.choice",
"Quot.sound",
"propext"
],
"Verif.Dihedral.C36_mul_monomial_accepts": [
"Classical.choice",
"Quot.sound",
"propext"
],
"Verif.Dihedral.C36_mul_monomial_coefficients": [
"Classical.choice",
"Quot.sound",
"propext"
],
"Verif.Dihedral.C36_smul": [
"Classical.choice",
"Quot.sound",
"propext"
],
"Verif.Dihedral.C37_circuit": [
"Classical.choice",
"Quot.sound",
"propext"
],
"Verif.Dihedral.C37_cnot": [
"Classical.choice",
"Quot.sound",
"propext"
],
"Verif.Dihedral.C37_finding_equal_qubits": [
"Classical.choice",
"Quot.sound",
"propext"
],
"Verif.Dihedral.C37_flip": [
"Classical.choice",
"Quot.sound",
"propext"
],
"Verif.Dihedral.C37_identity": [
"Classical.choice",
"Quot.sound",
"propext"
],
"Verif.Dihedral.C37_phase": [
"Classical.choice",
"Quot.sound",
"propext"
],
"Verif.Dihedral.C37_rejects": [
"Quot.sound",
"propext"
],
"Verif.Dihedral.C38_compose": [
"Classical.choice",
"Quot.sound",
"propext"
],
"Verif.Dihedral.C38_compose_cpython": [
"Classical.choice",
"Quot.sound",
"propext"
],
"Verif.Dihedral.C38_dot": [
"Classical.choice",
"Quot.sound",
"propext"
],
"Verif.Dihedral.C38_finding_nine_qubits": [
"Classical.choice",
"Quot.sound",
"propext"
],
"Verif.Dihedral.C38_finding_rmul": [
"Classical.choice",
"Quot.sound",
"propext"
],
"Verif.Dihedral.C38_returns": [
"Classical.choice",
"Quot.sound",
"propext"
],
"Verif.Dihedral.C39_resynthesis": [
"Classical.choice",
"Quot.sound",
"propext"
],
"Verif.Dihedral.C39_round_trip": [
"Classical.choice",
"Quot.sound",
"propext"
],
"Verif.Dihedral.C40_circuits": [
"Classical.choice",
"Quot.sound",
"propext"
],
"Verif.Dihedral.C40_eq_iff": [
"Classical.choice",
"Quot.sound",
"propext"
],
"Verif.Dihedral.C73_adjoint": [
"Classical.choice",
"Quot.sound",
"propext"
],
"Verif.Dihedral.C73_conjugate": [
"Classical.choice",
"Quot.sound",
"propext"
],
"Verif.Dihedral.C73_transpose": [
"Classical.choice",
"Quot.sound",
"propext"
],
"Verif.Dihedral.C74_expand": [
"Classical.choice",
"Quot.sound",
"propext"
],
"Verif.Dihedral.C74_finding_order": [
"Classical.choice",
"Quot.sound",
"propext"
],
"Verif.Dihedral.C74_tensor": [
"Classical.choice",
"Quot.sound",
"propext"
],
"Verif.Dihedral.C75_all": [
"Classical.choice",
"Quot.sound",
"propext"
],
"Verif.Dihedral.C75_ends": [
"Classical.choice",
"Quot.sound",
"propext"
],
"Verif.Dihedral.C75_mean": [
"Classical.choice",
"Quot.sound",
"propext"
],
"Verif.Dihedral.C75_uniform": [
"Classical.choice",
"Quot.sound",
"propext"
],
"Verif.Dihedral.C75_valid": [
"Classical.choice",
"Quot.sound",
"propext"
],
"Verif.Discr.C129_add": [
"Classical.choice",
"Quot.sound",
"propext"
],
"Verif.Discr.C129_apply": [
"Classical.choice",
"Quot.sound",
"propext"
],
"Verif.Discr.C129_experiment": [
"Classical.choice",
"Quot.sound",
"propext"
],
"Verif.Discr.C129_finding_held": [
"Classical.choice",
"Quot.sound",
"propext"
],
"Verif.Discr.C129_finding_stale": [
"Classical.choice",
"Quot.sound",
"propext"
],
"Verif.Discr.C129_linear": [
"Classical.choice",
"Quot.sound",
"propext"
],
"Verif.Discr.C129_new": [
"Classical.choice",
"Quot.sound",
"propext"
],
"Verif.Discr.C129_plain": [
"Classical.choice",
"Quot.sound",
"propext"
],
"Verif.Discr.C129_quadratic": [
"Classical.choice",
"Quot.sound",
"propext"
],
"Verif.Discr.C129_scale": [
"Classical.choice",
"Quot.sound",
"propext"
],
"Verif.Discr.C129_standardised": [
"Classical.choice",
"Quot.sound",
"propext"
],
"Verif.Discr.C61_apply": [
"Classical.choice",
"Quot.sound",
"propext"
],
"Verif.Discr.C61_base": [
"Classical.choice",
"Quot.sound",
"propext"
],
"Verif.Discr.C61_base_given": [
"propext"
],
"Verif.Discr.C61_count": [
"Classical.choice",
"Quot.sound",
"propext"
],
"Verif.Discr.C61_finding_averaged": [
"propext"
],
"Verif.Discr.C61_finding_base_one": [
"Classical.choice",
"Quot.sound",
"propext"
],
"Verif.Discr.C61_finding_widths": [
"Classical.choice",
"Quot.sound",
"propext"
],
"Verif.Discr.C61_inferred": [
"Classical.choice",
"Quot.sound",
"propext"
],
"Verif.Discr.C62_add_data": [
"Quot.sound",
"propext"
],
"Verif.Discr.C62_calibration": [
"Quot.sound",
"propext"
],
"Verif.Discr.C62_finding_averaged": [
"propext"
],
"Verif.Discr.C62_finding_objects": [
"Classical.choice",
"Quot.sound",
"propext"
],
"Verif.Discr.C62_finding_replaced": [
"Quot.sound",
"propext"
],
"Verif.Discr.C62_finding_twice": [
"propext"
],
"Verif.Discr.C62_init": [
"Quot.sound",
"propext"
],
"Verif.Discr.C62_objects": [
"Quot.sound",
"propext"
],
"Verif.Discr.C62_state": [
"propext"
],
"Verif.Ent.C130_experiment": [
"Classical.choice",
"Quot.sound",
"propext"
],
"Verif.Ent.C130_finding_bound": [
"Classical.choice",
"Quot.sound",
"propext"
],
"Verif.Ent.C130_mqc_layout": [
"Classical.choice",
"Quot.sound",
"propext"
],
"Verif.Ent.C130_mqc_linear": [
"Classical.choice",
"Quot.sound",
"propext"
],
"Verif.Ent.C130_pauli": [
"Classical.choice",
"Quot.sound",
"propext"
],
"Verif.Ent.C130_po_layout": [
"Classical.choice",
"Quot.sound",
"propext"
],
"Verif.Ent.C130_po_linear": [
"Classical.choice",
"Quot.sound",
"propext"
],
"Verif.Ent.C131_experiment": [
"Classical.choice",
"Quot.sound",
"propext"
],
"Verif.Ent.C131_finding_bias": [
"Classical.choice",
"Quot.sound",
"propext"
],
"Verif.Ent.C131_mqc_layout": [
"Classical.choice",
"Quot.sound",
"propext"
],
"Verif.Ent.C131_mqc_linear": [
"Classical.choice",
"Quot.sound",
"propext"
],
"Verif.Ent.C131_pauli_channel": [
"Classical.choice",
"Quot.sound",
"propext"
],
"Verif.Ent.C131_po_layout": [
"Classical.choice",
"Quot.sound",
"propext"
],
"Verif.Ent.C131_po_linear": [
"Classical.choice",
"Quot.sound",
"propext"
],
"Verif.Ent.C131_total": [
"Classical.choice",
"Quot.sound",
"propext"
],
"Verif.Ent.C133_experiment": [
"Classical.choice",
"Quot.sound",
"propext"
],
"Verif.Ent.C133_finding_direction": [
"Classical.choice",
"Quot.sound",
"propext"
],
"Verif.Ent.C133_finding_gates": [
"Classical.choice",
"Quot.sound",
"propext"
],
"Verif.Ent.C133_order": [
"Classical.choice",
"Quot.sound",
"propext"
],
"Verif.Ent.C133_raises": [
"Classical.choice",
"Quot.sound",
"propext"
],
"Verif.Ent.C133_table": [
"Classical.choice",
"Quot.sound",
"propext"
],
"Verif.Ent.C63_finding_duplicate": [
"Quot.sound",
"propext"
],
"Verif.Ent.C63_finding_exponential": [
"Classical.choice",
"Quot.sound",
"propext"
],
"Verif.Ent.C63_finding_no_zero": [
"Quot.sound",
"propext"
],
"Verif.Ent.C63_finding_rounds": [
"Classical.choice",
"Quot.sound",
"propext"
],
"Verif.Ent.C63_schedule": [
"Classical.choice",
"Quot.sound",
"propext"
],
"Verif.Ent.C63_spanning": [
"Classical.choice",
"Quot.sound",
"propext"
],
"Verif.Ent.C64_device": [
"Classical.choice",
"Quot.sound",
"propext"
],
"Verif.Ent.C64_finding_one": [
"Classical.choice",
"Quot.sound",
"propext"
],
"Verif.Ent.C64_finding_too_many": [
"Classical.choice",
"Quot.sound",
"propext"
],
"Verif.Ent.C64_layout": [
"Classical.choice",
"Quot.sound",
"propext"
],
"Verif.Ent.C64_linear": [
"Classical.choice",
"Quot.sound",
"propext"
],
"Verif.Ent.C65_mqc_first": [
"Classical.choice",
"Quot.sound",
"propext"
],
"Verif.Ent.C65_mqc_layout": [
"Classical.choice",
"Quot.sound",
"propext"
],
"Verif.Ent.C65_mqc_linear": [
"Classical.choice",
"Quot.sound",
"propext"
],
"Verif.Ent.C65_po_layout": [
"Classical.choice",
"Quot.sound",
"propext"
],
"Verif.Ent.C65_po_linear": [
"Classical.choice",
"Quot.sound",
"propext"
],
"Verif.Ent.C66_all": [
"Classical.choice",
"Quot.sound",
"propext"
],
"Verif.Ent.C66_bound": [
"Classical.choice",
"Quot.sound",
"propext"
],
"Verif.Ent.C66_even": [
"Classical.choice",
"Quot.sound",
"propext"
],
"Verif.Ent.C66_finding_registers": [
"Classical.choice",
"Quot.sound",
"propext"
],
"Verif.Ent.C66_value": [
"Classical.choice",
"Quot.sound",
"propext"
],
"Verif.Ent.C90_fidelity": [
"Classical.choice",
"Quot.sound",
"propext"
],
"Verif.Ent.C91_coefficient": [
"Classical.choice",
"Quot.sound",
"propext"
],
"Verif.Ent.C91_finding_aliasing": [
"Classical.choice",
"Quot.sound",
"propext"
],
"Verif.Ent.C91_finding_raw": [
"Classical.choice",
"Quot.sound",
"propext"
],
"Verif.Ent.C91_fourier": [
"Classical.choice",
"Quot.sound",
"propext"
],
"Verif.Ent.C91_mqc": [
"Classical.choice",
"Quot.sound",
"propext"
],
"Verif.Ent.C91_po": [
"Classical.choice",
"Quot.sound",
"propext"
],
"Verif.Expval.C121_calibration": [
"Classical.choice",
"Quot.sound",
"propext"
],
"Verif.Expval.C121_calibration_error": [
"Classical.choice",
"Quot.sound",
"propext"
],
"Verif.Expval.C121_complete": [
"Classical.choice",
"Quot.sound",
"propext"
],
"Verif.Expval.C121_complete_all": [
"Classical.choice",
"Quot.sound",
"propext"
],
"Verif.Expval.C121_end_to_end": [
"Classical.choice",
"Quot.sound",
"propext"
],
"Verif.Expval.C121_experiment": [
"Classical.choice",
"Quot.sound",
"propext"
],
"Verif.Expval.C121_plain": [
"Classical.choice",
"Quot.sound",
"propext"
],
"Verif.Expval.C121_required": [
"Classical.choice",
"Quot.sound",
"propext"
],
"Verif.Expval.C121_tensored": [
"Classical.choice",
"Quot.sound",
"propext"
],
"Verif.Expval.C121_tensored_calibration_error": [
"Classical.choice",
"Quot.sound",
"propext"
],
"Verif.Expval.C121_tensored_circuits": [
"Classical.choice",
"Quot.sound",
"propext"
],
"Verif.Expval.C121_tensored_end_to_end": [
"Classical.choice",
"Quot.sound",
"propext"
],
"Verif.Expval.C121_tensored_experiment": [
"Classical.choice",
"Quot.sound",
"propext"
],
"Verif.Expval.C122_complete": [
"Classical.choice",
"Quot.sound",
"propext"
],
"Verif.Expval.C122_finding_correlated": [
"Classical.choice",
"Quot.sound",
"propext"
],
"Verif.Expval.C122_object": [
"Classical.choice",
"Quot.sound",
"propext"
],
"Verif.Expval.C122_tensored": [
"Classical.choice",
"Quot.sound",
"propext"
],
"Verif.Expval.C18_labels": [
"Classical.choice",
"Quot.sound",
"propext"
],
"Verif.Expval.C18_readback": [
"Classical.choice",
"Quot.sound",
"propext"
],
"Verif.Expval.C19_finding_order": [
"Classical.choice",
"Quot.sound",
"propext"
],
"Verif.Expval.C19_full": [
"Classical.choice",
"Quot.sound",
"propext"
],
"Verif.Expval.C19_stochastic": [
"Classical.choice",
"Quot.sound",
"propext"
],
"Verif.Expval.C19_subset": [
"Classical.choice",
"Quot.sound",
"propext"
],
"Verif.Expval.C20_expectation_value": [
"Classical.choice",
"Quot.sound",
"propext"
],
"Verif.Expval.C20_stddev": [
"Classical.choice",
"Quot.sound",
"propext"
],
"Verif.Expval.C21_distribution": [
"Classical.choice",
"Quot.sound",
"propext"
],
"Verif.Expval.C21_distribution_qubits": [
"Classical.choice",
"Quot.sound",
"propext"
],
"Verif.Expval.C21_finding_clbit_order": [
"Classical.choice",
"Quot.sound",
"propext"
],
"Verif.Expval.C21_rejects": [
"Classical.choice",
"Quot.sound",
"propext"
],
"Verif.Expval.C21_vector": [
"Classical.choice",
"Quot.sound",
"propext"
],
"Verif.Expval.C21_vector_qubits": [
"Classical.choice",
"Quot.sound",
"propext"
],
"Verif.Expval.C22_complete": [
"Classical.choice",
"Quot.sound",
"propext"
],
"Verif.Expval.C22_complete_all": [
"Classical.choice",
"Quot.sound",
"propext"
],
"Verif.Expval.C22_finding_diagonal_order": [
"Classical.choice",
"Quot.sound",
"propext"
],
"Verif.Expval.C23_finding_fewer_bits": [
"Classical.choice",
"Quot.sound",
"propext"
],
"Verif.Expval.C23_tensored": [
"Classical.choice",
"Quot.sound",
"propext"
],
"Verif.Expval.C24_finding_lists": [
"Classical.choice",
"Quot.sound",
"propext"
],
"Verif.Expval.C24_inverse": [
"Classical.choice",
"Quot.sound",
"propext"
],
"Verif.Expval.C24_kronecker": [
"Classical.choice",
"Quot.sound",
"propext"
],
"Verif.Expval.C25_product": [
"Classical.choice",
"Quot.sound",
"propext"
],
"Verif.Expval.C25_single": [
"Classical.choice",
"Quot.sound",
"propext"
],
"Verif.Expval.C81_complete": [
"Classical.choice",
"Quot.sound",
"propext"
],
"Verif.Expval.C81_overhead": [
"Classical.choice",
"Quot.sound",
"propext"
],
"Verif.Expval.C81_required_pos": [
"Classical.choice",
"Quot.sound",
"propext"
],
"Verif.Expval.C81_required_shots": [
"Classical.choice",
"Quot.sound",
"propext"
],
"Verif.Expval.C81_tensored": [
"Classical.choice",
"Quot.sound",
"propext"
],
"Verif.Expval.C82_fidelity": [
"Classical.choice",
"Quot.sound",
"propext"
],
"Verif.Expval.C82_fidelity_all": [
"Classical.choice",
"Quot.sound",
"propext"
],
"Verif.Expval.C83_calibration_data": [
"Classical.choice",
"Quot.sound",
"propext"
],
"Verif.Expval.Ctmp.C125_accuracy": [
"Classical.choice",
"Quot.sound",
"propext"
],
"Verif.Expval.Ctmp.C125_error_bar": [
"Classical.choice",
"Quot.sound",
"propext"
],
"Verif.Expval.Ctmp.C125_experiment": [
"Classical.choice",
"Quot.sound",
"propext"
],
"Verif.Expval.Ctmp.C125_finding_error_bar": [
"Classical.choice",
"Quot.sound",
"propext"
],
"Verif.Expval.Ctmp.C26_generator_matrix": [
"Classical.choice",
"Quot.sound",
"propext"
],
"Verif.Expval.Ctmp.C26_mitigator": [
"Classical.choice",
"Quot.sound",
"propext"
],
"Verif.Expval.Ctmp.C26_one_generator": [
"Classical.choice",
"Quot.sound",
"propext"
],
"Verif.Expval.Ctmp.C26_sampling": [
"Classical.choice",
"Quot.sound",
"propext"
],
"Verif.Expval.Ctmp.C27_series": [
"Classical.choice",
"Quot.sound",
"propext"
],
"Verif.Expval.Ctmp.C27_unbiased": [
"Classical.choice",
"Quot.sound",
"propext"
],
"Verif.Expval.Ctmp.C28_batches": [
"Quot.sound",
"propext"
],
"Verif.Expval.Ctmp.C28_chain": [
"Classical.choice",
"Quot.sound",
"propext"
],
"Verif.Expval.Ctmp.C28_signed_sum": [
"Classical.choice",
"Quot.sound",
"propext"
],
"Verif.Expval.Ctmp.C28_step": [
"Classical.choice",
"Quot.sound",
"propext"
],
"Verif.Expval.Ctmp.C28_step_law": [
"Classical.choice",
"Quot.sound",
"propext"
],
"Verif.Expval.Ctmp.C28_support": [
"Quot.sound",
"propext"
],
"Verif.Expval.Ctmp.C28_walk_law": [
"Classical.choice",
"Quot.sound",
"propext"
],
"Verif.Expval.Ctmp.C29_finding_pairs": [
"propext"
],
"Verif.Expval.Ctmp.C29_rejects": [
"propext"
],
"Verif.Expval.Ctmp.C29_standard": [
"Classical.choice",
"Quot.sound",
"propext"
],
"Verif.Expval.Ctmp.C29_well_formed": [
"Classical.choice",
"Quot.sound",
"propext"
],
"Verif.Expval.Ctmp.C30_finding_flip": [
"Classical.choice",
"Quot.sound",
"propext"
],
"Verif.Expval.Ctmp.C30_finding_one_qubit_swapped": [
"Classical.choice",
"Quot.sound",
"propext"
],
"Verif.Expval.Ctmp.C30_finding_single_qubit": [
"Classical.choice",
"Quot.sound",
"propext"
],
"Verif.Expval.Ctmp.C30_fit": [
"Classical.choice",
"Quot.sound",
"propext"
],
"Verif.Expval.Ctmp.C30_rate": [
"Classical.choice",
"Quot.sound",
"propext"
],
"Verif.Expval.Ctmp.C30_two_qubit": [
"Classical.choice",
"Quot.sound",
"propext"
],
"Verif.Expval.Obj.C139_experiment": [
"Classical.choice",
"Quot.sound",
"propext"
],
"Verif.Expval.Obj.C139_finding_assignment_matrix": [
"Classical.choice",
"Quot.sound",
"propext"
],
"Verif.Expval.Obj.C139_finding_generator": [
"Classical.choice",
"Quot.sound",
"propext"
],
"Verif.Expval.Obj.C139_finding_mitigation_matrix": [
"Classical.choice",
"Quot.sound",
"propext"
],
"Verif.Expval.Obj.C139_finding_tensored": [
"Classical.choice",
"Quot.sound",
"propext"
],
"Verif.Expval.Obj.C139_history": [
"Classical.choice",
"Quot.sound",
"propext"
],
"Verif.Expval.Obj.C139_read_only": [
"Classical.choice",
"Quot.sound",
"propext"
],
"Verif.Expval.exists_invCorrect": [
"Classical.choice",
"Quot.sound",
"propext"
],
"Verif.Log.C138_experiment": [
"Classical.choice",
"Quot.sound",
"propext"
],
"Verif.Log.C138_finding_hole": [
"Classical.choice",
"Quot.sound",
"propext"
],
"Verif.Log.C138_finding_other_files": [
"Classical.choice",
"Quot.sound",
"propext"
],
"Verif.Log.C138_finding_same_time": [
"Classical.choice",
"Quot.sound",
"propext"
],
"Verif.Log.C138_finding_two_loggers": [
"Classical.choice",
"Quot.sound",
"propext"
],
"Verif.Log.C138_full": [
"Classical.choice",
"Quot.sound",
"propext"
],
"Verif.Log.C138_read": [
"Classical.choice",
"Quot.sound",
"propext"
],
"Verif.Log.C138_rows": [
"Classical.choice",
"Quot.sound",
"propext"
],
"Verif.Log.C138_sizes": [
"Classical.choice",
"Quot.sound",
"propext"
],
"Verif.Log.C70_bad_bound": [
"Classical.choice",
"Quot.sound",
"propext"
],
"Verif.Log.C70_finding_blank": [
"Classical.choice",
"Quot.sound",
"propext"
],
"Verif.Log.C70_finding_empty": [
"Classical.choice",
"Quot.sound",
"propext"
],
"Verif.Log.C70_rows": [
"Classical.choice",
"Quot.sound",
"propext"
],
"Verif.Log.C71_all": [
"Classical.choice",
"Quot.sound",
"propext"
],
"Verif.Log.C71_finding_blanks": [
"Classical.choice",
"Quot.sound",
"propext"
],
"Verif.Log.C71_finding_colon": [
"Classical.choice",
"Quot.sound",
"propext"
],
"Verif.Log.C71_finding_forged": [
"Classical.choice",
"Quot.sound",
"propext"
],
"Verif.Log.C71_keys": [
"Classical.choice",
"Quot.sound",
"propext"
],
"Verif.Log.C97_finding_none": [
"propext"
],
"Verif.Log.C97_finding_twice": [
"propext"
],
"Verif.Log.C97_logger": [
"propext"
],
"Verif.Log.C98_config": [
"Classical.choice",
"Quot.sound",
"propext"
],
"Verif.Log.C98_finding_path": [
"Classical.choice",
"Quot.sound",
"propext"
],
"Verif.MeasMit.C115_agrees": [
"Classical.choice",
"Quot.sound",
"propext"
],
"Verif.MeasMit.C115_closer": [
"Classical.choice",
"Quot.sound",
"propext"
],
"Verif.MeasMit.C115_dict": [
"Classical.choice",
"Quot.sound",
"propext"
],
"Verif.MeasMit.C115_exact": [
"Classical.choice",
"Quot.sound",
"propext"
],
"Verif.MeasMit.C115_faithful": [
"Classical.choice",
"Quot.sound",
"propext"
],
"Verif.MeasMit.C115_finding_biased": [
"Classical.choice",
"Quot.sound",
"propext"
],
"Verif.MeasMit.C115_finding_none": [
"Classical.choice",
"Quot.sound",
"propext"
],
"Verif.MeasMit.C115_list": [
"Classical.choice",
"Quot.sound",
"propext"
],
"Verif.MeasMit.C115_raises": [
"Classical.choice",
"Quot.sound",
"propext"
],
"Verif.MeasMit.C115_result": [
"Classical.choice",
"Quot.sound",
"propext"
],
"Verif.MeasMit.C115_tensored": [
"Classical.choice",
"Quot.sound",
"propext"
],
"Verif.MeasMit.C115_tensored_faithful": [
"Classical.choice",
"Quot.sound",
"propext"
],
"Verif.MeasMit.C115_tensored_result": [
"Classical.choice",
"Quot.sound",
"propext"
],
"Verif.MeasMit.C115_unique": [
"Classical.choice",
"Quot.sound",
"propext"
],
"Verif.MeasMit.C126_calibration": [
"Classical.choice",
"Quot.sound",
"propext"
],
"Verif.MeasMit.C126_calibration_error": [
"Classical.choice",
"Quot.sound",
"propext"
],
"Verif.MeasMit.C126_experiment": [
"Classical.choice",
"Quot.sound",
"propext"
],
"Verif.MeasMit.C126_lsq": [
"Classical.choice",
"Quot.sound",
"propext"
],
"Verif.MeasMit.C126_pinv": [
"Classical.choice",
"Quot.sound",
"propext"
],
"Verif.MeasMit.C126_tensored": [
"Classical.choice",
"Quot.sound",
"propext"
],
"Verif.MeasMit.C126_tensored_calibration": [
"Classical.choice",
"Quot.sound",
"propext"
],
"Verif.MeasMit.C126_tensored_lsq": [
"Classical.choice",
"Quot.sound",
"propext"
],
"Verif.MeasMit.C12_complete": [
"Classical.choice",
"Quot.sound",
"propext"
],
"Verif.MeasMit.C12_tensored": [
"Classical.choice",
"Quot.sound",
"propext"
],
"Verif.MeasMit.C12_tensored_succeeds": [
"Classical.choice",
"Quot.sound",
"propext"
],
"Verif.MeasMit.C134_experiment": [
"Classical.choice",
"Quot.sound",
"propext"
],
"Verif.MeasMit.C134_filter": [
"Classical.choice",
"Quot.sound",
"propext"
],
"Verif.MeasMit.C134_finding_labels": [
"Classical.choice",
"Quot.sound",
"propext"
],
"Verif.MeasMit.C134_finding_poisoned": [
"Classical.choice",
"Quot.sound",
"propext"
],
"Verif.MeasMit.C134_labels": [
"Classical.choice",
"Quot.sound",
"propext"
],
"Verif.MeasMit.C134_matrix": [
"Classical.choice",
"Quot.sound",
"propext"
],
"Verif.MeasMit.C134_same": [
"Classical.choice",
"Quot.sound",
"propext"
],
"Verif.MeasMit.C135_counts": [
"Classical.choice",
"Quot.sound",
"propext"
],
"Verif.MeasMit.C135_default": [
"Classical.choice",
"Quot.sound",
"propext"
],
"Verif.MeasMit.C135_experiment": [
"Classical.choice",
"Quot.sound",
"propext"
],
"Verif.MeasMit.C135_observable": [
"Classical.choice",
"Quot.sound",
"propext"
],
"Verif.MeasMit.C13_columns": [
"Classical.choice",
"Quot.sound",
"propext"
],
"Verif.MeasMit.C13_entries": [
"Classical.choice",
"Quot.sound",
"propext"
],
"Verif.MeasMit.C13_finding_larger_register": [
"Classical.choice",
"Quot.sound",
"propext"
],
"Verif.MeasMit.C13_name_designates_label": [
"Classical.choice",
"Quot.sound",
"propext"
],
"Verif.MeasMit.C13_succeeds": [
"Classical.choice",
"Quot.sound",
"propext"
],
"Verif.MeasMit.C141_counts": [
"Classical.choice",
"Quot.sound",
"propext"
],
"Verif.MeasMit.C141_default": [
"Classical.choice",
"Quot.sound",
"propext"
],
"Verif.MeasMit.C141_experiment": [
"Classical.choice",
"Quot.sound",
"propext"
],
"Verif.MeasMit.C141_observable": [
"Classical.choice",
"Quot.sound",
"propext"
],
"Verif.MeasMit.C14_order_irrelevant": [
"Classical.choice",
"Quot.sound",
"propext"
],
"Verif.MeasMit.C15_conserves_total": [
"Classical.choice",
"Quot.sound",
"propext"
],
"Verif.MeasMit.C15_inverts": [
"Classical.choice",
"Quot.sound",
"propext"
],
"Verif.MeasMit.C15_inverts_list": [
"Classical.choice",
"Quot.sound",
"propext"
],
"Verif.MeasMit.C16_inverts": [
"Classical.choice",
"Quot.sound",
"propext"
],
"Verif.MeasMit.C16_kronecker": [
"Classical.choice",
"Quot.sound",
"propext"
],
"Verif.MeasMit.C17_columns": [
"Classical.choice",
"Quot.sound",
"propext"
],
"Verif.MeasMit.C17_documented_false": [
"Classical.choice",
"Quot.sound",
"propext"
],
"Verif.MeasMit.C17_subset_partial": [
"Classical.choice",
"Quot.sound",
"propext"
],
"Verif.MeasMit.C17_whole_list": [
"Classical.choice",
"Quot.sound",
"propext"
],
"Verif.QV.C120_distribution": [
"Classical.choice",
"Quot.sound",
"propext"
],
"Verif.QV.C120_estimate": [
"Classical.choice",
"Quot.sound",
"propext"
],
"Verif.QV.C120_experiment": [
"Classical.choice",
"Quot.sound",
"propext"
],
"Verif.QV.C120_finding_confidence": [
"Classical.choice",
"Quot.sound",
"propext"
],
"Verif.QV.C120_missed_success": [
"Classical.choice",
"Quot.sound",
"propext"
],
"Verif.QV.C120_report": [
"Classical.choice",
"Quot.sound",
"propext"
],
"Verif.QV.C120_wrong_success": [
"Classical.choice",
"Quot.sound",
"propext"
],
"Verif.QV.C58_counts": [
"Classical.choice",
"Quot.sound",
"propext"
],
"Verif.QV.C58_heavy_outputs": [
"Classical.choice",
"Quot.sound",
"propext"
],
"Verif.QV.C58_ideal_accepted": [
"Classical.choice",
"Quot.sound",
"propext"
],
"Verif.QV.C58_ideal_twice": [
"Classical.choice",
"Quot.sound",
"propext"
],
"Verif.QV.C58_mean": [
"Classical.choice",
"Quot.sound",
"propext"
],
"Verif.QV.C58_success": [
"Classical.choice",
"Quot.sound",
"propext"
],
"Verif.QV.C59_batching": [
"Classical.choice",
"Quot.sound",
"propext"
],
"Verif.QV.C59_data_accepted": [
"Classical.choice",
"Quot.sound",
"propext"
],
"Verif.QV.C59_incomplete_raises": [
"Classical.choice",
"Quot.sound",
"propext"
],
"Verif.QV.C59_sums": [
"Classical.choice",
"Quot.sound",
"propext"
],
"Verif.QV.C59_trials": [
"Classical.choice",
"Quot.sound",
"propext"
],
"Verif.QV.C59_volumes": [
"Classical.choice",
"Quot.sound",
"propext"
],
"Verif.QV.C60_all": [
"Classical.choice",
"Quot.sound",
"propext"
],
"Verif.QV.C60_circuit": [
"Classical.choice",
"Quot.sound",
"propext"
],
"Verif.QV.C60_finding_equal_lengths": [
"Classical.choice",
"Quot.sound",
"propext"
],
"Verif.QV.C60_finding_idle": [
"Classical.choice",
"Quot.sound",
"propext"
],
"Verif.QV.C60_finding_mapping": [
"Classical.choice",
"Quot.sound",
"propext"
],
"Verif.QV.C60_finding_order": [
"Classical.choice",
"Quot.sound",
"propext"
],
"Verif.QV.C60_names": [
"Classical.choice",
"Quot.sound",
"propext"
],
"Verif.RB.C108_epc": [
"Classical.choice",
"Quot.sound",
"propext"
],
"Verif.RB.C108_estimates": [
"Classical.choice",
"Quot.sound",
"propext"
],
"Verif.RB.C108_interleaved": [
"Classical.choice",
"Quot.sound",
"propext"
],
"Verif.RB.C108_interleaved_xbasis": [
"Classical.choice",
"Quot.sound",
"propext"
],
"Verif.RB.C108_plain": [
"Classical.choice",
"Quot.sound",
"propext"
],
"Verif.RB.C108_purity": [
"Classical.choice",
"Quot.sound",
"propext"
],
"Verif.RB.C108_purity_estimate": [
"Classical.choice",
"Quot.sound",
"propext"
],
"Verif.RB.C108_xbasis": [
"Classical.choice",
"Quot.sound",
"propext"
],
"Verif.RB.C113_clifford": [
"Classical.choice",
"Quot.sound",
"propext"
],
"Verif.RB.C113_dihedral": [
"Classical.choice",
"Quot.sound",
"propext"
],
"Verif.RB.C113_dihedral_x": [
"Classical.choice",
"Quot.sound",
"propext"
],
"Verif.RB.C113_dihedral_z": [
"Classical.choice",
"Quot.sound",
"propext"
],
"Verif.RB.C113_epc": [
"Classical.choice",
"Quot.sound",
"propext"
],
"Verif.RB.C113_fidelity": [
"Classical.choice",
"Quot.sound",
"propext"
],
"Verif.RB.C113_finding_systematic": [
"Classical.choice",
"Quot.sound",
"propext"
],
"Verif.RB.C113_ideal": [
"Classical.choice",
"Quot.sound",
"propext"
],
"Verif.RB.C113_interleaved": [
"Classical.choice",
"Quot.sound",
"propext"
],
"Verif.RB.C113_interleaved_clifford": [
"Classical.choice",
"Quot.sound",
"propext"
],
"Verif.RB.C113_interleaved_dihedral_x": [
"Classical.choice",
"Quot.sound",
"propext"
],
"Verif.RB.C113_interleaved_dihedral_z": [
"Classical.choice",
"Quot.sound",
"propext"
],
"Verif.RB.C113_interleaved_epc": [
"Classical.choice",
"Quot.sound",
"propext"
],
"Verif.RB.C113_interleaved_xbasis": [
"Classical.choice",
"Quot.sound",
"propext"
],
"Verif.RB.C113_plain": [
"Classical.choice",
"Quot.sound",
"propext"
],
"Verif.RB.C113_xbasis": [
"Classical.choice",
"Quot.sound",
"propext"
],
"Verif.RB.C113_xbasis_ready": [
"Classical.choice",
"Quot.sound",
"propext"
],
"Verif.RB.C114_bounds": [
"Classical.choice",
"Quot.sound",
"propext"
],
"Verif.RB.C114_circuits": [
"Classical.choice",
"Quot.sound",
"propext"
],
"Verif.RB.C114_data": [
"Classical.choice",
"Quot.sound",
"propext"
],
"Verif.RB.C114_decay": [
"Classical.choice",
"Quot.sound",
"propext"
],
"Verif.RB.C114_ideal": [
"Classical.choice",
"Quot.sound",
"propext"
],
"Verif.RB.C114_inverse": [
"Classical.choice",
"Quot.sound",
"propext"
],
"Verif.RB.C114_pepc": [
"Classical.choice",
"Quot.sound",
"propext"
],
"Verif.RB.C114_unitarity": [
"Classical.choice",
"Quot.sound",
"propext"
],
"Verif.RB.C114_values": [
"Classical.choice",
"Quot.sound",
"propext"
],
"Verif.RB.C127_experiment": [
"Classical.choice",
"Quot.sound",
"propext"
],
"Verif.RB.C127_finding_bias": [
"Classical.choice",
"Quot.sound",
"propext"
],
"Verif.RB.C127_new": [
"Classical.choice",
"Quot.sound",
"propext"
],
"Verif.RB.C127_one_qubit": [
"Classical.choice",
"Quot.sound",
"propext"
],
"Verif.RB.C127_one_qubit_decay": [
"Classical.choice",
"Quot.sound",
"propext"
],
"Verif.RB.C128_clifford": [
"Classical.choice",
"Quot.sound",
"propext"
],
"Verif.RB.C128_data": [
"Classical.choice",
"Quot.sound",
"propext"
],
"Verif.RB.C128_experiment": [
"Classical.choice",
"Quot.sound",
"propext"
],
"Verif.RB.C128_interleaved": [
"Classical.choice",
"Quot.sound",
"propext"
],
"Verif.RB.C41_cnotdihedral": [
"Classical.choice",
"Quot.sound",
"propext"
],
"Verif.RB.C41_identity": [
"Classical.choice",
"Quot.sound",
"propext"
],
"Verif.RB.C42_family": [
"Classical.choice",
"Quot.sound",
"propext"
],
"Verif.RB.C42_finding_generator": [],
"Verif.RB.C42_finding_lengths_dropped": [
"Classical.choice",
"Quot.sound",
"propext"
],
"Verif.RB.C42_finding_seed_zero": [],
"Verif.RB.C42_names": [
"Classical.choice",
"Quot.sound",
"propext"
],
"Verif.RB.C42_seed_changes": [
"Quot.sound",
"propext"
],
"Verif.RB.C42_unique": [
"Classical.choice",
"Quot.sound",
"propext"
],
"Verif.RB.C43_accepts": [
"Classical.choice",
"Quot.sound",
"propext"
],
"Verif.RB.C43_finding_none_raises": [],
"Verif.RB.C43_finding_scalar_unchecked": [],
"Verif.RB.C43_multiplier_list": [
"Classical.choice",
"Quot.sound",
"propext"
],
"Verif.RB.C43_multiplier_scalar": [
"Quot.sound",
"propext"
],
"Verif.RB.C43_values": [
"Classical.choice",
"Quot.sound",
"propext"
],
"Verif.RB.C44_documented": [
"propext"
],
"Verif.RB.C44_finding_missing_comma": [
"propext"
],
"Verif.RB.C44_other": [
"Classical.choice",
"Quot.sound",
"propext"
],
"Verif.RB.Fit.C110_dihedral": [
"Classical.choice",
"Quot.sound",
"propext"
],
"Verif.RB.Fit.C110_epc": [
"Classical.choice",
"Quot.sound",
"propext"
],
"Verif.RB.Fit.C110_finding_dihedral": [
"Classical.choice",
"Quot.sound",
"propext"
],
"Verif.RB.Fit.C110_finding_epc": [
"Classical.choice",
"Quot.sound",
"propext"
],
"Verif.RB.Fit.C110_finding_purity": [
"Classical.choice",
"Quot.sound",
"propext"
],
"Verif.RB.Fit.C110_interleaved": [
"Classical.choice",
"Quot.sound",
"propext"
],
"Verif.RB.Fit.C110_purity": [
"Classical.choice",
"Quot.sound",
"propext"
],
"Verif.RB.Fit.C111_dihedral": [
"Classical.choice",
"Quot.sound",
"propext"
],
"Verif.RB.Fit.C111_finding_weights": [
"Classical.choice",
"Quot.sound",
"propext"
],
"Verif.RB.Fit.C111_interleaved": [
"Classical.choice",
"Quot.sound",
"propext"
],
"Verif.RB.Fit.C111_no_pattern": [
"Classical.choice",
"Quot.sound",
"propext"
],
"Verif.RB.Fit.C111_rate": [
"Classical.choice",
"Quot.sound",
"propext"
],
"Verif.RB.Fit.C111_rate_iff": [
"Classical.choice",
"Quot.sound",
"propext"
],
"Verif.RB.Fit.C111_value": [
"Classical.choice",
"Quot.sound",
"propext"
],
"Verif.RB.Fit.C112_finding_epc": [
"Classical.choice",
"Quot.sound",
"propext"
],
"Verif.RB.Fit.C112_finding_order": [
"Classical.choice",
"Quot.sound",
"propext"
],
"Verif.RB.Fit.C112_finding_single": [
"Classical.choice",
"Quot.sound",
"propext"
],
"Verif.RB.Fit.C112_fit": [
"Classical.choice",
"Quot.sound",
"propext"
],
"Verif.RB.Fit.C112_new": [
"Classical.choice",
"Quot.sound",
"propext"
],
"Verif.RB.Fit.C112_purity": [
"Classical.choice",
"Quot.sound",
"propext"
],
"Verif.RB.Fit.C112_value": [
"Classical.choice",
"Quot.sound",
"propext"
],
"Verif.RB.Fit.C46_add": [
"Classical.choice",
"Quot.sound",
"propext"
],
"Verif.RB.Fit.C46_batching": [
"Quot.sound",
"propext"
],
"Verif.RB.Fit.C46_order": [
"Classical.choice",
"Quot.sound",
"propext"
],
"Verif.RB.Fit.C46_range": [
"Classical.choice",
"Quot.sound",
"propext"
],
"Verif.RB.Fit.C46_twice": [
"Classical.choice",
"Quot.sound",
"propext"
],
"Verif.RB.Fit.C46_value": [
"Classical.choice",
"Quot.sound",
"propext"
],
"Verif.RB.Fit.C47_dihedral": [
"Classical.choice",
"Quot.sound",
"propext"
],
"Verif.RB.Fit.C47_epc": [
"Classical.choice",
"Quot.sound",
"propext"
],
"Verif.RB.Fit.C47_finding_purity_err": [
"Classical.choice",
"Quot.sound",
"propext"
],
"Verif.RB.Fit.C47_interleaved": [
"Classical.choice",
"Quot.sound",
"propext"
],
"Verif.RB.Fit.C47_interleaved_mono": [
"Classical.choice",
"Quot.sound",
"propext"
],
"Verif.RB.Fit.C47_purity": [
"Classical.choice",
"Quot.sound",
"propext"
],
"Verif.RB.Fit.C79_finding_amplitude": [
"Classical.choice",
"Quot.sound",
"propext"
],
"Verif.RB.Fit.C79_finding_negative_decay": [
"Classical.choice",
"Quot.sound",
"propext"
],
"Verif.RB.Fit.C79_guess_exact": [
"Classical.choice",
"Quot.sound",
"propext"
],
"Verif.RB.Purity.C80_average": [
"Classical.choice",
"Quot.sound",
"propext"
],
"Verif.RB.Purity.C80_covered": [
"Classical.choice",
"Quot.sound",
"propext"
],
"Verif.RB.Purity.C80_pauli_index": [
"Classical.choice",
"Quot.sound",
"propext"
],
"Verif.RB.Purity.C80_purity": [
"Classical.choice",
"Quot.sound",
"propext"
],
"Verif.RB.Purity.C80_sign": [
"Classical.choice",
"Quot.sound",
"propext"
],
"Verif.RB.Utils.C45_epc1q": [
"Classical.choice",
"Quot.sound",
"propext"
],
"Verif.RB.Utils.C45_epc2q": [
"Classical.choice",
"Quot.sound",
"propext"
],
"Verif.RB.Utils.C45_epg1q": [
"Classical.choice",
"Quot.sound",
"propext"
],
"Verif.RB.Utils.C45_finding_not_recovered": [
"Classical.choice",
"Quot.sound",
"propext"
],
"Verif.RB.Utils.C45_roundtrip": [
"Classical.choice",
"Quot.sound",
"propext"
],
"Verif.RB.Utils.C76_agree": [
"Classical.choice",
"Quot.sound",
"propext"
],
"Verif.RB.Utils.C76_count_gates": [
"Classical.choice",
"Quot.sound",
"propext"
],
"Verif.RB.Utils.C76_finding_duplicate_basis": [
"Classical.choice",
"Quot.sound",
"propext"
],
"Verif.RB.Utils.C76_finding_repeated_basis": [
"Classical.choice",
"Quot.sound",
"propext"
],
"Verif.RB.Utils.C76_gates_per_clifford": [
"Classical.choice",
"Quot.sound",
"propext"
],
"Verif.RB.Utils.C77_default": [
"Classical.choice",
"Quot.sound",
"propext"
],
"Verif.RB.Utils.C77_one": [
"Classical.choice",
"Quot.sound",
"propext"
],
"Verif.RB.Utils.C77_rejects": [
"Classical.choice",
"Quot.sound",
"propext"
],
"Verif.RB.Utils.C77_two": [
"Classical.choice",
"Quot.sound",
"propext"
],
"Verif.RB.Utils.C78_twoQ_agrees": [
"Classical.choice",
"Quot.sound",
"propext"
],
"Verif.RepCode.C08_noiseless": [
"Classical.choice",
"Quot.sound",
"propext"
],
"Verif.RepCode.C09_process_injective": [
"Quot.sound",
"propext"
],
"Verif.RepCode.C09_process_keeps_counts": [
"Quot.sound",
"propext"
],
"Verif.RepCode.C104_bound_sharp": [
"Classical.choice",
"Quot.sound",
"propext"
],
"Verif.RepCode.C104_decoder_corrects": [
"Classical.choice",
"Quot.sound",
"propext"
],
"Verif.RepCode.C104_graph": [
"Classical.choice",
"Quot.sound",
"propext"
],
"Verif.RepCode.C104_logical_prob_zero": [
"Classical.choice",
"Quot.sound",
"propext"
],
"Verif.RepCode.C105_distance": [
"Classical.choice",
"Quot.sound",
"propext"
],
"Verif.RepCode.C105_estimate": [
"Classical.choice",
"Quot.sound",
"propext"
],
"Verif.RepCode.C105_finding_infinite": [
"Classical.choice",
"Quot.sound",
"propext"
],
"Verif.RepCode.C105_raises": [
"Classical.choice",
"Quot.sound",
"propext"
],
"Verif.RepCode.C10_measurement_flip": [
"Classical.choice",
"Quot.sound",
"propext"
],
"Verif.RepCode.C10_no_fault": [
"Classical.choice",
"Quot.sound",
"propext"
],
"Verif.RepCode.C10_single_fault": [
"Classical.choice",
"Quot.sound",
"propext"
],
"Verif.RepCode.C10_string2nodes": [
"Quot.sound",
"propext"
],
"Verif.RepCode.C116_always": [
"Classical.choice",
"Quot.sound",
"propext"
],
"Verif.RepCode.C116_bound": [
"Classical.choice",
"Quot.sound",
"propext"
],
"Verif.RepCode.C116_circuit_noise": [
"Classical.choice",
"Quot.sound",
"propext"
],
"Verif.RepCode.C116_expected": [
"Classical.choice",
"Quot.sound",
"propext"
],
"Verif.RepCode.C116_independent": [
"Classical.choice",
"Quot.sound",
"propext"
],
"Verif.RepCode.C116_places": [
"Classical.choice",
"Quot.sound",
"propext"
],
"Verif.RepCode.C116_reported": [
"Classical.choice",
"Quot.sound",
"propext"
],
"Verif.RepCode.C116_threshold": [
"Classical.choice",
"Quot.sound",
"propext"
],
"Verif.RepCode.C117_accepted": [
"Classical.choice",
"Quot.sound",
"propext"
],
"Verif.RepCode.C117_detects": [
"Classical.choice",
"Quot.sound",
"propext"
],
"Verif.RepCode.C117_detects_sharp": [
"Classical.choice",
"Quot.sound",
"propext"
],
"Verif.RepCode.C117_finding_ties": [
"Classical.choice",
"Quot.sound",
"propext"
],
"Verif.RepCode.C117_finding_unseen": [
"Classical.choice",
"Quot.sound",
"propext"
],
"Verif.RepCode.C117_lookup_beats_matching": [
"Classical.choice",
"Quot.sound",
"propext"
],
"Verif.RepCode.C117_lookup_decoder": [
"Classical.choice",
"Quot.sound",
"propext"
],
"Verif.RepCode.C117_lookup_optimal": [
"Classical.choice",
"Quot.sound",
"propext"
],
"Verif.RepCode.C117_postselected": [
"Classical.choice",
"Quot.sound",
"propext"
],
"Verif.RepCode.C117_postselection_zero": [
"Classical.choice",
"Quot.sound",
"propext"
],
"Verif.RepCode.C117_undetected": [
"Classical.choice",
"Quot.sound",
"propext"
],
"Verif.RepCode.C11_finding_unknown_algorithm": [
"Classical.choice",
"Quot.sound",
"propext"
],
"Verif.RepCode.C11_logical_prob": [
"Classical.choice",
"Quot.sound",
"propext"
],
"Verif.RepCode.C11_lookuptable": [
"Classical.choice",
"Quot.sound",
"propext"
],
"Verif.RepCode.C11_postselection": [
"Classical.choice",
"Quot.sound",
"propext"
],
"Verif.RepCode.C11_trivial_syndrome_boundaries_agree": [
"Classical.choice",
"Quot.sound",
"propext"
],
"Verif.RepCode.C142_code": [
"Classical.choice",
"Quot.sound",
"propext"
],
"Verif.RepCode.C142_default": [
"Quot.sound",
"propext"
],
"Verif.RepCode.C142_error_graph": [
"Quot.sound",
"propext"
],
"Verif.RepCode.C72_even_defects": [
"Quot.sound",
"propext"
],
"Verif.Tomo.C118_accuracy": [
"Classical.choice",
"Quot.sound",
"propext"
],
"Verif.Tomo.C118_confidence": [
"Classical.choice",
"Quot.sound",
"propext"
],
"Verif.Tomo.C118_constrained": [
"Classical.choice",
"Quot.sound",
"propext"
],
"Verif.Tomo.C118_distribution": [
"Classical.choice",
"Quot.sound",
"propext"
],
"Verif.Tomo.C118_estimate": [
"Classical.choice",
"Quot.sound",
"propext"
],
"Verif.Tomo.C118_experiment": [
"Classical.choice",
"Quot.sound",
"propext"
],
"Verif.Tomo.C118_finding_constrained": [
"Classical.choice",
"Quot.sound",
"propext"
],
"Verif.Tomo.C118_fit": [
"Classical.choice",
"Quot.sound",
"propext"
],
"Verif.Tomo.C118_one_qubit": [
"Classical.choice",
"Quot.sound",
"propext"
],
"Verif.Tomo.C118_unbiased": [
"Classical.choice",
"Quot.sound",
"propext"
],
"Verif.Tomo.C118_weighted": [
"Classical.choice",
"Quot.sound",
"propext"
],
"Verif.Tomo.C119_accuracy": [
"Classical.choice",
"Quot.sound",
"propext"
],
"Verif.Tomo.C119_confidence": [
"Classical.choice",
"Quot.sound",
"propext"
],
"Verif.Tomo.C119_distribution": [
"Classical.choice",
"Quot.sound",
"propext"
],
"Verif.Tomo.C119_estimate": [
"Classical.choice",
"Quot.sound",
"propext"
],
"Verif.Tomo.C119_experiment": [
"Classical.choice",
"Quot.sound",
"propext"
],
"Verif.Tomo.C119_finding_trace_preserving": [
"Classical.choice",
"Quot.sound",
"propext"
],
"Verif.Tomo.C119_fit": [
"Classical.choice",
"Quot.sound",
"propext"
],
"Verif.Tomo.C119_one_qubit": [
"Classical.choice",
"Quot.sound",
"propext"
],
"Verif.Tomo.C119_unbiased": [
"Classical.choice",
"Quot.sound",
"propext"
],
"Verif.Tomo.C123_best": [
"Classical.choice",
"Quot.sound",
"propext"
],
"Verif.Tomo.C123_exact": [
"Classical.choice",
"Quot.sound",
"propext"
],
"Verif.Tomo.C123_experiment": [
"Classical.choice",
"Quot.sound",
"propext"
],
"Verif.Tomo.C123_ideal": [
"Classical.choice",
"Quot.sound",
"propext"
],
"Verif.Tomo.C123_physical": [
"Classical.choice",
"Quot.sound",
"propext"
],
"Verif.Tomo.C124_auto": [
"Classical.choice",
"Quot.sound",
"propext"
],
"Verif.Tomo.C124_finding_keywords": [
"Classical.choice",
"Quot.sound",
"propext"
],
"Verif.Tomo.C124_finding_scs": [
"Classical.choice",
"Quot.sound",
"propext"
],
"Verif.Tomo.C124_history": [
"Classical.choice",
"Quot.sound",
"propext"
],
"Verif.Tomo.C124_process": [
"Classical.choice",
"Quot.sound",
"propext"
],
"Verif.Tomo.C124_state": [
"Classical.choice",
"Quot.sound",
"propext"
],
"Verif.Tomo.C124_unknown": [
"Classical.choice",
"Quot.sound",
"propext"
],
"Verif.Tomo.C132_add": [
"Classical.choice",
"Quot.sound",
"propext"
],
"Verif.Tomo.C132_circuits": [
"Classical.choice",
"Quot.sound",
"propext"
],
"Verif.Tomo.C132_coherent": [
"Classical.choice",
"Quot.sound",
"propext"
],
"Verif.Tomo.C132_experiment": [
"Classical.choice",
"Quot.sound",
"propext"
],
"Verif.Tomo.C132_finding_again": [
"Classical.choice",
"Quot.sound",
"propext"
],
"Verif.Tomo.C132_finding_alias": [
"Classical.choice",
"Quot.sound",
"propext"
],
"Verif.Tomo.C132_finding_half": [
"Classical.choice",
"Quot.sound",
"propext"
],
"Verif.Tomo.C132_finding_matrices": [
"Classical.choice",
"Quot.sound",
"propext"
],
"Verif.Tomo.C132_raises": [
"Classical.choice",
"Quot.sound",
"propext"
],
"Verif.Tomo.C132_spam": [
"Classical.choice",
"Quot.sound",
"propext"
],
"Verif.Tomo.C137_accurate": [
"Classical.choice",
"Quot.sound",
"propext"
],
"Verif.Tomo.C137_consistent": [
"Classical.choice",
"Quot.sound",
"propext"
],
"Verif.Tomo.C137_data": [
"Classical.choice",
"Quot.sound",
"propext"
],
"Verif.Tomo.C137_experiment": [
"Classical.choice",
"Quot.sound",
"propext"
],
"Verif.Tomo.C48_finding_sic_needs_labels": [
"Classical.choice",
"Quot.sound",
"propext"
],
"Verif.Tomo.C48_finding_tuple_order": [
"Classical.choice",
"Quot.sound",
"propext"
],
"Verif.Tomo.C48_process": [
"Classical.choice",
"Quot.sound",
"propext"
],
"Verif.Tomo.C48_rejects": [
"Classical.choice",
"Quot.sound",
"propext"
],
"Verif.Tomo.C48_state": [
"Classical.choice",
"Quot.sound",
"propext"
],
"Verif.Tomo.C49_measurement": [
"Classical.choice",
"Quot.sound",
"propext"
],
"Verif.Tomo.C49_preparation": [
"Classical.choice",
"Quot.sound",
"propext"
],
"Verif.Tomo.C49_process": [
"Classical.choice",
"Quot.sound",
"propext"
],
"Verif.Tomo.C50_povm": [
"Classical.choice",
"Quot.sound",
"propext"
],
"Verif.Tomo.C50_rejects": [
"Classical.choice",
"Quot.sound",
"propext"
],
"Verif.Tomo.C51_fit": [
"Classical.choice",
"Quot.sound",
"propext"
],
"Verif.Tomo.C51_inversion": [
"Classical.choice",
"Quot.sound",
"propext"
],
"Verif.Tomo.C51_span": [
"Classical.choice",
"Quot.sound",
"propext"
],
"Verif.Tomo.C52_finding_negative_trace": [
"Classical.choice",
"Quot.sound",
"propext"
],
"Verif.Tomo.C52_matrix": [
"Classical.choice",
"Quot.sound",
"propext"
],
"Verif.Tomo.C52_rejects": [
"Classical.choice",
"Quot.sound",
"propext"
],
"Verif.Tomo.C52_spectrum": [
"Classical.choice",
"Quot.sound",
"propext"
],
"Verif.Tomo.C52_unchanged": [
"Classical.choice",
"Quot.sound",
"propext"
],
"Verif.Tomo.C53_finding_single_outcome": [
"Classical.choice",
"Quot.sound",
"propext"
],
"Verif.Tomo.C53_fitter": [
"Classical.choice",
"Quot.sound",
"propext"
],
"Verif.Tomo.C53_rejects": [
"Classical.choice",
"Quot.sound",
"propext"
],
"Verif.Tomo.C53_weights": [
"Classical.choice",
"Quot.sound",
"propext"
],
"Verif.Tomo.C54_partial_trace": [
"Classical.choice",
"Quot.sound",
"propext"
],
"Verif.Tomo.C55_circuits": [
"Classical.choice",
"Quot.sound",
"propext"
],
"Verif.Tomo.C55_finding_names": [
"Classical.choice",
"Quot.sound",
"propext"
],
"Verif.Tomo.C55_inversion": [
"Classical.choice",
"Quot.sound",
"propext"
],
"Verif.Tomo.C55_predicts": [
"Classical.choice",
"Quot.sound",
"propext"
],
"Verif.Tomo.C55_rejects": [
"Classical.choice",
"Quot.sound",
"propext"
],
"Verif.Tomo.C56_decomposition": [
"Classical.choice",
"Quot.sound",
"propext"
],
"Verif.Tomo.C56_pack": [
"Classical.choice",
"Quot.sound",
"propext"
],
"Verif.Tomo.C56_round_trip": [
"Classical.choice",
"Quot.sound",
"propext"
],
"Verif.Tomo.C56_split": [
"Quot.sound",
"propext"
],
"Verif.Tomo.C56_split_rejects": [
"propext"
],
"Verif.Tomo.C56_unpack": [
"Classical.choice",
"Quot.sound",
"propext"
],
"Verif.Tomo.C57_finding_last_result": [
"Classical.choice",
"Quot.sound",
"propext"
],
"Verif.Tomo.C57_finding_registers": [
"Classical.choice",
"Quot.sound",
"propext"
],
"Verif.Tomo.C57_order": [
"Classical.choice",
"Quot.sound",
"propext"
],
"Verif.Tomo.C57_pools": [
"Classical.choice",
"Quot.sound",
"propext"
],
"Verif.Tomo.C57_rejects": [
"Classical.choice",
"Quot.sound",
"propext"
],
"Verif.Tomo.C84_fit": [
"Classical.choice",
"Quot.sound",
"propext"
],
"Verif.Tomo.C84_inversion": [
"Classical.choice",
"Quot.sound",
"propext"
],
"Verif.Tomo.C85_constraints": [
"Classical.choice",
"Quot.sound",
"propext"
],
"Verif.Tomo.C85_constraints_state": [
"Classical.choice",
"Quot.sound",
"propext"
],
"Verif.Tomo.C85_objective": [
"Classical.choice",
"Quot.sound",
"propext"
],
"Verif.Tomo.C85_process": [
"Classical.choice",
"Quot.sound",
"propext"
],
"Verif.Tomo.C85_state": [
"Classical.choice",
"Quot.sound",
"propext"
],
"Verif.Tomo.C86_circuits": [
"Classical.choice",
"Quot.sound",
"propext"
],
"Verif.Tomo.C86_finding_duplicate": [
"Classical.choice",
"Quot.sound",
"propext"
],
"Verif.Tomo.C87_finding_spam_order": [
"Classical.choice",
"Quot.sound",
"propext"
],
"Verif.Tomo.C87_finding_start": [
"Classical.choice",
"Quot.sound",
"propext"
],
"Verif.Tomo.C87_gauge": [
"Classical.choice",
"Quot.sound",
"propext"
],
"Verif.Tomo.C87_optimum": [
"Classical.choice",
"Quot.sound",
"propext"
],
"Verif.Tomo.C87_singular": [
"Classical.choice",
"Quot.sound",
"propext"
],
"Verif.Tomo.C87_spam_matrix": [
"Classical.choice",
"Quot.sound",
"propext"
],
"Verif.Tomo.C87_zero": [
"Classical.choice",
"Quot.sound",
"propext"
],
"Verif.Tomo.C88_objective": [
"Classical.choice",
"Quot.sound",
"propext"
],
"Verif.Tomo.C88_optimum": [
"Classical.choice",
"Quot.sound",
"propext"
],
"Verif.Tomo.C88_zero": [
"Classical.choice",
"Quot.sound",
"propext"
],
"Verif.Tomo.C89_bounded": [
"Classical.choice",
"Quot.sound",
"propext"
],
"Verif.Tomo.C89_completely_positive": [
"Classical.choice",
"Quot.sound",
"propext"
],
"Verif.Tomo.C89_equalities": [
"Classical.choice",
"Quot.sound",
"propext"
],
"Verif.Tomo.C89_finding_negative": [
"Classical.choice",
"Quot.sound",
"propext"
],
"Verif.Tomo.C89_finding_states": [
"Classical.choice",
"Quot.sound",
"propext"
],
"Verif.Tomo.C89_inequalities": [
"Classical.choice",
"Quot.sound",
"propext"
],
"Verif.Tomo.C89_trace": [
"Classical.choice",
"Quot.sound",
"propext"
],
"Verif.Tomo.complete_pauli": [
"Classical.choice",
"Quot.sound",
"propext"
],
"Verif.Tomo.complete_sic": [
"Classical.choice",
"Quot.sound",
"propext"
]
}