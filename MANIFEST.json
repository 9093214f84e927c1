{"claims": [
 {"property": "C01", "status": "proved", "theorems": ["Qudits.C01_append_layout", "Qudits.C01_append_stable", "Qudits.C01_append_short_dims", "Qudits.C01_duplicate_label_violated"], "note": "distinct labels as in the claim; the duplicate-label witness shows the hypothesis is needed"},
 {"property": "C02", "status": "proved", "theorems": ["Qudits.C02_instruction_history", "Qudits.C02_replace_negative_violated", "Qudits.C02_replace_out_of_range_violated"], "note": "histories of arbitrary length"},
 {"property": "C03", "status": "partial", "theorems": ["Qudits.C03_control_uniform_partial", "Qudits.C03_control_exact_partial", "Qudits.C03_accepts_illegal_level_violated", "Qudits.C03_rejects_legal_violated", "Qudits.C03_accepts_malformed_violated"], "note": "exact acceptance characterised; the claim itself is false because the level is compared with a dimension looked up by position, not by line"},
 {"property": "C04", "status": "partial", "theorems": ["Qudits.C04_constructed_partial", "Qudits.C04_type_after_control", "Qudits.C04_stale_flag_violated"], "note": "control() recomputes the type but not the long-range flag"},
 {"property": "C05", "status": "partial", "theorems": ["Qudits.C05_dag_adjoint_partial", "Qudits.C05_dag_repeated_partial", "Qudits.C05_double_dag_violated"], "note": "dag() sets a flag instead of toggling it"},
 {"property": "C06", "status": "proved", "theorems": ["Qudits.C06_x", "Qudits.C06_z", "Qudits.C06_h", "Qudits.C06_s", "Qudits.C06_r", "Qudits.C06_rz", "Qudits.C06_rh", "Qudits.C06_noise_x", "Qudits.C06_noise_y", "Qudits.C06_virtrz", "Qudits.C06_csum", "Qudits.C06_cex", "Qudits.C06_cex_returned", "Qudits.C06_ls", "Qudits.C06_ms", "Qudits.C06_ms_returned", "Qudits.C06_r_not_a_list"], "note": "every array that is returned is unitary; where the code raises instead (CEx level above the dimension, MS on dimension < 2) this is stated"},
 {"property": "C07", "status": "proved", "theorems": ["Qudits.C07_x_action", "Qudits.C07_z_action", "Qudits.C07_x_order", "Qudits.C07_z_order", "Qudits.C07_weyl", "Qudits.C07_fourier"], "note": ""},
 {"property": "C08", "status": "proved", "theorems": ["Qudits.C08_r_closed", "Qudits.C08_r_rejects", "Qudits.C08_r_other_levels", "Qudits.C08_r_add", "Qudits.C08_r_inverse", "Qudits.C08_rz_closed", "Qudits.C08_rh_closed", "Qudits.C08_virtrz_closed"], "note": ""},
 {"property": "C09", "status": "proved", "theorems": ["Qudits.C09_csum_register", "Qudits.C09_cex_register", "Qudits.C09_cex_level_too_high"], "note": ""},
 {"property": "C10", "status": "partial", "theorems": ["Qudits.C10_ls_register_partial", "Qudits.C10_ls_reversed_violated"], "note": "false for reversed lines of unequal dimension; proved in all other cases"},
 {"property": "C100", "status": "partial", "theorems": ["Qudits.C100_print", "Qudits.C100_labels_partial", "Qudits.C100_labels_violated"], "note": "Lines, order, amplitudes and the hidden entries are proved for all proper diagrams. The label determines the basis state only if no line has more than ten levels; a counterexample is proved beyond that."},
 {"property": "C101", "status": "proved", "theorems": ["Qudits.C101_rotations", "Qudits.C101_u3", "Qudits.C101_special", "Qudits.C101_constants", "Qudits.C101_unitary", "Qudits.C101_embX", "Qudits.C101_trits", "Qudits.C101_projector"], "note": "Over exact reals; the projector for all dimensions, of which the header has 2 to 7."},
 {"property": "C102", "status": "partial", "theorems": ["Qudits.C102_sound", "Qudits.C102_quiet_partial", "Qudits.C102_layers_violated", "Qudits.C102_later_violated"], "note": "The reported error is always true and within the tolerance. Independence of the runs holds as long as no timer fires during the search; timers are never cancelled, and both kinds of interference are proved."},
 {"property": "C103", "status": "partial", "theorems": ["Qudits.C103_price", "Qudits.C103_longer", "Qudits.C103_free", "Qudits.C103_once", "Qudits.C103_same_partial", "Qudits.C103_same_violated", "Qudits.C103_cheaper_violated"], "note": "equal rotations with angles of different signs are stored and priced differently (witness -3 pi and pi); prices over the reals"},
 {"property": "C104", "status": "proved", "theorems": ["Qudits.C104_rotation", "Qudits.C104_routing", "Qudits.C104_nearer"], "note": "nx.shortest_path is a parameter that finds shortest paths"},
 {"property": "C105", "status": "partial", "theorems": ["Qudits.C105_covers", "Qudits.C105_exact_partial", "Qudits.C105_violated"], "note": "never understated on any device; exact without levels marked r and with neighbouring levels coupled; violated by the logical decomposition when neighbouring levels are not coupled"},
 {"property": "C106", "status": "proved", "theorems": ["Qudits.C106_logical_cost", "Qudits.C106_physical_cost", "Qudits.C106_logical", "Qudits.C106_physical", "Qudits.C106_no_dearer"], "note": "physical search on devices in order with phases that are multiples of pi, or with all levels coupled"},
 {"property": "C107", "status": "partial", "theorems": ["Qudits.C107_read", "Qudits.C107_rejected", "Qudits.C107_value_partial", "Qudits.C107_apart", "Qudits.C107_str_violated"], "note": "str(status) is never read back"},
 {"property": "C108", "status": "proved", "theorems": ["Qudits.C108_weights"], "note": "for every tree, whatever weights the shared nodes one and zero have"},
 {"property": "C109", "status": "partial", "theorems": ["Qudits.C109_sum", "Qudits.C109_one_partial", "Qudits.C109_several_violated", "Qudits.C109_dims_violated"], "note": "Proved for one target in a register of qubits, together with what is computed for several targets (a sum). For several targets and for registers whose size is not that of qubits the property is false, see the violated theorems."},
 {"property": "C11", "status": "partial", "theorems": ["Qudits.C11_perm_partial", "Qudits.C11_perm_rejects", "Qudits.C11_perm_duplicate_violated", "Qudits.C11_perm_short_violated"], "note": "validation accepts duplicates and short lists"},
 {"property": "C110", "status": "partial", "theorems": ["Qudits.C110_less", "Qudits.C110_greater", "Qudits.C110_order", "Qudits.C110_atMost_partial", "Qudits.C110_atLeast", "Qudits.C110_atMost_violated"], "note": "a < b and a > b are proved in full, a <= b is characterised exactly. Violated: a <= b raises TypeError instead of answering when a is not less than b and is another node."},
 {"property": "C12", "status": "proved", "theorems": ["Qudits.C12_full_register", "Qudits.C12_block", "Qudits.C12_embed_algebra", "Qudits.C12_unitary"], "note": ""},
 {"property": "C13", "status": "partial", "theorems": ["Qudits.C13_controlled_partial", "Qudits.C13_controlled_line0_partial", "Qudits.C13_unitary_partial", "Qudits.C13_high_target_violated", "Qudits.C13_large_target_violated", "Qudits.C13_exact"], "note": "Exact (C13_exact): an array is returned exactly if target plus lowest line is at most the highest line of the gate and the line of that number has at least as many levels as the target, and it is the controlled operator then; to_matrix raises IndexError or KeyError otherwise."},
 {"property": "C14", "status": "proved", "theorems": ["Qudits.C14_basis_vector", "Qudits.C14_rejects", "Qudits.C14_bijection", "Qudits.C14_split", "Qudits.C14_enumeration"], "note": ""},
 {"property": "C15", "status": "proved", "theorems": ["Qudits.C15_execute", "Qudits.C15_uncontrolled", "Qudits.C15_rejects", "Qudits.C15_stale_flag_violated"], "note": "Full claim for gates with right flags; the contraction library is modelled by its documented result (sum over edge assignments). Also: the flag hypothesis is needed."},
 {"property": "C16", "status": "partial", "theorems": ["Qudits.C16_node_vector", "Qudits.C16_node_matrix_partial", "Qudits.C16_node_uncached_violated", "Qudits.C16_add_vector", "Qudits.C16_multiply_vector", "Qudits.C16_add_matrix_partial", "Qudits.C16_multiply_matrix_partial", "Qudits.C16_adjoint_partial", "Qudits.C16_one_line", "Qudits.C16_read", "Qudits.C16_zero_state", "Qudits.C16_basis_state", "Qudits.C16_matrix_violated"], "note": "Vector operations (sum, matrix-vector product, read-out, initial states) are proved without restriction. Matrix sum, product and adjoint are proved correct whenever they return, and proved to return for operators on one common line; in general they throw (C16_matrix_violated). The public node constructor with uncached weights loses a factor (C16_node_uncached_violated)."},
 {"property": "C17", "status": "proved", "theorems": ["Qudits.C17_makeGateDD", "Qudits.C17_csum", "Qudits.C17_csum_entry", "Qudits.C17_cex", "Qudits.C17_rejects"], "note": "makeGateDD for all registers, targets, matrices and controls on distinct other lines; csum and cex for all registers, lines and daggers, with a target line of dimension 2 to 7 (others are refused, C17_rejects), levels as Python accepts them."},
 {"property": "C18", "status": "partial", "theorems": ["Qudits.C18_uncontrolled_partial", "Qudits.C18_controls_ignored_violated", "Qudits.C18_controls_violated", "Qudits.C18_dimension_violated", "Qudits.C18_levels_violated"], "note": "Both simulators return the same vector on every circuit of uncontrolled x, z, h, s, rxy, rz, rh, virtrz, cx, csum gates on lines of dimension 2 to 7. Controls are ignored by misim, which is proved as a violation; larger dimensions and descending levels fail."},
 {"property": "C19", "status": "proved", "theorems": ["Qudits.C19_reorder", "Qudits.C19_rejects"], "note": "For every dimension list and every engine vector."},
 {"property": "C20", "status": "proved", "theorems": ["Qudits.C20_make", "Qudits.C20_kept", "Qudits.C20_unique", "Qudits.C20_again", "Qudits.C20_content", "Qudits.C20_compute_hit", "Qudits.C20_compute_inserted"], "note": "Unique table on a memory with next pointers, for every hash function and every history of makeDDNode calls and lookups; weights compared exactly. Reference counting and garbage collection do not compile when instantiated and are not modelled."},
 {"property": "C21", "status": "partial", "theorems": ["Qudits.C21_add_noise_exact", "Qudits.C21_add_noise_rejects", "Qudits.C21_invariant_partial", "Qudits.C21_shape", "Qudits.C21_mixed_pair_violated", "Qudits.C21_constructor", "Qudits.C21_constructor_shape"], "note": "The exact accept/reject behaviour of add_noise and the constructor is proved. Full claim fails: a pair with one negative level next to fixed pairs is accepted (C21_mixed_pair_violated)."},
 {"property": "C22", "status": "partial", "theorems": ["Qudits.C22_aliasing_violated", "Qudits.C22_combination_partial", "Qudits.C22_fresh_single"], "note": "Full claim fails through object sharing (C22_aliasing_violated). Proved whenever no object is shared between slots receiving further additions."},
 {"property": "C23", "status": "proved", "theorems": ["Qudits.C23_noisy_circuit", "Qudits.C23_originals_kept", "Qudits.C23_no_noise", "Qudits.C23_marker_needs_levels", "Qudits.C23_target_lines", "Qudits.C23_target_violated"], "note": "Random draws are an arbitrary input stream. Original circuit is a value in the model, so its being unchanged is by construction."},
 {"property": "C24", "status": "proved", "theorems": ["Qudits.C24_depolarizing", "Qudits.C24_combinations", "Qudits.C24_subspace"], "note": "Real arithmetic instead of floats."},
 {"property": "C25", "status": "proved", "theorems": ["Qudits.C25_unique_match", "Qudits.C25_otherwise_raises", "Qudits.C25_exact_name", "Qudits.C25_listing"], "note": "The regular expression engine is a parameter; exact-name theorem for the names of the provider table"},
 {"property": "C26", "status": "partial", "theorems": ["Qudits.C26_actual", "Qudits.C26_options_persist_violated", "Qudits.C26_failed_run_persists_violated", "Qudits.C26_independent_partial", "Qudits.C26_shots", "Qudits.C26_set_options_useless"], "note": "The claim is false: options persist between runs (witness). Proved: exact description of the settings used after any history, and independence when every call passes all options"},
 {"property": "C27", "status": "partial", "theorems": ["Qudits.C27_is_final", "Qudits.C27_non_final", "Qudits.C27_from_string", "Qudits.C27_returns_first", "Qudits.C27_first_final_partial", "Qudits.C27_cancelled_violated", "Qudits.C27_timeout", "Qudits.C27_simulator_jobs_raise"], "note": "The claim is false for CANCELLED (witness). Proved for all other final states and every status history"},
 {"property": "C28", "status": "proved", "theorems": ["Qudits.C28_pi_mod", "Qudits.C28_regulate_theta", "Qudits.C28_rotation_unchanged"], "note": ""},
 {"property": "C29", "status": "partial", "theorems": ["Qudits.C29_propagate", "Qudits.C29_empty", "Qudits.C29_dagger_violated", "Qudits.C29_other_dropped"], "note": "Holds for all sequences of R and VirtRz gates that are not marked as adjoint; the adjoint mark is lost (violation proved) and other gates are dropped."},
 {"property": "C30", "status": "partial", "theorems": ["Qudits.C30_two_runs_violated", "Qudits.C30_entangling_raises", "Qudits.C30_partial", "Qudits.C30_moved", "Qudits.C30_one_run_exact", "Qudits.C30_exact", "Qudits.C30_runs", "Qudits.C30_refused", "Qudits.C30_applied_twice", "Qudits.C30_last_on_line_partial"], "note": "False in general (witness). With one run of neighbouring gates on the same target the run is moved to the end of the circuit (C30_moved), and the operator is kept exactly if the run commutes with what follows (C30_one_run_exact), in particular if nothing behind it acts on its line. C30_exact states what is returned for every circuit with any number of runs: equivalent gates, but at the places given by Spec.moved (later positions are taken from the old list); C30_applied_twice gives a whole family for which a run is applied twice."},
 {"property": "C31", "status": "partial", "theorems": ["Qudits.C31_partial", "Qudits.C31_initial", "Qudits.C31_trailing", "Qudits.C31_controlled_violated"], "note": "Proved for all circuits in which no phase gate carries controls; false otherwise (witness)."},
 {"property": "C32", "status": "partial", "theorems": ["Qudits.C32_lanes_kept", "Qudits.C32_order", "Qudits.C32_operator", "Qudits.C32_controlled_gate_violated", "Qudits.C32_repeated_object"], "note": "Proved for all circuits of distinct gate objects without controlled single-qudit gates; the rest raises or repeats gates (witnesses)"},
 {"property": "C33", "status": "proved", "theorems": ["Qudits.C33_resynth"], "note": "For all circuits of distinct gate objects whose single-qudit gates carry a matrix of the line's dimension; the operator, absence of adjacent single-qudit gates, and the unchanged multi-qudit gates"},
 {"property": "C34", "status": "proved", "theorems": ["Qudits.C34_decomposition", "Qudits.C34_exact"], "note": "For any connected level graph and any path finder; C34_exact in exact arithmetic, C34_decomposition with the error allowed by any thresholds."},
 {"property": "C35", "status": "partial", "theorems": ["Qudits.C35_physical_general", "Qudits.C35_physical", "Qudits.C35_physical_exact", "Qudits.C35_logical_inverse", "Qudits.C35_logical_violated", "Qudits.C35_transpile_order", "Qudits.C35_transpile_violated"], "note": "True for PhyLocQRPass.transpile_gate. Violated by LogLocQRPass (puts in the inverse) and by PhyLocQRPass.transpile (wrong order). Adaptive passes not covered here."},
 {"property": "C36", "status": "partial", "theorems": ["Qudits.C36_create", "Qudits.C36_swap", "Qudits.C36_history", "Qudits.C36_twice", "Qudits.C36_map", "Qudits.C36_physical", "Qudits.C36_rejects", "Qudits.C36_phases_forgotten", "Qudits.C36_phase_gates_violated", "Qudits.C36_phase_swap_partial", "Qudits.C36_phase_swap_violated"], "note": "swap_nodes: every history of swaps is a renaming by the product of the transpositions, the logical-physical map stays a permutation, the physical couplings do not change. Not restored: the swapped graph loses its circuit, so get_vrz_gates returns nothing although phases are stored. swap_node_attr_simple takes positions for names; right only for graphs whose nodes are named by position."},
 {"property": "C37", "status": "partial", "theorems": ["Qudits.C37_retrieve", "Qudits.C37_marked_leaves", "Qudits.C37_add", "Qudits.C37_history", "Qudits.C37_find", "Qudits.C37_find_unique", "Qudits.C37_total_size", "Qudits.C37_depth", "Qudits.C37_size_violated", "Qudits.C37_inner_finished_violated"], "note": "All trees. total_size leaves a wrong size behind (is_empty becomes true for one node); a finished node with unfinished children makes retrieve_decomposition raise."},
 {"property": "C38", "status": "proved", "theorems": ["Qudits.C38_tree", "Qudits.C38_no_levels"], "note": "For all dimensions and vectors. Floats are exact."},
 {"property": "C39", "status": "proved", "theorems": ["Qudits.C39_cut", "Qudits.C39_approximate", "Qudits.C39_no_tolerance"], "note": "For all states, registers and tolerances: which parts are cut, their total probability, unchanged amplitudes elsewhere, greediness; after renormalisation (lines of at least two levels) the amplitudes are those kept."},
 {"property": "C40", "status": "partial", "theorems": ["Qudits.C40_violated", "Qudits.C40_partial"], "note": "The claim is false when the shared node has a zero branch at level 0 (C40_violated); proved for all other normalised trees (C40_partial)."},
 {"property": "C41", "status": "proved", "theorems": ["Qudits.C41_sequence"], "note": "For all dimensions from 2 and all unit weight vectors."},
 {"property": "C42", "status": "partial", "theorems": ["Qudits.C42_ghz", "Qudits.C42_qudit_w", "Qudits.C42_embedded_w_partial", "Qudits.C42_embedded_w_violated", "Qudits.C42_refused"], "note": "GHZ and W over all levels proved for all shapes with positive dimensions, with unit norm and exact amplitudes; the embedded W state is of unit norm when every line has at least two levels, and not otherwise (witness [1, 2]). Error branches covered."},
 {"property": "C43", "status": "proved", "theorems": ["Qudits.C43_split", "Qudits.C43_refused", "Qudits.C43_bounds"], "note": "Exact set of accepted vectors, exact chunks, exact bounds for every entry."},
 {"property": "C44", "status": "proved", "theorems": ["Qudits.C44_least", "Qudits.C44_sound", "Qudits.C44_trials", "Qudits.C44_negative"], "note": "Least number of layers for monotone runs, soundness for any runs, logarithmic number of runs."},
 {"property": "C45", "status": "partial", "theorems": ["Qudits.C45_reversed_partial", "Qudits.C45_order_violated", "Qudits.C45_lines_violated"], "note": "The matrix is the product of the emitted gates in the wrong order; equality with the circuit for one block only; gates always on lines 0 and 1."},
 {"property": "C46", "status": "partial", "theorems": ["Qudits.Qasm.C46_roundtrip", "Qudits.Qasm.C46_registers", "Qudits.Qasm.C46_classical_violated", "Qudits.Qasm.C46_empty_violated"], "note": "Quantum registers with at least one qudit come back exactly, for every circuit that can be read. Classical registers are lost and registers without qudits cannot be read."},
 {"property": "C47", "status": "partial", "theorems": ["Qudits.Qasm.C47_readback", "Qudits.Qasm.C47_roundtrip_partial", "Qudits.Qasm.C47_same_array", "Qudits.Qasm.C47_rotation_violated", "Qudits.Qasm.C47_virtrz_violated", "Qudits.Qasm.C47_perm_violated", "Qudits.Qasm.C47_cex_violated", "Qudits.Qasm.C47_noise_violated", "Qudits.Qasm.C47_dagger_violated", "Qudits.Qasm.C47_control_violated", "Qudits.Qasm.C47_custom_violated"], "note": "Round trip proved for H, X, Z, S, CSum, LS, MS and default CEx gates without controls; what every other gate is read as is proved, and each loss has its own theorem. Relative to stated laws of Python's number printing and evaluation."},
 {"property": "C48", "status": "proved", "theorems": ["Qudits.C48_reduced", "Qudits.C48_trace", "Qudits.C48_linear", "Qudits.C48_hermitian", "Qudits.C48_positive", "Qudits.C48_all", "Qudits.C48_expectation", "Qudits.C48_density", "Qudits.C48_range", "Qudits.C48_size", "Qudits.C48_negative"], "note": "For every register, every list of different lines and every array. Negative line numbers are not treated as counted from the end."},
 {"property": "C49", "status": "partial", "theorems": ["Qudits.C49_labels", "Qudits.C49_distinct_partial", "Qudits.C49_labels_violated", "Qudits.C49_bins", "Qudits.C49_bins_mapped", "Qudits.C49_total", "Qudits.C49_array_violated"], "note": "Bins and total for all registers and lists; labels are distinct up to ten levels per line and coincide beyond; numpy arrays of shots raise AttributeError."},
 {"property": "C50", "status": "partial", "theorems": ["Qudits.C50_moves", "Qudits.C50_none", "Qudits.C50_logical_partial", "Qudits.C50_direction_violated"], "note": "Holds exactly for mappings that are their own inverses; violated otherwise."},
 {"property": "C51", "status": "proved", "theorems": ["Qudits.C51_s_prime", "Qudits.C51_s_rejects"], "note": ""},
 {"property": "C52", "status": "proved", "theorems": ["Qudits.C52_insert_at"], "note": "insert_at is not called by the library itself."},
 {"property": "C53", "status": "partial", "theorems": ["Qudits.C53_fidelity", "Qudits.C53_inner_product_partial", "Qudits.C53_inner_product_exact", "Qudits.C53_inner_product_iff", "Qudits.C53_inner_product_violated"], "note": "Fidelity proved in full. The inner product returned is the true one times the top weight of the second diagram over its conjugate (C53_inner_product_exact), so it is right exactly if that weight is real or the vectors are orthogonal (C53_inner_product_iff); violated otherwise."},
 {"property": "C54", "status": "partial", "theorems": ["Qudits.C54_vector_entry", "Qudits.C54_digits", "Qudits.C54_matrix_entry_partial", "Qudits.C54_matrix_entry_violated"], "note": "Vector entries and digits proved in full; for matrices whatever is returned is the entry, and the first row is returned (C54_matrix_entry_partial), but reading a non-zero matrix in any row of the upper blocks but the first throws."},
 {"property": "C55", "status": "proved", "theorems": ["Qudits.C55_depolarizing", "Qudits.C55_physical", "Qudits.C55_dephasing", "Qudits.C55_rejects"], "note": "The random generator is an arbitrary sequence of outcomes."},
 {"property": "C56", "status": "partial", "theorems": ["Qudits.C56_partial", "Qudits.C56_returns", "Qudits.C56_gates", "Qudits.C56_hash", "Qudits.C56_exact", "Qudits.C56_always_returns", "Qudits.C56_gates_exact", "Qudits.C56_no_threshold", "Qudits.C56_exactly_when", "Qudits.C56_harmless", "Qudits.C56_lost", "Qudits.C40_violated", "Qudits.C56_violated"], "note": "Proved for all states in which sharing is harmless, with an explicit error bound; a circuit is always returned when dimensions do not increase. False in general (C40_violated, C56_violated); C56_exact states what is prepared for every non-zero state and C56_exactly_when the states for which the claim holds. Python's hash is assumed without collisions on the tuples of the tree; C56_hash shows such a hash exists for every state."},
 {"property": "C57", "status": "partial", "theorems": ["Qudits.C57_partial", "Qudits.C57_hash", "Qudits.C57_single", "Qudits.C57_violated"], "note": "Overlap bound for the state prepared by the circuit, when sharing is harmless in the kept vector (always for a single line, C57_single). Missing: kept vectors in which a zero branch of level 0 is shared; C57_violated: for such a vector the state prepared is orthogonal to the given one."},
 {"property": "C58", "status": "partial", "theorems": ["Qudits.C58_anneal", "Qudits.C58_within_partial", "Qudits.C58_empty_violated"], "note": "What the optimiser reports is sound; the circuit has the reverse order of the optimised matrix (C45); a failed search returns the empty circuit."},
 {"property": "C59", "status": "proved", "theorems": ["Qudits.C59_unitary", "Qudits.C59_operator", "Qudits.C59_states", "Qudits.C59_refused"], "note": "fidelity_on_density_operator is not modelled. Zero operators (division by zero in numpy) are excluded."},
 {"property": "C60", "status": "partial", "theorems": ["Qudits.C60_special", "Qudits.C60_reach_violated"], "note": "Special unitarity and parameter use for every dimension; not every special unitary qubit matrix is reached."},
 {"property": "C61", "status": "partial", "theorems": ["Qudits.C61_measure", "Qudits.C61_rotations_partial", "Qudits.C61_order_violated"], "note": "The scored matrix is the product of the emitted gates in the wrong order."},
 {"property": "C62", "status": "proved", "theorems": ["Qudits.C62_expand", "Qudits.C62_refused"], "note": "Targets are natural numbers."},
 {"property": "C63", "status": "partial", "theorems": ["Qudits.C63_diagonal_partial", "Qudits.C63_trace_partial", "Qudits.C63_single_violated", "Qudits.C63_wide_violated", "Qudits.C63_empty"], "note": "For at least two lines with at most ten levels; refused by exceptions otherwise."},
 {"property": "C64", "status": "proved", "theorems": ["Qudits.C64_controlled_rotation", "Qudits.C64_partial_swap", "Qudits.C64_phase_rotation"], "note": "all dimensions at least 2, both orders of the lines"},
 {"property": "C65", "status": "partial", "theorems": ["Qudits.C65_decomposition_partial", "Qudits.C65_exact", "Qudits.C65_code_constants", "Qudits.C65_reversed_lines_violated"], "note": "lines in circuit order; fails for reversed lines"},
 {"property": "C66", "status": "partial", "theorems": ["Qudits.C66_log_gate_partial", "Qudits.C66_marks_violated", "Qudits.C66_circuit_violated"], "note": "two qubits, one gate; fails for other dimensions and for whole circuits"},
 {"property": "C67", "status": "partial", "theorems": ["Qudits.C67_cex_partial", "Qudits.C67_cex_reordered", "Qudits.C67_phase_violated", "Qudits.C67_mark_violated", "Qudits.C67_placement_violated"], "note": "CEx without mark whose levels keep their order; fails otherwise"},
 {"property": "C68", "status": "partial", "theorems": ["Qudits.C68_logical", "Qudits.C68_physical", "Qudits.C68_coupled", "Qudits.C68_violated"], "note": "Fails for the physical search on devices that are not fully coupled with stored phases that are not multiples of pi (C68_violated): stored phases are compensated in the routing pulses and moved with the logical levels too. Non-empty results are claimed under C69 for the limits the passes use."},
 {"property": "C69", "status": "partial", "theorems": ["Qudits.C69_implements_partial", "Qudits.C69_coupled", "Qudits.C69_physical", "Qudits.C69_diagonal", "Qudits.C69_logical_inverse", "Qudits.C69_logical_violated", "Qudits.C69_vanishes", "Qudits.C69_propagation_violated"], "note": "Holds for PhyLocAdaPass on fully coupled devices without stored phases and without propagation (C69_implements_partial); violated by LogLocAdaPass (inverse, None graph), for entries of modulus at most 1e-18 (gate vanishes) and with propagated phases (wrong order)."},
 {"property": "C70", "status": "partial", "theorems": ["Qudits.C70_dispatch", "Qudits.C70_total", "Qudits.C70_unknown", "Qudits.C70_z_passes_violated", "Qudits.C70_resynth_violated"], "note": "Dispatch holds for all passes; the Z passes are accepted without effect and the merging pass always raises."},
 {"property": "C71", "status": "proved", "theorems": ["Qudits.C71_next_local", "Qudits.C71_absent"], "note": ""},
 {"property": "C72", "status": "partial", "theorems": ["Qudits.C72_O0_partial", "Qudits.C72_O1_partial", "Qudits.C72_O2_partial", "Qudits.C72_lost_violated", "Qudits.C72_controlled_violated", "Qudits.C72_propagation_violated", "Qudits.C72_kept_violated"], "note": "Proved for gates on one line, CEx gates whose levels keep their order, and two-qubit gates on lines kept in place; O2 on fully coupled devices without neighbouring local gates. Violated otherwise: gates on three lines are lost or kept unplaced, controlled gates raise, propagated phases are applied in the wrong order."},
 {"property": "C73", "status": "partial", "theorems": ["Qudits.C73_gate_partial", "Qudits.C73_gate_stays", "Qudits.C73_uncoupled_violated", "Qudits.C73_qubit_violated", "Qudits.C73_dropped_violated", "Qudits.C73_innsbruck", "Qudits.C73_choice_violated", "Qudits.C73_six_qutrit", "Qudits.C73_O0_partial", "Qudits.C73_O0_stays", "Qudits.C73_O1_partial", "Qudits.C73_O1_stays"], "note": "The result is right whenever there is one; there is one if the paths taken between neighbouring levels stay on the line. Violated: a qubit line on the six-level graphs raises for every gate that is not nearly diagonal; for a qutrit line it depends on the choice among shortest paths; on FakeIonTraps2Trits, which keeps level 1 of a qubit outside of the line, diag(1, i) vanishes. For circuits the gates are those of C72."},
 {"property": "C74", "status": "proved", "theorems": ["Qudits.C74_declared", "Qudits.C74_six", "Qudits.C74_trits", "Qudits.C74_innsbruck"], "note": ""},
 {"property": "C75", "status": "partial", "theorems": ["Qudits.C75_O0_partial", "Qudits.C75_O1_partial", "Qudits.C75_O2_partial", "Qudits.C75_O0_roomy_partial", "Qudits.C75_O1_roomy_partial", "Qudits.C75_shown", "Qudits.C75_start_violated", "Qudits.C75_inverse_violated"], "note": "Proved for placements that are their own inverse and keep level 0 (all shipped backends) and for the gates that C72/C73 cover; for every other placement a circuit is shown wrongly."},
 {"property": "C76", "status": "partial", "theorems": ["Qudits.DD.C76_new", "Qudits.DD.C76_lookup", "Qudits.DD.C76_lookup_new", "Qudits.DD.C76_apart", "Qudits.DD.C76_again", "Qudits.DD.C76_collect", "Qudits.DD.C76_count", "Qudits.DD.C76_incRef", "Qudits.DD.C76_decRef", "Qudits.DD.C76_clear", "Qudits.DD.C76_stable_violated", "Qudits.DD.C76_nearest_violated"], "note": "All operations of the table for every history; values are elements of an ordered field and rounding to a bucket is a parameter assumed monotone and close. The pointer returned for a number is not stable over time and not always the nearest (negations proved)."},
 {"property": "C77", "status": "partial", "theorems": ["Qudits.DD.C77_add", "Qudits.DD.C77_mul", "Qudits.DD.C77_div", "Qudits.DD.C77_conj_neg", "Qudits.DD.C77_conj_neg_proper", "Qudits.DD.C77_lookup", "Qudits.DD.C77_apart", "Qudits.DD.C77_again", "Qudits.DD.C77_cache", "Qudits.DD.C77_get", "Qudits.DD.C77_giveBack", "Qudits.DD.C77_cached", "Qudits.DD.C77_negative_zero_violated", "Qudits.DD.C77_div_violated"], "note": "Arithmetic with error bounds, aliasing of target and operands allowed unless the imaginary part of an operand is stored in the real part of the target. Found-again fails for a negative zero, and quotients only hold as residuals (negations proved)."},
 {"property": "C78", "status": "partial", "theorems": ["Qudits.C78_compile_partial", "Qudits.C78_logical_inverse", "Qudits.C78_logical_violated"], "note": "Any list of registered names. Proved for gates that the pass they are given translates under the conditions of Spec.TranslatedBy (those of C70 to C72); the statement fails for LogLocQRPass, whose effect is characterised exactly (every gate on one line is inverted). Gates on pairs of more than two levels and pairs named in falling order are the violations of C70."},
 {"property": "C79", "status": "partial", "theorems": ["Qudits.C79_mini_unitary_sim", "Qudits.C79_mini_sim", "Qudits.C79_mini_sim_backend", "Qudits.C79_phy_sdit_sim", "Qudits.C79_phy_sdit_levels", "Qudits.C79_phy_sdit_compiled", "Qudits.C79_verify", "Qudits.C79_verify_maps", "Qudits.C79_final_map_rejected", "Qudits.C79_same_violated", "Qudits.C79_lines_violated"], "note": "Both directions of verify are proved with explicit bounds, with and without maps, for gates with unitary matrices of the size of the target. What fails is that the lines of the gates are not compared. Between the two bounds nothing is said: the comparison is entry by entry after division by the first entry."},
 {"property": "C80", "status": "partial", "theorems": ["Qudits.C80_noisy", "Qudits.C80_all_errors", "Qudits.C80_no_noise", "Qudits.C80_depolarizing_violated", "Qudits.C80_dephasing_violated", "Qudits.C80_controls_violated", "Qudits.C80_subspace_violated", "Qudits.C80_target_violated", "Qudits.C80_other_line_violated"], "note": "Which circuits are generated is proved in both directions (every run gives an allowed circuit and its exact state, every allowed circuit is given by a run) for uncontrolled gates on lines of two to seven levels and mathematical noise. The agreement with the noisy circuit factory is violated, see the witnesses."},
 {"property": "C81", "status": "partial", "theorems": ["Qudits.C81_fraction", "Qudits.C81_exact", "Qudits.C81_term", "Qudits.C81_fraction_shown", "Qudits.C81_number_partial", "Qudits.C81_tiny_violated", "Qudits.C81_zero_pi_violated"], "note": "Search, fractions and single parts are covered completely. The text of a whole number is within (pi+1) tolerances unless the imaginary part is between one and two tolerances; there the text (1+i) can be printed for a number of about the tolerance (C81_tiny_violated)."},
 {"property": "C82", "status": "partial", "theorems": ["Qudits.C82_accepts", "Qudits.C82_simulated", "Qudits.C82_normalised", "Qudits.C82_inverse", "Qudits.C82_wrong_size", "Qudits.C82_order_violated", "Qudits.C82_none_violated", "Qudits.C82_shared_violated", "Qudits.C82_random_violated", "Qudits.C82_not_unitary_violated", "Qudits.C82_controlled_partial", "Qudits.C82_controls_refused"], "note": "Simulation is exact for all circuits of arrays of the right size (stored or drawn, marked or not), with levels in ascending order of the lines. Nothing is refused at construction, the order of the lines is ignored, arrays are shared, and the adjoint of a random gate is not its inverse (witnesses). Controls are those of C13."},
 {"property": "C83", "status": "partial", "theorems": ["Qudits.Shots.C83_tn", "Qudits.Shots.C83_tn_succeeds", "Qudits.Shots.C83_born", "Qudits.Shots.C83_not_normalised", "Qudits.Shots.C83_saved", "Qudits.Shots.C83_other_runs", "Qudits.Shots.C83_misim", "Qudits.Shots.C83_repeats_violated", "Qudits.Shots.C83_same_moment_violated", "Qudits.Shots.C83_other_moment"], "note": "Every result of a shot is the state of, or a Born-rule outcome in, a circuit with allowed errors. Independence of the shots is false and refuted. For tnsim a run succeeds exactly if every entry of the noise model fits its gates, probabilities included (C83_tn_succeeds); for misim success is proved for noise on whole lines in all modes that can be applied."},
 {"property": "C84", "status": "partial", "theorems": ["Qudits.DD.C84_spread_partial", "Qudits.DD.C84_other_dimension_violated", "Qudits.DD.C84_few_lines"], "note": "Holds when the first line has two, three or five levels and the other lines as many levels as there are lines; on a first line of any other dimension the result is the zero vector (C84_other_dimension_violated)."},
 {"property": "C85", "status": "partial", "theorems": ["Qudits.Shots.C85_table", "Qudits.Shots.C85_errors", "Qudits.Shots.C85_run", "Qudits.Shots.C85_run_option", "Qudits.Shots.C85_own_noise_violated", "Qudits.Shots.C85_innsbruck_violated"], "note": "Holds for the three fake backends and noise models given to the run. A noise model given at construction is ignored, and results of Innsbruck01 do not depend on the circuit; both are proved. The law of the random errors is in C86."},
 {"property": "C86", "status": "partial", "theorems": ["Qudits.Shots.C86_law", "Qudits.Shots.C86_trace", "Qudits.Shots.C86_pair", "Qudits.Shots.C86_qubit", "Qudits.Shots.C86_coherence_violated"], "note": "C86_law is the whole statement on means and channels; the last sentence holds for states within the two levels (C86_pair, C86_qubit) and is refuted beyond (C86_coherence_violated)."},
 {"property": "C87", "status": "proved", "theorems": ["Qudits.Misim.C87_law", "Qudits.Misim.C87_trace", "Qudits.Misim.C87_depolarizing_violated", "Qudits.Misim.C87_backends_violated", "Qudits.Misim.C87_independent_violated"], "note": "The law of the errors and the norm are proved for every circuit of the gates of C18 and every noise model that can be applied. The violated theorems show that this noise is neither depolarizing, nor that of tnsim, nor independent between lines. The draws are assumed to be independent with the given probabilities (mt19937_64 seeded from random_device)."},
 {"property": "C88", "status": "partial", "theorems": ["Qudits.C88_exact", "Qudits.C88_two_lines_exact", "Qudits.C88_partial", "Qudits.C88_two_lines", "Qudits.C88_unshared", "Qudits.C88_shared_first", "Qudits.C88_appended", "Qudits.C88_approx_partial", "Qudits.C88_old_remains", "Qudits.C88_violated", "Qudits.C88_skip_violated", "Qudits.C88_nonempty_violated"], "note": "Proved: the refusals exactly, the returned vector whenever nothing is refused, success on at most two lines and for all states without shared lines. Missing: the states of refused preparations, for which the claim is false (C88_violated, C88_skip_violated), and those excluded in C56 and C57."},
 {"property": "C89", "status": "partial", "theorems": ["Qudits.Qasm.C89_roundtrip_partial", "Qudits.Qasm.C89_collision_violated", "Qudits.Qasm.C89_empty_directory_violated", "Qudits.Qasm.C89_single_line_violated", "Qudits.Qasm.C89_parenthesis_violated", "Qudits.Qasm.C89_parenthesis_lost_violated"], "note": "Proved for the gates that survive a text export and custom gates, whatever is on the disk, when the random file names differ and the directory name is not empty and has no closing parenthesis or line break. Each of these assumptions is shown to be needed by a concrete or general counterexample; the gates that do not survive an export are those of C47."},
 {"property": "C90", "status": "proved", "theorems": ["Qudits.C90_bits", "Qudits.C90_lines", "Qudits.C90_reset", "Qudits.C90_duplicate_violated", "Qudits.C90_sequence_violated"], "note": "Distinct labels are needed (C90_duplicate_violated); what a user may expect of a sequence beyond the claim, negative indices, omitted bounds and steps, does not hold (C90_sequence_violated)."},
 {"property": "C91", "status": "proved", "theorems": ["Qudits.C91_density", "Qudits.C91_pure", "Qudits.C91_refused", "Qudits.C91_random", "Qudits.C91_random_refused", "Qudits.C91_accepted", "Qudits.C91_tolerance_violated", "Qudits.C91_hermitian_needed"], "note": "Exact numbers; nan is a separate outcome; random draws are arbitrary sequences. The tolerance applied is 1.1e-5, not the 1e-6 written in the function."},
 {"property": "C92", "status": "partial", "theorems": ["Qudits.C92_O0_partial", "Qudits.C92_O1_partial", "Qudits.C92_O0_smaller_partial", "Qudits.C92_simulators", "Qudits.C92_simulators_O1", "Qudits.C92_no_ion", "Qudits.C92_carrier"], "note": "Missing: gates on two lines other than controlled exchanges and gates on qubits, and exchanges whose levels change their order in the placement, for which C72 shows violations; on lines with fewer levels than the trap AssertionError remains possible (C73)."},
 {"property": "C93", "status": "partial", "theorems": ["Qudits.C93_amplitudes", "Qudits.C93_lost", "Qudits.C93_no_tolerance", "Qudits.C93_tolerance_exceeded", "Qudits.C93_one_level_violated", "Qudits.C93_created", "Qudits.C93_reduced", "Qudits.C93_uniform"], "note": "Proved for lines of at least two levels; with a line of one level the statement about the amplitudes fails (C93_one_level_violated). The counts are proved for all positive dimensions."},
 {"property": "C94", "status": "partial", "theorems": ["Qudits.C94_distance", "Qudits.C94_metric", "Qudits.C94_ancilla", "Qudits.C94_ancilla_violated", "Qudits.C94_sensitivity", "Qudits.C94_sensitivity_refused", "Qudits.C94_edge", "Qudits.C94_swapped", "Qudits.C94_kinds"], "note": "All proved except that distance_nodes_pi_pulses_fixed_ancilla is no distance (C94_ancilla_violated); C94_ancilla states what it computes."},
 {"property": "C95", "status": "proved", "theorems": ["Qudits.C95_vectorized", "Qudits.C95_string_vector", "Qudits.C95_string_matrix", "Qudits.C95_string_short", "Qudits.C95_count", "Qudits.C95_count_bounds", "Qudits.C95_count_basis"], "note": "For every proper diagram: all entries of getVectorizedMatrix, all strings of digits, the number of reachable nodes and bounds on it by the number of non-zero amplitudes."},
 {"property": "C96", "status": "partial", "theorems": ["Qudits.C96_replace_partial", "Qudits.C96_outside", "Qudits.C96_entangling_violated"], "note": "Proved for every circuit and every stretch of single-qudit gates, with the operator kept; an entangling gate in the stretch stays in the circuit (C96_entangling_violated)."},
 {"property": "C97", "status": "partial", "theorems": ["Qudits.C97_kronecker_partial", "Qudits.C97_kronecker_iff", "Qudits.C97_diagonal_returns", "Qudits.C97_extend_top", "Qudits.C97_extend_partial", "Qudits.C97_weight_violated", "Qudits.C97_sizes_violated"], "note": "Right exactly if no path of the first operand comes to a multiple of the identity other than the identity, on registers of one size. The code violates the claim otherwise (witnesses proved). For operands that are not diagonal the theorems speak about returned products (matrix nodes can throw, see C16)."},
 {"property": "C98", "status": "partial", "theorems": ["Qudits.C98_same_as_compile", "Qudits.C98_reversed", "Qudits.C98_transpile_partial", "Qudits.C98_logical_inverse", "Qudits.C98_violated", "Qudits.C98_logical_adaptive_violated"], "note": "Proved for PhyLocAdaPass and PhyEntQRCEXPass; the other passes violate it: PhyLocQRPass and LogEntQRCEXPass reverse each decomposition, LogLocQRPass inverts gates, LogLocAdaPass loses the graph of a line."},
 {"property": "C99", "status": "partial", "theorems": ["Qudits.C99_drawn", "Qudits.C99_same_drawing", "Qudits.C99_gates_partial", "Qudits.C99_levels_violated", "Qudits.C99_idle_violated"], "note": "When a circuit is drawn and which circuits are drawn alike is characterised exactly. Violated: lines on which a gate does not act show the symbol of a gate on several lines; levels beyond nine can be mistaken."}
]}
