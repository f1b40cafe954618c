# Axioms of the property theorems

Output of `#print axioms` for every theorem named in `MANIFEST.json`.

| theorem | axioms |
|----|----|
| `SQ.C01_engine_history` | propext, Classical.choice, Quot.sound |
| `SQ.C01_engine_accept` | propext, Classical.choice, Quot.sound |
| `SQ.C01_optim_never_fails` | propext, Classical.choice, Quot.sound |
| `SQ.C02_units_history` | propext, Classical.choice, Quot.sound |
| `SQ.C02_unit_freq_accept` | propext, Classical.choice, Quot.sound |
| `SQ.C02_unit_cap_accept` | propext, Classical.choice, Quot.sound |
| `SQ.C02_unit_ind_accept` | propext, Classical.choice, Quot.sound |
| `SQ.C02_unit_JJ_accept` | propext, Classical.choice, Quot.sound |
| `SQ.C03_env_history` | propext, Classical.choice, Quot.sound |
| `SQ.C03_env_reject` | propext, Classical.choice, Quot.sound |
| `SQ.C03_reset` | propext, Classical.choice, Quot.sound |
| `SQ.C04_new` | propext, Classical.choice, Quot.sound |
| `SQ.C04_rejected` | propext, Classical.choice, Quot.sound |
| `SQ.C04_accepted` | propext, Classical.choice, Quot.sound |
| `SQ.C04_constructor` | propext, Classical.choice, Quot.sound |
| `SQ.C04_constructor_torch` | propext, Classical.choice, Quot.sound |
| `SQ.C05_capacitor_roundtrip` | propext, Classical.choice, Quot.sound |
| `SQ.C05_capacitor_set` | propext, Classical.choice, Quot.sound |
| `SQ.C05_capacitor_get` | propext, Classical.choice, Quot.sound |
| `SQ.C05_capacitor_zero` | propext, Classical.choice, Quot.sound |
| `SQ.C06_inductor_roundtrip` | propext, Classical.choice, Quot.sound |
| `SQ.C06_inductor_set` | propext, Classical.choice, Quot.sound |
| `SQ.C06_inductor_get` | propext, Classical.choice, Quot.sound |
| `SQ.C07_junction_roundtrip_partial` | propext, Classical.choice, Quot.sound |
| `SQ.C07_junction_roundtrip_fails` | propext, Classical.choice, Quot.sound |
| `SQ.C08_units_rejected` | propext, Classical.choice, Quot.sound |
| `SQ.C08_units_accepted` | propext, Classical.choice, Quot.sound |
| `SQ.C08_none_unit_overwrites_error` | propext, Classical.choice, Quot.sound |
| `SQ.C09_fabrication_error` | propext, Classical.choice, Quot.sound |
| `SQ.C09_zero_error_deterministic` | propext, Classical.choice, Quot.sound |
| `SQ.C10_loop_charge_setters_partial` | propext, Classical.choice, Quot.sound |
| `SQ.C10_loop_set_noise_disagrees` | propext, Classical.choice, Quot.sound |
| `SQ.C11_refuted` | propext, Classical.choice, Quot.sound |
| `SQ.C11_rejected_partial` | propext, Classical.choice, Quot.sound |
| `SQ.C12_edge` | propext, Classical.choice, Quot.sound |
| `SQ.C12_self_loop_unvalidated` | propext, Classical.choice, Quot.sound |
| `SQ.C13_node_count_correct_or_rejected` | propext, Classical.choice, Quot.sound |
| `SQ.C14_energy_forms` | propext, Classical.choice, Quot.sound |
| `SQ.C14_psd` | propext, Classical.choice, Quot.sound |
| `SQ.C15_order_independent` | propext, Classical.choice, Quot.sound |
| `SQ.C16_cap_posdef` | propext, Classical.choice, Quot.sound |
| `SQ.C17_null_space` | propext, Classical.choice, Quot.sound |
| `SQ.C18_branch_numbering` | propext, Classical.choice, Quot.sound |
| `SQ.C19_loop_membership` | propext, Classical.choice, Quot.sound |
| `SQ.C19_rebuild_idempotent` | propext, Classical.choice, Quot.sound |
| `SQ.C20_sensitivity` | propext, Classical.choice, Quot.sound |
| `SQ.C20_sensitivity_numpy` | propext, Classical.choice, Quot.sound |
| `SQ.C20_sensitivity_is_derivative` | propext, Classical.choice, Quot.sound |
| `SQ.C21_loop_vector` | propext, Classical.choice, Quot.sound |
| `SQ.C21_signs` | propext, Classical.choice, Quot.sound |
| `SQ.C22_flux_distribution` | propext, Classical.choice, Quot.sound |
| `SQ.flux_distribution_branches` | propext, Classical.choice, Quot.sound |
| `SQ.C23_two_branch_loop` | propext, Classical.choice, Quot.sound |
| `SQ.C23_whole_flux` | propext, Classical.choice, Quot.sound |
| `SQ.C23_all_shares` | propext, Classical.choice, Quot.sound |
| `SQ.C24_partial` | propext, Classical.choice, Quot.sound |
| `SQ.C24_dependent_columns_kept` | propext, Classical.choice, Quot.sound |
| `SQ.C24_renumbering_breaks_construction` | propext, Classical.choice, Quot.sound |
| `SQ.C25_external_flux_linear` | propext, Classical.choice, Quot.sound |
| `SQ.C26_canonical_sequences` | propext, Classical.choice, Quot.sound |
| `SQ.C26_canonical_construction` | propext, Classical.choice, Quot.sound |
| `SQ.C27_first_transformation` | propext, Classical.choice, Quot.sound |
| `SQ.C27_first_transformation_any_spectrum` | propext, Classical.choice, Quot.sound |
| `SQ.C28_charge_couplings` | propext, Classical.choice, Quot.sound |
| `SQ.C28_rounding` | propext, Classical.choice, Quot.sound |
| `SQ.C29_gram_schmidt` | propext, Classical.choice, Quot.sound |
| `SQ.C30_returns_partial` | propext, Classical.choice, Quot.sound |
| `SQ.C30_circuit_returns_partial` | propext, Classical.choice, Quot.sound |
| `SQ.C30_nontermination` | propext, Classical.choice, Quot.sound |
| `SQ.C30_hanging_circuit` | propext, Classical.choice, Quot.sound |
| `SQ.C31_third_transformation` | propext, Classical.choice, Quot.sound |
| `SQ.C32_uncoupled_removal` | propext, Classical.choice, Quot.sound |
| `SQ.C33_coefficients_partial` | propext, Classical.choice, Quot.sound |
| `SQ.C33_aligned_cases` | propext, Classical.choice, Quot.sound |
| `SQ.C33_alignment_iff` | propext, Classical.choice, Quot.sound |
| `SQ.C33_refuted` | propext, Classical.choice, Quot.sound |
| `SQ.C34_charge_mode_patterns` | propext, Classical.choice, Quot.sound |
| `SQ.C34_placeholder_partial` | propext, Classical.choice, Quot.sound |
| `SQ.C34_refuted` | propext, Classical.choice, Quot.sound |
| `SQ.C35_orientation` | propext, Classical.choice, Quot.sound |
| `SQ.C35_unknown_type` | propext, Classical.choice, Quot.sound |
| `SQ.C36_update_partial` | propext, Classical.choice, Quot.sound |
| `SQ.C36_removed` | propext, Classical.choice, Quot.sound |
| `SQ.C36_untruncated` | propext, Classical.choice, Quot.sound |
| `SQ.C36_refuted` | propext, Classical.choice, Quot.sound |
| `SQ.C37_displacement` | propext, Classical.choice, Quot.sound |
| `SQ.C37_circuit` | propext, Classical.choice, Quot.sound |
| `SQ.C37_constructed` | propext, Classical.choice, Quot.sound |
| `SQ.C38_products` | propext, Classical.choice, Quot.sound |
| `SQ.C38_local` | propext, Classical.choice, Quot.sound |
| `SQ.C39_lc_hamiltonian` | propext, Classical.choice, Quot.sound |
| `SQ.C39_quadratic_form` | propext, Classical.choice, Quot.sound |
| `SQ.C39_quadratic_phi` | propext, Classical.choice, Quot.sound |
| `SQ.C40_hermitian` | propext, Classical.choice, Quot.sound |
| `SQ.C40_circuit` | propext, Classical.choice, Quot.sound |
| `SQ.C41_periodicity` | propext, Classical.choice, Quot.sound |
| `SQ.C42_roundtrip` | propext, Classical.choice, Quot.sound |
| `SQ.C42_rejected` | propext, Classical.choice, Quot.sound |
| `SQ.C42_constructed` | propext, Classical.choice, Quot.sound |
| `SQ.C43_budget` | propext, Classical.choice, Quot.sound |
| `SQ.C44_bijection` | propext, Classical.choice, Quot.sound |
| `SQ.C44_kronecker` | propext, Classical.choice, Quot.sound |
| `SQ.C44_tens` | propext, Classical.choice, Quot.sound |
| `SQ.C45_sorted` | propext, Classical.choice, Quot.sound |
| `SQ.C45_diag` | propext, Classical.choice, Quot.sound |
| `SQ.C45_eigenpairs` | propext, Classical.choice, Quot.sound |
| `SQ.C45_lowest` | propext, Classical.choice, Quot.sound |
| `SQ.C46_unit` | propext, Classical.choice, Quot.sound |
| `SQ.C47_needs_truncation` | propext, Classical.choice, Quot.sound |
| `SQ.C47_needs_diag` | propext, Classical.choice, Quot.sound |
| `SQ.C47_guard_iff` | propext, Classical.choice, Quot.sound |
| `SQ.C48_coherence` | propext, Classical.choice, Quot.sound |
| `SQ.C48_circuit` | propext, Classical.choice, Quot.sound |
| `SQ.C49_fresh_partial` | propext, Classical.choice, Quot.sound |
| `SQ.C49_update_clears_partial` | propext, Classical.choice, Quot.sound |
| `SQ.C49_stale` | propext, Classical.choice, Quot.sound |
| `SQ.C49_refuted` | propext, Classical.choice, Quot.sound |
| `SQ.C50_listings` | propext, Classical.choice, Quot.sound |
| `SQ.C50_listings_example` | propext, Classical.choice, Quot.sound |
| `SQ.C50_parameters` | propext, Classical.choice, Quot.sound |
| `SQ.C50_parameters_numpy` | propext, Classical.choice, Quot.sound |
| `SQ.C51_assign` | propext, Classical.choice, Quot.sound |
| `SQ.C51_short` | propext, Classical.choice, Quot.sound |
| `SQ.C51_refuted` | propext, Classical.choice, Quot.sound |
| `SQ.C51_empty_partial` | propext, Classical.choice, Quot.sound |
| `SQ.C51_long` | propext, Classical.choice, Quot.sound |
| `SQ.C51_dropped` | propext, Classical.choice, Quot.sound |
| `SQ.C52_values` | propext, Classical.choice, Quot.sound |
| `SQ.C52_independent` | propext, Classical.choice, Quot.sound |
| `SQ.C52_fails` | propext, Classical.choice, Quot.sound |
| `SQ.C52_refuted` | propext, Classical.choice, Quot.sound |
| `SQ.C52_succeeds_partial` | propext, Classical.choice, Quot.sound |
| `SQ.C52_sharing` | propext, Classical.choice, Quot.sound |
| `SQ.C52_sharing_partial` | propext, Classical.choice, Quot.sound |
| `SQ.C52_sharing_refuted` | propext, Classical.choice, Quot.sound |
| `SQ.C53_full` | propext, Classical.choice, Quot.sound |
| `SQ.C53_picklecopy` | propext, Classical.choice, Quot.sound |
| `SQ.C53_update` | propext, Classical.choice, Quot.sound |
| `SQ.C53_needs_update` | propext, Classical.choice, Quot.sound |
| `SQ.C54_factors` | propext, Classical.choice, Quot.sound |
| `SQ.C54_threshold` | propext, Classical.choice, Quot.sound |
| `SQ.C54_degenerate` | propext, Classical.choice, Quot.sound |
| `SQ.C54_rates` | propext, Classical.choice, Quot.sound |
| `SQ.C55_symmetric` | propext, Classical.choice, Quot.sound |
| `SQ.C55_nonneg` | propext, Classical.choice, Quot.sound |
| `SQ.C55_directions` | propext, Classical.choice, Quot.sound |
| `SQ.C55_dephasing_total` | propext, Classical.choice, Quot.sound |
| `SQ.C55_unknown` | propext, Classical.choice, Quot.sound |
| `SQ.C55_not_diagonalized` | propext, Classical.choice, Quot.sound |
| `SQ.C56_half_angle_partial` | propext, Classical.choice, Quot.sound |
| `SQ.C56_charge_modes` | propext, Classical.choice, Quot.sound |
| `SQ.C56_refuted` | propext, Classical.choice, Quot.sound |
| `SQ.C57_flux` | propext, Classical.choice, Quot.sound |
| `SQ.C57_junction` | propext, Classical.choice, Quot.sound |
| `SQ.C57_circuit` | propext, Classical.choice, Quot.sound |
| `SQ.C58_capacitor` | propext, Classical.choice, Quot.sound |
| `SQ.C58_inductor` | propext, Classical.choice, Quot.sound |
| `SQ.C58_constructed` | propext, Classical.choice, Quot.sound |
| `SQ.C58_charging_energy_partial` | propext, Classical.choice, Quot.sound |
| `SQ.C58_inductive_energy_partial` | propext, Classical.choice, Quot.sound |
| `SQ.C58_refuted` | propext, Classical.choice, Quot.sound |
| `SQ.C59_derivative` | propext, Classical.choice, Quot.sound |
| `SQ.C59_subtracted` | propext, Classical.choice, Quot.sound |
| `SQ.C59_pair` | propext, Classical.choice, Quot.sound |
| `SQ.C59_circuit_flux` | propext, Classical.choice, Quot.sound |
| `SQ.C60_orthogonal` | propext, Classical.choice, Quot.sound |
| `SQ.C60_perturbation` | propext, Classical.choice, Quot.sound |
| `SQ.C60_is_derivative` | propext, Classical.choice, Quot.sound |
| `SQ.C60_negative_index` | propext, Classical.choice, Quot.sound |
| `SQ.C61_flux_junction` | propext, Classical.choice, Quot.sound |
| `SQ.C61_flux_inductor` | propext, Classical.choice, Quot.sound |
| `SQ.C61_flux_loop` | propext, Classical.choice, Quot.sound |
| `SQ.C61_flux_capacitor` | propext, Classical.choice, Quot.sound |
| `SQ.C61_critical_current` | propext, Classical.choice, Quot.sound |
| `SQ.C61_circuit` | propext, Classical.choice, Quot.sound |
| `SQ.C61_charge_capacitor_partial` | propext, Classical.choice, Quot.sound |
| `SQ.C61_charge_others` | propext, Classical.choice, Quot.sound |
| `SQ.C61_charge_refuted` | propext, Classical.choice, Quot.sound |
| `SQ.C61_second_derivative` | propext, Classical.choice, Quot.sound |
| `SQ.C62_rate` | propext, Classical.choice, Quot.sound |
| `SQ.C62_kink` | propext, Classical.choice, Quot.sound |
| `SQ.C62_flux` | propext, Classical.choice, Quot.sound |
| `SQ.C62_critical_current` | propext, Classical.choice, Quot.sound |
| `SQ.C62_charge_partial` | propext, Classical.choice, Quot.sound |
| `SQ.C62_circuit_loop` | propext, Classical.choice, Quot.sound |
| `SQ.C63_conjugate` | propext, Classical.choice, Quot.sound |
| `SQ.C63_diagonal` | propext, Classical.choice, Quot.sound |
| `SQ.C63_exists` | propext, Classical.choice, Quot.sound |
| `SQ.C64_modes` | propext, Classical.choice, Quot.sound |
| `SQ.C64_nodes_partial` | propext, Classical.choice, Quot.sound |
| `SQ.C64_nodes_refuted` | propext, Classical.choice, Quot.sound |
| `SQ.C65_circuits` | propext, Classical.choice, Quot.sound |
| `SQ.C65_truncations` | propext, Classical.choice, Quot.sound |
| `SQ.C66_symmetric` | propext, Classical.choice, Quot.sound |
| `SQ.C66_form_partial` | propext, Classical.choice, Quot.sound |
| `SQ.C66_uncoupled` | propext, Classical.choice, Quot.sound |
| `SQ.C66_no_interaction` | propext, Classical.choice, Quot.sound |
| `SQ.C66_form_refuted` | propext, Classical.choice, Quot.sound |
| `SQ.C66_ground_refuted` | propext, Classical.choice, Quot.sound |
| `SQ.C67_embedding` | propext, Classical.choice, Quot.sound |
| `SQ.C67_product` | propext, Classical.choice, Quot.sound |
| `SQ.C67_commute` | propext, Classical.choice, Quot.sound |
| `SQ.C67_kron` | propext, Classical.choice, Quot.sound |
| `SQ.C68_deviation` | propext, Classical.choice, Quot.sound |
| `SQ.C68_partial` | propext, Classical.choice, Quot.sound |
| `SQ.C68_single_mode` | propext, Classical.choice, Quot.sound |
| `SQ.C68_complete_basis` | propext, Classical.choice, Quot.sound |
| `SQ.C68_build_ok` | propext, Classical.choice, Quot.sound |
| `SQ.C68_quadratic_partial` | propext, Classical.choice, Quot.sound |
| `SQ.C68_refuted` | propext, Classical.choice, Quot.sound |
| `SQ.C69_flux_partial` | propext, Classical.choice, Quot.sound |
| `SQ.C69_charge_partial` | propext, Classical.choice, Quot.sound |
| `SQ.C69_circuit_flux_partial` | propext, Classical.choice, Quot.sound |
| `SQ.C69_circuit_charge_partial` | propext, Classical.choice, Quot.sound |
| `SQ.C69_refuted` | propext, Classical.choice, Quot.sound |
| `SQ.C69_no_parameters` | propext, Classical.choice, Quot.sound |
| `SQ.C70_deviation` | propext, Classical.choice, Quot.sound |
| `SQ.C70_partial` | propext, Classical.choice, Quot.sound |
| `SQ.C70_refuted` | propext, Classical.choice, Quot.sound |
| `SQ.C70_circuit_deviation` | propext, Classical.choice, Quot.sound |
| `SQ.C70_circuit_partial` | propext, Classical.choice, Quot.sound |
| `SQ.C70_islands_refuted` | propext, Classical.choice, Quot.sound |
| `SQ.C71_weight` | propext, Classical.choice, Quot.sound |
| `SQ.C71_partial` | propext, Classical.choice, Quot.sound |
| `SQ.C71_guard` | propext, Classical.choice, Quot.sound |
| `SQ.C71_refuted` | propext, Classical.choice, Quot.sound |
| `SQ.C71_small_mode` | propext, Classical.choice, Quot.sound |
| `SQ.C72_rows` | propext, Classical.choice, Quot.sound |
| `SQ.C72_text` | propext, Classical.choice, Quot.sound |
| `SQ.C72_no_loops` | propext, Classical.choice, Quot.sound |
| `SQ.C73_log_sinh` | propext, Classical.choice, Quot.sound |
| `SQ.C73_maximum` | propext, Classical.choice, Quot.sound |
| `SQ.C73_log_k0` | propext, Classical.choice, Quot.sound |
| `SQ.C73_k0e_backward` | propext, Classical.choice, Quot.sound |
| `SQ.C73_log_k0_backward` | propext, Classical.choice, Quot.sound |
| `SQ.C73_q_ind` | propext, Classical.choice, Quot.sound |
| `SQ.C73_q_cap` | propext, Classical.choice, Quot.sound |
| `SQ.C73_default_admittance` | propext, Classical.choice, Quot.sound |
| `SQ.C73_positive` | propext, Classical.choice, Quot.sound |
| `SQ.C74_modulus` | propext, Classical.choice, Quot.sound |
| `SQ.C74_charge_modes` | propext, Classical.choice, Quot.sound |
| `SQ.C75_zero_grad` | propext, Classical.choice, Quot.sound |
| `SQ.C75_parameters_grad` | propext, Classical.choice, Quot.sound |
| `SQ.C75_after_zero_grad` | propext, Classical.choice, Quot.sound |
| `SQ.C76_inner_partial` | propext, Classical.choice, Quot.sound |
| `SQ.C76_normalised_partial` | propext, Classical.choice, Quot.sound |
| `SQ.C76_constructed_partial` | propext, Classical.choice, Quot.sound |
| `SQ.C76_refuted` | propext, Classical.choice, Quot.sound |
| `SQ.C77_flux` | propext, Classical.choice, Quot.sound |
| `SQ.C77_charge` | propext, Classical.choice, Quot.sound |
| `SQ.C77_energy` | propext, Classical.choice, Quot.sound |
| `SQ.C77_charge_mode` | propext, Classical.choice, Quot.sound |
| `SQ.C77_exponential` | propext, Classical.choice, Quot.sound |
| `SQ.C78_modes` | propext, Classical.choice, Quot.sound |
| `SQ.C78_lc_hamiltonian` | propext, Classical.choice, Quot.sound |
| `SQ.C78_circuit` | propext, Classical.choice, Quot.sound |
| `SQ.C79_lines` | propext, Classical.choice, Quot.sound |
| `SQ.C79_partial` | propext, Classical.choice, Quot.sound |
| `SQ.C79_refuted` | propext, Classical.choice, Quot.sound |
| `SQ.C80_fluxonium` | propext, Classical.choice, Quot.sound |
| `SQ.C80_session` | propext, Classical.choice, Quot.sound |
| `SQ.C81_flux` | propext, Classical.choice, Quot.sound |
| `SQ.C81_value` | propext, Classical.choice, Quot.sound |
| `SQ.C81_charge` | propext, Classical.choice, Quot.sound |
| `SQ.C81_fluxonium` | propext, Classical.choice, Quot.sound |
| `SQ.C82_original` | propext, Classical.choice, Quot.sound |
| `SQ.C82_eig` | propext, Classical.choice, Quot.sound |
| `SQ.C82_guards_partial` | propext, Classical.choice, Quot.sound |
| `SQ.C82_refuted` | propext, Classical.choice, Quot.sound |
| `SQ.C83_transform` | propext, Classical.choice, Quot.sound |
| `SQ.C83_guard` | propext, Classical.choice, Quot.sound |
| `SQ.C84_pytorch` | propext, Classical.choice, Quot.sound |
| `SQ.C84_partial` | propext, Classical.choice, Quot.sound |
| `SQ.C84_numpy_stale` | propext, Classical.choice, Quot.sound |
| `SQ.C84_refuted` | propext, Classical.choice, Quot.sound |
| `SQ.C85_frequencies` | propext, Classical.choice, Quot.sound |
| `SQ.C85_backward` | propext, Classical.choice, Quot.sound |
| `SQ.C85_epsilon` | propext, Classical.choice, Quot.sound |
| `SQ.C85_circuit` | propext, Classical.choice, Quot.sound |
| `SQ.C85_truncated` | propext, Classical.choice, Quot.sound |
| `SQ.C86_shapes_partial` | propext, Classical.choice, Quot.sound |
| `SQ.C86_refuted` | propext, Quot.sound |
| `SQ.C87_set` | propext, Classical.choice, Quot.sound |
| `SQ.C87_partial` | propext, Classical.choice, Quot.sound |
| `SQ.C87_dropped` | propext, Classical.choice, Quot.sound |
| `SQ.C87_refuted` | propext, Classical.choice, Quot.sound |
| `SQ.C89_projection` | propext, Classical.choice, Quot.sound |
| `SQ.C90_junction_element` | propext, Classical.choice, Quot.sound |
| `SQ.C90_level` | propext, Classical.choice, Quot.sound |
| `SQ.C90_transition` | propext, Classical.choice, Quot.sound |
| `SQ.C90_flux_session` | propext, Classical.choice, Quot.sound |
| `SQ.C90_junction_session` | propext, Classical.choice, Quot.sound |
| `SQ.C90_example` | propext, Classical.choice, Quot.sound |
| `SQ.C88_flux` | propext, Classical.choice, Quot.sound |
| `SQ.C88_charge` | propext, Classical.choice, Quot.sound |
| `SQ.C88_critical_current` | propext, Classical.choice, Quot.sound |
| `SQ.C88_example` | propext, Classical.choice, Quot.sound |
| `SQ.C88_charge_example` | propext, Classical.choice, Quot.sound |
| `SQ.C91_capacitive` | propext, Classical.choice, Quot.sound |
| `SQ.C91_inductive` | propext, Classical.choice, Quot.sound |
| `SQ.C91_quasiparticle` | propext, Classical.choice, Quot.sound |
| `SQ.C91_example` | propext, Classical.choice, Quot.sound |
| `SQ.C92_parallel` | propext, Classical.choice, Quot.sound |
| `SQ.C92_transmon` | propext, Classical.choice, Quot.sound |
| `SQ.C92_squid` | propext, Classical.choice, Quot.sound |
| `SQ.C92_symmetric_squid` | propext, Classical.choice, Quot.sound |
| `SQ.C92_session` | propext, Classical.choice, Quot.sound |
| `SQ.C92_squid_session` | propext, Classical.choice, Quot.sound |
| `SQ.C92_example` | propext, Classical.choice, Quot.sound |
| `SQ.C93_islands` | propext, Classical.choice, Quot.sound |
| `SQ.C93_constructed` | propext, Classical.choice, Quot.sound |
| `SQ.C93_session` | propext, Classical.choice, Quot.sound |
| `SQ.C93_two_transmons` | propext, Classical.choice, Quot.sound |
| `SQ.C93_example` | propext, Classical.choice, Quot.sound |
| `SQ.C94_flux_reversal` | propext, Classical.choice, Quot.sound |
| `SQ.C94_example` | propext, Classical.choice, Quot.sound |
| `SQ.C95_charge_reversal` | propext, Classical.choice, Quot.sound |
| `SQ.C95_example` | propext, Classical.choice, Quot.sound |
| `SQ.C96_flux_sweet_spot` | propext, Classical.choice, Quot.sound |
| `SQ.C96_charge_sweet_spot` | propext, Classical.choice, Quot.sound |
| `SQ.C96_transmon` | propext, Classical.choice, Quot.sound |
| `SQ.C96_example` | propext, Classical.choice, Quot.sound |
| `SQ.C97_transmon` | propext, Classical.choice, Quot.sound |
| `SQ.C97_squid` | propext, Classical.choice, Quot.sound |
| `SQ.C97_example` | propext, Classical.choice, Quot.sound |
| `SQ.C98_more_charge_states` | propext, Classical.choice, Quot.sound |
| `SQ.C98_convergence` | propext, Classical.choice, Quot.sound |
| `SQ.C98_example` | propext, Classical.choice, Quot.sound |
| `SQ.C99_layout` | propext, Classical.choice, Quot.sound |
| `SQ.C99_negative` | propext, Classical.choice, Quot.sound |
| `SQ.C99_errors` | propext, Classical.choice, Quot.sound |
| `SQ.C99_example` | propext, Classical.choice, Quot.sound |
| `SQ.C100_linear` | propext, Classical.choice, Quot.sound |
| `SQ.C100_accepted` | propext, Classical.choice, Quot.sound |
| `SQ.C100_resonator` | propext, Classical.choice, Quot.sound |
| `SQ.C100_example` | propext, Classical.choice, Quot.sound |
| `SQ.C101_renumbering` | propext, Classical.choice, Quot.sound |
| `SQ.C101_example` | propext, Classical.choice, Quot.sound |
| `SQ.C102_bracket` | propext, Classical.choice, Quot.sound |
| `SQ.C102_periodic` | propext, Classical.choice, Quot.sound |
| `SQ.C102_example` | propext, Classical.choice, Quot.sound |
| `SQ.C103_energies` | propext, Classical.choice, Quot.sound |
| `SQ.C103_fluxes` | propext, Classical.choice, Quot.sound |
| `SQ.C103_example` | propext, Classical.choice, Quot.sound |
| `SQ.C104_gradient` | propext, Classical.choice, Quot.sound |
| `SQ.C104_frequencies` | propext, Classical.choice, Quot.sound |
| `SQ.C104_example` | propext, Classical.choice, Quot.sound |
| `SQ.C105_periodic` | propext, Classical.choice, Quot.sound |
| `SQ.C105_symmetric` | propext, Classical.choice, Quot.sound |
| `SQ.C105_example` | propext, Classical.choice, Quot.sound |
| `SQ.C106_flux` | propext, Classical.choice, Quot.sound |
| `SQ.C106_critical_current` | propext, Classical.choice, Quot.sound |
| `SQ.C106_charge` | propext, Classical.choice, Quot.sound |
| `SQ.C106_epsilon` | propext, Classical.choice, Quot.sound |
| `SQ.C106_example_flux` | propext, Classical.choice, Quot.sound |
| `SQ.C106_example_cc` | propext, Classical.choice, Quot.sound |
| `SQ.C106_example_charge` | propext, Classical.choice, Quot.sound |
| `SQ.C107_merged` | propext, Classical.choice, Quot.sound |
| `SQ.C107_complete` | propext, Classical.choice, Quot.sound |
| `SQ.C107_uncoupled` | propext, Classical.choice, Quot.sound |
| `SQ.C107_example` | propext, Classical.choice, Quot.sound |
| `SQ.C108_capacitors` | propext, Classical.choice, Quot.sound |
| `SQ.C108_observed` | propext, Classical.choice, Quot.sound |
| `SQ.C108_parallel` | propext, Classical.choice, Quot.sound |
| `SQ.C108_split_capacitor` | propext, Classical.choice, Quot.sound |
| `SQ.C108_merge_junctions` | propext, Classical.choice, Quot.sound |
| `SQ.C108_example` | propext, Classical.choice, Quot.sound |
| `SQ.C109_convert` | propext, Classical.choice, Quot.sound |
| `SQ.C109_inner` | propext, Classical.choice, Quot.sound |
| `SQ.C109_dag` | propext, Classical.choice, Quot.sound |
| `SQ.C109_example` | propext, Classical.choice, Quot.sound |
| `SQ.C110_product_partial` | propext, Classical.choice, Quot.sound |
| `SQ.C110_tensor_qobj` | propext, Classical.choice, Quot.sound |
| `SQ.C110_refuted` | propext, Classical.choice, Quot.sound |
| `SQ.C111_islands_partial` | propext, Classical.choice, Quot.sound |
| `SQ.C111_constructed_partial` | propext, Classical.choice, Quot.sound |
| `SQ.C111_held_partial` | propext, Classical.choice, Quot.sound |
| `SQ.C111_one_loop_partial` | propext, Classical.choice, Quot.sound |
| `SQ.C111_example` | propext, Classical.choice, Quot.sound |
| `SQ.C111_refuted` | propext, Classical.choice, Quot.sound |
| `SQ.C112_flux` | propext, Classical.choice, Quot.sound |
| `SQ.C112_charge` | propext, Classical.choice, Quot.sound |
| `SQ.C112_session` | propext, Classical.choice, Quot.sound |
| `SQ.C112_defined` | propext, Classical.choice, Quot.sound |
| `SQ.C112_circuit_flux` | propext, Classical.choice, Quot.sound |
| `SQ.C112_circuit_charge` | propext, Classical.choice, Quot.sound |
| `SQ.C112_one_state` | propext, Classical.choice, Quot.sound |
| `SQ.C112_example` | propext, Classical.choice, Quot.sound |
| `SQ.C113_flux` | propext, Classical.choice, Quot.sound |
| `SQ.C113_critical_current` | propext, Classical.choice, Quot.sound |
| `SQ.C113_charge` | propext, Classical.choice, Quot.sound |
| `SQ.C113_example` | propext, Classical.choice, Quot.sound |
| `SQ.C114_resonator` | propext, Classical.choice, Quot.sound |
| `SQ.C114_selection` | propext, Classical.choice, Quot.sound |
| `SQ.C114_example` | propext, Classical.choice, Quot.sound |
| `SQ.C115_slope_partial` | propext, Classical.choice, Quot.sound |
| `SQ.C115_absolute` | propext, Classical.choice, Quot.sound |
| `SQ.C115_example` | propext, Classical.choice, Quot.sound |
| `SQ.C115_refuted` | propext, Classical.choice, Quot.sound |
| `SQ.C115_attached_refuted` | propext, Classical.choice, Quot.sound |
| `SQ.C116_slope_partial` | propext, Classical.choice, Quot.sound |
| `SQ.C116_transmon` | propext, Classical.choice, Quot.sound |
| `SQ.C116_example` | propext, Classical.choice, Quot.sound |
| `SQ.C116_attached_refuted` | propext, Classical.choice, Quot.sound |
| `SQ.C117_errors` | propext, Classical.choice, Quot.sound |
| `SQ.C117_agree_partial` | propext, Classical.choice, Quot.sound |
| `SQ.C117_uncoupled` | propext, Classical.choice, Quot.sound |
| `SQ.C117_islands` | propext, Classical.choice, Quot.sound |
| `SQ.C117_refuted` | propext, Classical.choice, Quot.sound |
| `SQ.C118_cosines` | propext, Classical.choice, Quot.sound |
| `SQ.C118_inductive` | propext, Classical.choice, Quot.sound |
| `SQ.C118_terms` | propext, Classical.choice, Quot.sound |
| `SQ.C118_listing` | propext, Classical.choice, Quot.sound |
| `SQ.C118_circuit` | propext, Classical.choice, Quot.sound |
| `SQ.C118_names` | propext, Classical.choice, Quot.sound |
| `SQ.C118_names_limit` | propext, Classical.choice, Quot.sound |
| `SQ.C118_example` | propext, Classical.choice, Quot.sound |
| `SQ.C119_islands` | propext, Classical.choice, Quot.sound |
| `SQ.C119_constructed` | propext, Classical.choice, Quot.sound |
| `SQ.C119_example` | propext, Classical.choice, Quot.sound |
| `SQ.C120_isolated` | propext, Classical.choice, Quot.sound |
| `SQ.C120_alone` | propext, Classical.choice, Quot.sound |
| `SQ.C120_example` | propext, Classical.choice, Quot.sound |
| `SQ.C121_capacitors` | propext, Classical.choice, Quot.sound |
| `SQ.C121_constructed` | propext, Classical.choice, Quot.sound |
| `SQ.C121_example` | propext, Classical.choice, Quot.sound |
| `SQ.C122_dictionary_partial` | propext, Classical.choice, Quot.sound |
| `SQ.C122_no_update_partial` | propext, Classical.choice, Quot.sound |
| `SQ.C122_update_partial` | propext, Classical.choice, Quot.sound |
| `SQ.C122_refuted` | propext, Classical.choice, Quot.sound |
| `SQ.C122_example` | propext, Classical.choice, Quot.sound |
| `SQ.C123_unchanged_partial` | propext, Classical.choice, Quot.sound |
| `SQ.C123_orderly_partial` | propext, Classical.choice, Quot.sound |
| `SQ.C123_heals_partial` | propext, Classical.choice, Quot.sound |
| `SQ.C123_trunc_refuted` | propext, Classical.choice, Quot.sound |
| `SQ.C123_update_first` | propext, Classical.choice, Quot.sound |
| `SQ.C123_refuted` | propext, Classical.choice, Quot.sound |
| `SQ.C123_example` | propext, Classical.choice, Quot.sound |
| `SQ.C124_readers_partial` | propext, Classical.choice, Quot.sound |
| `SQ.C124_vectors_partial` | propext, Classical.choice, Quot.sound |
| `SQ.C124_one_way` | propext, Classical.choice, Quot.sound |
| `SQ.C124_session` | propext, Classical.choice, Quot.sound |
| `SQ.C124_vec` | propext, Classical.choice, Quot.sound |
| `SQ.C124_vec_refuted` | propext, Classical.choice, Quot.sound |
| `SQ.C124_vec_circuit` | propext, Classical.choice, Quot.sound |
| `SQ.C124_refuted` | propext, Classical.choice, Quot.sound |
| `SQ.C125_islands` | propext, Classical.choice, Quot.sound |
| `SQ.C125_constructed` | propext, Classical.choice, Quot.sound |
| `SQ.C125_fluxonium` | propext, Classical.choice, Quot.sound |
| `SQ.C125_fluxonium_constructed` | propext, Classical.choice, Quot.sound |
| `SQ.C125_example` | propext, Classical.choice, Quot.sound |
| `SQ.C126_elements` | propext, Classical.choice, Quot.sound |
| `SQ.C126_session` | propext, Classical.choice, Quot.sound |
| `SQ.C126_three` | propext, Classical.choice, Quot.sound |
| `SQ.C126_example` | propext, Classical.choice, Quot.sound |
| `SQ.C127_formula` | propext, Classical.choice, Quot.sound |
| `SQ.C127_islands` | propext, Classical.choice, Quot.sound |
| `SQ.C127_constructed` | propext, Classical.choice, Quot.sound |
| `SQ.C127_example` | propext, Classical.choice, Quot.sound |
| `SQ.C128_parts` | propext, Classical.choice, Quot.sound |
| `SQ.C128_session` | propext, Classical.choice, Quot.sound |
| `SQ.C128_constructed` | propext, Classical.choice, Quot.sound |
| `SQ.C128_example` | propext, Classical.choice, Quot.sound |
| `SQ.C129_network` | propext, Classical.choice, Quot.sound |
| `SQ.C129_shares` | propext, Classical.choice, Quot.sound |
| `SQ.C129_uniform` | propext, Classical.choice, Quot.sound |
| `SQ.C129_position` | propext, Classical.choice, Quot.sound |
| `SQ.C129_example` | propext, Classical.choice, Quot.sound |
| `SQ.C130_session` | propext, Classical.choice, Quot.sound |
| `SQ.C130_constructed` | propext, Classical.choice, Quot.sound |
| `SQ.C130_differential` | propext, Classical.choice, Quot.sound |
| `SQ.C130_series` | propext, Classical.choice, Quot.sound |
| `SQ.C130_series_constructed` | propext, Classical.choice, Quot.sound |
| `SQ.C130_example` | propext, Classical.choice, Quot.sound |
| `SQ.C131_at_most` | propext, Classical.choice, Quot.sound |
| `SQ.C131_all_modes` | propext, Classical.choice, Quot.sound |
| `SQ.C131_charge_modes` | propext, Classical.choice, Quot.sound |
| `SQ.C131_grounded` | propext, Classical.choice, Quot.sound |
| `SQ.C131_no_charge` | propext, Classical.choice, Quot.sound |
| `SQ.C131_example` | propext, Classical.choice, Quot.sound |
| `SQ.C131_fluxonium` | propext, Classical.choice, Quot.sound |
| `SQ.C132_hamiltonian` | propext, Classical.choice, Quot.sound |
| `SQ.C132_levels` | propext, Classical.choice, Quot.sound |
| `SQ.C132_patterns` | propext, Classical.choice, Quot.sound |
| `SQ.C132_zero_flux` | propext, Classical.choice, Quot.sound |
| `SQ.C132_example` | propext, Classical.choice, Quot.sound |
| `SQ.C133_slower` | propext, Classical.choice, Quot.sound |
| `SQ.C133_example` | propext, Classical.choice, Quot.sound |
| `SQ.C134_phases` | propext, Classical.choice, Quot.sound |
| `SQ.C134_frequencies` | propext, Classical.choice, Quot.sound |
| `SQ.C134_example` | propext, Classical.choice, Quot.sound |
| `SQ.C135_flux_dist` | propext, Classical.choice, Quot.sound |
| `SQ.C135_one_each` | propext, Classical.choice, Quot.sound |
| `SQ.C135_example` | propext, Classical.choice, Quot.sound |
| `SQ.C136_levels` | propext, Classical.choice, Quot.sound |
| `SQ.C136_session` | propext, Classical.choice, Quot.sound |
| `SQ.C136_example` | propext, Classical.choice, Quot.sound |
| `SQ.C137_levels` | propext, Classical.choice, Quot.sound |
| `SQ.C137_zero_flux` | propext, Classical.choice, Quot.sound |
| `SQ.C137_example` | propext, Classical.choice, Quot.sound |
| `SQ.C138_concave` | propext, Classical.choice, Quot.sound |
| `SQ.C138_example` | propext, Classical.choice, Quot.sound |
| `SQ.C139_follows` | propext, Classical.choice, Quot.sound |
| `SQ.C139_stale` | propext, Classical.choice, Quot.sound |
| `SQ.C139_value` | propext, Classical.choice, Quot.sound |
| `SQ.C139_modes` | propext, Classical.choice, Quot.sound |
| `SQ.C139_circuit` | propext, Classical.choice, Quot.sound |
| `SQ.C139_diagonalized` | propext, Classical.choice, Quot.sound |
| `SQ.C139_kept` | propext, Classical.choice, Quot.sound |
| `SQ.C139_example` | propext, Classical.choice, Quot.sound |
| `SQ.C140_left` | propext, Classical.choice, Quot.sound |
| `SQ.C140_file` | propext, Classical.choice, Quot.sound |
| `SQ.C140_returned` | propext, Classical.choice, Quot.sound |
| `SQ.C140_failed` | propext, Classical.choice, Quot.sound |
| `SQ.C140_circuit` | propext, Classical.choice, Quot.sound |
| `SQ.C140_grid_shared` | propext, Classical.choice, Quot.sound |
| `SQ.C140_works` | propext, Classical.choice, Quot.sound |
| `SQ.C140_example` | propext, Classical.choice, Quot.sound |
| `SQ.C141_solver` | propext, Classical.choice, Quot.sound |
| `SQ.C141_example` | propext, Classical.choice, Quot.sound |
| `SQ.C142_balance` | propext, Classical.choice, Quot.sound |
| `SQ.C142_nonneg` | propext, Classical.choice, Quot.sound |
| `SQ.C142_temperature` | propext, Classical.choice, Quot.sound |
| `SQ.C142_example` | propext, Classical.choice, Quot.sound |
| `SQ.C143_flux_reversal` | propext, Classical.choice, Quot.sound |
| `SQ.C143_example` | propext, Classical.choice, Quot.sound |
| `SQ.C144_default` | propext, Classical.choice, Quot.sound |
| `SQ.C144_unit` | propext, Classical.choice, Quot.sound |
| `SQ.C144_rejected` | propext, Classical.choice, Quot.sound |
| `SQ.C144_example` | propext, Classical.choice, Quot.sound |
