{
 "claims": [
  {
   "property": "C01",
   "status": "proved",
   "theorems": [
    "SQ.C01_engine_history",
    "SQ.C01_engine_accept",
    "SQ.C01_optim_never_fails"
   ],
   "note": ""
  },
  {
   "property": "C02",
   "status": "proved",
   "theorems": [
    "SQ.C02_units_history",
    "SQ.C02_unit_freq_accept",
    "SQ.C02_unit_cap_accept",
    "SQ.C02_unit_ind_accept",
    "SQ.C02_unit_JJ_accept"
   ],
   "note": ""
  },
  {
   "property": "C03",
   "status": "proved",
   "theorems": [
    "SQ.C03_env_history",
    "SQ.C03_env_reject",
    "SQ.C03_reset"
   ],
   "note": ""
  },
  {
   "property": "C04",
   "status": "proved",
   "theorems": [
    "SQ.C04_new",
    "SQ.C04_rejected",
    "SQ.C04_accepted",
    "SQ.C04_constructor",
    "SQ.C04_constructor_torch"
   ],
   "note": ""
  },
  {
   "property": "C05",
   "status": "proved",
   "theorems": [
    "SQ.C05_capacitor_roundtrip",
    "SQ.C05_capacitor_set",
    "SQ.C05_capacitor_get",
    "SQ.C05_capacitor_zero"
   ],
   "note": ""
  },
  {
   "property": "C06",
   "status": "proved",
   "theorems": [
    "SQ.C06_inductor_roundtrip",
    "SQ.C06_inductor_set",
    "SQ.C06_inductor_get"
   ],
   "note": ""
  },
  {
   "property": "C07",
   "status": "partial",
   "theorems": [
    "SQ.C07_junction_roundtrip_partial",
    "SQ.C07_junction_roundtrip_fails"
   ],
   "note": "The code violates the property: the value read back is 2*pi times the value set. The negation is proved for every non-zero value; the partial theorem gives the exact behaviour."
  },
  {
   "property": "C08",
   "status": "proved",
   "theorems": [
    "SQ.C08_units_rejected",
    "SQ.C08_units_accepted",
    "SQ.C08_none_unit_overwrites_error"
   ],
   "note": "Unit strings only; Python None slips through the check (third theorem)."
  },
  {
   "property": "C09",
   "status": "proved",
   "theorems": [
    "SQ.C09_fabrication_error",
    "SQ.C09_zero_error_deterministic"
   ],
   "note": ""
  },
  {
   "property": "C10",
   "status": "partial",
   "theorems": [
    "SQ.C10_loop_charge_setters_partial",
    "SQ.C10_loop_set_noise_disagrees"
   ],
   "note": "Everything except Loop.set_noise, which the code gets wrong by 2*pi (disproved)."
  },
  {
   "property": "C11",
   "status": "partial",
   "theorems": [
    "SQ.C11_refuted",
    "SQ.C11_rejected_partial"
   ],
   "note": "set_charge_noise calls a method that does not exist: refuted for every charge mode."
  },
  {
   "property": "C12",
   "status": "proved",
   "theorems": [
    "SQ.C12_edge",
    "SQ.C12_self_loop_unvalidated"
   ],
   "note": ""
  },
  {
   "property": "C13",
   "status": "proved",
   "theorems": [
    "SQ.C13_node_count_correct_or_rejected"
   ],
   "note": "IndexError part assumes no self-loop edge and no zero inductance (those raise other errors first)."
  },
  {
   "property": "C14",
   "status": "proved",
   "theorems": [
    "SQ.C14_energy_forms",
    "SQ.C14_psd"
   ],
   "note": ""
  },
  {
   "property": "C15",
   "status": "proved",
   "theorems": [
    "SQ.C15_order_independent"
   ],
   "note": ""
  },
  {
   "property": "C16",
   "status": "proved",
   "theorems": [
    "SQ.C16_cap_posdef"
   ],
   "note": ""
  },
  {
   "property": "C17",
   "status": "proved",
   "theorems": [
    "SQ.C17_null_space"
   ],
   "note": ""
  },
  {
   "property": "C18",
   "status": "proved",
   "theorems": [
    "SQ.C18_branch_numbering"
   ],
   "note": ""
  },
  {
   "property": "C19",
   "status": "proved",
   "theorems": [
    "SQ.C19_loop_membership",
    "SQ.C19_rebuild_idempotent"
   ],
   "note": ""
  },
  {
   "property": "C20",
   "status": "proved",
   "theorems": [
    "SQ.C20_sensitivity",
    "SQ.C20_sensitivity_numpy",
    "SQ.C20_sensitivity_is_derivative"
   ],
   "note": "In NumPy mode attached capacitors are not recorded (C20_sensitivity_numpy states the exact behaviour)."
  },
  {
   "property": "C21",
   "status": "proved",
   "theorems": [
    "SQ.C21_loop_vector",
    "SQ.C21_signs"
   ],
   "note": "numpy's SVD is a parameter constrained by SvdSpec (number of singular values above 1e-5 = rank)."
  },
  {
   "property": "C22",
   "status": "proved",
   "theorems": [
    "SQ.C22_flux_distribution",
    "SQ.flux_distribution_branches"
   ],
   "note": "Same SVD assumption; exact inversion."
  },
  {
   "property": "C23",
   "status": "proved",
   "theorems": [
    "SQ.C23_two_branch_loop",
    "SQ.C23_whole_flux",
    "SQ.C23_all_shares"
   ],
   "note": ""
  },
  {
   "property": "C24",
   "status": "partial",
   "theorems": [
    "SQ.C24_partial",
    "SQ.C24_dependent_columns_kept",
    "SQ.C24_renumbering_breaks_construction"
   ],
   "note": "The property is false for the code: the first rank(M) non-zero columns are kept, independent or not. Negation proved, with the consequence that construction of a circuit with a floating loop depends on node numbering."
  },
  {
   "property": "C25",
   "status": "proved",
   "theorems": [
    "SQ.C25_external_flux_linear"
   ],
   "note": ""
  },
  {
   "property": "C26",
   "status": "proved",
   "theorems": [
    "SQ.C26_canonical_sequences",
    "SQ.C26_canonical_construction"
   ],
   "note": "sqrtm, svd and eig are parameters constrained by LibSpec (a library meeting it exists: exists_lib); exact real arithmetic."
  },
  {
   "property": "C27",
   "status": "proved",
   "theorems": [
    "SQ.C27_first_transformation",
    "SQ.C27_first_transformation_any_spectrum"
   ],
   "note": "Same assumptions; the first theorem assumes no non-zero eigenvalue of L below 1e-11 of the largest."
  },
  {
   "property": "C28",
   "status": "proved",
   "theorems": [
    "SQ.C28_charge_couplings",
    "SQ.C28_rounding"
   ],
   "note": "Whenever construction returns."
  },
  {
   "property": "C29",
   "status": "proved",
   "theorems": [
    "SQ.C29_gram_schmidt"
   ],
   "note": ""
  },
  {
   "property": "C30",
   "status": "partial",
   "theorems": [
    "SQ.C30_returns_partial",
    "SQ.C30_circuit_returns_partial",
    "SQ.C30_nontermination",
    "SQ.C30_hanging_circuit"
   ],
   "note": "The property is false for the code: a valid circuit is exhibited for which construction never returns whatever is drawn. Termination without retry is proved for circuits whose row selection is faithful, without charge modes, or with an inductor across every junction."
  },
  {
   "property": "C31",
   "status": "proved",
   "theorems": [
    "SQ.C31_third_transformation"
   ],
   "note": ""
  },
  {
   "property": "C32",
   "status": "proved",
   "theorems": [
    "SQ.C32_uncoupled_removal"
   ],
   "note": ""
  },
  {
   "property": "C33",
   "status": "partial",
   "theorems": [
    "SQ.C33_coefficients_partial",
    "SQ.C33_aligned_cases",
    "SQ.C33_alignment_iff",
    "SQ.C33_refuted"
   ],
   "note": "False in general: after removal of uncoupled modes (NumPy) the columns of S and R are not realigned. Proved: holds exactly when the retained modes come first; counterexample circuit."
  },
  {
   "property": "C34",
   "status": "partial",
   "theorems": [
    "SQ.C34_charge_mode_patterns",
    "SQ.C34_placeholder_partial",
    "SQ.C34_refuted"
   ],
   "note": "The vanishing of flux differences across inductors is proved for all circuits; that the placeholder does not enter the Hamiltonian is proved for aligned modes and refuted for a circuit with a removed harmonic mode."
  },
  {
   "property": "C35",
   "status": "proved",
   "theorems": [
    "SQ.C35_orientation",
    "SQ.C35_unknown_type"
   ],
   "note": ""
  },
  {
   "property": "C36",
   "status": "partial",
   "theorems": [
    "SQ.C36_update_partial",
    "SQ.C36_removed",
    "SQ.C36_untruncated",
    "SQ.C36_refuted"
   ],
   "note": "violated where construction removed modes or before truncation numbers are set"
  },
  {
   "property": "C37",
   "status": "proved",
   "theorems": [
    "SQ.C37_displacement",
    "SQ.C37_circuit",
    "SQ.C37_constructed"
   ],
   "note": ""
  },
  {
   "property": "C38",
   "status": "proved",
   "theorems": [
    "SQ.C38_products",
    "SQ.C38_local"
   ],
   "note": ""
  },
  {
   "property": "C39",
   "status": "proved",
   "theorems": [
    "SQ.C39_lc_hamiltonian",
    "SQ.C39_quadratic_form",
    "SQ.C39_quadratic_phi"
   ],
   "note": ""
  },
  {
   "property": "C40",
   "status": "proved",
   "theorems": [
    "SQ.C40_hermitian",
    "SQ.C40_circuit"
   ],
   "note": "QuTiP's displace is the exact matrix exponential of the truncated generator."
  },
  {
   "property": "C41",
   "status": "proved",
   "theorems": [
    "SQ.C41_periodicity"
   ],
   "note": ""
  },
  {
   "property": "C42",
   "status": "proved",
   "theorems": [
    "SQ.C42_roundtrip",
    "SQ.C42_rejected",
    "SQ.C42_constructed"
   ],
   "note": ""
  },
  {
   "property": "C43",
   "status": "proved",
   "theorems": [
    "SQ.C43_budget"
   ],
   "note": "exact real K**(1/n) instead of floating point"
  },
  {
   "property": "C44",
   "status": "proved",
   "theorems": [
    "SQ.C44_bijection",
    "SQ.C44_kronecker",
    "SQ.C44_tens"
   ],
   "note": ""
  },
  {
   "property": "C45",
   "status": "proved",
   "theorems": [
    "SQ.C45_sorted",
    "SQ.C45_diag",
    "SQ.C45_eigenpairs",
    "SQ.C45_lowest"
   ],
   "note": "the eigensolver is external: for C45_lowest it is assumed to return normalised eigenvectors for the num lowest eigenvalues in any order (EigsLowest, num + 1 < dimension as scipy requires); argsort assumed to sort by real, then imaginary part"
  },
  {
   "property": "C46",
   "status": "proved",
   "theorems": [
    "SQ.C46_unit"
   ],
   "note": ""
  },
  {
   "property": "C47",
   "status": "proved",
   "theorems": [
    "SQ.C47_needs_truncation",
    "SQ.C47_needs_diag",
    "SQ.C47_guard_iff"
   ],
   "note": ""
  },
  {
   "property": "C48",
   "status": "proved",
   "theorems": [
    "SQ.C48_coherence",
    "SQ.C48_circuit"
   ],
   "note": ""
  },
  {
   "property": "C49",
   "status": "partial",
   "theorems": [
    "SQ.C49_fresh_partial",
    "SQ.C49_update_clears_partial",
    "SQ.C49_stale",
    "SQ.C49_refuted"
   ],
   "note": "violated: stored eigenpairs outlive changes of charge offset, flux, truncation and element values; proved for unchanged circuits and after update"
  },
  {
   "property": "C50",
   "status": "proved",
   "theorems": [
    "SQ.C50_listings",
    "SQ.C50_listings_example",
    "SQ.C50_parameters",
    "SQ.C50_parameters_numpy"
   ],
   "note": ""
  },
  {
   "property": "C51",
   "status": "partial",
   "theorems": [
    "SQ.C51_assign",
    "SQ.C51_short",
    "SQ.C51_refuted",
    "SQ.C51_empty_partial",
    "SQ.C51_long",
    "SQ.C51_dropped"
   ],
   "note": "violated for too short lists: ValueError, but leading elements already changed. Proved: same-length assignment, what short and long lists do; only the empty list leaves everything unchanged."
  },
  {
   "property": "C52",
   "status": "partial",
   "theorems": [
    "SQ.C52_values",
    "SQ.C52_independent",
    "SQ.C52_fails",
    "SQ.C52_refuted",
    "SQ.C52_succeeds_partial",
    "SQ.C52_sharing",
    "SQ.C52_sharing_partial",
    "SQ.C52_sharing_refuted"
   ],
   "note": "violated: KeyError when a tracked parameter is an attached capacitor; elements placed on several edges become separate objects. Proved: equal view and independence of every copy, success without such capacitors, one-to-one renaming when each element is placed once."
  },
  {
   "property": "C53",
   "status": "proved",
   "theorems": [
    "SQ.C53_full",
    "SQ.C53_picklecopy",
    "SQ.C53_update",
    "SQ.C53_needs_update"
   ],
   "note": "the serializer itself (dill) is assumed to return the state it was given"
  },
  {
   "property": "C54",
   "status": "proved",
   "theorems": [
    "SQ.C54_factors",
    "SQ.C54_threshold",
    "SQ.C54_degenerate",
    "SQ.C54_rates"
   ],
   "note": "at equal frequencies (alpha = 0) the factors are infinite"
  },
  {
   "property": "C55",
   "status": "proved",
   "theorems": [
    "SQ.C55_symmetric",
    "SQ.C55_nonneg",
    "SQ.C55_directions",
    "SQ.C55_dephasing_total",
    "SQ.C55_unknown",
    "SQ.C55_not_diagonalized"
   ],
   "note": "for distinct state indices; NaN quality factors skip the term"
  },
  {
   "property": "C56",
   "status": "partial",
   "theorems": [
    "SQ.C56_half_angle_partial",
    "SQ.C56_charge_modes",
    "SQ.C56_refuted"
   ],
   "note": "violated: the charge-mode part is replaced by the identity; transmons have zero quasiparticle rate. Proved for junctions without charge-mode part."
  },
  {
   "property": "C57",
   "status": "proved",
   "theorems": [
    "SQ.C57_flux",
    "SQ.C57_junction",
    "SQ.C57_circuit"
   ],
   "note": "entrywise derivative of the model's Hamiltonian; other elements and the coordinate transformation held fixed"
  },
  {
   "property": "C58",
   "status": "partial",
   "theorems": [
    "SQ.C58_capacitor",
    "SQ.C58_inductor",
    "SQ.C58_constructed",
    "SQ.C58_charging_energy_partial",
    "SQ.C58_inductive_energy_partial",
    "SQ.C58_refuted"
   ],
   "note": "the coefficient matrices are exact; after removal of uncoupled modes (NumPy) the head block used is misaligned: refuted by a concrete circuit"
  },
  {
   "property": "C59",
   "status": "proved",
   "theorems": [
    "SQ.C59_derivative",
    "SQ.C59_subtracted",
    "SQ.C59_pair",
    "SQ.C59_circuit_flux"
   ],
   "note": ""
  },
  {
   "property": "C60",
   "status": "proved",
   "theorems": [
    "SQ.C60_orthogonal",
    "SQ.C60_perturbation",
    "SQ.C60_is_derivative",
    "SQ.C60_negative_index"
   ],
   "note": "C60_negative_index: with a negative state index the vector is not excluded from the sum"
  },
  {
   "property": "C61",
   "status": "partial",
   "theorems": [
    "SQ.C61_flux_junction",
    "SQ.C61_flux_inductor",
    "SQ.C61_flux_loop",
    "SQ.C61_flux_capacitor",
    "SQ.C61_critical_current",
    "SQ.C61_circuit",
    "SQ.C61_charge_capacitor_partial",
    "SQ.C61_charge_others",
    "SQ.C61_charge_refuted",
    "SQ.C61_second_derivative"
   ],
   "note": "Flux and critical-current sensitivities have the exact second derivatives, for the model functions and for constructed circuits. The charge-channel operator leaves out the second transformation R: refuted in transformed coordinates of two series junctions, proved when R is the identity on the mode."
  },
  {
   "property": "C62",
   "status": "proved",
   "theorems": [
    "SQ.C62_rate",
    "SQ.C62_kink",
    "SQ.C62_flux",
    "SQ.C62_critical_current",
    "SQ.C62_charge_partial",
    "SQ.C62_circuit_loop"
   ],
   "note": "The gradient of one dephasing channel, including the kink at zero sensitivity, then of the flux, critical-current and charge sums. The charge theorem assumes the second derivative is the true one (see C61)."
  },
  {
   "property": "C63",
   "status": "proved",
   "theorems": [
    "SQ.C63_conjugate",
    "SQ.C63_diagonal",
    "SQ.C63_exists"
   ],
   "note": ""
  },
  {
   "property": "C64",
   "status": "partial",
   "theorems": [
    "SQ.C64_modes",
    "SQ.C64_nodes_partial",
    "SQ.C64_nodes_refuted"
   ],
   "note": "violated on nodes of circuits whose uncoupled modes were removed (offsets count modes, not nodes). Proved on modes, and on nodes when no modes were removed."
  },
  {
   "property": "C65",
   "status": "proved",
   "theorems": [
    "SQ.C65_circuits",
    "SQ.C65_truncations"
   ],
   "note": ""
  },
  {
   "property": "C66",
   "status": "partial",
   "theorems": [
    "SQ.C66_symmetric",
    "SQ.C66_form_partial",
    "SQ.C66_uncoupled",
    "SQ.C66_no_interaction",
    "SQ.C66_form_refuted",
    "SQ.C66_ground_refuted"
   ],
   "note": "violated when a circuit lost modes and for couplings to ground. Proved: symmetry always; the quadratic form when no modes were removed and both ends are nodes; block-diagonal and zero interaction without capacitive couplings."
  },
  {
   "property": "C67",
   "status": "proved",
   "theorems": [
    "SQ.C67_embedding",
    "SQ.C67_product",
    "SQ.C67_commute",
    "SQ.C67_kron"
   ],
   "note": ""
  },
  {
   "property": "C68",
   "status": "partial",
   "theorems": [
    "SQ.C68_deviation",
    "SQ.C68_partial",
    "SQ.C68_single_mode",
    "SQ.C68_complete_basis",
    "SQ.C68_build_ok",
    "SQ.C68_quadratic_partial",
    "SQ.C68_refuted"
   ],
   "note": "violated: non-Hermitian for a circuit with two modes and truncated eigenbasis. Proved: exact deviation; Hermitian (and equal to the full quadratic form) when the projected charge operators of each circuit commute, in particular for one mode per circuit or a complete eigenbasis."
  },
  {
   "property": "C69",
   "status": "partial",
   "theorems": [
    "SQ.C69_flux_partial",
    "SQ.C69_charge_partial",
    "SQ.C69_circuit_flux_partial",
    "SQ.C69_circuit_charge_partial",
    "SQ.C69_refuted",
    "SQ.C69_no_parameters"
   ],
   "note": "violated for grids of two or more dimensions: the sweep raises ValueError whatever the circuit. Proved for all one-dimensional flux and charge sweeps, also on actual circuits."
  },
  {
   "property": "C70",
   "status": "partial",
   "theorems": [
    "SQ.C70_deviation",
    "SQ.C70_partial",
    "SQ.C70_refuted",
    "SQ.C70_circuit_deviation",
    "SQ.C70_circuit_partial",
    "SQ.C70_islands_refuted"
   ],
   "note": "violated: the cross terms of charge modes i<j are printed with n_{i+1} twice; exact difference proved, equality when charge modes are not coupled capacitively; refuted for every constructed island circuit with coupled edges"
  },
  {
   "property": "C71",
   "status": "partial",
   "theorems": [
    "SQ.C71_weight",
    "SQ.C71_partial",
    "SQ.C71_guard",
    "SQ.C71_refuted",
    "SQ.C71_small_mode"
   ],
   "note": "violated at t = 0, where the value is 1 instead of 0; everything else proved for all vectors and dimensions"
  },
  {
   "property": "C72",
   "status": "proved",
   "theorems": [
    "SQ.C72_rows",
    "SQ.C72_text",
    "SQ.C72_no_loops"
   ],
   "note": "Rows of the loop table and their text positions; a circuit without loops raises ValueError (outside the claim's circuits with loops)."
  },
  {
   "property": "C73",
   "status": "proved",
   "theorems": [
    "SQ.C73_log_sinh",
    "SQ.C73_maximum",
    "SQ.C73_log_k0",
    "SQ.C73_k0e_backward",
    "SQ.C73_log_k0_backward",
    "SQ.C73_q_ind",
    "SQ.C73_q_cap",
    "SQ.C73_default_admittance",
    "SQ.C73_positive"
   ],
   "note": "Bessel functions as their integral representation"
  },
  {
   "property": "C74",
   "status": "proved",
   "theorems": [
    "SQ.C74_modulus",
    "SQ.C74_charge_modes"
   ],
   "note": "C74_modulus also covers circuits with harmonic modes of at most 250 levels"
  },
  {
   "property": "C75",
   "status": "proved",
   "theorems": [
    "SQ.C75_zero_grad",
    "SQ.C75_parameters_grad",
    "SQ.C75_after_zero_grad"
   ],
   "note": ""
  },
  {
   "property": "C76",
   "status": "partial",
   "theorems": [
    "SQ.C76_inner_partial",
    "SQ.C76_normalised_partial",
    "SQ.C76_constructed_partial",
    "SQ.C76_refuted"
   ],
   "note": "violated from the 250th level of a harmonic mode on (asymptotic formula is odd, vanishes at 0 for even levels). Proved for at most 250 levels per harmonic mode and any charge modes."
  },
  {
   "property": "C77",
   "status": "proved",
   "theorems": [
    "SQ.C77_flux",
    "SQ.C77_charge",
    "SQ.C77_energy",
    "SQ.C77_charge_mode",
    "SQ.C77_exponential"
   ],
   "note": "harmonic levels below 250 (see C76) and below the truncation edge"
  },
  {
   "property": "C78",
   "status": "proved",
   "theorems": [
    "SQ.C78_modes",
    "SQ.C78_lc_hamiltonian",
    "SQ.C78_circuit"
   ],
   "note": ""
  },
  {
   "property": "C79",
   "status": "partial",
   "theorems": [
    "SQ.C79_lines",
    "SQ.C79_partial",
    "SQ.C79_refuted"
   ],
   "note": "Layout for all dictionaries; capacitor and inductor numbers are SI values. Junction lines print 2*pi*E_J/h labelled Hz (C79_refuted)."
  },
  {
   "property": "C80",
   "status": "proved",
   "theorems": [
    "SQ.C80_fluxonium",
    "SQ.C80_session"
   ],
   "note": "Full pipeline from element values to the Hamiltonian, and after every orderly history."
  },
  {
   "property": "C81",
   "status": "proved",
   "theorems": [
    "SQ.C81_flux",
    "SQ.C81_value",
    "SQ.C81_charge",
    "SQ.C81_fluxonium"
   ],
   "note": ""
  },
  {
   "property": "C82",
   "status": "partial",
   "theorems": [
    "SQ.C82_original",
    "SQ.C82_eig",
    "SQ.C82_guards_partial",
    "SQ.C82_refuted"
   ],
   "note": "Operators, eigenbasis and guards proved for every orderly history; violated: mode number 0 is accepted and gives the last mode, and charge_op(i,'eig') before diag raises ValueError or AttributeError instead of CircuitStateError."
  },
  {
   "property": "C83",
   "status": "proved",
   "theorems": [
    "SQ.C83_transform",
    "SQ.C83_guard"
   ],
   "note": "Rows of removed modes are still present in the returned matrices (the theorem names the retained rows)."
  },
  {
   "property": "C84",
   "status": "partial",
   "theorems": [
    "SQ.C84_pytorch",
    "SQ.C84_partial",
    "SQ.C84_numpy_stale",
    "SQ.C84_refuted"
   ],
   "note": "PyTorch: always; NumPy: only right after hamiltonian(). C84_refuted: a set_flux is not seen until the next hamiltonian()."
  },
  {
   "property": "C85",
   "status": "proved",
   "theorems": [
    "SQ.C85_frequencies",
    "SQ.C85_backward",
    "SQ.C85_epsilon",
    "SQ.C85_circuit",
    "SQ.C85_truncated"
   ],
   "note": "With get_partial_vec's epsilon = 0 for losses of the states (limit: C85_epsilon); C85_truncated shows that computing fewer states than the dimension gives a wrong gradient for losses of the states."
  },
  {
   "property": "C86",
   "status": "partial",
   "theorems": [
    "SQ.C86_shapes_partial",
    "SQ.C86_refuted"
   ],
   "note": "violated for n_eig = 1: torch.squeeze drops the axis and torch.cat fails."
  },
  {
   "property": "C87",
   "status": "partial",
   "theorems": [
    "SQ.C87_set",
    "SQ.C87_partial",
    "SQ.C87_dropped",
    "SQ.C87_refuted"
   ],
   "note": "Violated: the new tensor does not require gradients, so the component drops out of the parameters at the next update; all other parameters stay (C87_partial). Before the update parameters still holds the old tensor (C87_set)."
  },
  {
   "property": "C89",
   "status": "proved",
   "theorems": [
    "SQ.C89_projection"
   ],
   "note": "epsilon = 0 (the code's default is 1e-12); the exact derivative is the one of the eigenvector with suitably chosen phases"
  },
  {
   "property": "C90",
   "status": "proved",
   "theorems": [
    "SQ.C90_junction_element",
    "SQ.C90_level",
    "SQ.C90_transition",
    "SQ.C90_flux_session",
    "SQ.C90_junction_session",
    "SQ.C90_example"
   ],
   "note": "for sessions: all but the last frequency returned, EigsLowest as in C45; capacitors and inductors need an update and have C58"
  },
  {
   "property": "C88",
   "status": "proved",
   "theorems": [
    "SQ.C88_flux",
    "SQ.C88_charge",
    "SQ.C88_critical_current",
    "SQ.C88_example",
    "SQ.C88_charge_example"
   ],
   "note": "levels p, q not degenerate; the stored eigenvectors are those of the current Hamiltonian (C45, C46)"
  },
  {
   "property": "C91",
   "status": "proved",
   "theorems": [
    "SQ.C91_capacitive",
    "SQ.C91_inductive",
    "SQ.C91_quasiparticle",
    "SQ.C91_example"
   ],
   "note": "beyond 709 k_B T the code replaces the Bose factor by its limit (C54)"
  },
  {
   "property": "C92",
   "status": "proved",
   "theorems": [
    "SQ.C92_parallel",
    "SQ.C92_transmon",
    "SQ.C92_squid",
    "SQ.C92_symmetric_squid",
    "SQ.C92_session",
    "SQ.C92_squid_session",
    "SQ.C92_example"
   ],
   "note": "total capacitance below 1e29 farad (the Gram-Schmidt step compares couplings with a fixed threshold); loops of three or more junctions: the Hamiltonian is proved, given that the flux distribution exists"
  },
  {
   "property": "C93",
   "status": "proved",
   "theorems": [
    "SQ.C93_islands",
    "SQ.C93_constructed",
    "SQ.C93_session",
    "SQ.C93_two_transmons",
    "SQ.C93_example"
   ],
   "note": "junction edges that are not numerically dependent at the code's threshold 1e-6 (WellConditioned; explicit bounds for two islands); under PyTorch uncoupled modes are kept, so the number of nodes has to equal that of junction edges"
  },
  {
   "property": "C94",
   "status": "proved",
   "theorems": [
    "SQ.C94_flux_reversal",
    "SQ.C94_example"
   ],
   "note": "EigsLowest as in C45"
  },
  {
   "property": "C95",
   "status": "proved",
   "theorems": [
    "SQ.C95_charge_reversal",
    "SQ.C95_example"
   ],
   "note": "EigsLowest as in C45"
  },
  {
   "property": "C96",
   "status": "proved",
   "theorems": [
    "SQ.C96_flux_sweet_spot",
    "SQ.C96_charge_sweet_spot",
    "SQ.C96_transmon",
    "SQ.C96_example"
   ],
   "note": "levels p, q not degenerate (always so for a transmon: C97)"
  },
  {
   "property": "C97",
   "status": "proved",
   "theorems": [
    "SQ.C97_transmon",
    "SQ.C97_squid",
    "SQ.C97_example"
   ],
   "note": ""
  },
  {
   "property": "C98",
   "status": "proved",
   "theorems": [
    "SQ.C98_more_charge_states",
    "SQ.C98_convergence",
    "SQ.C98_example"
   ],
   "note": "EigsLowest as in C45; C98_convergence for circuits with positive element values and histories without update"
  },
  {
   "property": "C99",
   "status": "proved",
   "theorems": [
    "SQ.C99_layout",
    "SQ.C99_negative",
    "SQ.C99_errors",
    "SQ.C99_example"
   ],
   "note": "at least one mode"
  },
  {
   "property": "C100",
   "status": "proved",
   "theorems": [
    "SQ.C100_linear",
    "SQ.C100_accepted",
    "SQ.C100_resonator",
    "SQ.C100_example"
   ],
   "note": "EigsLowest as in C45; element values unchanged since the last build; C100_accepted for elements outside loops"
  },
  {
   "property": "C101",
   "status": "proved",
   "theorems": [
    "SQ.C101_renumbering",
    "SQ.C101_example"
   ],
   "note": "EigsLowest as in C45; networks without free islands"
  },
  {
   "property": "C102",
   "status": "proved",
   "theorems": [
    "SQ.C102_bracket",
    "SQ.C102_periodic",
    "SQ.C102_example"
   ],
   "note": "EigsLowest as in C45; C102_periodic for circuits meeting GoodCircuit and histories without update()"
  },
  {
   "property": "C103",
   "status": "proved",
   "theorems": [
    "SQ.C103_energies",
    "SQ.C103_fluxes",
    "SQ.C103_example"
   ],
   "note": "The flux bound is stated for circuits in which the flux distribution leaves no external flux on inductors (for others the inductive term changes with an operator that grows with the truncation)."
  },
  {
   "property": "C104",
   "status": "proved",
   "theorems": [
    "SQ.C104_gradient",
    "SQ.C104_frequencies",
    "SQ.C104_example"
   ],
   "note": "C104_gradient: any circuit whose two constructions succeed. C104_frequencies: any two sessions on the two circuits that reach the same values, fluxes, offsets, truncation numbers and unit, without update(). With inductors the statement is C104_gradient only: displacing an oscillator does not preserve a truncated Fock space, so frequencies agree only in the limit of large truncation numbers."
  },
  {
   "property": "C105",
   "status": "proved",
   "theorems": [
    "SQ.C105_periodic",
    "SQ.C105_symmetric",
    "SQ.C105_example"
   ],
   "note": "Sessions without update(). C105_symmetric combines C105_periodic with C94."
  },
  {
   "property": "C106",
   "status": "proved",
   "theorems": [
    "SQ.C106_flux",
    "SQ.C106_critical_current",
    "SQ.C106_charge",
    "SQ.C106_epsilon",
    "SQ.C106_example_flux",
    "SQ.C106_example_cc",
    "SQ.C106_example_charge"
   ],
   "note": "Real arithmetic: the float32 zeros that backward starts from are not modelled. Derivatives with respect to inductances and capacitances are not covered (see C61 for charge noise, where the code is wrong)."
  },
  {
   "property": "C107",
   "status": "proved",
   "theorems": [
    "SQ.C107_merged",
    "SQ.C107_complete",
    "SQ.C107_uncoupled",
    "SQ.C107_example"
   ],
   "note": "Circuits with as many junction edges as nodes, without inductors and flux loops. The eigenbases must be complete: with truncated eigenbases the Hamiltonian of the system need not even be Hermitian (C68_refuted). Coupling capacitors are passed with positive values; couplings by inductors or junctions are ignored by the code (C66)."
  },
  {
   "property": "C108",
   "status": "proved",
   "theorems": [
    "SQ.C108_capacitors",
    "SQ.C108_observed",
    "SQ.C108_parallel",
    "SQ.C108_split_capacitor",
    "SQ.C108_merge_junctions",
    "SQ.C108_example"
   ],
   "note": "The parameter dictionary and the derivative matrices kept for PyTorch list elements one by one and differ, of course; they are not part of the comparison. Decay rates depend on the quality factors of the single elements and are not compared either. With flux_dist='all' the attached capacitances decide how the flux is shared, so they must agree one by one."
  },
  {
   "property": "C109",
   "status": "proved",
   "theorems": [
    "SQ.C109_convert",
    "SQ.C109_inner",
    "SQ.C109_dag",
    "SQ.C109_example"
   ],
   "note": "Two-dimensional NumPy arrays are rejected by dag with ValueError (part of C109_dag). Library products and transposes are those of the represented matrices; which layouts torch.sparse.mm accepts is not modelled."
  },
  {
   "property": "C110",
   "status": "partial",
   "theorems": [
    "SQ.C110_product_partial",
    "SQ.C110_tensor_qobj",
    "SQ.C110_refuted"
   ],
   "note": "False for a tensor times a QuTiP object: the code returns the transpose of the product in the other order, (B A)^T, which is A B only for special arguments (C110_tensor_qobj, C110_refuted). Proved for all other supported combinations (C110_product_partial)."
  },
  {
   "property": "C111",
   "status": "partial",
   "theorems": [
    "SQ.C111_islands_partial",
    "SQ.C111_constructed_partial",
    "SQ.C111_held_partial",
    "SQ.C111_one_loop_partial",
    "SQ.C111_example",
    "SQ.C111_refuted"
   ],
   "note": "Proved for circuits of junctions and capacitors without flux loops, for any two sessions (C111_islands_partial, with the correspondence of modes: the identity if the charging energies of the edges differ) and for fresh circuits (C111_constructed_partial); node renumbering for linear circuits is part of C101. False with several loops: a loop takes its sign from the element listed first, so listing the elements in another order reverses one loop relative to another and changes the frequencies (C111_refuted, three parallel junctions). Circuits with inductors and junctions are covered when inductors hold every node, at zero flux (C111_held_partial; concrete case in C132_example) and at any flux of one loop (C111_one_loop_partial; concrete case in C134_example). With several loops the fluxes have to be multiplied by one sign per loop (C134). Not covered are other circuits with both inductors and junctions."
  },
  {
   "property": "C112",
   "status": "proved",
   "theorems": [
    "SQ.C112_flux",
    "SQ.C112_charge",
    "SQ.C112_session",
    "SQ.C112_defined",
    "SQ.C112_circuit_flux",
    "SQ.C112_circuit_charge",
    "SQ.C112_one_state",
    "SQ.C112_example"
   ],
   "note": "For any reader of rates (C112_flux, C112_charge) and for dec_rate of circuit objects (C112_circuit_flux, C112_circuit_charge). Grids of two or more dimensions raise ValueError (C69)."
  },
  {
   "property": "C113",
   "status": "proved",
   "theorems": [
    "SQ.C113_flux",
    "SQ.C113_critical_current",
    "SQ.C113_charge",
    "SQ.C113_example"
   ],
   "note": "Critical-current noise needs every junction object to be placed once: an object placed on two branches is counted per branch by the code. The levels are compared with the next computed one, so p and q lie below the last computed level."
  },
  {
   "property": "C114",
   "status": "proved",
   "theorems": [
    "SQ.C114_resonator",
    "SQ.C114_selection",
    "SQ.C114_example"
   ],
   "note": "h f/kT > 709 is the branch in which the code replaces the thermal factor (C88). Rates are those of a circuit object after any orderly history (setters of values followed by update())."
  },
  {
   "property": "C115",
   "status": "partial",
   "theorems": [
    "SQ.C115_slope_partial",
    "SQ.C115_absolute",
    "SQ.C115_example",
    "SQ.C115_refuted",
    "SQ.C115_attached_refuted"
   ],
   "note": "Refuted in two points. (1) Without subtract_ground the result contains the derivative of the zero-point energy, which diag does not report: the gradient of the ground frequency is not zero and that of level 1 is 3/2 of the slope (C115_refuted; C115_absolute gives the exact excess for all resonators). (2) Under NumPy a capacitor attached to an inductor is missing from the recorded sensitivities (C115_attached_refuted). Transition frequencies are proved in all other cases (C115_slope_partial)."
  },
  {
   "property": "C116",
   "status": "partial",
   "theorems": [
    "SQ.C116_slope_partial",
    "SQ.C116_transmon",
    "SQ.C116_example",
    "SQ.C116_attached_refuted"
   ],
   "note": "Refuted for a capacitor attached to a junction under NumPy: it is not recorded, so get_partial_omega returns 0 although the frequencies depend on it (C116_attached_refuted). Proved under PyTorch for all capacitors and under NumPy for capacitors attached to nothing, with distinct diagonal entries of the inverse capacitance matrix between junctions (else the order of modes can change with x) (C116_slope_partial); for a single transmon without any condition on the spectrum (C116_transmon)."
  },
  {
   "property": "C117",
   "status": "partial",
   "theorems": [
    "SQ.C117_errors",
    "SQ.C117_agree_partial",
    "SQ.C117_uncoupled",
    "SQ.C117_islands",
    "SQ.C117_refuted"
   ],
   "note": "Refuted: uncoupled modes (modes no junction touches, in a circuit with junctions) are removed under NumPy only, so the number of modes differs and any list of truncation numbers one engine accepts the other rejects with ValueError (C117_uncoupled for all such circuits and histories, C117_refuted for a concrete one). Proved in all other cases (C117_agree_partial), in particular for every circuit of junctions and capacitors whose junctions form a tree (C117_islands); exceptions at construction always agree (C117_errors). Records for gradients (partial_mats, parameters) do differ between the engines (C20, C50) and floating-point types are not modelled."
  },
  {
   "property": "C118",
   "status": "proved",
   "theorems": [
    "SQ.C118_cosines",
    "SQ.C118_inductive",
    "SQ.C118_terms",
    "SQ.C118_listing",
    "SQ.C118_circuit",
    "SQ.C118_names",
    "SQ.C118_names_limit",
    "SQ.C118_example"
   ],
   "note": "C118_listing holds for any matrices, keys, values and offsets with harmonic modes first, nonzero inductances and an offset for every charge mode; C118_circuit derives these for constructed circuits. Beyond 110 modes names collide: EC_1111 is printed for modes (1, 111) and (11, 11) (C118_names_limit). Rounding half to even of exact reals is modelled; the layout of the text is not."
  },
  {
   "property": "C119",
   "status": "proved",
   "theorems": [
    "SQ.C119_islands",
    "SQ.C119_constructed",
    "SQ.C119_example"
   ],
   "note": "Both dictionaries are assumed to be island circuits (C93): independent junction edges, as many as nodes. Offset charges of corresponding modes agree up to the sign of the direction of the edge."
  },
  {
   "property": "C120",
   "status": "proved",
   "theorems": [
    "SQ.C120_isolated",
    "SQ.C120_alone",
    "SQ.C120_example"
   ],
   "note": "C120_alone reduces a program with several circuits to the model of one circuit, so all session theorems apply to each of them. The engine is fixed during the program. The dictionaries of elements are not changed during the program."
  },
  {
   "property": "C121",
   "status": "proved",
   "theorems": [
    "SQ.C121_capacitors",
    "SQ.C121_constructed",
    "SQ.C121_example"
   ],
   "note": "diag() returns absolute frequencies, so the claim is about levels, not transitions. Both dictionaries are island circuits (C93) and list the junction edges in the same order. When the order of the charging energies changes, the modes of the two circuits correspond through a permutation."
  },
  {
   "property": "C122",
   "status": "partial",
   "theorems": [
    "SQ.C122_dictionary_partial",
    "SQ.C122_no_update_partial",
    "SQ.C122_update_partial",
    "SQ.C122_refuted",
    "SQ.C122_example"
   ],
   "note": "The full property is false of the code: the constructor copies the dictionary but keeps the caller's list objects (C122_refuted: dec_rate sees an appended capacitor at once, the Hamiltonian after update()). Proved: assignments to the caller's dictionary and changes of other lists never reach the circuit; without update() no change reaches the Hamiltonian or the eigenpairs; update() turns the circuit into the one described by the present lists."
  },
  {
   "property": "C123",
   "status": "partial",
   "theorems": [
    "SQ.C123_unchanged_partial",
    "SQ.C123_orderly_partial",
    "SQ.C123_heals_partial",
    "SQ.C123_trunc_refuted",
    "SQ.C123_update_first",
    "SQ.C123_refuted",
    "SQ.C123_example"
   ],
   "note": "The full property is false of the code. set_trunc_nums with a number below 1 raises but leaves the rejected numbers in place (C123_trunc_refuted, for every circuit). update() raises before truncation numbers are set (C123_update_first), and when the capacitance matrix is singular it raises after R and S were replaced by identity matrices, so that coord_transform is wrong even after the values are restored (C123_refuted). Proved: in all histories whose set_trunc_nums calls give numbers from 1 on and whose updates succeed, every call of another kind that raises leaves everything unchanged (diag may have refreshed the stored junction operators); such histories are the orderly ones of the other theorems; the next successful set_trunc_nums or update gives the state it would have given without the failed one. Exceptions inside the coordinate transformations are not followed in detail."
  },
  {
   "property": "C124",
   "status": "partial",
   "theorems": [
    "SQ.C124_readers_partial",
    "SQ.C124_vectors_partial",
    "SQ.C124_one_way",
    "SQ.C124_session",
    "SQ.C124_vec",
    "SQ.C124_vec_refuted",
    "SQ.C124_vec_circuit",
    "SQ.C124_refuted"
   ],
   "note": "The full property is false of the code. One-way loss rates (total=False) compare the indices and not the states: where the two orders differ the rate of the reverse process is returned (C124_one_way, C124_session, for all circuits; C124_refuted on an LC resonator). get_partial_vec does not leave the state itself out of its sum when it is named from the end: the result has an additional term <psi|dH|psi>/1e-12 psi (C124_vec), so it is wrong whenever get_partial_omega of the state is not zero (C124_vec_refuted; C124_vec_circuit on an LC resonator). Proved: matrix elements, total rates, dephasing rates, one-way rates with the order of the indices that of the states, get_partial_omega, check_convergence and eig_phase_coord do not depend on the way of naming."
  },
  {
   "property": "C125",
   "status": "proved",
   "theorems": [
    "SQ.C125_islands",
    "SQ.C125_constructed",
    "SQ.C125_fluxonium",
    "SQ.C125_fluxonium_constructed",
    "SQ.C125_example"
   ],
   "note": "Same truncation numbers, offset charges and fluxes. Both value sets have to be admissible for the fixed thresholds of the code (for islands a factor of at least 1 keeps them admissible, for fluxonium any factor). When charging energies are equal the modes correspond through a permutation; the sign of the fluxonium phase chosen by the eigensolver may differ."
  },
  {
   "property": "C126",
   "status": "proved",
   "theorems": [
    "SQ.C126_elements",
    "SQ.C126_session",
    "SQ.C126_three",
    "SQ.C126_example"
   ],
   "note": "EigsLowest as in C45; expectation values of inductive couplings are not covered (charge modes contribute the constant of their placeholder flux operator)."
  },
  {
   "property": "C127",
   "status": "proved",
   "theorems": [
    "SQ.C127_formula",
    "SQ.C127_islands",
    "SQ.C127_constructed",
    "SQ.C127_example"
   ],
   "note": "EigsLowest as in C45. Quasiparticle loss of these circuits is not covered: the code reports zero for charge modes at zero flux (C56)."
  },
  {
   "property": "C128",
   "status": "proved",
   "theorems": [
    "SQ.C128_parts",
    "SQ.C128_session",
    "SQ.C128_constructed",
    "SQ.C128_example"
   ],
   "note": "EigsLowest as in C45; circuits with as many independent junction edges as nodes and no flux loops (IslandCircuit)."
  },
  {
   "property": "C129",
   "status": "proved",
   "theorems": [
    "SQ.C129_network",
    "SQ.C129_shares",
    "SQ.C129_uniform",
    "SQ.C129_position",
    "SQ.C129_example"
   ],
   "note": "EigsLowest and hbar*omega/(kB*T) at most 709 as in C114; states that share their energy with another product state are excluded, since the solver may return any combination of those."
  },
  {
   "property": "C130",
   "status": "proved",
   "theorems": [
    "SQ.C130_session",
    "SQ.C130_constructed",
    "SQ.C130_differential",
    "SQ.C130_series",
    "SQ.C130_series_constructed",
    "SQ.C130_example"
   ],
   "note": "Histories without update: update() after modes were removed is the subject of C36. C130_constructed shows that random numbers with which the construction ends exist (for at most 1e11 nodes); the other theorems hold for all random numbers with which it ends."
  },
  {
   "property": "C131",
   "status": "proved",
   "theorems": [
    "SQ.C131_at_most",
    "SQ.C131_all_modes",
    "SQ.C131_charge_modes",
    "SQ.C131_grounded",
    "SQ.C131_no_charge",
    "SQ.C131_example",
    "SQ.C131_fluxonium"
   ],
   "note": "C131_charge_modes assumes that the junction rows the Gram-Schmidt selection keeps span all junction rows (its tolerance 1e-5 could otherwise drop a row)."
  },
  {
   "property": "C132",
   "status": "proved",
   "theorems": [
    "SQ.C132_hamiltonian",
    "SQ.C132_levels",
    "SQ.C132_patterns",
    "SQ.C132_zero_flux",
    "SQ.C132_example"
   ],
   "note": "Phases of junctions below 1e-11 in a mode are neglected, as the code does; the specification says so. C132_patterns shows that the patterns exist whenever the frequencies are positive and different."
  },
  {
   "property": "C133",
   "status": "proved",
   "theorems": [
    "SQ.C133_slower",
    "SQ.C133_example"
   ],
   "note": ""
  },
  {
   "property": "C134",
   "status": "proved",
   "theorems": [
    "SQ.C134_phases",
    "SQ.C134_frequencies",
    "SQ.C134_example"
   ],
   "note": "numpy's SVD is a parameter constrained by SvdSpec. The signs are the reason for C111_refuted: with several loops they differ; with one loop they drop out (C111_one_loop_partial). No element lists a loop twice."
  },
  {
   "property": "C135",
   "status": "proved",
   "theorems": [
    "SQ.C135_flux_dist",
    "SQ.C135_one_each",
    "SQ.C135_example"
   ],
   "note": "numpy's SVD is a parameter constrained by SvdSpec; the matrix inverse is exact."
  },
  {
   "property": "C136",
   "status": "proved",
   "theorems": [
    "SQ.C136_levels",
    "SQ.C136_session",
    "SQ.C136_example"
   ],
   "note": "The scipy solver is a parameter constrained by EigsLowest. update under NumPy fails for such circuits (C36)."
  },
  {
   "property": "C137",
   "status": "proved",
   "theorems": [
    "SQ.C137_levels",
    "SQ.C137_zero_flux",
    "SQ.C137_example"
   ],
   "note": "The scipy solver is a parameter constrained by EigsLowest. Distinct mode frequencies are assumed as in C132."
  },
  {
   "property": "C138",
   "status": "proved",
   "theorems": [
    "SQ.C138_concave",
    "SQ.C138_example"
   ],
   "note": "The scipy solver is a parameter constrained by EigsLowest."
  },
  {
   "property": "C139",
   "status": "proved",
   "theorems": [
    "SQ.C139_follows",
    "SQ.C139_stale",
    "SQ.C139_value",
    "SQ.C139_modes",
    "SQ.C139_circuit",
    "SQ.C139_diagonalized",
    "SQ.C139_kept",
    "SQ.C139_example"
   ],
   "note": "NumPy engine, where qutip compares the dimensions of the factors. Under PyTorch only the total dimensions are compared, so systems with changed numbers of eigenvalues whose sizes happen to agree (for example 2 x 3 becoming 4 x 6) would be added up; not modelled."
  },
  {
   "property": "C140",
   "status": "proved",
   "theorems": [
    "SQ.C140_left",
    "SQ.C140_file",
    "SQ.C140_returned",
    "SQ.C140_failed",
    "SQ.C140_circuit",
    "SQ.C140_grid_shared",
    "SQ.C140_works",
    "SQ.C140_example"
   ],
   "note": "The pickled circuit inside the file is the subject of C53; dill's serialisation is assumed to copy values. C140_grid_shared: the Sweep object itself keeps the caller's list, so save() after an in-place change of the grid stores the changed grid beside the old tables."
  },
  {
   "property": "C141",
   "status": "proved",
   "theorems": [
    "SQ.C141_solver",
    "SQ.C141_example"
   ],
   "note": "Degenerate levels are excluded because rates between them do depend on the basis the routine picks. p + 1 < num in the first program: the gap above the highest level is known only when one more level was computed."
  },
  {
   "property": "C142",
   "status": "proved",
   "theorems": [
    "SQ.C142_balance",
    "SQ.C142_nonneg",
    "SQ.C142_temperature",
    "SQ.C142_example"
   ],
   "note": "Levels with equal frequencies give an infinite factor (C54_degenerate). Inductive and quasiparticle losses are left out of the temperature statement because their quality factors depend on the temperature."
  },
  {
   "property": "C143",
   "status": "proved",
   "theorems": [
    "SQ.C143_flux_reversal",
    "SQ.C143_example"
   ],
   "note": "Rates between levels that are not simple depend on the eigenvectors the library returns and are left out."
  },
  {
   "property": "C144",
   "status": "proved",
   "theorems": [
    "SQ.C144_default",
    "SQ.C144_unit",
    "SQ.C144_rejected",
    "SQ.C144_example"
   ],
   "note": "Read-back of junctions in get_value is off by 2 pi (C07); this property is about the stored value. Quality factors and names are not part of it."
  }
 ]
}