{"id": "C01", "title": "Engine selection behaves as a single last-writer register", "statement": "After any sequence of set_engine / set_optim_mode calls, get_engine() returns the lower-cased argument of the last accepted call (initially 'numpy'); a call is accepted exactly when its lower-cased argument is 'numpy' or 'pytorch'; a rejected call raises ValueError and changes nothing; get_optim_mode() is True exactly when get_engine() is 'pytorch'; set_optim_mode never fails.", "quantifier": "every finite sequence of calls with arbitrary strings/booleans", "why_tests_cant": "the history and the argument strings are unbounded", "anchors": ["SQcircuit/settings.py: set_engine, get_engine, set_optim_mode, get_optim_mode"]}
{"id": "C02", "title": "Default units behave as independent validated registers", "statement": "After any sequence of set_unit_freq/cap/ind/JJ calls each get_unit_* returns the value of the last accepted call of its own kind, no call affects another register, and a call is rejected (ValueError, no state change) exactly when the unit is outside the documented list for that kind (frequency; frequency or farad; frequency or henry; frequency).", "quantifier": "every finite history of unit-setter calls with arbitrary strings", "why_tests_cant": "independence and rollback must hold for all histories", "anchors": ["SQcircuit/units.py: set_unit_freq, set_unit_cap, set_unit_ind, set_unit_JJ, get_unit_*"]}
{"id": "C03", "title": "Noise environment: isolation, rejection and reset", "statement": "Each of set_temp, set_low_freq, set_high_freq, set_t_exp changes only its own environment entry, to 2*pi*value*unit (frequencies) or value*unit (time); a unit outside the table raises KeyError and leaves the environment unchanged; after any history, reset_to_default() restores exactly the import-time environment.", "quantifier": "every history of environment calls and all real values", "why_tests_cant": "reset must work from every reachable environment", "anchors": ["SQcircuit/noise.py: ENV, set_temp, set_low_freq, set_high_freq, set_t_exp, reset_to_default"]}
{"id": "C04", "title": "PyTorch-only API is rejected without effect under NumPy", "statement": "While the engine is NumPy, every read or write of requires_grad, is_leaf, grad, and of circuit parameters, parameters_grad, parameters_dict, parameters_elems, get_params_type, zero_grad raises ModeError and leaves elements and circuit unchanged; constructing an element with requires_grad=True raises ModeError.", "quantifier": "all elements, circuits and call arguments", "why_tests_cant": "must hold for each entry point in every state", "anchors": ["SQcircuit/elements.py: CircuitComponent.requires_grad, is_leaf, grad", "SQcircuit/circuit.py: Circuit.parameters, parameters_grad, zero_grad, get_params_type", "SQcircuit/exceptions.py: raise_optim_error_if_needed"]}
{"id": "C05", "title": "Capacitor value round-trips through every unit", "statement": "For a capacitor with zero fabrication error, set_value(v,u) followed by get_value(u') succeeds for every pair of allowed units; get_value(u) returns v, two farad units differ by the ratio of their prefixes, two frequency units likewise, and mixing gives the charging-energy relation E_C = e^2/(2 C h) (v non-zero where a reciprocal is taken).", "quantifier": "all values and all pairs of allowed units", "why_tests_cant": "values are real-valued and the pairs interact", "anchors": ["SQcircuit/elements.py: Capacitor.set_value, get_value", "SQcircuit/units.py: farad_list, freq_list"]}
{"id": "C06", "title": "Inductor value round-trips through every unit", "statement": "For an inductor with zero fabrication error, set_value(v,u) followed by get_value(u) returns v for every henry or frequency unit, and conversions between units follow prefix ratios and E_L = (Phi0/2pi)^2/(L h).", "quantifier": "all values and all pairs of allowed units", "why_tests_cant": "values are real-valued and the pairs interact", "anchors": ["SQcircuit/elements.py: Inductor.set_value, get_value", "SQcircuit/units.py: henry_list, freq_list"]}
{"id": "C07", "title": "Junction value round-trips through every unit", "statement": "For a junction with zero fabrication error, set_value(v,u) followed by get_value(u) returns v.", "quantifier": "all values and all frequency units", "why_tests_cant": "real-valued inputs", "anchors": ["SQcircuit/elements.py: Junction.set_value, get_value"]}
{"id": "C08", "title": "Element unit validation is exact and non-destructive", "statement": "set_value/get_value with a unit string outside the tables of that element type raises ValueError and leaves the element (value and error) unchanged; inside the tables it succeeds. Capacitors accept farad and frequency units, inductors henry and frequency units, junctions frequency units only.", "quantifier": "all unit strings, all elements, all values", "why_tests_cant": "the set of rejected strings is infinite", "anchors": ["SQcircuit/elements.py: Capacitor/Inductor/Junction._check_unit_format, set_value, get_value"]}
{"id": "C09", "title": "Fabrication error scales the nominal value and vanishes at zero", "statement": "Setting a value with fabrication error e percent stores nominal*(1+e*z/100) where z is the drawn standard normal sample; with e=0 the stored value is the nominal value whatever is drawn; the stored error equals e.", "quantifier": "all nominal values, errors and samples", "why_tests_cant": "the sample is random", "anchors": ["SQcircuit/elements.py: Element._set_value_with_error"]}
{"id": "C10", "title": "Loop flux and noise setters agree with the constructor", "statement": "Loop.set_flux(v) makes value() equal 2*pi*v irrespective of earlier calls, Charge.set_offset/set_noise make value()/A equal their argument, and set_noise(A) leaves an object in the same state as constructing it with A.", "quantifier": "all values and all earlier states", "why_tests_cant": "must hold for every prior state", "anchors": ["SQcircuit/elements.py: Loop.__init__, set_flux, set_noise, Charge.set_offset, set_noise"]}
{"id": "C11", "title": "Circuit.set_charge_noise sets the noise of exactly the addressed charge mode", "statement": "For a circuit with charge mode k (1-based), set_charge_noise(k, amp) makes the noise amplitude of that island equal amp and leaves other islands alone; for any other mode it raises ValueError without effect.", "quantifier": "all circuits, modes and amplitudes", "why_tests_cant": "all modes and amplitudes", "anchors": ["SQcircuit/circuit.py: Circuit.set_charge_noise", "SQcircuit/elements.py: Charge.set_noise"]}
{"id": "C12", "title": "Edge incidence vector and edge matrix agree", "statement": "For every edge between two different nodes that exist in the circuit, the matrix added for the edge is the outer product of its incidence vector with itself; for edges not touching ground the vector has +1 at the first node and -1 at the second, for edges touching ground +1 at the other node; reversing an edge negates the vector (same vector for ground edges) and keeps the matrix.", "quantifier": "all circuit sizes and all valid edges", "why_tests_cant": "unbounded node counts", "anchors": ["SQcircuit/circuit.py: CircuitEdge._set_w_at_edge, _set_matrix_rep"]}
{"id": "C13", "title": "Node count: correct or rejected", "statement": "Constructing a circuit either uses as number of nodes the largest node number that occurs in the element dictionary, or raises IndexError; it never silently builds matrices with a wrong number of nodes.", "quantifier": "all non-empty edge dictionaries", "why_tests_cant": "all key sets and orders", "anchors": ["SQcircuit/circuit.py: Circuit.__init__ (self.n = max(max(self.elements))), CircuitEdge._set_w_at_edge"]}
{"id": "C14", "title": "Capacitance and susceptance matrices are the circuit graph's energy forms", "statement": "C and L are symmetric, and for all node voltages/fluxes x: x^T C x = sum over edges of (total capacitance of the edge, including the capacitors attached to its inductors and junctions) * (branch difference)^2, x^T L x = sum over edges of (sum of 1/inductance) * (branch difference)^2; hence both are positive semidefinite for positive element values.", "quantifier": "all circuits and all node vectors", "why_tests_cant": "arbitrary sizes and real values", "anchors": ["SQcircuit/circuit.py: Circuit._get_LCWB, CircuitEdge.get_eff_cap_value, get_eff_ind_value"]}
{"id": "C15", "title": "Edge order is immaterial for C and L", "statement": "Two element dictionaries with the same edges and element lists up to reordering of edges and reordering of elements inside an edge give the same capacitance and susceptance matrices.", "quantifier": "all permutations of all dictionaries", "why_tests_cant": "factorially many orders", "anchors": ["SQcircuit/circuit.py: Circuit._get_LCWB"]}
{"id": "C16", "title": "C is positive definite when every node is capacitively tied to ground", "statement": "If element values are positive and every node is connected to ground by a path of edges (every edge carries positive capacitance because inductive elements bring their own capacitor), then C is positive definite, hence invertible, so circuit construction does not fail on the inverse of C.", "quantifier": "all connected circuits with positive values", "why_tests_cant": "all graphs", "anchors": ["SQcircuit/circuit.py: Circuit.__init__ (np.linalg.inv(C)), Circuit._get_LCWB"]}
{"id": "C17", "title": "Null space of L is the set of inductively floating node patterns", "statement": "With positive inductances, x^T L x = 0 exactly when x takes equal values at the two ends of every edge that carries an inductor (0 at ground); in particular L vanishes exactly when there is no inductor in the circuit.", "quantifier": "all circuits with positive inductances", "why_tests_cant": "all graphs", "anchors": ["SQcircuit/circuit.py: Circuit._get_LCWB, _get_and_apply_transformation_1"]}
{"id": "C18", "title": "Inductive branch numbering is complete, gap-free and duplicate-free", "statement": "The inductive elements of the circuit, taken in dictionary order, receive branch indices 0,1,2,... in order; every junction's W index points at the W row equal to the incidence vector of its own edge; W has exactly one row per edge containing a junction, in edge order.", "quantifier": "all circuits", "why_tests_cant": "all dictionaries", "anchors": ["SQcircuit/circuit.py: CircuitEdge.process_edge_and_update_circ, Circuit._get_LCWB, _get_w_id", "SQcircuit/elements.py: Inductor.get_key, Junction.get_key"]}
{"id": "C19", "title": "Loop membership is recomputed exactly, with no accumulation", "statement": "After building (or re-building) a circuit, its loop list contains each loop used by an inductive element exactly once in first-use order, and each of these loops records exactly the branch indices and incidence vectors of the elements listing it, whatever its bookkeeping contained before; rebuilding again yields the same.", "quantifier": "all circuits, all prior loop states, any number of rebuilds", "why_tests_cant": "must hold for every prior state and number of updates", "anchors": ["SQcircuit/circuit.py: CircuitEdge.update_circuit_loop_from_element, Circuit.add_loop, update", "SQcircuit/elements.py: Loop.reset, add_index, add_to_k_mat"]}
{"id": "C20", "title": "Per-element capacitance/susceptance sensitivities", "statement": "After construction the sensitivity matrix recorded for a capacitor is the sum of the edge matrices of all its placements, and for an inductor that sum divided by the square of the inductance; these are the derivatives of C (resp. minus the derivative of L) with respect to that element's value, also when one element object is placed on several edges.", "quantifier": "all circuits and all element sharings", "why_tests_cant": "sharing patterns are unbounded", "anchors": ["SQcircuit/circuit.py: CircuitEdge.process_edge_and_update_circ, Circuit.partial_mats", "SQcircuit/elements.py: Capacitor.partial_mat, Inductor.partial_mat"]}
{"id": "C21", "title": "Loop vector g closes the loop", "statement": "For a loop whose incidence columns (after removal of dependent columns) make the system invertible, the vector g computed for the loop has first entry 1 and satisfies sum_b g_b w_b = 0 on the kept node columns, and it is the only such vector.", "quantifier": "all loops of all circuits", "why_tests_cant": "real linear algebra of arbitrary size", "anchors": ["SQcircuit/elements.py: Loop.get_g", "SQcircuit/functions.py: remove_dependent_columns"]}
{"id": "C22", "title": "External flux distribution satisfies fluxoid quantisation", "statement": "Whenever construction succeeds with at least one loop, the (unrounded) distribution matrix B satisfies, for loops l and l', sum over branches of g_l(b) B(b,l') = delta_{l,l'} and sum over branches of k(b,i) c(b) B(b,l') = 0 for every kept node column i; these equations determine B uniquely; the returned B differs from it entrywise by at most 5e-6.", "quantifier": "all circuits with loops", "why_tests_cant": "real linear algebra of arbitrary size", "anchors": ["SQcircuit/circuit.py: Circuit._get_LCWB"]}
{"id": "C23", "title": "Flux distribution modes for a two-branch loop", "statement": "For a loop formed by one junction and one inductor in parallel, B=(cL/(cJ+cL), -cJ/(cJ+cL)) up to sign with the associated capacitances; with flux_dist='junctions' the rounded B puts the entire flux on the junction, with 'inductors' entirely on the inductor, and with 'all' the shares are inversely proportional to the attached capacitances.", "quantifier": "all capacitances and element values", "why_tests_cant": "real-valued", "anchors": ["SQcircuit/circuit.py: Circuit._get_LCWB", "SQcircuit/elements.py: Inductor.get_cap_for_flux_dist, Junction.get_cap_for_flux_dist, VerySmallCap, VeryLargeCap"]}
{"id": "C24", "title": "remove_dependent_columns keeps a maximal independent set of columns", "statement": "The returned matrix consists of columns of the input, its columns are linearly independent and span the same space as the input columns.", "quantifier": "all matrices", "why_tests_cant": "all matrices", "anchors": ["SQcircuit/functions.py: remove_dependent_columns, remove_zero_columns"]}
{"id": "C25", "title": "External flux at an element is linear in the loop fluxes", "statement": "The external phase applied at an inductive element is the sum over loops of loop.value() times the element's B entry, zero for circuits without loops; hence it is additive and homogeneous in the loop fluxes.", "quantifier": "all circuits and all flux values", "why_tests_cant": "real-valued", "anchors": ["SQcircuit/circuit.py: Circuit._get_external_flux_at_element"]}
{"id": "C26", "title": "Coordinate transformations are canonical", "statement": "Through any sequence of applied transformations the flux and charge transformations stay mutually inverse-transpose (S^T R = 1), the transformed matrices stay equal to R^T C^-1 R, S^T L S and W S, and the charging and inductive energies are invariant: for every transformed coordinate vector they equal the energies of the corresponding original vector.", "quantifier": "all circuits and all sequences of transformations", "why_tests_cant": "arbitrary sizes and sequences", "anchors": ["SQcircuit/circuit.py: Circuit._apply_transformation, coord_transform"]}
{"id": "C27", "title": "First transformation diagonalises both quadratic forms with the right frequencies", "statement": "After the first transformation both transformed matrices are diagonal, the mode frequency omega_j equals the j-th singular value of L^{1/2} C^{-1/2} for harmonic modes and 0 for singular (charge) modes, so omega_j^2 is an eigenvalue of C^-1 L; harmonic modes precede charge modes.", "quantifier": "all positive definite C and positive semidefinite L", "why_tests_cant": "arbitrary sizes", "anchors": ["SQcircuit/circuit.py: Circuit._get_and_apply_transformation_1, _transform_hamil"]}
{"id": "C28", "title": "Accepted charge-mode couplings are -1, 0 or 1", "statement": "Whenever the second transformation returns, every entry of the transformed W matrix in a charge-mode column is exactly -1, 0 or 1, and this remains true after the third transformation and after removal of uncoupled modes.", "quantifier": "all circuits", "why_tests_cant": "depends on tolerance logic for every matrix", "anchors": ["SQcircuit/circuit.py: Circuit._round_to_zero_one, _is_gram_schmidt_successful, _get_and_apply_transformation_2, _get_and_apply_transformation_3"]}
{"id": "C29", "title": "Gram-Schmidt row selection returns an independent family", "statement": "The basis returned by the row-selection procedure is orthonormal, the selected rows of the input are linearly independent, indices are distinct, and there are at most as many as columns; if it has as many as columns, the matrix of the selected rows is invertible.", "quantifier": "all real matrices", "why_tests_cant": "arbitrary sizes", "anchors": ["SQcircuit/circuit.py: Circuit._independent_rows"]}
{"id": "C30", "title": "Second transformation terminates", "statement": "The second transformation returns for every circuit (retries eventually succeed).", "quantifier": "all circuits and random draws", "why_tests_cant": "unbounded recursion", "anchors": ["SQcircuit/circuit.py: Circuit._get_and_apply_transformation_2"]}
{"id": "C31", "title": "Third transformation normalises harmonic couplings and keeps frequencies", "statement": "The third transformation never divides by zero; it leaves charge columns unchanged; in every harmonic mode with coupling above threshold all |W| entries are at most 1 and the strongest is exactly 1; cInv*l products (mode frequencies) are unchanged.", "quantifier": "all circuits", "why_tests_cant": "arbitrary sizes", "anchors": ["SQcircuit/circuit.py: Circuit._get_and_apply_transformation_3, alpha, _phi_zp"]}
{"id": "C32", "title": "Uncoupled mode removal keeps exactly the coupled modes", "statement": "After construction under NumPy with a junction present, the remaining modes are exactly those with a non-zero junction coupling, in their original order; frequencies, couplings and the transformed matrices are the corresponding sub-blocks; mode count, frequency list and matrices have the same size.", "quantifier": "all circuits", "why_tests_cant": "arbitrary sizes", "anchors": ["SQcircuit/circuit.py: Circuit._get_uncoupled_indices, _update_nmodes_remove_uncoupled_modes"]}
{"id": "C33", "title": "Coupling operators use the coefficients of the modes they multiply", "statement": "In coupling_op (inductive, capacitive) the coefficient that multiplies the operator of a retained mode is the entry of the transformation matrix belonging to that same mode, also when uncoupled modes have been removed.", "quantifier": "all circuits", "why_tests_cant": "needs circuits with removed modes at arbitrary positions", "anchors": ["SQcircuit/circuit.py: Circuit.coupling_op, _update_nmodes_remove_uncoupled_modes"]}
{"id": "C34", "title": "Inductor branches never couple to charge modes", "statement": "For an edge that carries an inductor, the flux-transformation difference across the edge vanishes for every mode lying in the null space of the susceptance matrix, so the placeholder identity used as flux operator of charge modes does not enter the inductive Hamiltonian.", "quantifier": "all circuits with positive inductances", "why_tests_cant": "arbitrary sizes", "anchors": ["SQcircuit/circuit.py: Circuit._get_inductive_hamil, coupling_op, _flux_op_isolated"]}
{"id": "C35", "title": "coupling_op orientation", "statement": "Swapping the two nodes negates coupling_op for pairs of non-ground nodes and leaves it unchanged when one node is ground; for three non-ground nodes the operators add: op(a,c)=op(a,b)+op(b,c); an unknown type raises ValueError.", "quantifier": "all circuits and node pairs", "why_tests_cant": "arbitrary sizes", "anchors": ["SQcircuit/circuit.py: Circuit.coupling_op"]}
{"id": "C36", "title": "update() rebuilds the circuit after in-place changes", "statement": "Calling update() on a constructed circuit succeeds and afterwards the circuit equals one rebuilt from the current element values.", "quantifier": "all circuits and histories", "why_tests_cant": "all circuits, all states", "anchors": ["SQcircuit/circuit.py: Circuit.update, _get_LCWB"]}
{"id": "C37", "title": "Charge displacement operators obey the charge algebra", "statement": "For every truncation N the operator for coupling +1 raises the charge number by one, for -1 lowers it, for 0 is the identity; D(-w) is the adjoint of D(w), and n D(w) - D(w) n = w D(w) holds exactly in the truncated space, where n is the charge number operator; on the whole circuit the exponential operator of a junction satisfies the same relation with its coupling to each charge mode.", "quantifier": "all truncations, all modes, all couplings in {-1,0,1}", "why_tests_cant": "all dimensions", "anchors": ["SQcircuit/circuit.py: Circuit._d_op_isolated, _num_op_isolated, _build_exp_ops"]}
{"id": "C38", "title": "Charge operator products are consistent and commute", "statement": "The stored products of charge operators equal the products of the stored charge operators of the two modes, operators of different modes commute, and all charge, flux and number operators are Hermitian.", "quantifier": "all circuits and truncations", "why_tests_cant": "all dimensions", "anchors": ["SQcircuit/circuit.py: Circuit._build_op_memory, _charge_op_isolated, _flux_op_isolated, _num_op_isolated"]}
{"id": "C39", "title": "LC Hamiltonian equals the stated quadratic form", "statement": "For a symmetric transformed inverse capacitance matrix the LC Hamiltonian equals sum over harmonic modes of omega*N plus 1/2 Q^T cInv Q without the diagonal terms of the harmonic modes; the generic quadratic-form helper equals 1/2 Q^T A Q for every symmetric A.", "quantifier": "all circuits and truncations", "why_tests_cant": "all sizes", "anchors": ["SQcircuit/circuit.py: Circuit._get_LC_hamil, _get_quadratic_cInvTrans, _get_quadratic_Q"]}
{"id": "C40", "title": "The Hamiltonian is Hermitian", "statement": "hamiltonian() returns a Hermitian operator for all element values, fluxes, charge offsets and truncations.", "quantifier": "all circuits, fluxes, offsets, truncations", "why_tests_cant": "all dimensions and reals", "anchors": ["SQcircuit/circuit.py: Circuit.hamiltonian, _get_inductive_hamil, _get_LC_hamil"]}
{"id": "C41", "title": "Flux periodicity", "statement": "If a loop's flux is changed by an integer number of flux quanta and the loop's B entries are integers at junctions and zero at inductors, the Hamiltonian is unchanged; the half-angle sine operators change by the sign (-1)^(k*B).", "quantifier": "all circuits, fluxes, integers", "why_tests_cant": "unbounded integers and real fluxes", "anchors": ["SQcircuit/circuit.py: Circuit._get_inductive_hamil, _get_external_flux_at_element"]}
{"id": "C42", "title": "Truncation numbers round-trip and validation is non-destructive", "statement": "set_trunc_nums(nums) with a list of the right length makes trunc_nums return nums; the Hilbert-space dimension is the product of (2N-1 for charge modes, N for harmonic modes), equal to the product of the squeezed dimensions; a non-list or wrong-length argument raises ValueError and leaves the circuit unchanged.", "quantifier": "all mode structures and all lists", "why_tests_cant": "all lists", "anchors": ["SQcircuit/circuit.py: Circuit.set_trunc_nums, trunc_nums, _get_state_dims, _get_op_dims"]}
{"id": "C43", "title": "truncate_circuit respects the dimension budget", "statement": "For every K>=1, truncate_circuit(K) assigns truncation numbers of at least 1 whose total Hilbert-space dimension is at most K; non-integers or K<1 raise ValueError without effect.", "quantifier": "all K and all mode structures", "why_tests_cant": "all K and all numbers of modes", "anchors": ["SQcircuit/circuit.py: Circuit.truncate_circuit"]}
{"id": "C44", "title": "Tensor index decomposition is the row-major bijection", "statement": "For an index below the total dimension, the decomposition yields one index per mode within that mode's dimension, recombining row-major gives back the index, and distinct indices give distinct decompositions; it agrees with the basis order of the Kronecker product.", "quantifier": "all dimension lists and indices", "why_tests_cant": "unbounded", "anchors": ["SQcircuit/circuit.py: Circuit._tensor_to_modes, eig_phase_coord"]}
{"id": "C45", "title": "Eigenpairs are returned sorted and paired", "statement": "diag returns the eigenfrequencies in non-decreasing order, a permutation of the real parts found by the eigensolver, and the k-th eigenvector is the solver's eigenvector of an eigenvalue whose real part is the k-th returned frequency.", "quantifier": "all eigensolver outputs", "why_tests_cant": "all inputs, ties included", "anchors": ["SQcircuit/circuit.py: Circuit._diag_np"]}
{"id": "C46", "title": "Frequency unit only rescales", "statement": "Changing the frequency unit after diagonalisation rescales efreqs so that efreqs * unit is invariant, without altering stored eigenvalues; diag's return value equals the efreqs property read immediately afterwards.", "quantifier": "all histories of unit changes", "why_tests_cant": "all histories", "anchors": ["SQcircuit/circuit.py: Circuit.efreqs, _diag_np, _diag_torch", "SQcircuit/units.py: set_unit_freq"]}
{"id": "C47", "title": "State guards", "statement": "Before set_trunc_nums, hamiltonian, diag, charge_op raise CircuitStateError; before diag, efreqs, evecs, matrix_elements, dec_rate, eig_phase_coord, get_partial_omega, get_partial_vec raise CircuitStateError; the circuit is unchanged by a guarded failure.", "quantifier": "all reachable circuit states", "why_tests_cant": "all histories", "anchors": ["SQcircuit/circuit.py: Circuit.diag, hamiltonian, charge_op, efreqs, evecs, matrix_elements, dec_rate, get_partial_omega"]}
{"id": "C48", "title": "Operator caches are coherent with the parameters", "statement": "After any history of set_trunc_nums, set_charge_offset, loop.set_flux, junction value changes, diag, hamiltonian and update (every capacitor/inductor value change being followed by update before use), hamiltonian() returns the Hamiltonian determined by the current element values, offsets, fluxes and truncations, independently of the order in which they were set.", "quantifier": "all finite histories", "why_tests_cant": "unbounded histories", "anchors": ["SQcircuit/circuit.py: Circuit.set_trunc_nums, set_charge_offset, update, hamiltonian, _build_op_memory, _build_exp_ops"]}
{"id": "C49", "title": "Eigen-data freshness", "statement": "efreqs/evecs, when they can be read, are the eigen-data of the present Hamiltonian.", "quantifier": "all finite histories", "why_tests_cant": "unbounded histories", "anchors": ["SQcircuit/circuit.py: Circuit.efreqs, evecs, set_charge_offset, set_trunc_nums, update"]}
{"id": "C50", "title": "Parameter list: content, order, no duplicates", "statement": "Under PyTorch the circuit's parameters are exactly the values of those elements, attached capacitors and loops which require gradient or are not leaves, each once, in first-use order. The listings of elements, values and types and the dictionary agree entry by entry.", "quantifier": "all circuits", "why_tests_cant": "all sharing patterns", "anchors": ["SQcircuit/circuit.py: Circuit.add_to_parameters, parameters, parameters_elems, parameters_dict, get_params_type"]}
{"id": "C51", "title": "Assigning parameters", "statement": "Assigning a list of the same length, all of whose values require gradient or are non-leaf, makes parameters return that list and updates the circuit; a list that is too short raises ValueError and leaves all elements unchanged.", "quantifier": "all circuits and lists", "why_tests_cant": "all lists", "anchors": ["SQcircuit/circuit.py: Circuit.parameters setter"]}
{"id": "C52", "title": "safecopy yields an independent equal circuit", "statement": "Under PyTorch, safecopy() succeeds for every built circuit, and the copy has the same structure and values with element sharing preserved; no later change of an original element is visible in the copy.", "quantifier": "all circuits", "why_tests_cant": "aliasing patterns", "anchors": ["SQcircuit/circuit.py: Circuit.safecopy"]}
{"id": "C53", "title": "Pickle round trip", "statement": "A circuit pickled through picklecopy and loaded has all attributes except the operator caches, and calling update() on it rebuilds these; pickling the circuit itself keeps all attributes; the original is not modified; the loaded circuit again pickles fully.", "quantifier": "all circuit states", "why_tests_cant": "all states", "anchors": ["SQcircuit/circuit.py: Circuit.__getstate__, __setstate__, picklecopy"]}
{"id": "C54", "title": "Detailed balance of the thermal factors", "statement": "For a transition with alpha = hbar*omega/(kB T) in (0, 709], the upward rate factor equals exp(-alpha) times the downward factor, both are non-negative, down = 1+coth(alpha/2), up = coth(alpha/2)-1; above the threshold the factors are 2 and 0, which differ from the exact formulas by at most exp(-709)*3.", "quantifier": "all positive alpha", "why_tests_cant": "real-valued", "anchors": ["SQcircuit/circuit.py: Circuit.dec_rate"]}
{"id": "C55", "title": "Total decoherence rates are symmetric and non-negative", "statement": "dec_rate(type,(m,n)) with total=True equals dec_rate(type,(n,m)) for each supported type, and is non-negative for positive quality factors, admittances and element values; with total=False depolarisation rates of the two directions add up to the total; unknown types raise ValueError.", "quantifier": "all circuits, states and types", "why_tests_cant": "all circuits", "anchors": ["SQcircuit/circuit.py: Circuit.dec_rate, _dephasing, _dec_rate_flux_np, _dec_rate_charge_np, _dec_rate_cc_np, matrix_elements"]}
{"id": "C56", "title": "Quasiparticle loss is computed with the half-angle sine operator on every mode", "statement": "The quasiparticle rate uses sin(phi/2) of the junction's phase operator, including its charge-mode part, so it does not vanish identically for transmon-like circuits.", "quantifier": "all circuits", "why_tests_cant": "all circuits", "anchors": ["SQcircuit/circuit.py: Circuit._build_exp_ops, dec_rate"]}
{"id": "C57", "title": "Hamiltonian derivatives with respect to fluxes and junction energies are exact", "statement": "The operator used as derivative of the Hamiltonian with respect to a loop flux (resp. a junction energy) is the entrywise derivative of hamiltonian() as a function of that parameter, including elements placed on several branches.", "quantifier": "all circuits, all parameters", "why_tests_cant": "real analysis", "anchors": ["SQcircuit/circuit.py: Circuit._get_partial_H, _get_inductive_hamil"]}
{"id": "C58", "title": "Charging-energy and inductive-energy sensitivities", "statement": "The coefficient matrices used in the Hamiltonian derivative with respect to a capacitor (inductor) are the derivatives of R^T C^-1 R (S^T L S) at fixed coordinate transformation.", "quantifier": "all circuits with positive definite C", "why_tests_cant": "real analysis", "anchors": ["SQcircuit/circuit.py: Circuit._get_partial_H", "SQcircuit/elements.py: Inductor.partial_mat, Capacitor.partial_mat"]}
{"id": "C59", "title": "Eigenfrequency gradients are Hellmann-Feynman derivatives", "statement": "If eigenvalue and normalised eigenvector of a Hermitian parameter-dependent Hamiltonian are differentiable, get_partial_omega (without ground subtraction) equals the derivative of the eigenvalue; with subtraction it is the derivative of the difference and is 0 for the ground state; the pairwise version is antisymmetric in the two states.", "quantifier": "all differentiable families", "why_tests_cant": "real analysis", "anchors": ["SQcircuit/circuit.py: Circuit.get_partial_omega, _get_partial_omega_mn"]}
{"id": "C60", "title": "Eigenvector gradients solve the perturbation equation", "statement": "get_partial_vec is orthogonal to the eigenvector itself, and, with a complete orthonormal set of non-degenerate eigenvectors and epsilon=0, it solves (H - omega_m) x = -(dH - d omega_m) psi_m.", "quantifier": "all Hermitian H with simple spectrum", "why_tests_cant": "arbitrary dimension", "anchors": ["SQcircuit/circuit.py: Circuit.get_partial_vec"]}
{"id": "C61", "title": "Second derivatives used for dephasing gradients are derivatives of the first ones", "statement": "For each noise channel the operator used as second derivative of the Hamiltonian is the derivative, with respect to the gradient element at fixed coordinate transformation, of the operator used as first derivative in that channel (flux, critical current, charge).", "quantifier": "all circuits and element kinds", "why_tests_cant": "real analysis", "anchors": ["SQcircuit/torch_extensions.py: partial_squared_H_phi, partial_squared_H_EJ, partial_squared_H_ng, partial_H_ng"]}
{"id": "C62", "title": "Dephasing rate gradient", "statement": "Where the frequency sensitivity is non-zero and the noise amplitude positive, partial_dephasing_rate is the derivative of the dephasing rate.", "quantifier": "all differentiable amplitudes and sensitivities", "why_tests_cant": "real analysis", "anchors": ["SQcircuit/torch_extensions.py: partial_dephasing_rate", "SQcircuit/circuit.py: Circuit._dephasing"]}
{"id": "C63", "title": "Matrix elements are Hermitian", "statement": "matrix_elements(type,nodes,(i,j)) is the complex conjugate of matrix_elements(type,nodes,(j,i)).", "quantifier": "all circuits and eigenvectors", "why_tests_cant": "all dimensions", "anchors": ["SQcircuit/circuit.py: Circuit.matrix_elements, coupling_op", "SQcircuit/functions.py: operator_inner_product"]}
{"id": "C64", "title": "System node numbering is a bijection", "statement": "For a system of circuits the map from (circuit, node) to the global node index and back are mutually inverse on valid nodes.", "quantifier": "all systems", "why_tests_cant": "all sizes", "anchors": ["SQcircuit/systems.py: System._node_idx_in_sys, _node_idx_in_sub_sys"]}
{"id": "C65", "title": "System circuit list", "statement": "The system's circuit list contains every circuit mentioned in a coupling exactly once, in order of first mention; sizes and truncations are aligned with it.", "quantifier": "all coupling lists", "why_tests_cant": "all lists", "anchors": ["SQcircuit/systems.py: System._get_all_circuits, _get_all_circuits_num_eig"]}
{"id": "C66", "title": "System capacitance matrix", "statement": "The system capacitance matrix is symmetric and its quadratic form is the sum of the circuits' forms plus, for each coupling capacitor, c*(v_i - v_j)^2 at the coupled nodes; with no capacitive couplings it is the block-diagonal matrix, and the interaction Hamiltonian is zero.", "quantifier": "all systems", "why_tests_cant": "all sizes", "anchors": ["SQcircuit/systems.py: System.cap_matrix, _bare_cap_matrix, _H_int"]}
{"id": "C67", "title": "Operator products in a system", "statement": "The operator built for a product of two subsystem operators equals the product of the two embedded operators, for equal and for different subsystems; embedded operators of different subsystems commute.", "quantifier": "all systems and operators", "why_tests_cant": "all dimensions", "anchors": ["SQcircuit/systems.py: System._op_in_sys, _op_times_op_in_sys", "SQcircuit/functions.py: tensor_product_torch, mat_mul"]}
{"id": "C68", "title": "System Hamiltonian is Hermitian", "statement": "System.hamiltonian() is Hermitian.", "quantifier": "all systems", "why_tests_cant": "all systems", "anchors": ["SQcircuit/systems.py: System.hamiltonian, _quadratic_Q, _QQ_op, _H_local"]}
{"id": "C69", "title": "Sweeps tabulate the spectrum at every grid point", "statement": "sweepFlux/sweepCharge over a grid return a table whose entry at a grid index is the spectrum obtained with the parameters set to that grid point.", "quantifier": "all grids of any dimension", "why_tests_cant": "all grids", "anchors": ["SQcircuit/sweep.py: Sweep.sweepFlux, sweepCharge"]}
{"id": "C70", "title": "Symbolic description Hamiltonian agrees with the numerical one", "statement": "The charge-mode part of the symbolic Hamiltonian printed by description(), evaluated with the listed EC and ng values, equals the charge-mode part of the numerical LC Hamiltonian.", "quantifier": "all circuits", "why_tests_cant": "all numbers of charge modes", "anchors": ["SQcircuit/symbolic.py: charge_mode_hamil, construct_hamiltonian", "SQcircuit/circuit.py: Circuit._compute_descrip_vars"]}
{"id": "C71", "title": "Convergence test value", "statement": "For a normalised eigenvector and t>=1 the returned epsilon lies in [0,1] and is non-decreasing in t; with t=0 (nothing cut off) it is 0; the verdict is epsilon < threshold.", "quantifier": "all vectors, dimensions, t", "why_tests_cant": "all dimensions", "anchors": ["SQcircuit/circuit.py: Circuit.check_convergence"]}
{"id": "C72", "title": "Loop description lists each inductive element once", "statement": "loop_description of a circuit with loops prints one row per row of B and names in row i the unique element with branch index i.", "quantifier": "all circuits with loops", "why_tests_cant": "all circuits", "anchors": ["SQcircuit/texts.py: HamilTxt.print_loop_description"]}
{"id": "C73", "title": "Scalar helper functions", "statement": "For positive x, log_sinh(x) equals log(sinh(x)); maximum/minimum return the larger/smaller argument; the default inductive quality factor equals 500e6*K0(a)sinh(a)/(K0(b)sinh(b)); the default capacitive quality factor is 1e6 at 6 GHz, even in the frequency and scales as its power -0.7; the backward rules of k0e and log_k0 are the derivatives of their forward values.", "quantifier": "all reals in the stated domains", "why_tests_cant": "real-valued", "anchors": ["SQcircuit/functions.py: log_sinh, maximum, minimum, k0e, log_k0, K0eSolver, LogK0Solver", "SQcircuit/elements.py: Inductor._default_q_ind, Capacitor._default_q_cap"]}
{"id": "C74", "title": "Phase-coordinate charge basis convention", "statement": "For a circuit of charge modes, the squared modulus of the phase-coordinate wave function computed with index-based plane waves equals that computed with the true charge numbers at every phase.", "quantifier": "all eigenvectors, truncations, phases", "why_tests_cant": "all dimensions and phases", "anchors": ["SQcircuit/circuit.py: Circuit.eig_phase_coord"]}
{"id": "C75", "title": "Gradient bookkeeping of parameters", "statement": "zero_grad sets the gradient of every tensor in parameters to None and changes no value, flag or other gradient; parameters_grad returns the gradients in the order of parameters, as one stacked tensor exactly when none is missing and as a list otherwise; after zero_grad it is a list of None.", "quantifier": "all circuits, tensor states and sharing patterns", "why_tests_cant": "all aliasing patterns of parameters and tensors", "anchors": ["SQcircuit/circuit.py: Circuit.zero_grad, Circuit.parameters_grad"]}
{"id": "C76", "title": "Phase-coordinate wave functions are normalised", "statement": "The wave functions returned by eig_phase_coord have the inner products of the eigenvectors: normalised eigenvectors give normalised wave functions and orthogonal ones give orthogonal wave functions (fluxes integrated over the real line, phases of charge modes over one period).", "quantifier": "all circuits, truncations and eigenvectors", "why_tests_cant": "integrals over all phases, for all vectors and dimensions", "anchors": ["SQcircuit/circuit.py: Circuit.eig_phase_coord", "SQcircuit/circuit.py: Circuit.coeff_log"]}
{"id": "C77", "title": "Circuit operators act on phase-coordinate wave functions as in the Schrodinger picture", "statement": "On the wave functions of eig_phase_coord, the flux operator of a harmonic mode is multiplication by the flux, its charge operator is -i hbar d/dPhi, the levels solve the oscillator's Schrodinger equation at energies hbar omega (n+1/2); for charge modes, the charge operator is 2e(-i d/dphi - ng) and the displacement used by junctions is multiplication by e^{i w phi}.", "quantifier": "all modes, levels below the truncation edge, phases", "why_tests_cant": "differential identities for all levels and phases", "anchors": ["SQcircuit/circuit.py: Circuit.eig_phase_coord, _flux_op_isolated, _charge_op_isolated, _num_op_isolated, _d_op_isolated"]}
{"id": "C78", "title": "Modes of a constructed circuit decouple", "statement": "A circuit object returned by the constructor has its harmonic modes before its charge modes; harmonic modes are mutually uncoupled oscillators with frequency sqrt of inverse inductance over capacitance, uncoupled capacitively from the charge modes, and charge modes carry no inductive energy, so the LC part of the Hamiltonian is the sum of hbar omega n over harmonic modes plus the charging energy of the charge modes.", "quantifier": "all circuits with positive capacitances and inductances connected to ground", "why_tests_cant": "all circuits and numbers of modes", "anchors": ["SQcircuit/circuit.py: Circuit._transform_hamil, Circuit._get_LC_hamil, Circuit._remove_modes"]}
{"id": "C79", "title": "Element description shows every placed element with its value", "statement": "print_el_description prints one block per edge in the order of the elements dictionary and, per placed element, one line with its class name and its value in the SI unit named on the line (F, H, Hz).", "quantifier": "all element dictionaries and all element values", "why_tests_cant": "all dictionaries and real values", "anchors": ["SQcircuit/texts.py: HamilTxt.print_el_description", "SQcircuit/elements.py: value_unit, get_value"]}
{"id": "C80", "title": "A fluxonium is described by the fluxonium Hamiltonian", "statement": "For an inductor and a junction in parallel, in one loop, with any positive L and capacitances and any Josephson energy (zero-point phase above the code's threshold 1e-11), the constructed circuit has one harmonic mode and hamiltonian() equals hbar*omega*a^dag a - E_J cos(phi_zp (a + a^dag) +- phi_ext) on the chosen truncation, with omega = 1/sqrt(LC); this stays true with the current flux, Josephson energy and built values after any orderly sequence of calls.", "quantifier": "all positive values, fluxes, truncations and call histories", "why_tests_cant": "real parameters, arbitrary truncations and unbounded histories", "anchors": ["SQcircuit/circuit.py: Circuit.__init__, update, hamiltonian", "SQcircuit/circuit.py: _get_LC_hamil, _get_inductive_hamil, _build_exp_ops"]}
{"id": "C81", "title": "The inputs of a circuit are the last ones set", "statement": "After any sequence of calls on a circuit, the external flux of a loop is 2*pi times the value of the last set_flux call, the value of an element is the last one given to set_value and the offset charge of an island is the last one given to set_charge_offset; noise amplitudes are unchanged by these calls.", "quantifier": "all call histories and values", "why_tests_cant": "unbounded histories", "anchors": ["SQcircuit/elements.py: Loop.set_flux, Element.set_value, Charge.set_offset", "SQcircuit/circuit.py: set_charge_offset, update"]}
{"id": "C82", "title": "charge_op returns the charge operator of the numbered mode", "statement": "After any orderly sequence of calls on a circuit with truncation numbers, charge_op(i) for i = 1..n is the Hermitian charge operator of mode i with the current offset charge: 2e(n - n_g)/sqrt(hbar) for a charge mode and -i sqrt(1/2Z)(a - a^dag) for a harmonic mode, acting as the identity on the other modes; with basis='eig' it is the Hermitian matrix of its matrix elements between the stored eigenvectors. A missing truncation, an unknown basis, a mode number outside 1..n and a missing diagonalisation are rejected.", "quantifier": "all circuits, call histories, mode numbers and stored eigenvectors", "why_tests_cant": "unbounded histories and real offsets", "anchors": ["SQcircuit/circuit.py: charge_op, _build_op_memory, _charge_op_isolated"]}
{"id": "C83", "title": "coord_transform returns the canonical transformation to the mode coordinates", "statement": "For every circuit of physical elements connected to ground, coord_transform('charge') and coord_transform('flux') (in any capitalisation) preserve the pairing of charges and fluxes, and the capacitive and inductive energies written in the returned coordinates are the quadratic forms used for the modes of the circuit; any other argument raises ValueError.", "quantifier": "all circuits, element values and vectors", "why_tests_cant": "real vector spaces of any dimension", "anchors": ["SQcircuit/circuit.py: coord_transform, _transform_hamil"]}
{"id": "C84", "title": "op('sin_half') is the half-angle sine operator at the current flux", "statement": "op('sin_half', {'el': junction, 'b_id': branch}) is sin of half the branch phase, with the current external flux, whatever calls were made before.", "quantifier": "all circuits and call histories", "why_tests_cant": "unbounded histories", "anchors": ["SQcircuit/circuit.py: op, _get_w_id, _get_inductive_hamil"]}
{"id": "C85", "title": "Gradients through diag are the chain rule", "statement": "Under the PyTorch engine, the gradient a backward pass through diag returns for a parameter is the derivative of the loss: for every loss of the computed eigenfrequencies, any number of computed states and any EIGENVECTOR_MAX_GRAD; and for every loss of frequencies and states that does not depend on the phases of the eigenvectors, when all states of a non-degenerate Hamiltonian are computed.", "quantifier": "all differentiable Hamiltonians, losses, numbers of states", "why_tests_cant": "derivatives of arbitrary functions", "anchors": ["SQcircuit/torch_extensions.py: EigenSolver.backward", "SQcircuit/circuit.py: get_partial_omega, get_partial_vec, get_partial_H"]}
{"id": "C86", "title": "diag works under PyTorch for every number of eigenvalues", "statement": "Under the PyTorch engine diag(n_eig) returns one frequency and one eigenvector per requested eigenvalue for every n_eig >= 1.", "quantifier": "all n_eig >= 1 and Hilbert space dimensions", "why_tests_cant": "unbounded dimensions", "anchors": ["SQcircuit/torch_extensions.py: EigenSolver.forward", "SQcircuit/circuit.py: _diag_torch"]}
{"id": "C87", "title": "Setting a value keeps a component an optimisation parameter", "statement": "Under the PyTorch engine, after set_value or set_flux with a number on a component that requires gradients and a successful update(), the circuit's parameters are the same components in the same order, the one that was set now having the new value.", "quantifier": "all circuits, components, values and assignments of requires_grad", "why_tests_cant": "unbounded circuits and sets of parameters; the parameter is dropped without any exception", "anchors": ["SQcircuit/elements.py: CircuitComponent._set_value_with_error, Loop.set_flux", "SQcircuit/circuit.py: Circuit.update, Circuit.parameters"]}
{"id": "C89", "title": "Eigenvector gradients with a truncated set of states", "statement": "With only the n_eig lowest states computed (the sparse solver never returns all), get_partial_vec for a non-degenerate computed level returns the orthogonal projection of the exact derivative of the eigenvector onto the computed states; the error is zero if all states are computed and otherwise bounded by the norm of dH|psi> over the gap to the lowest state not computed.", "quantifier": "all Hermitian Hamiltonians differentiable in a parameter, all numbers of computed states, all non-degenerate levels", "why_tests_cant": "continuum of Hamiltonians and parameters; needs existence of a differentiable branch of eigenvectors", "anchors": ["SQcircuit/circuit.py: Circuit.get_partial_vec, Circuit.diag"]}
{"id": "C90", "title": "Slopes of the frequencies diag returns", "statement": "In every reachable state of a circuit, the m-th frequency returned by diag, as a function of the flux set with set_flux or of a junction's energy set with set_value, is differentiable wherever the m-th level is not degenerate, and its derivative is what get_partial_omega returns (in the frequency unit); likewise for transition frequencies.", "quantifier": "all circuits, call histories, loops, junctions, levels and parameter values", "why_tests_cant": "derivatives at a continuum of parameters; finite differences only approximate; differentiability of sorted eigenvalues is not observable by sampling", "anchors": ["SQcircuit/circuit.py: Circuit.diag, Circuit.get_partial_omega, Circuit._get_partial_omega_mn, Circuit._get_partial_H", "SQcircuit/elements.py: Loop.set_flux, Junction.set_value"]}
{"id": "C88", "title": "Pure dephasing rates are noise amplitude times exact slope of the transition frequency", "statement": "For a constructed circuit whose stored eigenstates p and q belong to non-degenerate levels p and q of its Hamiltonian, dec_rate('flux'|'charge'|'cc', (p, q)) is the sum over the loops, charge modes or junctions of |A * d(omega_p - omega_q)/d(lambda)| * sqrt(2 |ln(omega_low * t_exp)|), where lambda is the loop's flux, the mode's charge offset or the Josephson energy of that one junction (A relative to the energy) and the derivative is that of the sorted eigenvalues of the Hamiltonian.", "quantifier": "all constructed circuits, truncations, element values, fluxes, charge offsets, noise amplitudes and state pairs", "why_tests_cant": "identity between a formula on eigenvectors and a derivative of sorted eigenvalues at every parameter value; a test can only compare finite differences at a few points", "anchors": ["SQcircuit/circuit.py: Circuit.dec_rate, Circuit._dec_rate_flux_np, Circuit._dec_rate_charge_np, Circuit._dec_rate_cc_np, Circuit._get_partial_omega_mn"]}
{"id": "C91", "title": "Depolarisation rates are golden-rule sums over the placed elements", "statement": "For a constructed circuit with stored states p and q of different frequency, at positive temperature with hbar*omega <= 709 k_B T, dec_rate('capacitive', (p,q)) is 2(n+1) (emission, p > q), 2n (absorption) or their sum (total) times the sum over all placed elements of C/Q(omega)*|<p|V|q>|^2, where n is the Bose occupation at omega, C and Q belong to the capacitor placed or attached to the element (none if it has no Q) and V is coupling_op('capacitive', edge); dec_rate('inductive') likewise sums |<p|Phi|q>|^2/(Q L) over exactly the placed inductors with Phi = coupling_op('inductive', edge); dec_rate('quasiparticle') sums Y*omega*hbar*E_J*|<p|sin(phi/2)|q>|^2 over the junctions.", "quantifier": "all constructed circuits, truncations, element values, fluxes, quality factors and admittances, temperatures, state pairs, total on or off", "why_tests_cant": "a sum over an unbounded number of elements, with a continuum of values and temperatures", "anchors": ["SQcircuit/circuit.py: Circuit.dec_rate, Circuit.matrix_elements, Circuit.coupling_op"]}
{"id": "C92", "title": "Parallel junctions give the Cooper-pair-box Hamiltonian (transmon, SQUID)", "statement": "A circuit whose elements are junctions and capacitors between ground and one node is accepted by the constructor (without loops, or with two junctions in one loop) and has one mode; after any orderly sequence of calls, hamiltonian() is (2e)^2/(2 C hbar) (n - ng)^2 minus E_J cos(phi + phi_ext) per junction in the truncated charge basis, where C is the sum of all capacitances, exp(i phi) adds one Cooper pair, ng is the current charge offset and phi_ext the share of the current loop flux; two equal junctions in a loop act as one of energy 2 E_J cos(phi_ext/2).", "quantifier": "all numbers of parallel elements, capacitances, Josephson energies, fluxes, charge offsets, truncations, engines, flux distributions, random draws and call histories", "why_tests_cant": "the constructor runs matrix roots, singular values and a randomised Gram-Schmidt; a closed form for all values and histories cannot be checked on samples", "anchors": ["SQcircuit/circuit.py: Circuit.__init__, Circuit._get_LCWB, Circuit._transform_hamil, Circuit.hamiltonian, Circuit.set_charge_offset"]}
{"id": "C93", "title": "Coupled islands: Hamiltonian of junctions and capacitors without inductors", "statement": "A circuit of junctions and capacitors, without inductors, whose junction edges close no loop through the nodes has one mode per junction edge, numbered by decreasing charging energy. Whenever it is constructed, its Hamiltonian is 1/2 (2e)^2/hbar sum_ij (J C^-1 J^T)_ij (n_i - ng_i)(n_j - ng_j) minus E_J cos(phi_e + phi_ext) per junction, where C is the capacitance matrix of the dictionary, J the incidence matrix of the junction edges, exp(i phi_e) adds one Cooper pair to the mode of the junction's edge and phi_ext is the external phase of its branch. Without flux loops and with as many junction edges as nodes it is accepted by the constructor, and after any orderly sequence of calls hamiltonian() is this Hamiltonian for the current values. For two grounded islands with a coupling capacitor the matrix is the textbook one of two capacitively coupled transmons.", "quantifier": "all dictionaries of this kind (any number of nodes, edges and elements), capacitances, Josephson energies, fluxes, charge offsets, truncations, engines, random draws and call histories", "why_tests_cant": "the modes come out of matrix roots, singular values and a thresholded Gram-Schmidt selection; that their order and the couplings between them are the stated ones for every circuit of any size cannot be settled on samples", "anchors": ["SQcircuit/circuit.py: Circuit.__init__, Circuit._get_LCWB, Circuit._transform_hamil, Circuit._independentRows, Circuit.hamiltonian, Circuit._get_LC_hamil"]}
{"id": "C94", "title": "Reversing all fluxes leaves the transition frequencies unchanged", "statement": "In every reachable state of a circuit, setting its loops to fluxes f or to the opposite fluxes -f gives frequencies from diag that differ by one common constant, so all transition frequencies agree; the constant is zero if no external flux is attributed to inductors.", "quantifier": "all circuits, call histories, flux settings, truncations and numbers of states", "why_tests_cant": "a symmetry of the spectrum for every circuit and a continuum of fluxes", "anchors": ["SQcircuit/circuit.py: Circuit.diag, Circuit.hamiltonian, Circuit._get_external_flux_at_element", "SQcircuit/elements.py: Loop.set_flux"]}
{"id": "C95", "title": "Reversing all charge offsets leaves the frequencies unchanged", "statement": "In every reachable state of a circuit, setting the offsets of all charge modes to g or to the opposite offsets -g gives exactly the same frequencies from diag, with the truncated charge basis.", "quantifier": "all circuits, call histories, charge offsets, truncations and numbers of states", "why_tests_cant": "a symmetry of the truncated spectrum for every circuit and a continuum of offsets", "anchors": ["SQcircuit/circuit.py: Circuit.diag, Circuit.hamiltonian, Circuit.set_charge_offset, Circuit._charge_op_isolated, Circuit._d"]}
{"id": "C96", "title": "Sweet spots: no first-order dephasing at symmetric bias", "statement": "For a constructed circuit, dec_rate('flux', (p, q)) is zero for all non-degenerate levels and noise amplitudes when every loop is at a multiple of half a flux quantum (at zero flux if the loop's flux reaches inductors or reaches a junction in fractions of a quantum); dec_rate('charge', (p, q)) is zero when every charge offset is zero, for a transmon without any assumption on the levels.", "quantifier": "all constructed circuits, truncations, element values, noise amplitudes and state pairs", "why_tests_cant": "an exact zero for all circuits and values, where floating-point tests only see small numbers", "anchors": ["SQcircuit/circuit.py: Circuit.dec_rate, Circuit._dec_rate_flux_np, Circuit._dec_rate_charge_np, Circuit._get_partial_omega_mn"]}
{"id": "C97", "title": "Transmons have no degenerate levels", "statement": "In every session of a circuit of parallel junctions and capacitors, at every charge offset, flux and truncation, the frequencies returned by diag are strictly increasing, provided the total Josephson energy is not zero (transmon) or the energies of the two junctions differ (SQUID).", "quantifier": "all such circuits, element values, offsets, fluxes, truncations, call histories and numbers of states", "why_tests_cant": "non-degeneracy at every point of a continuum; levels may come arbitrarily close", "anchors": ["SQcircuit/circuit.py: Circuit.diag, Circuit.hamiltonian, Circuit.set_charge_offset"]}
{"id": "C98", "title": "More charge states never raise a level, and the levels converge", "statement": "Calling set_trunc_nums with larger numbers for charge modes (the numbers of the other modes being equal) does not raise any frequency returned by diag, in any reachable state. For every circuit with positive element values each frequency converges as the numbers of the charge modes grow, and every frequency computed on the way is an upper bound of the limit.", "quantifier": "all circuits, call histories, pairs of truncation lists, numbers of states and levels", "why_tests_cant": "a statement about all truncations and a limit; a test compares finitely many", "anchors": ["SQcircuit/circuit.py: Circuit.set_trunc_nums, Circuit.diag, Circuit.hamiltonian"]}
{"id": "C99", "title": "Layout and errors of the array of sampled wave functions", "statement": "eig_phase_coord(k, grid) returns an array with one axis per axis of the grid that does not have exactly one point, in grid order except that the first two are exchanged; the entry belonging to a grid point is the wave function of the k-th stored state at the phases of that point, and every entry belongs to a grid point. A negative k counts from the end. The call fails exactly when no states are stored (CircuitStateError), k is not an integer (ValueError), or k is no index of a stored state or the grid has fewer axes than there are modes (IndexError).", "quantifier": "all circuits, stored states, indices k and grids of any dimension and lengths", "why_tests_cant": "all combinations of axes of length one and number of axes; every entry of the array", "anchors": ["SQcircuit/circuit.py: Circuit.eig_phase_coord"]}
{"id": "C100", "title": "Circuits without junctions are harmonic oscillators", "statement": "For a circuit of capacitors and inductors only, with positive values and no external flux, the constructor succeeds, and in every reachable state the frequencies returned by diag are the lowest energies of independent oscillators whose frequencies are the normal-mode frequencies of the network of placed capacitors and inductors (a mode of frequency zero being a free charge island), in the frequency unit. In particular capacitors and inductors in parallel give 0, f, 2f, ... with f = 1/(2 pi sqrt(LC)).", "quantifier": "all networks of capacitors and inductors of any size, element values, call histories, truncation numbers and numbers of levels", "why_tests_cant": "all networks of any size; every history", "anchors": ["SQcircuit/circuit.py: Circuit.__init__, Circuit.set_trunc_nums, Circuit.diag, Circuit.hamiltonian"]}
{"id": "C101", "title": "Node numbering does not change frequencies", "statement": "Two circuits of capacitors and inductors, every node connected to ground through inductors, that have the same elements on edges differing only by a renumbering of the nodes, by the direction in which edges are written and by order, have the same frequencies in all reachable states with the same element values, dimensions and unit and no external flux.", "quantifier": "all such networks, renumberings, call histories and numbers of levels", "why_tests_cant": "all permutations of the nodes of networks of any size", "anchors": ["SQcircuit/circuit.py: Circuit.__init__, Circuit.diag"]}
{"id": "C102", "title": "Frequencies are periodic in the offset charges", "statement": "After set_charge_offset on all charge modes, the frequencies returned by diag converge, as the truncation numbers of the charge modes grow, to limits that do not change when whole numbers are added to the offsets. At finite truncation, the frequencies for shifted offsets in a basis with as many more charge states on either side as the shift are never above the unshifted ones.", "quantifier": "all circuits meeting the constructor's requirements, element values, fluxes, call histories, offsets, whole-number shifts and levels", "why_tests_cant": "all real offsets, integer shifts and truncations, and a limit", "anchors": ["SQcircuit/circuit.py: Circuit.set_charge_offset, Circuit.set_trunc_nums, Circuit.diag, Circuit._get_charge_op_isolated"]}
{"id": "C103", "title": "Frequencies change no faster than junction energies and fluxes", "statement": "Changing junction energies with set_value moves no frequency returned by diag by more than the sum of the changes of the junction energies, in frequency units. Changing loop fluxes moves no frequency by more than the sum over the junctions of |E_J| times the change of the external phase attributed to it, if no external flux is attributed to inductors.", "quantifier": "all circuits without self loops that the constructor accepts, element values, fluxes, call histories, lists of junction set_value calls, pairs of flux assignments, numbers of levels and levels", "why_tests_cant": "all real energies and fluxes and all truncations; the bound has to hold between samples", "anchors": ["SQcircuit/elements.py: Junction.set_value", "SQcircuit/elements.py: Loop.set_flux", "SQcircuit/circuit.py: Circuit.diag, Circuit._get_hamiltonian_jj_exps, Circuit._get_external_flux_at_element"]}
{"id": "C104", "title": "What depends on flux_dist", "statement": "Choosing another flux_dist for the same circuit changes only how each loop's flux is shared among the inductive elements, and the change is the difference of a node potential across each element's edge (up to the rounding of the shares to five digits). Hence in circuits of junctions and capacitors whose junction edges are independent (SQUIDs, several SQUIDs coupled by capacitors) the frequencies do not depend on flux_dist, at any truncation numbers, up to 1e-5 ∑|E_J| ∑|φ_ext| / (2π unit).", "quantifier": "all circuits for which both constructions succeed (shares); all junction-capacitor circuits with independent junction edges, values, fluxes, offset charges, truncation numbers, call histories and numbers of eigenvalues (frequencies)", "why_tests_cant": "A test compares the three settings on a few circuits; it cannot establish that the choice never matters, for every topology, flux and truncation.", "anchors": ["SQcircuit/circuit.py:Circuit.__init__", "SQcircuit/circuit.py:Circuit._get_LCWB", "SQcircuit/circuit.py:Circuit.diag", "SQcircuit/elements.py:Junction.get_cap_for_flux_dist", "SQcircuit/elements.py:Inductor.get_cap_for_flux_dist"]}
{"id": "C105", "title": "Frequencies of junction circuits are periodic in the external fluxes", "statement": "In circuits of junctions and capacitors whose junction edges are independent (SQUIDs, several SQUIDs coupled by capacitors), the frequencies returned by diag are exactly periodic in the external fluxes with period one flux quantum for each loop, and symmetric about half a flux quantum: after any calls, setting the loop fluxes to f, to f + z or to z - f (z an integer for each loop) gives the same frequencies, at any truncation numbers.", "quantifier": "all junction-capacitor circuits with independent junction edges, values, flux_dist settings, call histories, loop fluxes, integers z, truncation numbers and numbers of eigenvalues", "why_tests_cant": "A test compares a few flux values; the code rounds the flux shares of the branches to five digits, so that exact periodicity for every topology and every integer needs an argument that the rounded shares of parallel junctions still differ by integers.", "anchors": ["SQcircuit/circuit.py:Circuit._get_LCWB", "SQcircuit/circuit.py:Circuit._get_external_flux_at_element", "SQcircuit/circuit.py:Circuit.diag", "SQcircuit/elements.py:Loop.set_flux"]}
{"id": "C106", "title": "Gradients of dephasing rates under PyTorch", "statement": "Under the PyTorch engine, back-propagating through dec_rate for charge, flux or critical-current noise gives, for each external flux and each Josephson energy, grad_output times the derivative of the returned rate with respect to it, up to the small number that the code adds to energy differences: the gradient tends to this value as that number tends to zero. This holds whatever eigenvectors the eigensolver returned, where no two levels coincide and the transition is sensitive to each channel.", "quantifier": "all constructed circuits, truncation numbers, offset charges, element values, fluxes, noise amplitudes, transitions, lists of trainable parameters and incoming gradients", "why_tests_cant": "A test compares one circuit with finite differences at a few points; the gradient combines second derivatives of the Hamiltonian, derivatives of the eigenvectors (whose phases the eigensolver chooses) and derivatives of the noise amplitudes.", "anchors": ["SQcircuit/torch_extensions.py:DecRateCharge.backward", "SQcircuit/torch_extensions.py:DecRateFlux.backward", "SQcircuit/torch_extensions.py:DecRateCC.backward", "SQcircuit/torch_extensions.py:partial_squared_omega", "SQcircuit/circuit.py:Circuit.dec_rate"]}
{"id": "C107", "title": "A system of coupled circuits agrees with the one circuit that contains them", "statement": "Take circuits of junctions and capacitors and couple them with capacitors as a CircuitSystem. If the circuits are diagonalised with all their eigenstates, the levels of the Hamiltonian of the system are those of the single Circuit whose dictionary contains all elements and the coupling capacitors, with the same truncation numbers and offset charges of corresponding modes. Without coupling capacitors the levels of a system are the sums of the levels of its circuits.", "quantifier": "all numbers of circuits and nodes, all couplings between any nodes of any circuits (also several, also within a circuit), all element values, truncation numbers, offset charges, frequency units and eigenbases", "why_tests_cant": "A test compares two transmons at a few values. The two calculations go through different code (inverse of the block matrix plus the couplings, transformation by the block matrix of the parts, projection on eigenbases; against the mode transformation of the large circuit), and must agree for every size.", "anchors": ["SQcircuit/systems.py:CircuitSystem._cap_matrix", "SQcircuit/systems.py:CircuitSystem._H_int", "SQcircuit/systems.py:CircuitSystem._quadratic_Q", "SQcircuit/systems.py:CircuitSystem.hamiltonian", "SQcircuit/circuit.py:Circuit.hamiltonian"]}
{"id": "C108", "title": "Elements in parallel combine", "statement": "Capacitors enter a circuit only through the total capacitance of every edge: replacing the capacitors of an edge by others of the same total — any number, standing alone or (unless flux_dist='all') attached to the inductors and junctions — leaves the modes and the Hamiltonian unchanged. In circuits without flux loops the same holds for inductors in parallel (inverse inductances add) and junctions in parallel (Josephson energies add).", "quantifier": "all circuits (any number of edges and elements per edge, any engine and flux_dist, with or without inductors and loops for the capacitor part), all values, truncation numbers, charge offsets and fluxes, whether or not construction succeeds", "why_tests_cant": "A test replaces one capacitor in one circuit. The claim is for every edge of every dictionary and says that the traversal keeps no other trace of a capacitor (order, number, object).", "anchors": ["SQcircuit/circuit.py:CircuitEdge.process_edge_and_update_circ", "SQcircuit/circuit.py:CircuitEdge.get_eff_cap_value", "SQcircuit/circuit.py:CircuitEdge.get_eff_ind_value", "SQcircuit/circuit.py:Circuit._get_LCWB", "SQcircuit/circuit.py:Circuit.hamiltonian", "SQcircuit/elements.py:Junction.get_cap_for_flux_dist"]}
{"id": "C109", "title": "Matrix elements do not depend on how operators are stored", "statement": "Converting a QuTiP operator (compressed rows, diagonals or dense) to a PyTorch tensor keeps its matrix and is sparse exactly if the operator was not dense; other storage is rejected with ValueError. The adjoint helper gives the conjugate transpose. The inner product helper gives <a|O|b> for all state vectors, under NumPy for QuTiP operators and under PyTorch for QuTiP operators in each storage format and for dense or sparse tensors.", "quantifier": "all sizes, all matrices, all storage contents (repeated entries in a row, diagonals in any order and partly outside the matrix), all state vectors, both engines", "why_tests_cant": "Tests convert a few operators; the claim is about every list of rows or diagonals, including repeated and out-of-range entries.", "anchors": ["SQcircuit/functions.py:qobj_to_tensor", "SQcircuit/functions.py:operator_inner_product", "SQcircuit/functions.py:mat_mul", "SQcircuit/functions.py:dag", "SQcircuit/functions.py:unwrap", "SQcircuit/functions.py:dense"]}
{"id": "C110", "title": "mat_mul multiplies in the order of its arguments", "statement": "mat_mul(A, B) is the matrix product A B for every supported pair of types (QuTiP objects, PyTorch tensors, NumPy arrays) under either engine.", "quantifier": "all sizes, matrices, storage formats and engines", "why_tests_cant": "The function branches on the types of both arguments; a test of one pair says nothing about another, and square symmetric examples hide a transposition.", "anchors": ["SQcircuit/functions.py:mat_mul", "SQcircuit/functions.py:qobj_to_tensor", "SQcircuit/functions.py:dense"]}
{"id": "C111", "title": "Frequencies do not depend on how the circuit dictionary is written", "statement": "Two circuits made of the same element objects, whose dictionaries differ by the order of edges and elements, by the direction in which edges are written and by a renumbering of the nodes other than ground, have the same frequencies, for corresponding truncation numbers and charge offsets.", "quantifier": "all circuits, all renumberings, orders and directions, all values and reachable states", "why_tests_cant": "The traversal order fixes branch numbers, loop signs and the arrays that the transformations work on; a test compares two spellings of one circuit.", "anchors": ["SQcircuit/circuit.py:Circuit._get_LCWB", "SQcircuit/circuit.py:Circuit._get_w_at_edge", "SQcircuit/elements.py:Loop.getP", "SQcircuit/circuit.py:Circuit.diag"]}
{"id": "C112", "title": "A sweep with 'loss' tabulates dec_rate at every grid point", "statement": "A one-dimensional sweep of a flux or charge offset with 'loss' among its properties returns, for each of the six loss types and each grid point, the value dec_rate(type, (1,0)) has on the circuit set to that point and diagonalised, and the frequencies diag returns there. After diag, dec_rate is defined for every type and every pair of computed states; asking for a state that was not computed raises IndexError, so a loss sweep with numEig=1 fails.", "quantifier": "all circuits, all reachable states, all grids, all numbers of states at least two, all noise properties", "why_tests_cant": "dec_rate reads operators that earlier calls stored; a test would have to visit every history and every grid to see that no entry is left over from an earlier point.", "anchors": ["SQcircuit/sweep.py:Sweep.sweepFlux", "SQcircuit/sweep.py:Sweep.sweepCharge", "SQcircuit/circuit.py:Circuit.dec_rate", "SQcircuit/circuit.py:Circuit.diag"]}
{"id": "C113", "title": "Dephasing rates are noise amplitudes times slopes of the reported frequencies", "statement": "For two levels which the frequencies returned by diag(num) show not to be degenerate, dec_rate('flux'|'cc'|'charge', (p,q)) equals the sum over loops, junctions or charge modes of |noise amplitude x slope of the transition frequency that diag itself reports| x sqrt(2|ln(omega_low t_exp)|), the slope being taken with respect to the argument of set_flux, set_value or set_charge_offset and converted to rad/s. The reported frequency is differentiable in each of these arguments.", "quantifier": "all circuits, all reachable states (for charge: reached without update, from a circuit whose capacitance matrix is positive definite), all numbers of computed states below the dimension minus one, all pairs of non-degenerate levels except the last computed one, all noise properties", "why_tests_cant": "A finite difference only approximates a slope, at one operating point; the identity has to hold for every circuit, history and point.", "anchors": ["SQcircuit/circuit.py:Circuit.dec_rate", "SQcircuit/circuit.py:Circuit._dephasing", "SQcircuit/circuit.py:Circuit.get_partial_omega", "SQcircuit/circuit.py:Circuit.diag", "SQcircuit/circuit.py:Circuit.set_charge_offset", "SQcircuit/elements.py:Loop.set_flux"]}
{"id": "C114", "title": "An LC resonator decays at omega n / Q", "statement": "For a circuit of capacitors and inductors between one node and ground, with L and C the inductance and capacitance of the elements in parallel and omega = 1/sqrt(LC): after diag(num), dec_rate('capacitive'|'inductive', (p,q)) for neighbouring levels p and q is omega*max(p,q)/Q, times n+1 for emission, n for absorption or 2n+1 in total, with n the Bose occupation at omega. 1/Q is the average of the inverse quality factors of the capacitors weighted with their capacitances (of the inductors weighted with their currents); elements without quality factor do not contribute. For levels that are not neighbours both rates are zero.", "quantifier": "all numbers and values of parallel capacitors and inductors, all quality factors, all temperatures with h f/kT at most 709, all levels below the truncation, all histories of setters, updates and diagonalisations", "why_tests_cant": "The rate goes through the mode transformation, the stored voltage and flux operators and the eigenvectors of a numerical solver; a test fixes one resonator and a few levels.", "anchors": ["SQcircuit/circuit.py:Circuit.dec_rate", "SQcircuit/circuit.py:Circuit.diag", "SQcircuit/elements.py:Capacitor", "SQcircuit/elements.py:Inductor"]}
{"id": "C115", "title": "Derivatives of a resonator's frequencies with respect to its capacitors and inductors", "statement": "For a circuit of capacitors and inductors between one node and ground: let F(x) be the frequencies diag(num) returns after the value of a capacitor or inductor is set to x and update() is called. get_partial_omega for that element and level p with subtract_ground, divided by 2 pi times the unit of frequency, is the derivative of F_p - F_0 at the present value; without subtract_ground (the gradient EigenSolver.backward hands to PyTorch) it is the derivative of F_p.", "quantifier": "all numbers and positive values of parallel capacitors and inductors, all elements, both engines, all levels below the truncation, all histories of setters, updates and diagonalisations", "why_tests_cant": "A derivative is a limit over infinitely many values; a test compares with a difference quotient at one value within a tolerance and at one level.", "anchors": ["SQcircuit/circuit.py:Circuit.get_partial_omega", "SQcircuit/circuit.py:Circuit._get_partial_H", "SQcircuit/circuit.py:CircuitEdge.process_edge_and_update_circ", "SQcircuit/torch_extensions.py:EigenSolver.backward"]}
{"id": "C116", "title": "Derivatives of a junction circuit's frequencies with respect to its capacitors", "statement": "For a circuit of junctions and capacitors in which the junction edges form a tree on all nodes (a Cooper pair box or transmon, coupled transmons, chains): let F(x) be the frequencies diag(num) returns after the value of a capacitor is set to x and update() is called. For every level that is not degenerate, get_partial_omega for that capacitor, divided by 2 pi times the unit of frequency, is the derivative of F_p at the present value (with subtract_ground, of F_p - F_0). For a single transmon no level is degenerate, so this holds for all levels.", "quantifier": "all numbers of nodes, junctions and capacitors, all values, truncation numbers, offset charges, all levels below the number computed, all histories of setters, updates and diagonalisations", "why_tests_cant": "A derivative is a limit over infinitely many values, of eigenvalues that are known only through an iterative solver; a test compares with a difference quotient at one value within a tolerance.", "anchors": ["SQcircuit/circuit.py:Circuit.get_partial_omega", "SQcircuit/circuit.py:Circuit._get_partial_H", "SQcircuit/circuit.py:CircuitEdge.process_edge_and_update_circ", "SQcircuit/circuit.py:Circuit.update", "SQcircuit/torch_extensions.py:EigenSolver.backward"]}
{"id": "C117", "title": "Both engines describe the same circuit", "statement": "The same circuit constructed under the NumPy and the PyTorch engine behaves identically: construction raises the same exceptions; after every history of set_trunc_nums, set_charge_offset, set_charge_noise, element and loop setters, update(), diag and failed calls, both circuits store the same matrices, modes, dimensions and eigenpairs, every further call returns the same value or exception, and hamiltonian(), diag(), truncate_circuit() and truncation numbers coincide.", "quantifier": "all circuits, values, loop fluxes, histories (including failing calls), all next calls", "why_tests_cant": "A test compares both engines on some circuits after some calls; the claim is an equality of two state machines for all circuits and all histories.", "anchors": ["SQcircuit/circuit.py:Circuit.__init__", "SQcircuit/circuit.py:Circuit._update_nmodes_remove_uncoupled_modes", "SQcircuit/circuit.py:CircuitEdge.process_edge_and_update_circ", "SQcircuit/circuit.py:Circuit.update", "SQcircuit/settings.py:set_engine"]}
{"id": "C118", "title": "description() gives a value to every symbol it prints", "statement": "For a constructed circuit after any calls of setters, diag() and the like, description() succeeds. Every symbol for a number in the printed Hamiltonian (omega_i, ng_i, EC_ij, EL_i, EJ_i, phi_ext_i) is given a value; the phase operator of every harmonic mode is defined by its ladder operators and its zero-point fluctuation, which is given a value; no symbol is defined twice; each mode is called harmonic or charge correctly; each printed number is that of the circuit in its present state (charge offset, energies over h in the unit of frequency, frequency over 2 pi, flux in flux quanta) to the digits shown. In circuits of at most 110 modes different symbols have different names.", "quantifier": "all circuits, values, fluxes, charge offsets, units of frequency and histories without update(); all symbols", "why_tests_cant": "The set of printed symbols depends on the circuit, and no test reads the printed numbers back against the state for all circuits and histories.", "anchors": ["SQcircuit/circuit.py:Circuit.description", "SQcircuit/circuit.py:Circuit._compute_descrip_vars", "SQcircuit/symbolic.py:construct_hamiltonian", "SQcircuit/symbolic.py:EC", "SQcircuit/texts.py:HamilTxt.mode_txt", "SQcircuit/texts.py:HamilTxt.param_txt", "SQcircuit/texts.py:HamilTxt.loop_txt", "SQcircuit/texts.py:HamilTxt.print_circuit_description"]}
{"id": "C119", "title": "The choice of the ground node does not change the spectrum", "statement": "Take a circuit of junctions and capacitors without flux loops in which every island is reached by one independent junction edge. Renumber all nodes, so that any other node may be node 0 (ground), write edges in any direction and order. The two Circuits return the same frequencies from diag(), in any two reachable states with the same element values and unit and corresponding truncation numbers and offset charges (up to sign). The correspondence of the modes is the identity if no two junction edges have the same charging energy.", "quantifier": "all such circuits, renumberings of all nodes including ground, values, histories and numbers of levels", "why_tests_cant": "Ground enters the code through special cases in the edge vectors and matrices; a test compares a few hand-made pairs of dictionaries.", "anchors": ["SQcircuit/circuit.py:CircuitEdge._set_w_at_edge", "SQcircuit/circuit.py:CircuitEdge._set_matrix_rep", "SQcircuit/circuit.py:Circuit._get_LCWB", "SQcircuit/circuit.py:Circuit._transform_hamil", "SQcircuit/circuit.py:Circuit.diag"]}
{"id": "C120", "title": "Circuits that share elements and loops do not disturb each other", "statement": "In a program with any number of circuits, which may contain the same element and loop objects, the constructions of other circuits and the calls on them (set_trunc_nums, set_charge_offset, set_charge_noise, truncate_circuit, hamiltonian, diag, update) can be deleted without changing anything a given circuit does: its state, its Hamiltonian, the result of diag() and the exceptions of its calls. Only setters of shared objects (set_value, set_flux, units) are seen by all. Whatever earlier uses left in a loop's bookkeeping (indices, k_mat) has no effect on a construction or an update.", "quantifier": "all families of circuits, all interleavings of constructions, calls and setters, all contents of the loops' bookkeeping", "why_tests_cant": "Interference would depend on the interleaving of calls on several circuits; tests use fresh elements for every circuit.", "anchors": ["SQcircuit/circuit.py:Circuit.__init__", "SQcircuit/circuit.py:Circuit.add_loop", "SQcircuit/circuit.py:Circuit._get_LCWB", "SQcircuit/circuit.py:Circuit.update", "SQcircuit/circuit.py:CircuitEdge.update_circuit_loop_from_element", "SQcircuit/elements.py:Loop.reset"]}
{"id": "C121", "title": "More capacitance never raises a level", "statement": "Take a circuit of junctions and capacitors without flux loops in which every island is reached by one independent junction edge, and a second one that differs from it only by larger capacitances or by additional capacitors, in parallel or on new edges. With the same unit of frequency, truncation numbers and offset charges, no frequency returned by diag() for the second circuit is higher than the one at the same place for the first.", "quantifier": "all such pairs of circuits, capacitances, histories, truncation numbers, offset charges and numbers of levels", "why_tests_cant": "A test compares a few capacitances at a few levels; a sign error in one off-diagonal entry of a capacitance matrix or an edge that is dropped shows only for some networks and levels.", "anchors": ["SQcircuit/circuit.py:CircuitEdge.process_edge_and_update_circ", "SQcircuit/circuit.py:Circuit._get_LCWB", "SQcircuit/circuit.py:Circuit._transform_hamil", "SQcircuit/circuit.py:Circuit._get_LC_hamil", "SQcircuit/circuit.py:Circuit.diag"]}
{"id": "C122", "title": "A circuit keeps the description it was built from", "statement": "After Circuit(elements) the caller can go on using the dictionary and its lists, for instance to describe the next circuit. Changing them does not change the circuit that was already built: its Hamiltonian, decoherence rates and description stay the same, also after update().", "quantifier": "all programs that mix calls on the circuit, setters, assignments to the caller's dictionary and in-place changes of its lists", "why_tests_cant": "Tests build circuits from literals and do not touch the dictionary afterwards.", "anchors": ["SQcircuit/circuit.py:Circuit.__init__", "SQcircuit/circuit.py:Circuit._get_LCWB", "SQcircuit/circuit.py:Circuit.update", "SQcircuit/circuit.py:Circuit.dec_rate"]}
{"id": "C123", "title": "A call that raises leaves the circuit as it was", "statement": "If a method of Circuit (set_trunc_nums, set_charge_offset, set_charge_noise, truncate_circuit, hamiltonian, diag, update) raises an exception, the circuit is as it was before the call: the program can catch the exception and go on, and every later call gives what it would have given without the failed one.", "quantifier": "all circuits, all histories of calls, with failing calls at any point", "why_tests_cant": "An exception can occur at any point of any history; tests check that an exception is raised, not what is left behind.", "anchors": ["SQcircuit/circuit.py:Circuit.set_trunc_nums", "SQcircuit/circuit.py:Circuit.update", "SQcircuit/circuit.py:Circuit.set_charge_offset", "SQcircuit/circuit.py:Circuit.diag", "SQcircuit/circuit.py:Circuit.coord_transform"]}
{"id": "C124", "title": "A computed state may be named from the end", "statement": "A state of the circuit may be named by a negative Python index: with N states computed, index p - N names the same state as index p. Every reader of the computed states (matrix_elements, dec_rate, get_partial_omega, get_partial_vec, check_convergence, eig_phase_coord) returns for p - N what it returns for p.", "quantifier": "all circuits, all orderly histories, all numbers of states computed, all pairs of states and both ways of naming each", "why_tests_cant": "It ranges over all circuits, decay channels and pairs of names; tests name states from the start.", "anchors": ["SQcircuit/circuit.py:Circuit.dec_rate", "SQcircuit/circuit.py:Circuit._get_quadratic_Q", "SQcircuit/circuit.py:Circuit.matrix_elements", "SQcircuit/circuit.py:Circuit.get_partial_vec", "SQcircuit/circuit.py:Circuit.get_partial_omega", "SQcircuit/circuit.py:Circuit.check_convergence", "SQcircuit/circuit.py:Circuit.eig_phase_coord"]}
{"id": "C125", "title": "Scaling all energies scales all frequencies", "statement": "Multiplying all Josephson energies of a circuit by a factor and dividing all its capacitances and inductances by it multiplies every frequency returned by diag() by that factor, whether the second set of values is given to a new circuit or set on an existing one followed by update().", "quantifier": "all island circuits (junctions and capacitors, any number of nodes) and fluxonium circuits, all positive factors, element values, histories, truncation numbers, offset charges, fluxes and numbers of levels", "why_tests_cant": "A law over all values and factors; tests compare a few numbers.", "anchors": ["SQcircuit/circuit.py:Circuit.diag", "SQcircuit/circuit.py:Circuit.hamiltonian", "SQcircuit/circuit.py:Circuit._get_LCWB", "SQcircuit/elements.py:Junction.set_value", "SQcircuit/elements.py:Capacitor.set_value", "SQcircuit/elements.py:Inductor.set_value"]}
{"id": "C126", "title": "Parity selection rule at symmetric bias", "statement": "With every charge offset at zero and every loop at a multiple of half a flux quantum (zero if its flux reaches inductors or reaches a junction in fractions of a quantum) the non-degenerate levels of a circuit fall into two classes: matrix_elements of every capacitive and inductive coupling between different levels of the same class is zero, so is the expectation value of every capacitive coupling, and dec_rate of capacitive and inductive loss (with all loops at zero flux also of quasiparticle loss) between them is zero. Among any three levels there are two between which these losses are absent.", "quantifier": "all circuits, call histories, truncations, element values, quality factors, temperatures, node pairs and levels that are not degenerate", "why_tests_cant": "A symmetry of every Hamiltonian the package can build; tests compare a few matrix elements with zero up to rounding.", "anchors": ["SQcircuit/circuit.py:Circuit.matrix_elements", "SQcircuit/circuit.py:Circuit.coupling_op", "SQcircuit/circuit.py:Circuit.dec_rate", "SQcircuit/circuit.py:Circuit.hamiltonian"]}
{"id": "C127", "title": "Capacitive loss of junction circuits depends only on voltages, not on node numbering or ground", "statement": "For junctions and capacitors without flux loops, dec_rate('capacitive', ...) after diag is the sum over all placed capacitances of the squared matrix element of the voltage across that capacitance, weighted by its loss and the thermal factor. Renumbering the nodes, choosing another node as ground, reversing edges or reordering the dictionary leaves every capacitive rate between non-degenerate levels unchanged (with the truncation numbers and offset charges carried along).", "quantifier": "all such circuits with as many independent junction edges as nodes, all call histories, truncations, element values, quality factors, temperatures and pairs of non-degenerate levels", "why_tests_cant": "The two dictionaries run through different capacitance matrices, transformations and mode orders; agreement for every circuit, permutation and history cannot be sampled.", "anchors": ["SQcircuit/circuit.py:Circuit.dec_rate", "SQcircuit/circuit.py:Circuit.coupling_op", "SQcircuit/circuit.py:Circuit.description"]}
{"id": "C128", "title": "Parts of a circuit that share only the ground node do not see each other: energies add", "statement": "When several circuits of junctions and capacitors are written into one dictionary, each on nodes of its own and with no element between them, the energies of the one circuit are exactly the sums of one energy of each part (with multiplicity), for every choice of truncation numbers and charge offsets carried over to the modes. In particular the lowest frequency diag reports is the sum of the lowest frequencies diag reports for the parts.", "quantifier": "all finite families of such circuits (any sizes, any element values), all truncations, offset charges, and all call histories of the parts and of the whole", "why_tests_cant": "The whole goes through one capacitance matrix, one transformation and one tensor product whose mode order the code chooses; that the parts separate exactly needs an argument for all sizes and values.", "anchors": ["SQcircuit/circuit.py:Circuit.__init__", "SQcircuit/circuit.py:Circuit.diag", "SQcircuit/circuit.py:Circuit.hamiltonian", "SQcircuit/circuit.py:Circuit.set_trunc_nums"]}
{"id": "C129", "title": "A linear network loses energy mode by mode, at the mode frequency over the energy-weighted quality factor", "statement": "For every circuit of capacitors and inductors without flux, dec_rate after diag(num) gives: between two product states that are the only ones of their energies and differ by one quantum in one oscillator mode, the capacitive rate is the thermal factor times the mode frequency times the larger occupation times the sum over capacitors of 1/Q weighted with the capacitor's share of the mode's capacitive energy; the inductive rate is the same with the inductors' shares of the inductive energy. Both rates vanish between states that differ in any other way. The shares are nonnegative and add up to one, so that equal quality factors Q give frequency times occupation over Q.", "quantifier": "all networks of capacitors and inductors (any size, graph and values), all truncation numbers, all pairs of non-degenerate computed states, all quality factors and temperatures, all call histories without failures", "why_tests_cant": "The rates are assembled from coupling operators in mode coordinates that the code chooses by numerical factorizations; that the result is the energy participation of each element in each normal mode for every network cannot be sampled.", "anchors": ["SQcircuit/circuit.py:Circuit.dec_rate", "SQcircuit/circuit.py:Circuit.coupling_op", "SQcircuit/circuit.py:Circuit.diag"]}
{"id": "C130", "title": "Floating islands, and capacitors in series, behave as their equivalent circuit", "statement": "With NumPy, a circuit of junctions and capacitors may have nodes reached by capacitors only and islands without junction to ground. Whenever it is constructed, it has one mode per junction edge and hamiltonian() is that of the junction edges with the inverse capacitances J C^-1 J^T. Two islands with capacitances C1, C2 to ground and Cs and junctions between them give the transmon Hamiltonian of capacitance Cs + C1 C2/(C1+C2). Replacing a capacitor by two in series, joined in a new node, with the same combined capacitance leaves all frequencies returned by diag unchanged.", "quantifier": "all circuits of junctions and capacitors with independent junction edges (any size), all admissible element values, random numbers, truncation numbers and offset charges, all call histories without update and without failures", "why_tests_cant": "The code chooses coordinates by Gram-Schmidt, completes the basis by random vectors and drops the modes that do not couple to junctions; that what remains is the reduced circuit, for every dictionary and every random draw, cannot be sampled.", "anchors": ["SQcircuit/circuit.py:Circuit._get_and_apply_transformation_2", "SQcircuit/circuit.py:Circuit._transform_hamil", "SQcircuit/circuit.py:Circuit.hamiltonian", "SQcircuit/circuit.py:Circuit.diag"]}
{"id": "C131", "title": "The graph of a circuit decides how many modes it has, and of which kind", "statement": "Take the nodes of a circuit (ground included) and join those connected by inductors; let p be the number of connected parts. With the PyTorch engine, or without junctions, the circuit has n nodes without ground and n modes: p - 1 charge modes and n + 1 - p harmonic ones. With NumPy and junctions it never has more, and the number of charge modes is p - q, q the number of parts when inductors and junctions join: charge islands held by capacitors only are dropped. If inductors join every node to ground there is no charge mode: set_charge_offset raises ValueError after any history and the charge dephasing rate is zero for all states.", "quantifier": "all valid circuits (any dictionary, any element values in the domain), both engines, all histories for the offset charge, all eigenpairs given for the dephasing rate", "why_tests_cant": "The code decides the kind of each mode by diagonalising matrices and testing frequencies against zero after rounding; that the counts depend only on the graph, for every circuit and all element values, cannot be enumerated.", "anchors": ["SQcircuit/circuit.py:Circuit._get_and_apply_transformation_1", "SQcircuit/circuit.py:Circuit._get_and_apply_transformation_2", "SQcircuit/circuit.py:Circuit._transform_hamil", "SQcircuit/circuit.py:Circuit.set_charge_offset", "SQcircuit/circuit.py:Circuit.dec_rate"]}
{"id": "C132", "title": "Circuits whose nodes are all held by inductors have the Hamiltonian of their normal modes", "statement": "If the normal modes of the node capacitance and inverse inductance matrices have positive frequencies, all different, then hamiltonian() is the sum of ω_j a_j†a_j over the normal modes, minus the current of each inductor's external flux times its phase, minus E_J cos(phase + external phase) of each junction, where the phase of a branch is the sum over modes of its zero-point fluctuation (2π/Φ0)√(ħ/2ω_j) times the difference of the mode pattern across the branch. diag returns the lowest levels of this operator. The transformations, scalings and signs the library chooses on the way do not show.", "quantifier": "all circuits of capacitors, inductors and junctions in the domain whose nodes are held by inductors (no degenerate modes), both engines (under NumPy, circuits where every mode couples to a junction, or linear circuits), all element values, fluxes and truncations, all histories of calls", "why_tests_cant": "The library finds the modes by a chain of numerical transformations with sign and scale freedoms; that the result is the physicist's Hamiltonian needs an argument for every graph and every value.", "anchors": ["SQcircuit/circuit.py:Circuit._get_and_apply_transformation_1", "SQcircuit/circuit.py:Circuit._get_and_apply_transformation_3", "SQcircuit/circuit.py:Circuit._build_exp_ops", "SQcircuit/circuit.py:Circuit._get_LC_hamil", "SQcircuit/circuit.py:Circuit._get_inductive_hamil", "SQcircuit/circuit.py:Circuit.hamiltonian", "SQcircuit/circuit.py:Circuit.diag"]}
{"id": "C133", "title": "Larger capacitors or inductors never raise a frequency of a linear network", "statement": "In a network of capacitors and inductors where inductors join every node to ground, raising the value of capacitors or inductors (set_value and update(), or building anew), or adding capacitors, never raises any of the frequencies diag returns at the same truncation numbers.", "quantifier": "all networks (any graph), all values, any set of raised values and added capacitors, both engines, all truncation numbers, all histories of calls", "why_tests_cant": "The library recomputes modes by numerical diagonalisation for each set of values; an inequality between two whole spectra for every network cannot be tested by examples.", "anchors": ["SQcircuit/circuit.py:Circuit._get_LCWB", "SQcircuit/circuit.py:Circuit._get_and_apply_transformation_1", "SQcircuit/circuit.py:Circuit._get_LC_hamil", "SQcircuit/circuit.py:Circuit.update", "SQcircuit/circuit.py:Circuit.diag"]}
{"id": "C134", "title": "External phases of a circuit written down in two ways agree up to directions and one sign per loop", "statement": "Write a circuit down twice: nodes renumbered, edges written in either direction, edges and elements listed in another order, with the same element and loop objects and the same flux_dist. There is one sign for each loop, which depends only on the two dictionaries and not on the values, such that each inductor and junction gets the same external phase in both circuits (up to the direction of its edge) when the loop fluxes of one are multiplied by the signs. When inductors hold every node, diag returns the same frequencies at fluxes related by these signs, in any two sessions.", "quantifier": "all pairs of dictionaries, renumberings, numbers and shapes of loops, element values, flux_dist options, external fluxes; for frequencies all histories, truncation numbers and numbers of levels", "why_tests_cant": "The shares come from numerical rank decisions, a matrix inverse and a rounding; that nothing but a sign per loop depends on the notation is a statement about every circuit graph.", "anchors": ["SQcircuit/circuit.py:Circuit._get_LCWB", "SQcircuit/circuit.py:Circuit._get_external_flux_at_element", "SQcircuit/elements.py:Loop.get_g", "SQcircuit/circuit.py:Circuit.diag"]}
{"id": "C135", "title": "flux_dist decides which elements carry the external fluxes", "statement": "With flux_dist='junctions', if every loop has a junction of its own (in no other loop, and without which the loop is open), no inductor gets any external phase, at any fluxes; with flux_dist='inductors' the same holds with junctions and inductors exchanged. If moreover every loop contains only one such junction, that junction gets exactly the flux of its loop, up to sign, and nothing of any other loop.", "quantifier": "all circuits (any graph, any number of loops, loops sharing inductors), element values and external fluxes; the second claim for at most 10^12 inductive elements", "why_tests_cant": "The code inverts a matrix with entries between 1e-20 and 1e20 and rounds to five digits; that this gives exactly zero and exactly one for every graph is not visible from examples.", "anchors": ["SQcircuit/circuit.py:Circuit._get_LCWB", "SQcircuit/circuit.py:Circuit._get_external_flux_at_element", "SQcircuit/elements.py:Inductor.get_cap_for_flux_dist", "SQcircuit/elements.py:Junction.get_cap_for_flux_dist"]}
{"id": "C136", "title": "The modes NumPy leaves out are independent oscillators", "statement": "Take a circuit with at least one junction, constructed under both engines, with the same element values and fluxes, such that every mode no junction sees is harmonic and no external flux falls on an inductor. The modes under NumPy are the modes under PyTorch that some junction sees, in the same order. With the same dimensions and offset charges on them, the frequencies diag reports under PyTorch are exactly those it reports under NumPy plus any numbers of quanta (below the dimension) in each of the modes left out; the lowest frequency is the same.", "quantifier": "all such circuits, values, fluxes, offset charges and truncation numbers, and all sequences of calls without update under either engine", "why_tests_cant": "The two engines build matrices of different sizes; that the larger spectrum is the smaller one repeated on oscillator ladders holds for a whole class of circuits and cannot be seen from comparing some lists of numbers.", "anchors": ["SQcircuit/circuit.py:Circuit._build_hamiltonian", "SQcircuit/circuit.py:Circuit._get_uncoupled_indices", "SQcircuit/circuit.py:Circuit._get_LC_hamil", "SQcircuit/circuit.py:Circuit._build_exp_ops", "SQcircuit/circuit.py:Circuit.diag"]}
{"id": "C137", "title": "Junctions move frequencies by at most their energies", "statement": "Take a circuit whose nodes are all held by inductors and whose inductors see no external flux, with any junctions and any flux at them. The i-th frequency diag reports is within the sum of the Josephson energies (in units of frequency) of the i-th lowest sum of quanta of its normal modes, each mode counted up to its truncation number. In particular the lowest frequency lies within that sum of zero.", "quantifier": "all such circuits, values, fluxes, truncation numbers and orderly sequences of calls, and every reported frequency", "why_tests_cant": "The bound concerns eigenvalues of arbitrary large matrices with arbitrary couplings; tests compare some numbers for some circuits.", "anchors": ["SQcircuit/circuit.py:Circuit._get_LC_hamil", "SQcircuit/circuit.py:Circuit._get_external_flux_at_element", "SQcircuit/circuit.py:Circuit._build_exp_ops", "SQcircuit/circuit.py:Circuit.hamiltonian", "SQcircuit/circuit.py:Circuit.diag"]}
{"id": "C138", "title": "The lowest frequencies are concave in the Josephson energies", "statement": "Set the Josephson energies of a circuit with set_value once to x, once to y and once to a mixture t x + (1-t) y, with everything else unchanged. The lowest frequency diag reports for the mixture is at least the same mixture of the two lowest frequencies; the same holds for the sum of the m lowest frequencies, for every m.", "quantifier": "all circuits, states reached by orderly calls, junction values x and y, weights t between 0 and 1, and numbers m of frequencies", "why_tests_cant": "It is an inequality between eigenvalues of three different matrices for all values of the parameters; sampled values cannot show it.", "anchors": ["SQcircuit/circuit.py:Circuit.hamiltonian", "SQcircuit/circuit.py:Circuit.diag", "SQcircuit/elements.py:Junction.set_value"]}
{"id": "C139", "title": "A System stays valid while the program goes on", "statement": "Construct a System from couplings of diagonalized circuits and let the program go on: set fluxes, values of coupling capacitors, offset charges or the frequency unit, diagonalize circuits again, work with other circuits. As long as the numbers of modes of its circuits stay (they change only by update()), System.hamiltonian() gives what a System constructed at that moment from the same couplings would give, the same operator or the same exception: it uses the present coupling capacitances, the present unit and the latest eigenfrequencies and eigenvectors. Two things end this with an exception, never with a wrong operator: a circuit that is no longer diagonalized, and, with two or more circuits, a circuit whose number of computed eigenfrequencies has changed (TypeError).", "quantifier": "all families of circuits, couplings, and all programs of constructions, method calls and setters after the construction of the System (NumPy engine)", "why_tests_cant": "It is about what a long-lived object remembers and what it reads anew after every possible program; tests try a few programs.", "anchors": ["SQcircuit/systems.py:System.__init__", "SQcircuit/systems.py:System.hamiltonian", "SQcircuit/systems.py:System._op_in_sys", "SQcircuit/systems.py:System._QQ_op"]}
{"id": "C140", "title": "What a sweep returned or saved stays what it computed", "statement": "A sweepFlux/sweepCharge of one parameter with toFile returns None and writes a file; SQdata.load of that file gives, at any later time until the file is written again, the grid, parameters and number of levels of that sweep and tables whose entries are what diag (and dec_rate, with 'loss') give at each grid point on the circuit as it was before the sweep. Without toFile the arrays it returns keep these tables: later sweeps with the same Sweep object, calls on the circuit, changes of the grid list and failing sweeps do not change them. A sweep that raises leaves all files and earlier arrays as they were. Naming a file or plotting does not change what the sweep does to the circuit.", "quantifier": "all programs of circuit calls, Sweep objects, sweeps, save, load, in-place changes of grids and arrays, and failing steps; all grids, numbers of levels and circuits", "why_tests_cant": "Sweep objects keep references to arrays, dictionaries and the caller's grid; whether a later step reaches them depends on the whole program.", "anchors": ["SQcircuit/sweep.py: Sweep.__init__, sweepFlux, sweepCharge", "SQcircuit/storage.py: SQdata.save, load, plot"]}
{"id": "C141", "title": "Frequencies and rates do not depend on the eigenvalue routine or on how many levels are computed", "statement": "Two programs make the same setting calls on equal circuits, and between them call hamiltonian and diag where they like; they use any two routines that find the lowest eigenvalues with unit eigenvectors, and ask for different numbers of levels. Then the frequencies of the levels both asked for are equal, the stored states of a level that is not degenerate differ only by a phase, and dec_rate gives the same answer between any two such levels, for every noise channel, with or without the thermal excitation.", "quantifier": "all circuits without self-loops, element values, fluxes, units, histories of calls in which flux-dependent quantities are refreshed, numbers of levels below the dimension minus one, eigenvalue routines and noise settings", "why_tests_cant": "The routine (ARPACK) starts from a random vector and returns states with arbitrary phases; a test sees one routine and one run.", "anchors": ["SQcircuit/circuit.py: Circuit.diag, Circuit._diag_np, Circuit.hamiltonian, Circuit.dec_rate, Circuit.matrix_elements"]}
{"id": "C142", "title": "Rates between the levels diag returned obey detailed balance at the set temperature", "statement": "After any history of calls and diag, take two computed levels with different reported frequencies, f their difference in Hz and x = h f/(k_B T). For each loss type the upward dec_rate is exp(-x) times the downward one (0 when x > 709), the total is their sum and does not depend on the order of the states. With positive quality factors, admittances and element values no rate is negative. Raising the temperature never lowers the total capacitive rate.", "quantifier": "all circuits without self-loops, histories, numbers of levels, pairs of levels, units, temperatures and noise settings", "why_tests_cant": "It links what diag returns in the user's units with what dec_rate computes from stored angular frequencies, for every history and temperature.", "anchors": ["SQcircuit/circuit.py: Circuit.dec_rate, Circuit.diag", "SQcircuit/noise.py: set_temp", "SQcircuit/units.py: set_unit_freq"]}
{"id": "C143", "title": "Reversing all loop fluxes leaves every decoherence rate between simple levels unchanged", "statement": "After any history of calls, set all loops of the circuit to fluxes f, or to the opposite fluxes -f, and call diag. Between any two simple levels dec_rate returns the same value in both cases, for every noise type (capacitive, inductive, quasiparticle, charge, critical current, flux), upward, downward or total, at any temperature and with any quality factors and noise amplitudes.", "quantifier": "all circuits without self-loops, histories, flux settings, truncations, numbers of levels, pairs of simple levels and noise settings", "why_tests_cant": "It is a symmetry of the computed rates for arbitrary circuits and flux values; a test compares a few settings up to tolerance.", "anchors": ["SQcircuit/circuit.py: Circuit.dec_rate, Circuit.diag, Circuit.hamiltonian, Circuit.coupling_op, Circuit._get_partial_H", "SQcircuit/elements.py: Loop.set_flux"]}
{"id": "C144", "title": "A new element means what its number means in the unit given, or in the default unit of its kind", "statement": "After any history of module-level setter calls, Capacitor(v), Inductor(v) and Junction(v) without a unit take the unit last accepted by set_unit_cap, set_unit_ind or set_unit_JJ (GHz if none was), and the element's stored capacitance, inductance or energy is what v means in that unit, times one plus tolerance times the random draw. With a documented unit of its kind the value is what v means in that unit, whatever the defaults are. With any other unit string the constructor raises ValueError and makes no element.", "quantifier": "all histories of setter calls, positive values, nonnegative tolerances, draws and unit strings", "why_tests_cant": "Histories of setter calls and unit strings are unbounded.", "anchors": ["SQcircuit/elements.py: Capacitor.__init__, Inductor.__init__, Junction.__init__, set_value", "SQcircuit/units.py: get_unit_cap, get_unit_ind, get_unit_JJ"]}
