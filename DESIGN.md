# Formal model of stanfordLINQS/SQcircuit in Lean 4

This file is the map of the work: what is modelled, how each property of
`properties.jsonl` is stated and proved, what is trusted, what is not modelled,
and where the code disagrees with what a user would expect.

## 1. Layout

* `lean/Verif/Model/*.lean` – the model, function by function. Every definition
  cites the file and lines of `/repo/SQcircuit` it models and names its
  simplifications.
* `lean/Verif/Spec/*.lean` – small independent specifications (what the English
  property says, written without the model's helpers).
* `lean/Verif/Lemmas/*.lean` – auxiliary lemmas; nothing there is a claim.
* `lean/Verif/Props/*.lean` – the property theorems (`Cnn_…`), with `example`s on
  concrete non-trivial instances that meet their hypotheses.
* `properties.jsonl` – the properties in English.
* `MANIFEST.json` – property → theorem names, status and notes.
* `AXIOMS.md` – the axioms every property theorem depends on.
* `seeded/LOG.jsonl` – results of testing the theorems against wrong programs.

Naming: `Cnn_…` is a theorem for property Cnn. Suffix `_partial`: only part of the
property; what is missing is said in the comment and in the manifest. `_refuted` (also
`_fails`, `_disagrees`, `_stale`, …): the code violates the property; the theorem is
the proved counterexample.

## 2. Modelling conventions

* Python floats and tensors are modelled by exact reals `ℝ` (complex `ℂ` for
  operators). Rounding error, overflow, NaN and inf are not modelled (except where NaN
  or inf is an explicit branch of the code, as in the loss rates); where the code
  compares against a tolerance, the tolerance is kept as in the code.
* Exceptions are values: `Except PyErr α`; a method with side effects returns its
  result together with the state *as it is when the exception leaves the method*, so
  "nothing was changed" is a statement about the model and not an assumption.
* Objects with identity (elements, loops) are `Nat` identifiers into a heap, so
  sharing one element between edges is expressible.
* Call histories are lists of calls (`Act`), executed by `run`; theorems about
  histories quantify over all of them. `Orderly` histories are those in which no modifying
  call leaves a half-done change behind (a modifying call succeeds or changes nothing);
  read-only calls may fail.
* External numerical routines (SVD, matrix square root, eigendecomposition, sparse
  eigensolver, argsort/argmax, normal sampler, Bessel functions, dill) are parameters; each
  theorem states as a hypothesis which mathematical facts it uses (`LibSpec`, `SvdSpec`,
  `ArgsortSpec`, `ArgmaxSpec`, …). Routines meeting these hypotheses are constructed in
  `Lemmas/LibExists.lean` (`exists_lib`, `exists_argsort`, `exists_argmax`, `exSv_spec`),
  so the hypotheses are satisfiable.
* QuTiP's `displace`, `destroy`, `num`, `charge` are the exact truncated matrices; `displace`
  is the matrix exponential of the truncated generator.
* Matrices are Mathlib `Matrix`; operators on the tensor-product Hilbert space are
  matrices indexed by dependent tuples `∀ i, Fin (m i)`; the link to the row-major
  Kronecker order used by QuTiP and torch is property C44.
* Loops without a bound in Python (`while` in the second transformation) take a
  `fuel` argument; theorems hold for every fuel, and non-termination is "no fuel suffices".

## 3. Trusted base

* Lean 4.33.0's kernel, and Mathlib's definitions (real and complex numbers, matrices,
  derivatives, integrals).
* Axioms: every property theorem depends on a subset of `propext`, `Classical.choice`,
  `Quot.sound`; the list per theorem, produced with `#print axioms`, is in `AXIOMS.md`.
  No `sorry`, `admit`, `native_decide`, `bv_decide`, no axioms of our own.
* The faithfulness of the hand-written model to `/repo`. The citations are there to be
  audited; the mutation log (section 7) shows that the theorems notice changes of the model.
* Parsing of the property statements: the definitions in `Spec/` used in theorem statements.


## 4. Properties, how they are modelled and proved, and the result

Status `proved`: the English statement of `properties.jsonl` is proved as it stands. `partial`: the code violates
the statement; the negation is proved on a concrete input and the part that holds is proved with the suffix
`_partial` (or what holds instead is proved exactly). No property was found that could not be expressed.

| id | property | status | modelled in (lean/Verif/Model) and how proved | theorems (namespace SQ) |
|----|----|----|----|----|
| C01 | Engine selection behaves as a single last-writer register | proved | Globals: module-level registers as a state record, setter calls as an inductive type; last-writer invariant by induction over call histories | `C01_engine_history`, `C01_engine_accept`, `C01_optim_never_fails` |
| C02 | Default units behave as independent validated registers | proved | Globals: module-level registers as a state record, setter calls as an inductive type; last-writer invariant by induction over call histories | `C02_units_history`, `C02_unit_freq_accept`, `C02_unit_cap_accept`, `C02_unit_ind_accept`, `C02_unit_JJ_accept` |
| C03 | Noise environment: isolation, rejection and reset | proved | Globals: module-level registers as a state record, setter calls as an inductive type; last-writer invariant by induction over call histories | `C03_env_history`, `C03_env_reject`, `C03_reset` |
| C04 | PyTorch-only API is rejected without effect under NumPy | proved | Globals: every gated entry point as a function of engine and state; case analysis | `C04_new`, `C04_rejected`, `C04_accepted`, `C04_constructor`, `C04_constructor_torch` |
| C05 | Capacitor value round-trips through every unit | proved | Elements: unit tables as association lists, `set_value`/`get_value` per element type; field arithmetic over all table entries | `C05_capacitor_roundtrip`, `C05_capacitor_set`, `C05_capacitor_get`, `C05_capacitor_zero` |
| C06 | Inductor value round-trips through every unit | proved | Elements: unit tables as association lists, `set_value`/`get_value` per element type; field arithmetic over all table entries | `C06_inductor_roundtrip`, `C06_inductor_set`, `C06_inductor_get` |
| C07 | Junction value round-trips through every unit | partial | Elements: unit tables as association lists, `set_value`/`get_value` per element type; field arithmetic over all table entries | `C07_junction_roundtrip_partial`, `C07_junction_roundtrip_fails` |
| C08 | Element unit validation is exact and non-destructive | proved | Elements: unit tables as association lists, `set_value`/`get_value` per element type; field arithmetic over all table entries | `C08_units_rejected`, `C08_units_accepted`, `C08_none_unit_overwrites_error` |
| C09 | Fabrication error scales the nominal value and vanishes at zero | proved | Elements: the sampler's draw as an argument of `set_value`; identity in the draw | `C09_fabrication_error`, `C09_zero_error_deterministic` |
| C10 | Loop flux and noise setters agree with the constructor | partial | Elements, State: loop and charge records and their setters; direct computation | `C10_loop_charge_setters_partial`, `C10_loop_set_noise_disagrees` |
| C11 | Circuit.set_charge_noise sets the noise of exactly the addressed charge mode | partial | Elements, State: loop and charge records and their setters; direct computation | `C11_refuted`, `C11_rejected_partial` |
| C12 | Edge incidence vector and edge matrix agree | proved | Graph: edges with Python list indexing and tuple maximum; case analysis and order argument | `C12_edge`, `C12_self_loop_unvalidated` |
| C13 | Node count: correct or rejected | proved | Graph: edges with Python list indexing and tuple maximum; case analysis and order argument | `C13_node_count_correct_or_rejected` |
| C14 | Capacitance and susceptance matrices are the circuit graph's energy forms | proved | Graph: fold over edges as in `_get_LCWB`; induction over the edge list, connectivity induction for definiteness and for the kernel | `C14_energy_forms`, `C14_psd` |
| C15 | Edge order is immaterial for C and L | proved | Graph: fold over edges as in `_get_LCWB`; induction over the edge list, connectivity induction for definiteness and for the kernel | `C15_order_independent` |
| C16 | C is positive definite when every node is capacitively tied to ground | proved | Graph: fold over edges as in `_get_LCWB`; induction over the edge list, connectivity induction for definiteness and for the kernel | `C16_cap_posdef` |
| C17 | Null space of L is the set of inductively floating node patterns | proved | Graph: fold over edges as in `_get_LCWB`; induction over the edge list, connectivity induction for definiteness and for the kernel | `C17_null_space` |
| C18 | Inductive branch numbering is complete, gap-free and duplicate-free | proved | Graph: the traversal with all counters, loop heap, parameter and partial-matrix tables; induction over the traversal | `C18_branch_numbering` |
| C19 | Loop membership is recomputed exactly, with no accumulation | proved | Graph: the traversal with all counters, loop heap, parameter and partial-matrix tables; induction over the traversal | `C19_loop_membership`, `C19_rebuild_idempotent` |
| C20 | Per-element capacitance/susceptance sensitivities | proved | Graph: the traversal with all counters, loop heap, parameter and partial-matrix tables; induction over the traversal | `C20_sensitivity`, `C20_sensitivity_numpy`, `C20_sensitivity_is_derivative` |
| C21 | Loop vector g closes the loop | proved | Flux: rows of K and the flux matrix as lists, inverse guarded by the determinant, SVD constrained by `SvdSpec`; linear algebra (rank, kernel of the reduced incidence matrix) | `C21_loop_vector`, `C21_signs` |
| C22 | External flux distribution satisfies fluxoid quantisation | proved | Flux: rows of K and the flux matrix as lists, inverse guarded by the determinant, SVD constrained by `SvdSpec`; linear algebra (rank, kernel of the reduced incidence matrix) | `C22_flux_distribution`, `flux_distribution_branches` |
| C23 | Flux distribution modes for a two-branch loop | proved | Flux: rows of K and the flux matrix as lists, inverse guarded by the determinant, SVD constrained by `SvdSpec`; linear algebra (rank, kernel of the reduced incidence matrix) | `C23_two_branch_loop`, `C23_whole_flux`, `C23_all_shares` |
| C24 | remove_dependent_columns keeps a maximal independent set of columns | partial | Flux: rows of K and the flux matrix as lists, inverse guarded by the determinant, SVD constrained by `SvdSpec`; linear algebra (rank, kernel of the reduced incidence matrix) | `C24_partial`, `C24_dependent_columns_kept`, `C24_renumbering_breaks_construction` |
| C25 | External flux at an element is linear in the loop fluxes | proved | Flux: rows of K and the flux matrix as lists, inverse guarded by the determinant, SVD constrained by `SvdSpec`; linear algebra (rank, kernel of the reduced incidence matrix) | `C25_external_flux_linear` |
| C26 | Coordinate transformations are canonical | proved | Transform: the three coordinate transformations with sqrtm/SVD/eig constrained by `LibSpec`, the retry loop with fuel and arbitrary random draws; matrix algebra, induction over transformation sequences and over Gram-Schmidt steps | `C26_canonical_sequences`, `C26_canonical_construction` |
| C27 | First transformation diagonalises both quadratic forms with the right frequencies | proved | Transform: the three coordinate transformations with sqrtm/SVD/eig constrained by `LibSpec`, the retry loop with fuel and arbitrary random draws; matrix algebra, induction over transformation sequences and over Gram-Schmidt steps | `C27_first_transformation`, `C27_first_transformation_any_spectrum` |
| C28 | Accepted charge-mode couplings are -1, 0 or 1 | proved | Transform: the three coordinate transformations with sqrtm/SVD/eig constrained by `LibSpec`, the retry loop with fuel and arbitrary random draws; matrix algebra, induction over transformation sequences and over Gram-Schmidt steps | `C28_charge_couplings`, `C28_rounding` |
| C29 | Gram-Schmidt row selection returns an independent family | proved | Transform: the three coordinate transformations with sqrtm/SVD/eig constrained by `LibSpec`, the retry loop with fuel and arbitrary random draws; matrix algebra, induction over transformation sequences and over Gram-Schmidt steps | `C29_gram_schmidt` |
| C30 | Second transformation terminates | partial | Transform: the three coordinate transformations with sqrtm/SVD/eig constrained by `LibSpec`, the retry loop with fuel and arbitrary random draws; matrix algebra, induction over transformation sequences and over Gram-Schmidt steps | `C30_returns_partial`, `C30_circuit_returns_partial`, `C30_nontermination`, `C30_hanging_circuit` |
| C31 | Third transformation normalises harmonic couplings and keeps frequencies | proved | Transform: the three coordinate transformations with sqrtm/SVD/eig constrained by `LibSpec`, the retry loop with fuel and arbitrary random draws; matrix algebra, induction over transformation sequences and over Gram-Schmidt steps | `C31_third_transformation` |
| C32 | Uncoupled mode removal keeps exactly the coupled modes | proved | Transform: the three coordinate transformations with sqrtm/SVD/eig constrained by `LibSpec`, the retry loop with fuel and arbitrary random draws; matrix algebra, induction over transformation sequences and over Gram-Schmidt steps | `C32_uncoupled_removal` |
| C33 | Coupling operators use the coefficients of the modes they multiply | partial | Coupling: coupling coefficients of elements from stored matrices; matrix algebra, counterexample circuits | `C33_coefficients_partial`, `C33_aligned_cases`, `C33_alignment_iff`, `C33_refuted` |
| C34 | Inductor branches never couple to charge modes | partial | Coupling: coupling coefficients of elements from stored matrices; matrix algebra, counterexample circuits | `C34_charge_mode_patterns`, `C34_placeholder_partial`, `C34_refuted` |
| C35 | coupling_op orientation | proved | Coupling: coupling coefficients of elements from stored matrices; matrix algebra, counterexample circuits | `C35_orientation`, `C35_unknown_type` |
| C36 | update() rebuilds the circuit after in-place changes | partial | State, CircuitPhys: `update()` on the circuit state machine; case analysis | `C36_update_partial`, `C36_removed`, `C36_untruncated`, `C36_refuted` |
| C37 | Charge displacement operators obey the charge algebra | proved | Ops: operators on truncated tensor products; entrywise identities, matrix exponentials, Hermiticity | `C37_displacement`, `C37_circuit`, `C37_constructed` |
| C38 | Charge operator products are consistent and commute | proved | Ops: operators on truncated tensor products; entrywise identities, matrix exponentials, Hermiticity | `C38_products`, `C38_local` |
| C39 | LC Hamiltonian equals the stated quadratic form | proved | Ops: operators on truncated tensor products; entrywise identities, matrix exponentials, Hermiticity | `C39_lc_hamiltonian`, `C39_quadratic_form`, `C39_quadratic_phi` |
| C40 | The Hamiltonian is Hermitian | proved | Ops: operators on truncated tensor products; entrywise identities, matrix exponentials, Hermiticity | `C40_hermitian`, `C40_circuit` |
| C41 | Flux periodicity | proved | Ops: operators on truncated tensor products; entrywise identities, matrix exponentials, Hermiticity | `C41_periodicity` |
| C42 | Truncation numbers round-trip and validation is non-destructive | proved | State, Index: list arithmetic of truncation numbers | `C42_roundtrip`, `C42_rejected`, `C42_constructed` |
| C43 | truncate_circuit respects the dimension budget | proved | State, Index: list arithmetic of truncation numbers | `C43_budget` |
| C44 | Tensor index decomposition is the row-major bijection | proved | Index: index tuples and row-major numbers; induction over the list of dimensions, Kronecker products | `C44_bijection`, `C44_kronecker`, `C44_tens` |
| C45 | Eigenpairs are returned sorted and paired | proved | State: eigensolver as a parameter with recorded contract, sorting, guards | `C45_sorted`, `C45_diag`, `C45_eigenpairs`, `C45_lowest` |
| C46 | Frequency unit only rescales | proved | State: eigensolver as a parameter with recorded contract, sorting, guards | `C46_unit` |
| C47 | State guards | proved | State: eigensolver as a parameter with recorded contract, sorting, guards | `C47_needs_truncation`, `C47_needs_diag`, `C47_guard_iff` |
| C48 | Operator caches are coherent with the parameters | proved | State, CircuitPhys: circuit as a state machine with caches; coherence invariant by induction over call histories, counterexample history | `C48_coherence`, `C48_circuit` |
| C49 | Eigen-data freshness | partial | State, CircuitPhys: circuit as a state machine with caches; coherence invariant by induction over call histories, counterexample history | `C49_fresh_partial`, `C49_update_clears_partial`, `C49_stale`, `C49_refuted` |
| C50 | Parameter list: content, order, no duplicates | proved | Params: ordered parameter dictionary and gradient slots; induction over the dictionary | `C50_listings`, `C50_listings_example`, `C50_parameters`, `C50_parameters_numpy` |
| C51 | Assigning parameters | partial | Params: ordered parameter dictionary and gradient slots; induction over the dictionary | `C51_assign`, `C51_short`, `C51_refuted`, `C51_empty_partial`, `C51_long`, `C51_dropped` |
| C52 | safecopy yields an independent equal circuit | partial | Copy: heap of elements and loops, deep copy by traversal, pickling; simulation between heaps | `C52_values`, `C52_independent`, `C52_fails`, `C52_refuted`, `C52_succeeds_partial`, `C52_sharing`, `C52_sharing_partial`, `C52_sharing_refuted` |
| C53 | Pickle round trip | proved | Copy: heap of elements and loops, deep copy by traversal, pickling; simulation between heaps | `C53_full`, `C53_picklecopy`, `C53_update`, `C53_needs_update` |
| C54 | Detailed balance of the thermal factors | proved | Noise: thermal factors and the five loss channels as real functions of matrix elements; real analysis | `C54_factors`, `C54_threshold`, `C54_degenerate`, `C54_rates` |
| C55 | Total decoherence rates are symmetric and non-negative | proved | Noise: thermal factors and the five loss channels as real functions of matrix elements; real analysis | `C55_symmetric`, `C55_nonneg`, `C55_directions`, `C55_dephasing_total`, `C55_unknown`, `C55_not_diagonalized` |
| C56 | Quasiparticle loss is computed with the half-angle sine operator on every mode | partial | Noise: thermal factors and the five loss channels as real functions of matrix elements; real analysis | `C56_half_angle_partial`, `C56_charge_modes`, `C56_refuted` |
| C57 | Hamiltonian derivatives with respect to fluxes and junction energies are exact | proved | Grad: derivatives of the Hamiltonian, of eigenvalues and eigenvectors; `HasDerivAt`, perturbation theory | `C57_flux`, `C57_junction`, `C57_circuit` |
| C58 | Charging-energy and inductive-energy sensitivities | partial | Grad: derivatives of the Hamiltonian, of eigenvalues and eigenvectors; `HasDerivAt`, perturbation theory | `C58_capacitor`, `C58_inductor`, `C58_constructed`, `C58_charging_energy_partial`, `C58_inductive_energy_partial`, `C58_refuted` |
| C59 | Eigenfrequency gradients are Hellmann-Feynman derivatives | proved | Grad: derivatives of the Hamiltonian, of eigenvalues and eigenvectors; `HasDerivAt`, perturbation theory | `C59_derivative`, `C59_subtracted`, `C59_pair`, `C59_circuit_flux` |
| C60 | Eigenvector gradients solve the perturbation equation | proved | Grad: derivatives of the Hamiltonian, of eigenvalues and eigenvectors; `HasDerivAt`, perturbation theory | `C60_orthogonal`, `C60_perturbation`, `C60_is_derivative`, `C60_negative_index` |
| C61 | Second derivatives used for dephasing gradients are derivatives of the first ones | partial | Grad: second derivatives and gradient of the dephasing rate; real analysis including the kink at zero | `C61_flux_junction`, `C61_flux_inductor`, `C61_flux_loop`, `C61_flux_capacitor`, `C61_critical_current`, `C61_circuit`, `C61_charge_capacitor_partial`, `C61_charge_others`, `C61_charge_refuted`, `C61_second_derivative` |
| C62 | Dephasing rate gradient | proved | Grad: second derivatives and gradient of the dephasing rate; real analysis including the kink at zero | `C62_rate`, `C62_kink`, `C62_flux`, `C62_critical_current`, `C62_charge_partial`, `C62_circuit_loop` |
| C63 | Matrix elements are Hermitian | proved | Grad: diagonal matrix elements and conjugation | `C63_conjugate`, `C63_diagonal`, `C63_exists` |
| C64 | System node numbering is a bijection | partial | System: list of circuits with sizes, coupling matrices, embedded operators, interaction Hamiltonian; induction over the circuit list, Kronecker algebra | `C64_modes`, `C64_nodes_partial`, `C64_nodes_refuted` |
| C65 | System circuit list | proved | System: list of circuits with sizes, coupling matrices, embedded operators, interaction Hamiltonian; induction over the circuit list, Kronecker algebra | `C65_circuits`, `C65_truncations` |
| C66 | System capacitance matrix | partial | System: list of circuits with sizes, coupling matrices, embedded operators, interaction Hamiltonian; induction over the circuit list, Kronecker algebra | `C66_symmetric`, `C66_form_partial`, `C66_uncoupled`, `C66_no_interaction`, `C66_form_refuted`, `C66_ground_refuted` |
| C67 | Operator products in a system | proved | System: list of circuits with sizes, coupling matrices, embedded operators, interaction Hamiltonian; induction over the circuit list, Kronecker algebra | `C67_embedding`, `C67_product`, `C67_commute`, `C67_kron` |
| C68 | System Hamiltonian is Hermitian | partial | System: list of circuits with sizes, coupling matrices, embedded operators, interaction Hamiltonian; induction over the circuit list, Kronecker algebra | `C68_deviation`, `C68_partial`, `C68_single_mode`, `C68_complete_basis`, `C68_build_ok`, `C68_quadratic_partial`, `C68_refuted` |
| C69 | Sweeps tabulate the spectrum at every grid point | partial | Sweep: grids, sweep loops and reshaping; induction over the product grid | `C69_flux_partial`, `C69_charge_partial`, `C69_circuit_flux_partial`, `C69_circuit_charge_partial`, `C69_refuted`, `C69_no_parameters` |
| C70 | Symbolic description Hamiltonian agrees with the numerical one | partial | Symbolic: the sympy expression as a syntax tree with an evaluation; comparison with the Hamiltonian | `C70_deviation`, `C70_partial`, `C70_refuted`, `C70_circuit_deviation`, `C70_circuit_partial`, `C70_islands_refuted` |
| C71 | Convergence test value | partial | Sweep: convergence test on sorted coefficients; list and order arguments | `C71_weight`, `C71_partial`, `C71_guard`, `C71_refuted`, `C71_small_mode` |
| C72 | Loop description lists each inductive element once | proved | Describe: text output as strings; list reasoning | `C72_rows`, `C72_text`, `C72_no_loops` |
| C73 | Scalar helper functions | proved | Special: special functions; real analysis, differentiation under the integral | `C73_log_sinh`, `C73_maximum`, `C73_log_k0`, `C73_k0e_backward`, `C73_log_k0_backward`, `C73_q_ind`, `C73_q_cap`, `C73_default_admittance`, `C73_positive` |
| C74 | Phase-coordinate charge basis convention | proved | Phase: phase-coordinate wave functions: Hermite functions and plane waves; Gaussian integrals, Fourier orthogonality, recurrences | `C74_modulus`, `C74_charge_modes` |
| C75 | Gradient bookkeeping of parameters | proved | Params: ordered parameter dictionary and gradient slots; induction over the dictionary | `C75_zero_grad`, `C75_parameters_grad`, `C75_after_zero_grad` |
| C76 | Phase-coordinate wave functions are normalised | partial | Phase: phase-coordinate wave functions: Hermite functions and plane waves; Gaussian integrals, Fourier orthogonality, recurrences | `C76_inner_partial`, `C76_normalised_partial`, `C76_constructed_partial`, `C76_refuted` |
| C77 | Circuit operators act on phase-coordinate wave functions as in the Schrodinger picture | proved | Phase: phase-coordinate wave functions: Hermite functions and plane waves; Gaussian integrals, Fourier orthogonality, recurrences | `C77_flux`, `C77_charge`, `C77_energy`, `C77_charge_mode`, `C77_exponential` |
| C78 | Modes of a constructed circuit decouple | proved | Transform, CircuitPhys: lifting the transformation theorems to the final mode data of constructed circuits | `C78_modes`, `C78_lc_hamiltonian`, `C78_circuit` |
| C79 | Element description shows every placed element with its value | partial | Describe: text output as strings; list reasoning | `C79_lines`, `C79_partial`, `C79_refuted` |
| C80 | A fluxonium is described by the fluxonium Hamiltonian | proved | CircuitPhys, State: the fluxonium from its element list through construction to the Hamiltonian, and through call histories | `C80_fluxonium`, `C80_session` |
| C81 | The inputs of a circuit are the last ones set | proved | State: last-writer invariant over call histories | `C81_flux`, `C81_value`, `C81_charge`, `C81_fluxonium` |
| C82 | charge_op returns the charge operator of the numbered mode | partial | Readers: reader methods on the circuit state; coherence invariant, canonical transformations | `C82_original`, `C82_eig`, `C82_guards_partial`, `C82_refuted` |
| C83 | coord_transform returns the canonical transformation to the mode coordinates | proved | Readers: reader methods on the circuit state; coherence invariant, canonical transformations | `C83_transform`, `C83_guard` |
| C84 | op('sin_half') is the half-angle sine operator at the current flux | partial | Readers: reader methods on the circuit state; coherence invariant, canonical transformations | `C84_pytorch`, `C84_partial`, `C84_numpy_stale`, `C84_refuted` |
| C85 | Gradients through diag are the chain rule | proved | Torch, Grad: `EigenSolver` forward shapes and backward pass; chain rule with phase-invariant losses | `C85_frequencies`, `C85_backward`, `C85_epsilon`, `C85_circuit`, `C85_truncated` |
| C86 | diag works under PyTorch for every number of eigenvalues | partial | Torch, Grad: `EigenSolver` forward shapes and backward pass; chain rule with phase-invariant losses | `C86_shapes_partial`, `C86_refuted` |
| C87 | Setting a value keeps a component an optimisation parameter | partial | Tracking, Params: `set_value`/`set_flux` as the creation of a new tensor; parameters recomputed by the traversal (`Synced` invariant) | `C87_set`, `C87_partial`, `C87_dropped`, `C87_refuted` |
| C89 | Eigenvector gradients with a truncated set of states | proved | Levels, Perturb: existence of a differentiable eigenvector branch (Weyl bound, continuity of sorted levels, first-order perturbation) proved from the Hamiltonian's derivative alone; `get_partial_vec` on a prefix of the eigenbasis | `C89_projection` |
| C90 | Slopes of the frequencies diag returns | proved | Levels, LevelsSession, LevelsExample: sorted eigenvalues as functions of a parameter; `get_partial_omega` evaluated on whatever normalised eigenvectors the solver returned; lifted to histories through the coherence invariant of C40/C48 | `C90_junction_element`, `C90_level`, `C90_transition`, `C90_flux_session`, `C90_junction_session`, `C90_example` |
| C88 | Pure dephasing rates are noise amplitude times exact slope of the transition frequency | proved | DephasingLevels, DephasingExample, TransmonExample: the three dephasing channels of `dec_rate` on a constructed circuit; slopes of sorted eigenvalues (C90) along a loop flux, a charge offset and the energy of one junction | `C88_flux`, `C88_charge`, `C88_critical_current`, `C88_example`, `C88_charge_example` |
| C91 | Depolarisation rates are golden-rule sums over the placed elements | proved | GoldenRule: the three loss channels of `dec_rate` on a constructed circuit as sums over the placements, spec in Spec/Loss (Bose factor, per-element loss) | `C91_capacitive`, `C91_inductive`, `C91_quasiparticle`, `C91_example` |
| C92 | Parallel junctions give the Cooper-pair-box Hamiltonian (transmon, SQUID) | proved | Transmon, TransmonExample: junctions and capacitors on one edge through construction (all three transformations computed in closed form) to the Hamiltonian, and through call histories; spec in Spec/Transmon (charging energy, charge shift) | `C92_parallel`, `C92_transmon`, `C92_squid`, `C92_symmetric_squid`, `C92_session`, `C92_squid_session`, `C92_example` |
| C93 | Coupled islands: Hamiltonian of junctions and capacitors without inductors | proved | Islands, Islands2, Islands3: circuits without inductors of any size: the Gram-Schmidt selection is shown to keep every junction edge (dual vectors bound the residuals from below), the second transformation then makes every junction edge a mode; spec in Spec/Islands | `C93_islands`, `C93_constructed`, `C93_session`, `C93_two_transmons`, `C93_example` |
| C94 | Reversing all fluxes leaves the transition frequencies unchanged | proved | Reversal, SimpleSpectrum: antiunitary symmetry of the truncated operators (complex conjugation with sign (-1)^n on harmonic levels) reverses every flux; carried through the Hamiltonian and diag in every reachable state; spec in Spec/Reversal | `C94_flux_reversal`, `C94_example` |
| C95 | Reversing all charge offsets leaves the frequencies unchanged | proved | Reversal, SimpleSpectrum: antiunitary symmetry reversing the order of the charge states; set_charge_offset calls through sessions | `C95_charge_reversal`, `C95_example` |
| C96 | Sweet spots: no first-order dephasing at symmetric bias | proved | Reversal, SimpleSpectrum: transition frequencies are even functions around the symmetric bias, so their slopes (C88) vanish | `C96_flux_sweet_spot`, `C96_charge_sweet_spot`, `C96_transmon`, `C96_example` |
| C97 | Transmons have no degenerate levels | proved | SimpleSpectrum: eigenvectors of a chain with non-zero nearest-neighbour couplings are determined by their first component | `C97_transmon`, `C97_squid`, `C97_example` |
| C98 | More charge states never raise a level, and the levels converge | proved | Interlace, Truncation: the Hamiltonian for fewer charge states is a principal submatrix of the one for more (all single-mode operators of a charge mode are banded around the same centre); Cauchy interlacing from a dimension count; Schur test and positivity of the charging energy give a lower bound independent of the truncation | `C98_more_charge_states`, `C98_convergence`, `C98_example` |
| C99 | Layout and errors of the array of sampled wave functions | proved | PhaseGrid: arrays as shape and entries by multi-index; squeeze and transposition as maps of multi-indices, shown to be a bijection from grid points | `C99_layout`, `C99_negative`, `C99_errors`, `C99_example` |
| C100 | Circuits without junctions are harmonic oscillators | proved | Linear, LinearExample: without junctions the first transformation is final: canonical and diagonalising, so its columns are normal modes; the Hamiltonian is diagonal in the product basis, whose sorted diagonal is what `diag` returns; spec in Spec/Linear | `C100_linear`, `C100_accepted`, `C100_resonator`, `C100_example` |
| C101 | Node numbering does not change frequencies | proved | Linear, LinearExample: a renumbering permutes rows and columns of the node matrices, and normal-mode frequencies are the roots of det(L - w² C) | `C101_renumbering`, `C101_example` |
| C102 | Frequencies are periodic in the offset charges | proved | ChargePeriod: shifting the charge label by z maps the truncated Hamiltonian for offset g onto a compression of that for g + z, so interlacing brackets the levels; the limits then agree by C98_convergence; spec in Spec/ChargePeriod | `C102_bracket`, `C102_periodic`, `C102_example` |
| C103 | Frequencies change no faster than junction energies and fluxes | proved | Stability: Weyl's inequality between two ordered spectra, proved from min-max (levels_weyl); the matrices e^{i phi} built by the code are partial isometries, so a term E cos phi changes the quadratic form by at most |dE| or |E||d phase|. | `C103_energies`, `C103_fluxes`, `C103_example` |
| C104 | What depends on flux_dist | proved | FluxDist: The rows of the flux matrix for two choices of the weights solve the same loop equations, so their difference lies in the row space of the incidence matrix; a diagonal unitary on the charge states then turns one Hamiltonian into the other, and the rounding of the shares is absorbed by the stability bound of C103. | `C104_gradient`, `C104_frequencies`, `C104_example` |
| C105 | Frequencies of junction circuits are periodic in the external fluxes | proved | FluxPeriod: Every loop of such a circuit consists of two junctions in parallel, so the loop equations make the shares of parallel junctions differ by integers and rounding preserves this; a diagonal unitary on the charge states removes the common part. | `C105_periodic`, `C105_symmetric`, `C105_example` |
| C106 | Gradients of dephasing rates under PyTorch | proved | DecRateGrad: The rates are sums over noise channels (C78, C89); each channel's contribution is an amplitude times the modulus of a first derivative of a transition frequency, whose derivative C61 and C90 give; where it is not zero the modulus is differentiable. | `C106_flux`, `C106_critical_current`, `C106_charge`, `C106_epsilon`, `C106_example_flux`, `C106_example_cc`, `C106_example_charge` |
| C107 | A system of coupled circuits agrees with the one circuit that contains them | proved | Merge: C107_complete: with complete eigenbases the charge operators of one circuit commute and the Hamiltonian of the system is, in the product basis, the sum of the Hamiltonians of the parts and the interaction of all modes (C68). C107_merged: the capacitance matrix of the system is that of the merged circuit (induction over the couplings), the junction edges of the merged circuit are those of the parts, and in the junction coordinates that both construct (C93) the coefficients add up to the inverse capacitance of the merged circuit; the state spaces are identified by the bijection of the modes. | `C107_merged`, `C107_complete`, `C107_uncoupled`, `C107_example` |
| C108 | Elements in parallel combine | proved | Parallel: The traversal state without the parameter dictionary and derivative matrices is not changed by capacitors and depends only on the list of the other elements (induction over the elements of an edge, then over the dictionary); the capacitance matrix depends only on the totals. For loop-free dictionaries an invariant relates the two traversals: same C, L, W, no loops, and same sums of Josephson energies over every row of W. | `C108_capacitors`, `C108_observed`, `C108_parallel`, `C108_split_capacitor`, `C108_merge_junctions`, `C108_example` |
| C109 | Matrix elements do not depend on how operators are stored | proved | LinAlg: Storage formats are modelled as lists of rows / of offsets with columns; the coordinate lists are followed as scipy's tocoo builds them, and their matrices computed by induction over the lists. | `C109_convert`, `C109_inner`, `C109_dag`, `C109_example` |
| C110 | mat_mul multiplies in the order of its arguments | partial | LinAlg: Case analysis over the types with C109_convert for the conversions; a 2 by 2 counterexample for the refutation. | `C110_product_partial`, `C110_tensor_qobj`, `C110_refuted` |
| C111 | Frequencies do not depend on how the circuit dictionary is written | partial | Relabel: The junction edges of the two dictionaries are matched with signs; the inverse capacitance matrices agree up to the signs; reordering modes and reversing charges is a permutation of the basis. For the refutation the flux shares of three branches are computed and the ground level of three charge states is shown to determine the effective Josephson energy. | `C111_islands_partial`, `C111_constructed_partial`, `C111_held_partial`, `C111_one_loop_partial`, `C111_example`, `C111_refuted` |
| C112 | A sweep with 'loss' tabulates dec_rate at every grid point | proved | Sweeps of rates: The stored operators after diag belong to the present fluxes, offsets and truncation (C112_session), so each rate is a function of the present parameters; the loop writes each entry once and later steps leave it alone. | `C112_flux`, `C112_charge`, `C112_session`, `C112_defined`, `C112_circuit_flux`, `C112_circuit_charge`, `C112_one_state`, `C112_example` |
| C113 | Dephasing rates are noise amplitudes times slopes of the reported frequencies | proved | Dephasing in sessions: Hellmann-Feynman for the stored Hamiltonian (C88) with the first-order perturbation of isolated eigenvalues, carried from operators to what diag returns by diag_slope; the sums over loops, junctions and modes are those of the code. | `C113_flux`, `C113_critical_current`, `C113_charge`, `C113_example` |
| C114 | An LC resonator decays at omega n / Q | proved | Losses of a resonator: For one node the scaling and rotation of coordinates reduce to numbers whose product is one, so the frequency is 1/sqrt(LC), the voltage operator is i(a-a+) times sqrt(omega/2C) and the flux operator (a+a+) times sqrt(omega L/2). The Hamiltonian is diagonal with distinct entries, so every eigenvector a solver returns is a number state up to phase; matrix elements of a and a+ follow, and the sum over elements gives the weights. | `C114_resonator`, `C114_selection`, `C114_example` |
| C115 | Derivatives of a resonator's frequencies with respect to its capacitors and inductors | partial | Sensitivities of a resonator: The recorded sensitivities (C20) are evaluated for parallel elements; the derivative operator is a multiple of (a-a+)^2 or (a+a+)^2, whose diagonal elements in number states are 2p+1 up to sign; the frequencies after set and update() are those of C100; the derivative of 1/sqrt(LC) is computed and compared. | `C115_slope_partial`, `C115_absolute`, `C115_example`, `C115_refuted`, `C115_attached_refuted` |
| C116 | Derivatives of a junction circuit's frequencies with respect to its capacitors | partial | Sensitivities of junction circuits: The recorded sensitivity (C20) is evaluated; the derivative of C^-1 is -C^-1 dC C^-1; the Hamiltonian after set and update() is that of C93, its derivative in x is the operator of get_partial_omega; near the present value the order of modes does not change; the slope of a simple eigenvalue of a Hermitian family is the expectation of the derivative (Hellmann-Feynman, proved in C108). | `C116_slope_partial`, `C116_transmon`, `C116_example`, `C116_attached_refuted` |
| C117 | Both engines describe the same circuit | partial | The two engines: The edge traversal is shown to be independent of the engine apart from the records for gradients; a rebuild (update) never removes modes; a simulation relation (replace build and rebuild of the one circuit by those of the other) is preserved by every call. | `C117_errors`, `C117_agree_partial`, `C117_uncoupled`, `C117_islands`, `C117_refuted` |
| C118 | description() gives a value to every symbol it prints | proved | Printed symbols and values: The printed equations are characterised by membership lemmas; every symbol of every summand is looked up; values follow from the error bounds of rounding to decimals and to significant digits; names are decoded with base-10 digits. | `C118_cosines`, `C118_inductive`, `C118_terms`, `C118_listing`, `C118_circuit`, `C118_names`, `C118_names_limit`, `C118_example` |
| C119 | The choice of the ground node does not change the spectrum | proved | Choice of ground: The node fluxes of the two choices are related by an invertible integer matrix T with W' T = ±W and C = Tᵀ C' T, so the inverse capacitances between junction edges agree up to signs; then as for C111. | `C119_islands`, `C119_constructed`, `C119_example` |
| C120 | Circuits that share elements and loops do not disturb each other | proved | Several circuits: A simulation between traversals that start with different loop objects shows that construction and update do not depend on the bookkeeping; then induction over the interleaved program. | `C120_isolated`, `C120_alone`, `C120_example` |
| C121 | More capacitance never raises a level | proved | Capacitance lowers levels: The quadratic form of the capacitance matrix grows with every capacitor, that of its inverse shrinks, the charging operator is diagonal in the charge states, and ordered eigenvalues are monotone (min-max). | `C121_capacitors`, `C121_constructed`, `C121_example` |
| C122 | A circuit keeps the description it was built from | partial | Caller's lists: A program with a heap of list objects is related to the model of a single circuit by induction over the statements; the refutation is a program on two coupled islands. | `C122_dictionary_partial`, `C122_no_update_partial`, `C122_update_partial`, `C122_refuted`, `C122_example` |
| C123 | A call that raises leaves the circuit as it was | partial | Failing calls: Invariant on reachable states (islands for all charge modes, positive dimensions) by induction over the history; a refined model of update follows the assignments made before the inversion. | `C123_unchanged_partial`, `C123_orderly_partial`, `C123_heals_partial`, `C123_trunc_refuted`, `C123_update_first`, `C123_refuted`, `C123_example` |
| C124 | A computed state may be named from the end | partial | Negative state indices: Python indexing is modelled by pyGet; each reader is followed from the index to its uses. The one-way rates use the symmetry of the coupling of C63. | `C124_readers_partial`, `C124_vectors_partial`, `C124_one_way`, `C124_session`, `C124_vec`, `C124_vec_refuted`, `C124_vec_circuit`, `C124_refuted` |
| C125 | Scaling all energies scales all frequencies | proved | Scaling of energies: Hamiltonians of C93 and C80; the inverse capacitance matrix and the oscillator frequency scale with the factor, the zero-point phase does not; uniqueness of levels (C45). | `C125_islands`, `C125_constructed`, `C125_fluxonium`, `C125_fluxonium_constructed`, `C125_example` |
| C126 | Parity selection rule at symmetric bias | proved | Parity selection rule: The flux reversal and the charge reversal of C94 and C95 are symmetries of the Hamiltonian; a non-degenerate level is mapped to itself up to a phase by each; charge, flux and half-angle sine operators change sign under exactly one of the two. | `C126_elements`, `C126_session`, `C126_three`, `C126_example` |
| C127 | Capacitive loss of junction circuits depends only on voltages, not on node numbering or ground | proved | Capacitive loss of junction circuits: The couplings of the transformed circuit are the voltage operators of the junction islands; a change of ground or numbering permutes the junction edges and flips signs, which a permutation of the charge modes with charge reversals undoes; non-degenerate states correspond up to a phase. | `C127_formula`, `C127_islands`, `C127_constructed`, `C127_example` |
| C128 | Parts of a circuit that share only the ground node do not see each other: energies add | proved | Energies of separate parts add: The inverse capacitance matrix of the merged dictionary is block diagonal, so the Hamiltonian is a sum of operators on disjoint sets of modes; the levels of such a sum are the sums of levels. | `C128_parts`, `C128_session`, `C128_constructed`, `C128_example` |
| C129 | A linear network loses energy mode by mode, at the mode frequency over the energy-weighted quality factor | proved | Losses of linear networks, mode by mode: The construction makes the mode matrices diagonal, so the columns of S, normalised with the capacitance matrix, are the normal-mode patterns and the coupling of an edge to a mode is its branch difference; the non-degenerate eigenvectors of the diagonal Hamiltonian are product states, and C91 gives the rates. | `C129_network`, `C129_shares`, `C129_uniform`, `C129_position`, `C129_example` |
| C130 | Floating islands, and capacitors in series, behave as their equivalent circuit | proved | Floating islands and capacitors in series: C93_islands gives the Hamiltonian of the junction edges whatever the completion of the basis. The voltage of a node between two capacitors is chosen such that it carries no charge; then the capacitance matrix acts on the other nodes as that of the single capacitor, so J C^-1 J^T is the same and relabel_islands carries one Hamiltonian into the other. | `C130_session`, `C130_constructed`, `C130_differential`, `C130_series`, `C130_series_constructed`, `C130_example` |
| C131 | The graph of a circuit decides how many modes it has, and of which kind | proved | Number and kinds of modes: Node potentials constant on the parts joined by inductors are exactly the kernel of the inverse inductance matrix; its dimension, p - 1, is the number of frequencies that are zero. A charge coordinate is kept when a junction row does not vanish on it; the kept ones number the rank of the junction rows on the kernel, whose common kernel are the potentials constant on the parts joined by inductors and junctions. | `C131_at_most`, `C131_all_modes`, `C131_charge_modes`, `C131_grounded`, `C131_no_charge`, `C131_example`, `C131_fluxonium` |
| C132 | Circuits whose nodes are all held by inductors have the Hamiltonian of their normal modes | proved | Normal-mode Hamiltonian: The library's final transformation makes both matrices diagonal, so its columns are the normal mode patterns up to sign and scale (uniqueness of the modes of a positive definite pencil with different frequencies). The scales cancel in the zero-point fluctuations, the signs are removed by the parity of each mode, a unitary operator that maps a_j to -a_j. | `C132_hamiltonian`, `C132_levels`, `C132_patterns`, `C132_zero_flux`, `C132_example` |
| C133 | Larger capacitors or inductors never raise a frequency of a linear network | proved | Rayleigh monotonicity: The frequencies are sums of multiples of the normal-mode frequencies (C100). Rayleigh's argument: a combination of the first j+1 modes of one network is also one of the modes from j on of the other (dimension count), and comparing its potential and kinetic energies in both networks orders the j-th frequencies. Sorted lists of sums keep the order. | `C133_slower`, `C133_example` |
| C134 | External phases of a circuit written down in two ways agree up to directions and one sign per loop | proved | notations and loops: The incidence matrix of a loop is totally unimodular, so the loop vector has entries 0 and 1 and -1 (C21_signs). Hence the loop vectors of the two notations, both closing at every node and normalised at their first branch, differ by the sign of one entry. The equations for the shares are carried over by the matching of branches and have one solution; rounding commutes with signs. For frequencies: the Hamiltonians of C132 are equal up to reversing modes. | `C134_phases`, `C134_frequencies`, `C134_example` |
| C135 | flux_dist decides which elements carry the external fluxes | proved | flux_dist: Thomson's principle: the exact shares minimise the energy of the edge capacitances (1e-20 on carriers, 1e20 on others) among all distributions with the same loop fluxes. Putting each loop's flux on its own element has energy 1e-20, so every other element carries at most 1e-20, which is rounded to zero. Loop vectors have entries 0 and 1 and -1 (C21_signs), so the share of the only carrier differs from 1 by at most 1e-8. | `C135_flux_dist`, `C135_one_each`, `C135_example` |
| C136 | The modes NumPy leaves out are independent oscillators | proved | ladders: The Hamiltonian of all modes is the lift of the Hamiltonian of the coupled modes plus a diagonal operator: displacement factors of the other modes are exp(0), their charges are not coupled to any mode (C78). Splitting the index set gives H ⊗ 1 + 1 ⊗ diagonal, which the eigenvectors of H diagonalise. | `C136_levels`, `C136_session`, `C136_example` |
| C137 | Junctions move frequencies by at most their energies | proved | heldbound: C132 gives the Hamiltonian of the normal modes. Without flux at the inductors it is a diagonal operator minus cosines; exp(i phase) is unitary, so no expectation value of a cosine exceeds one, and Weyl's inequality bounds the shift of each level. | `C137_levels`, `C137_zero_flux`, `C137_example` |
| C138 | The lowest frequencies are concave in the Josephson energies | proved | concave: hamiltonian() is linear in the junction values. By Ky Fan's principle the sum of the m lowest levels is the least sum of expectation values over m orthonormal vectors; the eigenvectors of the mixture are one choice for both ends. | `C138_concave`, `C138_example` |
| C139 | A System stays valid while the program goes on | proved | systems in programs: System objects store circuits, n_N and trunc_nums; operators carry the dimensions of their factors and adding different dimensions raises TypeError. The loops of _H_local and _quadratic_Q are folds with exceptions; they are shown to compute the sums of the model of C64-C68 exactly if the sizes fit, and to raise TypeError otherwise. | `C139_follows`, `C139_stale`, `C139_value`, `C139_modes`, `C139_circuit`, `C139_diagonalized`, `C139_kept`, `C139_example` |
| C140 | What a sweep returned or saved stays what it computed | proved | Model/SweepObject, Spec/SweepObject, Props/SweepObject: arrays, grids, Sweep objects and files with identities; frame lemmas over all program steps, and the loop over the grid reduced to those of C69 and C112 | `C140_left`, `C140_file`, `C140_returned`, `C140_failed`, `C140_circuit`, `C140_grid_shared`, `C140_works`, `C140_example` |
| C141 | Frequencies and rates do not depend on the eigenvalue routine or on how many levels are computed | proved | Spec/SolverChoice, Props/SolverChoice: a relation between runs that differ only in what computing leaves behind, uniqueness of simple eigenvectors up to phase, and invariance of all rate formulas under phases | `C141_solver`, `C141_example` |
| C142 | Rates between the levels diag returned obey detailed balance at the set temperature | proved | Spec/ThermalSession, Props/ThermalSession: dec_rate in a session reduced to one common factor times the thermal factors of C54 | `C142_balance`, `C142_nonneg`, `C142_temperature`, `C142_example` |
| C143 | Reversing all loop fluxes leaves every decoherence rate between simple levels unchanged | proved | Props/ReversalRates: the flux reversal of C94 as an antiunitary map: charge operators are fixed, flux, sine and half-angle sine operators change sign up to a constant; stored states of simple levels agree up to a phase | `C143_flux_reversal`, `C143_example` |
| C144 | A new element means what its number means in the unit given, or in the default unit of its kind | proved | Props/NewElements: from the history theorem C02 and the meaning of units (CapMeans, IndMeans) | `C144_default`, `C144_unit`, `C144_rejected`, `C144_example` |

## 5. Disagreements found between the code and the expected behaviour

Proved counterexamples:

* C07 `Junction.get_value`: the value read back in a frequency unit is 2π times the value set.
* C08 `None` as unit passes the unit check and overwrites the fabrication error argument handling (`C08_none_unit_overwrites_error`).
* C10 `Loop.set_noise` stores the amplitude without the factor 2π the constructor applies.
* C11 `Circuit.set_charge_noise` calls a method that does not exist (`AttributeError`) for every charge mode.
* C20/C50 NumPy: attached capacitors are not recorded as sensitivities or parameters (`…_numpy` theorems).
* C24 the flux distribution keeps the first rank(M) non-zero columns, independent or not; construction then depends on node numbering.
* C30 construction of a valid circuit may never return (the second transformation retries for ever).
* C33, C34, C58, C64, C66 after removal of uncoupled modes (NumPy) S, R and node offsets keep the old size: couplings, sensitivities and system couplings use the wrong columns.
* C36 `update()` raises when construction removed modes, or before truncation numbers are set.
* C49 stored eigenpairs outlive changes of charge offset, flux, truncation and element values.
* C51 a too short parameter list raises `ValueError` after the leading elements were changed.
* C52 `safecopy` raises `KeyError` when a tracked parameter is an attached capacitor; shared elements become separate.
* C54 at equal frequencies the thermal factors are infinite.
* C56 quasiparticle operator: the charge-mode part is replaced by the identity, so a transmon has no quasiparticle loss.
* C60 with a negative state index the state itself is not excluded from the perturbation sum.
* C61 the charge channel of the second derivative leaves out the second transformation R.
* C66 couplings to ground in a system address the wrong row.
* C68 the interaction Hamiltonian of a system is not Hermitian for a circuit with two modes and a truncated eigenbasis.
* C69 sweeps over grids of two or more dimensions raise `ValueError`.
* C70 the printed symbolic Hamiltonian names charge `n_{i+1}` twice in the cross terms of charge modes.
* C71 the convergence test at threshold 0 and the treatment of small modes.
* C72 a circuit without loops raises `ValueError` in the loop description.
* C76 phase-coordinate wave functions from the 250th level of a harmonic mode on are not normalised (asymptotic formula).
* C79 the junction line prints 2π E_J/h labelled as Hz.
* C82 `charge_op(0)` returns the operator of the last mode; `charge_op(i,'eig')` before `diag` raises `ValueError`/`AttributeError` instead of `CircuitStateError`.
* C84 NumPy: `op('sin_half')` is the operator at the flux of the last `hamiltonian()` call.
* C85 the gradient of a loss of the eigenvectors is wrong when fewer states than the dimension are computed (`C85_truncated`).
* C86 PyTorch: `diag(1)` raises `RuntimeError`.
* C87 PyTorch: `set_value`/`set_flux` replace the tensor; the component silently drops out of `parameters` at the
  next `update()`.
* C110 `functions.py:282-285`: under PyTorch `mat_mul(Tensor, Qobj)` returns `(B A)^T` instead of `A B`.
* C111 with two or more loops the frequencies depend on the order in which elements are listed: each loop takes its sign from its element listed first (`get_g`, circuit.py:808-833).
* C115 `get_partial_omega(..., subtract_ground=False)`, which `EigenSolver.backward` uses, contains the zero-point energy that `hamiltonian()` leaves out: for a resonator the gradient of the (identically zero) ground frequency is not zero and that of level 1 is 3/2 of the slope of what `diag` returns. Transition frequencies are right.
* C115 under NumPy `partial_mats` does not record capacitors attached to inductors or junctions (circuit.py:172-176 runs only with PyTorch), so `get_partial_omega` for a capacitor that is both placed and attached misses a contribution.
* C118: symbols `EC_{i}{j}` are named without a separator (`symbolic.py:81-83`); from 111 modes on different charging energies share a name (C118_names_limit).
* C117: `circuit.py:343-344` removes modes no junction touches under NumPy only. The same circuit has more modes under PyTorch, and truncation numbers valid for one engine raise `ValueError` under the other (C117_uncoupled, C117_refuted).
* C122: `circuit.py:286-288` copies the dictionary of elements but keeps the list objects of the caller. Appending to such a list later changes `dec_rate("capacitive", ...)` and the printed description at once, and the Hamiltonian at the next `update()` (C122_refuted).
* C116 under NumPy `get_partial_omega` returns exactly 0 for the capacitor attached to the junction of a Cooper pair box, although its frequencies fall when that capacitor grows (C116_attached_refuted; same cause as C115: capacitors attached to other elements are recorded under PyTorch only).
* C123 `set_trunc_nums([0, ...])` raises, but `self.m` and `self.ms` have been replaced: `trunc_nums` returns the rejected list, `hamiltonian()` the old operator, `set_charge_offset` raises. `update()` raises IndexError before truncation numbers are set. When `C` is singular, `update()` raises after `R` and `S` were set to identity matrices; `coord_transform` and `coupling_op` are wrong until the next successful `update()` (circuit.py:416-421).
* C124 Naming a state from the end (`-1` for the last one computed) is accepted everywhere, but `dec_rate(..., total=False)` chooses between emission and absorption by comparing the indices, so `(-1, 1)` gives the rate from 1 to the last state; and `get_partial_vec` compares the loop counter with the index, so the state itself stays in the sum, divided by 1e-12.

Noticed while reading, not stated as a property:

* Inductor and junction couplings passed to a `System` are ignored without a message.
* `save_eigs=True` of a sweep fails under NumPy; a loaded circuit needs `update()` before `set_trunc_nums` (C53 states the latter).
* A Sweep object keeps the caller's grid list by reference: `save()` after an in-place change of the list stores the changed grid beside the tables of the old one (C140_grid_shared).
* `eig_phase_coord` mixes units for grids of charge and harmonic modes.
* An inductor with `Q=None` raises `TypeError` in the inductive loss.
* The description lists ω/2π but E_C, E_L, E_J as frequencies (mixed conventions; C70 converts explicitly).

## 6. What is modelled and what is not, per source file

| file | modelled | not modelled |
|------|----------|--------------|
| `settings.py`, `units.py`, `noise.py`, `exceptions.py` | all functions and registers | exception messages |
| `elements.py` | `Capacitor`, `Inductor`, `Junction`, `Loop`, `Charge`: values, errors, units, Q/admittance functions, capacitors attached to inductors and junctions, flux/noise setters, K-matrix and partial-matrix helpers | `id_str` formatting beyond the default; user-supplied Q/Y functions are parameters; type checks of wrong Python types |
| `circuit.py` 60–226 `CircuitEdge` | all | |
| `circuit.py` 230–440 constructor, `update` | graph traversal, matrices, flux distribution, transformations, mode removal, charge islands, state | time stamps and verbose output |
| `circuit.py` 442–741 parameters, copies, pickling | parameter dictionary, gradients' slots, `safecopy`, `picklecopy`, `__getstate__` | dill's serialisation (identity assumed) |
| `circuit.py` 743–1186 | B matrix, transformations 1–3, Gram-Schmidt, uncoupled modes | floating point of LAPACK (replaced by contracts) |
| `circuit.py` 1188–1340 | `description` (symbolic Hamiltonian, parameter lists), `loop_description` | IPython display, LaTeX text layout of `description` |
| `circuit.py` 1340–1830 | truncation, offsets, operator memory, LC part, exponentials, inductive Hamiltonian | sparse storage (dense matrices) |
| `circuit.py` 1831–2164 | `charge_op`, `op('sin_half')`, `diag` (both engines), `truncate_circuit`, `test_convergence`, `coord_transform`, `hamiltonian` | |
| `circuit.py` 2166–2312 | state index conversion, `eig_phase_coord` (wave function values, layout of the returned array) | the spacing and units of the grid arrays the user passes |
| `circuit.py` 2314–2921 | `coupling_op`, `matrix_elements`, `dec_rate` for all channels, first and second derivatives | |
| `functions.py` | helper functions used above, special functions with gradients | pure array conversions between engines |
| `torch_extensions.py` | `EigenSolver` forward shapes and backward, special functions' backward, dephasing-rate and loss-rate forward and derivative formulas | autograd engine itself (chain rule of PyTorch is assumed) |
| `sweep.py` | grids of any dimension, flux and charge sweeps of eigenfrequencies and of loss rates, Sweep objects with `toFile` and the exception of `plotF` | plots, logging |
| `systems.py` | all of `Couple`/`System` used for the Hamiltonian, System objects kept while the program goes on | `Coupling` of inductors/junctions is ignored by the code |
| `symbolic.py`, `texts.py` | the expression tree, loop and element text | LaTeX rendering by sympy |
| `storage.py` | `save`, `load` (contents by value), the exception `plot` raises | dill (identity on the state, as in C53), operating-system errors and drawing |

## 7. Tests of the theorems against wrong programs

`seeded/LOG.jsonl` has one line per attempt: definition edited, edit, English claim it breaks,
theorems that failed and theorems tightened afterwards. Attempts are run in a scratch copy; a mutant is
recorded as caught when a property theorem, or a lemma its proof rests on about the edited
definition, no longer compiles. Survivors led to stronger theorems (field `theorems_tightened`) or are
recorded with the reason why the edited program still satisfies the claim.
