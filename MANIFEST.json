{
 "claims": [
  {
   "property": "C01",
   "status": "proved",
   "theorems": [
    "ED.Props.C01_roundtrip_pair",
    "ED.Props.C01_roundtrip_flat",
    "ED.Props.C01_bijection"
   ],
   "note": ""
  },
  {
   "property": "C02",
   "status": "proved",
   "theorems": [
    "ED.Props.C02_basis_order",
    "ED.Props.C02_boson_elements"
   ],
   "note": ""
  },
  {
   "property": "C03",
   "status": "proved",
   "theorems": [
    "ED.Props.C03_fermion_elements",
    "ED.Props.C03_bad_format"
   ],
   "note": ""
  },
  {
   "property": "C04",
   "status": "proved",
   "theorems": [
    "ED.Props.C04_c_cdag",
    "ED.Props.C04_c_c",
    "ED.Props.C04_cdag_cdag",
    "ED.Props.C04_adjoint_number"
   ],
   "note": ""
  },
  {
   "property": "C05",
   "status": "proved",
   "theorems": [
    "ED.Props.C05_two_site_product"
   ],
   "note": ""
  },
  {
   "property": "C06",
   "status": "proved",
   "theorems": [
    "ED.Props.C06_boson_commute",
    "ED.Props.C06_boson_same_mode"
   ],
   "note": ""
  },
  {
   "property": "C07",
   "status": "partial",
   "theorems": [
    "ED.Props.C07_dimension_iff",
    "ED.Props.C07_violated",
    "ED.Props.C07_dimension_partial"
   ],
   "note": "The code violates the full statement (eye(2**k) instead of eye(nbasis**k)); proved exactly when the dimension is right."
  },
  {
   "property": "C08",
   "status": "proved",
   "theorems": [
    "ED.Props.C08_two_site_elements"
   ],
   "note": ""
  },
  {
   "property": "C09",
   "status": "partial",
   "theorems": [
    "ED.Props.C09_spin_swap_partial",
    "ED.Props.C09_same_site_violated"
   ],
   "note": "Holds for two different sites; for equal sites the code returns 2*identity (proved)."
  },
  {
   "property": "C10",
   "status": "proved",
   "theorems": [
    "ED.Props.C10_fermion_swap",
    "ED.Props.C10_create_is_library_operator"
   ],
   "note": ""
  },
  {
   "property": "C11",
   "status": "proved",
   "theorems": [
    "ED.Props.C11_xform_fermions",
    "ED.Props.C11_xform_spins"
   ],
   "note": ""
  },
  {
   "property": "C12",
   "status": "proved",
   "theorems": [
    "ED.Props.C12_fermion_powers",
    "ED.Props.C12_spin_powers",
    "ED.Props.C12_fermion_products",
    "ED.Props.C12_spin_products"
   ],
   "note": ""
  },
  {
   "property": "C14",
   "status": "proved",
   "theorems": [
    "ED.Props.C14_sum_op",
    "ED.Props.C14_number_counts",
    "ED.Props.C14_sum_op_q"
   ],
   "note": ""
  },
  {
   "property": "C16",
   "status": "proved",
   "theorems": [
    "ED.Props.C16_number_projector",
    "ED.Props.C16_other_inputs"
   ],
   "note": ""
  },
  {
   "property": "C17",
   "status": "proved",
   "theorems": [
    "ED.Props.C17_selects",
    "ED.Props.C17_default_values",
    "ED.Props.C17_orthonormal",
    "ED.Props.C17_orthogonal",
    "ED.Props.C17_complete"
   ],
   "note": ""
  },
  {
   "property": "C25",
   "status": "partial",
   "theorems": [
    "ED.Props.C25_hermitian_iff",
    "ED.Props.C25_hermitian_partial",
    "ED.Props.C25_complex_hopping_violated",
    "ED.Props.C25_one_species_interaction_fails"
   ],
   "note": "Holds for symmetric real parameters; fails for complex Hermitian hopping (the code adds t c^dag c + t h.c.), proved."
  },
  {
   "property": "C26",
   "status": "proved",
   "theorems": [
    "ED.Props.C26_number_conservation",
    "ED.Props.C26_exists_iff"
   ],
   "note": ""
  },
  {
   "property": "C27",
   "status": "partial",
   "theorems": [
    "ED.Props.C27_hamiltonian",
    "ED.Props.C27_amplitude_partial",
    "ED.Props.C27_diagonal_bond_violated",
    "ED.Props.C27_complex_hopping_violated"
   ],
   "note": "Amplitude is -t for bonds with |dx|+|dy|=1 and real hopping; otherwise the code weights the bond differently (proved)."
  },
  {
   "property": "C28",
   "status": "proved",
   "theorems": [
    "ED.Props.C28_classical",
    "ED.Props.C28_one_species"
   ],
   "note": ""
  },
  {
   "property": "C30",
   "status": "proved",
   "theorems": [
    "ED.Props.C30_projected_eigenstates",
    "ED.Props.C30_complete"
   ],
   "note": ""
  },
  {
   "property": "C13",
   "status": "proved",
   "theorems": [
    "ED.Props.C13_fermions",
    "ED.Props.C13_spins"
   ],
   "note": ""
  },
  {
   "property": "C15",
   "status": "proved",
   "theorems": [
    "ED.Props.C15_fermion_labels",
    "ED.Props.C15_spin_labels"
   ],
   "note": ""
  },
  {
   "property": "C31",
   "status": "partial",
   "theorems": [
    "ED.Props.C31_algebra_partial",
    "ED.Props.C31_violated"
   ],
   "note": "The code satisfies the algebra with i replaced by -i, for every spin; the documented sign is refuted for every spin."
  },
  {
   "property": "C32",
   "status": "proved",
   "theorems": [
    "ED.Props.C32_total_spin"
   ],
   "note": ""
  },
  {
   "property": "C33",
   "status": "partial",
   "theorems": [
    "ED.Props.C33_hermitian_partial",
    "ED.Props.C33_twisted_violated",
    "ED.Props.C33_higher_spin_field_fails",
    "ED.Props.C33_higher_spin_iff"
   ],
   "note": "Holds for real coupling matrices; twisted boundary phases make it non-Hermitian (proved)."
  },
  {
   "property": "C34",
   "status": "proved",
   "theorems": [
    "ED.Props.C34_ising"
   ],
   "note": ""
  },
  {
   "property": "C35",
   "status": "proved",
   "theorems": [
    "ED.Props.C35_rydberg"
   ],
   "note": ""
  },
  {
   "property": "C36",
   "status": "proved",
   "theorems": [
    "ED.Props.C36_flip",
    "ED.Props.C36_flip_commutes"
   ],
   "note": ""
  },
  {
   "property": "C37",
   "status": "partial",
   "theorems": [
    "ED.Props.C37_special_states_partial",
    "ED.Props.C37_plus_minus",
    "ED.Props.C37_afm2_violated"
   ],
   "note": "All states except AFM2, whose index is off by one (proved for every size)."
  },
  {
   "property": "C75",
   "status": "partial",
   "theorems": [
    "ED.Props.C75_hamiltonian_partial",
    "ED.Props.C75_hy_violated"
   ],
   "note": "The code builds the documented Hamiltonian with the sign of hy reversed."
  },
  {
   "property": "C76",
   "status": "proved",
   "theorems": [
    "ED.Props.C76_pair_counts"
   ],
   "note": ""
  },
  {
   "property": "C74",
   "status": "proved",
   "theorems": [
    "ED.Props.C74_basis_states"
   ],
   "note": ""
  },
  {
   "property": "C18",
   "status": "proved",
   "theorems": [
    "ED.Props.C18_expectation",
    "ED.Props.C18_linear",
    "ED.Props.C18_identity",
    "ED.Props.C18_norms",
    "ED.Props.C18_eigenvectors",
    "ED.Props.C18_matrix_elements"
   ],
   "note": ""
  },
  {
   "property": "C19",
   "status": "proved",
   "theorems": [
    "ED.Props.C19_probabilities",
    "ED.Props.C19_boltzmann",
    "ED.Props.C19_between",
    "ED.Props.C19_identity",
    "ED.Props.C19_canonical",
    "ED.Props.C19_many"
   ],
   "note": ""
  },
  {
   "property": "C20",
   "status": "proved",
   "theorems": [
    "ED.Props.C20_shift",
    "ED.Props.C20_limit",
    "ED.Props.C20_limit_ground"
   ],
   "note": ""
  },
  {
   "property": "C21",
   "status": "proved",
   "theorems": [
    "ED.Props.C21_combine",
    "ED.Props.C21_whole",
    "ED.Props.C21_many"
   ],
   "note": ""
  },
  {
   "property": "C22",
   "status": "partial",
   "theorems": [
    "ED.Props.C22_evolution_partial",
    "ED.Props.C22_norms",
    "ED.Props.C22_many_states",
    "ED.Props.C22_dimension_one_fails"
   ],
   "note": "Holds for dimension at least two; in dimension one the returned array has the wrong shape (proved)."
  },
  {
   "property": "C23",
   "status": "partial",
   "theorems": [
    "ED.Props.C23_odd_partial",
    "ED.Props.C23_finite_temperature_violated"
   ],
   "note": "Holds at zero temperature; at every positive temperature the returned function is not odd (proved)."
  },
  {
   "property": "C24",
   "status": "proved",
   "theorems": [
    "ED.Props.C24_even",
    "ED.Props.C24_integral_nonneg"
   ],
   "note": ""
  },
  {
   "property": "C77",
   "status": "partial",
   "theorems": [
    "ED.Props.C77_even_partial",
    "ED.Props.C77_finite_temperature_odd",
    "ED.Props.C77_finite_temperature_violated"
   ],
   "note": "Even at zero temperature; odd instead at non-zero temperature (proved)."
  },
  {
   "property": "C78",
   "status": "partial",
   "theorems": [
    "ED.Props.C78_limit_partial",
    "ED.Props.C78_degenerate_violated"
   ],
   "note": "Holds for a non-degenerate ground state; refuted for a degenerate one."
  },
  {
   "property": "C79",
   "status": "proved",
   "theorems": [
    "ED.Props.C79_partition"
   ],
   "note": ""
  },
  {
   "property": "C80",
   "status": "proved",
   "theorems": [
    "ED.Props.C80_subspace_overlaps"
   ],
   "note": ""
  },
  {
   "property": "C81",
   "status": "partial",
   "theorems": [
    "ED.Props.C81_sites_partial",
    "ED.Props.C81_thermal_sites_partial",
    "ED.Props.C81_correlators_partial",
    "ED.Props.C81_thermal_correlators_partial",
    "ED.Props.C81_full_space",
    "ED.Props.C81_pairs",
    "ED.Props.C81_thermal_pairs",
    "ED.Props.C81_higher_spin_fails"
   ],
   "note": "Holds for two states per site (fermions and spin 1/2); for larger spins the default sites raise, because get_single_site_op pads with 2**k instead of nbasis**k (C81_higher_spin_fails); explicit pairs of different sites work for every spin."
  },
  {
   "property": "C63",
   "status": "proved",
   "theorems": [
    "ED.Props.C63_fermi"
   ],
   "note": ""
  },
  {
   "property": "C64",
   "status": "proved",
   "theorems": [
    "ED.Props.C64_derivatives"
   ],
   "note": ""
  },
  {
   "property": "C65",
   "status": "proved",
   "theorems": [
    "ED.Props.C65_wavevectors"
   ],
   "note": ""
  },
  {
   "property": "C66",
   "status": "partial",
   "theorems": [
    "ED.Props.C66_identities",
    "ED.Props.C66_derivative_partial",
    "ED.Props.C66_time_ordered_violated"
   ],
   "note": "The identities hold; the derivative returned for the time-ordered function is identically zero (proved)."
  },
  {
   "property": "C67",
   "status": "partial",
   "theorems": [
    "ED.Props.C67_density_formula",
    "ED.Props.C67_density_partial",
    "ED.Props.C67_compressibility",
    "ED.Props.C67_correlations",
    "ED.Props.C67_zero_temperature",
    "ED.Props.C67_zero_temperature_violated"
   ],
   "note": "At zero temperature n(mu)+n(-mu) exceeds one by the fraction of wavevectors with energy mu (proved), because the Fermi function is one at the Fermi energy; everything else holds. Compressibility and its sum rule are stated for finite beta."
  },
  {
   "property": "C68",
   "status": "proved",
   "theorems": [
    "ED.Props.C68_densities",
    "ED.Props.C68_correlators",
    "ED.Props.C68_onsite"
   ],
   "note": ""
  },
  {
   "property": "C69",
   "status": "partial",
   "theorems": [
    "ED.Props.C69_square_partial",
    "ED.Props.C69_chain_vanishes",
    "ED.Props.C69_chain_violated"
   ],
   "note": "Holds on the square lattice; on the chain the shifted energies ignore the wave vector (proved)."
  },
  {
   "property": "C70",
   "status": "proved",
   "theorems": [
    "ED.Props.C70_matsubara",
    "ED.Props.C70_format"
   ],
   "note": ""
  },
  {
   "property": "C71",
   "status": "proved",
   "theorems": [
    "ED.Props.C71_imagfrq_kernel",
    "ED.Props.C71_imagtime_kernel"
   ],
   "note": ""
  },
  {
   "property": "C72",
   "status": "proved",
   "theorems": [
    "ED.Props.C72_antiperiodic"
   ],
   "note": ""
  },
  {
   "property": "C82",
   "status": "partial",
   "theorems": [
    "ED.Props.C82_symmetry_partial",
    "ED.Props.C82_period_violated"
   ],
   "note": "Holds away from displacements equivalent to zero; there the on-site term is only added for the zero displacement itself (proved)."
  },
  {
   "property": "C83",
   "status": "proved",
   "theorems": [
    "ED.Props.C83_isotropic"
   ],
   "note": ""
  },
  {
   "property": "C84",
   "status": "proved",
   "theorems": [
    "ED.Props.C84_fourier",
    "ED.Props.C84_anticommutator"
   ],
   "note": ""
  },
  {
   "property": "C85",
   "status": "partial",
   "theorems": [
    "ED.Props.C85_mu_partial",
    "ED.Props.C85_half_filling_violated"
   ],
   "note": "Holds except at density exactly one half, where the code returns zero also for lattices with an odd number of sites (proved)."
  },
  {
   "property": "C86",
   "status": "proved",
   "theorems": [
    "ED.Props.C86_dos"
   ],
   "note": ""
  },
  {
   "property": "C87",
   "status": "partial",
   "theorems": [
    "ED.Props.C87_sizes_partial",
    "ED.Props.C67_one_site_fails"
   ],
   "note": "Holds for two sites or more per direction; a single site raises (proved)."
  },
  {
   "property": "C88",
   "status": "proved",
   "theorems": [
    "ED.Props.C88_fourier"
   ],
   "note": ""
  },
  {
   "property": "C89",
   "status": "proved",
   "theorems": [
    "ED.Props.C89_spectral"
   ],
   "note": ""
  },
  {
   "property": "C90",
   "status": "proved",
   "theorems": [
    "ED.Props.C90_from_matsubara"
   ],
   "note": ""
  },
  {
   "property": "C91",
   "status": "proved",
   "theorems": [
    "ED.Props.C91_hydro"
   ],
   "note": ""
  },
  {
   "property": "C92",
   "status": "proved",
   "theorems": [
    "ED.Props.C92_snap_off"
   ],
   "note": ""
  },
  {
   "property": "C93",
   "status": "partial",
   "theorems": [
    "ED.Props.C93_window_partial",
    "ED.Props.C93_conjugate",
    "ED.Props.C93_dropped_sample_violated"
   ],
   "note": "Holds when beta is a multiple of 1e-14; otherwise rounding can drop the sample at tau = beta (proved for beta = 2/3)."
  },
  {
   "property": "C94",
   "status": "partial",
   "theorems": [
    "ED.Props.C94_conjugate",
    "ED.Props.C94_sum_rule_partial"
   ],
   "note": "for bosons the grid must not contain frequency zero (and beta must not be zero): the code divides by 1 - exp(-beta omega) there"
  },
  {
   "property": "C95",
   "status": "proved",
   "theorems": [
    "ED.Props.C95_real"
   ],
   "note": ""
  },
  {
   "property": "C73",
   "status": "partial",
   "theorems": [
    "ED.Props.C73_extension",
    "ED.Props.C73_pickle",
    "ED.Props.C73_default_name",
    "ED.Props.C73_rejected",
    "ED.Props.C73_mat_partial",
    "ED.Props.C73_mat_violated"
   ],
   "note": "Exact for .pkl; for .mat only arrays with two axes or more survive, numbers come back as 1x1 arrays (proved)."
  },
  {
   "property": "C54",
   "status": "partial",
   "theorems": [
    "ED.Props.C54_weights_partial",
    "ED.Props.C54_shape_fails"
   ],
   "note": "Holds for tables whose axes of length one come first; a trailing axis of length one raises (proved)."
  },
  {
   "property": "C55",
   "status": "partial",
   "theorems": [
    "ED.Props.C55_exact_partial",
    "ED.Props.C55_additive_partial"
   ],
   "note": "Same restriction on the shape as C54."
  },
  {
   "property": "C56",
   "status": "proved",
   "theorems": [
    "ED.Props.C56_linear",
    "ED.Props.C56_geometric",
    "ED.Props.C56_finite"
   ],
   "note": ""
  },
  {
   "property": "C38",
   "status": "proved",
   "theorems": [
    "ED.Props.C38_rotation",
    "ED.Props.C38_rotation_angle",
    "ED.Props.C38_reflection",
    "ED.Props.C38_inversion",
    "ED.Props.C38_translation"
   ],
   "note": ""
  },
  {
   "property": "C41",
   "status": "partial",
   "theorems": [
    "ED.Props.C41_D2",
    "ED.Props.C41_D3",
    "ED.Props.C41_D4",
    "ED.Props.C41_D5",
    "ED.Props.C41_D6",
    "ED.Props.C41_D7_partial",
    "ED.Props.C41_D7_violated"
   ],
   "note": "n = 2..6 in full; for n = 7 two columns of the library's table are exchanged, orthogonality fails (C41_D7_violated) and the rest is C41_D7_partial"
  },
  {
   "property": "C42",
   "status": "partial",
   "theorems": [
    "ED.Props.C42_accepts",
    "ED.Props.C42_accepted_partial",
    "ED.Props.C42_exchange",
    "ED.Props.C42_imaginary_violated"
   ],
   "note": "only real parts of the complex relations are compared, so acceptance gives orthogonality of the real parts up to the rounding"
  },
  {
   "property": "C43",
   "status": "proved",
   "theorems": [
    "ED.Props.C43_torus",
    "ED.Props.C43_torus_clockwise",
    "ED.Props.C43_invariance_violated"
   ],
   "note": "beyond the claim: with the library's counter-clockwise rotation two of the operators do not commute with translations"
  },
  {
   "property": "C44",
   "status": "proved",
   "theorems": [
    "ED.Props.C44_adjacency",
    "ED.Props.C44_simple_graph",
    "ED.Props.C44_given_adjacency"
   ],
   "note": "success of the constructor is the library's own validation"
  },
  {
   "property": "C45",
   "status": "proved",
   "theorems": [
    "ED.Props.C45_entries",
    "ED.Props.C45_compose",
    "ED.Props.C45_inverse",
    "ED.Props.C45_reject"
   ],
   "note": "for geometries whose matrices have the size of the number of sites, as all constructors produce"
  },
  {
   "property": "C46",
   "status": "partial",
   "theorems": [
    "ED.Props.C46_permutation",
    "ED.Props.C46_idempotent",
    "ED.Props.C46_order",
    "ED.Props.C46_canonical_partial",
    "ED.Props.C46_translate_partial",
    "ED.Props.C46_rejects",
    "ED.Props.C46_adjacency_violated"
   ],
   "note": "permutation and idempotence for every mode; canonical form and translations for the three coordinate modes; it fails for mode adjacency"
  },
  {
   "property": "C47",
   "status": "partial",
   "theorems": [
    "ED.Props.C47_refl",
    "ED.Props.C47_symm",
    "ED.Props.C47_trans",
    "ED.Props.C47_data_partial",
    "ED.Props.C47_phases",
    "ED.Props.C47_adjacency_equal",
    "ED.Props.C47_phase_violated"
   ],
   "note": "equality ignores a phase matrix given for a finite cluster; everything else as stated, and the phases of periodic geometries follow from the compared data"
  },
  {
   "property": "C48",
   "status": "partial",
   "theorems": [
    "ED.Props.C48_subtracts",
    "ED.Props.C48_window",
    "ED.Props.C48_window_exact",
    "ED.Props.C48_idempotent",
    "ED.Props.C48_invariant",
    "ED.Props.C48_one_period",
    "ED.Props.C48_no_period",
    "ED.Props.C48_mode",
    "ED.Props.C48_exact_violated"
   ],
   "note": "the window holds up to half a unit of the 14th decimal, to which the code rounds, and exactly for coordinates with at most 14 decimals"
  },
  {
   "property": "C49",
   "status": "proved",
   "theorems": [
    "ED.Props.C49_dual",
    "ED.Props.C49_one_zero",
    "ED.Props.C49_both_zero",
    "ED.Props.C49_dependent"
   ],
   "note": ""
  },
  {
   "property": "C50",
   "status": "proved",
   "theorems": [
    "ED.Props.C50_sites",
    "ED.Props.C50_integer",
    "ED.Props.C50_exact_cell",
    "ED.Props.C50_count",
    "ED.Props.C50_square",
    "ED.Props.C50_square_grid",
    "ED.Props.C50_square_order",
    "ED.Props.C50_tilted",
    "ED.Props.C50_triangle",
    "ED.Props.C50_hexagonal",
    "ED.Props.C50_single_rejected"
   ],
   "note": "Any lattice: the reduced, rounded lattice points without repetition; integer coordinates: the lattice points of the cell; the number of sites is the determinant times the number of basis vectors if rounding keeps lattice points apart; constructors for square, tilted, triangular and hexagonal lattices with any open or periodic boundaries."
  },
  {
   "property": "C51",
   "status": "proved",
   "theorems": [
    "ED.Props.C51_distances",
    "ED.Props.C51_window",
    "ED.Props.C51_adjacency",
    "ED.Props.C51_square"
   ],
   "note": "Every lattice accepted by the constructor with periodicity vectors that are zero or longer than half a unit of the 14th decimal; on the square lattice adjacency is nearest-neighbour adjacency through open or periodic boundaries."
  },
  {
   "property": "C52",
   "status": "proved",
   "theorems": [
    "ED.Props.C52_hermitian",
    "ED.Props.C52_modulus",
    "ED.Props.C52_loop",
    "ED.Props.C52_ring"
   ],
   "note": "Any closed loop of sites; exact for complex matrices, with explicit bounds where the library drops imaginary parts below 1e-14. Around a ring in the direction of growing coordinate the product is exp(-i phase1)."
  },
  {
   "property": "C53",
   "status": "proved",
   "theorems": [
    "ED.Props.C53_adjacency",
    "ED.Props.C53_circle",
    "ED.Props.C53_spacing",
    "ED.Props.C53_too_small"
   ],
   "note": "Any number of sides from two; fewer raise IndexError."
  },
  {
   "property": "C97",
   "status": "partial",
   "theorems": [
    "ED.Props.C97_first",
    "ED.Props.C97_second_violated"
   ],
   "note": "Antisymmetric along the first lattice vector; along the second the matrix is symmetric (doubled minus sign)."
  },
  {
   "property": "C98",
   "status": "partial",
   "theorems": [
    "ED.Props.C98_partial",
    "ED.Props.C98_violated"
   ],
   "note": "Independence is checked; the test for lattice vectors is ineffective through operator precedence."
  },
  {
   "property": "C39",
   "status": "partial",
   "theorems": [
    "ED.Props.C39_sound",
    "ED.Props.C39_complete",
    "ED.Props.C39_rejects",
    "ED.Props.C39_periodic",
    "ED.Props.C39_one_site_violated",
    "ED.Props.C39_longest_violated"
   ],
   "note": "full for two or more sites; a geometry with one site is never checked against the transformation and the returned number is zero (C39_one_site_violated); the number is the order of the permutation, not the length of the longest cycle as documented (C39_longest_violated)"
  },
  {
   "property": "C40",
   "status": "partial",
   "theorems": [
    "ED.Props.C40_zn_partial",
    "ED.Props.C40_exact"
   ],
   "note": "n below 10^4 and relations between different projectors up to 1e-13, because the characters are rounded to 14 decimals (C40_zn_partial); exact for n = 1, 2, 4 (C40_exact)"
  },
  {
   "property": "C57",
   "status": "proved",
   "theorems": [
    "ED.Props.C57_sound"
   ],
   "note": "Every maximum order, any integer vectors, with and without symmetry."
  },
  {
   "property": "C58",
   "status": "proved",
   "theorems": [
    "ED.Props.C58_complete",
    "ED.Props.C58_square"
   ],
   "note": "Any integer vectors; with symmetry the vectors must be symmetric under the square's symmetries, as the default ones are. Uniqueness included."
  },
  {
   "property": "C59",
   "status": "proved",
   "theorems": [
    "ED.Props.C59_multiplicity",
    "ED.Props.C59_sum"
   ],
   "note": ""
  },
  {
   "property": "C60",
   "status": "proved",
   "theorems": [
    "ED.Props.C60_subclusters",
    "ED.Props.parent_cluster"
   ],
   "note": "Parents with integer coordinates and any 0/1 adjacency of a graph; connectedness of the parent is not needed."
  },
  {
   "property": "C61",
   "status": "partial",
   "theorems": [
    "ED.Props.C61_grouping_partial",
    "ED.Props.C61_unsorted_violated"
   ],
   "note": "Proved for clusters whose sites are in the canonical order (as the enumerations produce). It fails for others: a dimer and the same dimer with its sites listed in the other order are not recognised as equal (C61_unsorted_violated)."
  },
  {
   "property": "C62",
   "status": "partial",
   "theorems": [
    "ED.Props.C62_reduced",
    "ED.Props.C62_all_partial",
    "ED.Props.C62_no_symmetry_violated"
   ],
   "note": "get_reduced_subclusters: proved for every parent of the square lattice with its nearest-neighbour adjacency (C62_reduced). get_all_clusters_with_subclusters: proved for the default lattice vectors with use_symmetry=True at every order; with use_symmetry=False the claim is false (C62_no_symmetry_violated). Not covered: parents with other adjacency matrices or non-integer coordinates."
  },
  {
   "property": "C29",
   "status": "partial",
   "theorems": [
    "ED.Props.C29_numbers",
    "ED.Props.C29_ts_partial",
    "ED.Props.C29_us_same_partial",
    "ED.Props.C29_us_partial",
    "ED.Props.C29_mus_partial",
    "ED.Props.C29_potentials_partial",
    "ED.Props.C29_phase_dropped",
    "ED.Props.C29_phase_violated",
    "ED.Props.C29_us_shape_violated",
    "ED.Props.C29_potentials_violated",
    "ED.Props.C29_single_site_violated"
   ],
   "note": "Numbers for every parameter on finite clusters (C29_numbers), and per parameter every shape, for real amplitudes. The claim fails for: potentials given per species (C29_potentials_violated), complex phases (C29_phase_dropped, C29_phase_violated), columns of the right size (C29_us_shape_violated), full arrays on one site (C29_single_site_violated)."
  },
  {
   "property": "C96",
   "status": "proved",
   "theorems": [
    "ED.Props.C96_site_algebra",
    "ED.Props.C96_total_spin"
   ],
   "note": "All Pauli matrices the library defines, on systems of any number of sites and species."
  },
  {
   "property": "C99",
   "status": "proved",
   "theorems": [
    "ED.Props.C99_axial",
    "ED.Props.C99_isotropic"
   ],
   "note": "For the sum operator of the base class (the override of the spin class cannot be called, see the table of disagreements in DESIGN.md) and Hamiltonians without symmetry projector."
  },
  {
   "property": "C100",
   "status": "partial",
   "theorems": [
    "ED.Props.C100_hermitian_partial",
    "ED.Props.C100_velocity_partial"
   ],
   "note": "Holds once the attributes tx and ty have been assigned by hand; the constructor never sets them, so calling the method on a constructed instance raises an attribute error."
  },
  {
   "property": "C101",
   "status": "partial",
   "theorems": [
    "ED.Props.C101_dense",
    "ED.Props.C101_dense_not_hermitian",
    "ED.Props.C101_sparse_partial",
    "ED.Props.C101_sparse_highest",
    "ED.Props.C101_sparse_ground_state_violated",
    "ED.Props.C101_sparse_small_fails",
    "ED.Props.C101_contract_satisfiable"
   ],
   "note": "Dense solver: proved. Sparse solver: eigenpairs in ascending order, but the highest ones (for energies above -100), not the lowest. The numerical routines enter through their documented contracts, which are shown to be satisfiable."
  },
  {
   "property": "C102",
   "status": "partial",
   "theorems": [
    "ED.Props.C102_translations_partial"
   ],
   "note": "Proved for n1 < 10^4 and n2 < 38, with relations affected by the rounding of the characters up to 10^-10; for larger orders entries that should vanish are not known to stay below the threshold of the library."
  },
  {
   "property": "C103",
   "status": "partial",
   "theorems": [
    "ED.Props.C103_D2_partial",
    "ED.Props.C103_D3_partial",
    "ED.Props.C103_D4_partial",
    "ED.Props.C103_D5_partial",
    "ED.Props.C103_D6_partial",
    "ED.Props.C103_torus_partial",
    "ED.Props.C103_torus_clockwise_partial",
    "ED.Props.C103_complex_violated"
   ],
   "note": "Proved for operators that permute basis states up to signs (all that the library builds for permutations of sites), for every correct svd. Fails for complex phases: p_red is a real array, so the imaginary parts of the singular vectors are dropped (C103_complex_violated)."
  },
  {
   "property": "C104",
   "status": "proved",
   "theorems": [
    "ED.Props.C104_fermions",
    "ED.Props.C104_spins",
    "ED.Props.C104_fermions_torus",
    "ED.Props.C104_fermions_torus_clockwise",
    "ED.Props.C104_spins_torus",
    "ED.Props.C104_spins_torus_clockwise"
   ],
   "note": ""
  },
  {
   "property": "C105",
   "status": "proved",
   "theorems": [
    "ED.Props.C105_weights",
    "ED.Props.C105_expansion",
    "ED.Props.C105_bonds"
   ],
   "note": "Entries of the property table without axes of length one; C54_shape_fails shows what happens to such axes."
  },
  {
   "property": "C106",
   "status": "partial",
   "theorems": [
    "ED.Props.C106_jobs",
    "ED.Props.C106_subclusters",
    "ED.Props.C106_rerun_violated"
   ],
   "note": "everything but the second run in the same directory: the aggregated file matches the pattern of the job files and the script raises"
  },
  {
   "property": "C107",
   "status": "partial",
   "theorems": [
    "ED.Props.C107_results_partial",
    "ED.Props.C107_layout_violated",
    "ED.Props.C107_dict_violated"
   ],
   "note": "proved for cluster data in the layout which the script reads and for a number of temperatures other than one; neither of the scripts that write cluster data uses this layout, and the results script then raises"
  },
  {
   "property": "C108",
   "status": "partial",
   "theorems": [
    "ED.Props.C108_restart_partial",
    "ED.Props.C108_restart_violated"
   ],
   "note": "holds for the script without subclusters; the one with subclusters writes a dictionary and raises a KeyError when started again"
  },
  {
   "property": "C109",
   "status": "partial",
   "theorems": [
    "ED.Props.C109_average",
    "ED.Props.C109_thermodynamics",
    "ED.Props.C109_cluster_script_violated"
   ],
   "note": "proved for the expressions in all three scripts; the script for single clusters as a whole raises for two or more sites because it calls a method that does not exist"
  },
  {
   "property": "C110",
   "status": "proved",
   "theorems": [
    "ED.Props.C110_expansion"
   ],
   "note": "any solver which satisfies the contract of Spec/Eig.lean"
  },
  {
   "property": "C111",
   "status": "partial",
   "theorems": [
    "ED.Props.C111_average",
    "ED.Props.C111_thermodynamics",
    "ED.Props.C111_hubbard_violated",
    "ED.Props.C115_entropy_violated"
   ],
   "note": "proved for averages and for test_nlce.py; measure_hubbard.py returns an entropy and a specific heat that are too small, its energy is right"
  },
  {
   "property": "C112",
   "status": "proved",
   "theorems": [
    "ED.Props.C112_densities",
    "ED.Props.C112_correlations",
    "ED.Props.C112_thermodynamics",
    "ED.Props.C112_observables",
    "ED.Props.C112_transverse"
   ],
   "note": "for any eigenbasis of the one-particle matrices; one exists (exists_eigenbasis)"
  },
  {
   "property": "C113",
   "status": "partial",
   "theorems": [
    "ED.Props.C113_densities",
    "ED.Props.C113_correlations",
    "ED.Props.C113_two_components",
    "ED.Props.C113_transverse",
    "ED.Props.C113_energies",
    "ED.Props.C113_ground_densities",
    "ED.Props.C113_ground_correlations",
    "ED.Props.C113_ground_two_components",
    "ED.Props.C113_ground_violated",
    "ED.Props.C113_two_sites_violated"
   ],
   "note": "3 to 10^6 sites per direction; at zero temperature positive hopping and no energy of a single particle at the chemical potential; refuted for two sites and for an energy at the chemical potential at zero temperature"
  },
  {
   "property": "C114",
   "status": "proved",
   "theorems": [
    "ED.Props.C114_densities",
    "ED.Props.C114_correlations",
    "ED.Props.C114_observables"
   ],
   "note": ""
  },
  {
   "property": "C115",
   "status": "proved",
   "theorems": [
    "ED.Props.C115_sectors",
    "ED.Props.C115_average",
    "ED.Props.C115_energies"
   ],
   "note": ""
  },
  {
   "property": "C116",
   "status": "partial",
   "theorems": [
    "ED.Props.C116_cyclic_partial",
    "ED.Props.C116_translations_partial",
    "ED.Props.C116_hubbard_partial",
    "ED.Props.C116_script_partial",
    "ED.Props.C116_difference"
   ],
   "note": "the code rounds characters to 14 decimals, so the energies agree up to 2C/10^11 where C bounds the norm of the Hamiltonian; proved for orders below 10^4 (first translation) and 38 (second), beyond which the tolerances of the code itself are not known to suffice"
  },
  {
   "property": "C117",
   "status": "partial",
   "theorems": [
    "ED.Props.C117_script_partial",
    "ED.Props.C117_sectors_partial",
    "ED.Props.C117_total_spin_violated"
   ],
   "note": "the script as it stands stops at its first operator because get_sum_op of the spin class raises an attribute error; with the method of the base class in its place everything else holds, for rings with less than 10^4 sites, up to the rounding of characters to 14 decimals"
  },
  {
   "property": "C118",
   "status": "proved",
   "theorems": [
    "ED.Props.C118_directions",
    "ED.Props.C118_constructor",
    "ED.Props.C118_documented"
   ],
   "note": "for spins other than 1/2 with a field on a site that is not the last one both sides are the same exception"
  },
  {
   "property": "C119",
   "status": "partial",
   "theorems": [
    "ED.Props.C119_jordan_wigner_partial",
    "ED.Props.C119_open_partial",
    "ED.Props.C119_energies_partial",
    "ED.Props.C119_open_chain_partial",
    "ED.Props.C119_ring_partial",
    "ED.Props.C119_periodic_violated"
   ],
   "note": "holds on open chains; on a ring only for odd numbers of particles, with the sign of the boundary coupling reversed for even numbers; the claim of the unit test for periodic clusters fails (rectangles of less than 10^14 sites, beyond which the rounding of C50 moves sites)"
  },
  {
   "property": "C120",
   "status": "proved",
   "theorems": [
    "ED.Props.C120_energies",
    "ED.Props.C120_thermodynamics",
    "ED.Props.C120_densities",
    "ED.Props.C120_correlations",
    "ED.Props.C120_atom",
    "ED.Props.C120_lattice"
   ],
   "note": "`C120_lattice` starts from the arguments of the constructors (rectangles of less than 10^14 sites, beyond which the rounding of C50 moves sites)"
  },
  {
   "property": "C121",
   "status": "proved",
   "theorems": [
    "ED.Props.C121_spectrum",
    "ED.Props.C121_sector",
    "ED.Props.C121_ground",
    "ED.Props.C121_lattice"
   ],
   "note": "`C121_lattice` starts from the arguments of the constructors"
  },
  {
   "property": "C122",
   "status": "proved",
   "theorems": [
    "ED.Props.C122_conjugate",
    "ED.Props.C122_half_filling",
    "ED.Props.C122_hubbard",
    "ED.Props.C122_ring"
   ],
   "note": "`C122_hubbard` and `C122_ring` start from the arguments of the constructors (rectangles of less than 10^14 sites, beyond which the rounding of C50 moves sites)"
  },
  {
   "property": "C123",
   "status": "proved",
   "theorems": [
    "ED.Props.C123_commutes",
    "ED.Props.C123_exchange",
    "ED.Props.C123_multiplets",
    "ED.Props.C123_ground",
    "ED.Props.C123_lattice"
   ],
   "note": "`C123_lattice` starts from the arguments of the constructors (rectangles of less than 10^14 sites, beyond which the rounding of C50 moves sites)"
  },
  {
   "property": "C124",
   "status": "proved",
   "theorems": [
    "ED.Props.C124_commutes",
    "ED.Props.C124_pairs",
    "ED.Props.C124_reflection",
    "ED.Props.C124_tower",
    "ED.Props.C124_lattice"
   ],
   "note": "`C124_lattice` starts from the arguments of the constructors (rectangles of less than 10^14 sites, beyond which the rounding of C50 moves sites)"
  },
  {
   "property": "C125",
   "status": "partial",
   "theorems": [
    "ED.Props.C125_precession_partial",
    "ED.Props.C125_larmor",
    "ED.Props.C125_lattice",
    "ED.Props.C125_y_reversed",
    "ED.Props.C125_y_violated"
   ],
   "note": "fields without a component along y: the Hamiltonian has the opposite sign of hy, so the total spin precesses in the opposite sense about a field along y (`C125_y_reversed`, `C125_y_violated`); the sum operator is that of the base class, since the one of the spin class cannot be called (C99) (rectangles of less than 10^14 sites, beyond which the rounding of C50 moves sites)"
  },
  {
   "property": "C126",
   "status": "partial",
   "theorems": [
    "ED.Props.C126_sum_rule_partial",
    "ED.Props.C126_lattice_partial",
    "ED.Props.C126_first_state",
    "ED.Props.C126_degenerate_violated",
    "ED.Props.C126_script_violated"
   ],
   "note": "once `tx` and `ty` have been assigned (the constructor does not set them, C100), for every temperature but zero, and for temperature zero if the ground state of every sector is unique; with several ground states it fails (`C126_degenerate_violated`), and the script stops for open boundaries (`C126_script_violated`) (rectangles of less than 10^14 sites, beyond which the rounding of C50 moves sites)"
  },
  {
   "property": "C127",
   "status": "proved",
   "theorems": [
    "ED.Props.C127_groups",
    "ED.Props.C127_axes",
    "ED.Props.C127_script",
    "ED.Props.C127_complete",
    "ED.Props.C127_square"
   ],
   "note": "uniform fields for spins 1/2 (for other spins the code accepts a field on the last site only, C33)"
  },
  {
   "property": "C128",
   "status": "partial",
   "theorems": [
    "ED.Props.C128_mode_partial",
    "ED.Props.C128_spins_partial",
    "ED.Props.C128_level_partial",
    "ED.Props.C128_pairs_partial",
    "ED.Props.C128_thermal",
    "ED.Props.C128_spins_thermal",
    "ED.Props.C128_level_thermal",
    "ED.Props.C128_finite_temperature_violated"
   ],
   "note": "at temperature zero (average in the first eigenstate); at every other temperature the code returns the peak times exp(x/T) (`C128_thermal`, `C128_finite_temperature_violated`)"
  },
  {
   "property": "C129",
   "status": "partial",
   "theorems": [
    "ED.Props.C129_weight_partial",
    "ED.Props.C129_finite_temperature_violated"
   ],
   "note": "at temperature zero (average in the first eigenstate); fails at every other temperature"
  },
  {
   "property": "C130",
   "status": "proved",
   "theorems": [
    "ED.Props.C130_spectral_nonneg"
   ],
   "note": ""
  },
  {
   "property": "C131",
   "status": "partial",
   "theorems": [
    "ED.Props.C131_absorption_partial",
    "ED.Props.C131_finite_temperature_violated"
   ],
   "note": "at temperature zero; fails at every positive temperature"
  },
  {
   "property": "C132",
   "status": "partial",
   "theorems": [
    "ED.Props.C132_difference",
    "ED.Props.C132_potentials",
    "ED.Props.C132_chemical_potential",
    "ED.Props.C132_local_potential",
    "ED.Props.C132_interaction",
    "ED.Props.C132_fields_partial",
    "ED.Props.C132_fields_y_reversed",
    "ED.Props.C132_field_y_violated"
   ],
   "note": "all claims about fermions; for spins fields along x and z; a field along y acts in the wrong direction"
  },
  {
   "property": "C133",
   "status": "proved",
   "theorems": [
    "ED.Props.C133_laws"
   ],
   "note": ""
  },
  {
   "property": "C134",
   "status": "partial",
   "theorems": [
    "ED.Props.C134_free_energy",
    "ED.Props.C134_number",
    "ED.Props.C134_interaction",
    "ED.Props.C134_fields_partial",
    "ED.Props.C134_fields_y_reversed",
    "ED.Props.C134_field_y_violated"
   ],
   "note": "all claims except for fields along y, where the sign is wrong (`get_sy` has the opposite sign of `pauli_y`, see C75)"
  },
  {
   "property": "C135",
   "status": "proved",
   "theorems": [
    "ED.Props.C135_compressibility",
    "ED.Props.C135_susceptibility"
   ],
   "note": ""
  },
  {
   "property": "C136",
   "status": "proved",
   "theorems": [
    "ED.Props.C136_difference",
    "ED.Props.C136_potentials"
   ],
   "note": "the norm is `NormLe` of Spec/NearSectors.lean"
  },
  {
   "property": "C137",
   "status": "partial",
   "theorems": [
    "ED.Props.C137_cyclic_partial",
    "ED.Props.C137_translations_partial",
    "ED.Props.C137_hubbard_partial",
    "ED.Props.C137_script_partial"
   ],
   "note": "orders below 10^4 for the first and 38 for the second symmetry: for large orders the rounding in `get_reduced_projector` adds up, as for C102 and C116"
  },
  {
   "property": "C138",
   "status": "partial",
   "theorems": [
    "ED.Props.C138_averages_partial",
    "ED.Props.C138_half_filling_partial",
    "ED.Props.C138_structure_factor_partial"
   ],
   "note": "rings of less than 10^4 sites: for large orders the rounding in `get_reduced_projector` adds up, as for C102"
  },
  {
   "property": "C139",
   "status": "proved",
   "theorems": [
    "ED.Props.C139_fixed_numbers",
    "ED.Props.C139_uniform",
    "ED.Props.C139_all_numbers",
    "ED.Props.C139_spins",
    "ED.Props.C139_script_number",
    "ED.Props.C139_script_mu"
   ],
   "note": "single-site averages of spins larger than one half and fields on them are excluded because of the wrong single-site operators (C81); rings of less than 10^14 sites, as for C50"
  },
  {
   "property": "C140",
   "status": "proved",
   "theorems": [
    "ED.Props.C140_signs",
    "ED.Props.C140_bipartite",
    "ED.Props.C140_tree",
    "ED.Props.C140_ring",
    "ED.Props.C140_lattice"
   ],
   "note": "rectangles of less than 10^14 sites for the constructors, as for C50"
  },
  {
   "property": "C141",
   "status": "proved",
   "theorems": [
    "ED.Props.C141_fermions",
    "ED.Props.C141_spins"
   ],
   "note": "for spins larger than one half the library cannot average operators at single sites (C33), so only energies, thermodynamics and pairs of sites are covered there"
  },
  {
   "property": "C142",
   "status": "proved",
   "theorems": [
    "ED.Props.C142_snapshots",
    "ED.Props.C142_fixed_numbers",
    "ED.Props.C142_spins"
   ],
   "note": "larger spins are not included because averages at their sites cannot be computed (C33)"
  },
  {
   "property": "C143",
   "status": "proved",
   "theorems": [
    "ED.Props.C143_degenerate",
    "ED.Props.C143_no_magnetization"
   ],
   "note": "averages of larger spins at single sites cannot be computed (C33)"
  },
  {
   "property": "C144",
   "status": "proved",
   "theorems": [
    "ED.Props.C144_spins",
    "ED.Props.C144_fermions"
   ],
   "note": "hoppings are the amplitudes the code uses, multiplied by |dx| + |dy| (C27)"
  },
  {
   "property": "C145",
   "status": "proved",
   "theorems": [
    "ED.Props.C145_ising",
    "ED.Props.C145_chain",
    "ED.Props.C145_lattice"
   ],
   "note": "C145_lattice: the Hubbard model made by the constructors; hoppings are the amplitudes the code uses, multiplied by |dx| + |dy| (C27)"
  },
  {
   "property": "C146",
   "status": "proved",
   "theorems": [
    "ED.Props.C146_ratios",
    "ED.Props.C146_frequencies",
    "ED.Props.C146_units"
   ],
   "note": "exact arithmetic: levels that coincide are equal here, while rounding gives them small spacings"
  },
  {
   "property": "C147",
   "status": "proved",
   "theorems": [
    "ED.Props.C147_field",
    "ED.Props.C147_bonds"
   ],
   "note": "exact arithmetic; transverse couplings, rings and bonds between other sites are outside the claim, because there signs are not fixed"
  },
  {
   "property": "C148",
   "status": "proved",
   "theorems": [
    "ED.Props.C148_axial",
    "ED.Props.C148_isotropic"
   ],
   "note": "exact arithmetic; spin one half; frustrated couplings, for which signs are not fixed, are outside the claim; at zero temperature the signs are proved but not that the correlations differ from zero"
  },
  {
   "property": "C149",
   "status": "proved",
   "theorems": [
    "ED.Props.C149_flow"
   ],
   "note": "exact arithmetic; at least one site and one species; one initial state, without projectors"
  },
  {
   "property": "C150",
   "status": "proved",
   "theorems": [
    "ED.Props.C150_free",
    "ED.Props.C150_propagator"
   ],
   "note": "exact arithmetic; at least one site and one species; one initial state, without projectors; the distances between coupled sites weigh the hoppings as in the code"
  },
  {
   "property": "C151",
   "status": "proved",
   "theorems": [
    "ED.Props.C151_opposite"
   ],
   "note": "exact arithmetic; at least one site and one species; one initial state, without projectors"
  },
  {
   "property": "C152",
   "status": "proved",
   "theorems": [
    "ED.Props.C152_all",
    "ED.Props.C152_axis"
   ],
   "note": "exact arithmetic; spins one half, at least one; one initial state, without projectors"
  },
  {
   "property": "C153",
   "status": "proved",
   "theorems": [
    "ED.Props.C153_fermions",
    "ED.Props.C153_spins",
    "ED.Props.C153_numbers"
   ],
   "note": "exact arithmetic; one initial state; sectors of dimension one are the exception recorded under C22"
  },
  {
   "property": "C154",
   "status": "proved",
   "theorems": [
    "ED.Props.C154_fermions",
    "ED.Props.C154_spins"
   ],
   "note": "exact arithmetic; at least one mode; one initial state, without projectors"
  },
  {
   "property": "C155",
   "status": "proved",
   "theorems": [
    "ED.Props.C155_fermions",
    "ED.Props.C155_numbers",
    "ED.Props.C155_spins",
    "ED.Props.C155_magnetization"
   ],
   "note": "exact arithmetic; at least one mode; one initial state, without projectors"
  },
  {
   "property": "C156",
   "status": "proved",
   "theorems": [
    "ED.Props.C156_chemical_potentials",
    "ED.Props.C156_densities"
   ],
   "note": "exact arithmetic; at least one mode; one initial state, without projectors"
  }
 ]
}
