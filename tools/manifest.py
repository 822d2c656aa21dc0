"""Write MANIFEST.json from the table below. Run from /verif."""
import json

CLAIMS = []


def claim(prop, status, theorems, note=""):
    CLAIMS.append({"property": prop, "status": status, "theorems": ["ED.Props." + t for t in theorems], "note": note})


claim("C01", "proved", ["C01_roundtrip_pair", "C01_roundtrip_flat", "C01_bijection"])
claim("C02", "proved", ["C02_basis_order", "C02_boson_elements"])
claim("C03", "proved", ["C03_fermion_elements", "C03_bad_format"])
claim("C04", "proved", ["C04_c_cdag", "C04_c_c", "C04_cdag_cdag", "C04_adjoint_number"])
claim("C05", "proved", ["C05_two_site_product"])
claim("C06", "proved", ["C06_boson_commute", "C06_boson_same_mode"])
claim("C07", "partial", ["C07_dimension_iff", "C07_violated", "C07_dimension_partial"],
      "The code violates the full statement (eye(2**k) instead of eye(nbasis**k)); proved exactly when the dimension is right.")
claim("C08", "proved", ["C08_two_site_elements"])
claim("C09", "partial", ["C09_spin_swap_partial", "C09_same_site_violated"],
      "Holds for two different sites; for equal sites the code returns 2*identity (proved).")
claim("C10", "proved", ["C10_fermion_swap", "C10_create_is_library_operator"])
claim("C11", "proved", ["C11_xform_fermions", "C11_xform_spins"])
claim("C12", "proved", ["C12_fermion_powers", "C12_spin_powers", "C12_fermion_products", "C12_spin_products"])
claim("C14", "proved", ["C14_sum_op", "C14_number_counts", "C14_sum_op_q"])
claim("C16", "proved", ["C16_number_projector", "C16_other_inputs"])
claim("C17", "proved", ["C17_selects", "C17_default_values", "C17_orthonormal", "C17_orthogonal", "C17_complete"])
claim("C25", "partial", ["C25_hermitian_iff", "C25_hermitian_partial", "C25_complex_hopping_violated",
                          "C25_one_species_interaction_fails"],
      "Holds for symmetric real parameters; fails for complex Hermitian hopping (the code adds t c^dag c + t h.c.), proved.")
claim("C26", "proved", ["C26_number_conservation", "C26_exists_iff"])
claim("C27", "partial", ["C27_hamiltonian", "C27_amplitude_partial", "C27_diagonal_bond_violated",
                          "C27_complex_hopping_violated"],
      "Amplitude is -t for bonds with |dx|+|dy|=1 and real hopping; otherwise the code weights the bond differently (proved).")
claim("C28", "proved", ["C28_classical", "C28_one_species"])
claim("C30", "proved", ["C30_projected_eigenstates", "C30_complete"])
claim("C13", "proved", ["C13_fermions", "C13_spins"])
claim("C15", "proved", ["C15_fermion_labels", "C15_spin_labels"])
claim("C31", "partial", ["C31_algebra_partial", "C31_violated"],
      "The code satisfies the algebra with i replaced by -i, for every spin; the documented sign is refuted for every spin.")
claim("C32", "proved", ["C32_total_spin"])
claim("C33", "partial", ["C33_hermitian_partial", "C33_twisted_violated", "C33_higher_spin_field_fails", "C33_higher_spin_iff"],
      "Holds for real coupling matrices; twisted boundary phases make it non-Hermitian (proved).")
claim("C34", "proved", ["C34_ising"])
claim("C35", "proved", ["C35_rydberg"])
claim("C36", "proved", ["C36_flip", "C36_flip_commutes"])
claim("C37", "partial", ["C37_special_states_partial", "C37_plus_minus", "C37_afm2_violated"],
      "All states except AFM2, whose index is off by one (proved for every size).")
claim("C75", "partial", ["C75_hamiltonian_partial", "C75_hy_violated"],
      "The code builds the documented Hamiltonian with the sign of hy reversed.")
claim("C76", "proved", ["C76_pair_counts"])
claim("C74", "proved", ["C74_basis_states"])

claim("C18", "proved", ["C18_expectation", "C18_linear", "C18_identity", "C18_norms", "C18_eigenvectors", "C18_matrix_elements"])
claim("C19", "proved", ["C19_probabilities", "C19_boltzmann", "C19_between", "C19_identity", "C19_canonical", "C19_many"])
claim("C20", "proved", ["C20_shift", "C20_limit", "C20_limit_ground"])
claim("C21", "proved", ["C21_combine", "C21_whole", "C21_many"])
claim("C22", "partial", ["C22_evolution_partial", "C22_norms", "C22_many_states", "C22_dimension_one_fails"],
      "Holds for dimension at least two; in dimension one the returned array has the wrong shape (proved).")
claim("C23", "partial", ["C23_odd_partial", "C23_finite_temperature_violated"],
      "Holds at zero temperature; at every positive temperature the returned function is not odd (proved).")
claim("C24", "proved", ["C24_even", "C24_integral_nonneg"])
claim("C77", "partial", ["C77_even_partial", "C77_finite_temperature_odd", "C77_finite_temperature_violated"],
      "Even at zero temperature; odd instead at non-zero temperature (proved).")
claim("C78", "partial", ["C78_limit_partial", "C78_degenerate_violated"],
      "Holds for a non-degenerate ground state; refuted for a degenerate one.")
claim("C79", "proved", ["C79_partition"])
claim("C80", "proved", ["C80_subspace_overlaps"])
claim("C81", "partial", ["C81_sites_partial", "C81_thermal_sites_partial", "C81_correlators_partial", "C81_thermal_correlators_partial", "C81_full_space",
                          "C81_pairs", "C81_thermal_pairs", "C81_higher_spin_fails"],
      "Holds for two states per site (fermions and spin 1/2); for larger spins the default sites raise, because get_single_site_op pads with 2**k instead of nbasis**k (C81_higher_spin_fails); explicit pairs of different sites work for every spin.")

claim("C63", "proved", ["C63_fermi"])
claim("C64", "proved", ["C64_derivatives"])
claim("C65", "proved", ["C65_wavevectors"])
claim("C66", "partial", ["C66_identities", "C66_derivative_partial", "C66_time_ordered_violated"],
      "The identities hold; the derivative returned for the time-ordered function is identically zero (proved).")
claim("C67", "partial", ["C67_density_formula", "C67_density_partial", "C67_compressibility", "C67_correlations", "C67_zero_temperature",
                          "C67_zero_temperature_violated"],
      "At zero temperature n(mu)+n(-mu) exceeds one by the fraction of wavevectors with energy mu (proved), because the Fermi function is one at the Fermi energy; everything else holds. Compressibility and its sum rule are stated for finite beta.")
claim("C68", "proved", ["C68_densities", "C68_correlators", "C68_onsite"])
claim("C69", "partial", ["C69_square_partial", "C69_chain_vanishes", "C69_chain_violated"],
      "Holds on the square lattice; on the chain the shifted energies ignore the wave vector (proved).")
claim("C70", "proved", ["C70_matsubara", "C70_format"])
claim("C71", "proved", ["C71_imagfrq_kernel", "C71_imagtime_kernel"])
claim("C72", "proved", ["C72_antiperiodic"])
claim("C82", "partial", ["C82_symmetry_partial", "C82_period_violated"],
      "Holds away from displacements equivalent to zero; there the on-site term is only added for the zero displacement itself (proved).")
claim("C83", "proved", ["C83_isotropic"])
claim("C84", "proved", ["C84_fourier", "C84_anticommutator"])
claim("C85", "partial", ["C85_mu_partial", "C85_half_filling_violated"],
      "Holds except at density exactly one half, where the code returns zero also for lattices with an odd number of sites (proved).")
claim("C86", "proved", ["C86_dos"])
claim("C87", "partial", ["C87_sizes_partial", "C67_one_site_fails"],
      "Holds for two sites or more per direction; a single site raises (proved).")

claim("C88", "proved", ["C88_fourier"])
claim("C89", "proved", ["C89_spectral"])
claim("C90", "proved", ["C90_from_matsubara"])
claim("C91", "proved", ["C91_hydro"])
claim("C92", "proved", ["C92_snap_off"])
claim("C93", "partial", ["C93_window_partial", "C93_conjugate", "C93_dropped_sample_violated"],
      "Holds when beta is a multiple of 1e-14; otherwise rounding can drop the sample at tau = beta (proved for beta = 2/3).")
claim("C94", "partial", ["C94_conjugate", "C94_sum_rule_partial"],
      "for bosons the grid must not contain frequency zero (and beta must not be zero): the code divides by 1 - exp(-beta omega) there")
claim("C95", "proved", ["C95_real"])

claim("C73", "partial", ["C73_extension", "C73_pickle", "C73_default_name", "C73_rejected", "C73_mat_partial",
                          "C73_mat_violated"],
      "Exact for .pkl; for .mat only arrays with two axes or more survive, numbers come back as 1x1 arrays (proved).")

claim("C54", "partial", ["C54_weights_partial", "C54_shape_fails"],
      "Holds for tables whose axes of length one come first; a trailing axis of length one raises (proved).")
claim("C55", "partial", ["C55_exact_partial", "C55_additive_partial"], "Same restriction on the shape as C54.")
claim("C56", "proved", ["C56_linear", "C56_geometric", "C56_finite"])

claim("C38", "proved", ["C38_rotation", "C38_rotation_angle", "C38_reflection", "C38_inversion", "C38_translation"])

claim("C41", "partial", ["C41_D2", "C41_D3", "C41_D4", "C41_D5", "C41_D6", "C41_D7_partial", "C41_D7_violated"],
      "n = 2..6 in full; for n = 7 two columns of the library's table are exchanged, orthogonality fails (C41_D7_violated) and the rest is C41_D7_partial")
claim("C42", "partial", ["C42_accepts", "C42_accepted_partial", "C42_exchange", "C42_imaginary_violated"],
      "only real parts of the complex relations are compared, so acceptance gives orthogonality of the real parts up to the rounding")
claim("C43", "proved", ["C43_torus", "C43_torus_clockwise", "C43_invariance_violated"],
      "beyond the claim: with the library's counter-clockwise rotation two of the operators do not commute with translations")

claim("C44", "proved", ["C44_adjacency", "C44_simple_graph", "C44_given_adjacency"],
      "success of the constructor is the library's own validation")
claim("C45", "proved", ["C45_entries", "C45_compose", "C45_inverse", "C45_reject"],
      "for geometries whose matrices have the size of the number of sites, as all constructors produce")
claim("C46", "partial", ["C46_permutation", "C46_idempotent", "C46_order", "C46_canonical_partial",
                         "C46_translate_partial", "C46_rejects", "C46_adjacency_violated"],
      "permutation and idempotence for every mode; canonical form and translations for the three coordinate modes; it fails for mode adjacency")
claim("C47", "partial", ["C47_refl", "C47_symm", "C47_trans", "C47_data_partial", "C47_phases",
                         "C47_adjacency_equal", "C47_phase_violated"],
      "equality ignores a phase matrix given for a finite cluster; everything else as stated, and the phases of periodic geometries follow from the compared data")
claim("C48", "partial", ["C48_subtracts", "C48_window", "C48_window_exact", "C48_idempotent", "C48_invariant",
                         "C48_one_period", "C48_no_period", "C48_mode", "C48_exact_violated"],
      "the window holds up to half a unit of the 14th decimal, to which the code rounds, and exactly for coordinates with at most 14 decimals")
claim("C49", "proved", ["C49_dual", "C49_one_zero", "C49_both_zero", "C49_dependent"], "")
claim("C50", "proved", ["C50_sites", "C50_integer", "C50_exact_cell", "C50_count", "C50_square", "C50_square_grid", "C50_square_order",
                        "C50_tilted", "C50_triangle", "C50_hexagonal", "C50_single_rejected"],
      "Any lattice: the reduced, rounded lattice points without repetition; integer coordinates: the lattice points of the cell; the number of sites is the determinant times the number of basis vectors if rounding keeps lattice points apart; constructors for square, tilted, triangular and hexagonal lattices with any open or periodic boundaries.")

claim("C51", "proved", ["C51_distances", "C51_window", "C51_adjacency", "C51_square"],
      "Every lattice accepted by the constructor with periodicity vectors that are zero or longer than half a unit of the 14th decimal; on the square lattice adjacency is nearest-neighbour adjacency through open or periodic boundaries.")
claim("C52", "proved", ["C52_hermitian", "C52_modulus", "C52_loop", "C52_ring"],
      "Any closed loop of sites; exact for complex matrices, with explicit bounds where the library drops imaginary parts below 1e-14. Around a ring in the direction of growing coordinate the product is exp(-i phase1).")
claim("C53", "proved", ["C53_adjacency", "C53_circle", "C53_spacing", "C53_too_small"],
      "Any number of sides from two; fewer raise IndexError.")
claim("C97", "partial", ["C97_first", "C97_second_violated"],
      "Antisymmetric along the first lattice vector; along the second the matrix is symmetric (doubled minus sign).")
claim("C98", "partial", ["C98_partial", "C98_violated"],
      "Independence is checked; the test for lattice vectors is ineffective through operator precedence.")

claim("C39", "partial", ["C39_sound", "C39_complete", "C39_rejects", "C39_periodic", "C39_one_site_violated", "C39_longest_violated"],
      "full for two or more sites; a geometry with one site is never checked against the transformation and the returned number is zero (C39_one_site_violated); the number is the order of the permutation, not the length of the longest cycle as documented (C39_longest_violated)")

claim("C40", "partial", ["C40_zn_partial", "C40_exact"],
      "n below 10^4 and relations between different projectors up to 1e-13, because the characters are rounded to 14 decimals (C40_zn_partial); exact for n = 1, 2, 4 (C40_exact)")

claim("C57", "proved", ["C57_sound"],
      "Every maximum order, any integer vectors, with and without symmetry.")
claim("C58", "proved", ["C58_complete", "C58_square"],
      "Any integer vectors; with symmetry the vectors must be symmetric under the square's symmetries, as the default ones are. Uniqueness included.")
claim("C59", "proved", ["C59_multiplicity", "C59_sum"], "")

claim("C60", "proved", ["C60_subclusters", "parent_cluster"],
      "Parents with integer coordinates and any 0/1 adjacency of a graph; connectedness of the parent is not needed.")
claim("C61", "partial", ["C61_grouping_partial", "C61_unsorted_violated"],
      "Proved for clusters whose sites are in the canonical order (as the enumerations produce). It fails for others: a dimer and the same dimer with its sites listed in the other order are not recognised as equal (C61_unsorted_violated).")

claim("C62", "partial", ["C62_reduced", "C62_all_partial", "C62_no_symmetry_violated"],
      "get_reduced_subclusters: proved for every parent of the square lattice with its nearest-neighbour adjacency (C62_reduced). get_all_clusters_with_subclusters: proved for the default lattice vectors with use_symmetry=True at every order; with use_symmetry=False the claim is false (C62_no_symmetry_violated). Not covered: parents with other adjacency matrices or non-integer coordinates.")

claim("C29", "partial", ["C29_numbers", "C29_ts_partial", "C29_us_same_partial", "C29_us_partial", "C29_mus_partial", "C29_potentials_partial", "C29_phase_dropped", "C29_phase_violated", "C29_us_shape_violated", "C29_potentials_violated", "C29_single_site_violated"],
      "Numbers for every parameter on finite clusters (C29_numbers), and per parameter every shape, for real amplitudes. The claim fails for: potentials given per species (C29_potentials_violated), complex phases (C29_phase_dropped, C29_phase_violated), columns of the right size (C29_us_shape_violated), full arrays on one site (C29_single_site_violated).")

claim("C96", "proved", ["C96_site_algebra", "C96_total_spin"],
  "All Pauli matrices the library defines, on systems of any number of sites and species.")
claim("C99", "proved", ["C99_axial", "C99_isotropic"],
  "For the sum operator of the base class (the override of the spin class cannot be called, see the table of disagreements in DESIGN.md) and Hamiltonians without symmetry projector.")

claim("C100", "partial", ["C100_hermitian_partial", "C100_velocity_partial"],
  "Holds once the attributes tx and ty have been assigned by hand; the constructor never sets them, so calling the method on a constructed instance raises an attribute error.")
claim("C101", "partial", ["C101_dense", "C101_dense_not_hermitian", "C101_sparse_partial", "C101_sparse_highest", "C101_sparse_ground_state_violated", "C101_sparse_small_fails", "C101_contract_satisfiable"],
  "Dense solver: proved. Sparse solver: eigenpairs in ascending order, but the highest ones (for energies above -100), not the lowest. The numerical routines enter through their documented contracts, which are shown to be satisfiable.")

claim("C102", "partial", ["C102_translations_partial"],
      "Proved for n1 < 10^4 and n2 < 38, with relations affected by the rounding of the characters up to 10^-10; for larger orders entries that should vanish are not known to stay below the threshold of the library.")

claim("C103", "partial", ["C103_D2_partial", "C103_D3_partial", "C103_D4_partial", "C103_D5_partial", "C103_D6_partial", "C103_torus_partial", "C103_torus_clockwise_partial", "C103_complex_violated"],
      "Proved for operators that permute basis states up to signs (all that the library builds for permutations of sites), for every correct svd. Fails for complex phases: p_red is a real array, so the imaginary parts of the singular vectors are dropped (C103_complex_violated).")

claim("C104", "proved", ["C104_fermions", "C104_spins", "C104_fermions_torus", "C104_fermions_torus_clockwise",
      "C104_spins_torus", "C104_spins_torus_clockwise"])

claim("C105", "proved", ["C105_weights", "C105_expansion", "C105_bonds"],
      "Entries of the property table without axes of length one; C54_shape_fails shows what happens to such axes.")

claim("C106", "partial", ["C106_jobs", "C106_subclusters", "C106_rerun_violated"], "everything but the second run in the same directory: the aggregated file matches the pattern of the job files and the script raises")
claim("C107", "partial", ["C107_results_partial", "C107_layout_violated", "C107_dict_violated"], "proved for cluster data in the layout which the script reads and for a number of temperatures other than one; neither of the scripts that write cluster data uses this layout, and the results script then raises")
claim("C108", "partial", ["C108_restart_partial", "C108_restart_violated"], "holds for the script without subclusters; the one with subclusters writes a dictionary and raises a KeyError when started again")

claim("C109", "partial", ["C109_average", "C109_thermodynamics", "C109_cluster_script_violated"], "proved for the expressions in all three scripts; the script for single clusters as a whole raises for two or more sites because it calls a method that does not exist")
claim("C110", "proved", ["C110_expansion"], "any solver which satisfies the contract of Spec/Eig.lean")
claim("C111", "partial", ["C111_average", "C111_thermodynamics", "C111_hubbard_violated", "C115_entropy_violated"], "proved for averages and for test_nlce.py; measure_hubbard.py returns an entropy and a specific heat that are too small, its energy is right")

claim("C112", "proved", ["C112_densities", "C112_correlations", "C112_thermodynamics", "C112_observables", "C112_transverse"], "for any eigenbasis of the one-particle matrices; one exists (exists_eigenbasis)")

claim("C113", "partial", ["C113_densities", "C113_correlations", "C113_two_components", "C113_transverse", "C113_energies", "C113_ground_densities", "C113_ground_correlations", "C113_ground_two_components", "C113_ground_violated", "C113_two_sites_violated"], "3 to 10^6 sites per direction; at zero temperature positive hopping and no energy of a single particle at the chemical potential; refuted for two sites and for an energy at the chemical potential at zero temperature")

claim("C114", "proved", ["C114_densities", "C114_correlations", "C114_observables"])

claim("C115", "proved", ["C115_sectors", "C115_average", "C115_energies"])

claim("C116", "partial", ["C116_cyclic_partial", "C116_translations_partial", "C116_hubbard_partial", "C116_script_partial", "C116_difference"],
      "the code rounds characters to 14 decimals, so the energies agree up to 2C/10^11 where C bounds the norm of the Hamiltonian; proved for orders below 10^4 (first translation) and 38 (second), beyond which the tolerances of the code itself are not known to suffice")

claim("C117", "partial", ["C117_script_partial", "C117_sectors_partial", "C117_total_spin_violated"],
      "the script as it stands stops at its first operator because get_sum_op of the spin class raises an attribute error; with the method of the base class in its place everything else holds, for rings with less than 10^4 sites, up to the rounding of characters to 14 decimals")

claim("C118", "proved", ["C118_directions", "C118_constructor", "C118_documented"],
      "for spins other than 1/2 with a field on a site that is not the last one both sides are the same exception")

claim("C119", "partial", ["C119_jordan_wigner_partial", "C119_open_partial", "C119_energies_partial", "C119_open_chain_partial", "C119_ring_partial", "C119_periodic_violated"],
      "holds on open chains; on a ring only for odd numbers of particles, with the sign of the boundary coupling reversed for even numbers; the claim of the unit test for periodic clusters fails (rectangles of less than 10^14 sites, beyond which the rounding of C50 moves sites)")

claim("C120", "proved", ["C120_energies", "C120_thermodynamics", "C120_densities", "C120_correlations", "C120_atom", "C120_lattice"],
      "`C120_lattice` starts from the arguments of the constructors (rectangles of less than 10^14 sites, beyond which the rounding of C50 moves sites)")

claim("C121", "proved", ["C121_spectrum", "C121_sector", "C121_ground", "C121_lattice"],
      "`C121_lattice` starts from the arguments of the constructors")

claim("C122", "proved", ["C122_conjugate", "C122_half_filling", "C122_hubbard", "C122_ring"],
      "`C122_hubbard` and `C122_ring` start from the arguments of the constructors (rectangles of less than 10^14 sites, beyond which the rounding of C50 moves sites)")

claim("C123", "proved", ["C123_commutes", "C123_exchange", "C123_multiplets", "C123_ground", "C123_lattice"],
      "`C123_lattice` starts from the arguments of the constructors (rectangles of less than 10^14 sites, beyond which the rounding of C50 moves sites)")
claim("C124", "proved", ["C124_commutes", "C124_pairs", "C124_reflection", "C124_tower", "C124_lattice"],
      "`C124_lattice` starts from the arguments of the constructors (rectangles of less than 10^14 sites, beyond which the rounding of C50 moves sites)")

claim("C125", "partial", ["C125_precession_partial", "C125_larmor", "C125_lattice", "C125_y_reversed", "C125_y_violated"],
      "fields without a component along y: the Hamiltonian has the opposite sign of hy, so the total spin precesses in the opposite sense about a field along y (`C125_y_reversed`, `C125_y_violated`); the sum operator is that of the base class, since the one of the spin class cannot be called (C99) (rectangles of less than 10^14 sites, beyond which the rounding of C50 moves sites)")

claim("C126", "partial", ["C126_sum_rule_partial", "C126_lattice_partial", "C126_first_state", "C126_degenerate_violated", "C126_script_violated"],
      "once `tx` and `ty` have been assigned (the constructor does not set them, C100), for every temperature but zero, and for temperature zero if the ground state of every sector is unique; with several ground states it fails (`C126_degenerate_violated`), and the script stops for open boundaries (`C126_script_violated`) (rectangles of less than 10^14 sites, beyond which the rounding of C50 moves sites)")

claim("C127", "proved", ["C127_groups", "C127_axes", "C127_script", "C127_complete", "C127_square"],
      "uniform fields for spins 1/2 (for other spins the code accepts a field on the last site only, C33)")

claim("C128", "partial", ["C128_mode_partial", "C128_spins_partial", "C128_level_partial", "C128_pairs_partial", "C128_thermal", "C128_spins_thermal", "C128_level_thermal", "C128_finite_temperature_violated"],
      "at temperature zero (average in the first eigenstate); at every other temperature the code returns the peak times exp(x/T) (`C128_thermal`, `C128_finite_temperature_violated`)")
claim("C129", "partial", ["C129_weight_partial", "C129_finite_temperature_violated"],
      "at temperature zero (average in the first eigenstate); fails at every other temperature")
claim("C130", "proved", ["C130_spectral_nonneg"], "")
claim("C131", "partial", ["C131_absorption_partial", "C131_finite_temperature_violated"], "at temperature zero; fails at every positive temperature")

claim("C132", "partial", ["C132_difference", "C132_potentials", "C132_chemical_potential", "C132_local_potential", "C132_interaction", "C132_fields_partial", "C132_fields_y_reversed", "C132_field_y_violated"],
      "all claims about fermions; for spins fields along x and z; a field along y acts in the wrong direction")

claim("C133", "proved", ["C133_laws"], "")
claim("C134", "partial", ["C134_free_energy", "C134_number", "C134_interaction", "C134_fields_partial", "C134_fields_y_reversed", "C134_field_y_violated"],
      "all claims except for fields along y, where the sign is wrong (`get_sy` has the opposite sign of `pauli_y`, see C75)")
claim("C135", "proved", ["C135_compressibility", "C135_susceptibility"], "")
claim("C136", "proved", ["C136_difference", "C136_potentials"], "the norm is `NormLe` of Spec/NearSectors.lean")

claim("C137", "partial", ["C137_cyclic_partial", "C137_translations_partial", "C137_hubbard_partial", "C137_script_partial"],
      "orders below 10^4 for the first and 38 for the second symmetry: for large orders the rounding in `get_reduced_projector` adds up, as for C102 and C116")

claim("C138", "partial", ["C138_averages_partial", "C138_half_filling_partial", "C138_structure_factor_partial"],
      "rings of less than 10^4 sites: for large orders the rounding in `get_reduced_projector` adds up, as for C102")

claim("C139", "proved", ["C139_fixed_numbers", "C139_uniform", "C139_all_numbers", "C139_spins", "C139_script_number", "C139_script_mu"],
      "single-site averages of spins larger than one half and fields on them are excluded because of the wrong single-site operators (C81); rings of less than 10^14 sites, as for C50")

claim("C140", "proved", ["C140_signs", "C140_bipartite", "C140_tree", "C140_ring", "C140_lattice"],
      "rectangles of less than 10^14 sites for the constructors, as for C50")

claim("C141", "proved", ["C141_fermions", "C141_spins"],
      "for spins larger than one half the library cannot average operators at single sites (C33), so only energies, thermodynamics and pairs of sites are covered there")

claim("C142", "proved", ["C142_snapshots", "C142_fixed_numbers", "C142_spins"],
      "larger spins are not included because averages at their sites cannot be computed (C33)")

claim("C143", "proved", ["C143_degenerate", "C143_no_magnetization"],
      "averages of larger spins at single sites cannot be computed (C33)")

claim("C144", "proved", ["C144_spins", "C144_fermions"],
      "hoppings are the amplitudes the code uses, multiplied by |dx| + |dy| (C27)")

claim("C145", "proved", ["C145_ising", "C145_chain", "C145_lattice"],
      "C145_lattice: the Hubbard model made by the constructors; hoppings are the amplitudes the code uses, multiplied by |dx| + |dy| (C27)")

claim("C146", "proved", ["C146_ratios", "C146_frequencies", "C146_units"],
      "exact arithmetic: levels that coincide are equal here, while rounding gives them small spacings")

claim("C147", "proved", ["C147_field", "C147_bonds"],
      "exact arithmetic; transverse couplings, rings and bonds between other sites are outside the claim, because there signs are not fixed")

claim("C148", "proved", ["C148_axial", "C148_isotropic"],
      "exact arithmetic; spin one half; frustrated couplings, for which signs are not fixed, are outside the claim; at zero temperature the signs are proved but not that the correlations differ from zero")

claim("C149", "proved", ["C149_flow"],
      "exact arithmetic; at least one site and one species; one initial state, without projectors")

claim("C150", "proved", ["C150_free", "C150_propagator"],
      "exact arithmetic; at least one site and one species; one initial state, without projectors; the distances between coupled sites weigh the hoppings as in the code")

claim("C151", "proved", ["C151_opposite"],
      "exact arithmetic; at least one site and one species; one initial state, without projectors")

claim("C152", "proved", ["C152_all", "C152_axis"],
      "exact arithmetic; spins one half, at least one; one initial state, without projectors")

claim("C153", "proved", ["C153_fermions", "C153_spins", "C153_numbers"],
      "exact arithmetic; one initial state; sectors of dimension one are the exception recorded under C22")

claim("C154", "proved", ["C154_fermions", "C154_spins"],
      "exact arithmetic; at least one mode; one initial state, without projectors")

claim("C155", "proved", ["C155_fermions", "C155_numbers", "C155_spins", "C155_magnetization"],
      "exact arithmetic; at least one mode; one initial state, without projectors")

claim("C156", "proved", ["C156_chemical_potentials", "C156_densities"],
      "exact arithmetic; at least one mode; one initial state, without projectors")

if __name__ == "__main__":
    with open("MANIFEST.json", "w") as f:
        json.dump({"claims": CLAIMS}, f, indent=1)
        f.write("\n")
