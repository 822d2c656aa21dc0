#!/usr/bin/env python3
"""Writes /verif/properties.jsonl.  One entry per property; edit here, then re-run."""
import json, os

P = []
def p(i, title, statement, quantifier, why, anchors):
    P.append(dict(id=i, title=title, statement=statement, quantifier=quantifier,
                  why_tests_cant=why, anchors=anchors))

B, S, F = "exact_diag/ed_base.py", "exact_diag/ed_spins.py", "exact_diag/ed_fermions.py"
Y, G, N = "exact_diag/ed_symmetry.py", "exact_diag/ed_geometry.py", "exact_diag/ed_nlce.py"
FG, GF = "exact_diag/fermi_gas.py", "exact_diag/greens_fns.py"

# ---------------------------------------------------------------- operators
p("C01", "Site/species index maps are inverse bijections",
  "Converting a (site, species) pair to a flat mode index and back returns the same pair, converting a flat index to (site, species) and back returns the same index, and the flat indices of all pairs with site < nsites and species < nspecies are exactly 0..nsites*nspecies-1, each hit once.",
  "every nsites >= 1, every nspecies, every site, species and flat index",
  "A test fixes a lattice size; a wrong stride or a swapped mod/div agrees with the right one on square or single-species cases.",
  [f"{B}:spinful2spinlessIndex", f"{B}:spinless2spinfullIndex"])
p("C02", "Bosonic single-site operators act on one site only",
  "For local dimension two, the matrix returned for a bosonic single-site operator has 2^N rows and columns (N = nsites*nspecies) and its element between two basis configurations is the local operator's element between the occupations of the chosen mode if the configurations agree on every other mode, and zero otherwise. Mode 0 is the most significant digit of the basis-state index.",
  "every system size, every species/site, every 2x2 local operator, every pair of basis states",
  "The matrix has 4^N entries for unboundedly many N; tests look at spectra of a few small systems, which cannot see a consistent mislabelling.",
  [f"{B}:get_single_site_op"])
p("C03", "Fermionic single-site operators carry the Jordan-Wigner string",
  "For the fermion format the element between two configurations that agree on all other modes is the local operator's element times (-1) to the number of occupied modes with a larger flat index; all other elements vanish.",
  "every system size, every species/site, every 2x2 local operator, every pair of basis states",
  "A sign error in the string is invisible to any test using one species, one particle or a density observable.",
  [f"{B}:get_single_site_op"])
p("C04", "Canonical anticommutation relations",
  "The creation and annihilation operators built by the fermion format satisfy {c_i, c_j^dag} = delta_ij and {c_i, c_j} = {c_i^dag, c_j^dag} = 0 as full 2^N x 2^N matrix identities, for modes of the same or of different species.",
  "every nsites, nspecies, every pair of (site, species)",
  "The relations must hold for every pair of modes in every system size.",
  [f"{B}:get_single_site_op", f"{F}:fermions.cdag_op", f"{F}:fermions.c_op"])
p("C05", "Two-site operators equal the product of single-site operators",
  "For every two modes (in either order, distinct or equal), the two-site operator equals the matrix product of the first single-site operator with the second, for the boson format and for the fermion format.",
  "every system size, every ordered pair of modes including equal ones, every pair of 2x2 local operators, both formats",
  "The code takes separate branches for site1<site2, site1>site2, equality and format, each with its own parity factor; tests exercise only Hamiltonians with few of them.",
  [f"{B}:get_two_site_op", f"{B}:get_single_site_op"])
p("C06", "Bosonic operators on different modes commute and on the same mode multiply locally",
  "Bosonic single-site operators on two different modes commute; on the same mode their product is the single-site operator of the 2x2 product.",
  "every system size, pair of modes, pair of local operators",
  "Universally quantified operator identity.", [f"{B}:get_single_site_op"])
p("C07", "Single-site operators have the system's dimension for every local dimension",
  "For a model with local dimension nbasis, a bosonic single-site operator is a square matrix of dimension nbasis**(nsites*nspecies), so it can be added to and multiplied with other operators of the model.",
  "every local dimension >= 2, every system size, every site",
  "The only higher-spin test uses zero fields, so the code path is never executed.",
  [f"{B}:get_single_site_op", f"{S}:createH"])
p("C08", "Two-site bosonic operators act on two sites only, for every local dimension",
  "For any local dimension b and two different modes, the element of the bosonic two-site operator between two configurations is the product of the two local elements if all other modes agree and zero otherwise, and the matrix has b^N rows and columns.",
  "every local dimension, system size, ordered pair of distinct modes, pair of b x b operators",
  "Unbounded family of matrices.", [f"{B}:get_two_site_op"])
p("C09", "Spin exchange operator exchanges two sites",
  "On a spin-1/2 system, the swap operator of two different sites maps every basis configuration to the one with the two labels exchanged; it is therefore Hermitian, unitary and its own inverse. Swapping a site with itself is the identity.",
  "every number of sites, every pair of sites, every basis state",
  "Tests only see spectra after symmetrisation.", [f"{S}:get_swap_op"])
p("C10", "Fermion exchange operator exchanges two modes",
  "The fermion swap operator of sites i, j (one species) is Hermitian, squares to the identity, leaves the empty state unchanged, and conjugates c_i^dag into c_j^dag, c_j^dag into c_i^dag and every other creation operator into itself.",
  "every system size, species, pair of sites (equal or not)",
  "The sign structure must be right for every occupation between the two modes.",
  [f"{F}:get_swap_op"])
p("C11", "Symmetry operator built from site cycles implements the site permutation",
  "Given disjoint cycles describing a permutation pi of the sites, the operator returned for a fermion model conjugates every creation operator of site i into that of site pi(i), for every species, and leaves the empty state unchanged; for a spin-1/2 model it moves the label of site i to site pi(i) in every configuration.",
  "every system size, every list of disjoint cycles, every basis state",
  "Direction and composition order matter only for cycles of length three or more and for sign-carrying states.",
  [f"{B}:get_xform_op"])
p("C12", "Symmetry operators are unitary and compose like permutations",
  "The operator built from site cycles is unitary, and its k-th power acts as the k-th power of the permutation; in particular its power equal to a common multiple of the cycle lengths is the identity. The product of the operators of two permutations is the operator of the product.",
  "every system size, cycle list and exponent",
  "Zn projectors silently give nonsense if U^n is not 1.", [f"{B}:get_xform_op"])
p("C13", "Geometric symmetries commute with the Hamiltonian",
  "If the couplings (hopping, interactions, potentials) are invariant under a site permutation, the operator built from that permutation's cycles commutes with the Hamiltonian.",
  "every system size, every coupling set, every permutation leaving it invariant",
  "Tests check a handful of lattices numerically.", [f"{B}:get_xform_op", f"{F}:createH", f"{S}:createH"])
p("C14", "Sum operators add single-site operators; the number operator counts",
  "The sum operator of a species equals the sum over sites of the single-site operators; for the number operator it is diagonal with entry the number of occupied sites of that species. The wavevector sum weights site r by exp(i q.r) and the q and -q sums of a Hermitian local operator are adjoint.",
  "every system size, species, local operator, wavevector",
  "Universally quantified.", [f"{B}:get_sum_op", f"{B}:get_sum_op_q"])
p("C15", "State labels agree with the operators",
  "Row s, column i of the returned state-label matrix is the occupation of flat mode i in basis state s: it equals the diagonal element of the number operator of that mode (fermions), and 1 exactly when the z-spin of site i is up (spins). Rows are pairwise different.",
  "every system size, every state, every site",
  "Labelling must be right for every state of every size.", [f"{F}:get_state_vects", f"{S}:get_state_vects"])
p("C16", "Fixed particle number projector selects exactly the right states",
  "With the particle numbers fixed per species, the projector's rows are distinct basis states, namely exactly those whose occupation count equals the requested number for every constrained species; P P^dag = 1.",
  "every nsites, nspecies, every vector of requested numbers (including unconstrained species)",
  "Sequential projection across species must compose correctly for every size.",
  [f"{F}:fermions.__init__", f"{B}:get_subspace_projs"])
p("C17", "Subspace projectors partition the space",
  "For a diagonal operator, the projectors returned for all its eigenvalues have orthonormal rows, are mutually orthogonal, their P^dag P sum to the identity, and each selects exactly the states having the associated eigenvalue.",
  "every diagonal operator of every size (no two distinct eigenvalues closer than the rounding step)",
  "Completeness is a statement over all operators.", [f"{B}:get_subspace_projs"])
p("C18", "Expectation values and matrix elements",
  "For state columns psi_k and Hermitian O the returned expectation values are <psi_k|O|psi_k>; they are linear in O, the identity gives the squared norm, and so does get_norms; eigenvectors of O give the eigenvalue; matrix elements transform as V^dag O V and are Hermitian for Hermitian O.",
  "every operator and every set of states of matching dimension",
  "Universally quantified.", [f"{B}:get_exp_vals", f"{B}:get_matrix_elems", f"{B}:get_norms"])
# ---------------------------------------------------------------- thermal
p("C19", "Thermal averages are averages",
  "At every temperature T >= 0 the thermal probabilities are non-negative and sum to one, so the thermal expectation value lies between the smallest and largest eigenstate expectation value, and the identity averages to one.",
  "every sorted list of energies, every T >= 0, every operator",
  "Must hold for all spectra and temperatures.", [f"{B}:get_thermal_weights", f"{B}:get_exp_vals_thermal"])
p("C20", "Thermal averages do not depend on the zero of energy; T=0 is the limit of T -> 0+",
  "Adding a constant to all energies leaves thermal expectation values unchanged at every temperature, and the T=0 value (equal weights on the ground manifold) is the limit of the T>0 values.",
  "every sorted spectrum whose non-degenerate gaps exceed the rounding step, every operator",
  "A limit statement.", [f"{B}:get_thermal_weights", f"{B}:get_exp_vals_thermal"])
p("C21", "Combining sectors equals averaging over the whole spectrum",
  "Combining sector-wise thermal averages with the sector partition functions gives the thermal average over the union of all sector spectra, for T>0 and for T=0.",
  "every list of sectors, spectra, operators, temperatures",
  "Sector shifts and T=0 handling interact; tests use fixed models.", [f"{B}:thermal_avg_combine_sectors", f"{B}:get_partition_fn_sectors"])
p("C22", "Quench time evolution is unitary Schroedinger evolution",
  "With a complete orthonormal set of eigenvectors, the evolved state at time 0 is the initial state, norms and overlaps are preserved at all times, evolving by t1 then t2 equals evolving by t1+t2, energy is conserved, and the evolved state solves i d psi/dt = H psi.",
  "every dimension, Hamiltonian eigensystem, initial state and time",
  "Statements over a continuum of times and all Hamiltonians.", [f"{B}:quench_time_evolve"])
p("C23", "Imaginary part of the retarded response obeys the fluctuation symmetry",
  "For Hermitian A the imaginary part of the bosonic retarded response of A to A is an odd function of frequency at every temperature.",
  "every spectrum, matrix of elements, temperature, frequency, broadening",
  "No test calls the function; symmetric in no finite sample.", [f"{B}:get_response_fn_retarded"])
p("C24", "Optical conductivity is even and its integral non-negative",
  "For a Hermitian current operator the returned optical conductivity is an even function of frequency and the integrated conductivity is non-negative at every temperature.",
  "every spectrum, Hermitian current matrix, temperature, frequency, broadening",
  "Quantified over all spectra.", [f"{F}:integrate_conductivity", f"{F}:get_optical_cond_fn"])
# ---------------------------------------------------------------- fermions
p("C25", "The fermion Hamiltonian is Hermitian",
  "For every accepted (Hermitian) hopping matrix and real interactions, chemical potentials and site potentials, the Hamiltonian equals its conjugate transpose.",
  "every geometry, every parameter set, every nspecies",
  "Tests only use real hopping.", [f"{F}:createH", f"{F}:get_kinetic_op", f"{F}:get_hopping_mat"])
p("C26", "The fermion Hamiltonian conserves each species' particle number",
  "The Hamiltonian commutes with the number operator of every species, so matrix elements between configurations with different species counts vanish.",
  "every geometry, parameter set, species",
  "Block structure must hold for every model.", [f"{F}:createH"])
p("C27", "Hopping amplitudes in the Hamiltonian are the ones requested",
  "The coefficient of c_i^dag c_j in the Hamiltonian is minus the (i,j) entry of the hopping matrix, for every bond.",
  "every geometry and hopping matrix",
  "Tests use only axis-parallel unit bonds.", [f"{F}:get_kinetic_op", f"{F}:createH"])
p("C28", "The Hamiltonian without hopping is diagonal with the classical energy",
  "With zero hopping, the Hamiltonian is diagonal and its element for configuration n is sum_i U_i n_i0 n_i1 + sum_{s, i>j} W_ijs n_is n_js + sum (V_is - mu_s) n_is (with n_is n_is on the diagonal of W).",
  "every parameter set and configuration",
  "Atomic-limit test covers one site.", [f"{F}:createH", f"{F}:get_u_interspecies_op", f"{F}:get_u_samespecies_op", f"{F}:get_potential_op", f"{F}:get_chemical_pot_op"])
p("C29", "Constructor parameters are broadcast to the documented shapes",
  "A scalar parameter applies to every site and species, a per-species vector applies entry s to species s on every site, a full array is used as is, and every other shape is rejected.",
  "every nsites, nspecies and every accepted input shape",
  "Shape-dependent branches; tests use scalars.", [f"{F}:fermions.__init__"])
p("C30", "Projected Hamiltonian eigenstates are eigenstates of the full Hamiltonian",
  "If a projector P (P P^dag = 1) selects a subspace invariant under H, then v is an eigenvector of P H P^dag with eigenvalue E if and only if P^dag v is an eigenvector of H with eigenvalue E; for a complete family of such projectors every eigenvalue of H occurs in some sector.",
  "every Hermitian H, every complete family of invariant projectors",
  "A linear algebra statement over all systems; relied on by every symmetry-reduced calculation.", [f"{F}:createH", f"{S}:createH", f"{Y}:get_symmetry_projectors"])
# ---------------------------------------------------------------- spins
p("C31", "Spin matrices satisfy the angular momentum algebra",
  "For every spin s = 1/2, 1, 3/2, ... the matrices returned satisfy [Sx,Sy] = i Sz and cyclic, S+ raises the Sz eigenvalue by one, and S+ S- relations as documented.",
  "every half-integer spin",
  "Infinitely many matrix sizes; spectra with hy=0 do not see the sign.", [f"{S}:get_splus", f"{S}:get_sminus", f"{S}:get_sx", f"{S}:get_sy", f"{S}:get_sz"])
p("C32", "Total spin and Hermiticity of the spin matrices",
  "Sx, Sy, Sz are Hermitian, S- is the adjoint of S+, [S+, S-] is diagonal with entries proportional to Sz, and Sx^2+Sy^2+Sz^2 = s(s+1).",
  "every half-integer spin", "Infinitely many matrix sizes.", [f"{S}:get_splus", f"{S}:get_sx", f"{S}:get_sy", f"{S}:get_sz"])
p("C33", "The spin Hamiltonian is Hermitian",
  "For every real field and every coupling matrix accepted by the constructor the spin-1/2 Hamiltonian is Hermitian.",
  "every number of sites, coupling and field",
  "Random tests use real couplings only.", [f"{S}:createH"])
p("C34", "Ising Hamiltonian has the classical energy on the diagonal",
  "With only jz and hz, the spin-1/2 Hamiltonian is diagonal with element (1/2) sum_{i>j} jz_ij s_i s_j - (1/2) sum_i hz_i s_i where s_i = +1 for up and -1 for down as labelled by the state labels.",
  "every number of sites, coupling, field and configuration",
  "All configurations of all sizes.", [f"{S}:createH"])
p("C35", "Rydberg detuning cancels the single-spin shift",
  "With the Rydberg detuning correction, the Ising Hamiltonian's diagonal energy equals 2 sum_{i>j} J_ij n_i n_j plus a configuration-independent constant, n_i being 1 for up.",
  "every number of sites, every symmetric real J with zero diagonal, every configuration",
  "All configurations of all sizes.", [f"{S}:get_rydberg_detunes", f"{S}:createH"])
p("C36", "Spin-flip operator flips all spins and commutes with field-free Hamiltonians",
  "The up/down swap operator maps each configuration to its complement, is its own inverse, and commutes with the Hamiltonian if hy = hz = 0.",
  "every number of sites, couplings, hx", "All sizes.", [f"{S}:get_swap_up_down_op"])
p("C37", "Named special states are the states they are documented to be",
  "The ferromagnetic states are all-up and all-down, the two antiferromagnetic states are the two alternating configurations, the symmetric-excitation state is the normalised equal superposition of all single-excitation configurations, AllPlus is the normalised equal superposition.",
  "every number of sites >= 2", "Index formulas must hold for all sizes.", [f"{S}:find_special_states"])
# ---------------------------------------------------------------- symmetry
p("C38", "Geometric transformations are the isometries they claim to be",
  "The n-fold rotation applied n times is the identity, fixes its centre and preserves distances; a reflection is an involution fixing its axis through the centre and preserving distances; inversion is an involution equal to the two-fold rotation; translations add.",
  "every point, every centre, every axis, every n",
  "Continuum of arguments.", [f"{Y}:getRotFn", f"{Y}:getReflFn", f"{Y}:getInversionFn", f"{Y}:getTranslFn"])
p("C39", "Site cycles are the cycle decomposition of the transformation",
  "If finding the cycles succeeds, every site is in exactly one cycle, each entry of a cycle is the transform of the previous one (cyclically), cycles start with their smallest site, and applying the transformation the reported number of times returns every site to itself; it succeeds for every transformation permuting the sites whose order is at most the number of sites.",
  "every geometry and transformation",
  "Loop termination and the max-iteration guard depend on the permutation's order.", [f"{Y}:findSiteCycles", f"{Y}:getTransformedSites"])
p("C40", "Zn projectors are orthogonal, complete and diagonalise the symmetry",
  "For a symmetry operator acting as a permutation of basis states with phases, whose n-th power is the identity, the n returned projectors have orthonormal rows, are mutually orthogonal, together complete (dimensions add up to the full dimension), and P_k U = lambda_k P_k with lambda_k an n-th root of unity determined by k.",
  "every dimension, every phase-permutation operator, every n",
  "Linear-algebraic completeness for all representations.", [f"{Y}:getZnProjectors", f"{Y}:get_symmetry_projectors", f"{Y}:reduce_symm_projector"])
p("C41", "Dihedral projector formulas decompose every representation",
  "For operators satisfying the dihedral relations R^n=1, S^2=1, SRS=R^-1, the unnormalised projectors formed from the library's conjugacy classes and character table are pairwise orthogonal, proportional to idempotents, commute with R and S, and sum (weighted by dimension) to the identity, n = 2,...,7.",
  "every representation (any dimension) of the dihedral group of order 2n, n=2..7",
  "Quantified over all representations; the library's own check only compares dimensions.", [f"{Y}:getD2Projectors", f"{Y}:getD3Projectors", f"{Y}:getD4Projectors", f"{Y}:getD5Projectors", f"{Y}:getD6Projectors", f"{Y}:getD7Projectors"])
p("C42", "Character table validation accepts exactly orthogonal tables",
  "The validation accepts a table if and only if rows and columns satisfy the orthogonality relations for the given class sizes (to the rounding step), and acceptance of a table does not depend on the order of equally sized classes - so it cannot detect exchanged columns.",
  "every table and class sizes", "Meta-statement about all tables.", [f"{Y}:validate_char_table"])
p("C43", "The 3x3 torus space group table decomposes every representation",
  "For rotation, reflection and translation operators satisfying the relations of the 72-element symmetry group of the 3x3 torus, the library's nine unnormalised projectors are pairwise orthogonal, proportional to idempotents and sum (weighted by dimension) to the identity.",
  "every representation of the 72-element group", "All representations.", [f"{Y}:getC4V_and_3byb3"])
# ---------------------------------------------------------------- geometry
p("C44", "Adjacency of a finite cluster is a simple graph of unit neighbours",
  "For a non-periodic geometry with integer coordinates the adjacency matrix is symmetric with zero diagonal and entries 0/1, and two sites are adjacent exactly when they differ by one in one coordinate and agree in the other; distances are antisymmetric; the result passes the library's own validation.",
  "every list of integer sites", "All coordinate lists.", [f"{G}:createNonPeriodicGeometry", f"{G}:get_neighbors_by_distance", f"{G}:get_site_distance", f"{G}:validate_instance"])
p("C45", "Relabelling sites is consistent",
  "Permuting the sites by a valid permutation moves coordinates, adjacency, distance and phase matrices together (entry (i,j) becomes entry (perm i, perm j)), composing two permutations equals permuting by the composition, the inverse permutation restores the geometry, and a list that is not a permutation is rejected.",
  "every geometry and every list of indices", "Inverse/direction errors cancel for involutions.", [f"{G}:permute_sites"])
p("C46", "Site sorting is a canonical form",
  "The sorting permutation is a permutation of the sites, sorting is idempotent, two integer clusters with the same set of sites become identical after sorting, and two clusters that are translates of each other become translates with matching order, for each sorting mode.",
  "every list of distinct integer sites, every sorting mode", "Cluster deduplication relies on it for all clusters.", [f"{G}:get_sorting_permutation", f"{G}:permute_sites"])
p("C47", "Geometry comparison",
  "Equality of geometries is reflexive, symmetric and transitive, and equal geometries have all defining data equal, including boundary phases; adjacency-equality of two non-periodic clusters holds exactly when one is a translate of the other in the same order.",
  "every pair of geometries", "All pairs.", [f"{G}:Geometry.__eq__", f"{G}:isequal_adjacency"])
p("C48", "Reduction modulo periodicity vectors",
  "Reducing a vector subtracts an integer combination of the two periodicity vectors; in positive mode the reduced vector's fractional coordinates lie in [0,1), in centred mode in [-1/2,1/2); reduction is idempotent and invariant under adding periodicity vectors; zero periodicity vectors leave their direction unreduced.",
  "every vector, every pair of independent periodicity vectors, both modes", "Continuum of inputs.", [f"{G}:reduce_vectors", f"{G}:reduce_to_unit_cell"])
p("C49", "Reciprocal vectors are the dual basis",
  "For independent vectors a_i.b_j = delta_ij, with one zero vector the remaining one is scaled to a.b = 1 and the other is orthogonal/zero, and dependent non-zero vectors are rejected.",
  "every pair of 2D vectors", "Continuum.", [f"{G}:get_reciprocal_vects"])
p("C50", "A periodic lattice has one site per equivalence class",
  "The sites of a lattice cell are pairwise inequivalent modulo the periodicity vectors, lie in the unit cell, and every lattice point is equivalent to one of them; the periodic square lattice of nx by ny has exactly nx*ny sites.",
  "every integer lattice and periodicity vectors with non-zero determinant", "All lattices.", [f"{G}:get_unique_sites"])
p("C51", "Periodic distances and adjacency are consistent",
  "The reduced distance matrices of a lattice are antisymmetric, each entry differs from the plain coordinate difference by an integer combination of the periodicity vectors, and adjacency is symmetric, 0/1 and without self loops.",
  "every lattice and site list", "All lattices.", [f"{G}:get_reduced_distance", f"{G}:get_neighbors_by_distance"])
p("C52", "Boundary phases are Hermitian and gauge-consistent",
  "The phase matrix has unit-modulus entries, is Hermitian with ones on the diagonal, and the product of phases around a closed loop winding once around the first (second) period equals exp(i phase1) (exp(i phase2)), up to sign convention fixed by the code.",
  "every lattice, phases and loop", "All loops.", [f"{G}:get_phase_mat"])
p("C53", "Regular polygon geometry is a ring",
  "For n >= 3 sides the n sites have unit nearest-neighbour spacing, lie on a common circle, and site i is adjacent exactly to i-1 and i+1 modulo n.",
  "every n >= 3", "All n.", [f"{G}:createRegularPolygonGeometry"])
# ---------------------------------------------------------------- nlce
p("C54", "Cluster weights invert the subgraph sum",
  "For a strictly lower-triangular subcluster matrix, the computed weights satisfy P(c) = W(c) + sum over subclusters of multiplicity times W, they are the only numbers doing so, and the reported order-by-order contributions add up to the total.",
  "every number of clusters, subcluster matrix, property table, order partition", "All matrices.", [f"{N}:get_nlce_exp_val"])
p("C55", "Numerical linked cluster expansion is exact on a finite cluster and for additive properties",
  "If the multiplicities equal a parent cluster's own subcluster counts plus itself, the expansion returns exactly the parent's property divided by the site number; if the property is additive over sites, all weights beyond the single site vanish.",
  "every subcluster matrix and property", "All matrices.", [f"{N}:get_nlce_exp_val"])
p("C56", "Euler resummation",
  "The resummed contributions are linear in the input, sum to the right closed form for every geometric series, and reproduce the sum of a finite series in the limit.",
  "every sequence, every y > 0, every ratio", "All orders.", [f"{N}:euler_resum"])
p("C57", "Cluster enumeration is sound",
  "Every cluster returned at order n is a connected set of n distinct integer lattice sites in canonical order, and no two returned clusters are equal up to translation (and, with symmetry, up to the square's rotations and reflections).",
  "every order", "Number of clusters grows exponentially; tests compare counts up to small order.", [f"{N}:get_clusters_next_order", f"{N}:get_all_clusters"])
p("C58", "Cluster enumeration is complete",
  "Every connected set of n sites of the square lattice is a translate of (with symmetry: related by a symmetry of the square and translation to) one returned cluster of order n.",
  "every order and every connected site set", "Infinite family.", [f"{N}:get_clusters_next_order", f"{N}:get_all_clusters"])
p("C59", "Cluster multiplicities",
  "The multiplicity of a cluster is the number of its distinct images (up to translation) under the eight symmetries of the square, it divides eight, and the multiplicities at order n add up to the number of fixed polyominoes with n cells.",
  "every cluster", "All clusters.", [f"{N}:get_clusters_rel_by_symmetry", f"{N}:get_all_clusters"])
p("C60", "Subcluster enumeration lists each connected subset once",
  "The subclusters of a parent are exactly its connected site subsets, each once, and the list of contained subclusters of each is exactly the set of connected proper subsets.",
  "every connected parent cluster", "Exponentially many subsets.", [f"{N}:get_subclusters_next_order", f"{N}:get_all_subclusters"])
p("C61", "Grouping clusters by geometry partitions them",
  "Reduction assigns every cluster to exactly one representative, which is equal to it up to the chosen symmetries and translation; representatives are pairwise inequivalent; multiplicities are the group sizes and add up to the number of clusters.",
  "every list of clusters", "All lists.", [f"{N}:reduce_clusters_by_geometry"])
p("C62", "Reduced subcluster matrix counts",
  "Entry (i,j) of the reduced subcluster matrix is the number of connected proper subsets of representative i equivalent to representative j; it is a non-negative integer independent of the member chosen.",
  "every parent cluster", "All clusters.", [f"{N}:get_reduced_subclusters", f"{N}:get_all_clusters_with_subclusters"])
# ---------------------------------------------------------------- fermi gas, green's functions
p("C63", "Fermi function",
  "The Fermi function lies in [0,1], obeys f(mu+x)+f(mu-x)=1 at finite beta, is non-increasing in energy and non-decreasing in mu for beta >= 0 including beta = infinity, and tends to the step function value.",
  "all energies, mu, beta in [0, inf]", "Continuum.", [f"{FG}:fermi"])
p("C64", "Fermi function derivatives",
  "The returned derivatives are the derivatives of the Fermi function with respect to chemical potential, energy and inverse temperature at every finite beta.",
  "all energies, mu, finite beta", "Derivative at every point.", [f"{FG}:fermi_derivatives"])
p("C65", "Allowed wavevectors",
  "The allowed wavevectors are nsites distinct values, exactly those in [-pi,pi) (balanced) or [0,2pi) (positive) with exp(i k nsites)=1.",
  "every nsites and mode", "All sizes.", [f"{FG}:get_allowed_kvects"])
p("C66", "Real-time Green's function identities",
  "G_ret = theta(t)(G> - G<), G_adv = -theta(-t)(G> - G<), time-ordered = theta(t)G> + theta(-t)G<, each with the code's convention theta(0)=1, and the returned derivative is the derivative with respect to mu.",
  "all k, t, mu, beta", "Continuum.", [f"{FG}:fg_kspace_gfns"])
p("C67", "Non-interacting density, compressibility and correlations",
  "The density lies in [0,1], is non-decreasing in mu, obeys n(mu)+n(-mu)=1 for even site numbers, the compressibility is its mu-derivative, off-site density correlations are non-positive and the sum of correlations over all displacements equals the compressibility over beta.",
  "from 2 to 10^6 sites per direction, both lattices, every mu, beta", "Continuum and all sizes.", [f"{FG}:fg_density", f"{FG}:fg_compressibility", f"{FG}:fg_corr"])
p("C68", "Singles and doubles",
  "Densities of singly and doubly occupied sites lie in [0,1], satisfy singles + 2 doubles = total density, their correlators follow from independent up and down gases, and on-site singles correlator is s(1-s).",
  "all mu_up, mu_dn, beta, from 2 to 10^6 sites per direction", "Continuum.", [f"{FG}:fg_singles", f"{FG}:fg_doubles", f"{FG}:fg_singles_corr", f"{FG}:fg_doubles_corr", f"{FG}:fg_sz_corr"])
p("C69", "Density response depends on the wavevector",
  "The density response at wavevector q is the Lindhard sum with energies e(k) and e(k+q) in one and two dimensions.",
  "all q, omega, eta, mu, beta, nsites", "The 1d branch is not tested.", [f"{FG}:fg_density_response"])
p("C70", "Matsubara frequencies",
  "The returned fermionic (bosonic) frequencies are exactly the odd (even) multiples of pi/beta of modulus below the cutoff, increasing and symmetric about zero.",
  "all positive beta, all cutoffs (positive for bosons, where zero is always included)", "Continuum.", [f"{GF}:get_matsubara_frqs"])
p("C71", "Integration kernels reproduce trapezoidal transforms",
  "Applying the imaginary-frequency or imaginary-time kernel matrix to a sampled spectral function gives the same number as the direct trapezoidal transform, for every grid of at least two points.",
  "every grid, spectral function, frequency/time", "End-point handling for every grid.", [f"{GF}:get_grnfn_imagfrq_spectralfn_kernel", f"{GF}:get_grnfn_imagtime_spectralfn_kernel"])
p("C72", "Imaginary-time Green's function is antiperiodic",
  "The non-interacting imaginary-time Green's function satisfies G(tau+beta) = -G(tau) for -beta<tau<0, is negative for 0<tau<beta, and G(0+) - G(0-) = -1.",
  "all energies (measured from the chemical potential), beta, tau", "Continuum.", [f"{GF}:get_noninteracting_gfn_tau"])
p("C73", "Saving and loading",
  "After any history of saves, loading a supported file returns the state last saved there; an unsupported file extension is rejected without writing.",
  "every history of saves and loads", "All histories.", [f"{B}:save", f"{B}:load"])

p("C74", "Basis states are ordered products of creation operators",
  "The state of the many-body basis with occupations t is, with sign +1, the product of creation operators of its occupied modes in mode order applied to the vacuum.",
  "every number of sites and species, every occupation pattern", "Exponentially many states.", [f"{B}:get_single_site_op", f"{F}:get_state_vects"])
p("C75", "Spin-1/2 Hamiltonian is the documented one",
  "For spin 1/2 the Hamiltonian equals (1/2) sum_{i>j} (jx X X + jy Y Y + jz Z Z) - (1/2) sum_i (hx X + hy Y + hz Z) with the Pauli matrices X, Y, Z, as documented.",
  "all sizes, couplings and fields", "All sizes and couplings; sign conventions of sy.", [f"{S}:createH", f"{S}:get_sy"])
p("C76", "Pair-number operator counts connected pairs",
  "The Rydberg pair operator is diagonal, and its value on a configuration is the number of connected pairs of sites that are both up.",
  "all sizes and connection masks", "All configurations.", [f"{S}:get_npairs_op"])

p("C77", "Time-ordered response is even in frequency",
  "The time-ordered response of an operator to itself takes the same value at omega and -omega, at every temperature.",
  "all spectra, operators, frequencies, temperatures", "Continuum of inputs.", [f"{B}:get_response_fn_time_ordered"])
p("C78", "Integrated conductivity is continuous at zero temperature",
  "The integrated conductivity returned for zero temperature is the limit of the values returned for small positive temperatures.",
  "all spectra and current operators", "A limit; degenerate spectra are not tested.", [f"{B}:integrate_conductivity"])
p("C79", "Partition function from the Hamiltonian",
  "The partition function computed from the trace of the exponential of the Hamiltonian is the sum of exp(-beta E) over its eigenvalues, for all beta including zero.",
  "all Hermitian matrices and beta", "Continuum of inputs.", [f"{B}:get_partition_fn_hamiltonian"])
p("C80", "Overlaps with subspaces",
  "The overlap of a state with a subspace is the squared norm of its projection, hence non-negative; for projectors that resolve the identity the overlaps of a state sum to its squared norm.",
  "all states and families of projectors", "Continuum of inputs.", [f"{B}:get_subspace_overlaps"])
p("C81", "Site-resolved expectation values and correlators",
  "Without explicit sites, correlators are returned for every unordered pair of sites (including equal sites) exactly once, and each value is the expectation value (or canonical average) of the product of the two single-site operators in the projected space.",
  "all sizes, operators, states, projectors, temperatures, both statistics", "All sizes and states.",
  [f"{B}:get_exp_vals_sites", f"{B}:get_thermal_exp_sites", f"{B}:get_corr_sites", f"{B}:get_thermal_corr_sites"])

p("C82", "Density correlator is even and periodic",
  "The density correlator of the ideal gas is unchanged when the displacement is reversed or shifted by the size of the periodic lattice.",
  "all displacements, mu, beta, from 2 to 10^6 sites per direction", "All displacements.", [f"{FG}:fg_corr", f"{FG}:fg_singles_corr"])
p("C83", "Spin correlator is isotropic without polarisation",
  "For equal chemical potentials of the two species the transverse and the longitudinal spin correlators agree at every displacement.",
  "all displacements, mu, beta, from 2 to 10^6 sites per direction", "Continuum and all displacements.", [f"{FG}:fg_sx_corr", f"{FG}:fg_sz_corr"])
p("C84", "Real-space Green's functions",
  "The real-space Green's function is the Fourier sum of the momentum-space one over the allowed wavevectors; greater minus lesser at equal times is -i for zero displacement (up to the lattice size) and zero otherwise.",
  "all displacements, times, mu, beta, from 2 to 10^6 sites per direction", "Continuum and all sizes.", [f"{FG}:fg_realspace_gfn"])
p("C85", "Chemical potential for a density",
  "The density at the chemical potential returned for a requested density is the requested density.",
  "all densities, 0 < beta < inf, lattice sizes, given an exact root finder", "Continuum.", [f"{FG}:fg_mu"])
p("C86", "Density of states is normalised",
  "The density of states is non-negative and its integral over the bins is the fraction of energies between the first and the last bin edge.",
  "all lists of energies and increasing bin edges", "All inputs.", [f"{FG}:get_dos"])
p("C87", "Lattice sizes",
  "Densities and correlators of the ideal gas are returned for every positive number of sites.",
  "every number of sites up to 10^6", "All sizes.", [f"{FG}:fg_density", f"{FG}:get_energy_spacing"])

p("C88", "Free level: imaginary time and frequency agree",
  "The imaginary-frequency Green's function of a free level is, at each returned frequency, the integral of exp(i omega tau) times the imaginary-time function over 0 < tau < beta.",
  "all energies, beta > 0, cutoffs", "Continuum integral.", [f"{GF}:get_noninteracting_gfn_imagfrq", f"{GF}:get_noninteracting_gfn_tau"])
p("C89", "Spectral function of a broadened level",
  "It is positive, symmetric about the level, and its integral over all frequencies is 2 pi.",
  "all levels and positive broadenings", "Integral over the real line.", [f"{GF}:get_noninteracting_spectral_fn"])
p("C90", "Imaginary-time function from Matsubara data",
  "The function of imaginary time computed from data on the library's fermionic (bosonic) frequencies is antiperiodic (periodic) with period beta, and real if the data at -omega are the conjugate of those at omega.",
  "all data, beta, cutoffs, times", "Continuum.", [f"{GF}:grnfn_imagfrq_ft", f"{GF}:get_matsubara_frqs"])
p("C91", "Hydrodynamic susceptibility is causal and dissipative",
  "For positive diffusion rate and damping it has no pole in the closed upper half plane, equals the static susceptibility at zero frequency, is conjugated by omega -> -omega, and has positive imaginary part at positive frequency.",
  "all parameters and frequencies", "Continuum.", [f"{GF}:chi_hydro"])
p("C92", "Amplitude of the field that is switched off",
  "The field amplitude is the transform, in the sign convention of the observable response, of a field Ho exp(eta t) for t < 0 and zero for t > 0.",
  "all frequencies and positive eta", "Integral over the half line.", [f"{GF}:field_snap_off_w"])
p("C93", "Transform of imaginary-time samples uses the samples in [0, beta]",
  "The imaginary-frequency function computed from samples is the trapezoidal integral over exactly the samples with 0 <= tau <= beta; for real samples its value at -omega is the conjugate of that at omega.",
  "all samples, beta, frequencies", "All grids and beta.", [f"{GF}:grnfn_imagtime_ft"])
p("C94", "Sum rules for functions computed from a spectral function",
  "The imaginary-frequency function at -omega is the conjugate of that at omega; G(0) + G(beta) for fermions and G(0) - G(beta) for bosons is minus the trapezoidal integral of the spectral function over 2 pi.",
  "all grids, spectral functions, beta", "All grids.", [f"{GF}:get_grnfn_imagfrq_spectralfn", f"{GF}:get_grnfn_imagtime_spectralfn"])
p("C95", "Real-time response is real",
  "On a frequency grid symmetric about zero, conjugate-symmetric susceptibility and field give a real response function and observable at every time.",
  "all grids, times, susceptibilities, fields", "All grids.", [f"{GF}:phi_t", f"{GF}:obs_kt"])

p("C96", "Pauli operators of the library",
  "The single-site operators built from the library's Pauli matrices are Hermitian, square to one, multiply as x y = i z (cyclically) on one site and commute on different sites; sigma plus and minus are (x +- i y)/2; half of their sums over all sites satisfy the commutation relations of a spin.",
  "systems of any size and species of two-state sites", "All sizes.", ["exact_diag/ed_base.py:ed_base", "exact_diag/ed_base.py:ed_base.get_single_site_op", "exact_diag/ed_base.py:ed_base.get_sum_op"])
p("C97", "Separations in lattice vectors are antisymmetric",
  "The matrices of the numbers of first and second lattice vectors between two sites change sign when the two sites are exchanged.",
  "all lattices and site lists", "All lattices.", [f"{Y, G, N}:Lattice.get_reduced_distance"])
p("C98", "Periodicity vectors are lattice vectors",
  "A lattice is created exactly if its lattice vectors are independent, its non-zero periodicity vectors are independent and they are integer combinations of the lattice vectors.",
  "all lattice and periodicity vectors", "All vectors.", [f"{Y, G, N}:Lattice.__init__", f"{Y, G, N}:Lattice.validate_instance"])

p("C99", "Spin rotation symmetry of the spin one-half Hamiltonian",
  "With equal x and y couplings and fields along z only, the Hamiltonian commutes with the sum of sigma z over the sites; with isotropic couplings and no field it commutes with the sums of all three Pauli matrices.",
  "all numbers of sites, all couplings and fields", "All sizes and couplings.", ["exact_diag/ed_spins.py:spinSystem.createH", "exact_diag/ed_base.py:ed_base.get_sum_op"])

p("C100", "Current operator",
  "The current operator along a direction is Hermitian for real hopping, conserves the number of particles of each species, and on an open cluster is i times the commutator of the Hamiltonian with the position along that direction (the time derivative of the position).",
  "all geometries, sizes, species, hopping amplitudes, interactions and directions", "All sizes and parameters; a sign or factor error is invisible in most observables.", [f"{F}:fermions.get_current_op", f"{F}:fermions.createH"])
p("C101", "Diagonalization",
  "Diagonalizing a Hermitian matrix returns ascending energies and matching orthonormal eigenvectors: all of them with the dense solver, and the neigs lowest ones with the sparse solver.",
  "all Hermitian matrices, all numbers of requested states", "All matrices; the sparse branch is chosen only for systems too large for tests.", [f"{B}:ed_base.diagH"])
p("C102", "Momentum sectors of two translations",
  "For two commuting translations the 2D projectors come with the two momenta of each sector: no sector is empty or listed twice, dimensions add up to the dimension of the space, rows are orthonormal, every row is an eigenvector of both translations with the momenta returned, and the sectors resolve the identity.",
  "all pairs of commuting operators that permute basis states with phases, all orders n1 and n2", "Sectors number n1 n2 and the pairing of momenta with sectors after the removal of empty ones shows only for particular lattices.", ["exact_diag/ed_symmetry.py:get2DTranslationProjectors", "exact_diag/ed_symmetry.py:getZnProjectors"])
p("C103", "Symmetry adapted bases of point groups",
  "The projectors returned for a dihedral group or the group of the 3x3 torus have orthonormal rows, rows of different projectors are orthogonal, the rows of each projector span the corresponding isotypic component, their numbers add up to the dimension of the space (no exception is raised), and an operator that commutes with the symmetry has no matrix elements between different projectors. Up to the rounding errors of the library.",
  "all representations by operators that permute basis states up to phases, of any dimension", "All sizes and all actions of the group; representations of dimension two or more take a branch with a singular value decomposition.", ["exact_diag/ed_symmetry.py:reduce_symm_projector", "exact_diag/ed_symmetry.py:get_symmetry_projectors", "exact_diag/ed_symmetry.py:getD2Projectors", "exact_diag/ed_symmetry.py:getD3Projectors", "exact_diag/ed_symmetry.py:getD4Projectors", "exact_diag/ed_symmetry.py:getD5Projectors", "exact_diag/ed_symmetry.py:getD6Projectors", "exact_diag/ed_symmetry.py:getC4V_and_3byb3"])

p("C104", "Symmetry sectors of the Hamiltonian, end to end",
  "If permutations of the sites generate a dihedral group (2 to 6) or the group of the 3x3 torus and leave the parameters of the model unchanged, then the operators made of their cycles, handed to the projector function of that group, give an orthonormal basis of the whole many-body space in which the Hamiltonian made of the parameters is block diagonal, up to the rounding errors of the library.",
  "all fermion models and spin-1/2 models, any number of sites, all parameters, all permutations other than the identity with these relations", "Signs of fermion exchange, representation theory, the singular value decomposition and the Hamiltonian must fit together for every size and action of the group.", [f"{B}:get_xform_op", f"{B}:createH", "exact_diag/ed_symmetry.py:get_symmetry_projectors", "exact_diag/ed_symmetry.py:reduce_symm_projector", "exact_diag/ed_fermions.py:fermions.createH", "exact_diag/ed_spins.py:spinSystem.createH"])

p("C105", "Linked cluster expansion on the square lattice, end to end",
  "The cluster generator with subclusters, called for the square lattice with any maximum order, followed by the expansion function, returns for every property of clusters that is invariant under translations and the symmetries of the square: the weight of each cluster (property minus the weights of all connected proper subsets), for each order the sum of the weights of all connected shapes with that number of sites, counted once per orientation, and their total. A property that is a sum over sites and bonds is reproduced exactly per site of the infinite lattice from order two on.",
  "all maximum orders; all invariant properties, as numbers or as arrays without axes of length one (for these see C54)", "The number of shapes grows exponentially and the properties are arbitrary; a test can compare a few published numbers of low order.", ["exact_diag/ed_nlce.py:get_all_clusters_with_subclusters", "exact_diag/ed_nlce.py:get_nlce_exp_val"])

p("C106", "Subclusters found by many jobs",
  "For every number of clusters and every limit on the size of job arrays, each cluster is the task of exactly one job. After all jobs have finished, the aggregation script, run on the files listed in any order, among files which do not match the pattern, writes the cluster data together with the matrix that the serial function returns; running the scripts again in the same directory gives the same result.",
  "all maximum orders, all limits, all orders in which the directory is listed, all prefixes without digits", "Job arrays are submitted to a cluster; the number of clusters and the order of a directory listing vary.", ["cluster/run_on_cluster.sh", "cluster/slurm_array.sh", "cluster/find_subclusters.py:find_subclusters", "cluster/aggregate_subclusters.py:aggregate_subclusters", "cluster/generate_clusters_no_subs.py:generate_clusters_no_subs"])
p("C107", "Results of the diagonalized clusters",
  "Given the cluster data written by the scripts before and one file per cluster with quantities at several temperatures, listed in any order, the results script returns the clusters in their order and, for each of the four quantities and each temperature, the weights, the contribution of each order, their sum and its Euler transform, as defined by the linked cluster expansion of the square lattice.",
  "all maximum orders, all numbers of temperatures, all quantities invariant under translations and symmetries of the square, all orders of the files", "Sorting of files by number, matching of rows with clusters, weights and orders, for arbitrary data.", ["cluster/aggregate_results.py:aggregate_results", "cluster/generate_clusters.py:generate_clusters", "cluster/aggregate_subclusters.py:aggregate_subclusters"])
p("C108", "Cluster data files can be reused",
  "The scripts that generate the clusters write a file; when they are started again and find the file, they return the same number of clusters and leave the file unchanged.",
  "both scripts, all maximum orders", "The second run depends on what the first one wrote.", ["cluster/generate_clusters.py:generate_clusters", "cluster/generate_clusters_no_subs.py:generate_clusters_no_subs"])

p("C109", "Thermodynamics of a Hamiltonian",
  "From the energies and eigenvectors of the dense solver, thermal expectation values are the traces with the density matrix exp(-H/T)/Z, and the scripts' energy, entropy and specific heat are the mean energy, von Neumann's entropy of the density matrix (which is minus the derivative of the free energy) and the derivative of the mean energy with respect to temperature. The script that is run for each cluster returns them together with the sum of the correlations.",
  "all Hermitian Hamiltonians of any dimension, all operators, all positive temperatures (averages: all temperatures other than zero)", "All Hamiltonians and temperatures; derivatives cannot be tested pointwise.", ["examples/test_nlce.py", "cluster/diag_cluster.py:diag_cluster", f"{B}:ed_base.get_exp_vals_thermal", f"{B}:ed_base.diagH"])
p("C110", "Linked cluster expansion of the spin model, from couplings to thermodynamics",
  "The example script for the spin model, given a maximum order, couplings, fields and temperatures, returns for each temperature the linked cluster expansion of the mean energy, the entropy, the specific heat and the sum of the z correlations of the spin model on the connected sets of sites of the square lattice: weights, contribution of each order and total.",
  "all maximum orders, couplings, fields and lists of positive temperatures other than lists of length one (see C54); any eigenvalue solver that meets its documentation", "Composition of cluster generation, Hamiltonians, diagonalization, thermal averages and weights; exponentially many clusters.", ["examples/test_nlce.py", "exact_diag/ed_spins.py:spinSystem.createH", "exact_diag/ed_nlce.py:get_all_clusters_with_subclusters", "exact_diag/ed_nlce.py:get_nlce_exp_val", f"{B}:ed_base.get_exp_vals_thermal"])
p("C111", "Thermodynamics from symmetry sectors",
  "When a Hamiltonian is diagonalized sector by sector, combining the sectors gives the thermal average of any operator, the mean energy, the entropy and the specific heat of the whole system. This holds for both scripts which do so.",
  "all Hermitian Hamiltonians, all complete sets of sectors, all positive temperatures", "All Hamiltonians and decompositions; the error of a wrong combination is a smooth function of temperature.", ["examples/test_nlce.py", "examples/measure_hubbard.py", f"{B}:ed_base.thermal_avg_combine_sectors", f"{B}:ed_base.get_exp_vals_thermal"])
p("C112", "Fermions without interactions",
  "For a fermion model without interactions, diagonalizing the Hamiltonian on the full many-body space gives thermal densities, density correlations, mean energy, entropy and specific heat that are the sums over the states of a single particle with Fermi-Dirac occupation: densities are weighted sums of occupations, different species are independent, densities of the same species are anticorrelated by the squared one-particle density matrix, and the entropy is the sum of the mixing entropies of the states.",
  "all numbers of sites and species, all real symmetric hopping amplitudes, all potentials and chemical potentials, all temperatures other than zero (thermodynamics: positive)", "Signs of the Jordan-Wigner ordering cancel or not depending on the pair of sites, for every size; a test compares a few small chains.", ["exact_diag/ed_fermions.py:fermions.createH", f"{B}:ed_base.get_thermal_exp_sites", f"{B}:ed_base.get_thermal_corr_sites", f"{B}:ed_base.get_exp_vals_thermal", "examples/test_nlce.py"])
p("C113", "Exact diagonalization agrees with the Fermi gas module",
  "For fermions without interactions on a periodic chain or a periodic square lattice, the results of building the model, its Hamiltonian and diagonalizing it agree with the functions of the Fermi gas module in units of the hopping: thermal densities, density correlators at the displacement of two sites, singles, doubles and their correlators, the correlators of the spin along z and along x. Energy, entropy and specific heat are the sums over the energies of a single particle.",
  "all numbers of sites per direction for which the lattice exists, all numbers of species, all hoppings other than zero, all chemical potentials for each species, all temperatures including zero, all pairs of sites", "The two modules compute the same physics by unrelated routes: momentum sums against many-body diagonalization; tests can compare a few small lattices and temperatures.", ["exact_diag/ed_fermions.py:fermions.createH", f"{B}:ed_base.get_thermal_exp_sites", f"{B}:ed_base.get_thermal_corr_sites", f"{FG}:fg_density", f"{FG}:fg_corr", f"{FG}:fg_singles_corr", f"{FG}:fg_doubles_corr", f"{FG}:fg_sz_corr", f"{FG}:fg_sx_corr", "examples/measure_hubbard.py"])
p("C114", "Fermions without interactions at zero temperature",
  "At zero temperature the densities, density correlations and the observables of the two-component gas, from diagonalizing the Hamiltonian of a fermion model without interactions, are those of the Fermi sea: states of a single particle with negative energy are filled, those with positive energy are empty, and those with energy zero contribute one half; different species are independent and densities of one species are anticorrelated by the squared one-particle density matrix.",
  "all numbers of sites and species, all real symmetric hopping amplitudes, all potentials and chemical potentials for which every energy of a single particle is zero or exceeds the tolerance for degenerate levels, half of 1e-13", "The ground states of the many-body Hamiltonian are averaged; whether their number and the average are right for every degeneracy cannot be sampled.", ["exact_diag/ed_fermions.py:fermions.createH", f"{B}:ed_base.get_thermal_weights", f"{B}:ed_base.get_exp_vals_thermal", f"{B}:ed_base.get_thermal_exp_sites", f"{B}:ed_base.get_thermal_corr_sites", "examples/measure_hubbard.py"])
p("C115", "Sectors of fixed particle numbers",
  "The script measure_hubbard.py divides the states of a fermion model into one sector for each pair of particle numbers of the first two species, each with exactly the basis states of these numbers. The averages it combines from these sectors are, for every operator (also one that connects sectors), the averages over the whole system and what the library returns without sectors, and the energies of all sectors together are the energies of the whole system with the same multiplicities.",
  "all fermion models with real parameters, two or more species and any number of sites, all operators, all nonzero temperatures", "The script compares nothing with a calculation without sectors, and a test could do so only for small lattices and given parameters.", ["examples/measure_hubbard.py", f"{B}:ed_base.get_sum_op", f"{B}:ed_base.get_subspace_projs", f"{B}:ed_base.thermal_avg_combine_sectors", "exact_diag/ed_fermions.py:fermions.createH", "examples/heisenberg_chain.py"])
p("C116", "Energies from momentum sectors",
  "The script measure_hubbard.py finds on a periodic square lattice both translations and their orders, and divides the states into sectors of fixed particle numbers and momenta, each combination at most once. The energies found in all sectors together are the energies of the whole Hamiltonian, with the same multiplicities. The same holds for the sectors of any one symmetry, or of two commuting ones, that permute the basis states up to phases and commute with the Hamiltonian.",
  "all sizes of the lattice, all hopping, interaction and chemical potentials; all Hermitian matrices with such symmetries of any order", "heisenberg_chain.py prints the largest difference for one chain; a test cannot cover all sizes and parameters, and whole systems of more than a few sites cannot be diagonalized for comparison.", ["examples/measure_hubbard.py", "examples/heisenberg_chain.py", "exact_diag/ed_symmetry.py:getZnProjectors", "exact_diag/ed_symmetry.py:get2DTranslationProjectors", "exact_diag/ed_symmetry.py:findSiteCycles", f"{B}:ed_base.get_xform_op", f"{B}:ed_base.diagonalize"])
p("C117", "Sectors of a Heisenberg chain",
  "The script heisenberg_chain.py divides the states of a ring of spins into sectors with given magnetization, momentum, parity under the flip of all spins (magnetization zero) and parity under inversion (momentum zero or pi). Every sector has the quantum numbers that the script notes for it, no combination occurs twice, the Hamiltonian is that of the Heisenberg model on the ring, and the energies found in the sectors are those of the whole Hamiltonian, so that the largest difference that the script prints is zero up to rounding.",
  "all numbers of sites, all couplings, all solvers that diagonalize correctly", "The script covers one ring and one coupling, prints one number, and does not check the quantum numbers; a sector that is listed twice in place of another one with the same energies would not be seen.", ["examples/heisenberg_chain.py", "exact_diag/ed_spins.py:spinSystem.get_sum_op", "exact_diag/ed_spins.py:spinSystem.get_swap_up_down_op", "exact_diag/ed_symmetry.py:getInversionFn", "exact_diag/ed_symmetry.py:getZnProjectors", f"{B}:ed_base.get_subspace_projs", f"{B}:ed_base.get_xform_op"])
p("C118", "All directions of the spins are equivalent",
  "If the couplings and the fields along the three directions x, y, z are permuted, both in the same way, the energies of the spin model do not change; for spin 1/2 they are the energies of the documented Hamiltonian.",
  "all numbers of sites, all spins, all real couplings between all pairs of sites, all real fields on all sites, all six permutations, all solvers that diagonalize correctly", "The unit test compares the six permutations for one cluster with spin 1/2 and uniform random couplings; it cannot cover other spins, other couplings, or a sign that is wrong in one direction.", ["unittests/spin_system_unittest.py:TestSpinSys.test_directions_equivalent", "exact_diag/ed_spins.py:spinSystem.createH", "exact_diag/ed_spins.py:spinSystem.get_sx", "exact_diag/ed_spins.py:spinSystem.get_sy", "exact_diag/ed_spins.py:spinSystem.get_sz", f"{B}:ed_base.diagH"])
p("C119", "Spinless fermions are the anisotropic Heisenberg model",
  "Spinless fermions with hopping and an interaction between neighbours have the energies of the spin 1/2 model with couplings -t, -t, V/2 on the same cluster, up to a constant, once the fields are chosen accordingly.",
  "all clusters whose hopping connects consecutive sites (and the first with the last), all numbers of sites, all potentials, chemical potentials, interactions and hopping strengths, inhomogeneous ones included, all solvers that diagonalize correctly", "The unit test for this mapping is skipped because the comparison was not completed; it uses one periodic cluster, for which the mapping does not hold. A finite number of clusters cannot show where the sign of the boundary term depends on the number of particles.", ["unittests/fermions_unittest.py:TestFermions.test_heisenberg", "exact_diag/ed_fermions.py:fermions.createH", "exact_diag/ed_spins.py:spinSystem.createH", "exact_diag/ed_geometry.py:Lattice.get_unique_sites", f"{B}:ed_base.diagH"])
p("C120", "Without hopping every site is an independent atom",
  "With zero hopping, the energies are the sums of the energies of the sites; the partition function computed from the eigenvalues is the product of those of the sites, energy, entropy and specific heat are the sums; occupations are averages over the levels of one site, and densities at different sites are uncorrelated. For two species the averages are the known rational expressions in the Boltzmann factors.",
  "all numbers of sites and species, all interactions (none for a single species, see C25) and potentials, inhomogeneous ones included, all positive temperatures (averages: all temperatures other than zero), all solvers that diagonalize correctly", "The unit test compares the energy of one site at thirty temperatures for one interaction.", ["unittests/fermions_unittest.py:TestFermions.test_hubbard_atomic_limit", "exact_diag/ed_fermions.py:fermions.createH", f"{B}:ed_base.get_exp_vals_thermal", f"{B}:ed_base.get_thermal_exp_sites", f"{B}:ed_base.get_thermal_corr_sites", f"{B}:ed_base.diagH"])
p("C121", "The two-site Hubbard model has its known spectrum",
  "On two sites with interaction U, hopping t and chemical potentials m0 and m1, the sixteen energies are 0; -t and t less m0, and less m1; -2 m0, -2 m1; 0, U and (U ± sqrt(U^2 + 16 t^2))/2, less m0 + m1; U ± t less 2 m0 + m1 and less m0 + 2 m1; 2U less 2 m0 + 2 m1. The solver returns them in ascending order. Restricting to one particle of each species gives the four middle ones; the lowest is (U - sqrt(U^2 + 16 t^2))/2, at least -4t^2/U for repulsive U. Closing two sites to a ring changes nothing.",
  "all real U, t, m0 and m1, open or periodic boundary conditions, all solvers that diagonalize correctly", "The unit tests draw one random U and t with chemical potentials zero.", ["unittests/fermions_unittest.py:TestFermions.test_two_sites", "unittests/fermions_unittest.py:TestFermions.test_two_sites_numbersubspace", "exact_diag/ed_fermions.py:fermions.createH", "exact_diag/ed_fermions.py:fermions.__init__", f"{B}:ed_base.diagH"])
p("C122", "Exchanging particles and holes; half filling",
  "If particles hop only between two sublattices, the model in which every local potential is replaced by its negative, less the interaction energy of a particle with the filled system, has the same energies up to the energy of the filled system, and at every site, temperature and species the densities of the two models add up to one. Hence the density is one half at every temperature if each local potential is minus half that interaction energy: in the Hubbard model for the chemical potential U/2, and for spinless fermions on an even ring for a chemical potential equal to the interaction of neighbours, as the example script states.",
  "all numbers of sites and species, all real hoppings, interactions between and within species and potentials, inhomogeneous ones included, all temperatures (zero temperature if different energies differ by more than the rounding of the library), all solvers that diagonalize correctly; constructors: all rectangles that are open or closed over an even number of sites", "The example script runs one ring of twelve sites and nine interactions and does not check the density; the unit tests contain nothing on it.", ["examples/fermions_attractive_phase_diagram.py", "exact_diag/ed_fermions.py:fermions.createH", f"{B}:ed_base.get_thermal_exp_sites", f"{B}:ed_base.diagH"])
p("C123", "Spin rotations of the fermion model",
  "If the two species have the same hoppings and potentials and particles at different sites do not interact, the Hamiltonian commutes with the operators, summed over sites, that turn a particle of one species into one of the other. Hence among the states with a given number of particles, those with more balanced numbers of the two species contain all energies of those with less balanced numbers, with multiplicities, and the lowest energy for a number of particles is found in the most balanced sector. If only the parameters of the two species agree, exchanging the two numbers of particles changes no energy.",
  "all numbers of sites, all real hoppings, on-site interactions and potentials that are equal for the two species, all numbers of particles, all solvers that diagonalize correctly; constructor: all rectangles, open or periodic, all interactions, hoppings and chemical potentials", "A test compares the sectors of one cluster; the relation between sectors of different size for every lattice and interaction is a statement about a symmetry of the operator.", ["exact_diag/ed_fermions.py:fermions.createH", "exact_diag/ed_fermions.py:fermions.__init__", f"{B}:ed_base.diagH", f"{B}:ed_base.get_two_site_op"])
p("C124", "Pairs of fermions",
  "If particles hop only between two sublattices, in the same way for both species, and a pair at a site has the same energy D at every site, then the operator that adds a pair, with signs alternating between the sublattices, changes the energy of every state by D. Hence below half filling the energies reappear with more pairs, shifted by D for each pair; the energies above half filling are those below, shifted by D times the number of pairs; and for every number k of pairs there is a state with energy k D. In the Hubbard model D = U - 2 mu.",
  "all numbers of sites, all real hoppings, on-site interactions and potentials with a constant pair energy (inhomogeneous ones included), all numbers of particles, all solvers that diagonalize correctly; constructor: all rectangles that are open or closed over an even number of sites", "The example script on the eta mode replaces the fermions by spins and compares nothing with an expected value; a test could compare a few sectors of one cluster.", ["examples/eta_mode.py", "exact_diag/ed_fermions.py:fermions.createH", "exact_diag/ed_fermions.py:fermions.__init__", f"{B}:ed_base.diagH", f"{B}:ed_base.get_two_site_op"])
p("C125", "Precession of the total spin",
  "For spins with isotropic couplings in a uniform field h, the averages of the summed Pauli operators in the states returned by the time evolution precess about the field: d/dt s = s x h, whatever the couplings and the initial state. For a field along z the components across the field rotate with the frequency hz (the period 2 pi / hz of the example) and the component along the field is constant.",
  "all numbers of spins 1/2, all real isotropic couplings, all uniform fields, all initial states, all lists of times, all solvers that diagonalize correctly; constructor: all rectangles, open or periodic", "The example plots one evolution and prints the expected period; a test would compare a few times for one ring.", ["examples/eta_mode.py", f"{S}:spinSystem.createH", f"{B}:ed_base.get_sum_op", f"{B}:ed_base.diagH", f"{B}:ed_base.quench_time_evolve", f"{B}:ed_base.get_exp_vals"])
p("C126", "Sum rule of the conductivity and the Drude weight",
  "If the cluster is open along the direction of the current, the integrated optical conductivity equals -pi/N times the average kinetic energy along this direction, in every sector and at every temperature, so that the Drude weight (the difference of the two) is zero, whatever the interactions and potentials.",
  "all clusters of sites one unit apart along x or y and open along the direction, all real parameters, all sectors that the position does not leave, all temperatures, all solvers that diagonalize correctly; constructor: all rectangles open along x and open or periodic along y, all numbers of particles", "The script plots both sides of the sum rule for one ring at four temperatures; a test would compare them up to a tolerance for one cluster.", ["examples/measure_current_hubbard.py", f"{F}:fermions.get_current_op", f"{F}:fermions.get_kinetic_op", f"{F}:fermions.integrate_conductivity", f"{F}:fermions.createH", f"{B}:ed_base.get_matrix_elems", f"{B}:ed_base.get_exp_vals_thermal", f"{B}:ed_base.thermal_avg_combine_sectors"])
p("C127", "Energies of groups of spins by addition of angular momenta",
  "If the isotropic couplings arise by joining groups of spins, every spin of one group being coupled to every spin of the other with the same constant, the energies returned are E = sum of g (S(S+1) - S1(S1+1) - S2(S2+1)) over the joints, for all lengths that the addition of angular momenta allows, each 2S+1 times (for spins 1/2 in a uniform field h along any axis: E - h M). In particular the comparison made by the script on four spins holds exactly.",
  "all trees of groups, all numberings of the sites, spins of every length (with a field: spins 1/2, see C33), all real couplings and fields, all solvers that diagonalize correctly; script: all spins and all couplings j1, j2, j3; constructor: all clusters in which all sites are neighbours, the square", "The script checks one choice of couplings and one spin up to a tolerance, and only that no value is too large.", ["examples/4spins_test.py", f"{S}:spinSystem.createH", f"{S}:spinSystem.get_splus", f"{S}:spinSystem.get_sminus", f"{S}:spinSystem.get_sz", f"{S}:spinSystem.get_interaction_mat", f"{B}:ed_base.get_two_site_op", f"{B}:ed_base.diagH"])
p("C128", "Sharp modes in response functions",
  "If an operator changes the energy by exactly x, then its retarded response to any other operator is a single Lorentzian peak at frequency -x whose weight is the average of the commutator (for fermions: anticommutator) of the two operators, at every temperature. So the raising operator of the total spin of isotropic spins in a field along z responds at the Larmor frequency with the weight of the magnetization, the spectral function of a level of fermions without interactions is a peak of weight one at the energy of the level, and the pair operator of a bipartite Hubbard model responds at the pair energy only.",
  "all Hermitian Hamiltonians, all pairs of operators the first of which changes the energy by a fixed amount, both statistics, all temperatures, frequencies and broadenings, all solvers that diagonalize correctly; spins 1/2: all numbers of sites, isotropic couplings and fields along z; fermions: all hoppings, potentials and levels", "The scripts plot the responses of one chain; a test compares one peak at one temperature, and at temperature zero the wrong Boltzmann weight does not show.", ["examples/eta_mode.py", "examples/hubbard_spectralfn.py", f"{B}:ed_base.get_response_fn_retarded", f"{B}:ed_base.get_matrix_elems", f"{B}:ed_base.get_sum_op_q", f"{B}:ed_base.diagH"])
p("C129", "Total weight of response functions",
  "The integral of the retarded response of two operators over all frequencies is pi times the average of their commutator (for fermions: anticommutator), at every temperature and for every broadening.",
  "all Hermitian Hamiltonians, all pairs of operators, both statistics, all temperatures, all positive broadenings, all solvers that diagonalize correctly", "A test sums a grid of frequencies up to a cutoff and sees the Lorentzian tails; it cannot decide an identity for all operators.", [f"{B}:ed_base.get_response_fn_retarded", f"{B}:ed_base.get_matrix_elems", f"{B}:ed_base.get_exp_vals"])
p("C130", "Spectral functions are not negative",
  "The response function of an operator to its adjoint with the sign for fermions (the spectral function) is not negative, at any frequency, broadening and temperature.",
  "all operators, all lists of energies, all temperatures, all frequencies and all non-negative broadenings", "The sign of a sum over all pairs of levels can only be sampled by a test.", [f"{B}:ed_base.get_response_fn_retarded", "examples/hubbard_spectralfn.py"])
p("C131", "Systems in equilibrium absorb energy",
  "The imaginary part of the retarded response of a Hermitian operator to itself is not negative at positive frequencies, at every temperature.",
  "all Hermitian operators, all ordered lists of energies, all temperatures, all positive frequencies and broadenings", "A test that samples frequencies near the resonances sees positive values also from the wrong Boltzmann weights.", [f"{B}:ed_base.get_response_fn_retarded"])
p("C132", "Averages follow the parameters coupled to them",
  "Changing parameters of a Hamiltonian moves the thermal averages of the operators they couple to in the direction that lowers the energy, at every temperature: raising the chemical potential of a species never lowers its number of particles, raising the potential of one site never raises the density on it, more repulsion never produces more doubly occupied sites, and a stronger field never lowers the average of the spins along it; for several parameters at once the products of the changes have a definite sum.",
  "all fermion systems (all numbers of sites and species, hoppings, interactions and potentials), all spin-1/2 systems with all couplings, all changes of the parameters, all positive temperatures and temperature zero for spectra without spurious near degeneracies, all solvers that diagonalize correctly", "A test scans one parameter of one system at one temperature; an inequality for all parameters and temperatures cannot be sampled, and a wrong sign of one term only shows if that term is scanned.", ["examples/fermions_attractive_phase_diagram.py", f"{F}:fermions.createH", f"{S}:spinSystem.createH", f"{B}:ed_base.get_thermal_exp_sites", f"{B}:ed_base.get_thermal_corr_sites", f"{B}:ed_base.diagH"])
p("C133", "Laws of thermodynamics",
  "Energy, entropy and specific heat of the scripts obey the laws of thermodynamics: the specific heat is not negative, energy and entropy do not fall with temperature, the entropy is between zero and the logarithm of the number of states, at low temperatures the energy tends to the smallest eigenvalue and the entropy to the logarithm of its multiplicity, at high temperatures the energy tends to the mean of all eigenvalues and the entropy to the logarithm of the number of states.",
  "all Hermitian Hamiltonians of any dimension, all positive temperatures, all solvers that diagonalize correctly", "A test samples temperatures; monotonicity and limits are statements about all of them.", ["examples/test_nlce.py", "examples/measure_hubbard.py", "cluster/diag_cluster.py", f"{B}:ed_base.get_exp_vals_thermal", f"{B}:ed_base.diagH"])
p("C134", "Averages are derivatives of the free energy",
  "The derivative of -T log Z, with Z from the trace of the exponential of the Hamiltonian, with respect to a parameter is the thermal average of the operator the parameter multiplies: minus the number of particles for a chemical potential, the number of doubly occupied sites for the interaction, minus half the sum of the Pauli averages for a uniform field.",
  "all Hamiltonians that depend linearly on a parameter, all fermion models and all spin-1/2 models with all directions of the field, all positive temperatures, all solvers that diagonalize correctly", "Finite differences have truncation errors; a test samples one parameter and one temperature.", [f"{B}:ed_base.get_partition_fn_hamiltonian", f"{B}:ed_base.get_exp_vals_thermal", f"{B}:ed_base.get_thermal_exp_sites", f"{B}:ed_base.get_thermal_corr_sites", f"{F}:fermions.createH", f"{S}:spinSystem.createH"])
p("C135", "Fluctuations and response",
  "The derivative of the density of a site with respect to the chemical potential of a species is the sum of the connected density correlations of that site with all sites, over the temperature. The derivative of the average of a spin with respect to a uniform field along z is half the sum of its connected correlations over the temperature, if the couplings along x and y are equal and the field is along z.",
  "all fermion models, pairs of species and chemical potentials; all spin-1/2 models with equal couplings along x and y and all uniform fields along z; all positive temperatures; all solvers that diagonalize correctly", "The two sides come from different functions of the library; a test compares finite differences in one system.", ["examples/fermions_attractive_phase_diagram.py", f"{B}:ed_base.get_thermal_corr_sites", f"{B}:ed_base.get_thermal_exp_sites", f"{F}:fermions.createH", f"{S}:spinSystem.createH"])
p("C136", "Small changes have small effects",
  "If two Hamiltonians differ by an operator of norm at most d, their energies in order differ by at most d, their free energies differ by at most d, and the thermal averages of an operator of norm c differ by at most 2 d c / T. Changing the potentials of a fermion model by amounts of total magnitude d changes no energy by more than d and no density by more than 2 d / T.",
  "all pairs of Hermitian Hamiltonians, all operators, all positive temperatures, all fermion models and changes of potentials, all solvers that diagonalize correctly", "A bound for all perturbations cannot be sampled; degenerate levels are the hard case and rarely hit by random inputs.", [f"{B}:ed_base.diagH", f"{B}:ed_base.get_exp_vals_thermal", f"{B}:ed_base.get_partition_fn_hamiltonian", f"{F}:fermions.createH"])
p("C137", "Averages from momentum sectors",
  "Thermal averages that are computed in each sector of a symmetry and combined with thermal_avg_combine_sectors are those of the whole Hamiltonian, although the projectors contain rounded phase factors: the difference is at most the norm of the operator times 1e-13 for one symmetry and 2e-11 for two commuting symmetries, times 1 + 2 C / T, where C is the norm of the Hamiltonian. In particular for the sectors of particle numbers and momenta of measure_hubbard.py.",
  "all Hamiltonians with one symmetry or two commuting symmetries of any finite order that permute basis states up to phases, all lattices of measure_hubbard.py with all interactions, hoppings and chemical potentials, all operators, all positive temperatures, all solvers that diagonalize correctly", "A test compares a few averages of small systems within a tolerance of its own; how rounding in the projectors enters all averages, also at low temperatures, cannot be sampled.", [f"{B}:ed_base.thermal_avg_combine_sectors", f"{B}:ed_base.get_exp_vals_thermal", f"{Y}:getZnProjectors", f"{Y}:get2DTranslationProjectors", f"{Y}:get_reduced_projector", "examples/measure_hubbard.py"])
p("C138", "Structure factor of fermions on a ring",
  "fermions_attractive_phase_diagram_v2.py runs for every ring and finds, up to rounding of at most 1e-13 (1 + 2 C / T) with C the norm of the Hamiltonian: the densities and the correlations with the first site of the whole Hamiltonian; half filling on rings of an even number of sites; a structure factor that is real and nonnegative and at momentum zero is the variance of the particle number divided by the square of the number of sites. Its values at all momenta add up exactly to n (1 - n) for the density n of the first site.",
  "all rings of at least two sites (three for half filling), all hoppings, all interactions, all positive temperatures, all solvers that diagonalize correctly", "The script has no tests; that all momenta of all rings give nonnegative values, and that densities of different sectors are combined with correct weights, is a statement about all sizes, couplings and temperatures.", ["examples/fermions_attractive_phase_diagram_v2.py", f"{B}:ed_base.get_thermal_corr_sites", f"{B}:ed_base.get_thermal_exp_sites", f"{B}:ed_base.thermal_avg_combine_sectors", f"{B}:ed_base.get_subspace_projs", f"{Y}:getZnProjectors"])
p("C139", "Averages at equivalent sites",
  "If permuting the sites does not change the parameters of a model, thermal averages at permuted sites and pairs of sites are the same at every temperature: densities and their correlations for fermions, for all numbers of particles together and for any fixed numbers, and values of any operators for spins. If every site can be moved to every other one, each has the density N / n for a fixed number N of particles. Therefore spinless_fermion_example.py, which subtracts the densities of one site at two temperatures instead of two sites at one temperature, still finds connected correlations on its ring.",
  "all models of fermions and spins with real parameters and couplings that do not depend on the order of two sites, all permutations that do not change them, all numbers of particles that fit, all temperatures (zero temperature if levels are exactly equal or well separated), all solvers that diagonalize correctly; all rings for the script, of an even number of sites for its second half", "A test compares two sites of one model; that no choice of eigenvectors inside degenerate levels can break the symmetry of averages is a statement about all solvers.", ["examples/spinless_fermion_example.py", f"{B}:ed_base.get_thermal_exp_sites", f"{B}:ed_base.get_thermal_corr_sites", f"{F}:fermions.get_n_projector", f"{F}:fermions.createH", f"{S}:spinSystem.createH"])
p("C140", "Signs of hopping amplitudes",
  "Multiplying every hopping amplitude by signs of its two sites (which may differ between the species) changes neither the energies nor thermal averages of densities and of their products, whatever the interactions and potentials, for any fixed or variable numbers of particles. So the sign of the hopping does not matter on lattices of two sublattices, no sign of any amplitude matters if there are no closed loops, and on a ring only the product of all signs matters.",
  "all models of fermions with real parameters, all signs, all numbers of particles that fit, all temperatures (zero temperature if levels are exactly equal or well separated), all solvers that diagonalize correctly; for the constructors all rectangles whose periodic directions have an even number of sites", "A test compares two runs; that hopping signs, Jordan-Wigner signs and projectors never combine to break the equivalence is a statement about all lattices and fillings.", [f"{F}:fermions.createH", f"{F}:fermions.get_kinetic_op", f"{F}:fermions.get_n_projector", f"{B}:ed_base.get_thermal_exp_sites", f"{B}:ed_base.get_thermal_corr_sites"])
p("C141", "Parts that are not connected are independent",
  "If particles neither hop nor interact between two parts of a system, or spins of the two parts are not coupled, then the model of the whole describes two independent systems: its energies are all sums of an energy of each part computed alone; energy, entropy and specific heat are sums; averages of densities (or site operators) and of their products within a part are those of that part alone; and averages of products across the parts are products of averages.",
  "all models of fermions with real parameters and all models of spins with real couplings and fields that can be built (C33), all divisions of the sites into two parts (also interleaved), all temperatures (zero temperature if levels are exactly equal or well separated), all solvers that diagonalize correctly", "The operators of interleaved parts are tied together by Jordan-Wigner signs and by the order of the tensor factors; a test of one division does not show that these never leak from one part to the other.", [f"{F}:fermions.createH", f"{S}:spinSystem.createH", f"{B}:ed_base.get_two_site_op", f"{B}:ed_base.get_thermal_exp_sites", f"{B}:ed_base.get_thermal_corr_sites"])
p("C142", "Averages are averages over snapshots",
  "At every temperature there is a probability for every arrangement of the particles such that all computed densities and averages of products of densities are averages over these arrangements; with fixed numbers of particles only arrangements with these numbers occur. Therefore densities are between zero and one, averages of products lie between the bounds for two events with these probabilities, densities add up to the numbers of particles, products with a density add up to the number times this density, and no structure factor is negative. For spins one half the average of a spin is not longer than one, averages of products of two spins lie between those of a singlet and of a triplet, and the connected correlations of all components of all spins are positive semidefinite.",
  "all models of fermions with real parameters, all numbers of particles that fit; all models of spins one half with real couplings and fields; all temperatures (zero temperature if levels are exactly equal or well separated); all wavevectors or other weights of sites, components and species; all solvers that diagonalize correctly", "A result outside these bounds appears only for particular models, temperatures and weights; tests sample a few and cannot show that no combination violates them.", [f"{B}:ed_base.get_thermal_exp_sites", f"{B}:ed_base.get_thermal_corr_sites", f"{B}:ed_base.get_exp_vals_thermal", f"{F}:fermions.__init__", f"{F}:fermions.createH", f"{S}:spinSystem.createH"])
p("C143", "Reversal of time",
  "Without fields, every energy of an odd number of spins of half-integer length occurs an even number of times (Kramers degeneracy), and the average of every component of every spin one half vanishes at every temperature, whatever the couplings along x, y and z between the sites are.",
  "all numbers of spins, all lengths of the spins with 2 s n odd (for the averages: spin one half and any number), all real couplings, all temperatures (zero temperature if levels are exactly equal or well separated), all solvers that diagonalize correctly", "The degeneracy must hold for every choice of couplings without any spatial or rotational symmetry; a test sees pairs of equal numbers for a few choices only.", [f"{S}:spinSystem.createH", f"{B}:ed_base.get_two_site_op", f"{B}:ed_base.get_thermal_exp_sites", f"{B}:ed_base.diagH"])
p("C144", "Sums of energies and high temperatures",
  "The mean of all energies is the energy of the state in which everything is equally likely (zero for spins, every mode half occupied for fermions), and their variance is an explicit sum of squares of the parameters: for spins 4 (s(s+1)/3)^2 times the squared couplings plus s(s+1)/3 times the squared fields, for fermions the squares of the levels, of the interactions and of the hoppings. At high temperatures the energy lies below its mean by the variance over the temperature, and the specific heat is the variance over the squared temperature.",
  "all numbers of spins and lengths of spins with all real couplings and fields the code accepts, all fermion models (all numbers of sites and species, real hoppings, interactions between species and within a species, potentials and chemical potentials), all solvers that diagonalize correctly", "The number of energies grows exponentially; the sum over all of them in terms of the parameters must hold for every size, so that one missing or doubled term of the Hamiltonian would be seen.", [f"{S}:spinSystem.createH", f"{F}:fermions.createH", f"{B}:ed_base.diagH", f"{B}:ed_base.get_exp_vals_thermal", "examples/test_nlce.py"])
p("C145", "Lowest states that are unique",
  "Spins one half coupled along z in fields with a transverse part at every site have exactly one lowest state; so have fermions that move between neighbours of an open chain once the numbers of particles of all species are given. The first energy of the list is smaller than all others, and no amplitude of the first state vanishes: every configuration can be seen in a snapshot at zero temperature. This does not depend on the strengths and signs of couplings, fields, hoppings, interactions and potentials.",
  "all numbers of spins with all real couplings along z and all real fields with a transverse part at every site, all open chains (any number of sites and species, all real hoppings that are not zero, all real interactions, potentials and chemical potentials) with all possible numbers of particles, all solvers that diagonalize correctly", "Whether the lowest state is unique for every size and every choice of parameters cannot be seen from examples, and with numbers one cannot tell a zero amplitude from a small one.", [f"{S}:spinSystem.createH", f"{F}:fermions.createH", f"{F}:fermions.get_n_projector", f"{B}:ed_base.diagH"])
p("C146", "Statistics of level spacings",
  "The script for tilted lattices computes, for every three neighbouring energies, the smaller of the two spacings divided by the larger one. The ratios lie between zero and one also when levels coincide (a ratio is zero if one of the spacings vanishes, and no infinities or undefined values are left), so does their mean; the frequencies are the fractions of ratios in thirty equal bins and add up to one. With given numbers of particles the ratios do not depend on the unit of energy, on chemical potentials and on constants added to the potentials; changing the sign of all parameters reverses their order and keeps mean and frequencies.",
  "all Hermitian matrices with at least three states, all solvers that diagonalize correctly, all fermion models with real parameters and all possible numbers of particles, all nonzero factors and all shifts", "Coinciding levels lead through infinities and undefined values in the intermediate arrays, and a test with generic numbers never meets them; the invariance must hold for all models and factors.", ["examples/wannier_stark_ladder.py", f"{F}:fermions.createH", f"{F}:fermions.get_n_projector", f"{B}:ed_base.diagH"])
p("C147", "Spins follow transverse fields and bonds lower the energy",
  "For spins one half that are coupled along z only, in fields with a transverse part at every site, the average spin at every site has a positive component along the transverse part of the field at that site, at every temperature and for all couplings and fields along z. On an open chain with given numbers of particles the average of the hopping across every bond has the sign of its amplitude, so that every bond lowers the kinetic energy, at every temperature and for all interactions and potentials; it vanishes exactly for species that are absent or fill the chain.",
  "all numbers of sites, all real couplings, fields, interactions, potentials and amplitudes of either sign, all numbers of particles, all temperatures above zero and zero when the levels are separated, all solvers that diagonalize correctly", "A test compares averages for particular models; the sign must hold for all couplings and temperatures and is lost by a wrong sign in the Hamiltonian, in the operators or in the parity strings.", [f"{S}:spinSystem.createH", f"{S}:spinSystem.get_sx", f"{S}:spinSystem.get_sy", f"{F}:fermions.createH", f"{F}:fermions.get_n_projector", f"{B}:ed_base.get_thermal_exp_sites", f"{B}:ed_base.get_thermal_corr_sites"])
p("C148", "Spins alternate between the sublattices",
  "For spins one half with the same couplings along x and y, and with any couplings along z and any fields along z, if the transverse couplings are positive or zero between two sublattices and negative or zero within them, then the correlations of the x components equal those of the y components, are never negative within a sublattice and never positive between sublattices, at all distances and temperatures, and do not vanish at positive temperatures between sites connected by couplings. With isotropic couplings and without fields the correlations of the z components are the same.",
  "all numbers of sites, all real couplings with the stated signs between all pairs of sites, all divisions into sublattices (also one sublattice, that is ferromagnets), all fields along z, all temperatures above zero and zero when the levels are separated, all solvers that diagonalize correctly", "A test computes correlations of a few short chains; the signs must hold on all lattices, at all distances and temperatures, and are lost by a wrong sign or a wrong direction in the couplings or operators.", [f"{S}:spinSystem.createH", f"{S}:spinSystem.get_sx", f"{S}:spinSystem.get_sy", f"{S}:spinSystem.get_sz", f"{B}:ed_base.get_thermal_corr_sites"])
p("C149", "Particles move along bonds",
  "In the states returned by the time evolution of any fermion model, the density of each species at each site changes at the rate given by the sum over the other sites of the amplitude of the bond times the average of i (c_i^dagger c_j - c_j^dagger c_i); these currents are antisymmetric, so that what leaves one site reaches the other, and the number of particles of each species is constant. Interactions, potentials and chemical potentials do not enter.",
  "all numbers of sites and species, all real hoppings, interactions and potentials, all initial states, all lists of times, all solvers that diagonalize correctly", "A test evolves a few states to a few times; the continuity equation is a statement about derivatives at all times for all states and models.", [f"{B}:ed_base.quench_time_evolve", f"{F}:fermions.createH", f"{B}:ed_base.get_single_site_op", f"{B}:ed_base.get_two_site_op", f"{B}:ed_base.get_exp_vals"])
p("C150", "Without interactions particles evolve independently",
  "In the states returned by the time evolution of a fermion model without interactions, the averages of c_i^dagger c_j follow from those of the initial state by the evolution of a single particle: they are the sum over k, l of conj(U_ik) U_jl times the initial average of c_k^dagger c_l, where U is the exponential of -i t times the matrix of minus the hoppings and of the potentials less the chemical potential.",
  "all numbers of sites and species, all real hoppings and potentials, all initial states, also with many particles and correlations, all lists of times, all solvers that diagonalize correctly", "A test evolves a few states of small systems to a few times; the law ties the evolution of all states of all numbers of particles to the one-particle problem.", [f"{B}:ed_base.quench_time_evolve", f"{F}:fermions.createH", f"{B}:ed_base.get_two_site_op", f"{B}:ed_base.get_exp_vals"])
p("C151", "Repulsion and attraction in an expansion",
  "If particles hop only between the sites of two sublattices, densities and products of densities evolve after a quench exactly as in the model with the opposite interactions, potentials and chemical potentials, from every initial state with real amplitudes in which the number of particles on one sublattice is even, or odd, in all configurations; in particular from every state with definite occupations.",
  "all numbers of sites and species, all real hoppings between two sublattices, all real interactions and potentials, all such initial states, all lists of times, all solvers that diagonalize correctly", "The two Hamiltonians have different eigenvalues and eigenvectors; a test compares a few runs of small systems.", [f"{B}:ed_base.quench_time_evolve", f"{F}:fermions.createH", f"{B}:ed_base.get_single_site_op", f"{B}:ed_base.get_two_site_op", f"{B}:ed_base.get_exp_vals"])
p("C152", "Ferromagnets and antiferromagnets evolve alike",
  "After a quench from a state with real amplitudes, spins one half without fields along y evolve in the same way with all couplings and fields as with all of them reversed: the averages of the components along x and z and of the products xx, yy, zz of any two spins agree at all times, and the components along y are opposite. If couplings along x and y act only between two sublattices and fields are along z, reversing only the couplings and fields along z does not change the components along z and their products, provided the number of reversed spins on one sublattice is even, or odd, in all configurations of the initial state; in particular for every product state along z, such as the Neel state.",
  "all numbers of spins, all real couplings and fields as stated, all initial states as stated, all lists of times, all solvers that diagonalize correctly", "The Hamiltonians have different spectra; a test compares a few runs of small systems.", [f"{B}:ed_base.quench_time_evolve", f"{S}:spinSystem.createH", f"{B}:ed_base.get_single_site_op", f"{B}:ed_base.get_two_site_op", f"{B}:ed_base.get_exp_vals"])
p("C153", "Evolution in a sector",
  "If a projector with orthonormal rows commutes with the Hamiltonian and the initial state lies in its sector, then diagonalizing and evolving inside the sector gives the evolution in the whole space: the states mapped back by the adjoint of the projector are the states evolved in the whole space, and the averages of every operator, restricted to the sector, are the averages in the whole space. In particular states with given particle numbers evolve in the sector of these numbers.",
  "all fermion and spin models with real parameters, all projectors as stated onto at least two states, all initial states in the sector, all lists of times, all operators, all solvers that diagonalize correctly", "The spaces have different dimensions and bases; a test compares one sector of one small system.", [f"{B}:ed_base.quench_time_evolve", f"{S}:spinSystem.createH", f"{F}:fermions.createH", f"{F}:fermions.__init__", f"{B}:ed_base.get_exp_vals"])
p("C154", "Moved initial states evolve into moved states",
  "If a permutation of the sites does not change hopping, interactions and potentials, then after a quench from the permuted configuration of fermions the densities and products of densities at the permuted sites are, at all times, those at the original sites after a quench from the original configuration; configurations that the permutation does not change keep equal densities at equivalent sites. For spins one half the same holds for all operators of one and of two spins and for every initial state.",
  "all fermion models with real parameters and spin models with real couplings, all permutations that do not change the parameters, all initial configurations (fermions) or states (spins), all lists of times, all solvers that diagonalize correctly", "Degenerate eigenvectors break the symmetry, and signs of fermion exchange enter; a test compares one translation on one lattice.", [f"{B}:ed_base.quench_time_evolve", f"{S}:spinSystem.createH", f"{F}:fermions.createH", f"{B}:ed_base.get_single_site_op", f"{B}:ed_base.get_two_site_op", f"{B}:ed_base.get_exp_vals"])
p("C155", "Conserved quantities and stationary states after a quench",
  "After a quench, the average of every operator that commutes with the Hamiltonian is at all times that of the initial state, and initial states that are eigenstates keep the averages of all operators. For fermions the energy, its square, the numbers of particles of each species and products of two of these numbers are conserved; for spins one half without fields and with couplings equal along x and y, the total spin along z and its square.",
  "all fermion models with real parameters and spin models with real couplings, all initial states (normalized or not), all lists of times, all operators, all solvers that diagonalize correctly", "Drifts of conserved averages appear only for particular degenerate spectra, complex eigenvectors or initial states; a test observes one operator during one quench.", [f"{B}:ed_base.quench_time_evolve", f"{B}:ed_base.get_exp_vals", f"{B}:ed_base.get_sum_op", f"{S}:spinSystem.createH", f"{F}:fermions.createH"])
p("C156", "Chemical potentials do not change the evolution",
  "After a quench from any initial state, the averages of all operators that do not change the numbers of particles of the species are at all times the same for all values of the chemical potentials; in particular densities and products of densities.",
  "all fermion models with real parameters, all real chemical potentials of all species, all initial states (also superpositions of different numbers of particles), all operators that do not change the numbers of particles, all lists of times, all solvers that diagonalize correctly", "Chemical potentials change all energies, their order and degeneracies; a test compares two values for one initial state.", [f"{B}:ed_base.quench_time_evolve", f"{F}:fermions.createH", f"{B}:ed_base.get_exp_vals"])

out = os.path.join(os.path.dirname(os.path.abspath(__file__)), "..", "properties.jsonl")
with open(out, "w") as f:
    for x in P:
        f.write(json.dumps(x) + "\n")
print(len(P))
