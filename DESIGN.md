# Formal model of exact_diag: design

Source: `/repo` (ptbrown1729/exact_diag, pinned), read as text only; nothing was executed.

## Trusted base

* Lean 4.33.0's kernel and the Mathlib it is shipped with.
* Axioms: every property theorem depends on a subset of `propext`, `Classical.choice`,
  `Quot.sound`.  There are no project axioms, no unfinished proofs and no compiler-evaluated proofs.
* The reading of the Python source into Lean definitions (each definition cites file and lines).

### Global simplifications

1. **Exact arithmetic.** Floats become exact numbers (`ℤ`, `ℚ`, `ℝ`, `ℂ`). `np.round(x, d)` is kept
   where behaviour depends on it and otherwise noted at the definition.
2. **Sparse matrices** are shape-carrying functions `Mat` (`rows`, `cols`, entry function). Formats
   (csr/csc/coo) are not modelled; shape checks are (a mismatching `+` or `*` is an error value).
3. **External solvers** (eigensolvers, SVD, root finders, quadrature) are parameters constrained by
   their mathematical contract. `np.linalg.svd`: `Spec/Svd.lean` (`RightSingular`: unitary, decreasing singular
   values, real for real matrices; a function with this contract exists, `Lemmas/SvdExists.lean`).
   `np.linalg.matrix_rank` is the exact rank. `np.argsort` may order equal keys in any way: a permutation of
   the rows of a matrix does not change the conditions on its right singular vectors. Empty sparse
   matrices (a representation that does not occur) are assumed to be accepted by scipy.
4. **Printing/timing/plotting** is not modelled.
5. **Exceptions** are values (`Except`).

## Layout

* `Verif/Model/*` : definitions that follow the Python source function by function.
* `Verif/Spec/*`  : small specifications that do not use the model (configurations, Fock space,
  permutations, lattices, connected sets).
* `Verif/Lemmas/*`: helper lemmas.
* `Verif/Props/*` : the property theorems, with a non-trivial instance of the hypotheses beside each.

## Plan per property

| id | model | proof idea |
|----|-------|------------|
| C01 | index maps on ℕ (the float division returns an integer) | `Nat.div_add_mod`; counting |
| C02,C03,C08 | `kron`, `eye`, the two builders | refinement to a tensor-product operator on configurations `Fin N → Fin b` |
| C04,C05,C06 | same | products of tensor-product operators are local; case split on mode order |
| C07 | same, general `nbasis` | negation with witness (`eye(2**…)` is hard coded); partial for `nbasis = 2` |
| C09–C12 | swap operators, cycle loop | induction over the cycle list; conjugation of creation operators |
| C13 | Hamiltonians | conjugate each term, re-index sums |
| C14–C17 | sum operator, labels, projector construction | digits of state index; list induction |
| C18 | expectation values, matrix elements | linear algebra |
| C19–C21 | thermal weights over ℝ | exponential sums, limits, sector re-summation |
| C22 | evolution over ℂ | unitary algebra, derivative of exp |
| C23,C24 | response functions over ℝ | symmetric re-indexing; negation witness for C23 |
| C25–C29 | constructor and Hamiltonian terms | star/commutator of terms; negation witnesses for complex hopping, diagonal bonds, per-species potentials |
| C30 | projector algebra | matrix algebra |
| C31,C32 | spin matrices, general spin | entrywise; C31 sign is reversed in the code: negation + partial |
| C33–C37 | spin Hamiltonian and special states | tensor-product entries; digit arithmetic; negation for second AFM state |
| C38 | maps on ℝ² | trigonometric identities |
| C39 | cycle finder on a finite permutation | invariant of the loop, orders of permutations |
| C40 | Zn projectors | monomial unitaries, roots of unity; entries of the exact projector are controlled along the orbits of the permutation, the rounding of the table is carried as an explicit error |
| C41,C43 | character tables and class lists | convolution identities of characters, `decide` over the finite group then lifted to all representations |
| C42 | validation function | unfolding to orthogonality |
| C44–C47 | geometry on ℤ coordinates | list/permutation reasoning |
| C48–C52 | lattice reduction over an ordered field | floor arithmetic, dual basis |
| C53 | polygon | modular arithmetic, chord length |
| C54–C56 | weights recursion, Euler transform | strong induction; binomial theorem |
| C57–C62 | cluster growth on lists of ℤ×ℤ | induction on order; a connected finite graph has a removable vertex |
| C63–C69 | Fermi gas over ℝ/ℂ | calculus |
| C70–C72 | Green's functions | floor/ceil arithmetic, summation by parts |
| C73 | file system as a map, exact pickle, documented conversions of savemat | induction over histories |

| C74 | ordered products of the builder's creation operators | induction over the modes |
| C75,C76 | spin Hamiltonian, pair operator | tensor-product entries |
| C96,C99 | Pauli matrices on sites, spin one-half Hamiltonian | commutators of site operators with sums over sites |
| C100 | current operator on an instance with assigned hopping attributes | commutators of hops with occupation numbers |
| C101 | `diagH` over numerical routines given by contracts (`Spec/Eig.lean`) | reordering of eigenpairs; witnesses |
| C102 | `get2DTranslationProjectors` on top of the model of `getZnProjectors` | the second translation restricted to a sector is monomial up to rounding errors, which are propagated through powers, threshold and normalisation |
| C103 | `reduce_symm_projector`, both branches, and `get_symmetry_projectors` with its final check; `np.linalg.svd` is any function that returns right singular vectors in the order of decreasing singular values (`Spec/Svd.lean`; one exists, `svd_exists`) | each block of states related by symmetry carries a multiple of a projection, whose leading right singular vectors span its range; rounding to 15 decimals is carried as an explicit error; the number of rows is the trace |
| C104 | composition of the models of `get_xform_op`, `createH` of both systems, the projector functions and their reduction | `U` of a site permutation maps every configuration to the permuted one up to a sign (induction on the number of particles), so C103 applies to it; relations between permutations carry over to the operators because the operator of a permutation is unique; C13 gives the commutation |
| C105 | composition of the models of `get_all_clusters_with_subclusters` and `get_nlce_exp_val` | weights are defined by the sum over connected proper subsets (unique, by induction on the number of sites); this sum is a sum over the clusters of the list since every subset is equivalent to exactly one of them and the matrix counts them; the sum over an order is regrouped by shapes, using that the multiplicity is the number of images |
| C106 | job arrays, `find_subclusters`, the aggregation; a directory is a list of names and contents in arbitrary order | the indices of the jobs are 1..n; names of job files have the number of the cluster as their first number, so sorting restores the order of the clusters whatever the listing; the loop of the aggregation is the loop of the serial function |
| C107 | `aggregate_results`, with the layouts of the cluster data as values of a small type of python objects | the sorted files give the table of the quantity; then C105 and the definition of `euler_resum` |
| C108 | both scripts that generate clusters, with the content of the file as state | evaluation of the second run on the result of the first |
| C109 | the expressions for energy, entropy and specific heat in three scripts, on top of `diagH` and `get_exp_vals_thermal` | `exp(-H/T)` by conjugation with the eigenvectors (`Spec/Gibbs.lean` defines the density matrix with the exponential and logarithm of matrices); derivatives of finite sums |
| C110 | the whole of `test_nlce.py` from couplings to the four expansions, on top of the models of the generator, the spin Hamiltonian, `diagH`, the thermal averages and the expansion | C109 for each cluster; relabelling of sites conjugates the Hamiltonian by a permutation, so properties depend on the shape only; then C105 |
| C111 | the combination of sectors in both scripts | the eigenvectors of all sectors together diagonalize the Hamiltonian; strict concavity of the logarithm and positivity of the variance for the script that averages entropies and specific heats |
| C112 | `fermions.createH`, `diagH`, thermal averages, density correlators and the thermodynamics of the example scripts for models without interactions | the Hamiltonian is the second quantization of a one-particle matrix; exp(H/T) c† exp(-H/T) is a combination of c†, so the trace identity (KMS) gives the one-particle density matrix and Wick's rule for two and four operators; the logarithm of the partition function is integrated in the temperature |
| C113 | `Geometry.createSquareGeometry`, the constructor of `fermions` and `createH`, `diagH`, thermal averages, the operators of measure_hubbard.py 116-137, and the functions of fermi_gas.py at equal times | the plane waves of the Fermi gas module are an eigenbasis of the adjacency matrix of the lattice for at least three sites per direction; C112 then gives every average. For two sites the statement is refuted |
| C114 | as C112, at zero temperature | the partition function is a product over the states of a single particle, so the levels above the ground states are at least as far away as the state closest to zero energy; then the average over the ground states is the limit of the thermal averages (C20), and those are known from C112 |
| C115 | `numberSectors`, `sectorAverage`, `sectorEigs` (measure_hubbard.py without its translations) | the number operators are diagonal with the numbers of particles on the diagonal, so the projectors from their eigenvectors select basis states; the Hamiltonian conserves the numbers (C26); then as C111 |
| C116 | `momentumSectors`, `maxDiff`, `Fermions.translation` (measure_hubbard.py, heisenberg_chain.py 98-108) | the rows of the projectors are close to exact orthonormal simultaneous eigenvectors of the symmetries (C40, C102), which the Hamiltonian does not mix; eigenvalues of nearby Hermitian matrices are close (Weyl); for the square lattice the translations found by `findSiteCycles` are shifts of the grid and leave the model unchanged |
| C117 | `heisenbergChain`, `heisenbergSectors`, `chainSectors` (heisenberg_chain.py), `spinGetSumOp` | the projectors of each step are close to exact orthonormal eigenvectors of the symmetries, inside the sector of the step before; the dihedral relation of translation and inversion makes the sectors with momentum zero and pi invariant under inversion; the cycles that `findSiteCycles` finds on a ring are those of the rotation and the reversal of the positions; the norm of the Hamiltonian is at most 3n|J|/2 |
| C118 | `spinEnergies` (`createH`, `diagH`) | a quarter turn about an axis is the exponential of the spin matrix of that axis, the same on all sites; together with the transposition, which reverses the spin along y, the quarter turns about z and x exchange two directions each; conjugation and transposition keep the characteristic polynomial; for spins other than 1/2 with a field on a site that is not the last one the Hamiltonian cannot be built in any direction (`createH_fails`) |
| C119 | `createH` of both classes, `fermionEnergies`, `spinEnergies`, the constructors, the order of the sites | products of neighbouring fermion operators have no parity string; the string between the ends of a ring is the parity of all other particles; number operators are `(1 - σz) / 2`; the sites of a chain are numbered along it (`C50_square_order`) |
| C120 | `createH`, `diagH`, thermal averages, the constructor | the Hamiltonian is diagonal (C28); the canonical average of a product over independent parts is the product of averages; the derivative of the energy is the specific heat |
| C121 | `createH`, `n_projector`, `diagH`, the constructors | an explicit basis of the sixteen states makes the Hamiltonian diagonal except for one block of two states; the entries are integer combinations of U, t, m0, m1, so the change of basis is checked over the integers; the energies are the zeros of the characteristic polynomial |
| C122 | `createH`, `diagH`, `get_thermal_exp_sites`, the constructors | the unitary that empties occupied modes and fills empty ones, with signs that alternate between the sublattices, maps creation to annihilation operators and the Hamiltonian to the other one; zero temperature as the limit of low temperatures |
| C123 | `createH`, `get_number_projector`, `diagH`, `get_two_site_op`, the constructors | commutators of the terms with the lowering operator; on a sector with more particles of the first species it is injective because L*L = LL* + (n1 - n2); injective intertwiners embed eigenspaces |
| C124 | `createH`, `get_number_projector`, `diagH`, `get_two_site_op`, the constructors | the same for the operator that adds pairs; above half filling the product of the particle-hole exchange (C122) and the exchange of the species |
| C125 | `createH` of spins, `get_sum_op`, `diagH`, `quench_time_evolve`, `get_exp_vals`, the constructors | d/dt of an average is the average of i[H, O]; the couplings commute with the total spin (C99), the field terms by the algebra of C96; the closed form because a rotated combination is constant |
| C126 | measure_current_hubbard.py: current, kinetic energy, `integrate_conductivity`, the combination of sectors and the Drude weight; `get_current_op`, `get_kinetic_op`, the constructors | the current is i[H, R] and the kinetic energy -[R, [H, R]] with the position R (also within sectors that R does not leave); in the eigenbasis both sides are the same sum over squares of matrix elements of R |
| C127 | `createH` of spins of any length with isotropic couplings, `diagH`, the constructor; 4spins_test.py 21-53 | induction over the tree of groups: the representation of the total spin decomposes into multiplets on which the Hamiltonian is a number (Clebsch-Gordan: highest vectors `Σ (-1)^k …` and their strings, proved from the matrices), closed under products; roots of the characteristic polynomial |
| C128–C131 | `get_response_fn_retarded` (both statistics) on the matrix elements between the eigenstates of `diagH`; `get_sum_op_q`, `get_single_site_op`, `get_two_site_op`; the responses of eta_mode.py and hubbard_spectralfn.py | [H, X] = xX makes the matrix elements vanish unless the energies differ by x; the commutator of the total spin with H (C125), of a level with H (C112), of the pair operator with H (C124); the integral of a Lorentzian; signs of the terms |
| C132 | `createH` of fermions and of spins 1/2, `diagH`, `get_thermal_exp_sites`, `get_thermal_corr_sites` | the Gibbs variational inequality F(H') ≤ F(H) + ⟨H' − H⟩ for two Hamiltonians in both directions; eigenstates of one expanded in those of the other and convexity of exp; temperature zero as the limit |
| C133 | energy, entropy and specific heat of test_nlce.py, measure_hubbard.py and diag_cluster.py (`thermoAt`) on the output of `diagH` | derivative of the energy is a variance, of the entropy the specific heat over T; limits of the Boltzmann sums |
| C134–C136 | `get_partition_fn_hamiltonian`, `createH` of fermions and of spins 1/2, `diagH`, thermal averages and correlations | Gibbs variational inequality from both sides gives the derivative; the exponential of a sum of commuting operators; Weyl's inequality and a bound on the difference of two Boltzmann operators |
| C137 | sectors of `getZnProjectors`, `get2DTranslationProjectors` and measure_hubbard.py, `diagH`, averages in sectors and `thermal_avg_combine_sectors` | the rounded rows are close to rows of an exact unitary matrix (as for C116); perturbation bound of C136 for the blocks |
| C138 | fermions_attractive_phase_diagram_v2.py for one interaction and temperature: ring, translation, sectors of number and momentum, averages, `np.fft.fft` | the sectors are close to exact ones (as for C137); particle-hole transformation (C122) for half filling; translation invariance and positivity of squares for the structure factor |
| C139 | thermal averages of models whose parameters a permutation of the sites does not change; spinless_fermion_example.py | the operator that moves the sites is unitary, commutes with the Hamiltonian and keeps the space of the projector; averages are traces, so the choice of eigenvectors does not matter; on a ring the translation reaches every site |
| C140 | models of fermions with fixed numbers of particles, averages of densities and correlators | multiplying states by the signs of their occupied modes is unitary, commutes with densities and projectors, and multiplies each hopping by two signs; on a graph without loops all signs of edges come from signs of vertices (unique paths) |
| C141 | models of fermions and spins without terms between two sets of sites, averages, correlators and thermodynamics | states of the whole are pairs of states of the parts, for fermions with the sign of the number of occupied pairs in the wrong order; the Hamiltonian becomes a sum of Kronecker products with the identity, and sums over products of levels factor |
| C142 | densities, spin components and their correlators at any temperature | density operators are diagonal in the occupation basis, so the probabilities are Boltzmann weights times squares of amplitudes; for spins the variance of any combination of components is not negative, and the square of `1 - s.s'` is four times itself |
| C143 | energies and averages of spins without fields | the product of the one-site reversals turns the transposed Hamiltonian into the Hamiltonian and is antisymmetric for an odd number of half-integer spins; its block at one energy is an invertible antisymmetric matrix, so its size is even |
| C144 | sums over the list of energies, energy and specific heat of the scripts as functions of temperature | the Hamiltonian is expanded in products of site operators (spins) or of signs of modes and hops (fermions) that are orthogonal with respect to the trace, so the trace of its square is the sum of the squares of the coefficients; derivative of the Boltzmann factor at infinite temperature |
| C145 | energies and states in the order in which the solver wrapper returns them | a Perron-Frobenius argument with phases: replacing the amplitudes of a lowest state by their absolute values times fixed phases does not raise the energy, so it is again a lowest state; connectedness makes all its amplitudes nonzero and any two lowest states proportional. Spins: phases of the fields, flips of single spins connect everything. Chain: signs of the hoppings absorbed site by site, every arrangement can be packed to the start of the chain by moves to neighbours |
| C146 | wannier_stark_ladder.py 26-34 on the list of energies, with quotients that can be infinite or undefined as in numpy (`Num`; signs of zeros are not modelled) | all cases of vanishing spacings; the energies of cH + e are the mapped (for negative c reversed) list, because sorted lists with the same members are equal; the bins are those of C86 |
| C147 | as C145, with `thermalExpSites` of spin operators and `thermalCorrSites` of creation and annihilation operators | up to phases -H/T plus a constant has no negative entries, so the power series of the exponential has none either and its first term makes some positive; at zero temperature the lowest state of C145 has positive amplitudes |
| C148 | as C147, with `thermalCorrSites` of spin operators | turning the spins of one sublattice makes all exchange terms negative; powers of the Hamiltonian that carry one spin along a path of couplings make the entry of the Boltzmann operator positive; rotations of all spins exchange the directions |
| C149 | `Fermions.createH`, `diagList`, `quenchTimeEvolve`, `getExpVals`, the operators as in C05 | Ehrenfest's theorem as in C125; the commutator of the Hamiltonian with a number operator is a sum over the bonds of its site |
| C150 | `Fermions.createH`, `diagList`, `quenchTimeEvolve`, `getExpVals`, the operators as in C05 | creation operators of one-particle eigenstates only gain phases (C112's algebra); Ehrenfest's theorem as in C125 and the transformation back to sites |
| C151 | `Fermions.createH`, `diagList`, `quenchTimeEvolve`, `getExpVals`, the operators as in C05 | the signs of one sublattice (C140) map the Hamiltonian to minus the opposite one; both are real, so the complex conjugate of one evolution is the other, by uniqueness of solutions of the Schrödinger equation |
| C152 | `Spins.createH`, `diagList`, `quenchTimeEvolve`, `getExpVals`, the operators as in C05 | as C151: the Hamiltonian is a real matrix, so that reversing it is reversing time; rotations by half a turn about z on one sublattice are a diagonal matrix of signs |
| C153 | `createH` of both models with and without projector, `nProjector`, `inSector`, `diagList`, `quenchTimeEvolve`, `getExpVals` | the state mapped back solves the Schroedinger equation of the whole space, whose solution is unique; the projector of C16 commutes with the Hamiltonian by C26 |
| C154 | as C151 and C152, with the operators of permutations of C11 | the operator of the permutation commutes with the Hamiltonian (C13), so it maps solutions of the Schroedinger equation to solutions, which are unique; it maps a configuration to the permuted one up to a sign, which averages do not show |
| C155 | as C154, with `getSumOp` for particle numbers (C26) and the total spin along z (Props/Heisenberg) | the derivative of an average is the average of the commutator; eigenstates only gain a phase, because solutions of the Schroedinger equation are unique |
| C156 | as C155 | the two Hamiltonians differ by a diagonal matrix that commutes with both (C26); a phase for each configuration maps solutions of one Schroedinger equation to solutions of the other, and operators that keep the numbers do not see it |
| C77,C78 | time-ordered response, integrated conductivity | re-indexing; exponential limits; negation witnesses |
| C79 | matrix exponential (Mathlib) | conjugation by the eigenvectors |
| C80,C81 | overlaps, site-resolved values | list traversal, refinement of the builders |
| C82–C84 | ideal-gas correlators and real-space functions | Fourier sums over roots of unity |
| C85 | root finder as a parameter returning an exact root | positivity of the compressibility |
| C86 | histogram as counts in half-open bins (last bin closed) | counting |
| C87 | energy spacing of the allowed wavevectors | unfolding |
| C88,C89,C92 | free-level functions, spectral function, field amplitude | Mathlib integrals |
| C97, C98 | reduced distances and validation of lattices | reduction lemmas, witnesses |
| C90,C93–C95 | transforms on lists of samples | permutation/reflection of sums |
| C91 | susceptibility on ℂ | location of zeros of a quadratic |

## Coverage

Every function and method of the library modules `ed_base.py`, `ed_fermions.py`, `ed_spins.py`, `ed_symmetry.py`,
`ed_geometry.py`, `ed_nlce.py`, `fermi_gas.py`, `greens_fns.py` is modelled, with these exceptions:

| code | reason |
|------|--------|
| `ed_base.check_version` 106-114 and the abstract stubs of `ed_base` | warns on 32-bit interpreters / empty or raising in the base class only |
| `ed_geometry.Geometry.dispGeometry` 508-543 | plotting |
| `ed_geometry.ensure_column_vect`, `ensure_row_vect`, `ensure_1d_vect` 1094-1135 | reshaping of arrays; coordinates are lists in the model |
| `ed_geometry.Geometry.__ne__` 638-645, `Lattice.__ne__` 947-948 | negations of the modelled `__eq__` |
| `ed_nlce.wynn_resum` 590-596, `ed_spins.get_interaction_op`, `get_field_op` 325-341 | bodies are `pass` |
| `ed_spins.get_interaction_mat_c6` 128-141 | reads an attribute that no class sets, so every call raises |
| `ed_spins.get_state_parity` 210-225 | calls a function with arguments it does not take, so every call raises |
| `fermi_gas.get_dos2` 161-199 | passes a float number of bins, so every call raises in the pinned numpy; `get_dos` is modelled |

Of the scripts, `cluster/generate_clusters*.py`, `find_subclusters.py`, `diag_cluster.py`, `aggregate_*.py` and
`examples/heisenberg_chain.py`, `measure_hubbard.py`, `measure_current_hubbard.py`, `test_nlce.py`, `4spins_test.py` and the
measurements of `examples/fermions_attractive_phase_diagram_v2.py` and `spinless_fermion_example.py` and the level statistics of `wannier_stark_ladder.py` are modelled. Not modelled: `cluster/plot_results.py` and the shell scripts
(plotting, job submission), `examples/store_data_mysql.py` (data base), `test_twisted_bc_ising.py` (uses an interface that no
longer exists), the rest of `wannier_stark_ladder.py` and `fermions_attractive_phase_diagram.py` (calls of modelled functions followed by
plots; the half filling it assumes is C122), `eta_mode.py` and `hubbard_spectralfn.py` (call methods and the constructor with arguments that
they do not take, so both raise), `setup.py`, `docs/` and `unittests/`.

## Disagreements

Places where the code does not do what the property says. Each is proved as a theorem with a witness
(suffix `_violated` or `_fails`); the part that does hold is proved with the suffix `_partial`.

| id | what the code does |
|----|--------------------|
| C07 | `get_single_site_op` pads with `eye(2**k)` (ed_base.py L319-346), so the size is wrong unless `nbasis = 2` |
| C09 | `get_swap_op` of `Spins` with two equal sites returns twice the identity |
| C25 | a complex Hermitian hopping matrix gives a non-Hermitian Hamiltonian: the kinetic term adds `t c†c + t h.c.` with the same `t`. A one-species model with on-site interaction raises |
| C27 | hopping is multiplied by `|dx| + |dy|`, so bonds that are not unit steps along an axis get the wrong amplitude |
| C31 | `get_splus` has its entries below the diagonal although the basis is ordered from `m = s` down, so `S+` lowers and `[Sx, Sy] = -i Sz` |
| C33 | couplings multiplied by complex boundary phases are used as they are, so a twisted geometry gives a non-Hermitian Hamiltonian. With spin one or more and a field, `createH` raises (consequence of C07) |
| C37 | AFM2 is taken at index `2**N - AFM1` instead of `2**N - 1 - AFM1` |
| C75 | consequence of C31: a field along y has the opposite sign of the documented one |
| C22 | `np.squeeze` removes the basis axis too when the dimension is one, so several times give shape `(T, 1)` |
| C23 | at finite temperature the Boltzmann factor of the bosonic retarded response does not change sign when the two levels are exchanged, so the result is not odd |
| C77 | at finite temperature the two terms of the time-ordered response enter with opposite signs, so the function is odd instead of even |
| C78 | at zero temperature only the first eigenvector is used, also when the ground state is degenerate |
| C66 | the derivative returned for the time-ordered function is zero everywhere |
| C69 | on the chain the energies at `k + q` are computed from `k` only, so with broadening the response vanishes for every `q` |
| C82 | the on-site term is added only for the displacement `(0, 0)`; displacements equivalent to it (and `(0, 1)` on the chain, the default of `fg_singles_corr`) get the off-site formula |
| C85 | a requested density of one half returns zero also for odd sizes, where the spectrum is not symmetric |
| C87 | one site per direction raises `ValueError` (minimum of an empty list of energy differences) |
| C93 | samples are compared with `beta` after rounding them to 14 decimals but not `beta`, so for `beta = 2/3` the sample at `tau = beta` is dropped |
| C92 | the docstring of `field_snap_off_w` says `theta(t) Ho`; the value is the transform of a field that is on for `t < 0` (as the name says), which is what is proved |
| C73 | `.mat` files turn numbers into 1x1 arrays and drop attributes with a leading underscore (the source has a TODO about it) |
| C54, C55 | `np.squeeze` on a row of cluster properties removes every axis of length one, so a table of shape `(n, 3, 1)` does not broadcast and raises `ValueError` |
| C41 | in `getD7Projectors` the columns of the classes of `R^2` and `R^3` are exchanged; the table check accepts it (C42), the operators of the two-dimensional representations are not orthogonal |
| C42 | only real parts are compared, so the non-orthogonal table `[[1, -i], [i, 1]]` is accepted |
| C43 | the lists `c2` and `c7` of `getC4V_and_3byb3` are conjugacy classes only for a clockwise rotation; with the library's `getRotFn` two of the nine ranges are not invariant under translations, so the Hamiltonian is block diagonal but a projected basis does not carry a representation |
| C46 | mode `adjacency` breaks ties by the given order, so two orders of the same two neighbouring sites stay different after sorting; modes `top_alternating` and `adjacency` raise for an empty cluster |
| C47 | equality compares no phase matrices: two finite clusters that differ only in a given `phase_mat` compare equal |
| C48 | the number of subtracted vectors is found from coordinates rounded to 14 decimals, so a coordinate slightly below one is reduced to a slightly negative one |
| C97 | `get_reduced_distance` assigns `- -latt_vect2_dist[ii, jj]` above the diagonal, so the matrix of separations along the second lattice vector is symmetric |
| C98 | `not A and B` in `validate_instance` is read as `(not A) and B`: periodicity vector `(1/2, 1/2)` on the unit square lattice is accepted |
| C39 | the search starts from an array of zeros, so a geometry with one site is accepted for every transformation, with zero applications reported |
| C39 | `max_cycle_len` is documented as the length of the longest cycle, it is the order of the permutation |
| C40 | The characters are rounded to 14 decimals before the projectors are formed, so projectors of different representations are orthogonal, complete and eigen-rows only up to that rounding (bounded by 1e-13) unless n = 1, 2, 4. |
| C61 | Clusters are compared site by site after sorting only the images under the symmetries, so with `use_symmetry=False` two clusters with the same sites listed in another order are put in different groups (`C61_unsorted_violated`). The enumerations of the code always produce sorted sites, and for those the property holds (`C61_grouping_partial`). |
| C62 | `get_all_clusters_with_subclusters(..., use_symmetry=False)`: the subclusters are still reduced with the symmetries of the square, but mapped to the full list only by translations. At order three the corner contains one horizontal and one vertical pair, both are in the list, and the entry of one of them is zero (`C62_no_symmetry_violated`) |
| C29 | `potentials` with one entry per species: the constructor fills `potentials[ii, :]`, i.e. a row per species in an array with a row per site. It raises unless there are as many sites as species, and then entry i is used for site i (`C29_potentials_violated`) |
| C29 | `get_hopping_mat` fills an array made with `np.zeros`, so the imaginary part of the phase matrix of the geometry is discarded (with a warning); two sites with phase i do not hop (`C29_phase_violated`) |
| C29 | only the size of `us_interspecies` is checked: a column with one entry per site is accepted and stays a column (`C29_us_shape_violated`) |
| C29 | on one site with several species a full array is taken for a vector with one entry per species, because the size is compared before the shape, and is rejected (`C29_single_site_violated`) |
| C99 | the `get_sum_op` of the spin class (ed_spins.py 442-451) refers to `ed_base.ed_base` although `ed_base` is the class there, so it always raises an attribute error; the property is proved for the sum operator of the base class. `get_state_parity` (210-229) passes two arguments to a method that takes one flag, `get_interaction_mat_c6` (128-141) reads attributes that are never set; neither can return and neither is modelled |
| C100 | `get_current_op` (ed_fermions.py 494-495) reads `self.tx` and `self.ty`, which the constructor does not set: it raises an attribute error unless the caller assigns them; everything else is proved for that case |
| C101 | the sparse branch adds 100 to all energies and asks for the eigenvalues of largest magnitude, so for energies above -100 it returns the highest states although the comment says those nearest the ground state; it raises if the number of states does not exceed `neigs` (default 200) |
| C103 | `reduce_symm_projector` writes singular vectors into `sp.lil_matrix(shape)`, a real array: with complex symmetry operators the imaginary parts are dropped and the rows of representations of dimension two or more do not span the component (`C103_complex_violated`; operators with real signs are fine). |
| C106 | run_on_cluster.sh: the aggregated matrix is written to `subcluster_data_order=N.dat`, which matches the pattern `subcluster*.dat` of the job files; a second run in the same directory finds one file too many and raises (`C106_rerun_violated`). The waiting loop (68) counts the same files and would not end |
| C107 | aggregate_results.py reads a list `[order, multiplicities, clusters, matrix, indices]`. generate_clusters.py writes a dictionary (`C107_dict_violated`: KeyError), generate_clusters_no_subs.py and aggregate_subclusters.py, which run_on_cluster.sh uses, write `[order, clusters, indices, time, matrix]` without multiplicities (`C107_layout_violated`) |
| C108 | generate_clusters.py writes a dictionary with strings as keys but reads entry 2 of an existing file: KeyError (`C108_restart_violated`) |
| C109 | diag_cluster.py 47 calls `getTwoSiteOp`, which no class has: an attribute error for every cluster with at least two sites (`C109_cluster_script_violated`) |
| C111 | measure_hubbard.py 192-199 averages the entropies and the specific heats of the sectors like expectation values. The entropy of the distribution over the sectors and the variance of the mean energies of the sectors are missing: both results are too small (`C111_hubbard_violated`) |
| C113 | A periodic lattice with two sites in a direction has one bond between them, so the energies of a particle are minus and plus the hopping; fermi_gas.py uses minus and plus twice the hopping. The densities of the two modules differ at every temperature and every chemical potential other than zero (`C113_two_sites_violated`) |
| C113 | At zero temperature and with an energy of a single particle equal to the chemical potential, e.g. at half filling of a ring of four sites, fermi_gas.py fills the states with this energy, while get_exp_vals_thermal averages over the ground states, which fills half of them: the densities differ (`C113_ground_violated`) |
| C115 | measure_hubbard.py 85-86 use the translation operators of both directions, which lines 61-69 define only for directions with periodic boundary: with an open boundary the script stops with NameError, although lines 88-101 treat this case (read from the text, not modelled) |
| C117 | heisenberg_chain.py 16 calls `get_sum_op` of the spin class, which always raises an attribute error (see C99), so the script stops there (`C117_total_spin_violated`); the rest is proved with the method of the base class |
| C119 | fermions_unittest.py 168-177 claims that spinless fermions map to the Heisenberg model on a periodic cluster. On a ring of three sites without interaction the energies differ (`C119_periodic_violated`) |
| C125 | in a field along y the total spin precesses in the wrong sense, because the y operator of `get_sy` has the opposite sign of `pauli_y` (see C75) (`C125_y_violated`). eta_mode.py 56 calls the `get_sum_op` of the spin class, which raises (see C99), and lines 65-67 call `getSingleSiteOp`, which does not exist: the script stops there |
| C126 | at temperature zero `integrate_conductivity` uses the first eigenvector only while `get_exp_vals_thermal` averages over all ground states, so the sum rule fails for degenerate ground states (`C126_degenerate_violated`). measure_current_hubbard.py 71 uses an identity of the number of sites instead of the number of states, so with open boundaries in both directions the script stops with a shape error (`C126_script_violated`); its line 47 passes the arguments of an older constructor |
| C128, C129, C131 | `get_response_fn_retarded` weighs the term of the levels i, j with exp(-E_j/T) where exp(-E_i/T) belongs to its factor 1 ± exp((E_i - E_j)/T). So at every nonzero temperature the response of an operator that changes the energy by x is exp(x/T) times too large (`C128_thermal`): the spectral function of a free level of energy e is exp(-e/T) times the correct one (`C128_level_thermal`), its total weight is pi exp(-e/T) instead of pi (`C129_finite_temperature_violated`), and Hermitian operators can have negative absorption (`C131_finite_temperature_violated`). hubbard_spectralfn.py uses the temperature one |
| C132 | a field along y turns the average of `pauli_y` against the field, at every temperature (`C132_field_y_violated`), because `get_sy` has the opposite sign of `pauli_y` (see C75) |
| C134 | the derivative of T log Z with respect to a field along y is minus half the sum of the averages of `pauli_y` (`C134_field_y_violated`) (see C75) |
| C67 | at zero temperature states at the Fermi energy count as filled, so n(mu)+n(-mu) > 1 if some wavevector has energy mu: the chain of four sites at mu = 0 has density 3/4, although `fg_mu` returns 0 for density 1/2 (`C67_zero_temperature_violated`) |
| C81 | for spins larger than 1/2 values and correlators on the default sites raise a shape error (`C81_higher_spin_fails`): `get_single_site_op` pads with an identity of size 2**k instead of nbasis**k |
| C94 | For bosons `get_imagtime_gfn` from a spectral function divides by `1 - exp(-beta omega)`, so a grid that contains frequency zero gives a division by zero (`nan` in numpy) instead of the limit; the sum rule is proved for grids without it. |
