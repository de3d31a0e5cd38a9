{
 "claims": [
  {
   "property": "C01",
   "status": "proved",
   "theorems": [
    "HQCA.Props.C01_pauli_product",
    "HQCA.Props.C01_length_mismatch"
   ],
   "note": ""
  },
  {
   "property": "C02",
   "status": "proved",
   "theorems": [
    "HQCA.Props.C02_commute_iff",
    "HQCA.Props.C02_not_commute_anti",
    "HQCA.Props.C02_qwc_iff",
    "HQCA.Props.C02_qwc_commute"
   ],
   "note": ""
  },
  {
   "property": "C03",
   "status": "proved",
   "theorems": [
    "HQCA.Props.C03_add_coef",
    "HQCA.Props.C03_addStr_coef",
    "HQCA.Props.C03_add_den",
    "HQCA.Props.C03_add_complex"
   ],
   "note": ""
  },
  {
   "property": "C04",
   "status": "partial",
   "theorems": [
    "HQCA.Props.C04_mul_den",
    "HQCA.Props.C04_mul_mismatch",
    "HQCA.Props.C04_mul_fermi",
    "HQCA.Props.C04_mul_qubit_partial",
    "HQCA.Props.C04_qubit_fails"
   ],
   "note": "Pauli operators of one length and fermionic operators: full. Sign-free (qubit) operators: whenever one of the two operators has no identity string; C04_qubit_fails: the product raises whenever both have one."
  },
  {
   "property": "C05",
   "status": "partial",
   "theorems": [
    "HQCA.Props.C05_sub_exact",
    "HQCA.Props.C05_sub_partial",
    "HQCA.Props.C05_sub_from_product",
    "HQCA.Props.C05_argument_negated",
    "HQCA.Props.C05_self_violated",
    "HQCA.Props.C05_defined"
   ],
   "note": "A - B negates the string objects of B in place. The value of the result is right when the string objects of A and B are distinct and both are fresh; the claim that B is unchanged is false, and so is A - A = 0; both refuted with witnesses."
  },
  {
   "property": "C06",
   "status": "proved",
   "theorems": [
    "HQCA.Props.C06_additions_refine",
    "HQCA.Props.C06_add_frame"
   ],
   "note": "Every history of constructions, additions, products and commutators of mutable operators refines a value semantics without sharing, up to coefficient-level equality."
  },
  {
   "property": "C07",
   "status": "proved",
   "theorems": [
    "HQCA.Props.C07_commutator",
    "HQCA.Props.C07_commutator_self",
    "HQCA.Props.C07_commutator_pauli",
    "HQCA.Props.C07_commutator_fermi",
    "HQCA.Props.C07_defined_pauli",
    "HQCA.Props.C07_defined_fermi"
   ],
   "note": "commutator(A,B) denotes AB - BA (up to the cleaning of each coefficient)."
  },
  {
   "property": "C08",
   "status": "proved",
   "theorems": [
    "HQCA.Props.C08_clean"
   ],
   "note": ""
  },
  {
   "property": "C09",
   "status": "proved",
   "theorems": [
    "HQCA.Props.C09_fermi_generate",
    "HQCA.Props.C09_zero_iff"
   ],
   "note": ""
  },
  {
   "property": "C10",
   "status": "proved",
   "theorems": [
    "HQCA.Props.C10_fermi_mul"
   ],
   "note": ""
  },
  {
   "property": "C100",
   "status": "partial",
   "theorems": [
    "HQCA.Props.C100_bookkeeping",
    "HQCA.Props.C100_step_partial",
    "HQCA.Props.C100_fails_raise",
    "HQCA.Props.C100_fails_side"
   ],
   "note": "Cached values and monotone best proved for all runs; each step characterised. Violated: a step raises exactly when the reflected point is at least as good as the best and extension does not improve (C100_fails_raise); inner and outer contraction are exchanged (C100_fails_side)."
  },
  {
   "property": "C101",
   "status": "partial",
   "theorems": [
    "HQCA.Props.C101_norm",
    "HQCA.Props.C101_null",
    "HQCA.Props.C101_scale_partial",
    "HQCA.Props.C101_fails_scale",
    "HQCA.Props.C101_eq",
    "HQCA.Props.C101_fails_ne"
   ],
   "note": "Norm and null test proved for Pauli operators; scaling proved for fermionic operators with any number and Pauli operators with real numbers. Violated: a complex multiple of a Pauli operator, any multiple of a qubit operator, a number on the left, and truncate all raise (C101_fails_scale); != is true for a string and itself and false for different strings (C101_fails_ne)."
  },
  {
   "property": "C102",
   "status": "partial",
   "theorems": [
    "HQCA.Props.C102_ansatz",
    "HQCA.Props.C102_descent",
    "HQCA.Props.C102_fails_residual"
   ],
   "note": "The addition and the slope (with descent for small steps) are proved, through the emitted gates. Violated: the step scales the residual operator itself because the copy is shallow (C102_fails_residual). The Pauli form in the slope statement is the exact one; the transform of the code differs from it by at most 1e-12 per term (C15)."
  },
  {
   "property": "C103",
   "status": "partial",
   "theorems": [
    "HQCA.Props.C103_open",
    "HQCA.Props.C103_total",
    "HQCA.Props.C103_closed_partial",
    "HQCA.Props.C103_fails_repeated"
   ],
   "note": "Proved for open ansatze, and for closed ones when every added operator has a term above 1e-12. Violated otherwise: the last layer is applied a second time (C103_fails_repeated)."
  },
  {
   "property": "C104",
   "status": "partial",
   "theorems": [
    "HQCA.Props.C104_operator",
    "HQCA.Props.C104_exact",
    "HQCA.Props.C104_list_partial",
    "HQCA.Props.C104_fails_identity",
    "HQCA.Props.C104_fails_transformed"
   ],
   "note": "For an Operator the count bounds the controlled-not gates emitted and is exact when no term is dropped; for a list the same holds when no term is an identity string. Violated: in a list each identity term lowers the count by two (C104_fails_identity), and a transformed ansatz, which is a flat list of strings, is counted as zero (C104_fails_transformed)."
  },
  {
   "property": "C105",
   "status": "proved",
   "theorems": [
    "HQCA.Props.C105_full",
    "HQCA.Props.C105_active",
    "HQCA.Props.C105_all"
   ],
   "note": ""
  },
  {
   "property": "C106",
   "status": "partial",
   "theorems": [
    "HQCA.Props.C106_spatial",
    "HQCA.Props.C106_reduce",
    "HQCA.Props.C106_fails_sz",
    "HQCA.Props.C106_fails_s2"
   ],
   "note": "The spin sums and the reduction are proved. Violated: the spin properties of a spatial RDM; S_z is zero for every density matrix (C106_fails_sz) and S^2 is wrong for two parallel electrons and for a filled shell (C106_fails_s2)."
  },
  {
   "property": "C107",
   "status": "partial",
   "theorems": [
    "HQCA.Props.C107_ground",
    "HQCA.Props.C107_fails_order",
    "HQCA.Props.C107_fails_complex"
   ],
   "note": "The matrix, the lower bound and its attainment are proved when order equals qubits. Violated: with any other order construction raises (C107_fails_order). Complex coefficients are accepted and a wrong energy reported (C107_fails_complex). eigvalsh is modelled by its documented meaning."
  },
  {
   "property": "C108",
   "status": "partial",
   "theorems": [
    "HQCA.Props.C108_jordan_wigner_partial",
    "HQCA.Props.C108_qubit_partial",
    "HQCA.Props.C108_any_result",
    "HQCA.Props.C108_fails_spin_flip"
   ],
   "note": "Proved for elements that also conserve the number of alpha particles: the construction returns, the value is right on the sector, and the size is bounded by the number of symmetric strings. numpy's matrix_rank and inv are modelled by their exact meaning; C108_any_result needs no rank or solver guarantee beyond correctness of a returned solution. Violated for elements that change the alpha number by an odd amount: the branch meant to return the zero operator raises KeyError (C108_fails_spin_flip). The parity and Bravyi-Kitaev transforms are not covered."
  },
  {
   "property": "C109",
   "status": "partial",
   "theorems": [
    "HQCA.Props.C109_reduced_tomography_partial",
    "HQCA.Props.C109_reduced_qubit_partial",
    "HQCA.Props.C109_fails_order1"
   ],
   "note": "Orders 2 and 3 and order 1 with imaginary parts (order 2 and order 1 with imaginary parts for the qubit class), not more beta than alpha orbitals, with exact rank and solve routines and circuits taken as created; bound 4^N*1e-10 plus skipped amplitudes. The qubit class is covered with exact expectation values instead of simulated ones. Missing, because the code fails there: order 1 with real parts (C109_fails_order1), order 4 and more beta orbitals (C27)."
  },
  {
   "property": "C11",
   "status": "proved",
   "theorems": [
    "HQCA.Props.C11_fermi_adjoint"
   ],
   "note": ""
  },
  {
   "property": "C110",
   "status": "partial",
   "theorems": [
    "HQCA.Props.C110_circuit_partial",
    "HQCA.Props.C110_entries",
    "HQCA.Props.C110_depth_fails"
   ],
   "note": "Jordan-Wigner transform, all depths: the circuit is the product of the exponentials of (p/d)(X - X†) over excitations with |p| >= 1e-10 (the code skips the others). Missing, because the code fails there: depth d other than 1 divides the angles without repeating the circuit (C110_depth_fails)."
  },
  {
   "property": "C111",
   "status": "partial",
   "theorems": [
    "HQCA.Props.C111_objective_partial",
    "HQCA.Props.C111_variational"
   ],
   "note": "Jordan-Wigner transform, default orbital order, state-vector backend with circuits taken as created, up to 2^N*1e-28 times the sum of the moduli of the reduced Hamiltonian; parameters below 1e-10 are left out, as the code does. For a depth d the parameters of the state are p/d (C110_depth_fails). Missing: one electron, where the code divides by zero; the other orbital order and transforms."
  },
  {
   "property": "C112",
   "status": "partial",
   "theorems": [
    "HQCA.Props.C112_parity_partial",
    "HQCA.Props.C112_bravyi_kitaev_partial",
    "HQCA.Props.C112_parity_fails",
    "HQCA.Props.C112_fails"
   ],
   "note": "Every element comes out multiplied by (-1)^m, m the number of electrons it moves: elements with even m are right, elements with odd m have the opposite sign (C112_parity_fails in general, C112_fails on 3/5|1010>+4/5|0110>). State-vector backend, circuits taken as created, up to 2^N*1e-28. The Jordan-Wigner case is C96. Missing: order 1 with real parts, order 4, more beta than alpha orbitals (C62, C27)."
  },
  {
   "property": "C113",
   "status": "partial",
   "theorems": [
    "HQCA.Props.C113_acse_partial",
    "HQCA.Props.C113_vqe_partial",
    "HQCA.Props.C113_zero_parameters_partial",
    "HQCA.Props.C113_fails",
    "HQCA.Props.C113_vqe_frozen_raises",
    "HQCA.Props.C113_vqe_frozen_fails"
   ],
   "note": "True for 2 Sz in -1, 0, 1, 2 and other than one electron, for VQE only when every orbital is active. Violations: other spins raise a KeyError (C113_fails); the VQE storage labels its Hartree-Fock matrix with positions among all spin orbitals although the array has only the active ones, so an active space raises an IndexError (C113_vqe_frozen_raises) or gives the energy of another determinant (C113_vqe_frozen_fails). Odd numbers of core electrons are not modelled."
  },
  {
   "property": "C114",
   "status": "partial",
   "theorems": [
    "HQCA.Props.C114_classical",
    "HQCA.Props.C114_quantum_partial",
    "HQCA.Props.C114_quantum_safe",
    "HQCA.Props.C114_quantum_fails",
    "HQCA.Props.C114_particle_partial",
    "HQCA.Props.C114_particle_fails",
    "HQCA.Props.C114_antihermitian",
    "HQCA.Props.C114_parts"
   ],
   "note": "Classical solver: proved in full (its assertion lacks the absolute value and always holds). Quantum solver: returns half the norm of the kept entries, and stops with an AssertionError when the dropped entries change the norm by 1e-8 or more, e.g. a nearly converged residual with its default threshold (C114_quantum_fails); thresholds below 1e-8/r^2 are safe. Sign-free solver: right with norm=None, an exception for every other norm including its own default 'fro' (four-dimensional arrays; behaviour of numpy.linalg.norm taken from its documentation)."
  },
  {
   "property": "C115",
   "status": "partial",
   "theorems": [
    "HQCA.Props.C115_energy_partial",
    "HQCA.Props.C115_variational_partial",
    "HQCA.Props.C115_excitations_partial",
    "HQCA.Props.C115_one_each_partial"
   ],
   "note": "End to end for layers whose Pauli terms come in consecutive groups that conserve the numbers of electrons. This holds for layers of excitations acting on different sets of orbitals (C115_excitations_partial, where the state is the product of exp(p(X - X^dagger))) and, in any order and with any cancellation, for layers of real terms that each move at most one alpha and one beta electron (C115_one_each_partial). Missing: one electron (the reduced Hamiltonian divides by zero), and layers in which terms moving two electrons of the same spin are split by a cancellation half-way."
  },
  {
   "property": "C116",
   "status": "partial",
   "theorems": [
    "HQCA.Props.C116_cholesky_partial",
    "HQCA.Props.C116_cholesky_max_partial"
   ],
   "note": "Proved from the matrix V on (line 397). Missing: the line before it calls rotate_spatial_ei2, a name defined nowhere, so the method as it stands raises NameError."
  },
  {
   "property": "C117",
   "status": "partial",
   "theorems": [
    "HQCA.Props.C117_dispatch_partial",
    "HQCA.Props.C117_hundred_fails",
    "HQCA.Props.C117_again_fails",
    "HQCA.Props.C117_filter_fails"
   ],
   "note": "Holds for the first run of at most 100 tomographies without a measurement filter. Violations: the tomographies from number 100 on get no counts; a second run files the counts under the names of the first run, so none of the circuits finds its counts; with a measurement filter every run raises."
  },
  {
   "property": "C118",
   "status": "partial",
   "theorems": [
    "HQCA.Props.C118_samples_partial",
    "HQCA.Props.C118_counts_lost",
    "HQCA.Props.C118_zero_error",
    "HQCA.Props.C118_large_fails"
   ],
   "note": "Samples are drawn from the recorded shots as stated. Violations: the object keeps the counts of the last sample; with a sample size equal to the number of shots (both defaults are 1024) the estimate is exactly zero; sizes between the number of shots and eight times the nominal number raise. Building the RDM from counts and the user's function are one arbitrary function of the counts."
  },
  {
   "property": "C119",
   "status": "partial",
   "theorems": [
    "HQCA.Props.C119_reading_partial",
    "HQCA.Props.C119_emit",
    "HQCA.Props.C119_empty"
   ],
   "note": "Construction ends within l*N+1 passes and the reading is exact for the intended circuit and lookup. Violations: the primitives apply_si and apply_h use the name pi, which _base.py does not import, so the circuit of every group with an X or a Y raises NameError when it is emitted; a measurement to which only the identity is assigned raises in the constructor; the value itself is never returned (C130_measure_raises)."
  },
  {
   "property": "C12",
   "status": "partial",
   "theorems": [
    "HQCA.Props.C12_order_partial",
    "HQCA.Props.C12_nontermination",
    "HQCA.Props.C12_hole_wrong"
   ],
   "note": "Correct for strings without hole letters having both creation and annihilation; the loop never ends on strings with one kind of letter, and hole letters get the wrong sign (double negation)."
  },
  {
   "property": "C120",
   "status": "partial",
   "theorems": [
    "HQCA.Props.C120_run_partial"
   ],
   "note": "State-vector backend, Jordan-Wigner, layers as in C115 (consecutive number-conserving groups). Missing: one-electron references and spins for which the reference is refused (C113), and the maximal depth, where _check raises (C69). The choice of the layers in an iteration is left open, so the statement covers every choice."
  },
  {
   "property": "C121",
   "status": "partial",
   "theorems": [
    "HQCA.Props.C121_euler_partial",
    "HQCA.Props.C121_minimal_partial",
    "HQCA.Props.C121_three_raises"
   ],
   "note": "One electron of each spin; state-vector backend, Jordan-Wigner, closed ansatz, convergence type 'norm'. For two spatial orbitals no condition on the layers is left; for more orbitals the theorem assumes that the Pauli form of each layer has imaginary coefficients (the cleaning of partial sums could leave a real one). With three or more electrons the run raises (C121_three_raises). Missing: three-body tomography, S_min below the noise, reaching max_depth (where _check raises), convergence type 'trust' (the Euler step sets neither tr_taylor nor tr_object, so _check would raise AttributeError)."
  },
  {
   "property": "C122",
   "status": "partial",
   "theorems": [
    "HQCA.Props.C122_partial",
    "HQCA.Props.C122_onto_partial",
    "HQCA.Props.C122_minimum_partial",
    "HQCA.Props.C122_variational_partial",
    "HQCA.Props.C122_odd_core",
    "HQCA.Props.C122_state",
    "HQCA.Props.C122_functional"
   ],
   "note": "Proved when the number of frozen electrons is even and the active space does not hold exactly one electron (K2 divides by Ne_as-1). C122_odd_core: with an odd number of frozen electrons (No_core = Ne_core//2) the energies are those of the molecule with one electron missing. Exact arithmetic; the qubit operator of the same class lacks the mean field of the core, see C52."
  },
  {
   "property": "C123",
   "status": "partial",
   "theorems": [
    "HQCA.Props.C123_affine_partial",
    "HQCA.Props.C123_rigid_partial",
    "HQCA.Props.C123_lagarias_partial",
    "HQCA.Props.C123_origin_special"
   ],
   "note": "General affine maps: as long as the stuck check does not interfere in either run. Rotations and translations: for all runs whose first reflected point is not within 1e-10 of the origin. C123_origin_special: the memory of the stuck check starts with zeros, so a first reflection onto the origin counts as stuck and is replaced by a random point. Exact arithmetic."
  },
  {
   "property": "C124",
   "status": "partial",
   "theorems": [
    "HQCA.Props.C124_start",
    "HQCA.Props.C124_step",
    "HQCA.Props.C124_run",
    "HQCA.Props.C124_endless",
    "HQCA.Props.C124_bowl_partial"
   ],
   "note": "Everything but termination, for every run whose line searches end. C124_endless: on a bowl of curvature at most 1/50 the first line search never ends, whatever the dimension and the start; C124_bowl_partial: for curvature in (1/50, 4/5] it does. Exact arithmetic; the gradient routine is arbitrary and pure."
  },
  {
   "property": "C125",
   "status": "partial",
   "theorems": [
    "HQCA.Props.C125_partial",
    "HQCA.Props.C125_minimal_partial"
   ],
   "note": "For runs whose line searches end, gradient=True (without it building fails, C70), na+nb not 1, spin projection accepted by the storage, exact simulation with colourings of commuting strings; energies up to the filter for small coefficients, 2^(2 no)*1e-28 times the size of the Hamiltonian."
  },
  {
   "property": "C126",
   "status": "partial",
   "theorems": [
    "HQCA.Props.C126_colouring_partial",
    "HQCA.Props.C126_circuits_partial",
    "HQCA.Props.C126_lower",
    "HQCA.Props.C126_other_raise",
    "HQCA.Props.colouring_default"
   ],
   "note": "Holds for the default (graph_tool, largest first); C126_other_raise: all others raise (undefined names: greedy_color, self.colors, np). sequential_vertex_coloring is transcribed from the Boost graph library, which is trusted to behave so. colouring_default discharges the hypothesis ColouringOK of C108, C111, C121, C125 and others for this colouring."
  },
  {
   "property": "C127",
   "status": "partial",
   "theorems": [
    "HQCA.Props.C127_partial",
    "HQCA.Props.C127_raises"
   ],
   "note": "Holds whenever there are at most as many beta as alpha orbitals and the number of particles is not one; otherwise an exception (C127_raises: the beta block is allocated with the alpha size; contraction divides by zero). np.linalg.eigvalsh is taken as the eigenvalues of the Hermitian matrix given by the lower triangle."
  },
  {
   "property": "C128",
   "status": "partial",
   "theorems": [
    "HQCA.Props.C128_partial",
    "HQCA.Props.C128_exits"
   ],
   "note": "Holds when the cosine of length times scale is not negative; otherwise (below minus 4e-7) the program always ends. The rotations found are not the gates emitted, see C82. Exact arithmetic."
  },
  {
   "property": "C129",
   "status": "partial",
   "theorems": [
    "HQCA.Props.C129_one_partial",
    "HQCA.Props.C129_two_partial",
    "HQCA.Props.C129_three_fails",
    "HQCA.Props.C129_simple_partial",
    "HQCA.Props.C129_rotation_partial",
    "HQCA.Props.C129_commute_partial",
    "HQCA.Props.C129_commute_raises",
    "HQCA.Props.C129_propagation_fails"
   ],
   "note": "Holds for one and two operators, for propagation by rotation, and by commute after one operator. Fails: a third operator is joined to the second (C129_three_fails), commute after two operators and the default method trotter always raise (C129_propagation_fails). The identity letter is left out (a global phase)."
  },
  {
   "property": "C13",
   "status": "partial",
   "theorems": [
    "HQCA.Props.C13_qubit_generate",
    "HQCA.Props.C13_qubit_mul_partial",
    "HQCA.Props.C13_empty_raises",
    "HQCA.Props.C13_mul_identity_raises"
   ],
   "note": "Violated for identity strings: the constructor raises IndexError; proved for everything else."
  },
  {
   "property": "C130",
   "status": "partial",
   "theorems": [
    "HQCA.Props.C130_one_partial",
    "HQCA.Props.C130_more_partial",
    "HQCA.Props.C130_four_raises",
    "HQCA.Props.C130_fails",
    "HQCA.Props.C130_measure_raises"
   ],
   "note": "The records kept are characterised for every number of symmetries; the choice is right exactly without symmetries or with one symmetry of value -1 (C130_fails). Four or more symmetries raise. No value is ever returned, because the string is looked up by position in a dictionary (C130_measure_raises)."
  },
  {
   "property": "C131",
   "status": "partial",
   "theorems": [
    "HQCA.Props.C131_slope_partial",
    "HQCA.Props.C131_fails"
   ],
   "note": "The slope at step zero is exact for a real state, with thresholds inactive. Violated: the operator lacks the adjoint terms and its Hermitian part is exponentiated with a factor i, so a real state gets a complex 2-RDM after any small step (C131_fails); the slope theorem then no longer applies to later iterations."
  },
  {
   "property": "C132",
   "status": "partial",
   "theorems": [
    "HQCA.Props.C132_partial",
    "HQCA.Props.C132_jw_partial",
    "HQCA.Props.C132_gap_partial",
    "HQCA.Props.C132_threshold_partial"
   ],
   "note": "Without a frozen core, for states with a symmetric (real) two-body density matrix. Exact when the integral threshold leaves out zeros only; otherwise an integral left out of the operator still enters the matrix when another integral keeps its string, and C132_threshold_partial bounds the difference by the threshold times the size of the density matrices."
  },
  {
   "property": "C133",
   "status": "partial",
   "theorems": [
    "HQCA.Props.C133_partial",
    "HQCA.Props.C133_raises",
    "HQCA.Props.C133_mc_fails",
    "HQCA.Props.C133_second_fails"
   ],
   "note": "Holds for the relation qwc when every pass is graph_tool, largest first; the result is then that of simplify=True. Violated otherwise: the default arguments and every other first pass raise (C133_raises); there is no check, so the relation mc silently returns bases that do not serve the strings (C133_mc_fails); a later pass with strategy 'default' mixes its colours with those of the pass before (C133_second_fails)."
  },
  {
   "property": "C134",
   "status": "proved",
   "theorems": [
    "HQCA.Props.C134_order",
    "HQCA.Props.C134_blocks",
    "HQCA.Props.C134_mul"
   ],
   "note": "The matrix is a function of two indices with exact entries; the printed header of get_cN, which is built and dropped, is not modelled."
  },
  {
   "property": "C135",
   "status": "partial",
   "theorems": [
    "HQCA.Props.C135_values",
    "HQCA.Props.C135_evolve",
    "HQCA.Props.C135_tomography_partial",
    "HQCA.Props.C135_mixed_partial"
   ],
   "note": "C135_values and C135_evolve hold for every density matrix. The end-to-end theorems are for mixtures of states with a fixed number of alpha electrons each (C135_mixed_partial; one state: C135_tomography_partial), with the limits of C96: order 1 with real parts, order 4 and more beta than alpha orbitals are missing. The type 'rho' is set by no function of the library; the user has to assign it."
  },
  {
   "property": "C136",
   "status": "partial",
   "theorems": [
    "HQCA.Props.C136_variance_partial",
    "HQCA.Props.C136_pure_partial",
    "HQCA.Props.C136_stale",
    "HQCA.Props.C136_fails"
   ],
   "note": "For the density matrix kept by the driver the number is the variance, non-negative, and zero exactly for eigenstates. With a closed ansatz the kept matrix is that of the current state (C103). With an open ansatz the kept matrix does not change during the first p iterations, so the number returned is the variance of the initial state (C136_stale, C136_fails). Missing: the backends other than 'rho', where no matrix is kept."
  },
  {
   "property": "C137",
   "status": "partial",
   "theorems": [
    "HQCA.Props.C137_schedule",
    "HQCA.Props.C137_runs",
    "HQCA.Props.C137_single_partial",
    "HQCA.Props.C137_mixed_fails",
    "HQCA.Props.C137_frequency_partial",
    "HQCA.Props.C137_initial_fails",
    "HQCA.Props.C137_never",
    "HQCA.Props.C137_assigned_fails",
    "HQCA.Props.C137_one",
    "HQCA.Props.C137_assigned_partial"
   ],
   "note": "Every circuit is corrected once, circuit k with calibration ⌊(k+1)/f⌋ counted over all runs (the period itself is C53). The readings are per circuit, so a run is corrected with one calibration only if no renewal falls inside it, and never if it has more circuits than the frequency. Every calibration but the first serves f circuits; the first serves f-1. A frequency that is not positive means no renewal. A filter assigned when a renewal is due, with frequency one always, is never used."
  },
  {
   "property": "C138",
   "status": "partial",
   "theorems": [
    "HQCA.Props.C138_orthogonal",
    "HQCA.Props.C138_ordered_partial",
    "HQCA.Props.C138_two_partial",
    "HQCA.Props.C138_increasing_partial",
    "HQCA.Props.C138_fails"
   ],
   "note": "The transformation is always orthogonal and a signed permutation. The order is right for sorted occupations, for two orbitals and for increasing occupations. It is wrong in general: the comparisons use the matrix before reordering, so 2, 1, 3, 0, ... becomes 1, 3, 2, 0, ... for every number of orbitals from three on."
  },
  {
   "property": "C139",
   "status": "partial",
   "theorems": [
    "HQCA.Props.C139_vector",
    "HQCA.Props.C139_operator",
    "HQCA.Props.C139_distinct_partial",
    "HQCA.Props.C139_repeated_fails"
   ],
   "note": "The vector is right for every list. The coefficient in the operator is the expectation value times the number of times the string is listed, hence right for distinct strings and wrong for repeated ones. State-vector backend, relation qwc or no grouping. Note that imag defaults to True, so that the default result is i times the expectation values."
  },
  {
   "property": "C14",
   "status": "proved",
   "theorems": [
    "HQCA.Props.C14_jordan_wigner",
    "HQCA.Props.C14_threshold",
    "HQCA.Props.C14_complex"
   ],
   "note": "exact whenever the scaled coefficient is above the 1e-12 cut-off; below it the result is empty (C14_threshold)"
  },
  {
   "property": "C140",
   "status": "partial",
   "theorems": [
    "HQCA.Props.C140_chemists",
    "HQCA.Props.C140_agrees",
    "HQCA.Props.C140_energy",
    "HQCA.Props.C140_documented_fails"
   ],
   "note": "The entry i,j,k,l holds the chemists' integral (ij|kl) for every input, hence the promised index order i,k,j,l does not hold. Up to that order it agrees with generate_spin_2ei wherever the two creation and the two annihilation orbitals differ, and gives the same energy for every density matrix that vanishes there. Proved for the region 'full' and, for the entries, for the sum onto any starting array."
  },
  {
   "property": "C141",
   "status": "partial",
   "theorems": [
    "HQCA.Props.C141_mixed_partial",
    "HQCA.Props.C141_clash_fails"
   ],
   "note": "Proved for every list in which no word of letters is used both as a fermionic and as a qubit string (Jordan-Wigner, qubit and identity transforms; 1e-12 per string from the cleaning). When the same letters are used for both kinds the sum is twice the string added first, hence wrong and dependent on the order. OrderedString, named in the code, does not exist."
  },
  {
   "property": "C142",
   "status": "partial",
   "theorems": [
    "HQCA.Props.C142_file_partial",
    "HQCA.Props.C142_restored_partial",
    "HQCA.Props.C142_precision_fails"
   ],
   "note": "Proved: the file gives the real part of the alpha-beta block of any density matrix to within half a unit of the digit asked for plus half a unit of the sixth digit, and for singlets the whole 2-RDM (real part) to twice that. Fails: six decimals are printed whatever the precision, so seven or more digits (eight is the default) are not kept; imaginary parts are written but not read. The external purification between writing and reading is left out."
  },
  {
   "property": "C143",
   "status": "partial",
   "theorems": [
    "HQCA.Props.C143_values",
    "HQCA.Props.C143_norms_partial",
    "HQCA.Props.C143_collapsed",
    "HQCA.Props.C143_mirror_fails"
   ],
   "note": "Proved: with 'energy' all values are within threshold*sqrt(2(N+1)) of the reported one; a collapsed simplex ends the run. With the default criterion only the distances from the origin agree (C143_norms_partial); C143_mirror_fails: x^2 started at half the first edge ends after one step as converged, at any threshold, with the start and its mirror image as points and nothing improved."
  },
  {
   "property": "C144",
   "status": "partial",
   "theorems": [
    "HQCA.Props.C144_preset",
    "HQCA.Props.C144_load_partial",
    "HQCA.Props.C144_load_fails"
   ],
   "note": "preset=True: proved for every requested order. File: a new object of the same order returns the RDM of every state (limits of C96). C144_load_fails: load restores neither rdme_keys, which the ACSE driver reads, nor real, so save raises; an object made for a lower order raises when constructing. Not modelled: save appends '.rto' to the name, load does not."
  },
  {
   "property": "C145",
   "status": "partial",
   "theorems": [
    "HQCA.Props.C145_coefficients",
    "HQCA.Props.C145_total",
    "HQCA.Props.C145_partition",
    "HQCA.Props.C145_residual",
    "HQCA.Props.C145_commuting",
    "HQCA.Props.C145_default_fails",
    "HQCA.Props.C145_unchecked_fails"
   ],
   "note": "The parts add up to the Hamiltonian with every string weighted by the number of times the groups name it; for groups naming each string once the parts give the residual of the whole. Commuting groups: exact exponential up to a phase. Violated: with default arguments the list is empty and the solver raises (C145_default_fails); strings left out, misspelt or named twice are not reported (C145_unchecked_fails)."
  },
  {
   "property": "C146",
   "status": "partial",
   "theorems": [
    "HQCA.Props.C146_accepted",
    "HQCA.Props.C146_alternating_fails",
    "HQCA.Props.C146_alternating_energy_fails",
    "HQCA.Props.C146_reordered_partial",
    "HQCA.Props.C146_energy_partial",
    "HQCA.Props.C146_orbital_energies_partial",
    "HQCA.Props.C146_energy_fails"
   ],
   "note": "Exact criterion for the assignments whose elements can be built: no beta qubit between two alpha qubits. Violated: the interleaved order raises for two or more spatial orbitals, whatever the transform, parts, colouring and state; for reordered blocks the tensor is right by qubit label but is contracted with integrals in orbital order, so the reference energy is that of another determinant (C146_energy_fails)."
  },
  {
   "property": "C147",
   "status": "partial",
   "theorems": [
    "HQCA.Props.C147_report_partial",
    "HQCA.Props.C147_number_fails",
    "HQCA.Props.C147_raises"
   ],
   "note": "Spin values, eigenvalue bounds and sums, and the absence of a false warning are proved for every state with n != 1 electrons. Violated: the number shown as N is n(n-1), the electron number only for n = 0 or 2 (C147_number_fails, an equivalence); one electron, or lists of different lengths, raise (C147_raises)."
  },
  {
   "property": "C148",
   "status": "partial",
   "theorems": [
    "HQCA.Props.C148_reference",
    "HQCA.Props.C148_parity_partial",
    "HQCA.Props.C148_bravyi_kitaev_partial",
    "HQCA.Props.C148_hopping_fails",
    "HQCA.Props.C148_fails"
   ],
   "note": "The reference energy is right with either transform. For every real state the result is the energy of the Hamiltonian whose integrals moving exactly one electron have the opposite sign; violated therefore whenever these contribute: for a hopping Hamiltonian every energy has the wrong sign (C148_hopping_fails), with a concrete state in C148_fails."
  },
  {
   "property": "C149",
   "status": "partial",
   "theorems": [
    "HQCA.Props.C149_objective_partial",
    "HQCA.Props.C149_agrees",
    "HQCA.Props.C149_two_orbitals",
    "HQCA.Props.C149_variational",
    "HQCA.Props.C149_zero_parameters",
    "HQCA.Props.C149_within_fails",
    "HQCA.Props.C149_fails",
    "HQCA.Props.C149_below_ground"
   ],
   "note": "The objective is the expectation value, in the right cluster state, of a Hamiltonian with some integrals reversed (hops within the occupied or within the virtual orbitals, and the two-electron integrals listed in twist2). It agrees with Jordan-Wigner when none of these is present, in particular for two spatial orbitals with one electron of each spin (C149_two_orbitals), and for zero parameters. Violated otherwise: for hops within the virtual orbitals the sign of the energy is wrong (C149_within_fails), with a concrete case of three orbitals (C149_fails); on a ring of three orbitals the objective reaches values below the lowest energy (C149_below_ground)."
  },
  {
   "property": "C15",
   "status": "proved",
   "theorems": [
    "HQCA.Props.C15_transform_jw",
    "HQCA.Props.C15_transform_unique",
    "HQCA.Props.C15_product",
    "HQCA.Props.C15_sum"
   ],
   "note": "the operator returned equals the exact expansion with small terms removed; products and sums before and after the transform agree coefficient by coefficient within explicit multiples of 1e-12"
  },
  {
   "property": "C150",
   "status": "partial",
   "theorems": [
    "HQCA.Props.C150_run_partial",
    "HQCA.Props.C150_minimal_partial",
    "HQCA.Props.C150_two_orbitals"
   ],
   "note": "All guarantees except that the energy is that of the Hamiltonian with the reversed integrals of C149, so the bound from below by the lowest energy holds only when no integral is reversed, in particular for two spatial orbitals with one electron of each spin (C150_two_orbitals). C149_below_ground shows that the objective which is minimised goes below the lowest energy otherwise."
  },
  {
   "property": "C151",
   "status": "partial",
   "theorems": [
    "HQCA.Props.C151_tomography_partial",
    "HQCA.Props.C151_probability",
    "HQCA.Props.C151_encodings_partial"
   ],
   "note": "Shots are independent and follow Born's rule; noise models and measurement filters are not used. Missing: order 1 with real parts, order 4, more beta than alpha orbitals, as C96. With the parity and Bravyi-Kitaev transforms the bound holds around the wrong element where an odd number of electrons moves (C151_encodings_partial, C112)."
  },
  {
   "property": "C152",
   "status": "partial",
   "theorems": [
    "HQCA.Props.C152_objective_partial",
    "HQCA.Props.C152_variational"
   ],
   "note": "Jordan-Wigner transform. Missing: one electron, where the reduced Hamiltonian divides by zero; depths other than 1 do not give the cluster state of the parameters (C110)."
  },
  {
   "property": "C153",
   "status": "partial",
   "theorems": [
    "HQCA.Props.C153_residual_partial",
    "HQCA.Props.C153_hamiltonian",
    "HQCA.Props.C153_single_orbital"
   ],
   "note": "Jordan-Wigner transform, layers as in C115, Hamiltonian not split into parts (C145 for the parts). Missing: one electron (the reduced Hamiltonian divides by zero); with one spatial orbital there is nothing to measure and the solver raises (C153_single_orbital). C153_hamiltonian: the hypotheses on the qubit Hamiltonian are met up to 1e-12 per fermionic term by the operator the Hamiltonian class builds."
  },
  {
   "property": "C154",
   "status": "partial",
   "theorems": [
    "HQCA.Props.C154_energy_partial"
   ],
   "note": "Jordan-Wigner transform, independent shots following Born's rule. Missing: one electron (the reduced Hamiltonian divides by zero); layers as in C115."
  },
  {
   "property": "C155",
   "status": "partial",
   "theorems": [
    "HQCA.Props.C155_full_partial",
    "HQCA.Props.C155_active",
    "HQCA.Props.C155_active_raises",
    "HQCA.Props.C155_agrees",
    "HQCA.Props.C155_virtual"
   ],
   "note": "Missing: with region 'full' the virtual orbitals are left out (C155_virtual), unlike generate_spin_1ei; with region 'active' and no array given the call raises (C155_active_raises)."
  },
  {
   "property": "C156",
   "status": "partial",
   "theorems": [
    "HQCA.Props.C156_projection",
    "HQCA.Props.C156_borland_dennis",
    "HQCA.Props.C156_not_gpc_partial"
   ],
   "note": "The first two parts are proved in full. project_gpc raises on every input (a module it needs is not imported) and the plane of project_to_plane is not the plane of the constraint (C156_not_gpc_partial)."
  },
  {
   "property": "C157",
   "status": "partial",
   "theorems": [
    "HQCA.Props.C157_symplectic",
    "HQCA.Props.C157_symplectic_raises",
    "HQCA.Props.C157_skew_partial"
   ],
   "note": "symplectic_product in full; skew and symm raise IndexError for all strings with at least one qubit (C157_skew_partial)."
  },
  {
   "property": "C158",
   "status": "partial",
   "theorems": [
    "HQCA.Props.C158_full_partial",
    "HQCA.Props.C158_keep_partial",
    "HQCA.Props.C158_euler",
    "HQCA.Props.C158_fails_stale",
    "HQCA.Props.C158_fails_initial",
    "HQCA.Props.C158_fails_initial_energy"
   ],
   "note": "Euler method, state-vector backend. Full reset: proved for everything shown; the storage's density matrix and the count of increases are not reset (C158_fails_stale, C40_reset_keeps_count). Reset: proved unless it follows a full reset. Given starting ansatz: violated, the first build raises, and a full reset instead records the Hartree-Fock energy."
  },
  {
   "property": "C159",
   "status": "partial",
   "theorems": [
    "HQCA.Props.C159_residual_partial",
    "HQCA.Props.C159_operator_partial",
    "HQCA.Props.C159_stationary_partial",
    "HQCA.Props.C159_raises"
   ],
   "note": "State-vector backend, Jordan-Wigner. Missing: one electron (the reconstruction divides by N-1, C52). Violated: a three-body tomography of two electrons raises ZeroDivisionError in the contraction (C159_raises); the two-body tomography of three or more electrons raises ResidualError as documented. Layers as in C115."
  },
  {
   "property": "C16",
   "status": "partial",
   "theorems": [
    "HQCA.Props.C16_parity_signed",
    "HQCA.Props.C16_encoding_bijective",
    "HQCA.Props.C16_parity_partial",
    "HQCA.Props.C16_parity_violated"
   ],
   "note": "the code applies the letters in reversed order, so strings whose reversal sign is -1 come out with the wrong sign: exact signed statement proved, violation proved"
  },
  {
   "property": "C160",
   "status": "partial",
   "theorems": [
    "HQCA.Props.C160_run_partial",
    "HQCA.Props.C160_small_partial",
    "HQCA.Props.C160_stationary_partial",
    "HQCA.Props.C160_raises",
    "HQCA.Props.C160_two"
   ],
   "note": "State-vector backend, Jordan-Wigner. C160_run_partial assumes that every ansatz reached is made of layers conserving the numbers of electrons; C160_small_partial derives this for at most three spatial orbitals from the spin symmetry of the integrals and a threshold above the accuracy, up to ImagForm. Missing: in more orbitals a layer may move two electrons of one spin, whose Trotterised circuit does not conserve the numbers of electrons. Violated: two electrons with a three-body tomography, three or more with a two-body one (C160_raises)."
  },
  {
   "property": "C161",
   "status": "partial",
   "theorems": [
    "HQCA.Props.C161_truncate",
    "HQCA.Props.C161_prefix",
    "HQCA.Props.C161_undo_partial",
    "HQCA.Props.C161_undo_exact_partial",
    "HQCA.Props.C161_open_fails",
    "HQCA.Props.C161_vanish_fails",
    "HQCA.Props.C161_limit",
    "HQCA.Props.C161_create"
   ],
   "note": "Undoing holds for closed ansaetze whose layers do not vanish on cleaning. Violated: for other closure parameters the addition changes kept layers (C161_open_fails); an empty first layer disappears at the next addition, and cutting back then keeps the new operator (C161_vanish_fails)."
  },
  {
   "property": "C162",
   "status": "partial",
   "theorems": [
    "HQCA.Props.C162_slope_partial",
    "HQCA.Props.C162_descent_partial"
   ],
   "note": "Classical solver, state-vector backend, Jordan-Wigner, thresholds inactive, layers as in C115. Missing: later steps of the search and later iterations, where the Hermitian part of the generator makes the state complex (C131_fails), and what is missing from C159."
  },
  {
   "property": "C163",
   "status": "partial",
   "theorems": [
    "HQCA.Props.C163_run_partial",
    "HQCA.Props.C163_minimal_partial",
    "HQCA.Props.C163_stationary_partial",
    "HQCA.Props.C163_negative",
    "HQCA.Props.C163_step",
    "HQCA.Props.C163_choice",
    "HQCA.Props.C163_nested"
   ],
   "note": "State-vector backend, Jordan-Wigner, two- or three-body tomography for the residual. For two electrons in two orbitals no hypothesis on the layers is left. C163_step and C163_choice (every iteration, no hypothesis on the layers) relate the quantities of the trust region to the measured energies. Missing: layers whose Trotterised circuit does not conserve the numbers of electrons, one electron, the tomography orders that raise (C159), and reaching the maximal depth."
  },
  {
   "property": "C164",
   "status": "partial",
   "theorems": [
    "HQCA.Props.C164_run_partial",
    "HQCA.Props.C164_small_partial",
    "HQCA.Props.C164_minimal_partial",
    "HQCA.Props.C164_direction",
    "HQCA.Props.C164_threshold",
    "HQCA.Props.C164_classical"
   ],
   "note": "State-vector backend, Jordan-Wigner, convergence type norm. In two spatial orbitals no hypothesis on the layers is left, in three only that the Pauli form of the layers is imaginary. Missing: layers whose Trotterised circuit does not conserve the numbers of electrons, one electron, and reaching the maximal depth."
  },
  {
   "property": "C165",
   "status": "partial",
   "theorems": [
    "HQCA.Props.C165_slope",
    "HQCA.Props.C165_rate",
    "HQCA.Props.C165_descent_partial",
    "HQCA.Props.C165_solver_partial",
    "HQCA.Props.C165_shots_partial"
   ],
   "note": "C165_slope and C165_rate hold for any operator, state and inexact residual; C165_rate relates the reported norm to the slope. C165_solver_partial is about the operator the driver keeps, for any relative truncation. Missing in the end-to-end statements: layers as in C115, one electron, explicit bounds on the two steps (with the state-vector backend, that a step small enough for the limit leaves the rounding small enough is therefore not proved; with shots there is no rounding)."
  },
  {
   "property": "C166",
   "status": "partial",
   "theorems": [
    "HQCA.Props.C166_add",
    "HQCA.Props.C166_sub",
    "HQCA.Props.C166_scale",
    "HQCA.Props.C166_observable",
    "HQCA.Props.C166_linear",
    "HQCA.Props.C166_refused",
    "HQCA.Props.C166_fails_electrons"
   ],
   "note": "Sums, differences, multiples, the observable and its additivity, and the refusal of other orbitals or orders are proved. The code violates the rest: RDMs with different numbers of electrons are added, with the number of the first (C166_fails_electrons). Multiplication by other numeric types (complex, numpy scalars) raises an exception in the code and is not modelled."
  },
  {
   "property": "C167",
   "status": "partial",
   "theorems": [
    "HQCA.Props.C167_terms",
    "HQCA.Props.C167_operator",
    "HQCA.Props.C167_fails_string"
   ],
   "note": "Proved for keys. The code violates the last part: a string object, which `in` accepts, is silently not removed (C167_fails_string)."
  },
  {
   "property": "C168",
   "status": "partial",
   "theorems": [
    "HQCA.Props.C168_start_partial",
    "HQCA.Props.C168_fails_late"
   ],
   "note": "C168_start_partial describes exactly the settings with which constructor, build and first step raise nothing. The code violates the claim: some of the others are accepted by the constructor and raise later, among them the default convergence type (C168_fails_late). Not modelled: the `shift` method of the quantum storage, cg_update, missing tomographies, exceptions that depend on the data."
  },
  {
   "property": "C17",
   "status": "partial",
   "theorems": [
    "HQCA.Props.C17_bravyi_kitaev_signed",
    "HQCA.Props.C17_encoding_bijective",
    "HQCA.Props.C17_bravyi_kitaev_partial",
    "HQCA.Props.C17_bravyi_kitaev_violated"
   ],
   "note": "same reversed order sign as C16"
  },
  {
   "property": "C18",
   "status": "partial",
   "theorems": [
    "HQCA.Props.C18_inverse_jw_partial",
    "HQCA.Props.C18_round_trip_partial",
    "HQCA.Props.C18_violated"
   ],
   "note": "InverseJordanWigner inverts JordanWigner on the strings its code treats correctly; a witness shows that it fails in general."
  },
  {
   "property": "C19",
   "status": "proved",
   "theorems": [
    "HQCA.Props.C19_qubit",
    "HQCA.Props.C19_threshold",
    "HQCA.Props.C19_transform_qubit"
   ],
   "note": "string-level mapping and Operator.transform(Qubit); calling Qubit on an Operator raises NameError (see DESIGN)"
  },
  {
   "property": "C20",
   "status": "proved",
   "theorems": [
    "HQCA.Props.C20_trim_restricts",
    "HQCA.Props.C20_trim_compresses",
    "HQCA.Props.C20_order_required",
    "HQCA.Props.C20_tapered_transform",
    "HQCA.Props.good_exists"
   ],
   "note": "Exact for every operator, qubit list and sector. The end-to-end theorem (basis change then trimming) assumes coefficients that are Gaussian-integer multiples of a number above the cleaning threshold."
  },
  {
   "property": "C21",
   "status": "proved",
   "theorems": [
    "HQCA.Props.C21_basis_change",
    "HQCA.Props.C21_unitary_iff",
    "HQCA.Props.C21_change_basis"
   ],
   "note": "Also shows the construction is not unitary when tau has I or X at q, which the code does not check."
  },
  {
   "property": "C22",
   "status": "partial",
   "theorems": [
    "HQCA.Props.C22_matrix_to_qubit",
    "HQCA.Props.C22_operator_to_matrix",
    "HQCA.Props.C22_round_trip_partial",
    "HQCA.Props.C22_zero_matrix_raises"
   ],
   "note": "matrix_to_qubit and operator_to_matrix exact; round trip within 16^n*1e-12 because transform cleans; violated for the zero matrix (and any matrix cleaned away), where operator_to_matrix raises"
  },
  {
   "property": "C23",
   "status": "proved",
   "theorems": [
    "HQCA.Props.C23_partial_trace",
    "HQCA.Props.C23_universal",
    "HQCA.Props.C23_trace",
    "HQCA.Props.C23_order",
    "HQCA.Props.C23_tensor",
    "HQCA.Props.C23_repeated_qubit"
   ],
   "note": "distinct qubits below n, n>=1; a repeated qubit is silently accepted and gives a wrong result (C23_repeated_qubit)"
  },
  {
   "property": "C24",
   "status": "proved",
   "theorems": [
    "HQCA.Props.C24_partial_trace",
    "HQCA.Props.C24_operator"
   ],
   "note": "string and operator version, normalised convention; the public dispatcher partial_trace() never reaches the operator version (see DESIGN.md)"
  },
  {
   "property": "C25",
   "status": "partial",
   "theorems": [
    "HQCA.Props.C25_sound",
    "HQCA.Props.C25_complete_qwc",
    "HQCA.Props.C25_commutes",
    "HQCA.Props.C25_mc_exits"
   ],
   "note": "Sound for every relation and every colouring; returns for rel='qwc' with any proper contiguous colouring. For rel='mc' it stops on commuting strings that are not qubit-wise commuting (C25_mc_exits). The graph library's colouring is an arbitrary function."
  },
  {
   "property": "C26",
   "status": "proved",
   "theorems": [
    "HQCA.Props.C26_mean",
    "HQCA.Props.C26_zero_total",
    "HQCA.Props.C26_identity",
    "HQCA.Props.C26_merge",
    "HQCA.Props.C26_bounds",
    "HQCA.Props.C26_statevector"
   ],
   "note": "Counts branch over any field, bounds over the rationals; state-vector branch over the complex numbers up to the amplitudes below 1e-14 the code skips."
  },
  {
   "property": "C27",
   "status": "partial",
   "theorems": [
    "HQCA.Props.C27_order1",
    "HQCA.Props.C27_order2_partial",
    "HQCA.Props.C27_order3_partial",
    "HQCA.Props.C27_fails_order2",
    "HQCA.Props.C27_fails_order2_beta",
    "HQCA.Props.C27_fails_interleaved",
    "HQCA.Props.C27_fails_order4"
   ],
   "note": "Order 1: proved. Orders 2, 3: proved for contiguous alpha then beta orbitals with at most as many beta as alpha orbitals; fails otherwise (witnesses). Order 4: violated for every Hamiltonian with at least four alpha orbitals."
  },
  {
   "property": "C28",
   "status": "partial",
   "theorems": [
    "HQCA.Props.C28_antisymmetric_partial",
    "HQCA.Props.C28_hermitian_partial",
    "HQCA.Props.C28_fails_order4",
    "HQCA.Props.fill_exact"
   ],
   "note": "Orders 1 to 3: filled tensor antisymmetric and Hermitian, and equal to any antisymmetric Hermitian target whose unique elements are supplied. Order 4: violated (witness), because the permutation generator gives wrong signs for four elements."
  },
  {
   "property": "C29",
   "status": "partial",
   "theorems": [
    "HQCA.Props.C29_signed_permutations_partial",
    "HQCA.Props.C29_fails_four",
    "HQCA.Props.C29_empty",
    "HQCA.Props.C29_all_permutations",
    "HQCA.Props.C29_count",
    "HQCA.Props.C29_nodup",
    "HQCA.Props.C29_permute",
    "HQCA.Props.C29_permute_nodup"
   ],
   "note": "Signs are correct up to three elements; wrong for four (witness). The set of permutations is complete without repetition for every length."
  },
  {
   "property": "C30",
   "status": "partial",
   "theorems": [
    "HQCA.Props.C30_hartree_fock_partial",
    "HQCA.Props.C30_trace_partial",
    "HQCA.Props.C30_antisymmetric_partial",
    "HQCA.Props.C30_contraction_partial",
    "HQCA.Props.C30_fails_order4"
   ],
   "note": "Orders 1 to 3: equal to the RDM of the determinant at every index, trace N!/(N-p)!, antisymmetric, contraction consistent. Order 4 violated (wrong sign, witness)."
  },
  {
   "property": "C31",
   "status": "partial",
   "theorems": [
    "HQCA.Props.C31_state_partial",
    "HQCA.Props.C31_tensor_partial",
    "HQCA.Props.C31_fails_order4",
    "HQCA.Props.C31_raises"
   ],
   "note": "Orders 2 and 3 proved for all tensors and, for states, equality with the lower RDM. Order 4 (and 1) always gives zero; Ne=p-1 raises ZeroDivisionError."
  },
  {
   "property": "C32",
   "status": "partial",
   "theorems": [
    "HQCA.Props.C32_wedge_partial",
    "HQCA.Props.wedge_kept",
    "HQCA.Props.C32_square",
    "HQCA.Props.C32_hf_two",
    "HQCA.Props.C32_hf_three",
    "HQCA.Props.C32_fails_lost",
    "HQCA.Props.C32_fails_cumulant"
   ],
   "note": "p+q<=3: exact description of the result; equals the wedge product when no term is dropped, always for D1*D1 and for Hartree-Fock factors. Violated in general: terms whose concatenated index list is not already ascending are lost, also in reconstruct."
  },
  {
   "property": "C33",
   "status": "proved",
   "theorems": [
    "HQCA.Props.C33_round_trip",
    "HQCA.Props.C33_switch",
    "HQCA.Props.C33_layout"
   ],
   "note": ""
  },
  {
   "property": "C34",
   "status": "proved",
   "theorems": [
    "HQCA.Props.C34_reduced",
    "HQCA.Props.C34_row_space",
    "HQCA.Props.C34_rank"
   ],
   "note": "Any matrix over GF(2): reduced row echelon form, same row space, number of pivots equals the rank. numpy 0/1 arrays reduced mod 2 are modelled in ZMod 2."
  },
  {
   "property": "C35",
   "status": "proved",
   "theorems": [
    "HQCA.Props.C35_commutes",
    "HQCA.Props.C35_complete",
    "HQCA.Props.C35_count",
    "HQCA.Props.C35_independent"
   ],
   "note": "Any nonempty collection of strings of one length, identity and repeats included. Also complete, independent, and of the right number. sympy substitution modelled by its value."
  },
  {
   "property": "C36",
   "status": "proved",
   "theorems": [
    "HQCA.Props.C36_round_trip",
    "HQCA.Props.C36_round_trip_vec",
    "HQCA.Props.C36_symplectic",
    "HQCA.Props.C36_commute",
    "HQCA.Props.C36_product"
   ],
   "note": ""
  },
  {
   "property": "C37",
   "status": "proved",
   "theorems": [
    "HQCA.Props.C37_gadget",
    "HQCA.Props.C37_identity",
    "HQCA.Props.C37_group"
   ],
   "note": "Exponential series converges to the circuit's unitary; identity strings up to the global phase. Meaning of the circuit library's gates is assumed (Spec/QCirc)."
  },
  {
   "property": "C38",
   "status": "partial",
   "theorems": [
    "HQCA.Props.C38_apply_partial",
    "HQCA.Props.C38_Y_as_X",
    "HQCA.Props.C38_basis_state",
    "HQCA.Props.C38_Y_fails",
    "HQCA.Props.C38_defined"
   ],
   "note": "Violated: Y is applied as X. Holds for strings without Y, and for every string on computational basis states up to a state-dependent phase."
  },
  {
   "property": "C39",
   "status": "proved",
   "theorems": [
    "HQCA.Props.C39_add",
    "HQCA.Props.C39_unique",
    "HQCA.Props.C39_add_complex",
    "HQCA.Props.C39_history",
    "HQCA.Props.C39_sub"
   ],
   "note": "Sum of the layers equals the sum of everything added, up to the documented 1e-12 cleaning (error bound over C, exact when no term is small); keys unique among changeable layers."
  },
  {
   "property": "C40",
   "status": "partial",
   "theorems": [
    "HQCA.Props.C40_max_iter",
    "HQCA.Props.C40_best",
    "HQCA.Props.C40_third_increase_partial",
    "HQCA.Props.C40_increase_missed",
    "HQCA.Props.C40_reset_keeps_count",
    "HQCA.Props.C40_completes"
   ],
   "note": "Iteration limit and best energy proved for all histories. The stop on the third increase holds when an increase means 'at least the mean of the last three recorded energies'; with 'higher than the previous energy' it is false (C40_increase_missed)."
  },
  {
   "property": "C41",
   "status": "proved",
   "theorems": [
    "HQCA.Props.C41_exact",
    "HQCA.Props.C41_largest",
    "HQCA.Props.C41_complex"
   ],
   "note": "For every generator with distinct keys and every threshold. Models the non-matrix branch without the split of excitations."
  },
  {
   "property": "C42",
   "status": "proved",
   "theorems": [
    "HQCA.Props.C42_derivatives",
    "HQCA.Props.C42_step"
   ],
   "note": "Exact arithmetic; slope and curvature above the 1e-16 guards; trust ratio threshold at most 1."
  },
  {
   "property": "C43",
   "status": "proved",
   "theorems": [
    "HQCA.Props.C43_run",
    "HQCA.Props.C43_search",
    "HQCA.Props.C43_stale_slope",
    "HQCA.Props.C43_limit_mismatch",
    "HQCA.Props.C43_alp_max_exception",
    "HQCA.Props.C43_accepts"
   ],
   "note": "For descent directions and a first step within alp_max; energies and slopes are arbitrary functions, numbers an ordered field. line_search_nocedal alone may report success with a stale slope (C43_stale_slope); LineSearchACSE.run detects it."
  },
  {
   "property": "C44",
   "status": "proved",
   "theorems": [
    "HQCA.Props.C44_quadratic",
    "HQCA.Props.C44_cubic"
   ],
   "note": "Over an ordered field (quadratic) and the reals (cubic)."
  },
  {
   "property": "C45",
   "status": "partial",
   "theorems": [
    "HQCA.Props.C45_secant_partial",
    "HQCA.Props.C45_secant_inv_partial",
    "HQCA.Props.C45_secant_acse",
    "HQCA.Props.C45_secant_guarded",
    "HQCA.Props.C45_symmetric",
    "HQCA.Props.C45_inverse_partial",
    "HQCA.Props.C45_posDef"
   ],
   "note": "The update keeps symmetry and positive definiteness and satisfies the secant equation when neither denominator is replaced by the 1e-30 guard. The guard itself breaks the secant equation: witness in C45_secant_guarded. Floats are modelled as an ordered field."
  },
  {
   "property": "C46",
   "status": "partial",
   "theorems": [
    "HQCA.Props.C46_wolfe",
    "HQCA.Props.C46_ends_partial",
    "HQCA.Props.C46_endless",
    "HQCA.Props.C46_range",
    "HQCA.Props.C124_endless"
   ],
   "note": "Every returned step satisfies the strong Wolfe conditions; termination fails (C46_endless) and is characterised exactly by C46_ends_partial. C124_endless: also on every flat enough parabola."
  },
  {
   "property": "C47",
   "status": "partial",
   "theorems": [
    "HQCA.Props.C47_order_permutes",
    "HQCA.Props.C47_order_best",
    "HQCA.Props.C47_cached",
    "HQCA.Props.C47_monotone",
    "HQCA.Props.C47_step_kinds",
    "HQCA.Props.C47_sorted_one_partial",
    "HQCA.Props.C47_sorted_two_partial",
    "HQCA.Props.C47_not_sorted"
   ],
   "note": "Cached values stay the objective values of the simplex points and the best value never increases, for every dimension. The ordering part holds for one and two parameters only: for three or more the selection loop indexes the values array with the wrong index and the result can be unsorted (C47_not_sorted is a witness)."
  },
  {
   "property": "C48",
   "status": "proved",
   "theorems": [
    "HQCA.Props.C48_backtracking",
    "HQCA.Props.C48_backtracking_ends",
    "HQCA.Props.C48_bfgs_backtracking",
    "HQCA.Props.C48_bfgs_backtracking_ends",
    "HQCA.Props.C48_bisect",
    "HQCA.Props.C48_bisect_init",
    "HQCA.Props.C48_bisect_endless"
   ],
   "note": "Also: backtracking ends for differentiable objectives; the bracketing loop of the bisecting search may not (C48_bisect_endless)."
  },
  {
   "property": "C49",
   "status": "partial",
   "theorems": [
    "HQCA.Props.C49_no_limit",
    "HQCA.Props.C49_best_is_optimizer",
    "HQCA.Props.C49_best_partial",
    "HQCA.Props.C49_best_lost",
    "HQCA.Props.C49_nothing_stored"
   ],
   "note": "The cap is not enforced: the driver's iteration counter is never increased and the requested limit is ignored (C49_no_limit, for all histories). The reported energy is the optimizer's, which is the lowest evaluated only if the optimizer reports that; C49_best_lost shows a step where it is not."
  },
  {
   "property": "C50",
   "status": "partial",
   "theorems": [
    "HQCA.Props.C50_sound",
    "HQCA.Props.C50_exactly_once_partial",
    "HQCA.Props.C50_at_most_once",
    "HQCA.Props.C50_missing",
    "HQCA.Props.C50_generator",
    "HQCA.Props.C50_assign",
    "HQCA.Props.C50_entries"
   ],
   "note": "Exactly once is proved when every occupied alpha orbital is numbered below every virtual one (the default and alternating orders); with a user-supplied order the mixed-spin doubles with j<=i are skipped (witness C50_missing). Anti-Hermiticity is proved for all real parameters, exactly over C under Jordan-Wigner."
  },
  {
   "property": "C51",
   "status": "proved",
   "theorems": [
    "HQCA.Props.C51_energy",
    "HQCA.Props.k2_eq",
    "HQCA.Props.rdm2_contract"
   ],
   "note": "Reduced Hamiltonian for arbitrary one-body integrals (with or without core mean field); hypotheses are antisymmetry and the N-1 contraction, shown to hold for every N-electron state (rdm2_left, rdm2_right, rdm2_contract)."
  },
  {
   "property": "C52",
   "status": "partial",
   "theorems": [
    "HQCA.Props.C52_energy",
    "HQCA.Props.C52_fermi_operator",
    "HQCA.Props.C52_fermionic_partial",
    "HQCA.Props.C52_core_gap",
    "HQCA.Props.C52_core_gap_nonzero"
   ],
   "note": "Proved for the Hamiltonian from given integrals (Jordan-Wigner, coefficients within 1e-12 per term of the exact operator). Violated for a frozen core: the operator lacks the core mean field, exact gap proved, with a witness."
  },
  {
   "property": "C53",
   "status": "proved",
   "theorems": [
    "HQCA.Props.C53_refresh"
   ],
   "note": "The set-up calibrates and counts as use 0; a use is a read of the filter property. The calibration job itself is abstracted to a counter."
  },
  {
   "property": "C54",
   "status": "partial",
   "theorems": [
    "HQCA.Props.C54_beale",
    "HQCA.Props.C54_rastrigin",
    "HQCA.Props.C54_rosenbrock",
    "HQCA.Props.C54_ackley_wrong",
    "HQCA.Props.C54_ackley_example"
   ],
   "note": "Over the reals, Frechet derivative at every point; Rosenbrock for every number of parameters from two. The Ackley gradient is wrong at every point with nonzero first coordinate (sign of the exponent), proved."
  },
  {
   "property": "C55",
   "status": "partial",
   "theorems": [
    "HQCA.Props.C55_error_ends",
    "HQCA.Props.C55_status",
    "HQCA.Props.C55_converged_partial",
    "HQCA.Props.C55_no_limit",
    "HQCA.Props.C55_backtracking_endless",
    "HQCA.Props.C55_defined"
   ],
   "note": "Errors end the run and the final status is defined; there is no iteration limit (C55_no_limit) and the backtracking optimizer never ends under the driver (C55_backtracking_endless)."
  },
  {
   "property": "C56",
   "status": "proved",
   "theorems": [
    "HQCA.Props.C56_one_body",
    "HQCA.Props.C56_mixed_spin",
    "HQCA.Props.C56_symmetric",
    "HQCA.Props.C56_two_body",
    "HQCA.Props.C56_two_body_exchange",
    "HQCA.Props.C56_two_body_symmetric",
    "HQCA.Props.C56_two_body_antisym",
    "HQCA.Props.hamOrbs_good"
   ],
   "note": "Literal nested loops with their temporary arrays; orbital-list hypotheses shown for every core/active/virtual split. Same-spin entries with a repeated index are left zero; no antisymmetrized integral changes."
  },
  {
   "property": "C57",
   "status": "proved",
   "theorems": [
    "HQCA.Props.C57_number",
    "HQCA.Props.C57_projected",
    "HQCA.Props.C57_plus",
    "HQCA.Props.C57_minus",
    "HQCA.Props.C57_partial_projected",
    "HQCA.Props.C57_out_of_range",
    "HQCA.Props.C57_total_spin",
    "HQCA.Props.C57_commute"
   ],
   "note": "All orbital lists; exactness of the products over C is proved, not assumed."
  },
  {
   "property": "C58",
   "status": "partial",
   "theorems": [
    "HQCA.Props.C58_symbolic_partial",
    "HQCA.Props.C58_symbolic_transposed",
    "HQCA.Props.C58_symbolic_differs"
   ],
   "note": "violated: the symbolic version returns the transpose; equal only for symmetric matrices"
  },
  {
   "property": "C59",
   "status": "proved",
   "theorems": [
    "HQCA.Props.C59_single",
    "HQCA.Props.C59_identities",
    "HQCA.Props.C59_controlled_not",
    "HQCA.Props.C59_Cz",
    "HQCA.Props.C59_Cy",
    "HQCA.Props.C59_Cxr",
    "HQCA.Props.C59_Cs",
    "HQCA.Props.C59_CRy",
    "HQCA.Props.C59_Ch1",
    "HQCA.Props.C59_Ch2",
    "HQCA.Props.C59_Sw",
    "HQCA.Props.C59_Fred",
    "HQCA.Props.C59_CCS",
    "HQCA.Props.C59_SRy",
    "HQCA.Props.C59_Sh"
   ],
   "note": ""
  },
  {
   "property": "C60",
   "status": "partial",
   "theorems": [
    "HQCA.Props.C60_trace_operator_partial",
    "HQCA.Props.C60_transposed"
   ],
   "note": "violated: transposed; also the accumulator is a real array"
  },
  {
   "property": "C61",
   "status": "proved",
   "theorems": [
    "HQCA.Props.C61_measurement",
    "HQCA.Props.C61_statevector",
    "HQCA.Props.C61_counts"
   ],
   "note": ""
  },
  {
   "property": "C62",
   "status": "partial",
   "theorems": [
    "HQCA.Props.C62_tomography_partial",
    "HQCA.Props.C62_fails_order1",
    "HQCA.Props.value_eq",
    "HQCA.Props.rdmeQub_spec"
   ],
   "note": "Proved for orders 2 and 3, and order 1 with imaginary part only, with Nb <= Na. Violated at order 1 with real=True: generate_rdme always raises IndexError on a diagonal element because FermiString shortened the index list."
  },
  {
   "property": "C63",
   "status": "partial",
   "theorems": [
    "HQCA.Props.C63_unchanged_partial",
    "HQCA.Props.C63_fails"
   ],
   "note": "Violated (witness for every index i); proved when the indices are distinct or not already sorted."
  },
  {
   "property": "C64",
   "status": "proved",
   "theorems": [
    "HQCA.Props.C64_decomposition"
   ],
   "note": "Three passes of the search always suffice."
  },
  {
   "property": "C65",
   "status": "partial",
   "theorems": [
    "HQCA.Props.C65_argument_partial",
    "HQCA.Props.C65_argument_changed"
   ],
   "note": "Violated for a closed ansatz: the stored object is the caller's and is cleaned in place (witness); proved otherwise."
  },
  {
   "property": "C66",
   "status": "partial",
   "theorems": [
    "HQCA.Props.C66_minimiser_partial",
    "HQCA.Props.C66_reversed"
   ],
   "note": "Holds for ordered brackets; for reversed brackets the code always returns the other stationary point (C66_reversed)."
  },
  {
   "property": "C67",
   "status": "partial",
   "theorems": [
    "HQCA.Props.C67_completes_partial",
    "HQCA.Props.C67_negative_curvature",
    "HQCA.Props.C67_noisy"
   ],
   "note": "Completes with non-negative curvature on simulators; negative curvature raises, and noisy backends always reject."
  },
  {
   "property": "C68",
   "status": "partial",
   "theorems": [
    "HQCA.Props.C68_truncation_partial",
    "HQCA.Props.C68_abs_keeps_partial",
    "HQCA.Props.C68_driver_raises"
   ],
   "note": "The routine keeps a descent direction when every index has its exchanged partner among the keys (involution, paired entries contribute equally; any sort order). Violated as used: the driver's keys never contain the exchanged index, so the truncation of any nonempty vector raises KeyError (C68_driver_raises)."
  },
  {
   "property": "C69",
   "status": "partial",
   "theorems": [
    "HQCA.Props.C69_criterion_stops",
    "HQCA.Props.C69_completes_partial",
    "HQCA.Props.C69_default_raises",
    "HQCA.Props.C69_depth_raises"
   ],
   "note": "Known criteria stop the run and never raise. The default value of the convergence type raises at the first check, and reaching the depth limit raises instead of ending the run (both proved as negations)."
  },
  {
   "property": "C70",
   "status": "partial",
   "theorems": [
    "HQCA.Props.C70_build_iff",
    "HQCA.Props.C70_build_partial"
   ],
   "note": "Only the quasi-Newton optimizer works: the others have not set an attribute that the driver reads, so building raises."
  },
  {
   "property": "C71",
   "status": "proved",
   "theorems": [
    "HQCA.Props.C71_forward_affine",
    "HQCA.Props.C71_quadratic",
    "HQCA.Props.C71_points"
   ],
   "note": ""
  },
  {
   "property": "C72",
   "status": "partial",
   "theorems": [
    "HQCA.Props.C72_molecular_raises"
   ],
   "note": "Violated: clean(1e-8) is a TypeError, the construction raises for every input."
  },
  {
   "property": "C73",
   "status": "partial",
   "theorems": [
    "HQCA.Props.C56_one_body_rerun",
    "HQCA.Props.C56_two_body_accumulates"
   ],
   "note": "One-body: holds. Two-body: violated, the new integrals are added to the old ones (exact statement proved)."
  },
  {
   "property": "C74",
   "status": "proved",
   "theorems": [
    "HQCA.Props.C74_residual",
    "HQCA.Props.C74_stationary",
    "HQCA.Props.C74_operator",
    "HQCA.Props.C74_descent",
    "HQCA.Props.C74_state",
    "HQCA.Props.C74_case"
   ],
   "note": "For any linear functional with definite particle number and symmetric 2-RDM, and for real states in particular; exact arithmetic."
  },
  {
   "property": "C75",
   "status": "proved",
   "theorems": [
    "HQCA.Props.C75_vector_operator",
    "HQCA.Props.C75_slope"
   ],
   "note": "Anti-Hermitian part of the generator carries the slope; the Hermitian part (kept by the code, whose subtraction of the adjoint is commented out) contributes zero to first order."
  },
  {
   "property": "C76",
   "status": "partial",
   "theorems": [
    "HQCA.Props.C76_circuit_partial",
    "HQCA.Props.C76_real_coefficient",
    "HQCA.Props.C76_real_fails",
    "HQCA.Props.C76_mixed_reuses"
   ],
   "note": "Holds for purely imaginary coefficients above the 1e-14 cut. Violated for real coefficients (exponentiated as if imaginary, which is not the exponential) and mixed ones (the previous term's angle is reused, or the run exits)."
  },
  {
   "property": "C77",
   "status": "proved",
   "theorems": [
    "HQCA.Props.C77_limit",
    "HQCA.Props.C77_states",
    "HQCA.Props.C77_residual"
   ],
   "note": "The measured expectation is the exact one (no sampling noise)."
  },
  {
   "property": "C78",
   "status": "proved",
   "theorems": [
    "HQCA.Props.C78_jordan_wigner",
    "HQCA.Props.C78_parity",
    "HQCA.Props.C78_bravyi_kitaev",
    "HQCA.Props.C78_initial",
    "HQCA.Props.C78_reference"
   ],
   "note": "The optional initial Clifford and initial transformation of the storage are not modelled. The circuit object itself cannot be created by the callers, see C80."
  },
  {
   "property": "C79",
   "status": "partial",
   "theorems": [
    "HQCA.Props.C79_clifford_partial",
    "HQCA.Props.C79_S_fails",
    "HQCA.Props.C79_identity_raises"
   ],
   "note": "Holds for the H and V labels. Violated: the S row of the table has a wrong sign, so that it is not a change of basis at all; strings with the letter I raise KeyError."
  },
  {
   "property": "C80",
   "status": "partial",
   "theorems": [
    "HQCA.Props.C80_gates_partial",
    "HQCA.Props.C80_swap_fails",
    "HQCA.Props.C80_set_raises",
    "HQCA.Props.C80_constructor"
   ],
   "note": "All methods but the swap. Violated: the swap appends nothing; every caller passes the keyword QuantStore, which the constructor does not accept, so preparing any nonempty circuit list raises TypeError."
  },
  {
   "property": "C81",
   "status": "proved",
   "theorems": [
    "HQCA.Props.C81_combine",
    "HQCA.Props.C81_defined",
    "HQCA.Props.C81_real_raises"
   ],
   "note": "Exact arithmetic; vectors shorter than 1e-14 but not zero are excluded (they are dropped). First operators with a real coefficient raise NameError, sin(c) = 0 divides by zero; both are outside the hypothesis of success."
  },
  {
   "property": "C82",
   "status": "partial",
   "theorems": [
    "HQCA.Props.C82_test_partial",
    "HQCA.Props.C82_emitted",
    "HQCA.Props.C82_gates_fail"
   ],
   "note": "The angles are right for plain Rz, Ry, Rz rotations, and this is what the test checks. Violated: the gates are emitted as Pauli exponentials, which rotate by minus twice the angle; except for amplitudes 1 and 1/2 the circuit is never the exponential. The search for the angles is C128."
  },
  {
   "property": "C83",
   "status": "proved",
   "theorems": [
    "HQCA.Props.C83_functions",
    "HQCA.Props.C83_state",
    "HQCA.Props.C83_raises"
   ],
   "note": "Plain orbital lists (no inactive orbitals), as get_spin_properties passes them. For one electron, or lists of different lengths, the code raises (C83_raises)."
  },
  {
   "property": "C84",
   "status": "partial",
   "theorems": [
    "HQCA.Props.C84_descent_partial",
    "HQCA.Props.C84_hs_descent",
    "HQCA.Props.C84_formulas_partial",
    "HQCA.Props.C84_hz_is_steepest",
    "HQCA.Props.C84_hz_violated",
    "HQCA.Props.C84_relaxed_uphill"
   ],
   "note": "Holds for FR, HS, PR, PR+ under the strong curvature condition. HZ reads undefined names and becomes steepest descent (C84_hz_violated); after the relaxed ending of the line search the direction can go uphill (C84_relaxed_uphill)."
  },
  {
   "property": "C85",
   "status": "partial",
   "theorems": [
    "HQCA.Props.C85_two_loop_partial",
    "HQCA.Props.C85_memory_one_partial",
    "HQCA.Props.C85_two_pairs_wrong",
    "HQCA.Props.C85_newest_ignored",
    "HQCA.Props.C85_newest_wrong"
   ],
   "note": "The first loop always uses the newest y vector: right only if the stored y agree (one pair), wrong and possibly uphill with two (C85_two_pairs_wrong). The newest pair is stored only after the direction is computed (C85_newest_ignored)."
  },
  {
   "property": "C86",
   "status": "partial",
   "theorems": [
    "HQCA.Props.C86_filter_partial",
    "HQCA.Props.C86_other_bases",
    "HQCA.Props.C86_value_partial",
    "HQCA.Props.C86_transforms",
    "HQCA.Props.C86_alternating_violated",
    "HQCA.Props.C86_parity",
    "HQCA.Props.C86_parity_spin",
    "HQCA.Props.C86_parity_ancilla"
   ],
   "note": "Proved for the default orbital ordering. With the alternating ordering the filter uses the wrong spin labels and discards even the reference determinant (C86_alternating_violated). Rounding to five decimals is exact arithmetic here; the variant for stabilizer-encoded circuits is C130."
  },
  {
   "property": "C87",
   "status": "partial",
   "theorems": [
    "HQCA.Props.C87_entries_partial",
    "HQCA.Props.C87_observables_partial",
    "HQCA.Props.C87_trace_partial",
    "HQCA.Props.C87_state",
    "HQCA.Props.C87_order_violated",
    "HQCA.Props.C87_all_raises",
    "HQCA.Props.C87_second_raises"
   ],
   "note": "Proved for ascending lists of distinct qubits, not all of them. Other orders remove the wrong qubits (C87_order_violated); tracing over all qubits raises; a second circuit applied to a state always raises (C87_second_raises)."
  },
  {
   "property": "C88",
   "status": "proved",
   "theorems": [
    "HQCA.Props.C88_operator",
    "HQCA.Props.C88_energy",
    "HQCA.Props.C88_qubit_operator"
   ],
   "note": "For an active space smaller than the full one the array addition in _build_K2 raises; not modelled. Two final coefficient thresholds appear as an error bound."
  },
  {
   "property": "C89",
   "status": "proved",
   "theorems": [
    "HQCA.Props.C89_parity_free"
   ],
   "note": "For coefficients that are Gaussian-integer multiples of one number large enough that cleaning at 1e-12 removes nothing; 1/sqrt(2) is exact."
  },
  {
   "property": "C90",
   "status": "proved",
   "theorems": [
    "HQCA.Props.C90_tapered_reference",
    "HQCA.Props.C90_parity_free"
   ],
   "note": "Jordan-Wigner as the underlying transform, at most 38 symmetries (beyond that the intermediate coefficients fall below the cleaning threshold); the state stands for the determinant up to a nonzero factor."
  },
  {
   "property": "C91",
   "status": "partial",
   "theorems": [
    "HQCA.Props.C91_diagonal_partial",
    "HQCA.Props.C91_violated"
   ],
   "note": "Proved for strings of number operators (p, h, i). Refuted for every single + or - on every register: the transform of such a string does not represent it. The branch for whole operators refers to a name that is not imported and raises NameError."
  },
  {
   "property": "C92",
   "status": "partial",
   "theorems": [
    "HQCA.Props.C92_para_fermion_partial",
    "HQCA.Props.C92_violated"
   ],
   "note": "Proved when + and - occur only at the first or last position. Refuted for every single + or - at an inner position: the sign string is put on the wrong orbitals."
  },
  {
   "property": "C93",
   "status": "partial",
   "theorems": [
    "HQCA.Props.C93_qubit_tomography_partial",
    "HQCA.Props.C93_fails_order1"
   ],
   "note": "Order 2 (all choices) and order 1 with imaginary parts only, not more beta than alpha orbitals, with the qubit transform. Refuted: order 1 with real parts raises for every system."
  },
  {
   "property": "C94",
   "status": "proved",
   "theorems": [
    "HQCA.Props.C94_amplitudes",
    "HQCA.Props.C94_values"
   ],
   "note": ""
  },
  {
   "property": "C95",
   "status": "proved",
   "theorems": [
    "HQCA.Props.C95_plan"
   ],
   "note": ""
  },
  {
   "property": "C96",
   "status": "partial",
   "theorems": [
    "HQCA.Props.C96_statevector_tomography_partial",
    "HQCA.Props.C96_nothing",
    "HQCA.Props.C80_set_raises",
    "HQCA.Props.C62_fails_order1"
   ],
   "note": "Orders 2 and 3 and order 1 with imaginary parts, not more beta than alpha orbitals, with circuits taken as created; explicit bound 2^N*1e-28. Missing, because the code fails there: order 1 with real parts (C62), order 4 and more beta orbitals (C27), and creating the circuits (C80)."
  },
  {
   "property": "C97",
   "status": "partial",
   "theorems": [
    "HQCA.Props.C97_singlet",
    "HQCA.Props.C97_singlet_real",
    "HQCA.Props.C97_round_trip",
    "HQCA.Props.C97_spatial",
    "HQCA.Props.C97_fails_order",
    "HQCA.Props.C97_fails_triplet",
    "HQCA.Props.C97_fails_complex"
   ],
   "note": "Proved for alpha orbitals numbered before beta orbitals; the construction keeps the real part, so it is exact for real blocks. Violated for other orbital orders, which the class accepts (C97_fails_order), and for complex blocks (C97_fails_complex). C97_fails_triplet shows that the singlet hypothesis, which the code does not check, is needed."
  },
  {
   "property": "C98",
   "status": "partial",
   "theorems": [
    "HQCA.Props.C98_cumulant",
    "HQCA.Props.C98_determinant_partial",
    "HQCA.Props.C98_few_electrons",
    "HQCA.Props.C98_fails_mixture"
   ],
   "note": "Cumulant proved for all states. Reconstruction proved for determinants and for fewer than three electrons. Violated in general: the product loses terms (C32), witness a mixture of two determinants where the expansion would be exact."
  },
  {
   "property": "C99",
   "status": "partial",
   "theorems": [
    "HQCA.Props.C99_iterates",
    "HQCA.Props.C99_descent_partial",
    "HQCA.Props.C99_converges_partial",
    "HQCA.Props.C99_rate",
    "HQCA.Props.C99_fails_best",
    "HQCA.Props.C99_fails_float"
   ],
   "note": "Proved for objectives returning numpy numbers: the iterates for all objectives; descent, end of the run with a bound on the steps, and geometric rate for step times smoothness constant below two. Violated otherwise: best value is the latest one and can grow at every step, even for a convex quadratic with the default step (C99_fails_best); an objective returning a plain float makes the first step raise (C99_fails_float)."
  }
 ]
}