{"id": "C01", "title": "Pauli product is the matrix product", "statement": "For two PauliStrings P, Q of the same length, P*Q is a PauliString whose operator (coefficient times tensor product of Pauli matrices) is the operator of P composed with the operator of Q, phase included.", "quantifier": "all lengths, all letter sequences, all complex coefficients", "why_tests_cant": "4^(2N) letter combinations for every N; the phase is computed from sums over the whole string so a cross-term error only shows on particular long strings", "anchors": ["hqca/operators/quantum_strings/_pauli_string.py:PauliString.__mul__", "hqca/operators/quantum_strings/_pauli_string.py:PauliString._construct"]}
{"id": "C02", "title": "Commutation tests are exact", "statement": "The tomography predicate commute(a,b) answers True exactly when the two Pauli operators commute, and qwc(a,b) answers True exactly when they commute qubit by qubit; qwc implies commute.", "quantifier": "all pairs of Pauli strings of equal length", "why_tests_cant": "the 'exactly when' direction must hold for unbounded N", "anchors": ["hqca/tomography/_reduce_circuit.py:qwc", "hqca/tomography/_reduce_circuit.py:commute"]}
{"id": "C03", "title": "Operator addition is linear", "statement": "A + B (string or Operator operand) represents the sum of the two operators; the result holds at most one term per string; only terms of magnitude <= 1e-12 may be dropped.", "quantifier": "all operators with any number of terms, any coefficients, any insertion order", "why_tests_cant": "arbitrary collision patterns between the two term dictionaries", "anchors": ["hqca/operators/_operator.py:Operator.__add__", "hqca/operators/_operator.py:Operator.clean"]}
{"id": "C04", "title": "Operator multiplication is composition", "statement": "A * B for Pauli (or fermionic, or qubit) operators represents the composition of A and B up to terms of magnitude <= 1e-12, for every pair of operators.", "quantifier": "all pairs of operators", "why_tests_cant": "collisions and cancellations in the double loop depend on both operands", "anchors": ["hqca/operators/_operator.py:Operator.__mul__"]}
{"id": "C05", "title": "Operator subtraction computes A-B and leaves B alone", "statement": "A - B represents A minus B, and evaluating it does not change what B represents, including when A and B share strings or are the same object.", "quantifier": "all operators A, B, all sharing patterns", "why_tests_cant": "depends on object aliasing built up by the earlier history of additions", "anchors": ["hqca/operators/_operator.py:Operator.__sub__", "hqca/operators/_operator.py:Operator.__add__"]}
{"id": "C06", "title": "Aliasing safety of accumulated operators", "statement": "Adding an operator's terms into another operator never lets later additions to one of the two change the other; only subtraction may.", "quantifier": "all histories of additions/subtractions over any number of operators", "why_tests_cant": "needs every history of mutating operations on a shared heap", "anchors": ["hqca/operators/_operator.py:Operator.__add__", "hqca/operators/_operator.py:Operator.__sub__"]}
{"id": "C07", "title": "Commutator", "statement": "A.commutator(B) represents AB-BA, including B being A itself, and changes neither A nor B.", "quantifier": "all pairs of operators", "why_tests_cant": "interaction of fresh/shared string objects and in-place negation", "anchors": ["hqca/operators/_operator.py:Operator.commutator"]}
{"id": "C08", "title": "Cleaning only drops negligible terms", "statement": "clean() keeps every term with |c|>1e-12 unchanged and in order, is idempotent, and the removed part of the operator has every coefficient bounded by 1e-12.", "quantifier": "all operators", "why_tests_cant": "all coefficient patterns", "anchors": ["hqca/operators/_operator.py:Operator.clean"]}
{"id": "C09", "title": "Fermionic strings normal-order correctly", "statement": "FermiString(coeff, indices, ops, N) represents coeff times the product, in the given order, of the creation/annihilation/particle/hole operators named by ops at indices, with the correct fermionic sign and zero exactly when it is reported zero.", "quantifier": "all N, all index lists (repeated indices allowed) and all ops words over + - p h", "why_tests_cant": "sign bookkeeping over arbitrary permutations and repeated indices", "anchors": ["hqca/operators/quantum_strings/_fermi_string.py:FermiString._generate_from_sq"]}
{"id": "C10", "title": "Fermionic string product", "statement": "FermiString * FermiString represents the composition of the two fermionic operators.", "quantifier": "all pairs of strings", "why_tests_cant": "unbounded strings; depends on sorting and contraction loops", "anchors": ["hqca/operators/quantum_strings/_fermi_string.py:FermiString.__mul__"]}
{"id": "C11", "title": "Conjugate transpose", "statement": "FermiString.H() represents the adjoint of the operator.", "quantifier": "all strings and coefficients", "why_tests_cant": "unbounded strings", "anchors": ["hqca/operators/quantum_strings/_fermi_string.py:FermiString.H", "hqca/operators/quantum_strings/_fermi_string.py:conj_transpose"]}
{"id": "C12", "title": "D-matrix ordering preserves the operator", "statement": "order_as_D_matrix() terminates and the returned terms (coefficient, indices, ops) sum to the original operator, with all creation operators left of annihilation operators.", "quantifier": "all fermionic strings", "why_tests_cant": "termination and sign correctness over all strings", "anchors": ["hqca/operators/quantum_strings/_fermi_string.py:FermiString.order_as_D_matrix"]}
{"id": "C13", "title": "Qubit strings", "statement": "QubitString construction and multiplication represent the product of single-qubit ladder/projector operators (no fermionic sign).", "quantifier": "all strings and index lists", "why_tests_cant": "unbounded strings", "anchors": ["hqca/operators/quantum_strings/_qubit_string.py:QubitString._generate_from_sq", "hqca/operators/quantum_strings/_qubit_string.py:QubitString.__mul__"]}
{"id": "C14", "title": "Jordan-Wigner is exact", "statement": "JordanWigner applied to any FermiString gives a Pauli operator with the same action on every occupation-number state as the fermionic operator.", "quantifier": "all N, all strings over i + - p h, all coefficients", "why_tests_cant": "exponential number of strings; sign strings depend on all positions", "anchors": ["hqca/transforms/_jordan_wigner.py:JordanWigner"]}
{"id": "C15", "title": "Operator.transform is a linear homomorphism", "statement": "A.transform(JordanWigner) represents the same operator as A; hence products and sums can be taken before or after transforming.", "quantifier": "all fermionic operators", "why_tests_cant": "all term sets, collisions between images", "anchors": ["hqca/operators/_operator.py:Operator.transform", "hqca/transforms/_jordan_wigner.py:JordanWigner"]}
{"id": "C16", "title": "Parity mapping is faithful", "statement": "Parity applied to a fermionic string is the same operator seen through the parity encoding of occupations.", "quantifier": "all N, all strings", "why_tests_cant": "exponentially many strings", "anchors": ["hqca/transforms/_parity.py:Parity"]}
{"id": "C17", "title": "Bravyi-Kitaev mapping is faithful", "statement": "BravyiKitaev applied to a fermionic string is the same operator seen through the Bravyi-Kitaev encoding of occupations.", "quantifier": "all N, all strings", "why_tests_cant": "exponentially many strings; recursive index sets", "anchors": ["hqca/transforms/_bravyi_kitaev.py:BravyiKitaev"]}
{"id": "C18", "title": "Inverse Jordan-Wigner round trip", "statement": "InverseJordanWigner of a Pauli string is a fermionic operator with the same action; JordanWigner after it returns the original.", "quantifier": "all Pauli strings of all lengths", "why_tests_cant": "exponentially many strings", "anchors": ["hqca/transforms/_inverse_jordan_wigner.py:InverseJordanWigner"]}
{"id": "C19", "title": "Qubit mapping", "statement": "Qubit transform of a QubitString, alone or inside an Operator via transform, is a Pauli operator with the same action on every computational basis state.", "quantifier": "all qubit strings", "why_tests_cant": "exponentially many strings", "anchors": ["hqca/transforms/_qubit.py:Qubit", "hqca/transforms/_qubit.py:QubitTransform"]}
{"id": "C20", "title": "Qubit tapering preserves the sector", "statement": "For an operator whose strings all act as I or a fixed Pauli on the tapered qubits, trimming with the eigenvalue substitution gives the restriction of the operator to that eigenspace.", "quantifier": "all operators, all qubit lists, all sectors", "why_tests_cant": "all operators and sectors", "anchors": ["hqca/transforms/_functions.py:trim_operator", "hqca/transforms/_functions.py:modify"]}
{"id": "C21", "title": "Clifford basis change used for tapering", "statement": "The unitary built from a symmetry generator tau and X_q, U=(tau+X_q)/sqrt2, is Hermitian, unitary and exchanges tau with X_q whenever tau anticommutes with X_q.", "quantifier": "all Pauli strings tau and qubits q", "why_tests_cant": "all strings", "anchors": ["hqca/transforms/_functions.py:get_transform_from_symmetries", "hqca/transforms/_functions.py:change_basis"]}
{"id": "C22", "title": "Matrix/operator round trip", "statement": "operator_to_matrix(matrix_to_pauli(M)) = M for every 2^n x 2^n matrix whose nonzero entries exceed 1e-8, and matrix_to_qubit represents M.", "quantifier": "all n and all matrices", "why_tests_cant": "all sizes and entries", "anchors": ["hqca/tools/_operator_tools.py:matrix_to_qubit", "hqca/tools/_operator_tools.py:matrix_to_pauli", "hqca/tools/_operator_tools.py:operator_to_matrix"]}
{"id": "C23", "title": "Partial trace", "statement": "Partial trace over a set of qubits of a matrix is the partial trace: entries are sums over the traced indices, total trace is preserved, it does not depend on order of qb, and it maps tensor products A(x)B to tr(B)A.", "quantifier": "all n, all qubit subsets, all matrices", "why_tests_cant": "all subsets and sizes", "anchors": ["hqca/tools/_operator_tools.py:_partial_trace_matrix"]}
{"id": "C24", "title": "Partial trace of Pauli operators", "statement": "PauliString.partial_trace(qb) represents the partial trace of its operator divided by the dimension of the traced space (normalised convention): non-identity letters on traced qubits give zero, otherwise the remaining letters and coefficient are kept.", "quantifier": "all Pauli strings and qubit sets", "why_tests_cant": "all subsets", "anchors": ["hqca/operators/quantum_strings/_pauli_string.py:PauliString.partial_trace", "hqca/tools/_operator_tools.py:_partial_trace_operator"]}
{"id": "C25", "title": "Measurement grouping is complete and sound", "statement": "simplify_tomography assigns every requested Pauli string to exactly one measured basis, and each string is recoverable from its assigned measurement (agrees with it or is I on every qubit).", "quantifier": "all lists of Pauli strings, both grouping relations, all colouring outcomes", "why_tests_cant": "graph-colouring heuristics over arbitrary inputs", "anchors": ["hqca/tomography/_reduce_circuit.py:simplify_tomography", "hqca/tomography/_reduce_circuit.py:construct_simple_graph"]}
{"id": "C26", "title": "Expectation value from counts", "statement": "The expectation value of a Pauli string computed from a counts dictionary is the mean of the product of +-1 outcomes on its non-identity qubits; it lies in [-1,1]; I gives 1; merging or splitting count records does not change it.", "quantifier": "all count tables with positive total, all strings", "why_tests_cant": "all count tables", "anchors": ["hqca/processes/_process_counts.py:StandardProcess"]}
{"id": "C27", "title": "Unique RDM elements are complete", "statement": "The list of RDM elements requested for tomography contains, for every spin-conserving element of the RDM, exactly one representative under antisymmetry and hermiticity.", "quantifier": "all orbital counts and orders 1..4", "why_tests_cant": "enumeration over all basis sizes", "anchors": ["hqca/tomography/_tomography.py:_generate_1rdme", "hqca/tomography/_tomography.py:_generate_2rdme", "hqca/tomography/_tomography.py:_generate_3rdme", "hqca/tomography/_tomography.py:_generate_4rdme"]}
{"id": "C28", "title": "RDM filling gives an antisymmetric Hermitian tensor", "statement": "Filling an RDM from measured unique elements yields a tensor that is antisymmetric in creation and annihilation indices and Hermitian.", "quantifier": "all measured values, all orders and sizes", "why_tests_cant": "all values and sizes", "anchors": ["hqca/tomography/_tomography.py:_build_fermionic_RDM", "hqca/tools/rdm/_functions.py:Recursive"]}
{"id": "C29", "title": "Signed permutations", "statement": "The permutation generator used for RDM antisymmetry lists every permutation of its input once with the sign of the permutation.", "quantifier": "all lists", "why_tests_cant": "all lengths; error only appears at some length", "anchors": ["hqca/tools/rdm/_functions.py:Recursive.permute", "hqca/tools/rdm/_functions.py:Recursive.unordered_permute"]}
{"id": "C30", "title": "Hartree-Fock RDM", "statement": "The Hartree-Fock RDM of order p has trace N!/(N-p)!, is antisymmetric, and contracting it gives (N-p+1) times the order p-1 RDM.", "quantifier": "all occupations and orders", "why_tests_cant": "all sizes", "anchors": ["hqca/tools/rdm/_spin_rdm.py:RDM._build_hf_spin", "hqca/tools/rdm/_spin_rdm.py:RDM.reduce_order"]}
{"id": "C31", "title": "RDM contraction is consistent", "statement": "reduce_order of a p-RDM has trace equal to that of the p-RDM divided by (N-p+1), and reducing preserves antisymmetry and hermiticity.", "quantifier": "all tensors", "why_tests_cant": "all tensors", "anchors": ["hqca/tools/rdm/_spin_rdm.py:RDM.reduce_order"]}
{"id": "C32", "title": "Wedge product", "statement": "The RDM wedge product is the antisymmetrised tensor product: bilinear, graded commutative for RDMs, with no lost terms.", "quantifier": "all tensors and orders", "why_tests_cant": "all tensors", "anchors": ["hqca/tools/rdm/_spin_rdm.py:RDM.__mul__"]}
{"id": "C33", "title": "contract/expand round trip", "statement": "RDM.contract followed by expand returns the same tensor, and matrix index layout groups creation and annihilation indices.", "quantifier": "all orders, sizes and tensors", "why_tests_cant": "all shapes", "anchors": ["hqca/tools/rdm/_spin_rdm.py:RDM.contract", "hqca/tools/rdm/_spin_rdm.py:RDM.expand"]}
{"id": "C34", "title": "Stabilizer elimination", "statement": "Gaussian elimination over GF(2) of a check matrix keeps its row space and produces an echelon form.", "quantifier": "all binary matrices", "why_tests_cant": "all matrices", "anchors": ["hqca/tools/_stabilizer.py:Stabilizer.gaussian_elimination"]}
{"id": "C35", "title": "Symmetry generators commute with the Hamiltonian", "statement": "Every symmetry generator reported by the stabilizer search commutes with every term of the operator it was built from.", "quantifier": "all Pauli operators", "why_tests_cant": "all operators", "anchors": ["hqca/tools/_stabilizer.py:Stabilizer.find_symmetry_generators"]}
{"id": "C36", "title": "Check-matrix round trip", "statement": "Converting a Pauli list to binary check vectors and back returns the same strings, and symplectic product of check vectors decides commutation.", "quantifier": "all Pauli strings", "why_tests_cant": "all strings", "anchors": ["hqca/tools/_stabilizer.py:Stabilizer._pauli_to_check", "hqca/tools/_stabilizer.py:Stabilizer._check_to_pauli"]}
{"id": "C37", "title": "Pauli gadget", "statement": "The circuit emitted for a Pauli string P and angle val implements exp(i*val*P) for every string and angle.", "quantifier": "all strings and angles", "why_tests_cant": "continuous angles, all strings", "anchors": ["hqca/core/primitives/_pauli_strings.py:pauli_gadget"]}
{"id": "C38", "title": "Direct application of a Pauli string", "statement": "apply_pauli_string emits a circuit acting as the Pauli string, up to a global phase.", "quantifier": "all strings", "why_tests_cant": "all strings", "anchors": ["hqca/core/primitives/_pauli_strings.py:apply_pauli_string"]}
{"id": "C39", "title": "Ansatz accumulation conserves generators", "statement": "Adding an operator O to an Ansatz gives an ansatz in which the total coefficient of every term is the old total plus O's coefficient (terms below 1e-12 aside); the original ansatz is unchanged; layers deeper than the allowed depth are not touched; at most one layer is added.", "quantifier": "all ansatz histories, all closed settings <= 1, all operators", "why_tests_cant": "all histories of additions", "anchors": ["hqca/acse/_ansatz_S.py:Ansatz.__add__", "hqca/acse/_ansatz_S.py:Ansatz.clean"]}
{"id": "C40", "title": "ACSE loop bookkeeping and termination", "statement": "The ACSE driver performs at most max_iter iterations (max_iter>0), its recorded best energy is the minimum of all energies recorded so far, and it stops after the third energy increase.", "quantifier": "all energy sequences and settings", "why_tests_cant": "all histories of energies", "anchors": ["hqca/acse/acse.py:RunACSE._check", "hqca/acse/acse.py:RunACSE.run"]}
{"id": "C41", "title": "Generator truncation", "statement": "Relative truncation of the ACSE generator keeps exactly the terms with |c| >= threshold*max|c|, so the largest term is always kept for thresholds <= 1.", "quantifier": "all generators and thresholds", "why_tests_cant": "all coefficient patterns", "anchors": ["hqca/acse/acse.py:RunACSE._get_A"]}
{"id": "C42", "title": "Newton step", "statement": "The finite-difference Newton step is exact on quadratic energies: the derivative estimates equal the true ones and the step lands on the stationary point when curvature is positive; the trust ratio is then 1.", "quantifier": "all quadratics, all step sizes", "why_tests_cant": "real-valued inputs", "anchors": ["hqca/acse/_newton_acse.py"]}
{"id": "C43", "title": "Line search returns a Wolfe point", "statement": "When the ACSE line search reports success, the reported energy is the energy at the reported step and the step satisfies the Wolfe conditions.", "quantifier": "all objective functions", "why_tests_cant": "all objective functions and all iteration histories", "anchors": ["hqca/acse/_line_search_acse.py:line_search_nocedal"]}
{"id": "C44", "title": "Interpolation steps", "statement": "Quadratic interpolation returns the minimiser of the parabola through (a, f, f') and (b, f); cubic interpolation returns a stationary point of the Hermite cubic.", "quantifier": "all real data with positive curvature", "why_tests_cant": "real-valued inputs", "anchors": ["hqca/acse/_line_search_acse.py"]}
{"id": "C45", "title": "BFGS updates", "statement": "The BFGS update satisfies the secant equation, keeps the matrix symmetric, keeps B and its inverse approximation inverse to each other, and keeps positive definiteness whenever s.y>0.", "quantifier": "all dimensions, matrices, steps", "why_tests_cant": "all histories of updates", "anchors": ["hqca/opts/gradient/bfgs.py:BFGS", "hqca/acse/_bfgs_acse.py"]}
{"id": "C46", "title": "Optimizer BFGS line search", "statement": "The BFGS optimizer's line search terminates and any step it returns satisfies the strong Wolfe conditions it tests.", "quantifier": "all objective functions", "why_tests_cant": "termination over all objectives", "anchors": ["hqca/opts/gradient/bfgs.py:BFGS._line_search"]}
{"id": "C47", "title": "Nelder-Mead monotone best", "statement": "Along any run of Nelder-Mead the best value never increases, the simplex keeps n+1 points with cached values equal to the objective at those points, and ordering the simplex yields a sorted permutation.", "quantifier": "all objectives, dimensions, runs", "why_tests_cant": "all objectives and all histories", "anchors": ["hqca/opts/simplex/neldermead.py:NelderMead.order_points", "hqca/opts/simplex/neldermead.py:NelderMead.next_step"]}
{"id": "C48", "title": "Backtracking and bisection line searches", "statement": "Backtracking returns a step satisfying the Armijo test; the bisecting search never increases the function value at its left end and halves its bracket each step.", "quantifier": "all objectives", "why_tests_cant": "all objectives", "anchors": ["hqca/opts/gradient/linesearch.py"]}
{"id": "C49", "title": "VQE iteration cap and best tracking", "statement": "RunVQE stops after max_iter iterations at the latest and the stored best energy is the lowest energy evaluated.", "quantifier": "all energy sequences", "why_tests_cant": "all histories", "anchors": ["hqca/vqe/vqe.py:RunVQE"]}
{"id": "C50", "title": "UCC excitations", "statement": "getUCCAnsatz lists each spin-conserving single and double excitation from occupied to virtual orbitals exactly once, and the generator assembled for any parameters is anti-Hermitian.", "quantifier": "all orbital partitions and parameters", "why_tests_cant": "all sizes", "anchors": ["hqca/vqe/_ucc.py:getUCCAnsatz", "hqca/vqe/_ansatz.py:VariationalAnsatz.assign"]}
{"id": "C51", "title": "Reduced Hamiltonian energy", "statement": "For an N-electron 2-RDM (N>=2), the energy from the reduced Hamiltonian matrix equals one-body energy with the contracted 1-RDM plus two-body energy.", "quantifier": "all integrals, all 2-RDMs with consistent contraction", "why_tests_cant": "all integrals and RDMs", "anchors": ["hqca/hamiltonian/molecular.py:MolecularHamiltonian._build_K2", "hqca/hamiltonian/fermionic.py:FermionicHamiltonian._build_K2"]}
{"id": "C52", "title": "Matrix and qubit forms of the Hamiltonian agree", "statement": "The qubit operator of a molecular Hamiltonian gives, in every state, the same energy as its reduced-Hamiltonian matrix, including with a frozen core.", "quantifier": "all integrals, active spaces, states", "why_tests_cant": "all integrals", "anchors": ["hqca/hamiltonian/molecular.py:MolecularHamiltonian._build_operator", "hqca/hamiltonian/molecular.py:MolecularHamiltonian._build_K2"]}
{"id": "C53", "title": "Measurement filter refresh period", "statement": "With refresh frequency f>=1 the measurement-error filter is recalibrated exactly on every f-th use and reused otherwise.", "quantifier": "all usage histories and frequencies", "why_tests_cant": "all histories", "anchors": ["hqca/storage/_quantum_storage.py:QuantumStorage"]}
{"id": "C54", "title": "Gradients of the built-in test objectives", "statement": "The gradient functions supplied with the optimizer test objectives are the gradients of those objectives.", "quantifier": "all points", "why_tests_cant": "real-valued inputs", "anchors": ["hqca/opts/functions/_functions.py"]}
{"id": "C55", "title": "Optimizer driver ends", "statement": "Optimizer.run ends with a defined status: on convergence, on error, or when the iteration limit is hit; an error in a step never leads to an endless loop.", "quantifier": "all optimizer behaviours", "why_tests_cant": "all histories of step outcomes", "anchors": ["hqca/opts/opt.py:Optimizer"]}
{"id": "C56", "title": "Spin-orbital integrals", "statement": "Expanding spatial one- and two-electron integrals to spin orbitals is a basis rotation that keeps spin blocks separate: mixed-spin one-body entries vanish and the transformation of a symmetric matrix stays symmetric.", "quantifier": "all integrals and rotations", "why_tests_cant": "all matrices", "anchors": ["hqca/tools/_chemistry.py:generate_spin_1ei", "hqca/tools/_chemistry.py:generate_spin_2ei"]}
{"id": "C57", "title": "Spin operators", "statement": "The projected-spin, number and total-spin operators built as fermionic strings act as the physical operators: number counts particles, Sz is half the spin difference, S^2 = S-S+ + Sz(Sz+1), and they commute with each other.", "quantifier": "all N", "why_tests_cant": "all sizes", "anchors": ["hqca/tools/_fermionic_operators.py"]}
{"id": "C58", "title": "Symbolic partial trace", "statement": "partial_trace of a symbolic matrix equals the partial trace of the same numeric matrix.", "quantifier": "all n, all qubit subsets, all matrices", "why_tests_cant": "all subsets, sizes and (non-symmetric) entries", "anchors": ["hqca/tools/_operator_tools.py:_partial_trace_symbolic_matrix"]}
{"id": "C59", "title": "Circuit gates", "statement": "Each Circ method multiplies the circuit matrix by the gate it names: Cx/Toff/Toff4 flip the target where all controls are 1; Cy, Cz, Cs, CRy, Ch (both versions) are controlled Y, Z, S, Ry, H; Sw, Fred, CCS are (controlled) swaps; SRy is a number-conserving rotation.", "quantifier": "all register sizes, all distinct qubits, all angles, all preceding circuits", "why_tests_cant": "all sizes, positions and real angles", "anchors": ["hqca/tools/_gates.py:Circ"]}
{"id": "C60", "title": "Circuit trace_operator", "statement": "Circ.trace_operator(qb) is the partial trace over qb of the circuit's matrix divided by 2^len(qb).", "quantifier": "all sizes, qubit subsets and circuits", "why_tests_cant": "all subsets and matrices", "anchors": ["hqca/tools/_gates.py:Circ.trace_operator"]}
{"id": "C61", "title": "Measured expectation values", "statement": "After the basis-change gates of the basis assigned to a Pauli string, the value computed from the state vector (or from counts proportional to the outcome probabilities) is the expectation value of that string in the prepared state.", "quantifier": "all states, all lists of Pauli strings of the register length, all colourings, all assigned strings", "why_tests_cant": "quantifies over all states and all groupings", "anchors": ["hqca/core/primitives/_pauli_strings.py:pauliOp", "hqca/tomography/_tomography.py:StandardTomography.set", "hqca/processes/_process_counts.py:StandardProcess", "hqca/tomography/_reduce_circuit.py:simplify_tomography"]}
{"id": "C62", "title": "Tomography returns the state's RDM", "statement": "Running StandardTomography of order p against a processor that returns exact Pauli expectation values of a normalised state with a fixed number of alpha electrons yields, at every index, the reduced density matrix element of that state (or its real part, or i times its imaginary part, as requested).", "quantifier": "all states, all orbital numbers, orders 1 to 4, all flag settings, all tensor indices", "why_tests_cant": "tests can only compare a few states; the claim covers every state, system size and index and involves the generation, transform, measurement and filling stages together", "anchors": ["hqca/tomography/_tomography.py:generate_rdme", "hqca/tomography/_tomography.py:StandardTomography", "hqca/operators/quantum_strings/_fermi_string.py:FermiString"]}
{"id": "C63", "title": "Building a FermiString leaves the caller's index list alone", "statement": "FermiString(coeff, indices, ops, N) does not modify the list passed as indices.", "quantifier": "all index lists and operator words", "why_tests_cant": "the list is only modified when it is already sorted and has a repeated index, so sampled tests miss it; the claim is about every word", "anchors": ["hqca/operators/quantum_strings/_fermi_string.py:FermiString._generate_from_sq", "hqca/tomography/_tomography.py:generate_rdme"]}
{"id": "C64", "title": "Stabilizer decomposition of the terms", "statement": "After elimination every term of the collection is listed with strings from the reduced set whose product, in the listed order, equals the listed coefficient times the term; the search for them always stops.", "quantifier": "all nonempty collections of Pauli strings of one length, all terms in them", "why_tests_cant": "the search loop revisits positions it has already cleared, so neither its termination nor its result follows from examples", "anchors": ["hqca/tools/_stabilizer.py:Stabilizer.gaussian_elimination"]}
{"id": "C65", "title": "Growing an ansatz leaves the added operator unchanged", "statement": "Adding an operator to an ansatz does not change the operator the caller passed in: its terms and coefficients are the same after the addition.", "quantifier": "all ansatz states, all operators, all settings of the closed parameter", "why_tests_cant": "the change happens only for terms below 1e-12 in a closed ansatz; the caller's object is rarely inspected afterwards", "anchors": ["hqca/acse/_ansatz_S.py:Ansatz.__add__", "hqca/acse/_ansatz_S.py:Ansatz.clean"]}
{"id": "C66", "title": "Cubic interpolation picks the minimiser", "statement": "The cubic interpolation step of the ACSE line search returns the minimiser of the interpolating cubic whenever that minimiser lies inside the bracket, whichever end of the bracket is the better one.", "quantifier": "all cubics, all brackets in either orientation", "why_tests_cant": "Depends on the orientation of the bracket and the sign of the curvature at each root; tests see one trajectory.", "anchors": ["hqca/acse/_line_search_acse.py:_cubic_interpolate"]}
{"id": "C67", "title": "Newton step always completes", "statement": "The trust-region Newton step of the ACSE completes on every backend: with non-negative curvature it appends the residual with a coefficient inside the trust region, and with negative curvature it still returns.", "quantifier": "all energy functions, settings and backends", "why_tests_cant": "Needs every sign of curvature and every backend type; tests run a convex case on the simulator.", "anchors": ["hqca/acse/_newton_acse.py:_newton_step"]}
{"id": "C68", "title": "Truncation of the search vector keeps a descent direction", "statement": "Truncating a search vector of the ACSE sets entries to zero only in index-exchanged pairs and only below the threshold, leaves all other entries unchanged, does not fail, and a direction that was a descent direction stays one.", "quantifier": "all vectors, gradients, thresholds, both truncation methods and all processing orders", "why_tests_cant": "real-valued inputs; the guard depends on the running partial sums", "anchors": ["hqca/acse/_tools_acse.py:truncation"]}
{"id": "C69", "title": "Stopping settings of the ACSE driver end the run", "statement": "The convergence type and the depth limit of the ACSE driver end the run when they are met and do not make it fail; this includes the default value of the convergence type.", "quantifier": "all settings and histories", "why_tests_cant": "all histories of energies and settings", "anchors": ["hqca/acse/acse.py:RunACSE._check"]}
{"id": "C70", "title": "VQE driver starts with the supported optimizers", "statement": "A VQE driver can be built with each of the deterministic parameter optimizers the library offers, and after building it is unfinished with the energy of the start point logged.", "quantifier": "all optimizers, start points and energies evaluated", "why_tests_cant": "depends on which attributes each optimizer sets before its first step", "anchors": ["hqca/vqe/vqe.py:RunVQE.build", "hqca/opts/opt.py:Optimizer"]}
{"id": "C71", "title": "Finite-difference gradient of the VQE energy", "statement": "The gradient supplied to the optimizer is exact for energies affine in each parameter (forward differences) or quadratic in each parameter (central differences), and evaluates the energy only at points differing from the argument by the step in one parameter.", "quantifier": "all energy functions, points, step sizes, number of parameters", "why_tests_cant": "real-valued inputs", "anchors": ["hqca/vqe/vqe.py:RunVQE.__test_vqe_gradient"]}
{"id": "C72", "title": "Molecular Hamiltonian operators", "statement": "Constructing a molecular Hamiltonian with operators requested yields its fermionic and qubit operators without raising.", "quantifier": "all integrals, transforms and thresholds", "why_tests_cant": "every molecule and transform; needs pyscf to run", "anchors": ["hqca/hamiltonian/molecular.py:MolecularHamiltonian._build_operator", "hqca/operators/_operator.py:Operator.clean"]}
{"id": "C73", "title": "Re-expanding integrals after an orbital rotation", "statement": "Expanding spatial integrals for the active space onto an existing array of spin-orbital integrals replaces the old values by those of the new rotation.", "quantifier": "all integrals, rotations, orbital lists, existing arrays", "why_tests_cant": "all matrices and rotations", "anchors": ["hqca/tools/_chemistry.py:generate_spin_1ei", "hqca/tools/_chemistry.py:generate_spin_2ei"]}
{"id": "C74", "title": "ACSE residual is the commutator with the Hamiltonian", "statement": "The residual entries the classical ACSE solver computes from the 2- and 3-particle density matrices equal the expectation value of the commutator of the two-body excitation with the Hamiltonian; they vanish for an eigenstate; and the operator built from them lowers the energy to first order by the sum of their squares.", "quantifier": "every number of orbitals, every real state with a definite particle number other than 1, every symmetric set of integrals, every entry, every significance filter", "why_tests_cant": "An identity between multi-index contractions over all states and integrals; a test compares a few molecules.", "anchors": ["hqca/acse/_class_A_acse.py:solvecACSE", "hqca/acse/_tools_acse.py:vector_to_operator", "hqca/hamiltonian/fermionic.py"]}
{"id": "C75", "title": "Compact search vector and its generator agree", "statement": "For the vector form used by the quasi-Newton and conjugate-gradient ACSE steps, the first-order energy change along the generator built from a vector is the inner product of the vector with the reported gradient (up to the fixed factor 4).", "quantifier": "every list of index keys, every real vector, every state and Hamiltonian as in C74", "why_tests_cant": "A linear identity over all vectors, states and integrals; step-size bugs from a wrong factor only show as slow convergence.", "anchors": ["hqca/acse/_tools_acse.py", "hqca/acse/_class_A_acse.py"]}
{"id": "C76", "title": "Ansatz circuit implements the product of exponentials", "statement": "The circuit generated for an ansatz operator is, up to global phase, the product of the exponentials of its terms in order.", "quantifier": "every qubit operator (list of Pauli strings with complex coefficients), every number of qubits", "why_tests_cant": "Equality of unitaries for all angles and strings; simulation samples a few and ignores the class of the coefficient.", "anchors": ["hqca/instructions/_instruct_pauli.py:PauliSet"]}
{"id": "C77", "title": "Quantum residual tends to the classical one", "statement": "The residual measured by propagating with the Hamiltonian for a short time and dividing the imaginary part by the time step tends to the residual of the classical solver as the step goes to zero.", "quantifier": "every qubit Hamiltonian with real coefficients representing the integrals, every real state with definite particle number, any number of Trotter steps, every entry", "why_tests_cant": "A limit; any test uses a finite step and a tolerance.", "anchors": ["hqca/acse/_class_A_acse.py", "hqca/instructions/_instruct_pauli.py:_applyH", "hqca/processes/_simulate_iterative_unitary.py"]}
{"id": "C78", "title": "The reference circuit prepares the encoded determinant", "statement": "For a list of occupied spin orbitals, the preparation circuit turns the all-zero register into the basis state that encodes exactly this determinant, up to a global phase, in the Jordan-Wigner, parity and Bravyi-Kitaev encodings; the list the storage builds from the electron counts is duplicate-free and in range.", "quantifier": "every number of qubits, every list of distinct orbitals in range, all three encodings, both orbital orderings and all electron counts that fit", "why_tests_cant": "The state has 2^N amplitudes and the encoded bit pattern depends on all occupied orbitals; tests look at a few molecules.", "anchors": ["hqca/storage/_quantum_storage.py:set_algorithm", "hqca/tomography/_tomography.py:StandardTomography.set"]}
{"id": "C79", "title": "Clifford conjugation of an operator matches the circuit", "statement": "Applying a list of single-qubit Clifford labels to an operator gives the operator conjugated by the circuit the primitive appends for the same labels.", "quantifier": "every operator, every list of labels of the right length", "why_tests_cant": "An identity between a table lookup and a unitary conjugation for all strings; a test compares one or two labels.", "anchors": ["hqca/operators/_operator.py:Operator.clifford", "hqca/core/primitives/_pauli_strings.py:apply_clifford_operation"]}
{"id": "C80", "title": "Circuit objects offer the gates they name and can be created by their users", "statement": "Each gate method of the generic circuit appends, up to a global phase, the gate its name says; and the tomography objects can create the circuits they need.", "quantifier": "every method, qubit and angle; every nonempty list of circuits to prepare", "why_tests_cant": "Equality of unitaries for all angles; the constructor call is only reached with the circuit library present.", "anchors": ["hqca/core/_circuit.py:GenericCircuit", "hqca/tomography/_tomography.py:set", "hqca/tomography/_qubit_tomography.py:set"]}
{"id": "C81", "title": "Combining two one-qubit exponents gives the exponent of the product", "statement": "The operator obtained by combining two one-qubit operators (with scale factors) exponentiates to the product of the two exponentials, the first operator acting first.", "quantifier": "every pair of one-qubit operators with imaginary coefficients for which the combination does not stop, every pair of real scale factors", "why_tests_cant": "An identity over all pairs of axes and angles built from inverse trigonometric functions; tests sample axes.", "anchors": ["hqca/instructions/_instruct_exact_unitary.py:SingleQubitExponential._combine_xyz_abc_rotation"]}
{"id": "C82", "title": "The exact one-qubit instruction implements the exponential", "statement": "The circuit emitted for a one-qubit operator is, up to a global phase, the exponential of the operator.", "quantifier": "every one-qubit operator and scale, every triple of angles passing the built-in test", "why_tests_cant": "Equality of unitaries for all operators; the code's own numerical test checks other gates than the ones emitted.", "anchors": ["hqca/instructions/_instruct_exact_unitary.py:SingleQubitExponential._xyz_to_rotation", "hqca/core/primitives/_pauli_strings.py:generic_Pauli_term"]}
{"id": "C83", "title": "Spin expectation values from a density matrix", "statement": "The spin properties computed from a two-particle density matrix are the expectation values of S_z and of S^2 = S_x^2+S_y^2+S_z^2.", "quantifier": "every number of orbitals, every pair of orbital lists without repetition, every state with a definite particle number other than 1 (and, for the functions themselves, every expectation functional)", "why_tests_cant": "An operator identity contracted with a four-index array for all states; tests use a few determinants, for which most wrong coefficients cancel.", "anchors": ["hqca/tools/rdm/_spin_rdm.py:get_spin_properties", "hqca/tools/rdm/_functions.py:S2", "hqca/tools/rdm/_functions.py:Sz"]}
{"id": "C84", "title": "Conjugate-gradient directions of the ACSE", "statement": "With a conjugate-gradient update (FR, HS, PR, PR+, HZ), the direction used in every macro-iteration is the one of the named formula (with its restart) and is a descent direction for the energy whenever the line search met its curvature condition.", "quantifier": "every dimension, every sequence of gradients and accepted steps of any length, every update name", "why_tests_cant": "Descent is an invariant over unbounded sequences of iterations; one wrong sign only shows for particular gradient overlaps.", "anchors": ["hqca/acse/_conjugate_acse.py:_conjugate_gradient_step", "hqca/acse/acse.py"]}
{"id": "C85", "title": "Limited-memory BFGS direction of the ACSE", "statement": "The limited-memory direction equals minus the BFGS inverse-Hessian approximation built from the stored pairs applied to the gradient, includes the newest step, and is a descent direction.", "quantifier": "every dimension, memory length, list of stored pairs and gradient", "why_tests_cant": "The two-loop recursion is equal to a matrix product only as an identity in all pairs; errors vanish for one stored pair.", "anchors": ["hqca/acse/_bfgs_acse.py"]}
{"id": "C86", "title": "Symmetry filtering of measured records", "statement": "With diagonal filtering, the counts of the all-Z circuit keep exactly the records that encode an occupation with the stored numbers of alpha and beta electrons; other circuits are unchanged; the value is the mean over the kept records. The ancilla checks keep exactly the records whose ancilla bits equal the electron parities.", "quantifier": "every number of orbitals and electrons, every table of records and counts, both orbital orderings, the Jordan-Wigner, parity and Bravyi-Kitaev transforms", "why_tests_cant": "Depends on the decoding of every bit string under each transform; a test on a reference state with the default ordering passes with a wrong filter.", "anchors": ["hqca/processes/_process_stabilizers.py:StabilizerProcess"]}
{"id": "C87", "title": "Qubit states and partial traces", "statement": "The density matrix built from a state gives its expectation values; tracing out a set of qubits leaves a matrix that gives the expectation value of every operator on the remaining qubits and has the same trace; circuits can be applied to a state one after the other.", "quantifier": "every number of qubits, every matrix, every list of qubits, every operator on the rest", "why_tests_cant": "The index arithmetic (deleting characters from bit strings) is wrong only for particular orders and sizes of the traced list.", "anchors": ["hqca/tools/_state.py:State", "hqca/tools/_state.py:DensityMatrix.partial_trace"]}
{"id": "C88", "title": "Hamiltonian of particles on qubits", "statement": "With all orbitals active, the operator of the qubit-particle Hamiltonian is the sum of one- and two-particle terms in sign-free raising and lowering operators with the given integrals, and the energy of its matrix form in any state with a fixed particle number other than one equals the expectation value of that operator.", "quantifier": "every number of orbitals, all symmetric integrals, every state with a particle number other than one", "why_tests_cant": "The skipped index coincidences and the spreading of the one-body integrals over four blocks are right only by an identity for all integrals and states.", "anchors": ["hqca/hamiltonian/qubit_particle.py:QubitParticleHamiltonian._build_K2", "hqca/hamiltonian/qubit_particle.py:QubitParticleHamiltonian._build_operator"]}
{"id": "C89", "title": "Removing the qubits fixed by the spin parities", "statement": "The transform returned by parity_free turns every fermionic operator that conserves the parities of the alpha and beta electron numbers into an operator on two qubits fewer that has the same action on the states of the chosen parities.", "quantifier": "every number of alpha and beta orbitals, both parities each, every parity-conserving operator", "why_tests_cant": "The removed qubits depend on the parities of whole blocks of orbitals; a wrong position or eigenvalue gives a valid-looking operator of another sector.", "anchors": ["hqca/transforms/_functions.py:parity_free", "hqca/transforms/_functions.py:get_transform_from_symmetries"]}
{"id": "C90", "title": "Reference state on a reduced register", "statement": "The circuit built with the second transform of get_transform_from_symmetries (or parity_free) prepares, on the reduced register, the state standing for the reference determinant with the given symmetry eigenvalues.", "quantifier": "every list of Z-type symmetries, every list of distinct occupied orbitals with those eigenvalues", "why_tests_cant": "The single excitations violate the symmetries one by one, so the trimming with null=1 is not an operator restriction; that the product is still the right state needs an argument over all orbital lists.", "anchors": ["hqca/transforms/_functions.py:get_transform_from_symmetries", "hqca/tomography/_tomography.py:StandardTomography.construct"]}
{"id": "C91", "title": "Parity transform of sign-free particle strings", "statement": "ParityQP maps a qubit string (raising, lowering and number operators without fermionic signs) to a Pauli operator that acts on the parity-encoded states as the string acts on the occupation states.", "quantifier": "every number of qubits, every string, every coefficient", "why_tests_cant": "The image of a raising operator flips a whole tail of parity qubits; its action has to be compared with the encoding on every configuration.", "anchors": ["hqca/transforms/_parity_qp.py:ParityQP"]}
{"id": "C92", "title": "Fermionic form of sign-free particle strings", "statement": "ParaFermion rewrites a qubit string as a fermionic operator with the same action on every configuration, inserting the sign strings that undo the fermionic signs.", "quantifier": "every number of orbitals, every string, every coefficient above 1e-12", "why_tests_cant": "Which orbitals carry the sign string matters only for particular occupations of the orbitals in between; small examples (two orbitals) do not show an error.", "anchors": ["hqca/transforms/_para_fermion.py:ParaFermion"]}
{"id": "C93", "title": "Tomography of sign-free density matrices", "statement": "QubitTomography returns the one- and two-particle density matrix of the sign-free raising and lowering operators in the measured state at every index combination (or its real or imaginary part as requested), and the compact form lists the requested elements in order.", "quantifier": "every number of alpha and beta orbitals, every normalised state with a fixed number of particles on the alpha qubits, every choice of real and imaginary parts", "why_tests_cant": "Each entry is filled from one unique element through permutations; a missing or doubly filled index combination appears only for particular index coincidences.", "anchors": ["hqca/tomography/_qubit_tomography.py:generate_qrdme", "hqca/tomography/_qubit_tomography.py:QubitTomography"]}
{"id": "C94", "title": "One simulation serves every measurement basis", "statement": "With the state-vector backend only the circuit of the first basis is run; the amplitudes kept for every other basis are, up to a global phase, those its own circuit would have given, values read from them are expectation values of the prepared state, and the state kept for later use is the prepared one.", "quantifier": "every prepared state, every list of bases, every Pauli string that can be read off one of them", "why_tests_cant": "The rotations are written with other gates than the circuits use; a wrong phase gate shows only in particular combinations of first and later letters and of states.", "anchors": ["hqca/tomography/_tomography.py:simulate", "hqca/tomography/_tomography.py:set", "hqca/core/primitives/_pauli_strings.py:pauliOp"]}
{"id": "C95", "title": "The measurement plan covers every string needed", "statement": "Whatever elements are requested, every Pauli string of every element is assigned a basis that is actually measured and from which the string can be read off, the strings of I and Z being collected in one basis when real parts are requested.", "quantifier": "every list of element operators on the register, every proper colouring returned by the graph library, with and without real parts", "why_tests_cant": "Which strings occur and how they are coloured depends on the orbital count, the transform and the library; a string lost between the two lists fails only for that combination.", "anchors": ["hqca/tomography/_tomography.py:_generate_pauli_measurements", "hqca/tomography/_reduce_circuit.py:simplify_tomography"]}
{"id": "C96", "title": "State-vector tomography returns the reduced density matrix, end to end", "statement": "Generating the elements, planning the bases, simulating and constructing returns at every index combination the expectation value of the creation and annihilation product in the prepared state (or its real or imaginary part), up to amplitudes below the threshold.", "quantifier": "every number of alpha and beta orbitals, every order, every proper colouring, every normalised state with a fixed number of alpha electrons", "why_tests_cant": "The composition of seven stages is checked only at sample states; cancellations hide errors of any single stage.", "anchors": ["hqca/tomography/_tomography.py:generate", "hqca/tomography/_tomography.py:simulate", "hqca/tomography/_tomography.py:construct"]}
{"id": "C97", "title": "Spin blocks and spin summation of a 2-RDM", "statement": "Building an RDM from the alpha-beta block of a singlet state gives the state's whole 2-RDM; reading the block back returns what was supplied; the spatial 1- and 2-RDM are the spin-summed expectation values of the state.", "quantifier": "every number of spatial orbitals, every singlet state (for the construction), every state (for the spin sums), every block, every index combination", "why_tests_cant": "The identities rest on spin symmetry of arbitrary correlated states; tests see a few closed-shell determinants with the default orbital order, where most elements vanish.", "anchors": ["hqca/tools/rdm/_spin_rdm.py:RDM._generate_from_ab_block", "hqca/tools/rdm/_spin_rdm.py:RDM.spatial_rdm", "hqca/tools/rdm/_spin_rdm.py:RDM.antisymmetric_block"]}
{"id": "C98", "title": "Cumulants and reconstruction of the 3-RDM", "statement": "The cumulant of a 2-RDM is what is left after subtracting the antisymmetrised product of 1-RDMs; the reconstructed 3-RDM is the cumulant expansion without the three-body cumulant, hence exact for determinants and zero for fewer than three electrons.", "quantifier": "every number of orbitals and electrons, every state, every index combination", "why_tests_cant": "Elements lost by the product show only for particular patterns of orbitals that no sample state has.", "anchors": ["hqca/tools/rdm/_spin_rdm.py:RDM.cumulant", "hqca/tools/rdm/_spin_rdm.py:RDM.reconstruct"]}
{"id": "C99", "title": "Gradient descent", "statement": "Gradient descent reports at each step a point of the fixed-step iteration from the shifted start together with the objective there; the best value never increases; for a smooth objective bounded below the driver ends without error after a bounded number of steps, with a gradient within the threshold.", "quantifier": "every dimension, objective, gradient, step, start, threshold and number of steps", "why_tests_cant": "Descent and the step bound concern every smooth objective; tests run a few quadratics with one step size.", "anchors": ["hqca/opts/gradient/gd.py:GradientDescent", "hqca/opts/opt.py:Optimizer.run"]}
{"id": "C100", "title": "Lagarias variant of Nelder-Mead", "statement": "Along any run of the Lagarias simplex the values belong to their points and the best never gets worse; each step returns, and replaces the worst point by the reflected, extended or the properly sided contracted point of Lagarias et al., or shrinks.", "quantifier": "all objectives, dimensions, parameters, random numbers and histories", "why_tests_cant": "Every history of steps; the branch taken when the reflected point is best and extension does not help, and the side of the contraction, depend on the objective.", "anchors": ["hqca/opts/simplex/lagarias.py:NelderMeadLagarias"]}
{"id": "C101", "title": "Size, scaling and comparison of operators", "statement": "norm() is the Frobenius norm of the operator divided by the square root of the dimension; null() holds exactly when every coefficient is below 1e-10, so the matrix is correspondingly small or else nonzero; A*c and c*A are the multiple of A; truncate drops small terms; == and != of strings are opposite.", "quantifier": "all operators on any number of qubits, all numbers, all pairs of strings", "why_tests_cant": "Equality of the coefficient norm with the matrix norm concerns every operator and register size.", "anchors": ["hqca/operators/_operator.py:Operator.norm", "hqca/operators/_operator.py:Operator.null", "hqca/operators/_operator.py:Operator.__rmul__", "hqca/operators/_operator.py:Operator.truncate", "hqca/operators/quantum_strings/_pauli_string.py:PauliString.__ne__"]}
{"id": "C102", "title": "An Euler step of the ACSE lowers the energy", "statement": "The default (Euler) step adds -epsilon times the residual operator to the ansatz, and the circuit it generates lowers the energy for every small enough epsilon unless the residual is zero: the slope at epsilon=0 is minus the sum of the squared residual entries. The residual operator read from the driver before the step is not altered by it.", "quantifier": "all real Hamiltonians, all real states with a definite electron number other than one, all truncation thresholds, all ansatze and all step sizes", "why_tests_cant": "The slope statement quantifies over all Hamiltonians and states and is about a limit of step sizes; runs only sample one step size.", "anchors": ["hqca/acse/_euler_acse.py:_euler_step", "hqca/acse/acse.py:RunACSE._run_acse", "hqca/acse/_ansatz_S.py:Ansatz.__add__", "hqca/instructions/_instruct_pauli.py:PauliSet"]}
{"id": "C103", "title": "The density-matrix backend follows the ansatz", "statement": "With the iterative density-matrix backend, the state from which each iteration reads its density matrices is the state of the circuit of all layers added so far, for closed and open ansatze of any depth.", "quantifier": "all sequences of added operators, all closed/open settings and depths, any action of the layers on states", "why_tests_cant": "The equality is an invariant of arbitrarily long runs.", "anchors": ["hqca/acse/acse.py:RunACSE._generate_circuit", "hqca/acse/acse.py:RunACSE._run_acse", "hqca/processes/_simulate_iterative_unitary.py:IterativeUnitarySimulator"]}
{"id": "C104", "title": "The two-qubit gate estimate counts the emitted gates", "statement": "The number of controlled-not gates that the resource counter reports for an operator, or for a list of operators such as an ansatz, is the number of controlled-not gates in the circuit built from it (an upper bound when the circuit builder merges or drops terms).", "quantifier": "all qubit operators and all lists of operators, with terms of any length including identity terms", "why_tests_cant": "The count is compared with the circuit of every operator of every size; tests compare a few fixed circuits.", "anchors": ["hqca/tools/_resources.py:count_cnot_resources", "hqca/instructions/_instruct_pauli.py:PauliSet", "hqca/core/primitives/_pauli_strings.py:pauli_gadget", "hqca/acse/_ansatz_S.py:Ansatz.transform"]}
{"id": "C105", "title": "The 2-RDM built from a wave function is the right one", "statement": "Given a dictionary from determinants to amplitudes and the alpha and beta orbitals, the builder returns the array whose entry [p,q,r,s] is the expectation value of a\u2020_p a\u2020_q a_s a_r: for every spin-conserving entry over the inactive and active orbitals always, and for every entry when the wave function has definite numbers of alpha and beta electrons and empty virtual orbitals. With region 'active' exactly the spin-conserving entries with some active index are recomputed, and everything else in the given array is kept.", "quantifier": "all wave functions with complex amplitudes, any number of orbitals in any order, all given arrays", "why_tests_cant": "The sign of each contribution depends on the relative order of four orbital indices and on all occupations; tests can only sample small cases.", "anchors": ["hqca/tools/rdm/_qubit_rdm.py:build_2rdm"]}
{"id": "C106", "title": "The spatial RDM is the spin sum of the spin RDM", "statement": "A spatial RDM built from the spin RDM of a state holds the expectation values of the spin-free excitation operators; reducing it gives the spatial 1-RDM of the same state; its spin properties are the S_z and S^2 of the state.", "quantifier": "all pairings of alpha and beta orbitals with the alpha orbitals first, in any order; all states with a definite electron number other than one; all index combinations", "why_tests_cant": "Equality with expectation values of arbitrary correlated states; the spin properties are only right for a handful of states.", "anchors": ["hqca/tools/rdm/_functions.py:spin_to_spatial", "hqca/tools/rdm/_functions.py:Sz_spatial", "hqca/tools/rdm/_functions.py:S2_spatial", "hqca/tools/rdm/_spatial_rdm.py:SpatialRDM"]}
{"id": "C107", "title": "A qubit Hamiltonian reports its own ground energy", "statement": "A QubitHamiltonian built from a Pauli operator stores the matrix of that operator, and the energy ef it reports is its ground energy: no state has a lower energy and some state has exactly that energy. It can be built for any order.", "quantifier": "all numbers of qubits; all Pauli operators with real coefficients and strings of any length that fit the register; all orders; all states", "why_tests_cant": "The lower bound ranges over a continuum of states; the reduced orders always raise.", "anchors": ["hqca/hamiltonian/qubit.py:QubitHamiltonian", "hqca/tools/rdm/_qubit_rdm.py:qRDM.from_density_matrix"]}
{"id": "C108", "title": "The symmetry projection keeps expectation values", "statement": "SymmetryProjection(op, transform, alp, bet) replaces the Pauli image of a reduced-density-matrix element by an operator with fewer Pauli strings. On every state with a fixed number of particles and a fixed number of alpha particles its expectation value equals that of the element, up to the coefficient threshold. The construction returns for every element that conserves the number of particles.", "quantifier": "all numbers of orbitals; all sets of alpha orbitals; all operators whose strings have ladder letters and number letters at the same places; both settings of skip_sz; the Jordan-Wigner and the qubit transform; all states", "why_tests_cant": "The equality ranges over all states of a symmetry sector and all index patterns; whether the greedy search for independent columns terminates depends on a rank argument over a family of matrices.", "anchors": ["hqca/tomography/__symmetry_project.py:SymmetryProjection", "hqca/tools/rdm/_functions.py:Recursive"]}
{"id": "C109", "title": "Symmetry-projected tomography returns the reduced density matrix", "statement": "ReducedTomography generates symmetry-projected elements, plans the bases, simulates and constructs; the result holds at every index combination the expectation value of the creation and annihilation product in the prepared state (or its real or imaginary part), up to the coefficient threshold of the projection. ReducedQubitTomography does the same for the sign-free operators, in full and in compact form.", "quantifier": "every number of alpha and beta orbitals, every order, every proper colouring, every normalised state with a fixed number of particles and of alpha particles, both settings of skip_sz", "why_tests_cant": "The projected operators agree with the originals only inside a symmetry sector, so agreement at sample states does not show that the chosen strings suffice for every index pattern and every state of the sector.", "anchors": ["hqca/tomography/_constant_tomography.py:generate_sp_rdme", "hqca/tomography/_constant_tomography.py:generate_sp_qrdme", "hqca/tomography/_constant_tomography.py:ReducedTomography", "hqca/tomography/_constant_tomography.py:ReducedQubitTomography"]}
{"id": "C110", "title": "The variational circuit is the product of cluster exponentials", "statement": "For real parameters the circuit that a VQE run appends for its unitary coupled-cluster ansatz acts, up to a global phase, as the product of the exponentials of p(X - X\u2020) over the listed excitations X with their parameters p, the first excitation acting first. There is no Trotter error inside an excitation, and the result does not depend on the depth setting.", "quantifier": "every number of qubits, every list of single and double excitations between different orbitals, every list of real parameters, every depth", "why_tests_cant": "Each excitation becomes several Pauli exponentials; that these multiply to the exact exponential for every parameter and index pattern is an identity of infinite families of operators.", "anchors": ["hqca/vqe/_ansatz.py:VariationalAnsatz.assign", "hqca/instructions/_instruct_pauli.py:PauliSet", "hqca/vqe/vqe.py:RunVQE"]}
{"id": "C111", "title": "A VQE evaluation returns the energy of the cluster state", "statement": "One evaluation of the VQE objective prepares the reference, appends the ansatz circuit, does the tomography with the state-vector backend and evaluates the energy. The value returned is the constant energy plus the expectation value of the second-quantized Hamiltonian in the normalised unitary cluster state of the given parameters; in particular it is never below the lowest energy for that number of alpha and beta electrons.", "quantifier": "every number of orbitals and electrons, every symmetric set of integrals, every real parameter list, every proper colouring of the measurement strings", "why_tests_cant": "The value goes through an encoding, a circuit, a measurement plan and a contraction; tests compare a few molecules and parameters, not the identity of the two energy functions.", "anchors": ["hqca/vqe/vqe.py:RunVQE", "hqca/vqe/_store_vqe.py:StorageVQE.evaluate", "hqca/tomography/_tomography.py:StandardTomography"]}
{"id": "C112", "title": "Tomography is independent of the fermion-to-qubit transform", "statement": "Generating the measurements of an RDM with the parity or the Bravyi-Kitaev transform and simulating the state encoded with that transform returns the same reduced density matrix as Jordan-Wigner on the unencoded state.", "quantifier": "every number of orbitals, every normalised state with a fixed number of alpha electrons, orders 1 to 3, every proper colouring", "why_tests_cant": "Each element goes through its own Pauli expansion; a sign that depends on how many electrons an element moves is invisible on Hartree-Fock states and on pair excitations.", "anchors": ["hqca/tomography/_tomography.py:generate_rdme", "hqca/tomography/_tomography.py:StandardTomography", "hqca/transforms/_parity.py:Parity", "hqca/transforms/_bravyi_kitaev.py:BravyiKitaev"]}
{"id": "C113", "title": "Calculations start from the Hartree-Fock energy", "statement": "The initial energy of an ACSE or VQE storage is the constant energy plus the expectation value of the Hamiltonian in the Hartree-Fock determinant of the active electrons, also in an active space, and the VQE objective returns it when every parameter is zero.", "quantifier": "every number of active, frozen and virtual orbitals, every number of alpha and beta electrons, all real-symmetric integrals, every constant energy", "why_tests_cant": "The initial energy is compared with one molecule's self-consistent energy in examples; labels of frozen orbitals and open shells enter only for some molecules.", "anchors": ["hqca/vqe/_store_vqe.py:_get_HF_rdm", "hqca/acse/_store_acse.py:_get_HF_rdm", "hqca/tools/rdm/_spin_rdm.py:_build_hf_spin", "hqca/hamiltonian/molecular.py:_generate_spin2spac_mapping"]}
{"id": "C114", "title": "Generator and norm returned by the ACSE solvers", "statement": "For every residual tensor and threshold, each of the three ACSE solvers (classical, quantum, sign-free particles) returns minus the operator of the entries at or above the threshold, together with half the Frobenius norm of the residual; the generator is anti-Hermitian, and a Hamiltonian given in parts yields the sum of the residuals.", "quantifier": "every number of orbitals, every residual tensor, every threshold, every propagated state, every list of Hamiltonian parts", "why_tests_cant": "The solvers end with an internal consistency check that only fires for particular small residuals near convergence, and with a norm keyword that only some callers pass.", "anchors": ["hqca/acse/_class_A_acse.py:solvecACSE", "hqca/acse/_quant_A_acse.py:solveqACSE", "hqca/acse/_qubit_A.py:solvepACSE", "hqca/acse/acse.py:RunACSE._get_A"]}
{"id": "C115", "title": "Energy of an ACSE ansatz", "statement": "The energy the ACSE driver evaluates for an ansatz is the core energy plus the expectation value of the molecular Hamiltonian in the normalised state obtained from the Hartree-Fock determinant by the exponentials of the Pauli terms of the layers, in order; this state has the numbers of electrons of the reference, and the energy never falls below the lowest energy of that sector, up to the rounding thresholds.", "quantifier": "every number of orbitals and electrons, every Hamiltonian with the usual symmetries, every list of layers of real anti-Hermitian number-conserving generators, every grouping of the measurements", "why_tests_cant": "The composition goes through the encoding, the circuit, the tomography, the reconstruction and the reduced Hamiltonian; number conservation is a property of whole families of strings that the Trotterised circuit does not enforce.", "anchors": ["hqca/acse/acse.py:RunACSE._generate_circuit", "hqca/acse/_store_acse.py:StorageACSE.evaluate", "hqca/acse/_ansatz_S.py:Ansatz", "hqca/instructions/_instruct_pauli.py:PauliSet"]}
{"id": "C116", "title": "Pivoted Cholesky factorisation of the integrals", "statement": "The pivoted Cholesky factorisation of a positive semidefinite integral matrix ends, takes no square root of a negative number and divides by no zero; the factor has at most the requested number of rows and is triangular along the pivots; the part of the matrix it misses is positive semidefinite, its trace is the reported error, no entry exceeds that error, and with the default number of rows the tolerance is always reached.", "quantifier": "every size, every real positive semidefinite matrix, every number of rows, every tolerance not below zero", "why_tests_cant": "The pivots depend on the data; that the diagonal never turns negative and that the error bounds every entry needs positive semidefiniteness of all Schur complements.", "anchors": ["hqca/hamiltonian/molecular.py:MolecularHamiltonian.pivoted_chol"]}
{"id": "C117", "title": "Several tomographies in one job", "statement": "Running several tomographies as one job gives every tomography, for every circuit it contains, the counts of exactly that circuit, as if it had been run alone.", "quantifier": "every list of tomographies, all circuit names (also shared between tomographies), every backend, first and later runs", "why_tests_cant": "The results are routed by two characters appended to the circuit name; collisions depend on the number of tomographies and on how often they are run.", "anchors": ["hqca/tomography/_tomography.py:run_multiple"]}
{"id": "C118", "title": "Error estimate by resampling", "statement": "The error estimate of a measured quantity is the scaled standard deviation of that quantity over samples drawn from the recorded shots; it is defined for every sample size up to the number of shots and above, is non-zero when the measured outcomes fluctuate, and leaves the recorded counts as they were.", "quantifier": "every table of counts, every outcome of the random generator, every function of the RDM, every number of samples and sample size", "why_tests_cant": "The estimate is random: a test sees one draw. That it vanishes identically for the default sizes holds for all draws and functions.", "anchors": ["hqca/tomography/_tomography.py:StandardTomography.evaluate_error", "hqca/tomography/_tomography.py:StandardTomography.getRandomRDMFromCounts"]}
{"id": "C119", "title": "Measuring a group of commuting strings through its stabilizer circuit", "statement": "For a group of Pauli strings that agree qubit by qubit wherever two of them act, the stabilizer circuit is constructed in finitely many steps, and for every string of the group the sign and the native Z string looked up for it give the expectation value of the string in every state, as the sign times the mean outcome of that Z string behind the circuit.", "quantifier": "every number of qubits, every non-empty list of qubit-wise commuting strings, every state", "why_tests_cant": "The gates are chosen by a loop without an iteration limit from column sums of a matrix that changes with every gate; that it ends and that no gate introduces a sign needs an invariant of the reduced matrix.", "anchors": ["hqca/tools/_stabilizer.py:StabilizedCircuit", "hqca/processes/_process_stabilizers.py:_measure_stabilizer_z_string", "hqca/tomography/_tomography.py:build_stabilizer", "hqca/core/primitives/_base.py:apply_h"]}
{"id": "C120", "title": "A whole ACSE run is variational", "statement": "Starting from the Hartree-Fock reference, a run of the ACSE driver completes within the allowed number of iterations and has ended once that many were made; the energy it reports is not above the Hartree-Fock energy, is the energy of a normalised state with the reference's numbers of alpha and beta electrons, and is not below the lowest energy of such states, up to the accuracy of one evaluation.", "quantifier": "every Hamiltonian with symmetric real-type integrals, every number of orbitals and electrons, every sequence of iterations with any ansatz each, every convergence setting", "why_tests_cant": "The reported energy is the outcome of a loop over circuits, measurements and checks; a test sees one molecule and one run, and cannot compare with all states of the sector.", "anchors": ["hqca/acse/acse.py:RunACSE.build", "hqca/acse/acse.py:RunACSE.run", "hqca/acse/acse.py:RunACSE._check", "hqca/instructions/_instruct_pauli.py:PauliSet", "hqca/tomography/_tomography.py:StandardTomography"]}
{"id": "C121", "title": "A closed Euler run with the classical solver completes and is variational", "statement": "An ACSE run with the default Euler step and the classical residual, started from the integrals alone, computes every search direction from the state it has itself prepared, never fails, ends within the allowed number of iterations, and reports an energy not above the Hartree-Fock energy that is the energy of a normalised state with the electrons of the reference and not below the lowest energy of such states, up to the accuracy of one evaluation.", "quantifier": "every Hamiltonian with real symmetric spin-conserving integrals, every step size, every threshold above the accuracy of one evaluation, every number of iterations below the maximal depth, every colouring the graph library may return", "why_tests_cant": "The layers of iteration n depend on the measured density matrices of iteration n-1, so the states reached form a feedback loop; a test follows one trajectory of one molecule.", "anchors": ["hqca/acse/acse.py:RunACSE.build", "hqca/acse/acse.py:RunACSE.run", "hqca/acse/acse.py:RunACSE._get_A", "hqca/acse/_euler_acse.py:_euler_step", "hqca/acse/_class_A_acse.py:solvecACSE", "hqca/acse/_ansatz_S.py:Ansatz.__add__"]}
{"id": "C122", "title": "An active space keeps the energy of the whole molecule", "statement": "With a frozen core, the reduced-Hamiltonian matrix together with the constant reported as core energy assigns to every state of the active space the energy of a state of the whole molecule that has all the electrons, the frozen orbitals filled, the virtual orbitals empty and the same density matrix on the active orbitals; every such state of the molecule arises in this way. So active-space energies are variational for the molecule.", "quantifier": "every number of frozen, active and virtual orbitals, every symmetric set of integrals, every state of the active space and every frozen-core state of the molecule", "why_tests_cant": "The claim relates states of two different Fock spaces for all integrals; a test with one molecule compares one eigenvalue, and cannot see errors that cancel there.", "anchors": ["hqca/hamiltonian/molecular.py:MolecularHamiltonian._build_K2", "hqca/hamiltonian/molecular.py:MolecularHamiltonian._generate_active_space"]}
{"id": "C123", "title": "The simplex optimizers have no preferred coordinates", "statement": "If an objective is expressed in other coordinates (a linear map and a translation), the Nelder-Mead optimizer started from the transformed simplex visits exactly the transformed points with the same values; for rotations and translations this includes the random restarts of the stuck check. The same holds for the Lagarias variant.", "quantifier": "every objective, dimension, initial simplex, parameters, change of coordinates, number of steps and random numbers drawn", "why_tests_cant": "The claim compares two runs of any length for every objective; a test compares a few objectives and would not notice a wrong centroid or weight that still decreases the value.", "anchors": ["hqca/opts/simplex/neldermead.py:NelderMead.next_step", "hqca/opts/simplex/neldermead.py:NelderMead.calc_centroid", "hqca/opts/simplex/neldermead.py:NelderMead._check_stuck", "hqca/opts/simplex/lagarias.py:NelderMeadLagarias.next_step"]}
{"id": "C124", "title": "The quasi-Newton optimizer as a whole descends and reports what it found", "statement": "Building the quasi-Newton optimizer and stepping it returns for a smooth objective bounded below. In every such run the best value reported is the objective at the best point reported, the recorded values never increase (and fall strictly while the gradient does not vanish), none is above the value at the start, and a normal end means that the gradient at the reported point is short.", "quantifier": "every objective and gradient routine on real vectors of any length, every start point, every number of iterations and length of the line searches", "why_tests_cant": "The claim is an invariant of runs of any length (positive definiteness of the metric must survive each update, including the restart after a stuck step); termination is a property of an unbounded loop.", "anchors": ["hqca/opts/gradient/bfgs.py:BFGS.initialize", "hqca/opts/gradient/bfgs.py:BFGS.next_step", "hqca/opts/gradient/bfgs.py:BFGS._line_search", "hqca/vqe/vqe.py:RunVQE.run"]}
{"id": "C125", "title": "A whole VQE calculation", "statement": "A VQE calculation with coupled-cluster singles and doubles, started from Hartree-Fock, with the quasi-Newton optimizer: every energy evaluation returns; the logged energies never increase and never exceed the Hartree-Fock energy; the final energy is that of the normalised cluster state of the final parameters, which has the electrons of the reference, and is not below the lowest energy with these electrons; a normal end means a short gradient.", "quantifier": "every symmetric set of integrals, number of orbitals and electrons, circuit depth, grouping of measurements, number of iterations and length of the line searches", "why_tests_cant": "Needs the state preparation, the tomography, the energy functional and the optimizer together, over every Hamiltonian and every path of the optimizer.", "anchors": ["hqca/vqe/vqe.py:RunVQE.build", "hqca/vqe/vqe.py:RunVQE.run", "hqca/opts/gradient/bfgs.py:BFGS", "hqca/vqe/_store_vqe.py:StorageVQE"]}
{"id": "C126", "title": "Grouping with the colouring strategies offered", "statement": "With each colouring method and strategy offered, grouping a list of Pauli strings of one length returns; each string can be read off exactly one of the measured bases; no string could have been put into an earlier circuit; t circuits are enough whenever at most t of the strings clash with t or more others, and strings that clash pairwise need one circuit each.", "quantifier": "every list of Pauli strings of one length, every method and strategy", "why_tests_cant": "The bounds are on all graphs; a test counts the circuits of a few molecules and has nothing to compare the number with.", "anchors": ["hqca/tomography/__graph.py:Graph.color", "hqca/tomography/_reduce_circuit.py:simplify_tomography", "hqca/tomography/_reduce_circuit.py:construct_simple_graph"]}
{"id": "C127", "title": "Eigenvalues reported by the analysis of a 2-RDM", "statement": "For the 2-RDM of a normalized state with na alpha and nb beta particles, `analysis` returns five lists of eigenvalues: same-spin two-body ones in [0, n/2] with sum n(n-1)/2, mixed ones in [0, min(na, nb)] with sum na*nb, and natural occupation numbers of each spin in [0, 1] with sums na and nb.", "quantifier": "every normalized state with definite numbers of alpha and beta particles, every pair of disjoint orbital lists covering the orbitals, every na and nb", "why_tests_cant": "The bounds are those of every N-representable matrix, correlated states and all basis sizes included; a test sees the eigenvalues of a few states and has no bound to compare with.", "anchors": ["hqca/tools/rdm/_spin_rdm.py:RDM.analysis", "hqca/tools/rdm/_spin_rdm.py:RDM.reduce_order"]}
{"id": "C128", "title": "Three angles are found for every one-qubit rotation", "statement": "For every one-qubit operator the exact instruction finds three angles whose Z, Y, Z rotations give the exponential of the operator (to the tolerance of its own test) and does not end the program.", "quantifier": "every nonzero real vector of X, Y, Z coefficients, every real scale", "why_tests_cant": "Whether the inverse trigonometric functions land on the right branch depends on the quadrant of the angle; tests with short rotations never leave the good one.", "anchors": ["hqca/instructions/_instruct_exact_unitary.py:SingleQubitExponential._xyz_to_rotation"]}
{"id": "C129", "title": "The exact one-qubit instruction performs a list of operators one after the other", "statement": "A list of one-qubit strings, in which a repeated letter begins the next operator, is performed as the exponentials of these operators one after the other; with the simple option one operator is kept whose exponential is the product; each way of propagating appends the exponential of the scaled Hamiltonian.", "quantifier": "every list of non-identity strings with coefficients of modulus at least 1e-10, every Hamiltonian and scale, all options", "why_tests_cant": "The division depends on counters over the whole list and the result on products of noncommuting exponentials; a test uses one or two layers.", "anchors": ["hqca/instructions/_instruct_exact_unitary.py:SingleQubitExponential.__init__", "hqca/instructions/_instruct_exact_unitary.py:SingleQubitExponential._applyGenericOp", "hqca/instructions/_instruct_exact_unitary.py:SingleQubitExponential._applySimpleOp", "hqca/instructions/_instruct_exact_unitary.py:SingleQubitExponential._applyH", "hqca/instructions/_instruct_exact_unitary.py:SingleQubitExponential._applyH_simplify", "hqca/instructions/_instruct_exact_unitary.py:SingleQubitExponential._applyH_rotate", "hqca/instructions/_instruct_exact_unitary.py:SingleQubitExponential._applyH_trotter"]}
{"id": "C130", "title": "Post-selection of grouped measurements by their Z symmetries", "statement": "With stabilizer='encoded' the records of a grouped measurement are kept exactly when every Z symmetry of the group has the value it has in the reference state, and the value of a string is then the mean over the records kept.", "quantifier": "every number of qubits, every set of symmetries and reference values, every table of records", "why_tests_cant": "The choice is made from the number of symmetries and the sum and product of their signs; a test with one molecule cannot tell whether this singles out the right combination of signs.", "anchors": ["hqca/processes/_process_stabilizers.py:StabilizerProcess._filter_encoded_symmetries", "hqca/processes/_process_stabilizers.py:StabilizerProcess._measure_stabilizer_z_string", "hqca/operators/_operator.py:__getitem__"]}
{"id": "C131", "title": "Line search of the ACSE", "statement": "The derivative the line search is told is the derivative of the energy along the circuits it runs, and these circuits are, to first order, the exponential of the anti-Hermitian part of the search direction.", "quantifier": "every real state of definite particle number other than one, all symmetric real integrals, every list of keys and real direction, every step", "why_tests_cant": "A test sees that the energy drops for one molecule; it does not compare the circuit's generator with the operator or the reported slope with a derivative.", "anchors": ["hqca/acse/_line_search_acse.py:LineSearchACSE.phi", "hqca/acse/_line_search_acse.py:LineSearchACSE.dphi", "hqca/acse/_tools_acse.py:vector_to_operator"]}
{"id": "C132", "title": "Truncated reduced Hamiltonian", "statement": "With truncation=True, the energy computed from the reduced Hamiltonian and a two-body density matrix is the expectation value of the strings of the fermionic Hamiltonian that were not discarded, each counted once and with its full coefficient; the difference from the untruncated energy is the expectation value of the strings discarded.", "quantifier": "all integrals, every transform defined on strings of that length, every choice of which strings are discarded, every state of definite particle number other than one with a symmetric two-body density matrix", "why_tests_cant": "The matrix is filled string by string from index lists recovered from cleaned-up strings; a test on one molecule does not show that every integral is added once for each arrangement of repeated and distinct indices.", "anchors": ["hqca/hamiltonian/fermionic.py:FermionicHamiltonian._build_projected_K2", "hqca/operators/quantum_strings/_fermi_string.py:FermiString.order_as_D_matrix"]}
{"id": "C133", "title": "Comparison of groupings", "statement": "With simplify='comparison', whatever relation, methods and strategies are given, every string needed is assigned one measured basis from which it can be read, as with simplify=True.", "quantifier": "all lists of strings of one length, all lists of methods and strategies, both relations", "why_tests_cant": "A test sees the number of groups printed; an assignment to a basis that does not serve the string gives a number, not an error.", "anchors": ["hqca/tomography/_reduce_circuit.py:compare_tomography", "hqca/tomography/__graph.py:Graph.color"]}
{"id": "C134", "title": "Circuit matrix sorted by particle number", "statement": "get_cN returns the matrix of the circuit in a rearranged basis: the states with k particles stand together, in increasing order, in a block of size n choose k, blocks ordered by k; a circuit keeps the number of particles exactly when the returned matrix is block diagonal; products of circuits become products.", "quantifier": "all numbers of qubits, all matrices", "why_tests_cant": "The order of the basis depends on the number of qubits; a test compares one small matrix and cannot see that rows and columns are rearranged alike for every size.", "anchors": ["hqca/tools/_gates.py:Circ._cN_basis", "hqca/tools/_gates.py:Circ.get_cN", "hqca/tools/_state.py:_cN_basis"]}
{"id": "C135", "title": "Tomography with the density-matrix backend", "statement": "With the iterative density-matrix backend, the value computed for a Pauli string is the trace of its product with the density matrix, the stored matrix is the one evolved by the circuit, and the reduced density matrix constructed holds at every index combination the expectation value of the creation and annihilation operators in the evolved state.", "quantifier": "all numbers of qubits, all density matrices, all circuit matrices, all strings recoverable from a measured basis; orders 2 and 3, and 1 with imaginary parts only", "why_tests_cant": "A test compares numbers for one state; whether square roots of a diagonal stand for amplitudes, and in which order the qubits are rotated, matters for every state and basis.", "anchors": ["hqca/processes/_simulate_iterative_unitary.py:IterativeUnitarySimulator.simulate", "hqca/processes/_process_counts.py:StandardProcess.process", "hqca/acse/acse.py:RunACSE._generate_circuit"]}
{"id": "C136", "title": "Variance of the energy", "statement": "The number returned by check_variance(H) is the variance of H in the current state of the run: it is the mean value of the squared deviation of H from its mean, is never negative, and vanishes exactly for eigenstates.", "quantifier": "all Hermitian matrices H, all density matrices and state vectors, all sequences of layers, closed and open ansaetze", "why_tests_cant": "A test compares one number for one state; whether the matrix used is the one of the current state depends on the history of the run.", "anchors": ["hqca/acse/acse.py:RunACSE.check_variance", "hqca/acse/_euler_acse.py"]}
{"id": "C137", "title": "Correction of the counts of a run", "statement": "With measurement mitigation switched on, the counts of every circuit of a run are corrected once, all circuits of a run with the same calibration, every calibration serves as many circuits as the frequency says, and a filter assigned by the user is used until the next renewal.", "quantifier": "all frequencies, all numbers of circuits and runs, all filters and calibrations", "why_tests_cant": "Which calibration corrects a circuit depends on the number of circuits measured before in all runs; a test sees one short run.", "anchors": ["hqca/storage/_quantum_storage.py:QuantumStorage._get_measurement_filter", "hqca/storage/_quantum_storage.py:QuantumStorage.meas_filter", "hqca/tomography/_tomography.py:StandardTomography.simulate"]}
{"id": "C138", "title": "Natural orbitals in Aufbau order", "statement": "The transformation returned by reorder is orthogonal, only permutes the orbitals up to sign, and the density matrix it transforms has decreasing occupations.", "quantifier": "all matrices, all numbers of orbitals", "why_tests_cant": "A test with two orbitals, or with occupations already sorted, passes; the result depends on the pattern of inversions of the occupations.", "anchors": ["hqca/tools/_chemistry.py:reorder", "hqca/tools/_chemistry.py:get_spin_ei"]}
{"id": "C139", "title": "Measuring a list of Pauli strings", "statement": "With tomo_type='pauli' the vector returned holds the expectation value of every listed Pauli string in the order of the list, and the operator returned has the expectation values as coefficients (times the imaginary unit with imag=True).", "quantifier": "all lists of strings on the register, all states, all proper colourings, with and without grouping", "why_tests_cant": "Grouped strings are read off shared bases; a test of a few strings does not show that every grouping of every list gives the right values.", "anchors": ["hqca/tomography/_qubit_tomography.py:QubitTomography._generate_pauli_set", "hqca/tomography/_qubit_tomography.py:QubitTomography._build_generic_pauli", "hqca/tomography/_qubit_tomography.py:QubitTomography.construct"]}
{"id": "C140", "title": "Spin-orbital integrals for pyscf", "statement": "generate_spin_2ei_pyscf returns the rotated two-electron integrals over spin orbitals with the index order its documentation promises (i,k,j,l: electron one first, electron two second), and they give the same energy as generate_spin_2ei.", "quantifier": "all integrals, rotations of the two spins and assignments of spin orbitals, all antisymmetric two-body density matrices", "why_tests_cant": "A test with one molecule and the symmetric integrals of real orbitals cannot show the index order for every array.", "anchors": ["hqca/tools/_chemistry.py:generate_spin_2ei_pyscf", "hqca/tools/_chemistry.py:generate_spin_2ei"]}
{"id": "C141", "title": "Operators with strings of several kinds", "statement": "An operator made by adding fermionic, qubit and Pauli strings and transformed with get_mixed_transform acts as the sum of the operators its strings stand for.", "quantifier": "all lists of strings of the three kinds on one register", "why_tests_cant": "The strings are stored under their letters only; tests with a few strings of one kind do not meet equal letters of different kinds.", "anchors": ["hqca/transforms/_mixed_transform.py:MixedTransform", "hqca/transforms/_mixed_transform.py:get_mixed_transform", "hqca/operators/_operator.py:Operator.__add__", "hqca/operators/_operator.py:Operator.transform"]}
{"id": "C142", "title": "Saved density matrices", "statement": "A 2-RDM written with save and read back the way the purification does is the 2-RDM that was saved, to the number of digits asked for.", "quantifier": "all 2-RDMs, all numbers of orbitals, all precisions, every rounding to nearest; for the whole matrix all singlet states with a fixed number of alpha electrons", "why_tests_cant": "The file keeps one spin block, rounded twice and with the real part only being read; a round trip of one small real matrix does not show for which matrices this is enough.", "anchors": ["hqca/tools/rdm/_spin_rdm.py:RDM.save", "hqca/tools/rdm/_spin_rdm.py:RDM.antisymmetric_block", "hqca/maple/_purify.py:purify"]}
{"id": "C143", "title": "Convergence of the simplex optimizer", "statement": "When a Nelder-Mead run ends as converged, the points of the simplex lie within the threshold (times a factor depending on the number of parameters only) of one another, or their values do if conv_criteria='energy' was asked for; and a simplex that has collapsed ends the run.", "quantifier": "all objectives, numbers of parameters, starting simplices, thresholds, random numbers and lengths of runs", "why_tests_cant": "The criterion is a standard deviation of norms; that it can vanish for a large simplex is seen only for special positions relative to the origin.", "anchors": ["hqca/opts/simplex/neldermead.py:NelderMead.check_criteria", "hqca/opts/simplex/neldermead.py:NelderMead.initialize", "hqca/opts/opt.py:Optimizer.run", "hqca/opts/opt.py:Optimizer.check"]}
{"id": "C144", "title": "Stored tomographies", "statement": "A tomography generated once and handed on, through a file (save, load) or with preset=True, can be used in place of the generated one: it returns the reduced density matrix of every prepared state, can be given to the ACSE driver, and can be saved again.", "quantifier": "all orbital counts, orders, flags, prepared states, colourings; for preset every transform and requested order", "why_tests_cant": "The statement is about every state measured later with the stored plan, and about attributes that only some later call reads.", "anchors": ["hqca/tomography/_tomography.py:StandardTomography.save", "hqca/tomography/_tomography.py:StandardTomography.load", "hqca/tomography/_tomography.py:StandardTomography._preset_configuration", "hqca/acse/acse.py:RunACSE.build"]}
{"id": "C145", "title": "Hamiltonian split into groups of strings", "statement": "build_separable_operator splits the qubit Hamiltonian into a list of operators that add up to it, so that the residual the quantum ACSE solver collects from the list is the one of the Hamiltonian; a group of commuting strings is propagated exactly, whatever the number of Trotter steps.", "quantifier": "all Hamiltonians with one term per string and real coefficients, all groupings, all states, step numbers and sizes", "why_tests_cant": "The sum of the parts is a statement about operators on every state, and the residual is a limit of measured values.", "anchors": ["hqca/hamiltonian/fermionic.py:FermionicHamiltonian.build_separable_operator", "hqca/acse/_quant_A_acse.py:solveqACSE", "hqca/instructions/_instruct_pauli.py:PauliSet"]}
{"id": "C146", "title": "Assignment of spin orbitals to qubits", "statement": "set_algorithm(rdm_to_qubit=...) accepts 'default', 'alternating' or a pair of lists; whichever assignment is chosen, tomography of the two-body density matrix completes and the energy of a reference state does not depend on the assignment.", "quantifier": "all assignments, transforms, choices of real and imaginary parts, colourings, prepared states, integrals and electron numbers", "why_tests_cant": "Which assignments complete is a statement about every pair of lists and every number of orbitals; that the energy is independent of them quantifies over all Hamiltonians.", "anchors": ["hqca/storage/_quantum_storage.py:QuantumStorage.set_algorithm", "hqca/tomography/_tomography.py:generate_rdme", "hqca/tomography/_tomography.py:StandardTomography._generate_2rdme", "hqca/tomography/_tomography.py:StandardTomography._build_fermionic_RDM", "hqca/acse/_store_acse.py:StorageACSE.evaluate"]}
{"id": "C147", "title": "Report of the storages", "statement": "The report printed by analysis() for the density matrix of a normalised state shows its expectation values of S_z and S squared, its number of electrons, the eigenvalues of its two-body matrix, none of them flagged as negative, and its natural occupation numbers, each at most one.", "quantifier": "all pairs of orbital lists, normalised states of definite electron number, and electron numbers", "why_tests_cant": "Eigenvalues and expectation values of every state of every size; a sample cannot exclude a false warning or a wrong number for another state.", "anchors": ["hqca/acse/_store_acse.py:StorageACSE.analysis", "hqca/vqe/_store_vqe.py:StorageVQE.analysis", "hqca/tools/rdm/_spin_rdm.py:RDM.trace", "hqca/tools/rdm/_spin_rdm.py:RDM.get_spin_properties"]}
{"id": "C148", "title": "The energy does not depend on the transform", "statement": "With transform=Parity or transform=BravyiKitaev, the energy computed by tomography and contraction from the encoded register of a state is the expectation value of the second-quantized Hamiltonian in that state, as with Jordan-Wigner.", "quantifier": "all orbital and electron numbers, Hamiltonians, colourings and real normalised states", "why_tests_cant": "The energies of all states and all Hamiltonians; for the reference and for Hamiltonians without single hops the value is right, so a test on these does not notice the error.", "anchors": ["hqca/acse/_store_acse.py:StorageACSE.evaluate", "hqca/vqe/_store_vqe.py:StorageVQE.evaluate", "hqca/tomography/_tomography.py:generate_rdme", "hqca/transforms/_parity.py:Parity", "hqca/transforms/_bravyi_kitaev.py:BravyiKitaev"]}
{"id": "C149", "title": "A VQE evaluation does not depend on the transform", "statement": "With transform=Parity or transform=BravyiKitaev, one evaluation of the VQE objective returns, for all real parameters, the core energy plus the expectation value of the Hamiltonian in the cluster state of the parameters, as with Jordan-Wigner.", "quantifier": "all orbital and electron numbers, Hamiltonians, depths, colourings and real parameter lists; both transforms", "why_tests_cant": "The whole energy surface for every Hamiltonian: with two spatial orbitals two sign errors cancel and every evaluation is right, so the usual hydrogen test does not notice the error, which appears from three orbitals on.", "anchors": ["hqca/vqe/vqe.py:RunVQE.__test_vqe_function", "hqca/vqe/_ansatz.py:VariationalAnsatz.assign", "hqca/vqe/_ucc.py:getUCCAnsatz", "hqca/transforms/_parity.py:Parity", "hqca/transforms/_bravyi_kitaev.py:BravyiKitaev"]}
{"id": "C150", "title": "A whole VQE calculation with another transform", "statement": "With transform=Parity or transform=BravyiKitaev a VQE calculation with the quasi-Newton optimizer has the guarantees of the Jordan-Wigner one: every evaluation returns, the logged energies never increase and never exceed the Hartree-Fock energy, the final energy is that of the normalised cluster state of the final parameters and is not below the lowest energy, and a normal end means a short gradient.", "quantifier": "every symmetric set of integrals, number of orbitals and electrons, circuit depth, grouping of measurements, number of iterations and length of the line searches; both transforms", "why_tests_cant": "Needs the transform, the state preparation, the tomography, the energy functional and the optimizer together, over every Hamiltonian and every path of the optimizer; the usual two-orbital test is right although larger cases are not.", "anchors": ["hqca/vqe/vqe.py:RunVQE.build", "hqca/vqe/vqe.py:RunVQE.run", "hqca/opts/gradient/bfgs.py:BFGS", "hqca/transforms/_parity.py:Parity", "hqca/transforms/_bravyi_kitaev.py:BravyiKitaev"]}
{"id": "C151", "title": "Tomography from shots", "statement": "With a backend that returns counts, tomography with num_shots=Ns never raises, every entry of the tensor it returns has the exact element as its expectation value, and the mean square deviation of every entry is at most 1/Ns, however many Pauli strings the entry needs and however they are grouped into circuits.", "quantifier": "every number of shots, order, pair of parts, number of orbitals, grouping of measurements and normalised state of the register with a fixed number of alpha electrons; every record of outcomes for the first part", "why_tests_cant": "The result is random: a test sees some records and can only compare with a tolerance, so a small bias or an entry whose error does not shrink with the number of shots is not visible. The bound is on an average over all records of all circuits.", "anchors": ["hqca/tomography/_tomography.py:StandardTomography.simulate", "hqca/tomography/_tomography.py:StandardTomography.construct", "hqca/processes/_process_counts.py:StandardProcess"]}
{"id": "C152", "title": "VQE energy from shots", "statement": "One evaluation of the VQE objective with a backend that returns counts has as its expectation value exactly the energy of the cluster state of the parameters, so on average it is not below the lowest energy, and it deviates by more than a given amount with a probability inversely proportional to the number of shots.", "quantifier": "every symmetric set of integrals, number of orbitals and electrons, real parameters, circuit depth, grouping of measurements, number of shots", "why_tests_cant": "Needs the distribution of the results over all records together with the ansatz, the tomography and the energy functional; a test sees single results.", "anchors": ["hqca/vqe/vqe.py:RunVQE", "hqca/vqe/_store_vqe.py:StorageVQE.evaluate", "hqca/tomography/_tomography.py:StandardTomography.simulate"]}
{"id": "C153", "title": "Residual measured by the quantum solver, end to end", "statement": "The residual the quantum ACSE solver measures for an ansatz is, with a state-vector backend, within rounding of an ideal measured residual for the Hamiltonian step d; with a backend that returns counts its expectation value is exactly that ideal residual and its mean square deviation at most 1/(shots d^2); and the ideal residual tends to the residual of the classical solver in the state of the ansatz when the step goes to zero, on all entries including those the tomography leaves out.", "quantifier": "every number of spatial orbitals above one, numbers of electrons other than one in total, ansatz of layers that conserve the electrons, real symmetric spin-conserving integrals, number of Trotter steps, grouping of measurements, nonzero step, number of shots", "why_tests_cant": "Joins circuit, sampling, reconstruction and a limit in the step; the Hamiltonian step leaves the symmetry sector at finite step, so agreement at one step or with one record shows neither the limit nor the missing bias.", "anchors": ["hqca/acse/_quant_A_acse.py:_runexpiH", "hqca/acse/_quant_A_acse.py:solveqACSE", "hqca/instructions/_instruct_pauli.py:PauliSet", "hqca/tomography/_tomography.py:StandardTomography.construct"]}
{"id": "C154", "title": "ACSE energy from shots", "statement": "The energy of an ACSE ansatz computed with a backend that returns counts has as its expectation value exactly the energy of the state of the ansatz, so on average it is not below the lowest energy, and it deviates by more than a given amount with a probability inversely proportional to the number of shots.", "quantifier": "every symmetric set of integrals, number of orbitals and electrons (not one), ansatz of layers that conserve the electrons, grouping of measurements, number of shots", "why_tests_cant": "The result is random; the claim is about the average over all records of all circuits and a bound on the spread, which single runs do not show.", "anchors": ["hqca/acse/acse.py:RunACSE", "hqca/acse/_store_acse.py:StorageACSE.evaluate", "hqca/tomography/_tomography.py:StandardTomography.simulate"]}
{"id": "C155", "title": "One-body integrals between two orbital sets", "statement": "gen_spin_1ei_lr returns, for two orbitals of one spin, the one-body integral between the left orbital of the first and the right orbital of the second, and zero between different spins; with a transposed right matrix it agrees with generate_spin_1ei; on the active region it only overwrites the active blocks of the array it is given.", "quantifier": "every number of orbitals, rotation matrices, integrals, lists of orbitals without repetition", "why_tests_cant": "The temporary array accumulates over the orbitals, so an error needs particular orbital lists to appear; the claim is for all of them.", "anchors": ["hqca/tools/_chemistry.py:gen_spin_1ei_lr", "hqca/tools/_chemistry.py:generate_spin_1ei"]}
{"id": "C156", "title": "Projection of occupation numbers", "statement": "project_to_plane returns the point closest to the given occupation numbers in the plane through its three reference points and leaves points of that plane unchanged; the Borland-Dennis wave function has three electrons and occupation numbers on the plane of the generalised Pauli constraint; the projection of a density matrix puts it on that plane.", "quantifier": "every vector of occupation numbers, every three amplitudes", "why_tests_cant": "Closest point is a claim against all points of a plane.", "anchors": ["hqca/tools/rdm/_gpc.py:project_to_plane", "hqca/tools/rdm/_gpc.py:project_gpc", "hqca/tools/rdm/_gpc.py:wf_BD"]}
{"id": "C157", "title": "Symplectic helpers of Pauli strings", "statement": "symplectic_product of the bit vectors of two Pauli strings gives the bit vectors and the coefficient of the product of the two operators, phase included; the methods skew and symm of a string answer for every second string of the same length.", "quantifier": "all pairs of Pauli strings, of one length for the product, and all coefficients", "why_tests_cant": "The phase is a sum of integers over all qubits that has to be right modulo four for every pair of strings.", "anchors": ["hqca/transforms/_jordan_wigner.py:symplectic_product", "hqca/operators/quantum_strings/_pauli_string.py:PauliString.skew", "hqca/operators/quantum_strings/_pauli_string.py:PauliString.symm"]}
{"id": "C158", "title": "Starting and restarting an ACSE run", "statement": "A run built from a storage with a given starting ansatz starts from it, with its energy. After any calls, reset(full=True) starts the calculation again from the reference: the run then shows at every step what a new run shows. reset() continues from the present ansatz: it records the energy of that ansatz, and further steps give what they would have given without the reset.", "quantifier": "every sequence of build, next_step and reset calls, every Hamiltonian, tomography, solver and step size (Euler method)", "why_tests_cant": "The state is spread over the run and its storage and which parts survive depends on the whole history of calls.", "anchors": ["hqca/acse/acse.py:RunACSE.build", "hqca/acse/acse.py:RunACSE.reset", "hqca/acse/acse.py:RunACSE.next_step", "hqca/acse/_store_acse.py:StorageACSE"]}
{"id": "C159", "title": "Residual of the classical solver, end to end", "statement": "The residual the classical ACSE solver computes from the measured density matrices of an ansatz is, entry by entry, the expectation value in the state of the ansatz of the commutator of the excitation with the Hamiltonian, up to an explicit accuracy. For an ansatz whose state is an eigenstate the solver returns an empty operator.", "quantifier": "every number of orbitals and electrons, every real symmetric Hamiltonian, every ansatz of spin-conserving excitations, tomography of order two or three", "why_tests_cant": "It is a statement about every entry of a tensor for every circuit and Hamiltonian, and composes circuits, grouping of measurements, reconstruction, contraction and the commutator formulas.", "anchors": ["hqca/acse/_class_A_acse.py:solvecACSE", "hqca/tools/rdm/_spin_rdm.py:RDM.reduce_order", "hqca/tomography/_tomography.py:StandardTomography"]}
{"id": "C160", "title": "A closed Euler run with a three-body tomography", "statement": "An ACSE run with the Euler method and the classical solver, in which every search direction is computed by the driver from the measured density matrices of the ansatz built so far, completes within the allowed number of iterations. The energy it reports is not above the Hartree-Fock energy and is, up to an explicit accuracy, the energy of a normalised state with the right numbers of electrons, so not below the lowest energy of these. If the Hartree-Fock state is an eigenstate, the run leaves it alone.", "quantifier": "every number of electrons, every real symmetric spin-conserving Hamiltonian, every step size, threshold above the accuracy, and number of iterations; tomography of order two or three", "why_tests_cant": "The outcome is a statement about every run of a feedback loop: each ansatz depends on measurements of the previous one, and the comparison is with the lowest energy over all states.", "anchors": ["hqca/acse/acse.py:RunACSE", "hqca/acse/_euler_acse.py", "hqca/acse/_class_A_acse.py:solvecACSE", "hqca/acse/_ansatz_S.py:Ansatz"]}
{"id": "C161", "title": "Cutting back an ansatz", "statement": "Cutting an ansatz to a depth keeps exactly the layers up to this depth; its circuit is a first part of the circuit of the full ansatz, so its state is an intermediate state. Cutting back to the former length undoes an addition. The layers searched below the depth limit exist and are visited once.", "quantifier": "every ansatz, operator, depth (also negative and default) and closure parameter", "why_tests_cant": "It ranges over all ansatz histories; undoing depends on which layers an addition changes and on cleaning, which examples with large coefficients do not show.", "anchors": ["hqca/acse/_ansatz_S.py:Ansatz.truncate", "hqca/acse/_ansatz_S.py:Ansatz.get_lim", "hqca/acse/_ansatz_S.py:Ansatz.__init__", "hqca/acse/_ansatz_S.py:Ansatz.__add__"]}
{"id": "C162", "title": "The slope the line search measures", "statement": "The slope at step zero that an ACSE line search computes from the measured density matrices of the ansatz is the derivative of the energy along the circuits the search runs, up to an explicit accuracy; so unless the measured gradient is within the accuracy, every small enough step along its negative lowers the energy.", "quantifier": "every number of orbitals and electrons, every real symmetric Hamiltonian, every ansatz of spin-conserving excitations, every list of keys and direction, tomography of order two or three", "why_tests_cant": "It compares a number obtained from many circuits with the derivative of a function over all step sizes, for all Hamiltonians and ansaetze.", "anchors": ["hqca/acse/_line_search_acse.py:LineSearchACSE.run", "hqca/acse/_line_search_acse.py:LineSearchACSE.dphi", "hqca/acse/_class_A_acse.py:solvecACSE", "hqca/acse/_tools_acse.py:vector_to_operator"]}
{"id": "C163", "title": "Closed Newton run with the classical solver", "statement": "An ACSE run with the Newton trust-region method either ends with an error at an iteration whose second difference of measured energies is negative, or returns within the iteration limit an energy that is not above the Hartree-Fock energy, belongs to a normalised state with the right numbers of electrons up to the accuracy of one evaluation, and is not below the exact lowest energy by more than that; an eigenstate reference is never moved.", "quantifier": "every number of orbitals and electrons, every symmetric Hamiltonian, every setting of the trust region and step sizes, every number of iterations", "why_tests_cant": "The run is a loop whose step sizes and search directions depend on all the energies measured before; the claim is about every Hamiltonian and every number of iterations.", "anchors": ["hqca/acse/_newton_acse.py:_newton_step", "hqca/acse/acse.py:RunACSE.run", "hqca/acse/acse.py:RunACSE._check", "hqca/acse/_class_A_acse.py:solvecACSE", "hqca/operators/_operator.py:Operator.__mul__"]}
{"id": "C164", "title": "Closed Euler run with the quantum solver", "statement": "An ACSE run with the default (quantum) solver, which measures the residual after a step of the Hamiltonian, completes within the iteration limit and reports an energy that is not above the Hartree-Fock energy, belongs to a normalised state with the right numbers of electrons up to the accuracy of one evaluation, and is not below the exact lowest energy by more than that, however inaccurate the measured residual is; the measured residual never contains a spin-changing or diagonal excitation. A threshold above a non-negligible residual, or a single spatial orbital, ends it with an error.", "quantifier": "every number of orbitals and electrons, every symmetric Hamiltonian, every Hamiltonian step and number of Trotter steps, every number of iterations", "why_tests_cant": "The run is a loop of measured circuits whose later directions depend on the earlier ones; the claim is about every Hamiltonian, step size and number of iterations.", "anchors": ["hqca/acse/_quant_A_acse.py:solveqACSE", "hqca/acse/_quant_A_acse.py:_runexpiH", "hqca/acse/_euler_acse.py:_euler_step", "hqca/acse/acse.py:RunACSE._get_A", "hqca/acse/acse.py:RunACSE.run"]}
{"id": "C165", "title": "The measured direction lowers the energy", "statement": "The search direction the quantum solver derives from a measured residual is a descent direction: when every measured entry is closer to the exact residual than the threshold below which entries are dropped, every sufficiently small Euler step along the returned operator lowers the energy, unless the reported norm is zero; and for a small enough Hamiltonian step, while the rounding of the tomography divided by that step stays below half the threshold, the measured entries are that close. The slope is minus four times the square of the reported norm, up to the ratio of the accuracy to the threshold. From shots this holds with a probability that tends to one with the number of shots, for a fixed small Hamiltonian step.", "quantifier": "every number of orbitals and electrons, every Hamiltonian, every ansatz, every threshold, every number of Trotter steps, every sufficiently small step, every number of shots and every outcome", "why_tests_cant": "The claim is about a limit of two step sizes and every Hamiltonian; a test sees one finite step on one molecule.", "anchors": ["hqca/acse/_quant_A_acse.py:solveqACSE", "hqca/acse/_quant_A_acse.py:_runexpiH", "hqca/acse/_euler_acse.py:_euler_step"]}
{"id": "C166", "title": "Sums, differences and multiples of RDMs", "statement": "Adding or subtracting two RDMs of the same orbitals and order, whether each is currently stored as a tensor or as a matrix, gives a tensor whose elements are the sums or differences of their elements, and leaves the elements of both unchanged; a multiple by a number has the multiplied elements in the form of the original; the observable of a two-body RDM is the contraction of its elements with the given matrix in either form, so that of a sum is the sum; RDMs of different systems (orbitals, order or number of electrons) are refused.", "quantifier": "all orbital lists, all orders, all arrays in either form, all numbers", "why_tests_cant": "Every combination of order, number of orbitals and stored form is claimed, for every index; a test checks one shape.", "anchors": ["hqca/tools/rdm/_spin_rdm.py:RDM.__add__", "hqca/tools/rdm/_spin_rdm.py:RDM.__sub__", "hqca/tools/rdm/_spin_rdm.py:RDM.__mul__", "hqca/tools/rdm/_spin_rdm.py:RDM.observable"]}
{"id": "C167", "title": "Removing a term of an operator", "statement": "remove deletes exactly the named term: afterwards it is absent, all other terms are unchanged and in order, the operator is the old one minus the term, and adding the term again restores it; an absent term changes nothing; terms can be named by whatever `in` accepts.", "quantifier": "all operators, all strings, any meaning of the strings", "why_tests_cant": "Every operator and position of the term is claimed, together with the identity between operators.", "anchors": ["hqca/operators/_operator.py:Operator.remove", "hqca/operators/_operator.py:Operator.__contains__"]}
{"id": "C168", "title": "Settings of the ACSE driver", "statement": "Combinations of solver, method, norm, convergence type and ansatz splitting that the ACSE driver cannot run are refused when the driver is created: whatever it accepts can be built and stepped without an exception caused by the settings.", "quantifier": "all values of the keywords update, method, A_norm, convergence_type and split_ansatz", "why_tests_cant": "The keywords are free strings; every combination is claimed.", "anchors": ["hqca/acse/acse.py:RunACSE._update_acse_kw", "hqca/acse/acse.py:RunACSE.build", "hqca/acse/acse.py:RunACSE._get_A", "hqca/acse/acse.py:RunACSE._check", "hqca/acse/_check_acse.py:check_routine"]}
