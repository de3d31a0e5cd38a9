# Design

Formal model (Lean 4, `/verif/lean`) of the semantic core of HQCA (`/repo`, python). The code is read as text; nothing is executed.

## 1. How the model is built

* **Shallow, total, computable definitions** under `Verif/Model/*`, one file per group of source files; every definition cites the
  file and lines it models and says where it simplifies. Exceptions and `sys.exit` are values (`none`). Loops are folds or
  structural recursion; `while` loops are "the state after n passes" or recursion on fuel, and that the fuel suffices (or that the loop
  never ends) is a theorem.
* **Coefficients**: class `Coef K` (`Verif/Coef.lean`): a field with an imaginary unit, conjugation, an exact zero test and the test
  `abs(c) <= 1e-12` (`small`). Instances: the complex numbers (the intended reading of python's `complex`) and the Gaussian rationals `GQ`
  (computable, used for concrete cases). Theorems never assume "small means zero": where the code drops small terms the statement has
  an explicit error bound over the complex numbers, or a hypothesis that nothing is dropped.
* **Numerical optimizer, line-search and ACSE code**: generic ordered fields (rationals for concrete cases, reals for calculus).
  Objectives, gradients, energies and backends are arbitrary functions. Floating-point rounding is not modelled anywhere.
* **Specifications** under `Verif/Spec/*`, independent of the model: amplitudes `(Nat -> Bool) -> K` and linear maps on them (`Oper`); a
  Pauli letter is a 2x2 matrix acting on one bit; fermionic ladder operators are defined by their Fock-space action with sign
  (-1)^(occupied orbitals before k); reduced density matrices are expectation values of ladder products; circuits denote products of site
  operators.
* **Theorems about properties** under `Verif/Props/*` with a concrete case beside them (`example`), helper lemmas under `Verif/Proofs/*`.
* **Mutable objects** (`Operator` holds references to string objects): explicit heap model (`Model/Heap`), with a refinement theorem from every
  history of operations to the value model (C06), which the rest of the development uses.

## 2. Trusted base

* Lean 4.33.0 kernel, and Mathlib definitions occurring in statements.
* Axioms: `propext`, `Classical.choice`, `Quot.sound` only (`#print axioms` on the theorems of the manifest). No `sorry`, no added axiom, no
  `native_decide`, no `bv_decide`; witnesses are checked by `decide +kernel`.
* The reading of `/repo` recorded in the comment on each definition. It is not checked by a machine.
* Assumptions about libraries: meaning of the circuit library's gates (`Spec/QCirc`); python's dict keeps insertion order; the graph library's
  colouring is an arbitrary result (theorems state what they need of it: proper, contiguous), except in C126, where the Boost routine behind it is transcribed; sympy's substitution is by value;
  numpy arrays are functions of their indices; `np.argsort`/`sorted` is any sorting order where the result depends on it.

## 3. What is modelled

| Source (under `/repo/hqca`) | Model | Left out |
|---|---|---|
| `operators/_operator.py` | `Operator`, `Heap`, `Clifford`, `OpExtra`, `OpRemove` | printing |
| `operators/quantum_strings/*` | `Pauli`, `Symplectic`, `Reduce`, `Fermi`, `DMatrix` | printing, symbolic coefficients |
| `core/primitives/_pauli_strings.py`, `core/_circuit.py` | `Primitives`, `Clifford`, `GenericCircuit` | `primitives/_base.py`, `_special.py` |
| `transforms/_jordan_wigner.py`, `_parity.py`, `_bravyi_kitaev.py`, `_qubit.py`, `_inverse_jordan_wigner.py`, `_functions.py`, `_mixed_transform.py` | `Transform`, `InverseJW`, `Taper`, `Mixed` | `_para_bravyi_kitaev`, `PartialJordanWigner` (uses the undefined `QubitZString`) |
| `transforms/_parity_qp.py`, `_para_fermion.py` | `ParityQP`, `ParaFermion` | |
| `tools/_operator_tools.py` | `PTrace` | |
| `tools/rdm/_gpc.py` | `Gpc` | |
| `tools/_stabilizer.py` | `Stabilizer`, `StabCircuit` | prints |
| `tools/_gates.py`, `_state.py` | `Circ`, `Gates`, `DensMat`, `CNBasis` | |
| `tools/_fermionic_operators.py` | `SpinOps` | |
| `tools/rdm/_spin_rdm.py`, `_compact_rdm.py` (observable), `_functions.py`, `_spatial_rdm.py`, `_qubit_rdm.py` (`build_2rdm`), `maple/_purify.py` (reading) | `RDM`, `RDMAlg`, `RDMAdd`, `Analysis`, `SpinRDM`, `SpinBlocks`, `SaveRDM`, `Spatial`, `Build2` | file output |
| `tools/_chemistry.py` (integrals, ordering of orbitals) | `Integrals`, `IntegralsPyscf`, `IntegralsLR`, `Reorder` | pyscf calls |
| `tomography/_tomography.py`, `_qubit_tomography.py`, `_reduce_circuit.py`, `__graph.py`, `__symmetry_project.py`, `_constant_tomography.py` | `Grouping`, `GraphColour`, `Compare`, `Tomography`, `QubitTomo`, `StateTomo`, `TomoFile`, `RhoTomo`, `PauliTomo`, `SymProj`, `ReducedTomo`, `RunMultiple`, `Resample`, `ShotTomo`, `MeasResid` | `__constant_project.py`, file IO; the linear algebra of `__symmetry_project.py` is an oracle |
| `processes/_process_counts.py`, `_process_stabilizers.py` | `Process`, `StabProcess`, `StabCircuit` | mitigation |
| `acse/acse.py`, `_ansatz_S.py`, `_tools_acse.py`, `_line_search_acse.py`, `_newton_acse.py`, `_bfgs_acse.py`, `_conjugate_acse.py`, `_class_A_acse.py`, `_euler_acse.py`; `processes/_simulate_iterative_unitary.py` | `ACSE`, `Ansatz`, `AnsatzCut`, `Euler`, `Variance`, `EulerRun`, `EulerRun3`, `EulerQ`, `DescentQ`, `DescentTrunc`, `Settings`, `NewtonRun`, `Restart`, `ClassResid`, `LineSlope`, `LineSearch`, `Newton`, `BFGS`, `CG`, `Residual`, `ACSERun` | mitigation |
| `instructions/_instruct_pauli.py`, `_instruct_exact_unitary.py` | `Instructions`, `ExactUnitary`, `ExactInst` | the other instruction sets |
| `vqe/vqe.py`, `_ucc.py`, `storage/_quantum_storage.py` (filter counter, reference state, orbital assignment) | `VQE`, `UCC`, `Prepare`, `MeasFilter`, `QubitOrder`, `Report`, `EncEnergy`, `EncVQE`, `EncVQERun`, `VQEObjective`, `VQERun` | ADAPT |
| `opts/opt.py`, `gradient/*`, `simplex/neldermead.py`, `simplex/lagarias.py`, `functions/*` | `Optim`, `LineSearch`, `NelderMead`, `NMCrit`, `GradDescent`, `BFGS`, `BFGSRun`, `Objectives` | nevergrad, hybrid, and the particle swarm (`gpso.py`), whose `initialize` always raises because `random`, `copy` and `pr_o` are not defined |
| `hamiltonian/molecular.py`, `fermionic.py`, `qubit_particle.py`, `qubit.py` | `Hamiltonian`, `ProjK2`, `Integrals`, `QubitParticle`, `QubitHam`, `Separable`, `Cholesky`, `ActiveSpace` | pyscf calls, `build_cholesky_operator_*`, `qubit_particle.py` with an active space smaller than the full one (raises), `single_qubit.py`, `two_qubit.py`, `three_qubit.py` (names undefined) |
| `maple/`, `storage/` (rest), `hqca.py`, `config.py` | | interfaces to other programs, records without semantics |

## 4. Defects found

Each is a theorem (negation with a witness, or an exact description of what the code does instead), listed in the manifest.

* `A - B` negates the string objects of `B` in place (C05); `A - A` is not zero.
* A number times an operator, a complex number on the right of a Pauli operator, and `truncate` raise; `!=` of strings is wrong (C101).
* The symmetry projection raises instead of returning the zero operator for elements that change the alpha number by an odd amount (C108).
* `project_gpc` raises on every input; `skew` and `symm` of Pauli strings raise; `gen_spin_1ei_lr` leaves out the virtual orbitals (C155-C157).
* `use_initial=True` makes the first `build` of an ACSE run raise; after `reset(full=True)` the storage keeps the old density matrix, so a following `reset()` records a wrong energy (C158).
* Cutting back an ansatz to its former length does not undo an addition if it is not closed or a layer vanished (C161).
* The classical ACSE solver with a three-body tomography raises for two electrons (C159).
* With an ansatz depth other than 1 the VQE circuit has its angles divided but is not repeated (C110).
* Symmetry-projected tomography of order 1 with real parts raises, as the unprojected one (C109).
* A qubit Hamiltonian whose order differs from its number of qubits cannot be built; complex coefficients give a wrong energy without an error (C107).
* The spin properties of a spatial RDM: S_z is always zero, S^2 is wrong for most states (C106).
* The gate estimate of a list loses two per identity term, and is zero for a transformed ansatz (C104).
* The stuck check of Nelder-Mead compares the first reflected point with a memory filled with zeros, so a first reflection onto the origin is replaced by a random point (C123).
* An active space that leaves an odd number of frozen electrons is accepted, and its energies are those of the molecule with one electron missing (C122).
* The Euler step with convergence type `trust` raises `AttributeError` in `_check`: `tr_taylor` and `tr_object` are set by the Newton step only (read in the text; not modelled).
* The Euler step scales the residual operator of the driver in place; with the density-matrix backend an empty step repeats the last layer (C102, C103).
* `check_variance` uses the matrix kept by the driver, which with an open ansatz is the initial one for the first p iterations (C136).
* The measurement filter is read once per circuit, so the circuits of one run can be corrected with different calibrations; the initial calibration corrects one circuit less than the frequency asked for, none for frequency one; a filter assigned by the user can be replaced before its first use (C137).
* `reorder` compares the occupations before reordering, so from three orbitals on the result need not be in Aufbau order (C138); `get_ei` calls it with three orbitals whatever the number of orbitals (read in the text).
* With `tomo_type='pauli'` the coefficient of a string listed twice is twice its expectation value (C139).
* `generate_spin_2ei_pyscf` documents the index order i,k,j,l but fills i,j,k,l (C140).
* An operator stores strings under their letters: adding a qubit string with the letters of a fermionic string that is present doubles the fermionic one (C141).
* `RDM.save` prints six decimals whatever `precision` is (default eight), and the purification reads the real column only (C142).
* The simplex criterion compares the points' distances from the origin, not the points: a simplex symmetric about the origin counts as converged (C143).
* A tomography read with `load` has no `rdme_keys` (the ACSE driver reads it) and no `real` (so it cannot be saved again), and keeps the shape of the order it was made with (C144).
* `build_separable_operator` called with its defaults leaves an empty list, on which the quantum solver raises; a grouping that omits or repeats strings silently changes the Hamiltonian; `threshold` is ignored (C145).
* `rdm_to_qubit='alternating'` makes tomography of order 2 raise for two or more spatial orbitals; a reordered pair of lists gives the energy of another determinant, since the integrals are not reordered (C146).
* `StorageACSE.analysis` prints the trace of the 2-RDM, n(n-1), as the number of electrons (C147).
* With the parity or Bravyi-Kitaev transform the energy is that of a Hamiltonian whose single-hop terms have the opposite sign (C148).
* With the parity or Bravyi-Kitaev transform the VQE objective is that of a Hamiltonian whose hops within the virtual (or occupied) orbitals are reversed; with two spatial orbitals the errors cancel (C149); on a ring of three orbitals the objective goes below the lowest energy.
* `hqca.acse` and `hqca.storage` import `hqca.cqe._pauli_ansatz`, a module that is not in the repository; the model takes the imports as given.
* `FermiString(..)` shortens the caller's index list (C63); the standard tomography of order 1 therefore always raises (C62).
* Ordering as a D matrix: wrong sign with hole letters, endless on strings with one kind of letter (C12). Identity qubit strings raise (C13), so the product of two sign-free operators that both contain one raises (C04).
* Parity and Bravyi-Kitaev transforms apply the letters in reverse order: sign (-1)^(m(m-1)/2) (C16, C17). Inverse Jordan-Wigner is wrong
  in general (C18).
* `operator_to_matrix` raises on operators cleaned to nothing (C22); repeated qubits in a partial trace accepted silently (C23);
  `partial_trace` never reaches the operator version; the symbolic partial trace is transposed (C58), `Circ.trace_operator` too (C60).
* Grouping with `rel='mc'` stops on commuting strings that do not commute qubit by qubit (C25).
* Four-index permutation signs are wrong (C29), hence order-4 filling (C28), Hartree-Fock (C30), enumeration (C27); contraction of order 4 gives zero
  and `Ne = p-1` divides by zero (C31). The wedge product loses terms whose index list is not ascending (C32),
  hence `reconstruct` is wrong for correlated states (C98).
* RDMs from an alpha-beta block and the spatial RDM ignore the orbital lists of the object, and drop imaginary parts (C97).
* Direct application of a Pauli string applies X for Y (C38).
* Adding an operator to a closed ansatz cleans the caller's operator in place (C65).
* ACSE: increases missed, and the count is kept over a reset (C40); default convergence type raises, the depth limit raises (C69);
  line search may report success with a stale slope (C43 notes), cubic step of a reversed bracket picks the maximiser (C66), Newton step raises
  for negative curvature and always rejects with noise (C67); the 1e-30 guard of the quasi-Newton update breaks the secant equation (C45).
* `RDM.analysis` raises for one particle and for more beta than alpha orbitals; with fewer it reports additional zero occupations (C127).
* The exact one-qubit instruction ends the program for every rotation whose half angle has a negative cosine (C128); from the third operator on the list is divided wrongly, and propagation by its default method always raises (C129).
* Comparison of groupings: no check of the result, colours of successive passes are mixed, default arguments raise (C133).
* Line search layers: only half of each excitation is passed, so the circuits make a real state complex (C131).
* Encoded symmetry filter: wrong combinations of signs are kept as soon as there are two symmetries, and the evaluation always raises (C130).
* Grouping: the methods and strategies `greedy`, `default` and `rlf` raise on undefined names; only largest-first works (C126).
* Optimizers: BFGS line search may not end (C46), in particular not on a parabola of curvature at most 1/50 (C124); no iteration limit in the driver, backtracking never ends (C55); Nelder-Mead's ordering is wrong
  from three parameters on (C47); Ackley gradient wrong (C54); gradient descent reports the latest value as best and fails on plain floats (C99); the Lagarias simplex
  raises when it hits a minimum by reflection and exchanges the two contractions (C100).
* VQE: iteration cap never enforced, best point lost (C49), only BFGS can be used (C70).
* UCC: mixed doubles missing for user orbital orders (C50).
* Molecular Hamiltonian: building its operators always raises (C72); with a frozen core the operator lacks the core mean field (C52); two-body
  integrals accumulate onto a given array (C73).
* ACSE truncation of the search vector with BFGS/CG raises KeyError (C68).
* `PauliSet` treats real coefficients as imaginary ones and reuses the previous angle for mixed ones (C76).
* `Operator.clifford`: wrong sign in the S row, no row for the letter I (C79). `GenericCircuit` is always created with a keyword it does not
  have, and its swap appends nothing (C80).
* `SingleQubitExponential` emits rotations by minus twice the angles it has tested (C82), and combining operators with a real coefficient raises
  NameError (C81).
* The Hager-Zhang update reads undefined names and silently becomes steepest descent (C84); the limited-memory recursion pairs every step with the
  newest gradient difference and ignores the newest step (C85).
* Diagonal symmetry filtering uses halves as spin labels whatever the orbital ordering: with the alternating ordering the reference is discarded (C86).
* Tomography with the parity or Bravyi–Kitaev transform returns elements that move an odd number of electrons with the wrong sign (C112).
* `StorageVQE` cannot be created, or starts from the energy of a wrong determinant, when there are frozen or virtual orbitals; neither storage can be created for `2 Sz` outside -1..2 (C113).
* `solveqACSE` stops with an AssertionError on nearly converged residuals; `solvepACSE` raises for every norm but `None` (C114).
* `DensityMatrix.partial_trace` removes the wrong qubits unless the list is ascending; a state accepts only one circuit (C87).
* Several tomographies in one job: no results from number 100 on, none on a second run (C117). The error estimate by resampling is exactly zero for the
  default sizes and overwrites the counts (C118). The Cholesky factorisation calls a function that does not exist (C116).
* Stabilizer measurement circuits: the primitives for S† and H use an undefined `pi`, so only groups of Z strings can be measured (C119).
* Seen while reading, not stated as a property: the quantum ACSE with `matrix=True` reads `circ.rdm.rdm` of an array (AttributeError);
  `vqe/adapt.py` imports two modules that do not exist, so `import hqca.vqe` fails as a whole (the theorems on `vqe/` describe the code past that
  import); `primitives/_base.py`
  uses `pi` without importing it; `QuantumStorage.set_algorithm` for the models `sq`, `tq` reads an attribute never set;
  the ansatz-shift mitigation can never run (`check_routine` demands `split_ansatz`, with which the driver raises); `QubitZString` is defined nowhere,
  so `PartialJordanWigner` always raises; of the colouring options only `gt` with largest-first works, so `compare_tomography` raises with its default arguments (C133).

## 5. Properties: approach and result

For each property: how it is modelled and proved; status; what is missing. Theorem names are relative to `HQCA.Props`.

* **C01 Pauli product is the matrix product** - model l/r vectors and phase exponent exactly; spec = tensor product of 2x2 matrices acting on amplitudes; induction on length.
  *proved*: `C01_pauli_product`, `C01_length_mismatch`.
* **C02 Commutation tests are exact** - model both loops; spec = commutation of the denoted operators; induction, with the 4x4 letter table settled per letter.
  *proved*: `C02_commute_iff`, `C02_not_commute_anti`, `C02_qwc_iff`, `C02_qwc_commute`.
* **C03 Operator addition is linear** - ordered dictionary as association list; spec = coefficient function and denoted operator; also error bound over C.
  *proved*: `C03_add_coef`, `C03_addStr_coef`, `C03_add_den`, `C03_add_complex`.
* **C04 Operator multiplication is composition** - double loop as folds; spec = composition of denoted operators; clean as explicit drop of small terms.
  *partial*: `C04_mul_den`, `C04_mul_mismatch`, `C04_mul_fermi`, `C04_mul_qubit_partial`, `C04_qubit_fails`. Pauli operators of one length and fermionic operators: full. Sign-free (qubit) operators: whenever one of the two operators has no identity string; C04_qubit_fails: the product raises whenever both have one.
* **C05 Operator subtraction computes A-B and leaves B alone** - expected to FAIL: A-B negates B in place; heap model gives witness; partial theorem for the value of the result when A and B share no object.
  *partial*: `C05_sub_exact`, `C05_sub_partial`, `C05_sub_from_product`, `C05_argument_negated`, `C05_self_violated`, `C05_defined`. A - B negates the string objects of B in place. The value of the result is right when the string objects of A and B are distinct and both are fresh; the claim that B is unchanged is false, and so is A - A = 0; both refuted with witnesses.
* **C06 Aliasing safety of accumulated operators** - explicit heap of string objects, operators as key->reference maps; invariants over histories of add/sub.
  *proved*: `C06_additions_refine`, `C06_add_frame`. Every history of constructions, additions, products and commutators of mutable operators refines a value semantics without sharing, up to coefficient-level equality.
* **C07 Commutator** - heap model: products are fresh, so the in-place negation is invisible.
  *proved*: `C07_commutator`, `C07_commutator_self`, `C07_commutator_pauli`, `C07_commutator_fermi`, `C07_defined_pauli`, `C07_defined_fermi`. commutator(A,B) denotes AB - BA (up to the cleaning of each coefficient).
* **C08 Cleaning only drops negligible terms** - filter lemma.
  *proved*: `C08_clean`.
* **C09 Fermionic strings normal-order correctly** - model the bubble sort (with fuel = measure, shown sufficient) and the contraction loop; spec = product of Fock-space ladder operators.
  *proved*: `C09_fermi_generate`, `C09_zero_iff`.
* **C10 Fermionic string product** - corollary of C09 plus the decomposition of a string into ladder product.
  *proved*: `C10_fermi_mul`.
* **C11 Conjugate transpose** - adjoint stated as matrix-element condition on finite-support states.
  *proved*: `C11_fermi_adjoint`.
* **C12 D-matrix ordering preserves the operator** - expected to FAIL (sign flipped twice on h letters; no termination on pure-creation strings): negations by witness, partial theorem for strings the loop handles.
  *partial*: `C12_order_partial`, `C12_nontermination`, `C12_hole_wrong`. Correct for strings without hole letters having both creation and annihilation; the loop never ends on strings with one kind of letter, and hole letters get the wrong sign (double negation).
* **C13 Qubit strings** - same sort/contraction model without sign.
  *partial*: `C13_qubit_generate`, `C13_qubit_mul_partial`, `C13_empty_raises`, `C13_mul_identity_raises`. Violated for identity strings: the constructor raises IndexError; proved for everything else.
* **C14 Jordan-Wigner is exact** - model the reversed loop with Operator products; spec = Fock ladder operators; includes what happens below the 1e-12 threshold.
  *proved*: `C14_jordan_wigner`, `C14_threshold`, `C14_complex`. exact whenever the scaled coefficient is above the 1e-12 cut-off; below it the result is empty (C14_threshold)
* **C15 Operator.transform is a linear homomorphism** - coefficient-level error bound over all terms and exactness when nothing is dropped.
  *proved*: `C15_transform_jw`, `C15_transform_unique`, `C15_product`, `C15_sum`. the operator returned equals the exact expansion with small terms removed; products and sums before and after the transform agree coefficient by coefficient within explicit multiples of 1e-12
* **C16 Parity mapping is faithful** - expected to FAIL by a reversal sign; exact theorem with the sign (-1)^(m(m-1)/2), counterexample for m=2.
  *partial*: `C16_parity_signed`, `C16_encoding_bijective`, `C16_parity_partial`, `C16_parity_violated`. the code applies the letters in reversed order, so strings whose reversal sign is -1 come out with the wrong sign: exact signed statement proved, violation proved
* **C17 Bravyi-Kitaev mapping is faithful** - same as C16 with the recursive flip/update/parity sets.
  *partial*: `C17_bravyi_kitaev_signed`, `C17_encoding_bijective`, `C17_bravyi_kitaev_partial`, `C17_bravyi_kitaev_violated`. same reversed order sign as C16
* **C18 Inverse Jordan-Wigner round trip** - expected to FAIL for 3 or more qubits; partial theorem for <=2 qubits / diagonal strings, counterexample.
  *partial*: `C18_inverse_jw_partial`, `C18_round_trip_partial`, `C18_violated`. InverseJordanWigner inverts JordanWigner on the strings its code treats correctly; a witness shows that it fails in general.
* **C19 Qubit mapping** - as C14 without sign string.
  *proved*: `C19_qubit`, `C19_threshold`, `C19_transform_qubit`. string-level mapping and Operator.transform(Qubit); calling Qubit on an Operator raises NameError (see DESIGN)
* **C20 Qubit tapering preserves the sector** - eigenspace intertwining: inserting the eigenvector on the trimmed qubit intertwines the operator and the trimmed operator.
  *proved*: `C20_trim_restricts`, `C20_trim_compresses`, `C20_order_required`, `C20_tapered_transform`, `good_exists`. Exact for every operator, qubit list and sector. The end-to-end theorem (basis change then trimming) assumes coefficients that are Gaussian-integer multiples of a number above the cleaning threshold.
* **C21 Clifford basis change used for tapering** - algebra in the operator ring.
  *proved*: `C21_basis_change`, `C21_unitary_iff`, `C21_change_basis`. Also shows the construction is not unitary when tau has I or X at q, which the code does not check.
* **C22 Matrix/operator round trip** - entrywise model on bit strings; sum over matrix units.
  *partial*: `C22_matrix_to_qubit`, `C22_operator_to_matrix`, `C22_round_trip_partial`, `C22_zero_matrix_raises`. matrix_to_qubit and operator_to_matrix exact; round trip within 16^n*1e-12 because transform cleans; violated for the zero matrix (and any matrix cleaned away), where operator_to_matrix raises
* **C23 Partial trace** - index model on bit lists.
  *proved*: `C23_partial_trace`, `C23_universal`, `C23_trace`, `C23_order`, `C23_tensor`, `C23_repeated_qubit`. distinct qubits below n, n>=1; a repeated qubit is silently accepted and gives a wrong result (C23_repeated_qubit)
* **C24 Partial trace of Pauli operators** - denotation against averaged partial trace.
  *proved*: `C24_partial_trace`, `C24_operator`. string and operator version, normalised convention; the public dispatcher partial_trace() never reaches the operator version (see DESIGN.md)
* **C25 Measurement grouping is complete and sound** - colouring left abstract (any outcome); the final check modelled.
  *partial*: `C25_sound`, `C25_complete_qwc`, `C25_commutes`, `C25_mc_exits`. Sound for every relation and every colouring; returns for rel='qwc' with any proper contiguous colouring. For rel='mc' it stops on commuting strings that are not qubit-wise commuting (C25_mc_exits). The graph library's colouring is an arbitrary function.
* **C26 Expectation value from counts** - sum over list of records.
  *proved*: `C26_mean`, `C26_zero_total`, `C26_identity`, `C26_merge`, `C26_bounds`, `C26_statevector`. Counts branch over any field, bounds over the rationals; state-vector branch over the complex numbers up to the amplitudes below 1e-14 the code skips.
* **C27 Unique RDM elements are complete** - enumeration loops as list comprehensions.
  *partial*: `C27_order1`, `C27_order2_partial`, `C27_order3_partial`, `C27_fails_order2`, `C27_fails_order2_beta`, `C27_fails_interleaved`, `C27_fails_order4`. Order 1: proved. Orders 2, 3: proved for contiguous alpha then beta orbitals with at most as many beta as alpha orbitals; fails otherwise (witnesses). Order 4: violated for every Hamiltonian with at least four alpha orbitals.
* **C28 RDM filling gives an antisymmetric Hermitian tensor** - filling loop over signed permutations.
  *partial*: `C28_antisymmetric_partial`, `C28_hermitian_partial`, `C28_fails_order4`, `fill_exact`. Orders 1 to 3: filled tensor antisymmetric and Hermitian, and equal to any antisymmetric Hermitian target whose unique elements are supplied. Order 4: violated (witness), because the permutation generator gives wrong signs for four elements.
* **C29 Signed permutations** - model the recursion; Mathlib Equiv.Perm.sign / inversion count as spec; expected to FAIL at length 4 for unordered_permute.
  *partial*: `C29_signed_permutations_partial`, `C29_fails_four`, `C29_empty`, `C29_all_permutations`, `C29_count`, `C29_nodup`, `C29_permute`, `C29_permute_nodup`. Signs are correct up to three elements; wrong for four (witness). The set of permutations is complete without repetition for every length.
* **C30 Hartree-Fock RDM** - tensor model as functions on index lists.
  *partial*: `C30_hartree_fock_partial`, `C30_trace_partial`, `C30_antisymmetric_partial`, `C30_contraction_partial`, `C30_fails_order4`. Orders 1 to 3: equal to the RDM of the determinant at every index, trace N!/(N-p)!, antisymmetric, contraction consistent. Order 4 violated (wrong sign, witness).
* **C31 RDM contraction is consistent** - tensor model as functions on index lists.
  *partial*: `C31_state_partial`, `C31_tensor_partial`, `C31_fails_order4`, `C31_raises`. Orders 2 and 3 proved for all tensors and, for states, equality with the lower RDM. Order 4 (and 1) always gives zero; Ne=p-1 raises ZeroDivisionError.
* **C32 Wedge product** - expected to FAIL (lost terms): witness + partial.
  *partial*: `C32_wedge_partial`, `wedge_kept`, `C32_square`, `C32_hf_two`, `C32_hf_three`, `C32_fails_lost`, `C32_fails_cumulant`. p+q<=3: exact description of the result; equals the wedge product when no term is dropped, always for D1*D1 and for Hartree-Fock factors. Violated in general: terms whose concatenated index list is not already ascending are lost, also in reconstruct.
* **C33 contract/expand round trip** - index bijection.
  *proved*: `C33_round_trip`, `C33_switch`, `C33_layout`.
* **C34 Stabilizer elimination** - matrix model over Bool rows with pivots.
  *proved*: `C34_reduced`, `C34_row_space`, `C34_rank`. Any matrix over GF(2): reduced row echelon form, same row space, number of pivots equals the rank. numpy 0/1 arrays reduced mod 2 are modelled in ZMod 2.
* **C35 Symmetry generators commute with the Hamiltonian** - null-space argument.
  *proved*: `C35_commutes`, `C35_complete`, `C35_count`, `C35_independent`. Any nonempty collection of strings of one length, identity and repeats included. Also complete, independent, and of the right number. sympy substitution modelled by its value.
* **C36 Check-matrix round trip** - bit-list round trip, symplectic form.
  *proved*: `C36_round_trip`, `C36_round_trip_vec`, `C36_symplectic`, `C36_commute`, `C36_product`.
* **C37 Pauli gadget** - circuit denotation as product of site operators; exp(i t P) = cos t + i sin t P.
  *proved*: `C37_gadget`, `C37_identity`, `C37_group`. Exponential series converges to the circuit's unitary; identity strings up to the global phase. Meaning of the circuit library's gates is assumed (Spec/QCirc).
* **C38 Direct application of a Pauli string** - expected to FAIL for Y: witness; partial for strings without Y.
  *partial*: `C38_apply_partial`, `C38_Y_as_X`, `C38_basis_state`, `C38_Y_fails`, `C38_defined`. Violated: Y is applied as X. Holds for strings without Y, and for every string on computational basis states up to a state-dependent phase.
* **C39 Ansatz accumulation conserves generators** - list-of-dictionaries model.
  *proved*: `C39_add`, `C39_unique`, `C39_add_complex`, `C39_history`, `C39_sub`. Sum of the layers equals the sum of everything added, up to the documented 1e-12 cleaning (error bound over C, exact when no term is small); keys unique among changeable layers.
* **C40 ACSE loop bookkeeping and termination** - state machine over energies.
  *partial*: `C40_max_iter`, `C40_best`, `C40_third_increase_partial`, `C40_increase_missed`, `C40_reset_keeps_count`, `C40_completes`. Iteration limit and best energy proved for all histories. The stop on the third increase holds when an increase means 'at least the mean of the last three recorded energies'; with 'higher than the previous energy' it is false (C40_increase_missed).
* **C41 Generator truncation** - filter.
  *proved*: `C41_exact`, `C41_largest`, `C41_complex`. For every generator with distinct keys and every threshold. Models the non-matrix branch without the split of excitations.
* **C42 Newton step** - real algebra.
  *proved*: `C42_derivatives`, `C42_step`. Exact arithmetic; slope and curvature above the 1e-16 guards; trust ratio threshold at most 1.
* **C43 Line search returns a Wolfe point** - state machine of the search with objective as parameter.
  *proved*: `C43_run`, `C43_search`, `C43_stale_slope`, `C43_limit_mismatch`, `C43_alp_max_exception`, `C43_accepts`. For descent directions and a first step within alp_max; energies and slopes are arbitrary functions, numbers an ordered field. line_search_nocedal alone may report success with a stale slope (C43_stale_slope); LineSearchACSE.run detects it.
* **C44 Interpolation steps** - real algebra.
  *proved*: `C44_quadratic`, `C44_cubic`. Over an ordered field (quadratic) and the reals (cubic).
* **C45 BFGS updates** - Mathlib matrices over R.
  *partial*: `C45_secant_partial`, `C45_secant_inv_partial`, `C45_secant_acse`, `C45_secant_guarded`, `C45_symmetric`, `C45_inverse_partial`, `C45_posDef`. The update keeps symmetry and positive definiteness and satisfies the secant equation when neither denominator is replaced by the 1e-30 guard. The guard itself breaks the secant equation: witness in C45_secant_guarded. Floats are modelled as an ordered field.
* **C46 Optimizer BFGS line search** - fuelled model; non-termination proved for a linear objective.
  *partial*: `C46_wolfe`, `C46_ends_partial`, `C46_endless`, `C46_range`, `C124_endless`. Every returned step satisfies the strong Wolfe conditions; termination fails (C46_endless) and is characterised exactly by C46_ends_partial. C124_endless: also on every flat enough parabola.
* **C47 Nelder-Mead monotone best** - list model of simplex; ordering bug witness.
  *partial*: `C47_order_permutes`, `C47_order_best`, `C47_cached`, `C47_monotone`, `C47_step_kinds`, `C47_sorted_one_partial`, `C47_sorted_two_partial`, `C47_not_sorted`. Cached values stay the objective values of the simplex points and the best value never increases, for every dimension. The ordering part holds for one and two parameters only: for three or more the selection loop indexes the values array with the wrong index and the result can be unsorted (C47_not_sorted is a witness).
* **C48 Backtracking and bisection line searches** - fuelled model.
  *proved*: `C48_backtracking`, `C48_backtracking_ends`, `C48_bfgs_backtracking`, `C48_bfgs_backtracking_ends`, `C48_bisect`, `C48_bisect_init`, `C48_bisect_endless`. Also: backtracking ends for differentiable objectives; the bracketing loop of the bisecting search may not (C48_bisect_endless).
* **C49 VQE iteration cap and best tracking** - expected to FAIL: iteration counter never advances.
  *partial*: `C49_no_limit`, `C49_best_is_optimizer`, `C49_best_partial`, `C49_best_lost`, `C49_nothing_stored`. The cap is not enforced: the driver's iteration counter is never increased and the requested limit is ignored (C49_no_limit, for all histories). The reported energy is the optimizer's, which is the lowest evaluated only if the optimizer reports that; C49_best_lost shows a step where it is not.
* **C50 UCC excitations** - list comprehension model.
  *partial*: `C50_sound`, `C50_exactly_once_partial`, `C50_at_most_once`, `C50_missing`, `C50_generator`, `C50_assign`, `C50_entries`. Exactly once is proved when every occupied alpha orbital is numbered below every virtual one (the default and alternating orders); with a user-supplied order the mixed-spin doubles with j<=i are skipped (witness C50_missing). Anti-Hermiticity is proved for all real parameters, exactly over C under Jordan-Wigner.
* **C51 Reduced Hamiltonian energy** - finite sums over index types; density matrices from any linear functional.
  *proved*: `C51_energy`, `k2_eq`, `rdm2_contract`. Reduced Hamiltonian for arbitrary one-body integrals (with or without core mean field); hypotheses are antisymmetry and the N-1 contraction, shown to hold for every N-electron state (rdm2_left, rdm2_right, rdm2_contract).
* **C52 Matrix and qubit forms of the Hamiltonian agree** - operator terms as a list fed to the string constructor (C09) and the transform (C15); energies as linear functionals; gap with a frozen core computed exactly.
  *partial*: `C52_energy`, `C52_fermi_operator`, `C52_fermionic_partial`, `C52_core_gap`, `C52_core_gap_nonzero`. Proved for the Hamiltonian from given integrals (Jordan-Wigner, coefficients within 1e-12 per term of the exact operator). Violated for a frozen core: the operator lacks the core mean field, exact gap proved, with a witness.
* **C53 Measurement filter refresh period** - counter automaton.
  *proved*: `C53_refresh`. The set-up calibrates and counts as use 0; a use is a read of the filter property. The calibration job itself is abstracted to a counter.
* **C54 Gradients of the built-in test objectives** - HasDerivAt.
  *partial*: `C54_beale`, `C54_rastrigin`, `C54_rosenbrock`, `C54_ackley_wrong`, `C54_ackley_example`. Over the reals, Frechet derivative at every point; Rosenbrock for every number of parameters from two. The Ackley gradient is wrong at every point with nonzero first coordinate (sign of the exponent), proved.
* **C55 Optimizer driver ends** - driver automaton.
  *partial*: `C55_error_ends`, `C55_status`, `C55_converged_partial`, `C55_no_limit`, `C55_backtracking_endless`, `C55_defined`. Errors end the run and the final status is defined; there is no iteration limit (C55_no_limit) and the backtracking optimizer never ends under the driver (C55_backtracking_endless).
* **C56 Spin-orbital integrals** - literal loops with temporary arrays as folds over functions; invariants of each nested loop; closed form as rotation.
  *proved*: `C56_one_body`, `C56_mixed_spin`, `C56_symmetric`, `C56_two_body`, `C56_two_body_exchange`, `C56_two_body_symmetric`, `C56_two_body_antisym`, `hamOrbs_good`. Literal nested loops with their temporary arrays; orbital-list hypotheses shown for every core/active/virtual split. Same-spin entries with a repeated index are left zero; no antisymmetrized integral changes.
* **C57 Spin operators** - sum of number operators on Fock space.
  *proved*: `C57_number`, `C57_projected`, `C57_plus`, `C57_minus`, `C57_partial_projected`, `C57_out_of_range`, `C57_total_spin`, `C57_commute`. All orbital lists; exactness of the products over C is proved, not assumed.
* **C58 Symbolic partial trace** - index model of the symbolic routine against the numeric one.
  *partial*: `C58_symbolic_partial`, `C58_symbolic_transposed`, `C58_symbolic_differs`. violated: the symbolic version returns the transpose; equal only for symmetric matrices
* **C59 Circuit gates** - gates as site operators; circuit matrix as a product; per-gate action on basis states for every number of qubits.
  *proved*: `C59_single`, `C59_identities`, `C59_controlled_not`, `C59_Cz`, `C59_Cy`, `C59_Cxr`, `C59_Cs`, `C59_CRy`, `C59_Ch1`, `C59_Ch2`, `C59_Sw`, `C59_Fred`, `C59_CCS`, `C59_SRy`, `C59_Sh`.
* **C60 Circuit trace_operator** - index model; compared with the partial trace of C23.
  *partial*: `C60_trace_operator_partial`, `C60_transposed`. violated: transposed; also the accumulator is a real array
* **C61 Measured expectation values** - state-vector model, basis change per letter, expectation as a sum over outcomes.
  *proved*: `C61_measurement`, `C61_statevector`, `C61_counts`.
* **C62 Tomography returns the state's RDM** - composition of enumeration, transform, measurement and filling; spec is the RDM of a state in Fock space.
  *partial*: `C62_tomography_partial`, `C62_fails_order1`, `value_eq`, `rdmeQub_spec`. Proved for orders 2 and 3, and order 1 with imaginary part only, with Nb <= Na. Violated at order 1 with real=True: generate_rdme always raises IndexError on a diagonal element because FermiString shortened the index list.
* **C63 Building a FermiString leaves the caller's index list alone** - mutable list argument made explicit as an output of the constructor.
  *partial*: `C63_unchanged_partial`, `C63_fails`. Violated (witness for every index i); proved when the indices are distinct or not already sorted.
* **C64 Stabilizer decomposition of the terms** - search over pairs of rows as passes; invariant: products of listed rows.
  *proved*: `C64_decomposition`. Three passes of the search always suffice.
* **C65 Growing an ansatz leaves the added operator unchanged** - heap-free model returning the argument after the call.
  *partial*: `C65_argument_partial`, `C65_argument_changed`. Violated for a closed ansatz: the stored object is the caller's and is cleaned in place (witness); proved otherwise.
* **C66 Cubic interpolation picks the minimiser** - real analysis of the interpolating cubic.
  *partial*: `C66_minimiser_partial`, `C66_reversed`. Holds for ordered brackets; for reversed brackets the code always returns the other stationary point (C66_reversed).
* **C67 Newton step always completes** - every branch of the step as a value, exceptions explicit.
  *partial*: `C67_completes_partial`, `C67_negative_curvature`, `C67_noisy`. Completes with non-negative curvature on simulators; negative curvature raises, and noisy backends always reject.
* **C68 Truncation of the search vector keeps a descent direction** - finite index type; the exchanged index is looked up among the keys (may raise); slope as a sum over pairs; the driver's keys from the tomography model.
  *partial*: `C68_truncation_partial`, `C68_abs_keeps_partial`, `C68_driver_raises`. The routine keeps a descent direction when every index has its exchanged partner among the keys (involution, paired entries contribute equally; any sort order). Violated as used: the driver's keys never contain the exchanged index, so the truncation of any nonempty vector raises KeyError (C68_driver_raises).
* **C69 Stopping settings of the ACSE driver end the run** - state machine of the driver with exceptions as values.
  *partial*: `C69_criterion_stops`, `C69_completes_partial`, `C69_default_raises`, `C69_depth_raises`. Known criteria stop the run and never raise. The default value of the convergence type raises at the first check, and reaching the depth limit raises instead of ending the run (both proved as negations).
* **C70 VQE driver starts with the supported optimizers** - attributes set by each optimizer as an explicit record; reads of unset attributes raise.
  *partial*: `C70_build_iff`, `C70_build_partial`. Only the quasi-Newton optimizer works: the others have not set an attribute that the driver reads, so building raises.
* **C71 Finite-difference gradient of the VQE energy** - finite differences over a field; trace of evaluation points.
  *proved*: `C71_forward_affine`, `C71_quadratic`, `C71_points`.
* **C72 Molecular Hamiltonian operators** - argument count of the method call modelled; the exception propagates.
  *partial*: `C72_molecular_raises`. Violated: clean(1e-8) is a TypeError, the construction raises for every input.
* **C73 Re-expanding integrals after an orbital rotation** - the array worked on is an argument of the model.
  *partial*: `C56_one_body_rerun`, `C56_two_body_accumulates`. One-body: holds. Two-body: violated, the new integrals are added to the old ones (exact statement proved).
* **C74 ACSE residual is the commutator with the Hamiltonian** - residual as the literal contraction of reduced Hamiltonian with 2- and 3-RDM; ladder-operator algebra reduces the commutator of two normal-ordered products to normal order; operator via C09.
  *proved*: `C74_residual`, `C74_stationary`, `C74_operator`, `C74_descent`, `C74_state`, `C74_case`. For any linear functional with definite particle number and symmetric 2-RDM, and for real states in particular; exact arithmetic.
* **C75 Compact search vector and its generator agree** - vector zipped with keys into the string constructor; adjoints as a relation (`IsAdj`).
  *proved*: `C75_vector_operator`, `C75_slope`. Anti-Hermitian part of the generator carries the slope; the Hermitian part (kept by the code, whose subtraction of the adjoint is commented out) contributes zero to first order.
* **C76 Ansatz circuit implements the product of exponentials** - angle extraction with the previous angle as state; gadget theorem C37 per term, product by induction.
  *partial*: `C76_circuit_partial`, `C76_real_coefficient`, `C76_real_fails`, `C76_mixed_reuses`. Holds for purely imaginary coefficients above the 1e-14 cut. Violated for real coefficients (exponentiated as if imaginary, which is not the exponential) and mixed ones (the previous term's angle is reused, or the run exits).
* **C77 Quantum residual tends to the classical one** - small derivative calculus (`HasD`) for matrix elements of gadget products; product rule, then C74.
  *proved*: `C77_limit`, `C77_states`, `C77_residual`. The measured expectation is the exact one (no sampling noise).
* **C78 The reference circuit prepares the encoded determinant** - product of excitation operators of one letter through the transform model, then the direct application of the leading Pauli string; spec = action on basis states; encodings as bijections on bit patterns.
  *proved*: `C78_jordan_wigner`, `C78_parity`, `C78_bravyi_kitaev`, `C78_initial`, `C78_reference`. The optional initial Clifford and initial transformation of the storage are not modelled. The circuit object itself cannot be created by the callers, see C80.
* **C79 Clifford conjugation of an operator matches the circuit** - the table as a function; spec = conjugation by the gate matrices, induction over the qubits.
  *partial*: `C79_clifford_partial`, `C79_S_fails`, `C79_identity_raises`. Holds for the H and V labels. Violated: the S row of the table has a wrong sign, so that it is not a change of basis at all; strings with the letter I raise KeyError.
* **C80 Circuit objects offer the gates they name and can be created by their users** - keyword binding as a function on names; gates per method against the named matrix.
  *partial*: `C80_gates_partial`, `C80_swap_fails`, `C80_set_raises`, `C80_constructor`. All methods but the swap. Violated: the swap appends nothing; every caller passes the keyword QuantStore, which the constructor does not accept, so preparing any nonempty circuit list raises TypeError.
* **C81 Combining two one-qubit exponents gives the exponent of the product** - quaternion form of the rotation matrix; spherical law of cosines as a ring identity; `IsExp` from Euler's formula for involutions.
  *proved*: `C81_combine`, `C81_defined`, `C81_real_raises`. Exact arithmetic; vectors shorter than 1e-14 but not zero are excluded (they are dropped). First operators with a real coefficient raise NameError, sin(c) = 0 divides by zero; both are outside the hypothesis of success.
* **C82 The exact one-qubit instruction implements the exponential** - the test matrix and the emitted gadgets as matrices; comparison by the modulus of one amplitude.
  *partial*: `C82_test_partial`, `C82_emitted`, `C82_gates_fail`. The angles are right for plain Rz, Ry, Rz rotations, and this is what the test checks. Violated: the gates are emitted as Pauli exponentials, which rotate by minus twice the angle; except for amplitudes 1 and 1/2 the circuit is never the exponential. The search for the angles is C128.
* **C83 Spin expectation values from a density matrix** - arrays as accumulated updates, traces as finite sums over the updates; normal ordering of S+S- and Sz^2 by the anticommutation relations; C31 for the one-body matrix.
  *proved*: `C83_functions`, `C83_state`, `C83_raises`. Plain orbital lists (no inactive orbitals), as get_spin_properties passes them. For one electron, or lists of different lengths, the code raises (C83_raises).
* **C84 Conjugate-gradient directions of the ACSE** - vectors over an ordered field; the slope bounds -8/5 |g|^2 <= g.p <= -2/5 |g|^2 are an invariant of the iteration by induction; formulas by comparison with the textbook expressions.
  *partial*: `C84_descent_partial`, `C84_hs_descent`, `C84_formulas_partial`, `C84_hz_is_steepest`, `C84_hz_violated`, `C84_relaxed_uphill`. Holds for FR, HS, PR, PR+ under the strong curvature condition. HZ reads undefined names and becomes steepest descent (C84_hz_violated); after the relaxed ending of the line search the direction can go uphill (C84_relaxed_uphill).
* **C85 Limited-memory BFGS direction of the ACSE** - two-loop recursion as structural recursion over the pairs; equality with the product form of the inverse matrix by reverse induction; positive definiteness from C45; witnesses by kernel evaluation over the rationals.
  *partial*: `C85_two_loop_partial`, `C85_memory_one_partial`, `C85_two_pairs_wrong`, `C85_newest_ignored`, `C85_newest_wrong`. The first loop always uses the newest y vector: right only if the stored y agree (one pair), wrong and possibly uphill with two (C85_two_pairs_wrong). The newest pair is stored only after the direction is computed (C85_newest_ignored).
* **C86 Symmetry filtering of measured records** - transform of the sums of occupation numbers computed exactly (two diagonal strings per orbital, Gaussian-integer coefficients); evaluation on a record is an eigenvalue of the transformed operator, decoded by the encoding bijection.
  *partial*: `C86_filter_partial`, `C86_other_bases`, `C86_value_partial`, `C86_transforms`, `C86_alternating_violated`, `C86_parity`, `C86_parity_spin`, `C86_parity_ancilla`. Proved for the default orbital ordering. With the alternating ordering the filter uses the wrong spin labels and discards even the reference determinant (C86_alternating_violated). Rounding to five decimals is exact arithmetic here; the variant for stabilizer-encoded circuits is C130.
* **C87 Qubit states and partial traces** - matrices as functions of bit strings; successive deletion of characters shown equal to filtering by position for ascending lists; accumulation loops as finite sums, exchanged and collapsed.
  *partial*: `C87_entries_partial`, `C87_observables_partial`, `C87_trace_partial`, `C87_state`, `C87_order_violated`, `C87_all_raises`, `C87_second_raises`. Proved for ascending lists of distinct qubits, not all of them. Other orders remove the wrong qubits (C87_order_violated); tracing over all qubits raises; a second circuit applied to a state always raises (C87_second_raises).
* **C88 Hamiltonian of particles on qubits** - same index sums as C51/C52 with commuting site operators; contraction of the two-body density matrix through the commutator of the number operator; the thresholds bounded coefficientwise.
  *proved*: `C88_operator`, `C88_energy`, `C88_qubit_operator`. For an active space smaller than the full one the array addition in _build_K2 raises; not modelled. Two final coefficient thresholds appear as an error bound.
* **C89 Removing the qubits fixed by the spin parities** - two tapering steps (C20/C21) with one embedding; ladder letters anticommute with the block parity, so conserving strings commute with both symmetries; the second symmetry commutes with the first embedding.
  *proved*: `C89_parity_free`. For coefficients that are Gaussian-integer multiples of one number large enough that cleaning at 1e-12 removes nothing; 1/sqrt(2) is exact.
* **C90 Reference state on a reduced register** - conjugation of a Pauli string by the Clifford basis change is a Pauli string with the same flips off the removed qubit; trimming is linear in the coefficients, so the two halves of a†-a combine (linear independence of Pauli strings); induction over symmetries and orbitals.
  *proved*: `C90_tapered_reference`, `C90_parity_free`. Jordan-Wigner as the underlying transform, at most 38 symmetries (beyond that the intermediate coefficients fall below the cleaning threshold); the state stands for the determinant up to a nonzero factor.
* **C91 Parity transform of sign-free particle strings** - the number-operator branch agrees with the parity transform (C16); for + and - the two-term result is evaluated on an encoded configuration and differs.
  *partial*: `C91_diagonal_partial`, `C91_violated`. Proved for strings of number operators (p, h, i). Refuted for every single + or - on every register: the transform of such a string does not represent it. The branch for whole operators refers to a name that is not imported and raises NameError.
* **C92 Fermionic form of sign-free particle strings** - loop invariant: the product built so far is the sign-free prefix times sign strings; Gaussian-integer coefficients keep the products exact (shared with the inverse Jordan-Wigner model).
  *partial*: `C92_para_fermion_partial`, `C92_violated`. Proved when + and - occur only at the first or last position. Refuted for every single + or - at an inner position: the sign string is put on the wrong orbitals.
* **C93 Tomography of sign-free density matrices** - as C62 with products of sign-free operators (symmetric, zero on repeated indices) and fillings without signs; the permutations of an increasing index list are distinct (C29), so each entry is filled once.
  *partial*: `C93_qubit_tomography_partial`, `C93_fails_order1`. Order 2 (all choices) and order 1 with imaginary parts only, not more beta than alpha orbitals, with the qubit transform. Refuted: order 1 with real parts raises for every system.
* **C94 One simulation serves every measurement basis** - the gate words s·sx·s, s·sx·z and sx·s equal the basis gates or their inverses up to the phase (1+i)/sqrt 2; layers by induction over the letters; the processor reads moduli only.
  *proved*: `C94_amplitudes`, `C94_values`.
* **C95 The measurement plan covers every string needed** - membership in the list of distinct strings; C25 for the grouped strings; strings of I and Z are recoverable from the all-Z basis; reading a dictionary returns a written entry.
  *proved*: `C95_plan`.
* **C96 State-vector tomography returns the reduced density matrix, end to end** - composition of C95, C94, C62: coefficients of an element add up to at most 1 in modulus, the filling passes an error through unchanged because each entry is filled by at most one element, off-diagonal element operators are nonzero so there is always a basis.
  *partial*: `C96_statevector_tomography_partial`, `C96_nothing`, `C80_set_raises`, `C62_fails_order1`. Orders 2 and 3 and order 1 with imaginary parts, not more beta than alpha orbitals, with circuits taken as created; explicit bound 2^N*1e-28. Missing, because the code fails there: order 1 with real parts (C62), order 4 and more beta orbitals (C27), and creating the circuits (C80).
* **C97 Spin blocks and spin summation of a 2-RDM** - nested loops as finite sums that pick one element; commutators of four-letter words with the lowering operator have zero expectation value in a singlet, giving the linear relations between the spin blocks; spin sums by the anticommutation relations.
  *partial*: `C97_singlet`, `C97_singlet_real`, `C97_round_trip`, `C97_spatial`, `C97_fails_order`, `C97_fails_triplet`, `C97_fails_complex`. Proved for alpha orbitals numbered before beta orbitals; the construction keeps the real part, so it is exact for real blocks. Violated for other orbital orders, which the class accepts (C97_fails_order), and for complex blocks (C97_fails_complex). C97_fails_triplet shows that the singlet hypothesis, which the code does not check, is needed.
* **C98 Cumulants and reconstruction of the 3-RDM** - C31 for the 1-RDM and C32 for the products; the product depends on the entries within the arrays only (congruence lemma).
  *partial*: `C98_cumulant`, `C98_determinant_partial`, `C98_few_electrons`, `C98_fails_mixture`. Cumulant proved for all states. Reconstruction proved for determinants and for fewer than three electrons. Violated in general: the product loses terms (C32), witness a mixture of two determinants where the expansion would be exact.
* **C99 Gradient descent** - descent inequality summed along the path; the driver of C55 run on the optimizer; geometric decrease by induction.
  *partial*: `C99_iterates`, `C99_descent_partial`, `C99_converges_partial`, `C99_rate`, `C99_fails_best`, `C99_fails_float`. Proved for objectives returning numpy numbers: the iterates for all objectives; descent, end of the run with a bound on the steps, and geometric rate for step times smoothness constant below two. Violated otherwise: best value is the latest one and can grow at every step, even for a convex quadratic with the default step (C99_fails_best); an objective returning a plain float makes the first step raise (C99_fails_float).
* **C100 Lagarias variant of Nelder-Mead** - invariant over all runs including raising steps, on top of the ordering lemmas of C47.
  *partial*: `C100_bookkeeping`, `C100_step_partial`, `C100_fails_raise`, `C100_fails_side`. Cached values and monotone best proved for all runs; each step characterised. Violated: a step raises exactly when the reflected point is at least as good as the best and extension does not improve (C100_fails_raise); inner and outer contraction are exchanged (C100_fails_side).
* **C101 Size, scaling and comparison of operators** - orthogonality of Pauli strings as a product over qubits, Frobenius inner product by induction over the terms.
  *partial*: `C101_norm`, `C101_null`, `C101_scale_partial`, `C101_fails_scale`, `C101_eq`, `C101_fails_ne`. Norm and null test proved for Pauli operators; scaling proved for fermionic operators with any number and Pauli operators with real numbers. Violated: a complex multiple of a Pauli operator, any multiple of a qubit operator, a number on the left, and truncate all raise (C101_fails_scale); != is true for a string and itself and false for different strings (C101_fails_ne).
* **C102 An Euler step of the ACSE lowers the energy** - coefficients through C39; slope from the derivative of the emitted gates (as in C77) and the commutator identity of C74; the Pauli form is imaginary because the operator is anti-Hermitian.
  *partial*: `C102_ansatz`, `C102_descent`, `C102_fails_residual`. The addition and the slope (with descent for small steps) are proved, through the emitted gates. Violated: the step scales the residual operator itself because the copy is shallow (C102_fails_residual). The Pauli form in the slope statement is the exact one; the transform of the code differs from it by at most 1e-12 per term (C15).
* **C103 The density-matrix backend follows the ansatz** - invariant over the run: stored state = circuit of absorbed layers applied to the initial state.
  *partial*: `C103_open`, `C103_total`, `C103_closed_partial`, `C103_fails_repeated`. Proved for open ansatze, and for closed ones when every added operator has a term above 1e-12. Violated otherwise: the last layer is applied a second time (C103_fails_repeated).
* **C104 The two-qubit gate estimate counts the emitted gates** - count of cx gates per emitted gadget by induction over the string; sum over the terms.
  *partial*: `C104_operator`, `C104_exact`, `C104_list_partial`, `C104_fails_identity`, `C104_fails_transformed`. For an Operator the count bounds the controlled-not gates emitted and is exact when no term is dropped; for a list the same holds when no term is an identity string. Violated: in a list each identity term lowers the count by two (C104_fails_identity), and a transformed ansatz, which is a flat list of strings, is counted as zero (C104_fails_transformed).
* **C105 The 2-RDM built from a wave function is the right one** - the phase function against the ladder operators on a determinant; each array entry is written by exactly one iteration of the index loops; non-conserving entries vanish by counting occupied orbitals.
  *proved*: `C105_full`, `C105_active`, `C105_all`.
* **C106 The spatial RDM is the spin sum of the spin RDM** - anticommutation relations for the products of excitation operators; the sum over all spin orbitals splits over the pairing.
  *partial*: `C106_spatial`, `C106_reduce`, `C106_fails_sz`, `C106_fails_s2`. The spin sums and the reduction are proved. Violated: the spin properties of a spatial RDM; S_z is zero for every density matrix (C106_fails_sz) and S^2 is wrong for two parallel electrons and for a filled shell (C106_fails_s2).
* **C107 A qubit Hamiltonian reports its own ground energy** - matrix of a Pauli string by induction over its letters; spectral theorem for Hermitian matrices and the Rayleigh bound.
  *partial*: `C107_ground`, `C107_fails_order`, `C107_fails_complex`. The matrix, the lower bound and its attainment are proved when order equals qubits. Violated: with any other order construction raises (C107_fails_order). Complex coefficients are accepted and a wrong energy reported (C107_fails_complex). eigvalsh is modelled by its documented meaning.
* **C108 The symmetry projection keeps expectation values** - expansion of a string over the 2^k Pauli strings of its kind and its inverse, by induction over the letters; orthogonality of the rows gives full rank, so the greedy column search succeeds; strings outside the family change an occupation number and have no expectation value.
  *partial*: `C108_jordan_wigner_partial`, `C108_qubit_partial`, `C108_any_result`, `C108_fails_spin_flip`. Proved for elements that also conserve the number of alpha particles: the construction returns, the value is right on the sector, and the size is bounded by the number of symmetric strings. numpy's matrix_rank and inv are modelled by their exact meaning; C108_any_result needs no rank or solver guarantee beyond correctness of a returned solution. Violated for elements that change the alpha number by an odd amount: the branch meant to return the zero operator raises KeyError (C108_fails_spin_flip). The parity and Bravyi-Kitaev transforms are not covered.
* **C109 Symmetry-projected tomography returns the reduced density matrix** - the letters and sites of a generated string are those of the word it was generated from, so both strings of an element are of one kind and conserve both numbers: C108 applies; a coefficient error of delta changes an expectation value by at most 4^N delta; plan, simulation and filling as in C96.
  *partial*: `C109_reduced_tomography_partial`, `C109_reduced_qubit_partial`, `C109_fails_order1`. Orders 2 and 3 and order 1 with imaginary parts (order 2 and order 1 with imaginary parts for the qubit class), not more beta than alpha orbitals, with exact rank and solve routines and circuits taken as created; bound 4^N*1e-10 plus skipped amplitudes. The qubit class is covered with exact expectation values instead of simulated ones. Missing, because the code fails there: order 1 with real parts (C109_fails_order1), order 4 and more beta orbitals (C27).
* **C110 The variational circuit is the product of cluster exponentials** - the strings of one transformed excitation all flip the same sites and have real antihermitian form, so they have the same parity of Y letters and commute; the exponential of a sum of commuting involutions is the product of their exponentials (binomial rearrangement of the series, Proofs/ExpSum); C38 turns each gate block into such an exponential.
  *partial*: `C110_circuit_partial`, `C110_entries`, `C110_depth_fails`. Jordan-Wigner transform, all depths: the circuit is the product of the exponentials of (p/d)(X - X†) over excitations with |p| >= 1e-10 (the code skips the others). Missing, because the code fails there: depth d other than 1 divides the angles without repeating the circuit (C110_depth_fails).
* **C111 A VQE evaluation returns the energy of the cluster state** - composition of C78 (reference), C110 (ansatz circuit), C96 (tomography) and C52 (energy); an exponential keeps every subspace of supported configurations and the real amplitudes that its generator keeps (term by term in the series), and Pauli exponentials keep the norm, so the cluster state meets the hypotheses of C96 and C52.
  *partial*: `C111_objective_partial`, `C111_variational`. Jordan-Wigner transform, default orbital order, state-vector backend with circuits taken as created, up to 2^N*1e-28 times the sum of the moduli of the reduced Hamiltonian; parameters below 1e-10 are left out, as the code does. For a depth d the parameters of the state are p/d (C110_depth_fails). Missing: one electron, where the code divides by zero; the other orbital order and transforms.
* **C112 Tomography is independent of the fermion-to-qubit transform** - every string of an element is conjugated by the encoding up to the sign of reversing its ladder letters (C16, C17); commuting the string past every Z_k shows that the ladder letters sit exactly on the orbitals filled or emptied, so the sign is (-1)^moved; the signed elements are still antisymmetric and Hermitian, so the filling (C28-C29) reproduces them; the state-vector backend as in C96, for an arbitrary transform.
  *partial*: `C112_parity_partial`, `C112_bravyi_kitaev_partial`, `C112_parity_fails`, `C112_fails`. Every element comes out multiplied by (-1)^m, m the number of electrons it moves: elements with even m are right, elements with odd m have the opposite sign (C112_parity_fails in general, C112_fails on 3/5|1010>+4/5|0110>). State-vector backend, circuits taken as created, up to 2^N*1e-28. The Jordan-Wigner case is C96. Missing: order 1 with real parts, order 4, more beta than alpha orbitals (C62, C27).
* **C113 Calculations start from the Hartree-Fock energy** - the Hartree-Fock matrix is the RDM of the determinant of the labels used (C30) and its contraction with the reduced Hamiltonian is the energy (C52), since the determinant has the right number of electrons; comparing the labels with the first active orbitals gives the theorem or its failure; the objective at zero is C111 with every excitation skipped.
  *partial*: `C113_acse_partial`, `C113_vqe_partial`, `C113_zero_parameters_partial`, `C113_fails`, `C113_vqe_frozen_raises`, `C113_vqe_frozen_fails`. True for 2 Sz in -1, 0, 1, 2 and other than one electron, for VQE only when every orbital is active. Violations: other spins raise a KeyError (C113_fails); the VQE storage labels its Hartree-Fock matrix with positions among all spin orbitals although the array has only the active ones, so an active space raises an IndexError (C113_vqe_frozen_raises) or gives the energy of another determinant (C113_vqe_frozen_fails). Odd numbers of core electrons are not modelled.
* **C114 Generator and norm returned by the ACSE solvers** - the loops are the lists of kept terms of C74, whose denotation and sum of squares are computed term by term; the assertions become inequalities between Frobenius norms (monotone in the kept set, sub-additive); anti-Hermiticity from the Hermiticity of density matrices (imaginary part antisymmetric); parts by induction on the list with C77.
  *partial*: `C114_classical`, `C114_quantum_partial`, `C114_quantum_safe`, `C114_quantum_fails`, `C114_particle_partial`, `C114_particle_fails`, `C114_antihermitian`, `C114_parts`. Classical solver: proved in full (its assertion lacks the absolute value and always holds). Quantum solver: returns half the norm of the kept entries, and stops with an AssertionError when the dropped entries change the norm by 1e-8 or more, e.g. a nearly converged residual with its default threshold (C114_quantum_fails); thresholds below 1e-8/r^2 are safe. Sign-free solver: right with norm=None, an exception for every other norm including its own default 'fro' (four-dimensional arrays; behaviour of numpy.linalg.norm taken from its documentation).
* **C115 Energy of an ACSE ansatz** - a family of strings with the same flips commutes (real anti-Hermitian terms), so its Trotter product is the exponential of the family, which is the part of the generator with these flips; the part of a number-conserving operator with given flips conserves the numbers (iterated commutators with Z); then the tomography (C23), the reconstruction and the reduced Hamiltonian as in C111. Excitation layers: Jordan-Wigner keeps the X/Y letters on the ladder orbitals, so the strings of an excitation and its adjoint form one family. Layers moving at most one electron of each spin: conservation is a condition on the coefficients of strings that differ by exchanging X and Y on two orbitals; the condition is closed under addition and cleaning at every stage of the transform, so each maximal run of strings with the same flips conserves the numbers.
  *partial*: `C115_energy_partial`, `C115_variational_partial`, `C115_excitations_partial`, `C115_one_each_partial`. End to end for layers whose Pauli terms come in consecutive groups that conserve the numbers of electrons. This holds for layers of excitations acting on different sets of orbitals (C115_excitations_partial, where the state is the product of exp(p(X - X^dagger))) and, in any order and with any cancellation, for layers of real terms that each move at most one alpha and one beta electron (C115_one_each_partial). Missing: one electron (the reduced Hamiltonian divides by zero), and layers in which terms moving two electrons of the same spin are split by a cancellation half-way.
* **C116 Pivoted Cholesky factorisation of the integrals** - state of the loop (permutation, diagonal, rows, error); invariant: the residual matrix is positive semidefinite, zero in the pivot rows, and the stored diagonal is its diagonal; one step is a Schur complement at the largest diagonal entry; entries of a positive semidefinite matrix are bounded by its trace.
  *partial*: `C116_cholesky_partial`, `C116_cholesky_max_partial`. Proved from the matrix V on (line 397). Missing: the line before it calls rotate_spatial_ei2, a name defined nowhere, so the method as it stands raises NameError.
* **C117 Several tomographies in one job** - circuit names as character lists; `{:02}` and `name[-2:]` as functions on digits; the results table as a function of (number, name); reading back the suffix is the inverse below 100 and never gives 100 or more.
  *partial*: `C117_dispatch_partial`, `C117_hundred_fails`, `C117_again_fails`, `C117_filter_fails`. Holds for the first run of at most 100 tomographies without a measurement filter. Violations: the tomographies from number 100 on get no counts; a second run files the counts under the names of the first run, so none of the circuits finds its counts; with a measurement filter every run raises.
* **C118 Error estimate by resampling** - the random generator is an arbitrary function constrained to draw without replacement; tables of counts compared through the number of times an outcome is recorded; a sub-multiset of full size is the whole multiset, hence all samples agree and the standard deviation is zero.
  *partial*: `C118_samples_partial`, `C118_counts_lost`, `C118_zero_error`, `C118_large_fails`. Samples are drawn from the recorded shots as stated. Violations: the object keeps the counts of the last sample; with a sample size equal to the number of shots (both defaults are 1024) the estimate is exactly zero; sizes between the number of shots and eight times the nominal number raise. Building the RDM from counts and the user's function are one arbitrary function of the counts.
* **C119 Measuring a group of commuting strings through its stabilizer circuit** - check matrix after elimination plus the Z-type null vectors; each qubit satisfies a linear condition (one letter type) that survives elimination; the X part is in reduced row echelon form, so the controlled-not of each pass has the pivot as control and removes exactly one entry (termination measure: number of X entries); every gate intertwines the strings (matrices of S†, CNOT, H on letters); Z strings evaluated on the zero configuration give product coefficient one; scalar products are kept by the circuit.
  *partial*: `C119_reading_partial`, `C119_emit`, `C119_empty`. Construction ends within l*N+1 passes and the reading is exact for the intended circuit and lookup. Violations: the primitives apply_si and apply_h use the name pi, which _base.py does not import, so the circuit of every group with an X or a Y raises NameError when it is emitted; a measurement to which only the identity is assigned raises in the constructor; the value itself is never returned (C130_measure_raises).
* **C120 A whole ACSE run is variational** - composition of C113 (initial energy from the storage), C115 (energy of every iteration's ansatz) and C40 (the driver: completion, iteration bound, best is the minimum of the logged energies); the bounds follow because the best energy is one of the observed ones.
  *partial*: `C120_run_partial`. State-vector backend, Jordan-Wigner, layers as in C115 (consecutive number-conserving groups). Missing: one-electron references and spins for which the reference is refused (C113), and the maximal depth, where _check raises (C69). The choice of the layers in an iteration is left open, so the statement covers every choice.
* **C121 A closed Euler run with the classical solver completes and is variational** - the residual of a state in the (1,1) sector vanishes for index pairs of equal spin up to 4*tolE (spin selection on K2 and the 2-RDM), so every generated string moves at most one electron of each spin and C115 applies to the ansatz; induction over the iterations gives C40's hypotheses. For two orbitals: every term comes with its negative adjoint, at most four terms share a ladder, and a fold with cleaning over at most two pairs of opposite numbers ends at zero in every order, so the Pauli form is purely imaginary.
  *partial*: `C121_euler_partial`, `C121_minimal_partial`, `C121_three_raises`. One electron of each spin; state-vector backend, Jordan-Wigner, closed ansatz, convergence type 'norm'. For two spatial orbitals no condition on the layers is left; for more orbitals the theorem assumes that the Pauli form of each layer has imaginary coefficients (the cleaning of partial sums could leave a real one). With three or more electrons the run raises (C121_three_raises). Missing: three-body tomography, S_min below the noise, reaching max_depth (where _check raises), convergence type 'trust' (the Euler step sets neither tr_taylor nor tr_object, so _check would raise AttributeError).
* **C122 An active space keeps the energy of the whole molecule** - an expectation functional with filled core and empty virtuals: core indices are contracted with the anticommutation relations (mid_core, mid_core', out_left), which splits the full one- and two-body sums into the core energy, the mean field and the active block; C24's rule then turns the mean field into K2. The functional is realised by an explicit embedding of the active Fock space (occupations of the core added, with the sign of moving past it) that intertwines all ladder operators of active orbitals and preserves inner products; it is onto the frozen states.
  *partial*: `C122_partial`, `C122_onto_partial`, `C122_minimum_partial`, `C122_variational_partial`, `C122_odd_core`, `C122_state`, `C122_functional`. Proved when the number of frozen electrons is even and the active space does not hold exactly one electron (K2 divides by Ne_as-1). C122_odd_core: with an odd number of frozen electrons (No_core = Ne_core//2) the energies are those of the molecule with one electron missing. Exact arithmetic; the qubit operator of the same class lacks the mean field of the core, see C52.
* **C123 The simplex optimizers have no preferred coordinates** - centroid, reflection, contraction, expansion and shrinking are affine combinations, the branch tests read values only; induction over the steps with the simplices related by the map. For rigid motions the memory of the stuck check is carried along: after the third step all its entries correspond, before that the entry compared is still zero, which matters only near the origin.
  *partial*: `C123_affine_partial`, `C123_rigid_partial`, `C123_lagarias_partial`, `C123_origin_special`. General affine maps: as long as the stuck check does not interfere in either run. Rotations and translations: for all runs whose first reflected point is not within 1e-10 of the origin. C123_origin_special: the memory of the stuck check starts with zeros, so a first reflection onto the origin counts as stuck and is replaced by a random point. Exact arithmetic.
* **C124 The quasi-Newton optimizer as a whole descends and reports what it found** - the line search returns positive steps meeting the Wolfe conditions (C46), so s·y is nonnegative and the clamped denominators keep the inverse metric positive definite (C45); the direction is then one of descent, which gives the invariant of the state; induction over the iterations. Termination on bowls: the trial steps are 5 - 4/2^k, the slope test asks for step times curvature at least 1/10.
  *partial*: `C124_start`, `C124_step`, `C124_run`, `C124_endless`, `C124_bowl_partial`. Everything but termination, for every run whose line searches end. C124_endless: on a bowl of curvature at most 1/50 the first line search never ends, whatever the dimension and the start; C124_bowl_partial: for curvature in (1/50, 4/5] it does. Exact arithmetic; the gradient routine is arbitrary and pure.
* **C125 A whole VQE calculation** - C124 applied to the objective of C111 and its forward differences; C111 says that each evaluation returns the energy of the cluster state, C113 gives the value at the zero start.
  *partial*: `C125_partial`, `C125_minimal_partial`. For runs whose line searches end, gradient=True (without it building fails, C70), na+nb not 1, spin projection accepted by the storage, exact simulation with colourings of commuting strings; energies up to the filter for small coefficients, 2^(2 no)*1e-28 times the size of the Hamiltonian.
* **C126 Grouping with the colouring strategies offered** - induction over the coloured prefix of the order with an invariant (proper, no gaps, each smaller colour at a neighbour, colour at most the position); colours are at most the degree; with the order by falling degree this gives the bound of Welsh and Powell.
  *partial*: `C126_colouring_partial`, `C126_circuits_partial`, `C126_lower`, `C126_other_raise`, `colouring_default`. Holds for the default (graph_tool, largest first); C126_other_raise: all others raise (undefined names: greedy_color, self.colors, np). sequential_vertex_coloring is transcribed from the Boost graph library, which is trusted to behave so. colouring_default discharges the hypothesis ColouringOK of C108, C111, C121, C125 and others for this colouring.
* **C127 Eigenvalues reported by the analysis of a 2-RDM** - each block is the Gram matrix of the states with one or two particles removed, so the quadratic form of a unit vector is a squared norm; upper bounds from the canonical anticommutation relations (one annihilator) and an arithmetic-geometric Cauchy-Schwarz argument (two annihilators, antisymmetrised coefficients for equal spins); sums from the trace and occupation counting.
  *partial*: `C127_partial`, `C127_raises`. Holds whenever there are at most as many beta as alpha orbitals and the number of particles is not one; otherwise an exception (C127_raises: the beta block is allocated with the alpha size; contraction divides by zero). np.linalg.eigvalsh is taken as the eigenvalues of the Hermitian matrix given by the lower triangle.
* **C128 Three angles are found for every one-qubit rotation** - the trial angles give a unit quaternion equal to the wanted one except for the signs of the cosine and of the first component; the second trial mends the latter, nothing mends the former.
  *partial*: `C128_partial`, `C128_exits`. Holds when the cosine of length times scale is not negative; otherwise (below minus 4e-7) the program always ends. The rotations found are not the gates emitted, see C82. Exact arithmetic.
* **C129 The exact one-qubit instruction performs a list of operators one after the other** - induction over the list with the counters as invariant; C81 for combined exponents; explicit quaternions for the counterexample with three operators.
  *partial*: `C129_one_partial`, `C129_two_partial`, `C129_three_fails`, `C129_simple_partial`, `C129_rotation_partial`, `C129_commute_partial`, `C129_commute_raises`, `C129_propagation_fails`. Holds for one and two operators, for propagation by rotation, and by commute after one operator. Fails: a third operator is joined to the second (C129_three_fails), commute after two operators and the default method trotter always raise (C129_propagation_fails). The identity letter is left out (a global phase).
* **C130 Post-selection of grouped measurements by their Z symmetries** - each record is reduced to its list of signs (C26 for one record); the tests on sum and product are evaluated for all sign patterns of up to three symmetries.
  *partial*: `C130_one_partial`, `C130_more_partial`, `C130_four_raises`, `C130_fails`, `C130_measure_raises`. The records kept are characterised for every number of symmetries; the choice is right exactly without symmetries or with one symmetry of value -1 (C130_fails). Four or more symmetries raise. No value is ever returned, because the string is looked up by position in a dictionary (C130_measure_raises).
* **C131 Line search of the ACSE** - the Pauli form of the operator has real or imaginary coefficients, each giving one rotation; the generator of the rotations is computed, C75 gives the energy derivative of its two parts, and one double excitation shows the complex part.
  *partial*: `C131_slope_partial`, `C131_fails`. The slope at step zero is exact for a real state, with thresholds inactive. Violated: the operator lacks the adjoint terms and its Hermitian part is exponentiated with a factor i, so a real state gets a complex 2-RDM after any small step (C131_fails); the slope theorem then no longer applies to later iterations.
* **C132 Truncated reduced Hamiltonian** - each string of the Hamiltonian is one of two patterns (at most four distinct orbitals); the index list recovered from it determines the integrals, so the contributions of the kept strings are the reduced Hamiltonian of masked integrals, to which C51 applies; the operator filtered by its keys is the operator of the same masked integrals.
  *partial*: `C132_partial`, `C132_jw_partial`, `C132_gap_partial`, `C132_threshold_partial`. Without a frozen core, for states with a symmetric (real) two-body density matrix. Exact when the integral threshold leaves out zeros only; otherwise an integral left out of the operator still enters the matrix when another integral keeps its string, and C132_threshold_partial bounds the difference by the threshold times the size of the density matrices.
* **C133 Comparison of groupings** - the dictionary of colours built vertex by vertex is that of the classes of the colouring, so a fresh pass is simplify_tomography without its check (C25, C126); the failing cases by evaluation of the smallest examples.
  *partial*: `C133_partial`, `C133_raises`, `C133_mc_fails`, `C133_second_fails`. Holds for the relation qwc when every pass is graph_tool, largest first; the result is then that of simplify=True. Violated otherwise: the default arguments and every other first pass raise (C133_raises); there is no check, so the relation mc silently returns bases that do not serve the strings (C133_mc_fails); a later pass with strategy 'default' mixes its colours with those of the pass before (C133_second_fails).
* **C134 Circuit matrix sorted by particle number** - the list of indices is the concatenation of the filters of 0..2^n-1 by number of ones; their lengths are binomial coefficients by induction on n, so positions and blocks agree; the list is a permutation, hence a bijection of the basis and sums over the basis are unchanged.
  *proved*: `C134_order`, `C134_blocks`, `C134_mul`. The matrix is a function of two indices with exact entries; the printed header of get_cN, which is built and dropped, is not modelled.
* **C135 Tomography with the density-matrix backend** - the stored diagonal is that of UρU† with U the basis gates; its signed sum is tr(ρ U†ZU) = tr(ρ P) by the conjugation of C61 taken between basis vectors; the end-to-end theorem uses the plan of C95 and the error bound of C96.
  *partial*: `C135_values`, `C135_evolve`, `C135_tomography_partial`, `C135_mixed_partial`. C135_values and C135_evolve hold for every density matrix. The end-to-end theorems are for mixtures of states with a fixed number of alpha electrons each (C135_mixed_partial; one state: C135_tomography_partial), with the limits of C96: order 1 with real parts, order 4 and more beta than alpha orbitals are missing. The type 'rho' is set by no function of the library; the user has to assign it.
* **C136 Variance of the energy** - the deviation G = H - E is Hermitian, tr(ρG²) = tr(GρG†) is the trace of a positive matrix, and it vanishes only when Gρ = 0 (factor ρ = B†B); the failure follows from an induction over the run of C103, where no layer leaves the open window before p iterations.
  *partial*: `C136_variance_partial`, `C136_pure_partial`, `C136_stale`, `C136_fails`. For the density matrix kept by the driver the number is the variance, non-negative, and zero exactly for eigenstates. With a closed ansatz the kept matrix is that of the current state (C103). With an open ansatz the kept matrix does not change during the first p iterations, so the number returned is the variance of the initial state (C136_stale, C136_fails). Missing: the backends other than 'rho', where no matrix is kept.
* **C137 Correction of the counts of a run** - induction over the circuits with the invariant n = f-1-r, where q·f+r circuits have been corrected; counts of the circuits with ⌊(k+1)/f⌋ = c.
  *partial*: `C137_schedule`, `C137_runs`, `C137_single_partial`, `C137_mixed_fails`, `C137_frequency_partial`, `C137_initial_fails`, `C137_never`, `C137_assigned_fails`, `C137_one`, `C137_assigned_partial`. Every circuit is corrected once, circuit k with calibration ⌊(k+1)/f⌋ counted over all runs (the period itself is C53). The readings are per circuit, so a run is corrected with one calibration only if no renewal falls inside it, and never if it has more circuits than the frequency. Every calibration but the first serves f circuits; the first serves f-1. A frequency that is not positive means no renewal. A filter assigned when a renewal is due, with frequency one always, is never used.
* **C138 Natural orbitals in Aufbau order** - invariant of the loop: the matrix is a signed permutation, multiplied by a transposition at every exchange; the permutation for increasing occupations is computed stage by stage (cyclic shifts), the one of the counterexample for every size.
  *partial*: `C138_orthogonal`, `C138_ordered_partial`, `C138_two_partial`, `C138_increasing_partial`, `C138_fails`. The transformation is always orthogonal and a signed permutation. The order is right for sorted occupations, for two orbitals and for increasing occupations. It is wrong in general: the comparisons use the matrix before reordering, so 2, 1, 3, 0, ... becomes 1, 3, 2, 0, ... for every number of orbitals from three on.
* **C139 Measuring a list of Pauli strings** - soundness and completeness of the grouping (C25) give a basis for every string, the amplitudes of C94 its value; the operator by the coefficient of a fold of string additions.
  *partial*: `C139_vector`, `C139_operator`, `C139_distinct_partial`, `C139_repeated_fails`. The vector is right for every list. The coefficient in the operator is the expectation value times the number of times the string is listed, hence right for distinct strings and wrong for repeated ones. State-vector backend, relation qwc or no grouping. Note that imag defaults to True, so that the default result is i times the expectation values.
* **C140 Spin-orbital integrals for pyscf** - the closed form of a spin block (C56) applied to the four blocks, case split on the spin of each index; the energies by comparing the terms of the sums.
  *partial*: `C140_chemists`, `C140_agrees`, `C140_energy`, `C140_documented_fails`. The entry i,j,k,l holds the chemists' integral (ij|kl) for every input, hence the promised index order i,k,j,l does not hold. Up to that order it agrees with generate_spin_2ei wherever the two creation and the two annihilation orbitals differ, and gives the same energy for every density matrix that vanishes there. Proved for the region 'full' and, for the entries, for the sum onto any starting array.
* **C141 Operators with strings of several kinds** - without clashes the dictionary is the one keyed by kind and letters; then the error bound of C15 for each kind.
  *partial*: `C141_mixed_partial`, `C141_clash_fails`. Proved for every list in which no word of letters is used both as a fermionic and as a qubit string (Jordan-Wigner, qubit and identity transforms; 1e-12 per string from the cleaning). When the same letters are used for both kinds the sum is twice the string added first, hence wrong and dependent on the order. OrderedString, named in the code, does not exist.
* **C142 Saved density matrices** - every nonzero element has one line, so the loop of assignments returns the printed number; error of two roundings; linearity of the alpha-beta construction and C97.
  *partial*: `C142_file_partial`, `C142_restored_partial`, `C142_precision_fails`. Proved: the file gives the real part of the alpha-beta block of any density matrix to within half a unit of the digit asked for plus half a unit of the sixth digit, and for singlets the whole 2-RDM (real part) to twice that. Fails: six decimals are printed whatever the precision, so seven or more digits (eight is the default) are not kept; imaginary parts are written but not read. The external purification between writing and reading is left out.
* **C143 Convergence of the simplex optimizer** - induction over the driver's passes (C55, C47); spread and standard deviation bound each other; a run computed symbolically for the counterexample.
  *partial*: `C143_values`, `C143_norms_partial`, `C143_collapsed`, `C143_mirror_fails`. Proved: with 'energy' all values are within threshold*sqrt(2(N+1)) of the reported one; a collapsed simplex ends the run. With the default criterion only the distances from the origin agree (C143_norms_partial); C143_mirror_fails: x^2 started at half the first edge ends after one step as converged, at any threshold, with the start and its mirror image as points and nothing improved.
* **C144 Stored tomographies** - attributes as options; the stored plan determines simulate and construct; the order read from the first index list, which generation leaves intact (C63); then C96.
  *partial*: `C144_preset`, `C144_load_partial`, `C144_load_fails`. preset=True: proved for every requested order. File: a new object of the same order returns the RDM of every state (limits of C96). C144_load_fails: load restores neither rdme_keys, which the ACSE driver reads, nor real, so save raises; an object made for a lower order raises when constructing. Not modelled: save appends '.rto' to the name, load does not.
* **C145 Hamiltonian split into groups of strings** - sum over the strings found = sum over the Hamiltonian with multiplicities (one key each); then C114_parts for the residual, and the exponential of commuting involutions (C110) for commuting groups.
  *partial*: `C145_coefficients`, `C145_total`, `C145_partition`, `C145_residual`, `C145_commuting`, `C145_default_fails`, `C145_unchecked_fails`. The parts add up to the Hamiltonian with every string weighted by the number of times the groups name it; for groups naming each string once the parts give the residual of the whole. Commuting groups: exact exponential up to a phase. Violated: with default arguments the list is empty and the solver raises (C145_default_fails); strings left out, misspelt or named twice are not reported (C145_unchecked_fails).
* **C146 Assignment of spin orbitals to qubits** - the element [i,k,k,j] with i<k<j is shortened by the first string (C63) and the second raises; every other element is unsorted or has distinct indices. Reordered blocks list a permutation of the same elements, so C27/C62/C96 carry over; the energy then follows as in C115 with the reference of C78.
  *partial*: `C146_accepted`, `C146_alternating_fails`, `C146_alternating_energy_fails`, `C146_reordered_partial`, `C146_energy_partial`, `C146_orbital_energies_partial`, `C146_energy_fails`. Exact criterion for the assignments whose elements can be built: no beta qubit between two alpha qubits. Violated: the interleaved order raises for two or more spatial orbitals, whatever the transform, parts, colouring and state; for reordered blocks the tensor is right by qubit label but is contracted with integrals in orbital order, so the reference energy is that of another determinant (C146_energy_fails).
* **C147 Report of the storages** - the two-body matrix is the Gram matrix of the twice-annihilated states, so its eigenvalues are nonnegative, bounded by n, and sum to the number of ordered pairs; spin values from C83, the one-body part from C31 and C127's one-body bound; the eigenvalues left out are each at most 1e-10.
  *partial*: `C147_report_partial`, `C147_number_fails`, `C147_raises`. Spin values, eigenvalue bounds and sums, and the absence of a false warning are proved for every state with n != 1 electrons. Violated: the number shown as N is n(n-1), the electron number only for n = 0 or 2 (C147_number_fails, an equivalence); one electron, or lists of different lengths, raise (C147_raises).
* **C148 The energy does not depend on the transform** - C112 gives the tensor with the sign (-1)^moved; the sign can be moved to the reduced Hamiltonian, which is then the reduced Hamiltonian of integrals with changed signs (entry by entry over the four families of K2), and C52 applies to these. For a determinant the elements moving electrons vanish; its preparation is C78.
  *partial*: `C148_reference`, `C148_parity_partial`, `C148_bravyi_kitaev_partial`, `C148_hopping_fails`, `C148_fails`. The reference energy is right with either transform. For every real state the result is the energy of the Hamiltonian whose integrals moving exactly one electron have the opposite sign; violated therefore whenever these contribute: for a hopping Hamiltonian every energy has the wrong sign (C148_hopping_fails), with a concrete state in C148_fails.
* **C149 A VQE evaluation does not depend on the transform** - The Pauli form of one excitation is the encoded excitation with the sign of C16/C17 (single excitations reversed); reality, anti-hermiticity and equal flips are carried through the relabelling (Z on an encoded qubit is a product of Zs), so the Pauli terms commute and the circuit is the exponential as in C110. Conjugation with the product of the virtual Zs removes the reversal of the singles, leaving the right cluster state and a Hamiltonian with reversed integrals; the energy is then C148. The concrete case computes the two rotations from the exponential series.
  *partial*: `C149_objective_partial`, `C149_agrees`, `C149_two_orbitals`, `C149_variational`, `C149_zero_parameters`, `C149_within_fails`, `C149_fails`, `C149_below_ground`. The objective is the expectation value, in the right cluster state, of a Hamiltonian with some integrals reversed (hops within the occupied or within the virtual orbitals, and the two-electron integrals listed in twist2). It agrees with Jordan-Wigner when none of these is present, in particular for two spatial orbitals with one electron of each spin (C149_two_orbitals), and for zero parameters. Violated otherwise: for hops within the virtual orbitals the sign of the energy is wrong (C149_within_fails), with a concrete case of three orbitals (C149_fails); on a ring of three orbitals the objective reaches values below the lowest energy (C149_below_ground).
* **C150 A whole VQE calculation with another transform** - C149 for every evaluation, C124 for the optimizer, and C149 at zero parameters, where the reversed integrals do not contribute, for the comparison with Hartree-Fock.
  *partial*: `C150_run_partial`, `C150_minimal_partial`, `C150_two_orbitals`. All guarantees except that the energy is that of the Hamiltonian with the reversed integrals of C149, so the bound from below by the lowest energy holds only when no integral is reversed, in particular for two spatial orbitals with one electron of each spin (C150_two_orbitals). C149_below_ground shows that the objective which is minimised goes below the lowest energy otherwise.
* **C151 Tomography from shots** - A table of counts gives the average of the outcome products over the shots (C26); its expectation value is that of the string by C61 and its variance at most 1/Ns by independence; each entry is a combination of strings with weights summing to at most one.
  *partial*: `C151_tomography_partial`, `C151_probability`, `C151_encodings_partial`. Shots are independent and follow Born's rule; noise models and measurement filters are not used. Missing: order 1 with real parts, order 4, more beta than alpha orbitals, as C96. With the parity and Bravyi-Kitaev transforms the bound holds around the wrong element where an odd number of electrons moves (C151_encodings_partial, C112).
* **C152 VQE energy from shots** - C151 for every entry of the tensor, contracted with the reduced Hamiltonian (C52) in the state of C111; Chebyshev's inequality.
  *partial*: `C152_objective_partial`, `C152_variational`. Jordan-Wigner transform. Missing: one electron, where the reduced Hamiltonian divides by zero; depths other than 1 do not give the cluster state of the parameters (C110).
* **C153 Residual measured by the quantum solver, end to end** - The prepared state of C115 followed by the Hamiltonian step; tomography of its imaginary parts by C96 and C151 for states without a fixed spin (the entries left out are zero); limit by C77; on the entries left out the residual is zero by spin conservation of the Hamiltonian.
  *partial*: `C153_residual_partial`, `C153_hamiltonian`, `C153_single_orbital`. Jordan-Wigner transform, layers as in C115, Hamiltonian not split into parts (C145 for the parts). Missing: one electron (the reduced Hamiltonian divides by zero); with one spatial orbital there is nothing to measure and the solver raises (C153_single_orbital). C153_hamiltonian: the hypotheses on the qubit Hamiltonian are met up to 1e-12 per fermionic term by the operator the Hamiltonian class builds.
* **C154 ACSE energy from shots** - The state of C115 and the estimate of C151, contracted with the reduced Hamiltonian; Chebyshev's inequality, as C152.
  *partial*: `C154_energy_partial`. Jordan-Wigner transform, independent shots following Born's rule. Missing: one electron (the reduced Hamiltonian divides by zero); layers as in C115.
* **C155 One-body integrals between two orbital sets** - Loop invariant over the outer loop: rows of the temporary array not yet visited are zero; as C56.
  *partial*: `C155_full_partial`, `C155_active`, `C155_active_raises`, `C155_agrees`, `C155_virtual`. Missing: with region 'full' the virtual orbitals are left out (C155_virtual), unlike generate_spin_1ei; with region 'active' and no array given the call raises (C155_active_raises).
* **C156 Projection of occupation numbers** - The normal vector is computed, the projection written in closed form; closest point by completing the square; occupation numbers by evaluation.
  *partial*: `C156_projection`, `C156_borland_dennis`, `C156_not_gpc_partial`. The first two parts are proved in full. project_gpc raises on every input (a module it needs is not imported) and the plane of project_to_plane is not the plane of the constraint (C156_not_gpc_partial).
* **C157 Symplectic helpers of Pauli strings** - The exponents are those of the product of C01 after exchanging the factors of one bitwise product; index errors from the lengths of the arrays.
  *partial*: `C157_symplectic`, `C157_symplectic_raises`, `C157_skew_partial`. symplectic_product in full; skew and symm raise IndexError for all strings with at least one qubit (C157_skew_partial).
* **C158 Starting and restarting an ACSE run** - Calls as a transition system with the circuits as arbitrary functions; invariant over all call sequences, simulation between the restarted and the new run; instantiated with the closed Euler run of C121.
  *partial*: `C158_full_partial`, `C158_keep_partial`, `C158_euler`, `C158_fails_stale`, `C158_fails_initial`, `C158_fails_initial_energy`. Euler method, state-vector backend. Full reset: proved for everything shown; the storage's density matrix and the count of increases are not reset (C158_fails_stale, C40_reset_keeps_count). Reset: proved unless it follows a full reset. Given starting ansatz: violated, the first build raises, and a full reset instead records the Hartree-Fock energy.
* **C159 Residual of the classical solver, end to end** - Composition: state of the ansatz (C115), tomography accuracy (order 2 or 3), contraction of the three-body matrix on a number eigenstate, linearity of the commutator formulas with an explicit error bound.
  *partial*: `C159_residual_partial`, `C159_operator_partial`, `C159_stationary_partial`, `C159_raises`. State-vector backend, Jordan-Wigner. Missing: one electron (the reconstruction divides by N-1, C52). Violated: a three-body tomography of two electrons raises ZeroDivisionError in the contraction (C159_raises); the two-body tomography of three or more electrons raises ResidualError as documented. Layers as in C115.
* **C160 A closed Euler run with a three-body tomography** - Composition of C159 (residual of the reached ansatz), C115 (energies), C113 (start) and C40 (driver), by induction on the iterations; spin-changing excitations have zero commutator expectation, so they stay below the threshold.
  *partial*: `C160_run_partial`, `C160_small_partial`, `C160_stationary_partial`, `C160_raises`, `C160_two`. State-vector backend, Jordan-Wigner. C160_run_partial assumes that every ansatz reached is made of layers conserving the numbers of electrons; C160_small_partial derives this for at most three spatial orbitals from the spin symmetry of the integrals and a threshold above the accuracy, up to ImagForm. Missing: in more orbitals a layer may move two electrons of one spin, whose Trotterised circuit does not conserve the numbers of electrons. Violated: two electrons with a three-body tomography, three or more with a two-body one (C160_raises).
* **C161 Cutting back an ansatz** - Slices as take/drop; the strings of the layers are a concatenation, so those of a prefix of the layers are a prefix; the product of the exponentials splits accordingly.
  *partial*: `C161_truncate`, `C161_prefix`, `C161_undo_partial`, `C161_undo_exact_partial`, `C161_open_fails`, `C161_vanish_fails`, `C161_limit`, `C161_create`. Undoing holds for closed ansaetze whose layers do not vanish on cleaning. Violated: for other closure parameters the addition changes kept layers (C161_open_fails); an empty first layer disappears at the next addition, and cutting back then keeps the new operator (C161_vanish_fails).
* **C162 The slope the line search measures** - C159 for the measured gradient, C131 for the derivative along the circuits, uniqueness of the exponentials to identify the two states, and a bound on the scalar product.
  *partial*: `C162_slope_partial`, `C162_descent_partial`. Classical solver, state-vector backend, Jordan-Wigner, thresholds inactive, layers as in C115. Missing: later steps of the search and later iterations, where the Hermitian part of the generator makes the state complex (C131_fails), and what is missing from C159.
* **C163 Closed Newton run with the classical solver** - Induction over the iterations: every trial energy exists (C115) and the step raises exactly when the second difference is negative; the observations of the run are then those of a driver run (C40), to which the energy bounds of C120 apply.
  *partial*: `C163_run_partial`, `C163_minimal_partial`, `C163_stationary_partial`, `C163_negative`, `C163_step`, `C163_choice`, `C163_nested`. State-vector backend, Jordan-Wigner, two- or three-body tomography for the residual. For two electrons in two orbitals no hypothesis on the layers is left. C163_step and C163_choice (every iteration, no hypothesis on the layers) relate the quantities of the trust region to the measured energies. Missing: layers whose Trotterised circuit does not conserve the numbers of electrons, one electron, the tomography orders that raise (C159), and reaching the maximal depth.
* **C164 Closed Euler run with the quantum solver** - The run is written for any solver. The imaginary tomography fills a tensor that is exactly Hermitian, antisymmetric and spin-conserving (C27, C28), so the generator has the form needed for C115 whatever the step; then the induction of C160.
  *partial*: `C164_run_partial`, `C164_small_partial`, `C164_minimal_partial`, `C164_direction`, `C164_threshold`, `C164_classical`. State-vector backend, Jordan-Wigner, convergence type norm. In two spatial orbitals no hypothesis on the layers is left, in three only that the Pauli form of the layers is imaginary. Missing: layers whose Trotterised circuit does not conserve the numbers of electrons, one electron, and reaching the maximal depth.
* **C165 The measured direction lowers the energy** - Derivative of the energy along the circuit of the kept entries (as C102), which pairs them with the exact residual; below the threshold an error cannot change the sign of a kept entry; the accuracy comes from the limit of C153. From shots, Markov's inequality over all entries with the variances of C153.
  *partial*: `C165_slope`, `C165_rate`, `C165_descent_partial`, `C165_solver_partial`, `C165_shots_partial`. C165_slope and C165_rate hold for any operator, state and inexact residual; C165_rate relates the reported norm to the slope. C165_solver_partial is about the operator the driver keeps, for any relative truncation. Missing in the end-to-end statements: layers as in C115, one electron, explicit bounds on the two steps (with the state-vector backend, that a step small enough for the limit leaves the rounding small enough is therefore not proved; with shots there is no rounding).
* **C166 Sums, differences and multiples of RDMs** - The row-major position of an element is the same in both forms (C33), so the arithmetic of the data lists is the arithmetic of the elements.
  *partial*: `C166_add`, `C166_sub`, `C166_scale`, `C166_observable`, `C166_linear`, `C166_refused`, `C166_fails_electrons`. Sums, differences, multiples, the observable and its additivity, and the refusal of other orbitals or orders are proved. The code violates the rest: RDMs with different numbers of electrons are added, with the number of the first (C166_fails_electrons). Multiplication by other numeric types (complex, numpy scalars) raises an exception in the code and is not modelled.
* **C167 Removing a term of an operator** - Induction over the entries; keys of the dictionary occur once, so the deletion is a filter.
  *partial*: `C167_terms`, `C167_operator`, `C167_fails_string`. Proved for keys. The code violates the last part: a string object, which `in` accepts, is silently not removed (C167_fails_string).
* **C168 Settings of the ACSE driver** - The dispatches of constructor, build, step and check on the keyword strings, compared with a list of usable combinations; case analysis over the keyword classes, for arbitrary strings.
  *partial*: `C168_start_partial`, `C168_fails_late`. C168_start_partial describes exactly the settings with which constructor, build and first step raise nothing. The code violates the claim: some of the others are accepted by the constructor and raise later, among them the default convergence type (C168_fails_late). Not modelled: the `shift` method of the quantum storage, cg_update, missing tomographies, exceptions that depend on the data.
