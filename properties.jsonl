{"id": "C01", "title": "Pauli strings round-trip through the binary form", "statement": "Converting any valid Pauli string (an optional '+' or '-' sign followed by letters I, X, Y, Z) to its binary form and back returns the same string, except that a leading '+' is dropped; hence stabs_as_pauli_strings() of a code built from strings returns exactly the given generators.", "quantifier": "every valid Pauli string of every length and sign, every list of generators", "why_tests_cant": "The set of strings is infinite; a test samples a few.", "anchors": ["src/mqt/qecc/codes/stabilizer_code.py: pauli_to_binary, binary_to_pauli_string, StabilizerCode.stabs_as_pauli_strings"]}
{"id": "C02", "title": "Syndrome bits and commutation agree with operator commutation", "statement": "get_syndrome(error)[i] is 1 exactly when the error and generator i anti-commute as Pauli operators, i.e. when the number of qubits on which both act non-trivially and differently is odd; signs never matter. Syndromes are additive: the syndrome of a product of errors is the sum mod 2 of the syndromes.", "quantifier": "every generator list and every Pauli error of every length", "why_tests_cant": "Ranges over 4^n errors for every n and every code.", "anchors": ["src/mqt/qecc/codes/stabilizer_code.py: StabilizerCode.get_syndrome, commute, anti_commute, symplectic_inner_product, symplectic_matrix_mul"]}
{"id": "C03", "title": "Stabilizer-code equality is equality of the signed generator row spaces", "statement": "Two stabilizer codes compare equal exactly when they have the same number of qubits and their generator matrices (sign column included) span the same space; in particular == is reflexive, symmetric and transitive and is insensitive to generator order, repetition and to replacing a generator by a sum with another.", "quantifier": "every pair / triple of generator lists", "why_tests_cant": "Equality is decided by three ranks; that this is equality of spans is a theorem of linear algebra over all matrices.", "anchors": ["src/mqt/qecc/codes/stabilizer_code.py: StabilizerCode.__eq__"]}
{"id": "C04", "title": "Equal stabilizer codes have equal hashes", "statement": "If two StabilizerCode objects compare equal then their hashes are computed from equal data, so that they can be used as dict keys or set members consistently.", "quantifier": "every pair of codes", "why_tests_cant": "A relation between two methods over all pairs of objects.", "anchors": ["src/mqt/qecc/codes/stabilizer_code.py: StabilizerCode.__hash__, StabilizerCode.__eq__"]}
{"id": "C05", "title": "stabilizer_equivalent decides equality up to stabilizers", "statement": "stabilizer_equivalent(p1, p2) is true exactly when p1 and p2 differ by a combination of the stabilizer generators; so it is symmetric in its arguments.", "quantifier": "every code and every pair of Paulis", "why_tests_cant": "Ranges over all pairs of Paulis of all codes.", "anchors": ["src/mqt/qecc/codes/stabilizer_code.py: StabilizerCode.stabilizer_equivalent"]}
{"id": "C06", "title": "Constructor of a stabilizer code accepts only stabilizer codes", "statement": "If StabilizerCode(generators, distance, Lz, Lx) succeeds then the generator list is non-empty, all generators have the same length n, k = n - rank is a natural number, the distance is positive, and the generators commute pairwise (otherwise there is no code).", "quantifier": "every constructor input", "why_tests_cant": "A statement about all accepted inputs.", "anchors": ["src/mqt/qecc/codes/stabilizer_code.py: StabilizerCode.__init__, StabilizerCode._check_stabilizer_generators"]}
{"id": "C07", "title": "Accepted logical operators of a stabilizer code are logical operators", "statement": "If the constructor accepts logical operators Lz and Lx, both are given, they act on n qubits, there are at most k of each, they commute with every stabilizer generator, and every Lz row anti-commutes with exactly one Lx row; conversely anything violating this is rejected.", "quantifier": "every constructor input with logicals", "why_tests_cant": "All accepted inputs.", "anchors": ["src/mqt/qecc/codes/stabilizer_code.py: StabilizerCode._check_code_correct"]}
{"id": "C08", "title": "Accepted CSS codes have commuting checks and consistent n and k", "statement": "If CSSCode(distance, Hx, Hz, ...) succeeds, at least one matrix is given, both given matrices have n columns, Hx*Hz^T = 0 mod 2, k = n - rank(Hx) - rank(Hz) (missing matrices count as empty) is non-negative, and x_distance, z_distance >= distance > 0; constructor raises InvalidCSSCodeError whenever one of these checks fails.", "quantifier": "every pair of check matrices and distances", "why_tests_cant": "All matrices of all sizes.", "anchors": ["src/mqt/qecc/codes/css_code.py: CSSCode.__init__, CSSCode._check_valid_check_matrices"]}
{"id": "C09", "title": "Computed CSS logicals are a basis of the undetectable errors modulo stabilizers", "statement": "The logical operators Lx computed by the CSS constructor commute with all Z checks, are linearly independent modulo the X stabilizers, number exactly k, and together with the X stabilizers generate every X error of zero syndrome (and the same with X and Z exchanged).", "quantifier": "every CSS code", "why_tests_cant": "Quantifies over all commuting pairs of matrices.", "anchors": ["src/mqt/qecc/codes/css_code.py: CSSCode._compute_logical"]}
{"id": "C10", "title": "CSS stabilizer and logical-error tests", "statement": "check_if_x_stabilizer(e) is true exactly when e is a sum of rows of Hx; for an error with zero syndrome check_if_logical_x_error(e) is false exactly when e is a sum of rows of Hx; hence for undetectable errors the two tests are complementary (same for Z).", "quantifier": "every CSS code and every error vector", "why_tests_cant": "2^n errors for every code.", "anchors": ["src/mqt/qecc/codes/css_code.py: CSSCode.check_if_x_stabilizer, CSSCode.check_if_logical_x_error, CSSCode.check_if_z_stabilizer, CSSCode.check_if_logical_z_error"]}
{"id": "C11", "title": "CSS stabilizer equivalence of errors", "statement": "stabilizer_eq_x_error(e1, e2) is true exactly when e1 + e2 is a sum of X stabilizer generators; it is an equivalence relation that respects syndromes and logical effect (same for Z).", "quantifier": "every CSS code and every pair of errors", "why_tests_cant": "All pairs of errors of all codes; the rank formula is not the definition.", "anchors": ["src/mqt/qecc/codes/css_code.py: CSSCode.stabilizer_eq_x_error, CSSCode.stabilizer_eq_z_error"]}
{"id": "C12", "title": "A CSS code and its Pauli-string form describe the same code", "statement": "The stabilizer strings of a CSS code (X strings of Hx, Z strings of Hz) commute pairwise, and the syndrome computed by the stabilizer-code interface of an error with X part ex and Z part ez is the concatenation of the CSS X- and Z-syndromes; the strings of the logical operators commute with all of them, one per logical qubit.", "quantifier": "every CSS code and every Pauli error", "why_tests_cant": "All matrices and errors.", "anchors": ["src/mqt/qecc/codes/css_code.py: CSSCode.stabs_as_pauli_strings, CSSCode.z_logicals_as_pauli_strings", "src/mqt/qecc/codes/stabilizer_code.py: StabilizerCode.get_syndrome"]}
{"id": "C13", "title": "Named codes of the library are what their name says", "statement": "Every name/distance pair recognised by from_code_name yields a valid CSS code with the documented n, k and distance; no undetectable non-trivial error has weight below the stated distance; any other name raises InvalidCSSCodeError.", "quantifier": "every name, every requested distance, and for each named code every error", "why_tests_cant": "The distance claim ranges over every error of the code and the rejection claim over every string.", "anchors": ["src/mqt/qecc/codes/css_code.py: CSSCode.from_code_name"]}
{"id": "C14", "title": "Colour-code logical error test", "statement": "check_if_logical_error(residual) on a 2D colour code returns true exactly when the residual anti-commutes with some logical operator.", "quantifier": "every residual", "why_tests_cant": "All residual vectors.", "anchors": ["src/mqt/qecc/codes/color_code.py: ColorCode.check_if_logical_error"]}
{"id": "C15", "title": "Hexagonal colour codes commute for every distance", "statement": "For every odd distance d, HexagonalColorCode(d) builds a lattice in which any two faces share an even number of data qubits, so the code is a valid self-dual CSS code; the number of data qubits is (3d^2+1)/4.", "quantifier": "every odd d", "why_tests_cant": "Infinite family; tests check a few distances.", "anchors": ["src/mqt/qecc/codes/hexagonal_color_code.py: HexagonalColorCode.add_qubits, red_row, blue_row, green_row, compute_face_to_qubit_dict"]}
{"id": "C16", "title": "Square-octagon colour codes commute for every distance", "statement": "For every odd distance d, SquareOctagonColorCode(d) builds a lattice in which any two faces share an even number of data qubits.", "quantifier": "every odd d", "why_tests_cant": "Infinite family.", "anchors": ["src/mqt/qecc/codes/square_octagon_color_code.py: SquareOctagonColorCode"]}
{"id": "C17", "title": "Bivariate bicycle checks commute", "statement": "The check matrices built by construct_bb_code satisfy Hx*Hz^T = 0 mod 2 and unsupported block lengths raise InvalidCSSCodeError.", "quantifier": "every n; and, for the construction, every pair of shift-polynomials and every size l, m", "why_tests_cant": "The algebraic identity must hold for all polynomials and sizes.", "anchors": ["src/mqt/qecc/codes/bb_codes.py: construct_bb_code"]}
{"id": "C18", "title": "3D product codes commute", "statement": "For every chain complex a1*a2 = 0 and every matrix b, the matrices d1, d2, d3 returned by generate_3d_product_code satisfy d1*d2 = 0 and d2*d3 = 0 mod 2.", "quantifier": "all matrices of all shapes", "why_tests_cant": "All sizes and entries.", "anchors": ["src/mqt/qecc/analog_information_decoding/code_construction/code_constructor.py: generate_3d_product_code", "src/mqt/qecc/analog_information_decoding/code_construction/sparse_code_constructor.py: generate_3d_product_code"]}
{"id": "C19", "title": "4D product codes commute", "statement": "generate_4d_product_code applied to a 3D product (a1 a2 = a2 a3 = 0) and any checks returns d1..d4 with consecutive products zero mod 2.", "quantifier": "all matrices of all shapes", "why_tests_cant": "All sizes and entries.", "anchors": ["src/mqt/qecc/analog_information_decoding/code_construction/code_constructor.py: generate_4d_product_code"]}
{"id": "C20", "title": "Lights-out constraints express the syndrome exactly", "statement": "In the MaxSAT colour-code decoder, an assignment of the switches extends to a model of the generated hard constraints exactly when, for every light, the parity of the switched neighbours equals the light's syndrome bit.", "quantifier": "every face-to-qubit map (each face with at least two qubits) and every syndrome", "why_tests_cant": "All lattices and syndromes; the helper-variable chain is inductive.", "anchors": ["src/mqt/qecc/cc_decoder/decoder.py: LightsOut.preconstruct_parity_constraint, LightsOut.complete_parity_constraint, LightsOut.preconstruct_z3_instance"]}
{"id": "C21", "title": "Lights-out solution is valid and of minimum weight", "statement": "When the solver returns, solve() yields switches that toggle exactly the lit lights off and no valid switch set has fewer switches; validate_model accepts exactly the valid switch sets.", "quantifier": "every face map and syndrome for which a solution exists, every optimal MaxSAT answer", "why_tests_cant": "Optimality ranges over all 2^n alternatives.", "anchors": ["src/mqt/qecc/cc_decoder/decoder.py: LightsOut.solve, LightsOut.validate_model, LightsOut.count_switches"]}
{"id": "C22", "title": "Repeated lights-out solves are independent", "statement": "Calling solve repeatedly on one LightsOut object gives, at each call, an answer for that call's syndrome only: earlier syndromes leave no constraint behind.", "quantifier": "every sequence of syndromes", "why_tests_cant": "Quantifies over call histories.", "anchors": ["src/mqt/qecc/cc_decoder/decoder.py: LightsOut.solve"]}
{"id": "C23", "title": "Lookup-table decoder returns a minimum-weight consistent error", "statement": "After table generation, decode_x(s) returns for every syndrome s of some X error an error with that syndrome and minimum weight among all errors with that syndrome; syndromes of no error are absent.", "quantifier": "every CSS code and every syndrome", "why_tests_cant": "All 2^n errors of all codes.", "anchors": ["src/mqt/qecc/ft_stateprep/simulation.py: LutDecoder._generate_lut, LutDecoder.generate_x_lut, LutDecoder.decode_x"]}
{"id": "C24", "title": "Z lookup table is correct whatever was called before", "statement": "After generate_z_lut(), decode_z(s) returns a minimum-weight Z error with syndrome s with respect to the X checks, independently of which other tables were generated before.", "quantifier": "every CSS code, every call order of the generate/decode methods", "why_tests_cant": "Quantifies over codes and call histories.", "anchors": ["src/mqt/qecc/ft_stateprep/simulation.py: LutDecoder.generate_z_lut, LutDecoder.decode_z, LutDecoder.batch_decode_z"]}
{"id": "C25", "title": "Coset leader is a minimum-weight representative", "statement": "_coset_leader(error, generators) differs from the error by a sum of generators and has minimum weight among all such errors.", "quantifier": "every error and generator matrix", "why_tests_cant": "All errors, all matrices.", "anchors": ["src/mqt/qecc/ft_stateprep/state_prep.py: _coset_leader"]}
{"id": "C26", "title": "Removing stabilizer-equivalent faults keeps exactly one representative per class", "statement": "The list of faults returned by the deduplication contains no two stabilizer-equivalent faults, contains an equivalent of every non-trivial input fault, no stabilizers, and only input faults.", "quantifier": "every fault list and generator matrix", "why_tests_cant": "All lists of all lengths.", "anchors": ["src/mqt/qecc/ft_stateprep/state_prep.py: _remove_stabilizer_equivalent_faults"]}
{"id": "C27", "title": "Trivial-fault filter keeps exactly the dangerous faults", "statement": "The filter keeps a (non-stabilizer) fault exactly when no stabilizer-equivalent error has weight at most num_errors * floor(t_error / max(t,1))-style bound used by the tool; it never drops a fault whose minimal weight exceeds the number of errors that caused it when bound is one.", "quantifier": "every fault list, stabilizer matrix and error count", "why_tests_cant": "All lists and matrices.", "anchors": ["src/mqt/qecc/ft_stateprep/state_prep.py: _remove_trivial_faults"]}
{"id": "C28", "title": "State preparation circuit prepares the code's stabilizers", "statement": "When the heuristic or optimal synthesis succeeds, conjugating the initial stabilizers (X on Hadamard qubits, Z on the others) by the produced CNOT list gives exactly the X-stabilizer group spanned by the check matrix, and Z stabilizers are exactly the Z operators orthogonal to it.", "quantifier": "every check matrix, every CNOT sequence produced", "why_tests_cant": "All circuits and matrices.", "anchors": ["src/mqt/qecc/ft_stateprep/state_prep.py: heuristic_prep_circuit, _build_circuit_from_list_and_checks, _generate_circ_with_bounded_gates, _generate_circ_with_bounded_depth"]}
{"id": "C29", "title": "Greedy synthesis invariants", "statement": "Every step of the greedy synthesis only performs column additions (invertible), so the recorded CNOT list always explains the current matrix; the loop stops only when exactly rank many columns are non-zero, and those columns then carry the Hadamards.", "quantifier": "every check matrix and number of loop iterations", "why_tests_cant": "Loop invariant over unboundedly many iterations.", "anchors": ["src/mqt/qecc/ft_stateprep/state_prep.py: heuristic_prep_circuit"]}
{"id": "C30", "title": "Column-addition encoding means one CNOT per gate step", "statement": "A solution of the SMT constraints for consecutive column states is exactly a sequence of matrices in which each step adds one column to another (gate-optimal) or a set of disjoint column pairs (depth-optimal).", "quantifier": "every number of columns, steps and matrices", "why_tests_cant": "All sizes.", "anchors": ["src/mqt/qecc/ft_stateprep/state_prep.py: _column_addition_constraint, _final_matrix_constraint"]}
{"id": "C31", "title": "Iterative search returns a solution within its range", "statement": "iterative_search_with_timeout returns a parameter not larger than max_param; when it returns a circuit, the circuit was produced by the given function for that parameter; with non-zero start values and multipliers above one it terminates.", "quantifier": "every function, every combination of parameters", "why_tests_cant": "All behaviours of the called function and all parameter values.", "anchors": ["src/mqt/qecc/ft_stateprep/state_prep.py: iterative_search_with_timeout"]}
{"id": "C32", "title": "Set cover and heuristic verification detect every fault", "statement": "If the greedy set cover terminates, the chosen sets cover all faults; hence the stabilizers chosen for a verification layer are in the span of the given stabilizers and every fault in the layer anti-commutes with at least one of them.", "quantifier": "every fault set and stabilizer group", "why_tests_cant": "All fault sets and groups.", "anchors": ["src/mqt/qecc/ft_stateprep/state_prep.py: _set_cover, _covers, _extend_covering_sets, _heuristic_layer"]}
{"id": "C33", "title": "Optimal verification stabilizers detect every fault", "statement": "A solution of the verification SMT instance decodes to stabilizers of the group such that each fault anti-commutes with at least one of them and the total/maximal weight bound is respected; and such a solution exists whenever such stabilizers exist.", "quantifier": "every fault set, group and bounds", "why_tests_cant": "All instances.", "anchors": ["src/mqt/qecc/ft_stateprep/state_prep.py: verification_stabilizers, _odd_overlap, _symbolic_vector_add, _vars_to_stab"]}
{"id": "C34", "title": "Measurement gadgets measure the requested stabilizer", "statement": "The flagged and unflagged stabilizer measurement circuits, run without faults, flip the ancilla exactly by the measured stabilizer's value, leave flags untriggered, and act on the data as the identity on the stabilizer's +1 eigenspace.", "quantifier": "every stabilizer support and weight accepted by the dispatcher", "why_tests_cant": "Every weight.", "anchors": ["src/mqt/qecc/ft_stateprep/state_prep.py: measure_flagged, measure_one_flagged, measure_two_flagged, w_flag_pattern"]}
{"id": "C35", "title": "Flag pattern is a permutation", "statement": "w_flag_pattern(w) lists each of 0..w-2 once, so that every CNOT of a weight-w measurement is emitted exactly once.", "quantifier": "every weight w", "why_tests_cant": "All w.", "anchors": ["src/mqt/qecc/ft_stateprep/state_prep.py: w_flag_pattern"]}
{"id": "C36", "title": "Measuring naive verification covers every generator", "statement": "naive_verification_circuit measures every generator of the code's X and Z stabilizers and repeats this as documented.", "quantifier": "every CSS code", "why_tests_cant": "All codes.", "anchors": ["src/mqt/qecc/ft_stateprep/state_prep.py: naive_verification_circuit"]}
{"id": "C37", "title": "Monte-Carlo error-rate bookkeeping", "statement": "The logical error rate reported by the running average equals total logical errors divided by total accepted samples per logical qubit, for every outcome sequence; the acceptance and shot counts reported match the batches run.", "quantifier": "every sequence of batch outcomes", "why_tests_cant": "All outcome sequences.", "anchors": ["src/mqt/qecc/ft_stateprep/simulation.py: NoisyNDFTStatePrepSimulator.logical_error_rate"]}
{"id": "C38", "title": "Stim noise parameters are fully propagated", "statement": "Changing the physical error rate regenerates the noisy circuit so that gate structure is independent of p and every CNOT/idle/init/measurement carries its own noise channel.", "quantifier": "every circuit and p sequence", "why_tests_cant": "All circuits.", "anchors": ["src/mqt/qecc/ft_stateprep/simulation.py: NoisyNDFTStatePrepSimulator.set_p, NoisyNDFTStatePrepSimulator.to_stim_circ"]}
{"id": "C39", "title": "Multi-round parity check matrix", "statement": "Decoding the multi-round matrix: a space-time error reproduces the difference syndromes exactly when accumulated data errors plus syndrome errors reproduce every round's measured syndrome.", "quantifier": "every H, every number of rounds, every error history", "why_tests_cant": "All histories and sizes.", "anchors": ["src/mqt/qecc/analog_information_decoding/simulators/memory_experiment_v2.py: build_multiround_pcm, decode_multiround"]}
{"id": "C40", "title": "Sliding-window commit is telescoping", "statement": "In decode_multiround the difference syndrome telescopes: summing the difference syndromes up to round r gives the measured syndrome of round r, and moving the window preserves the later rounds.", "quantifier": "every syndrome matrix and number of rounds", "why_tests_cant": "All histories.", "anchors": ["src/mqt/qecc/analog_information_decoding/simulators/memory_experiment_v2.py: decode_multiround, move_syndrome"]}
{"id": "C41", "title": "Pauli noise sampling is additive on the residual", "statement": "generate_err returns residual plus a Pauli error whose X and Z parts are consistent (X, Y, Z or I per qubit), for every random draw; error_channel_setup splits a rate into shares that sum to the rate.", "quantifier": "every draw, residual and bias", "why_tests_cant": "All random outcomes.", "anchors": ["src/mqt/qecc/analog_information_decoding/utils/simulation_utils.py: generate_err, error_channel_setup"]}
{"id": "C42", "title": "Signed and binary syndromes are inverse", "statement": "get_binary_from_analog(get_signed_from_binary(s)) = s for every binary syndrome; the sign of analog values decides the bit.", "quantifier": "every binary vector", "why_tests_cant": "All lengths.", "anchors": ["src/mqt/qecc/analog_information_decoding/utils/simulation_utils.py: get_signed_from_binary, get_binary_from_analog"]}
{"id": "C43", "title": "Single-stage analog parity check", "statement": "For the extended matrix [H | I], (e, s') solves it for syndrome s exactly when H e + s' = s: every virtual-check bit equals a syndrome flip.", "quantifier": "every matrix and syndrome", "why_tests_cant": "All sizes.", "anchors": ["src/mqt/qecc/analog_information_decoding/utils/simulation_utils.py: build_single_stage_pcm", "src/mqt/qecc/analog_information_decoding/simulators/analog_tannergraph_decoding.py: AnalogTannergraphDecoder"]}
{"id": "C44", "title": "Logical error test by rank", "statement": "check_logical_err_h(H, err, est) is true exactly when the residual err+est is not in the row space of H.", "quantifier": "every matrix and pair of vectors", "why_tests_cant": "All sizes.", "anchors": ["src/mqt/qecc/analog_information_decoding/utils/simulation_utils.py: check_logical_err_h, is_logical_err"]}
{"id": "C45", "title": "Output file selection never overwrites", "statement": "create_outpath returns a path that does not exist and whose identifier is the smallest unused one not below the requested identifier, for every directory content.", "quantifier": "every file-system state, every identifier", "why_tests_cant": "All directory contents.", "anchors": ["src/mqt/qecc/analog_information_decoding/utils/data_utils.py: create_outpath"]}
{"id": "C46", "title": "Merging simulation results is an exact pooled statistic", "statement": "merge_datasets adds runs and failure counts and recomputes error rates from the pooled totals, so that the result does not depend on order or grouping of the merged data sets.", "quantifier": "every list of data sets", "why_tests_cant": "All lists.", "anchors": ["src/mqt/qecc/analog_information_decoding/utils/data_utils.py: merge_datasets, calculate_error_rates, _combine_xz_data"]}
{"id": "C47", "title": "Cartesian and zipped parameter iterators", "statement": "product_dict yields each combination of the given values exactly once and zip_dict pairs them positionally.", "quantifier": "all dictionaries of lists", "why_tests_cant": "All sizes.", "anchors": ["src/mqt/qecc/analog_information_decoding/utils/data_utils.py: product_dict, zip_dict"]}
{"id": "C48", "title": "C++ PLU solver solves every solvable system", "statement": "For every boolean matrix and right-hand side, if a solution exists luSolve returns a solution of the system; rref yields matrices L, U and permutations that reproduce the matrix and rank equals the rank of the matrix.", "quantifier": "every matrix and every solvable right-hand side", "why_tests_cant": "All sizes.", "anchors": ["src/GF2.cpp: PluDecomposition::rref, PluDecomposition::luSolve"]}
{"id": "C49", "title": "C++ row-space membership", "statement": "isVectorInRowspace(M, v) is true exactly when v is a sum of rows of M; hence Code::isXStabilizer and isStabilizer decide stabilizer membership.", "quantifier": "every matrix and vector", "why_tests_cant": "All sizes.", "anchors": ["src/Utils.cpp: Utils::isVectorInRowspace", "include/Code.hpp: Code::isXStabilizer, Code::isStabilizer"]}
{"id": "C50", "title": "C++ matrix utilities", "statement": "getTranspose is an involution on rectangular matrices; rectMatrixMultiply computes the product mod 2; computeResidualErr is bitwise XOR; the CSC form lists exactly the non-zero positions.", "quantifier": "every rectangular matrix", "why_tests_cant": "All sizes.", "anchors": ["src/Utils.cpp: Utils::getTranspose, Utils::rectMatrixMultiply, Utils::computeResidualErr, Utils::toCsc"]}
{"id": "C51", "title": "Union-find cluster forest", "statement": "After any sequence of union and find operations, two vertices have the same root exactly when they were connected by the unions; cluster sizes at roots are the number of vertices in the cluster; the check vertices stored at a root are exactly those in its cluster.", "quantifier": "every sequence of operations", "why_tests_cant": "All histories.", "anchors": ["include/TreeNode.hpp: TreeNode::Find, TreeNode::Union"]}
{"id": "C52", "title": "Union-find decoder result reproduces the syndrome", "statement": "Whenever UFDecoder.decode reports success, applying the parity check matrix to the estimate gives the input syndrome, and X and Z halves appear in the same order as in the input.", "quantifier": "every code and syndrome", "why_tests_cant": "All codes and syndromes.", "anchors": ["src/UFDecoder.cpp: UFDecoder::decode, UFDecoder::doDecode, UFDecoder::getEstimateForComponent, UFDecoder::getConnectedComps"]}
{"id": "C53", "title": "Heuristic union-find decoder uses the right checks for each half", "statement": "UFHeuristic.decode on a CSS code's double-length syndrome decodes each half against the check matrix which produced it.", "quantifier": "every CSS code and syndrome", "why_tests_cant": "All codes.", "anchors": ["src/UFHeuristic.cpp: UFHeuristic::decode, UFHeuristic::doDecoding", "include/Decoder.hpp: Decoder::setCode"]}
{"id": "C54", "title": "Cached neighbour lists are transparent", "statement": "getNbrs(i) of the C++ parity-check matrix returns, at every call and in any order of calls, the data (resp. check) neighbours of the vertex in the Tanner graph; the relation is symmetric.", "quantifier": "every matrix and call history", "why_tests_cant": "All histories.", "anchors": ["include/Code.hpp: ParityCheckMatrix::getNbrs"]}
{"id": "C55", "title": "ECC mapping: acceptance, number of corrections, registers", "statement": "Applying a scheme to a circuit succeeds exactly if every gate is one the scheme supports; every instruction of the mapped circuit addresses only the n*redundancy + correcting qubits and m + classical bits the scheme announces; a correction is written after every measureFrequency gates; the Id scheme copies the circuit.", "quantifier": "every input circuit, scheme and frequency", "why_tests_cant": "All circuits.", "anchors": ["src/ecc/Ecc.cpp: Ecc::apply"]}
{"id": "C56", "title": "ECC correction tables correct every single error", "statement": "For the 3-qubit, 5-qubit, Steane, Shor-9 and 9-qubit surface schemes, the correction conditioned on the syndrome returns the state to the code space without logical error after any single-qubit error the scheme protects against.", "quantifier": "every single error on every data qubit", "why_tests_cant": "The table must be right in every case, for every encoded state.", "anchors": ["src/ecc/Q3Shor.cpp", "src/ecc/Q5Laflamme.cpp", "src/ecc/Q7Steane.cpp", "src/ecc/Q9Shor.cpp", "src/ecc/Q9Surface.cpp"]}
{"id": "C57", "title": "Noise model and scheme names", "statement": "create_noise_model accepts exactly non-empty strings over B, D, A, P; growthVariantFromString, code_from_string and apply_ecc accept exactly their documented names and reject everything else.", "quantifier": "every string", "why_tests_cant": "Infinitely many strings.", "anchors": ["src/mqt/qecc/ecc_qiskit_wrapper.py: create_noise_model", "include/Decoder.hpp: growthVariantFromString", "src/mqt/qecc/cc_decoder/__init__.py: code_from_string", "src/python/bindings.cpp: applyEcc"]}
{"id": "C58", "title": "Stabilizer-code equality is equality of signed stabilizer groups", "statement": "Two stabilizer codes on the same number of qubits compare equal exactly when their generators generate the same group of signed Pauli operators (so XX, ZZ and XX, -YY are the same code while XX, ZZ and XX, YY are different codes).", "quantifier": "every pair of generator lists", "why_tests_cant": "Quantifies over all generator lists and all products of generators.", "anchors": ["src/mqt/qecc/codes/stabilizer_code.py: StabilizerCode.__eq__"]}
{"id": "C59", "title": "Accepted logical operators are independent", "statement": "If the constructor accepts logical operators, no logical Z-operator is repeated (the logical operators describe distinct logical qubits).", "quantifier": "every accepted constructor call", "why_tests_cant": "All accepted inputs.", "anchors": ["src/mqt/qecc/codes/stabilizer_code.py: StabilizerCode._check_code_correct"]}
{"id": "C60", "title": "is_self_dual means equal X and Z stabilizer groups", "statement": "is_self_dual() is true exactly when the X and the Z check matrices span the same space, whatever generators (including redundant ones) were used to describe them.", "quantifier": "every pair of check matrices with the same number of columns", "why_tests_cant": "All matrices of all sizes.", "anchors": ["src/mqt/qecc/codes/css_code.py: CSSCode.is_self_dual"]}
{"id": "C61", "title": "Fault sets contain only real faults", "statement": "Every error in the fault set returned by compute_fault_set(k) is, up to stabilizers, the combined effect at the end of the circuit of k single-qubit faults, is a minimum-weight representative of its class and has weight above the tolerated bound.", "quantifier": "every circuit, stabilizer matrix, number of faults and history of earlier calls", "why_tests_cant": "All circuits, all call histories.", "anchors": ["src/mqt/qecc/ft_stateprep/state_prep.py: StatePrepCircuit.compute_fault_set, _propagate_error"]}
{"id": "C62", "title": "Fault sets contain every enumerated dangerous fault combination", "statement": "The fault set for k faults contains an equivalent of every combination of k faults of the enumerated kind (error on a control after a CNOT, or on one qubit at the end) that is not equivalent to an error within the tolerated weight, whatever was computed and cached before; the call succeeds for every 1 <= k <= max_errors.", "quantifier": "every circuit, number of faults and history of earlier calls", "why_tests_cant": "All circuits, all call histories.", "anchors": ["src/mqt/qecc/ft_stateprep/state_prep.py: StatePrepCircuit.compute_fault_set"]}
{"id": "C63", "title": "One-fault set covers every single circuit fault", "statement": "Every dangerous error that a single-qubit fault at any place of the state preparation circuit can become is equivalent to an element of compute_fault_set(1).", "quantifier": "every circuit and fault location", "why_tests_cant": "All circuits and fault locations.", "anchors": ["src/mqt/qecc/ft_stateprep/state_prep.py: StatePrepCircuit.compute_fault_set, _propagate_error"]}
{"id": "C64", "title": "Fault sets do not depend on call history", "statement": "The classes of errors returned by compute_fault_set(k) are the same whatever was computed before and with whichever reduce flag.", "quantifier": "every circuit and pair of call histories", "why_tests_cant": "All call histories.", "anchors": ["src/mqt/qecc/ft_stateprep/state_prep.py: StatePrepCircuit.compute_fault_set"]}
{"id": "C65", "title": "Combining with additional faults", "statement": "combine_faults(additional) returns for every k exactly the coset leaders of the dangerous combinations of k circuit or additional faults.", "quantifier": "every circuit, additional fault list, k and history", "why_tests_cant": "All circuits, fault lists and histories.", "anchors": ["src/mqt/qecc/ft_stateprep/state_prep.py: StatePrepCircuit.combine_faults"]}
{"id": "C66", "title": "Optimal encodings are exact", "statement": "For linearly independent checks the solver instance with k CNOTs (depth D) is satisfiable exactly when the logical state can be prepared by one layer of Hadamards followed by k CNOTs (D layers of parallel CNOTs); satisfiability is monotone in the parameter.", "quantifier": "every check matrix with independent rows, every k and D", "why_tests_cant": "All circuits and all matrices: an exhaustive enumeration is impossible.", "anchors": ["src/mqt/qecc/ft_stateprep/state_prep.py: _generate_circ_with_bounded_gates, _generate_circ_with_bounded_depth"]}
{"id": "C67", "title": "gate/depth_optimal_prep_circuit return minimal circuits", "statement": "A circuit returned by gate_optimal_prep_circuit (depth_optimal_prep_circuit) prepares the state with the reported number of gates (layers), and unless the last solver call timed out, no circuit of the same form with fewer gates (layers) exists; if solver calls do not time out and a circuit in range exists, one is returned.", "quantifier": "every check matrix, every solver behaviour, all parameter ranges", "why_tests_cant": "Minimality ranges over all circuits; solver answers are nondeterministic.", "anchors": ["src/mqt/qecc/ft_stateprep/state_prep.py: _optimal_circuit, gate_optimal_prep_circuit, depth_optimal_prep_circuit"]}
{"id": "C68", "title": "Gate-optimal verification layers are sound and CNOT-minimal", "statement": "Every layer returned by gate_optimal_verification_stabilizers consists of stabilizers of the prepared state's checks, detects every fault of that layer and uses no more CNOTs than measuring all checks; when no search times out, no family of at most max_ancillas stabilizers detecting the faults uses fewer CNOTs; a layer is missing only if no detecting family exists.", "quantifier": "every fault set, check matrix, ancilla bound and answer of the solver", "why_tests_cant": "The search depends on solver answers and timeouts; all instances are needed.", "anchors": ["src/mqt/qecc/ft_stateprep/state_prep.py: gate_optimal_verification_stabilizers, verification_stabilizers, iterative_search_with_timeout"]}
{"id": "C69", "title": "Verified circuits measure both rounds of stabilizers", "statement": "A verified state preparation circuit measures exactly the stabilizers found by the search in the first round (unflagged) and, with full fault tolerance, those found in the second round with the first round's hook errors as extra faults (flagged); without faults no flag fires and the data is projected onto the eigenspaces named by the outcomes.", "quantifier": "every code, state, search result and outcome", "why_tests_cant": "All circuits and input states.", "anchors": ["src/mqt/qecc/ft_stateprep/state_prep.py: _verification_circuit, _measure_ft_stabs, gate_optimal_verification_circuit, heuristic_verification_circuit"]}
{"id": "C70", "title": "Hook errors are complete", "statement": "The hook errors added for the second verification round contain every multi-qubit error that a single ancilla fault of a first-round measurement leaves on the data.", "quantifier": "every list of measured stabilizers", "why_tests_cant": "All stabilizers.", "anchors": ["src/mqt/qecc/ft_stateprep/state_prep.py: _hook_errors"]}
{"id": "C71", "title": "Bivariate bicycle codes have their declared distance", "statement": "For every supported length, an error on the code returned by construct_bb_code that commutes with all checks and is not a stabilizer has weight at least the declared distance.", "quantifier": "every supported n, every error", "why_tests_cant": "All errors.", "anchors": ["src/mqt/qecc/codes/bb_codes.py: construct_bb_code, _cyclic_code_check_matrix"]}
{"id": "C72", "title": "The colour-code decoder fits the colour-code lattices", "statement": "For the hexagonal code of every distance and the square-octagon code of every odd distance, and every iteration order of the qubit sets, the decoder can be set up from the code's two adjacency dictionaries (which agree), and for every error the returned estimate has the syndrome of the error, has minimum weight among all errors with that syndrome, and leaves the decoder object unchanged.", "quantifier": "every distance, every set order, every error", "why_tests_cant": "Infinite family of lattices and 2^n errors each.", "anchors": ["src/mqt/qecc/cc_decoder/decoder.py: LightsOut.solve", "src/mqt/qecc/codes/hexagonal_color_code.py: construct_layout", "src/mqt/qecc/codes/square_octagon_color_code.py: construct_layout"]}
{"id": "C73", "title": "simulate_error_rate reports the frequencies of its samples", "statement": "For every sequence of sampled errors and measured times, simulate_error_rate returns for each logical the fraction of samples whose residual that logical is the first to detect, the least weight of those residuals (-1 if there are none), and the arithmetic means of the times.", "quantifier": "every sequence of samples", "why_tests_cant": "Statements about every history of random samples and the running averages.", "anchors": ["src/mqt/qecc/cc_decoder/decoder.py: simulate_error_rate"]}
{"id": "C74", "title": "Measurement record layout of the noisy simulation circuit", "statement": "In the stim circuit built by NoisyNDFTStatePrepSimulator, every code check is measured with an ancilla no earlier instruction uses, every data qubit is read out exactly once, and the index lists of verification, X-check, Z-check and data results point at these results in the sampled record.", "quantifier": "every layered circuit with data and verification ancilla qubits, every code and error rate", "why_tests_cant": "The layout depends on the circuit, the code and the number of ancilla reuses; a test sees one circuit.", "anchors": ["src/mqt/qecc/ft_stateprep/simulation.py: NoisyNDFTStatePrepSimulator.set_p, NoisyNDFTStatePrepSimulator.measure_stabilizers, NoisyNDFTStatePrepSimulator.measure_z, NoisyNDFTStatePrepSimulator.measure_x"]}
{"id": "C75", "title": "The batch simulation counts exactly the residual logical errors", "statement": "Whatever errors hit the accepted shots, the number of logical errors a batch reports is the number of accepted shots whose error combined with the decoder's correction acts non-trivially on the code space, independently of which codeword was read out; the discarded count is the number of flagged shots.", "quantifier": "every code, every list of sampled records and every error behind each record", "why_tests_cant": "Errors, random codewords and decoder answers range over exponentially many vectors.", "anchors": ["src/mqt/qecc/ft_stateprep/simulation.py: NoisyNDFTStatePrepSimulator._simulate_batch"]}
{"id": "C76", "title": "Sliding-window commit is consistent with the committed correction", "statement": "After decode_multiround commits the correction of the older half of a window, the syndromes carried over to the next window are exactly the syndromes that would have been measured had the committed data and time-like corrections been applied to the state.", "quantifier": "every check matrix, window length, syndrome history and decoder output", "why_tests_cant": "there are unboundedly many syndrome histories and decoder answers; a sampled run shows only a changed error rate", "anchors": ["src/mqt/qecc/analog_information_decoding/simulators/memory_experiment_v2.py: decode_multiround"]}
{"id": "C77", "title": "Every quasi-single-shot sample ends with a perfect decoding", "statement": "Each sample of the quasi-single-shot simulator ends with a decoding that includes the final perfect syndrome measurement, so that a perfect decoder leaves a residual error of trivial syndrome.", "quantifier": "every number of rounds, window length, noise and decoder", "why_tests_cant": "the last decoding is reached only for some relations between rounds and window; no finite set of parameter pairs shows which", "anchors": ["src/mqt/qecc/analog_information_decoding/simulators/quasi_single_shot_v2.py: _single_sample"]}
{"id": "C78", "title": "Window decoding does not depend on earlier calls", "statement": "The answer of decode_multiround for a window depends on its arguments only, not on windows decoded earlier with the same decoder object.", "quantifier": "every sequence of calls, mixing last and non-last windows", "why_tests_cant": "histories are unbounded and the leaked state changes only soft information", "anchors": ["src/mqt/qecc/analog_information_decoding/simulators/memory_experiment_v2.py: decode_multiround"]}
{"id": "C79", "title": "Single-shot samples report logical failure correctly", "statement": "A single-shot sample reports a logical error on a side exactly when the residual error after all rounds is a non-trivial logical operator or has a non-zero syndrome, whether or not the caller supplied logical operators.", "quantifier": "every code, every error and every decoder estimate", "why_tests_cant": "All codes, errors and decoders.", "anchors": ["src/mqt/qecc/analog_information_decoding/simulators/simulation.py: SingleShotSimulator._single_sample, check_logical_err_h"]}
{"id": "C80", "title": "The decoder is asked the measured question", "statement": "In every round the decoder receives the measured syndrome (after meta-check repair when two-stage decoding is used) and the error rate of its own side, for every noise model and decoding mode.", "quantifier": "every configuration, every syndrome, every rate", "why_tests_cant": "Configurations times real-valued inputs.", "anchors": ["src/mqt/qecc/analog_information_decoding/simulators/simulation.py: SingleShotSimulator._two_stage_decoding, _single_stage_decoding, _get_noisy_syndrome, _single_sample"]}
{"id": "C81", "title": "Simulation runs report the counters of the samples they took", "statement": "run returns, for every outcome sequence and stop criterion, the success counters over exactly the samples taken, and stops only at a save point, at the sample limit or at convergence.", "quantifier": "every sequence of sample outcomes, every save interval, every convergence predicate", "why_tests_cant": "All histories.", "anchors": ["src/mqt/qecc/analog_information_decoding/simulators/simulation.py: SingleShotSimulator.run", "src/mqt/qecc/analog_information_decoding/simulators/analog_tannergraph_decoding.py: AtdSimulator.run", "src/mqt/qecc/analog_information_decoding/simulators/quasi_single_shot_v2.py: QssSimulator.run"]}
{"id": "C82", "title": "Convergence test", "statement": "is_converged returns True exactly when on both sides some runs failed, some succeeded and the error bar of the word error rate is below the requested fraction of the rate; it raises only for zero runs or k = 0.", "quantifier": "all success counts, run counts, k and precisions", "why_tests_cant": "Unbounded numbers.", "anchors": ["src/mqt/qecc/analog_information_decoding/utils/data_utils.py: is_converged, _check_convergence, calculate_error_rates"]}
{"id": "C83", "title": "Reported rates and error bars", "statement": "calculate_error_rates returns the fraction of failures, its binomial standard error, the rate per logical qubit w with (1-w)^k = 1-p, and as its error bar the propagated standard error |dw/dp| sigma_p.", "quantifier": "all counts and k", "why_tests_cant": "Unbounded numbers; real analysis.", "anchors": ["src/mqt/qecc/analog_information_decoding/utils/data_utils.py: calculate_error_rates, _update_error_rates"]}
{"id": "C84", "title": "Concurrent simulations never share an output file", "statement": "Two processes that call create_outpath concurrently never receive the same path.", "quantifier": "every interleaving of the file-system operations of two processes", "why_tests_cant": "All schedules.", "anchors": ["src/mqt/qecc/analog_information_decoding/utils/data_utils.py: create_outpath"]}
{"id": "C85", "title": "Combined X/Z entries", "statement": "The entry merge_json_files_xz writes for a folder has the X counters summed over the data sets with X results and the Z counters summed over those with Z results, next to the corresponding numbers of runs.", "quantifier": "every list of data sets", "why_tests_cant": "All lists.", "anchors": ["src/mqt/qecc/analog_information_decoding/utils/data_utils.py: merge_json_files_xz, _merge_datasets_x, _merge_datasets_z, _combine_xz_data"]}
{"id": "C86", "title": "Settings files", "statement": "extract_settings returns for every keyword of the parameter file exactly the distinct values it takes, each once.", "quantifier": "all parameter files", "why_tests_cant": "All files.", "anchors": ["src/mqt/qecc/analog_information_decoding/utils/data_utils.py: extract_settings"]}
{"id": "C87", "title": "C++ code object computes the syndrome of a Pauli error and refuses wrong lengths", "statement": "For an error vector of length n, getXSyndrome returns the parity vector of the stored Z check matrix on the error; for an error vector of length 2n, getSyndrome returns the concatenation of the parities of the two stored check matrices on the two halves. Vectors of any other length are rejected with an exception, never silently truncated.", "quantifier": "all codes with rectangular check matrices and all error vectors of any length", "why_tests_cant": "The parity must be right for every vector and matrix; a test fixes a handful of them.", "anchors": ["include/Code.hpp: Code::getXSyndrome, Code::getSyndrome"]}
{"id": "C88", "title": "Union-find decoding terminates", "statement": "UFDecoder.decode returns, without an exception, for every growth variant and every syndrome that is the syndrome of an error; the two forms of the returned estimate (index list and bit vector) agree.", "quantifier": "every check matrix without empty rows and columns, every growth variant, every random choice, every syndrome of an error", "why_tests_cant": "Termination of a data-dependent growth loop on all codes cannot be observed by finitely many runs.", "anchors": ["src/UFDecoder.cpp: UFDecoder::doDecode, standardGrowth, singleClusterSmallestFirstGrowth, singleClusterRandomFirstGrowth, singleQubitRandomFirstGrowth, getConnectedComps"]}
{"id": "C89", "title": "Union-find decoding has no side effects on later decodings", "statement": "UFDecoder.decode keeps the code and the configured growth variant, and its result depends only on code, growth variant and syndrome, not on earlier calls.", "quantifier": "every decoder object, history of calls and syndrome", "why_tests_cant": "All histories.", "anchors": ["src/UFDecoder.cpp: UFDecoder::decode, UFDecoder::reset"]}
{"id": "C90", "title": "The union-find decoder corrects single errors on Steane's code", "statement": "For every single X error on Steane's code the residual error after UFDecoder decoding is a stabilizer.", "quantifier": "all seven single-qubit errors, every amount of growth", "why_tests_cant": "It must hold for all errors of weight one, up to the stabilizer group.", "anchors": ["src/UFDecoder.cpp: UFDecoder::doDecode, UFDecoder::getEstimateForComponent", "src/Utils.cpp: computeResidualErr", "include/Code.hpp: Code::isXStabilizer"]}
{"id": "C91", "title": "Heuristic decoder objects can be reused", "statement": "Decoding a syndrome with a UFHeuristic object which has been used before gives the same estimate as with a new one; after reset it behaves as new.", "quantifier": "every code, every history of decodings, every traversal order", "why_tests_cant": "All histories.", "anchors": ["src/UFHeuristic.cpp: UFHeuristic::decode, UFHeuristic::doDecoding, UFHeuristic::reset"]}
{"id": "C92", "title": "Heuristic decoder estimates", "statement": "The estimate returned by UFHeuristic.decode reproduces the syndrome, its index list and bit vector agree with each qubit listed once, the zero syndrome gives the zero estimate, and the unsupported growth variant is rejected with an exception.", "quantifier": "every code, decoder state, traversal order and syndrome", "why_tests_cant": "All codes and traversal orders of unordered sets.", "anchors": ["src/UFHeuristic.cpp: UFHeuristic::doDecoding, UFHeuristic::erasureDecoder, UFHeuristic::standardGrowth"]}
{"id": "C93", "title": "Q18Surface corrects single bit flips", "statement": "After any single X error on any of the 18 data qubits of a logical qubit of Q18Surface the correction restores the encoded state.", "quantifier": "every logical qubit count, every code state, every data qubit", "why_tests_cant": "The table must be right in every case, for every encoded state.", "anchors": ["src/ecc/Q18Surface.cpp: measureAndCorrect", "include/ecc/Q18Surface.hpp: qubitCorrectionX"]}
{"id": "C94", "title": "ECC mapping keeps user measurements", "statement": "A measurement of the original circuit, qubits to bits, appears in the mapped circuit after correction and decoding as the measurement of the decoded qubits into the same bits.", "quantifier": "every circuit, every measurement, every scheme", "why_tests_cant": "All circuits.", "anchors": ["src/ecc/Q3Shor.cpp: mapGate", "src/ecc/Q5Laflamme.cpp: mapGate", "src/ecc/Q7Steane.cpp: mapGate"]}
{"id": "C95", "title": "ECC mapping writes no other user bits", "statement": "A classical bit of the original circuit is written in the mapped circuit only if the original circuit measures into it.", "quantifier": "every circuit, frequency and scheme", "why_tests_cant": "All circuits.", "anchors": ["src/ecc/Q9Surface.cpp: writeDecoding", "src/ecc/Q18Surface.cpp: writeDecoding", "src/ecc/Q3Shor.cpp"]}
{"id": "C96", "title": "Printed simulation results", "statement": "print_simulation_results prints every measured word whose fraction of the shots exceeds the threshold, in alphabetical order, with that fraction, at most 1000 lines and at least one.", "quantifier": "every table of counts, number of shots and threshold", "why_tests_cant": "All tables of counts.", "anchors": ["src/mqt/qecc/ecc_qiskit_wrapper.py: print_simulation_results"]}
{"id": "C97", "title": "Word error rates of the C++ simulator", "statement": "simulateWER reports for every rate min + i*step < max the fraction of runs with a logical error, divided by the number of logical qubits: X errors decoded with the Z checks and judged by the X stabilizers; it terminates and writes a well-formed statistics file.", "quantifier": "every code, decoder, sequence of sampled errors and rate range", "why_tests_cant": "All samples and codes.", "anchors": ["src/DecodingSimulator.cpp: simulateWER", "include/Decoder.hpp: setCode"]}
{"id": "C98", "title": "Average decoding times", "statement": "simulateAverageRuntime reports for each run the average decoding time of the samples of that run.", "quantifier": "every sequence of decoding times", "why_tests_cant": "All histories.", "anchors": ["src/DecodingSimulator.cpp: simulateAverageRuntime"]}
{"id": "C99", "title": "JSON round trips of results", "statement": "from_json reads back what to_json has written, for decoding results, run information and codes.", "quantifier": "every value", "why_tests_cant": "All values.", "anchors": ["include/Decoder.hpp: DecodingResult", "include/DecodingRunInformation.hpp", "include/Code.hpp: to_json, from_json"]}
{"id": "C100", "title": "An encoded circuit gives the results of the original circuit", "statement": "For every circuit that an error-correcting scheme accepts, running the encoded circuit on |0...0> gives the measurement results of the original circuit in the classical bits of the user; for the codes that correct errors this also holds if between two corrections errors hit only what the code can correct.", "quantifier": "every scheme, every circuit in range on any number of qubits and classical bits, every correction frequency, every placement of noise within the capability of the code, every measurement branch", "why_tests_cant": "Quantifies over all circuits, noise placements and random measurement outcomes.", "anchors": ["src/ecc/Ecc.cpp: Ecc::apply", "src/ecc/Q3Shor.cpp", "src/ecc/Q9Shor.cpp", "src/ecc/Q5Laflamme.cpp", "src/ecc/Q7Steane.cpp", "src/ecc/Q9Surface.cpp", "src/ecc/Q18Surface.cpp", "include/ecc/Id.hpp"]}
{"id": "C101", "title": "Flagged stabilizer measurements are fault tolerant", "statement": "If measure_flagged returns a circuit for t faults, then whenever at most t Pauli faults occur in that circuit (before or after any gate or measurement, on any single qubit or on the qubits of the gate) and no flag is raised, the data qubits end in the state projected onto an eigenspace of the stabilizer up to an error on at most as many data qubits as there were faults.", "quantifier": "every stabilizer on distinct qubits for which a circuit is produced (weight at least two for t = 1), Z or X type, every placement and kind of at most t faults, every data state (also entangled with others), every measurement outcome with flags at 0", "why_tests_cant": "The number of fault placements grows with the stabilizer, for t = 1 every weight is covered, and data states form a continuum.", "anchors": ["src/mqt/qecc/ft_stateprep/state_prep.py: measure_flagged, _measure_stab_one_flagged, measure_stab_two_flagged, measure_flagged_4, measure_flagged_6, measure_flagged_8"]}
{"id": "C102", "title": "One-fault tolerance of verified state preparation", "statement": "A circuit returned by heuristic_verification_circuit or gate_optimal_verification_circuit (full_fault_tolerance=False) that is run without faults accepts with certainty and ends in the prepared logical state; with at most one Pauli fault after any instruction (on any qubit and, for a CNOT, on both) an accepted run ends, up to a sign, in that state changed by an operator with at most max_w errors of the verified kind (X for the zero state, Z for the plus state) on the data qubits. A given set of measurements achieves this exactly if every dangerous effect of a one-qubit fault of the preparation circuit anticommutes with a measured stabilizer.", "quantifier": "all codes, preparation circuits, measured stabilizers, coset leaders, solver answers, call histories, fault positions and fault operators", "why_tests_cant": "fault positions times fault operators times codes is unbounded, and the quantum state must be compared, not a sample of outcomes; the repository tests check stabilizers, not the circuits under faults", "anchors": ["src/mqt/qecc/ft_stateprep/state_prep.py: StatePrepCircuit, heuristic_verification_circuit, gate_optimal_verification_circuit, heuristic_verification_stabilizers, gate_optimal_verification_stabilizers, _verification_circuit, _measure_ft_stabs"]}
{"id": "C103", "title": "Logical gates of the ECC schemes", "statement": "While the qubits are encoded, what the mapGate of a scheme writes for an accepted gate acts on the encoding of every joint state of the logical qubits as that gate does on the state itself, up to a global phase that does not depend on the state.", "quantifier": "every scheme, every number of logical qubits, every accepted gate with its targets and positive or negative controls, every joint state of the logical qubits (also entangled ones)", "why_tests_cant": "states form a continuum and the number of qubits is unbounded; the repository tests only compare sampled measurement results, which do not see phases", "anchors": ["include/ecc/Ecc.hpp", "src/ecc/Q3Shor.cpp: mapGate", "src/ecc/Q5Laflamme.cpp: mapGate", "src/ecc/Q7Steane.cpp: mapGate", "src/ecc/Q9Shor.cpp: mapGate", "src/ecc/Q9Surface.cpp: mapGate", "src/ecc/Q18Surface.cpp: mapGate"]}
{"id": "C104", "title": "One-fault tolerance with full_fault_tolerance=True", "statement": "A circuit returned by heuristic_verification_circuit or gate_optimal_verification_circuit with full_fault_tolerance=True (the default): without faults every measurement and flag reads 0 and the circuit ends in the prepared logical state; with at most one Pauli fault after any instruction of the preparation, of either measurement round or of the flag gadgets, a run in which everything reads 0 ends, up to a sign, in that state changed by an operator with at most max_w X errors and max_w Z errors on the data qubits. A given pair of measurement rounds achieves this exactly if the dangerous effects of preparation faults of the first kind are detected by the first round, those of the other kind by the second, and the dangerous hook errors of the first round by the second.", "quantifier": "all codes, preparation circuits, measured stabilizers, flag gadgets, coset leaders, solver answers, call histories, fault positions and fault operators", "why_tests_cant": "fault positions times fault operators times codes is unbounded, and the quantum state must be compared; the repository tests count stabilizers and CNOTs, they do not inject faults into the verification gadgets of arbitrary codes", "anchors": ["src/mqt/qecc/ft_stateprep/state_prep.py: heuristic_verification_circuit, gate_optimal_verification_circuit, _verification_circuit, _measure_ft_stabs, _measure_ft_x, _measure_ft_z, _hook_errors, StatePrepCircuit.combine_faults", "src/mqt/qecc/ft_stateprep/state_prep.py: measure_flagged, _measure_stab_one_flagged, measure_stab_two_flagged"]}
{"id": "C105", "title": "Lifted product codes commute", "statement": "The X and Z check matrices built by LiftedHgp commute; the array protograph of a LiftedHgp, lifted, describes commuting stabilizers; BiasTailoredLiftedProduct accepts the same arrays, its stabilizers commute, and so do those described by its array protograph.", "quantifier": "every lift parameter, all protographs a and b of any shape with entries in the ring of circulants (any exponents, also negative or above the lift parameter, any number of monomials)", "why_tests_cant": "the commutation is an identity in the ring of circulants for all arrays; the repository has no test of these scripts, and the scripts write the matrices whenever the attribute qcode.test (a bound method) is true, that is always", "anchors": ["scripts/numerics/code_construct/lifted_hgp.py: LiftedHgp, BiasTailoredLiftedProduct", "scripts/numerics/code_construct/constructLPcodes.py"]}
{"id": "C106", "title": "Merging result folders", "statement": "merge_json_files, merge_json_files_x, merge_json_files_z and merge_json_files_xz write, to the file named like the input folder and placed beside it, one entry for each subfolder whose JSON files contain mergeable data, namely the merged data sets of exactly the decodable .json files in that subfolder; damaged files, other files and plain files in the input folder are ignored.", "quantifier": "every directory tree, every order in which the file system lists entries, absolute and relative input paths, every working directory", "why_tests_cant": "the directory tree and the path are unbounded; the repository does not test these functions on a file system", "anchors": ["src/mqt/qecc/analog_information_decoding/utils/data_utils.py: merge_json_files, merge_json_files_x, merge_json_files_z, merge_json_files_xz"]}
{"id": "C107", "title": "The evaluation script simulates the requested circuit", "statement": "estimate_logical_error_rate.py hands to the simulator a circuit for the requested code, distance, state and synthesis method, with the requested verification, and without verification if --no_ver is given, whether the circuit is read from a stored file or built.", "quantifier": "all combinations of arguments, every distance, every set of stored circuit files whose contents agree with their names", "why_tests_cant": "the arguments and the set of stored files combine without bound; the script has no tests", "anchors": ["src/mqt/qecc/ft_stateprep/eval/estimate_logical_error_rate.py: main", "src/mqt/qecc/ft_stateprep/eval/circuits"]}
{"id": "C108", "title": "Generated code files", "statement": "create_code writes, into the folder of the code, text files from which the C++ classes read back exactly the parity-check matrices of a CSS code, its metachecks and, if requested, a full set of logical operators; it writes the code parameters and distances if requested and changes no other file. Code(path) and Code(pathX, pathZ) refuse missing, empty and malformed files with QeccException.", "quantifier": "all seed codes of all sizes, all distances the script may find, every file system, every text of a parity-check file", "why_tests_cant": "the matrices, the files and the printed numbers are unbounded; writer and reader are in different languages and no test runs both", "anchors": ["src/mqt/qecc/analog_information_decoding/code_construction/code_constructor.py: create_code, save_code, _compute_distances, _compute_logicals", "src/mqt/qecc/analog_information_decoding/code_construction/sparse_code_constructor.py: create_code, save_code, _store_code_params", "src/mqt/qecc/analog_information_decoding/code_construction/compute_distances.sh", "include/Code.hpp: ParityCheckMatrix, Code", "src/Utils.cpp: importGf2MatrixFromFile"]}
{"id": "C109", "title": "Analog noise strength and syndrome error rate are the same quantity", "statement": "get_error_rate_from_sigma(sigma) is the probability that thresholding the noisy analog value of a check gives the wrong bit; get_sigma_from_syndr_er is its inverse; the values for the virtual checks are the probabilities that a bit is wrong given its analog value.", "quantifier": "every noise strength sigma >= 0, every rate in [0, 1/2), every analog value", "why_tests_cant": "Real parameters; the statement is about a Gaussian distribution.", "anchors": ["src/mqt/qecc/analog_information_decoding/utils/simulation_utils.py: get_error_rate_from_sigma, get_sigma_from_syndr_er, get_analog_llr, get_virtual_check_init_vals, get_noisy_analog_syndrome, get_binary_from_analog"]}
{"id": "C110", "title": "The analog Tanner graph decoder asks about the given syndrome", "statement": "AnalogTannergraphDecoder accepts exactly one of sigma and ser; every decode call passes the matrix [H | I], the thresholded syndrome, the data error probabilities of the constructor and the wrong-bit probabilities of this syndrome to the BP+OSD decoder, whatever was decoded before.", "quantifier": "every matrix, noise strength, and history of decode calls", "why_tests_cant": "All histories and all real syndromes.", "anchors": ["src/mqt/qecc/analog_information_decoding/simulators/analog_tannergraph_decoding.py: AnalogTannergraphDecoder.__init__, _set_analog_syndrome, decode"]}
{"id": "C111", "title": "The analog Tanner graph simulator has the measurement noise asked for", "statement": "For every sigma >= 0 or syndrome error rate below 1/2 and every bias AtdSimulator can be created and its noisy syndrome bits are wrong with the given rate on both sides; every sample draws a Pauli error of the biased channel and reports for each side whether the decoded residual commutes with the logical operators, whatever was sampled before.", "quantifier": "every code, rate, bias, random draw and number of samples", "why_tests_cant": "Real parameters and all histories of samples.", "anchors": ["src/mqt/qecc/analog_information_decoding/simulators/analog_tannergraph_decoding.py: AtdSimulator.__init__, single_sample, run"]}
{"id": "C112", "title": "Verified state preparation tolerates several faults", "statement": "A circuit returned by heuristic_verification_circuit or gate_optimal_verification_circuit (full_fault_tolerance=False) tolerates every number f <= max_errors of faults, wherever they happen - in the preparation, on data qubits during the verification, in the verification gates, on ancillas or in the measurements: if all measurements give 0, the prepared state carries at most f errors of the verified kind (f times the ratio of the distances) up to stabilizers.", "quantifier": "every CSS code, preparation circuit, distance, history of fault-set computations, number f <= max_errors of faults, every choice of fault places and of Pauli operators, every initial amplitude ring", "why_tests_cant": "the number of combinations of f faults grows exponentially, and whether faults in the verification can hide faults of the preparation depends on the order of all measurements", "anchors": ["src/mqt/qecc/ft_stateprep/state_prep.py: heuristic_verification_circuit, gate_optimal_verification_circuit, heuristic_verification_stabilizers, gate_optimal_verification_stabilizers, StatePrepCircuit.compute_fault_set, _measure_ft_stabs"]}
{"id": "C113", "title": "Alist files are read back as the matrix they describe", "statement": "alist2numpy returns the binary matrix an alist file describes: entry (i, j) is one exactly if the i-th line after the four header lines lists column j (counted from one). Zeros that pad a line to a common length do not change the matrix, and rows without ones are zero rows.", "quantifier": "every binary matrix with any numbers of rows and columns, all header lines, all trailing lines, all paddings", "why_tests_cant": "A test reads a few files; that the parser inverts the format needs every matrix and every padding, in particular index 0, which wraps around to the last column, and empty lines, which the text loader skips.", "anchors": ["src/mqt/qecc/analog_information_decoding/utils/simulation_utils.py: alist2numpy"]}
{"id": "C114", "title": "Simulator decoders have the matrix and priors of their own side", "statement": "Whatever was simulated before, every decoder that SingleShotSimulator asks during a sample has the check matrix of the side it decodes, the error rate of this side for every data bit, and for every syndrome bit the probability that it is wrong (the posterior given the analog value in analog Tanner graph decoding, the syndrome error rate for the meta code); the estimate is added to the error of this round, and the final perfect round asks the true syndrome.", "quantifier": "every code with every meta check matrix, every decoding mode, rate and bias, every random draw, every number of rounds and samples before", "why_tests_cant": "The decoder objects are mutated by every analog round and shared between all rounds and samples; a test sees a few rounds of one configuration and only the logical error rate.", "anchors": ["src/mqt/qecc/analog_information_decoding/simulators/simulation.py: SingleShotSimulator.__init__, _single_stage_setup, _two_stage_setup, _single_sample, _single_stage_decoding, _two_stage_decoding, _analog_tg_decoding, _ss_analog_tg_decoding, _meta_code_decoding"]}
{"id": "C115", "title": "Samples of the single-shot simulator do not depend on earlier samples", "statement": "A sample drawn by SingleShotSimulator after any number of other samples asks its decoders the same questions and reports the same result as the first sample of a new simulator with the same random draws; the results of a run are those of its samples, each on its own.", "quantifier": "every configuration, every history of samples and rounds, every random draw and decoder", "why_tests_cant": "Needs every history; the decoders' channel probabilities are changed in place by each round.", "anchors": ["src/mqt/qecc/analog_information_decoding/simulators/simulation.py: SingleShotSimulator._single_sample, run"]}
{"id": "C116", "title": "Samples of the quasi-single-shot simulator use the right soft information in every window", "statement": "With analog_tg=True and a syndrome error rate of the side strictly between 0 and 1/2, every sample of QssSimulator, also after other samples with the same object, does the following: in every round a Pauli error of the biased channel is added to the residual error; the checks are measured with Gaussian noise for which the thresholded bit is wrong with the given rate, the last round without noise; every complete window is given to the decoder with the multi-round matrix, with the data error rate of this side for every data bit of every round, and, for every syndrome bit, the probability that it is wrong given the measured value of its own round and check (1e-15 for the last round of the sample); the committed correction is applied to the state; the result says whether the final error is a logical error. The sample does not depend on earlier samples. The question to the decoder is the syndrome of the errors that happened, except that bits blamed in the last committed round are flipped once more; after a complete last window the syndrome of the remaining error is what the decoder blamed on the last, perfect round.", "quantifier": "every check matrix, error rate, bias, side, decoding method, even window length, number of rounds, random draws, decoder and history of samples", "why_tests_cant": "windows overlap and soft information moves with them; an index error in the flattening or the shift of the analog values gives plausible but worse error rates, and the draws are real numbers", "anchors": ["src/mqt/qecc/analog_information_decoding/simulators/quasi_single_shot_v2.py: QssSimulator", "src/mqt/qecc/analog_information_decoding/simulators/memory_experiment_v2.py: decode_multiround, move_syndrome, get_updated_decoder"]}
{"id": "C117", "title": "Matching weights order errors by probability", "statement": "In every window that the quasi-single-shot simulator gives to the matching decoder, all weights are finite, and as long as no log-likelihood ratio exceeds the bound 16777215 of the weights, an error has a smaller total weight than another one exactly if it is more probable when data bits are wrong with the data error rate and syndrome bits with the probability that follows from their measured values; the weight of a syndrome bit is |2y/sigma^2| for the measured value y.", "quantifier": "every sample, window, rate, noise strength and pair of space-time errors", "why_tests_cant": "the set of errors is exponential and the weights are real numbers", "anchors": ["src/mqt/qecc/analog_information_decoding/simulators/memory_experiment_v2.py: get_updated_decoder", "src/mqt/qecc/analog_information_decoding/simulators/quasi_single_shot_v2.py: QssSimulator.__init__"]}
{"id": "C118", "title": "The ECC wrapper simulates the requested circuit with noise on every gate", "statement": "Running the wrapper without -e hands to the simulator the circuit of the file, encoded with the named scheme unless -ecc is none (in any case), with measurements of all qubits into new bits if the file has none, with the requested method, shots and seed, and, for -p > 0, with the channels of -m (in their order) after every unitary gate on each of its qubits; with -e the circuit is written and nothing is simulated; for -p <= 0 there is no noise.", "quantifier": "every circuit, command line, scheme and frequency", "why_tests_cant": "circuits and command lines are unbounded, and a gate without noise only makes the logical error rate look better", "anchors": ["src/mqt/qecc/ecc_qiskit_wrapper.py: main, create_noise_model", "src/python/bindings.cpp: applyEcc"]}
{"id": "C119", "title": "Result files of simulator runs", "statement": "run of AtdSimulator and QssSimulator returns a dictionary with the number and the successes of exactly the samples taken, the rates computed from them, the code parameters and all constructor settings (no setting hides a result), and when it returns the results file holds that dictionary as JSON; if the program is stopped between two samples, the file holds the results of a prefix that lacks fewer than save_interval samples, unless the run had converged.", "quantifier": "every sequence of sample results, every save interval and precision, every earlier content of the file and history of the object, every point between two samples at which the program is stopped", "why_tests_cant": "a test runs one simulation to its end and replaces json.dump by a mock; which prefix the file holds depends on where the program is stopped", "anchors": ["src/mqt/qecc/analog_information_decoding/simulators/analog_tannergraph_decoding.py: AtdSimulator.run, save_results", "src/mqt/qecc/analog_information_decoding/simulators/quasi_single_shot_v2.py: QssSimulator.run, _save_results", "src/mqt/qecc/analog_information_decoding/utils/simulation_utils.py: save_results", "src/mqt/qecc/analog_information_decoding/utils/data_utils.py: replace_inf"]}
{"id": "C120", "title": "Reported numbers of BP iterations", "statement": "The average number of BP iterations that run reports is the mean over the samples of this run.", "quantifier": "every sequence of samples and of iteration numbers, every history of runs with the same object", "why_tests_cant": "depends on earlier runs and on all iteration counts", "anchors": ["src/mqt/qecc/analog_information_decoding/simulators/analog_tannergraph_decoding.py: AtdSimulator.run", "src/mqt/qecc/analog_information_decoding/simulators/quasi_single_shot_v2.py: QssSimulator.run, _single_sample", "src/mqt/qecc/analog_information_decoding/utils/simulation_utils.py: save_results"]}
{"id": "C121", "title": "Seeds make simulations reproducible", "statement": "Two simulators constructed with the same arguments and the same seed give the same results of their samples, whenever they are run.", "quantifier": "every code, configuration, seed, number of samples, and every source of random numbers of the operating system", "why_tests_cant": "random numbers from the operating system cannot be enumerated", "anchors": ["src/mqt/qecc/analog_information_decoding/utils/simulation_utils.py: set_seed, generate_err, get_noisy_analog_syndrome", "src/mqt/qecc/analog_information_decoding/simulators/analog_tannergraph_decoding.py: AtdSimulator", "src/mqt/qecc/analog_information_decoding/simulators/quasi_single_shot_v2.py: QssSimulator"]}
{"id": "C122", "title": "Result files of the color code decoders are kept apart", "statement": "After every history of calls of the command line mqt.qecc.cc-decoder, the results of a successful call are in its file in the results directory unless a later successful call had the same directory, decoder, lattice, distance, error rate and solver; a call with an unknown decoder or lattice, or whose simulation fails, raises an exception and changes no file.", "quantifier": "every history of calls, all arguments and all outcomes of the simulations", "why_tests_cant": "The parameters are unbounded; an overwritten file shows only in histories with particular pairs of calls.", "anchors": ["src/mqt/qecc/cc_decoder/decoder.py: run", "src/mqt/qecc/cc_decoder/comparison/tn_decoder.py: run", "src/mqt/qecc/cc_decoder/cli.py: cli", "src/mqt/qecc/cc_decoder/__init__.py: code_from_string"]}
{"id": "C123", "title": "Plots show the values of the result files", "statement": "For every collection of result files, mqt.qecc.cc-decoder-plot draws for each distance and logical operator exactly the error rates, rates of logical errors, error bars and times of its results, places the time of a result at its distance, fits the threshold of a logical operator to the rates of that operator, and does not fail.", "quantifier": "every list of results of the MaxSAT decoder and of the tensor-network decoder, in every order", "why_tests_cant": "The plotting code has no tests; the claims range over all sets of result files.", "anchors": ["src/mqt/qecc/cc_decoder/plots.py: generate_plots, generate_plots_tn, calculate_threshold, plot_ler_vs_distance"]}
{"id": "C124", "title": "Codes built with the setters answer like constructed ones", "statement": "A C++ Code object that got its matrices from setHx and setHz, in any history of calls, answers get_syndrome, get_x_syndrome and is_stabilizer like an object constructed from the same matrices; getHx and getHz return the matrices set last.", "quantifier": "every history of setters and attribute assignments on a Code object, every matrix and every vector", "why_tests_cant": "The histories and matrices are unbounded, and the tests construct every code from its matrices.", "anchors": ["include/Code.hpp: Code, setHx, setHz, getHxMat, getHzMat, getSyndrome, getXSyndrome, isStabilizer", "src/python/bindings.cpp: Code"]}
{"id": "C125", "title": "The text of a code shows its matrices", "statement": "Printing a C++ Code object (repr in Python) does not fail, and two codes on the same number of qubits with different check matrices have different texts.", "quantifier": "all pairs of codes with rectangular matrices of any size", "why_tests_cant": "Injectivity of a text form is a claim about all pairs of matrices; the tests print nothing.", "anchors": ["include/Code.hpp: operator<<, toString", "src/Utils.cpp: getStringFrom"]}
{"id": "C126", "title": "load_data loads every named result file once, in order, and repairs only damaged files", "statement": "load_data(file_paths) returns one entry per given file, in their order: the content of the file if it is readable JSON, and otherwise the merged data sets of the result folder beside the file that has the file's name without suffix. It writes no file other than the damaged ones.", "quantifier": "all file systems, all lists of paths (absolute or relative, any suffix), all contents of files and folders", "why_tests_cant": "Which file is rewritten depends on the whole directory tree, the working directory and the path's form; tests use one absolute path.", "anchors": ["src/mqt/qecc/analog_information_decoding/utils/data_utils.py: load_data, merge_json_files"]}
{"id": "C127", "title": "BpParams.from_dict accepts every dictionary and is inverse to writing the parameters out", "statement": "BpParams.from_dict(d) never fails on unknown keys: every parameter that d has a key for gets the value of d, every other one keeps its default, and keys that are no parameters are ignored. Reading back the dictionary of a BpParams object, with or without further keys, gives an equal object.", "quantifier": "all dictionaries and all BpParams objects", "why_tests_cant": "Infinitely many dictionaries; tests try a couple of keys.", "anchors": ["src/mqt/qecc/analog_information_decoding/utils/data_utils.py: BpParams.from_dict"]}
{"id": "C128", "title": "Equality of color codes is a comparison of check matrices that agrees with hashing and with other code classes", "statement": "Two ColorCode objects compare equal exactly if their check matrices have the same shape and entries; two hexagonal (or two square-octagon) color codes of odd distance are equal exactly if the distances are; == never raises for color codes. Between all code objects of one process, == is an equivalence relation and equal objects have equal hashes, whatever the classes of the operands.", "quantifier": "all pairs of code objects (color codes of both lattices and all odd distances, plain CSS codes), all iteration orders of Python sets", "why_tests_cant": "Pairs of objects of unbounded size and of mixed classes, and Python's reflected-operand protocol; the iteration order of sets is not specified.", "anchors": ["src/mqt/qecc/codes/color_code.py: ColorCode.__eq__, ColorCode.__hash__", "src/mqt/qecc/codes/stabilizer_code.py: StabilizerCode.__eq__, __hash__"]}
{"id": "C129", "title": "The comparison plot shows each solver's own data under its own name and color", "statement": "generate_plots_comp draws, for every directory of results and distance 17 or 21, one curve whose points are exactly the results (rate, time) of that distance in increasing order of rates, all curves of one solver in one color and those of different solvers in different colors; and, for the selected rates, curves of time over distance whose label names the solver and whose points are the results of that solver at that rate.", "quantifier": "all collections of result files, all numbers and names of solvers, rates and distances", "why_tests_cant": "Depends on which rates were run for which distance and solver, in every combination; plots are not unit tested.", "anchors": ["src/mqt/qecc/cc_decoder/plots.py: generate_plots_comp"]}
{"id": "C130", "title": "Hexagonal color codes have the distance they declare", "statement": "HexagonalColorCode(d) for odd d >= 3 is a code whose distance is exactly d: every error of zero syndrome that is not a product of checks has weight at least d, and some such error has weight d. X and Z errors alike.", "quantifier": "all odd d >= 3 (codes of any size), all errors, all iteration orders of the sets of qubits", "why_tests_cant": "The distance ranges over exponentially many errors of codes of unbounded size; tests compute it for d = 3 or 5 at most.", "anchors": ["src/mqt/qecc/codes/hexagonal_color_code.py: HexagonalColorCode", "src/mqt/qecc/codes/color_code.py: ColorCode"]}
{"id": "C131", "title": "Square-octagon color codes have the distance they declare", "statement": "SquareOctagonColorCode(d) for odd d >= 3 is a code whose distance is exactly d: every error of zero syndrome that is not a product of checks has weight at least d, and some such error has weight d. X and Z errors alike.", "quantifier": "all odd d >= 3 (codes of any size), all errors, all iteration orders of the sets of qubits", "why_tests_cant": "The distance ranges over exponentially many errors of codes of unbounded size; tests compute it for d = 3 or 5 at most.", "anchors": ["src/mqt/qecc/codes/square_octagon_color_code.py: SquareOctagonColorCode", "src/mqt/qecc/codes/color_code.py: ColorCode"]}
{"id": "C132", "title": "The MaxSAT decoder corrects every error of weight less than half the distance", "statement": "On a hexagonal or square-octagon color code of odd distance d >= 3, the LightsOut decoder corrects every error of weight less than d/2 (error plus estimate is a product of checks), and not every error of weight (d+1)/2. simulate_error_rate reports one logical error rate, exactly the fraction of the sampled errors that are corrected wrongly, so 0 if all sampled errors are lighter than d/2, and a least weight of logical errors that is -1 (none occurred) or at least d.", "quantifier": "all odd d >= 3, both lattices, all errors and lists of samples, all optimal MaxSAT solvers and tie-breaks, all iteration orders of sets", "why_tests_cant": "Unbounded code sizes and all errors; which of several optimal solutions the solver returns is not specified.", "anchors": ["src/mqt/qecc/cc_decoder/decoder.py: LightsOut.solve, simulate_error_rate", "src/mqt/qecc/codes/color_code.py: ColorCode"]}
{"id": "C133", "title": "The lookup-table decoder corrects every error of weight less than half the distance", "statement": "LutDecoder.decode_x (decode_z) returns for the syndrome of every X (Z) error of weight less than half the X (Z) distance of the code an estimate that differs from the error by a product of checks, after every history of calls; for some error of weight at most (d+1)/2 it does not. On every named code the distances are the documented ones.", "quantifier": "all CSS codes, all errors, all histories of decoder calls, all documented names", "why_tests_cant": "All errors of all codes; a test can only sample syndromes and codes.", "anchors": ["src/mqt/qecc/ft_stateprep/simulation.py: LutDecoder", "src/mqt/qecc/codes/css_code.py: CSSCode.from_code_name"]}
{"id": "C134", "title": "Product codes have the number of logical qubits that the Künneth formula gives", "statement": "For every list of binary seed codes, create_code builds codes whose number of logical qubits is determined by the numbers of encoded bits k_i and of relations k_i^T between the checks of the seed codes: k0 k1 + k0^T k1^T for the hypergraph product, (k0 k1 + k0^T k1^T) k2^T + k0^T k1 k2 for the 3D code (stored as k in code_params by the sparse constructor), and the corresponding Künneth sum for the 4D code, of which exactly that many X and Z logical operators are written to lx.txt and lz.txt. Ring codes of any lengths >= 2 give toric codes with 2, 3 and 6 logical qubits; seed codes without relations give 3D and 4D codes with no logical qubit.", "quantifier": "all sizes and contents of seed matrices, all correct mod-2 libraries, all file systems and distances reported by the script", "why_tests_cant": "The formula is about all matrices of all sizes; a test can compute ranks of single examples only.", "anchors": ["src/mqt/qecc/analog_information_decoding/code_construction/code_constructor.py: create_code, generate_3d_product_code, generate_4d_product_code, _compute_distances, _compute_logicals", "src/mqt/qecc/analog_information_decoding/code_construction/sparse_code_constructor.py: create_code, generate_3d_product_code"]}
{"id": "C135", "title": "Product codes have the distances that their seed codes determine", "statement": "For all seed codes, the X and Z distances of the codes built by create_code are exactly given by the distances d_i and d_i^T of the seed codes and of their transposes: for the hypergraph product d_Z = min(d0 if k1 > 0, d1^T if k0^T > 0) and the mirror image for d_X; for the product of a complex with a further code, d_Z in degree j = min(d_Z of the complex in degree j if the further code has relations, d of the further code times d_Z in degree j-1), and dually for X. In particular ring codes of lengths l_i give 2D toric codes of distances min l_i, 3D toric codes with d_Z = min l_i and d_X = min l_i l_j, 4D toric codes with both distances min l_i l_j; the codes 4D_toric_d of the main program have parameters k = 6 and distance d^2.", "quantifier": "all sizes and contents of seed matrices and complexes, all ring lengths >= 2", "why_tests_cant": "Distances are minima over exponentially many operators of codes of unbounded size; the script that the program runs only gives random upper bounds.", "anchors": ["src/mqt/qecc/analog_information_decoding/code_construction/code_constructor.py: create_code, generate_3d_product_code, generate_4d_product_code, __main__", "src/mqt/qecc/analog_information_decoding/code_construction/sparse_code_constructor.py: create_code, generate_3d_product_code"]}
{"id": "C136", "title": "Metachecks of product codes let no light syndrome error pass as an impossible syndrome", "statement": "For all seed codes, the least weight of a vector that passes the saved metachecks (mx for hx, mz for hz) and is not the syndrome of any error is exactly determined by the seed codes; on toric codes built from ring codes it is the shortest ring length, for the Z checks of the 3D code and for both types of checks of the 4D code, so a measured syndrome with fewer wrong bits that passes the metachecks is always the syndrome of some error.", "quantifier": "all sizes and contents of seed matrices and complexes, all ring lengths >= 2, all syndromes", "why_tests_cant": "A minimum over exponentially many syndromes of codes of unbounded size.", "anchors": ["src/mqt/qecc/analog_information_decoding/code_construction/code_constructor.py: create_code, generate_3d_product_code, generate_4d_product_code", "src/mqt/qecc/analog_information_decoding/code_construction/sparse_code_constructor.py: create_code, generate_3d_product_code"]}
{"id": "C137", "title": "A verified preparation followed by the lookup decoder gives the exact logical state", "statement": "For all codes and all circuits that the preparation and verification functions return, take an accepted run with at most (d-1)/2 (max_errors) faults anywhere: its data qubits have a definite syndrome, the lookup-table decoder returns a correction for it, and after the correction the state is the fault-free logical state up to a sign and up to errors of the kind that the preparation state does not distinguish. This joins the state preparation of ft_stateprep with the decoding used by its simulation.", "quantifier": "all CSS codes, circuits, layer choices, faults and fault positions, numbers of faults, histories of the decoder and the caches", "why_tests_cant": "Combinations of faults and syndromes are exponentially many, and the sampled logical error rate only shows that a failure is rare.", "anchors": ["src/mqt/qecc/ft_stateprep/state_prep.py: heuristic_prep_circuit, heuristic_verification_circuit", "src/mqt/qecc/ft_stateprep/simulation.py: LutDecoder.decode_x, LutDecoder.decode_z", "src/mqt/qecc/codes/css_code.py: CSSCode"]}
{"id": "C138", "title": "Fewer than half the distance many data and measurement faults in a window are corrected", "statement": "For a quasi-single-shot sample with analog information: if the decoder answers the question of the last window with a lightest explanation (and trusts the last round), and the faults that the window contains - data errors in any round, left over or new, and wrong syndrome bits in any round - are fewer than half the distance, then the sample ends without syndrome and is reported as a success. In a sample of one window the faults are exactly the data errors and wrong bits that happened. With the matching decoder and the weights that the simulator computes from the measured values, the same holds when twice the weight of the data errors plus the weight of the wrong bits is below the weight of a logical operator and the total is below the weight of a bit of the last round. In a sample of any number of windows whose questions all get lightest explanations, the sample is a success when the faults that happened, each counted twice as often for every further window that is decoded after the first one that saw it, are fewer than half the distance. Without this doubling the bound is false: a sample of four windows with three wrong syndrome bits can end in a logical error of a code of distance seven.", "quantifier": "all codes, window lengths, numbers of windows and rounds, error rates, noise strengths, draws, decoders, histories of samples", "why_tests_cant": "Combinations of data and measurement faults over unboundedly many rounds are exponentially many; simulations only sample them.", "anchors": ["src/mqt/qecc/analog_information_decoding/simulators/quasi_single_shot_v2.py: QssSimulator._single_sample", "src/mqt/qecc/analog_information_decoding/simulators/memory_experiment_v2.py: decode_multiround, get_updated_decoder, build_multiround_pcm"]}
{"id": "C139", "title": "Metachecks keep the residual error of two-stage decoding bounded", "statement": "In single-shot decoding with metachecks in two stages, let d be the least weight of a vector that passes the metachecks without being a syndrome. If in a round fewer than d/2 syndrome bits are wrong, the repaired syndrome is the syndrome of some error, the decoder of the second stage has a solution, and after its correction the residual error violates at most twice as many checks as there were wrong bits in this round, whatever errors were there before. With hard decisions this holds after any number of rounds, so syndrome errors do not accumulate. For the 4D toric codes of the repository d is the shortest length, for both kinds of checks.", "quantifier": "all checks, metachecks, decoders with lightest metacode corrections, numbers of rounds, data errors, wrong bits; all lengths of toric codes", "why_tests_cant": "The number of rounds and the errors are unbounded, and simulations only sample them.", "anchors": ["src/mqt/qecc/analog_information_decoding/simulators/simulation.py: SingleShotSimulator._single_sample, _two_stage_decoding, _meta_code_decoding", "src/mqt/qecc/analog_information_decoding/code_construction/code_constructor.py: create_code"]}
{"id": "C140", "title": "Few data errors are never counted as a logical error by the preparation simulation", "statement": "If the data qubits of every kept shot are in the prepared logical state up to an error of weight less than half the distance, and the measured syndrome is that of the error, the simulation counts no logical error: the batch reports (0, number of flagged shots), logical_error_rate with at_least_min_errors=False returns the rate 0, and with the default at_least_min_errors=True it never returns. The bound is sharp: an error of half the distance can be counted. For the plus state the same holds for Z errors.", "quantifier": "all CSS codes, true distances, simulators, lists of measurement records, batches, shot numbers and histories of the decoder", "why_tests_cant": "Sampled shots cover few of the errors and syndromes, and the claim is over every code and every record.", "anchors": ["src/mqt/qecc/ft_stateprep/simulation.py: _simulate_batch, logical_error_rate", "src/mqt/qecc/ft_stateprep/simulation.py: LutDecoder"]}
{"id": "C141", "title": "The example script reports the word error rate", "statement": "scripts/examples/decoding-performance-simulations.py writes, for each physical rate, the fraction of the runs in which the decoder's correction fails (error and estimate do not differ by a stabilizer), divided by the number of logical qubits.", "quantifier": "all two-sided codes, decoders with valid estimates, lists of sampled errors", "why_tests_cant": "One run of the script shows a number; that it counts the right events needs all errors, codes and decoders.", "anchors": ["scripts/examples/decoding-performance-simulations.py", "include/Code.hpp: isStabilizer, getXSyndrome"]}
{"id": "C142", "title": "Figures of run times and word error rates show the data of their files", "statement": "runtime and runtime_comparison draw for every error rate of their file the times of the heuristic in seconds over the code length, with a straight line fitted to them, and the times of the general decoder under its own error rate; wer and wer_comp draw the word error rates of each decoder under its name. Points are the data of the file, sorted; curves of one figure have different visible colors; every entry of a legend is beside its own curve; a figure does not depend on the figures drawn before.", "quantifier": "all contents of the files, all correct sorting functions, all fitting functions, every history of calls in one process", "why_tests_cant": "Contents of files and histories of calls are unbounded; the scripts have no tests, and all calls change one dictionary of matplotlib.", "anchors": ["scripts/numerics/visualize/visualizeDecodingRuntime.py: runtime, runtime_comparison, lin_fun, quad_fun", "scripts/numerics/visualize/visualizeWordErrRate.py: wer, wer_comp"]}
