{
 "claims": [
  {
   "property": "C01",
   "status": "proved",
   "theorems": [
    "Verif.Stab.C01_pauli_roundtrip",
    "Verif.Stab.C01_is_pauli_string",
    "Verif.Stab.C01_binary_injective",
    "Verif.Stab.C01_stabs_as_pauli_strings"
   ],
   "note": "All strings of all lengths and all binary rows; induction on the string."
  },
  {
   "property": "C02",
   "status": "proved",
   "theorems": [
    "Verif.Stab.C02_syndrome_spec",
    "Verif.Stab.C02_syndrome_additive",
    "Verif.Stab.C02_anti_commute",
    "Verif.Stab.C02_wrong_length"
   ],
   "note": "Specification (Spec/Pauli) counts qubits with different non-identity letters; all lengths."
  },
  {
   "property": "C03",
   "status": "partial",
   "theorems": [
    "Verif.Stab.C03_eq_iff_same_span",
    "Verif.Stab.C03_refl",
    "Verif.Stab.C03_symm",
    "Verif.Stab.C03_trans",
    "Verif.Stab.C03_different_n",
    "Verif.Stab.C03_violated_different_n"
   ],
   "note": "Same-n comparison proved to be span equality; for different n the code raises instead of returning False (C03_violated_different_n)."
  },
  {
   "property": "C04",
   "status": "partial",
   "theorems": [
    "Verif.Stab.C04_hash_violated",
    "Verif.Stab.C04_hash_partial"
   ],
   "note": "Violated by the code: equal codes may hash differently."
  },
  {
   "property": "C05",
   "status": "partial",
   "theorems": [
    "Verif.Stab.C05_exact",
    "Verif.Stab.C05_violated",
    "Verif.Stab.C05_not_symmetric",
    "Verif.Stab.C05_equivalent_partial"
   ],
   "note": "Violated by the code; C05_exact characterises what it decides."
  },
  {
   "property": "C06",
   "status": "partial",
   "theorems": [
    "Verif.Stab.C06_ctor_sound_partial",
    "Verif.Stab.C06_rejects_empty",
    "Verif.Stab.C06_rejects_lengths",
    "Verif.Stab.C06_rejects_invalid",
    "Verif.Stab.C06_rejects_distance",
    "Verif.Stab.C06_accepts",
    "Verif.Stab.C06_violated_commutation",
    "Verif.Stab.C06_violated_k",
    "Verif.Stab.C06_k_nonneg_of_commuting"
   ],
   "note": "Commutation and k >= 0 are not checked by the code (violations with witnesses); everything else proved."
  },
  {
   "property": "C07",
   "status": "proved",
   "theorems": [
    "Verif.Stab.C07_logicals_accepted_iff",
    "Verif.Stab.C07_one_kind_rejected"
   ],
   "note": "Acceptance is characterised by an equivalence."
  },
  {
   "property": "C08",
   "status": "proved",
   "theorems": [
    "Verif.CSS.C08_ctor_sound",
    "Verif.CSS.C08_ctor_complete",
    "Verif.CSS.C08_rejects"
   ],
   "note": "Soundness and completeness of the constructor, and which exception the rejected inputs raise."
  },
  {
   "property": "C09",
   "status": "proved",
   "theorems": [
    "Verif.CSS.C09_logical_x",
    "Verif.CSS.C09_logical_z",
    "Verif.CSS.C09_nontrivial"
   ],
   "note": "Under the contract of ldpc.mod2.nullspace (Mod2.Correct, satisfiable); logicals are a basis of the quotient, span argument, all matrices."
  },
  {
   "property": "C10",
   "status": "proved",
   "theorems": [
    "Verif.CSS.C10_stabilizer_test",
    "Verif.CSS.C10_x_dichotomy",
    "Verif.CSS.C10_z_dichotomy"
   ],
   "note": "Double orthogonal complement over ZMod 2; all accepted codes."
  },
  {
   "property": "C11",
   "status": "proved",
   "theorems": [
    "Verif.CSS.C11_stabilizer_eq",
    "Verif.CSS.C11_equivalence",
    "Verif.CSS.C11_respects",
    "Verif.CSS.C11_respects_z"
   ],
   "note": "Rank tests proved equal to coset equality, and the relation proved to be an equivalence compatible with addition."
  },
  {
   "property": "C12",
   "status": "proved",
   "theorems": [
    "Verif.CSS.C12_strings",
    "Verif.CSS.C12_strings_commute",
    "Verif.CSS.C12_logical_strings",
    "Verif.CSS.C12_syndrome"
   ],
   "note": "CSS rows embedded in symplectic rows; Pauli strings, commutation and syndromes."
  },
  {
   "property": "C13",
   "status": "proved",
   "theorems": [
    "Verif.Named.C13_named",
    "Verif.Named.C13_unknown",
    "Verif.Named.C13_distance_ignored"
   ],
   "note": "All eight tables of the package are in the model; distances are exact for X and Z errors. str.lower and np.load are not modelled. The distance argument is ignored for names other than surface (C13_distance_ignored)."
  },
  {
   "property": "C14",
   "status": "partial",
   "theorems": [
    "Verif.ColorCode.C14_always_false",
    "Verif.ColorCode.C14_violated"
   ],
   "note": "Violated: '(...).any() is True' compares a numpy bool with the object True; the method always returns False (C14_always_false)."
  },
  {
   "property": "C15",
   "status": "proved",
   "theorems": [
    "Verif.Lattice.C15_hexagonal",
    "Verif.Lattice.C15_even_distance"
   ],
   "note": "Every odd distance and every iteration order of the Python sets; closed form of the lattice and parity of overlaps."
  },
  {
   "property": "C16",
   "status": "proved",
   "theorems": [
    "Verif.Lattice.C16_square_octagon"
   ],
   "note": "Every odd distance and every iteration order of the Python sets."
  },
  {
   "property": "C17",
   "status": "proved",
   "theorems": [
    "Verif.BB.C17_commute",
    "Verif.BB.C17_rows",
    "Verif.BB.C17_lengths"
   ],
   "note": "All sizes and exponent lists; through the CSSCode constructor model."
  },
  {
   "property": "C18",
   "status": "proved",
   "theorems": [
    "Verif.Product.C18_product3d",
    "Verif.Product.C18_rejects"
   ],
   "note": "Integer matrices of all shapes; shape mismatch (numpy ValueError) not modelled."
  },
  {
   "property": "C19",
   "status": "proved",
   "theorems": [
    "Verif.Product.C19_product4d",
    "Verif.Product.C19_create_code"
   ],
   "note": "Also create_code end to end with the seed hypergraph product code as a parameter satisfying hx*hz^T=0."
  },
  {
   "property": "C20",
   "status": "proved",
   "theorems": [
    "Verif.LO.C20_preconstruct",
    "Verif.LO.C20_encoding"
   ],
   "note": "Dictionaries with keys 0..; lights with fewer than two switches raise IndexError (C20_preconstruct)."
  },
  {
   "property": "C21",
   "status": "proved",
   "theorems": [
    "Verif.LO.C21_validate",
    "Verif.LO.C21_solve",
    "Verif.LO.C21_clears_argument"
   ],
   "note": "MaxSAT solver is a parameter with contract Solver.Optimal (shown satisfiable)."
  },
  {
   "property": "C22",
   "status": "partial",
   "theorems": [
    "Verif.LO.C22_independent_partial",
    "Verif.LO.C22_violated"
   ],
   "note": "Holds for sequences of solvable patterns; violated after an unsolvable one because the assertion failure skips optimizer.pop()."
  },
  {
   "property": "C23",
   "status": "proved",
   "theorems": [
    "Verif.Lut.C23_decode_x_min_weight",
    "Verif.Lut.C23_decode_x_absent",
    "Verif.Lut.C23_decode_x_history"
   ],
   "note": "Fold over all 2^n errors with an invariant of the table; every call history."
  },
  {
   "property": "C24",
   "status": "partial",
   "theorems": [
    "Verif.Lut.C24_decode_z_partial",
    "Verif.Lut.C24_decode_z_selfdual_partial",
    "Verif.Lut.C24_violated_fresh",
    "Verif.Lut.C24_violated_wrong_checks",
    "Verif.Lut.C24_violated_default",
    "Verif.Lut.C24_violated"
   ],
   "note": "Violated by the code on self-dual codes (fresh decoder: KeyError; default decoder: wrong table); proved otherwise."
  },
  {
   "property": "C25",
   "status": "proved",
   "theorems": [
    "Verif.SP.C25_coset_leader",
    "Verif.SP.C25_exists"
   ],
   "note": "z3 Optimize is a parameter with its contract; the leader is of minimum weight in the coset, and one exists."
  },
  {
   "property": "C26",
   "status": "proved",
   "theorems": [
    "Verif.SP.C26_dedup"
   ],
   "note": "Fold with membership invariant."
  },
  {
   "property": "C27",
   "status": "proved",
   "theorems": [
    "Verif.SP.C27_trivial_filter",
    "Verif.SP.C27_bound",
    "Verif.SP.C27_bound_eq"
   ],
   "note": "The bound is the one of the code; filter exactly keeps faults whose leader is heavier."
  },
  {
   "property": "C28",
   "status": "partial",
   "theorems": [
    "Verif.SP.C28_heuristic",
    "Verif.SP.C28_rref_contract_needed",
    "Verif.SP.C28_gate_partial",
    "Verif.SP.C28_depth_partial",
    "Verif.SP.C28_violated_gate",
    "Verif.SP.C28_violated_depth"
   ],
   "note": "Heuristic: proved for every matrix, assuming mod2.reduced_row_echelon does not permute columns (C28_rref_contract_needed shows the assumption is needed). Optimal synthesis: proved for independent rows, false for redundant rows (C28_violated_gate, C28_violated_depth)."
  },
  {
   "property": "C29",
   "status": "proved",
   "theorems": [
    "Verif.SP.C29_terminates",
    "Verif.SP.C29_invariant"
   ],
   "note": "Fuel is provably sufficient (C29_terminates)."
  },
  {
   "property": "C30",
   "status": "proved",
   "theorems": [
    "Verif.SP.C30_gate",
    "Verif.SP.C30_depth"
   ],
   "note": "The z3 constraints are formulas; a satisfying assignment is exactly one layer of CNOT column additions."
  },
  {
   "property": "C31",
   "status": "partial",
   "theorems": [
    "Verif.SP.C31_sound",
    "Verif.SP.C31_range",
    "Verif.SP.C31_terminates_partial",
    "Verif.SP.C31_terminates_default",
    "Verif.SP.C31_violated_factor",
    "Verif.SP.C31_violated_zero_timeout",
    "Verif.SP.C31_exhaustive"
   ],
   "note": "Soundness, range and termination proved; termination fails for factor 1.5 from 1 and for min_timeout 0 (witnesses)."
  },
  {
   "property": "C32",
   "status": "proved",
   "theorems": [
    "Verif.SP.C32_set_cover",
    "Verif.SP.C32_set_cover_ends",
    "Verif.SP.C32_layer_sound",
    "Verif.SP.C32_layer_ends",
    "Verif.SP.C32_undetectable"
   ],
   "note": "Every iteration order of the sets; greedy loops proved to end."
  },
  {
   "property": "C33",
   "status": "partial",
   "theorems": [
    "Verif.SP.C33_sound",
    "Verif.SP.C33_complete_partial",
    "Verif.SP.C33_complete_weight_two",
    "Verif.SP.C33_violated"
   ],
   "note": "Soundness proved. Completeness fails: _odd_overlap asks for an overlap of exactly one (C33_violated); proved exact for that condition and for faults of weight at most two."
  },
  {
   "property": "C34",
   "status": "partial",
   "theorems": [
    "Verif.SP.C34_accepts",
    "Verif.SP.C34_gadget_partial",
    "Verif.SP.C34_unflagged",
    "Verif.SP.C34_violated_weight_one",
    "Verif.SP.C34_violated"
   ],
   "note": "State-vector semantics over any ring with 1/sqrt2 (Spec/Quantum). Holds for every weight >= 2 with t=1 and weights 0,1,2,4,5,6,8 with t=2. Violated: weight 1 with t=1 measures nothing; t=2 with weight 3, 7 or >= 9 raises."
  },
  {
   "property": "C35",
   "status": "partial",
   "theorems": [
    "Verif.SP.C35_even",
    "Verif.SP.C35_violated"
   ],
   "note": "w_flag_pattern is a permutation of 0..w-2 exactly for even w >= 4; odd weights lose positions (C35_violated). The function is not called anywhere in the package."
  },
  {
   "property": "C36",
   "status": "partial",
   "theorems": [
    "Verif.SP.C36_measure_ft_stabs",
    "Verif.SP.C36_naive",
    "Verif.SP.C36_violated_three_errors",
    "Verif.SP.C36_violated"
   ],
   "note": "Circuit returned => it measures every X and Z generator max_errors times. Violated part: NotImplementedError for >= 3 errors, exceptions for weights not handled by measure_flagged."
  },
  {
   "property": "C37",
   "status": "partial",
   "theorems": [
    "Verif.Stim.C37_returned_partial",
    "Verif.Stim.C37_pooled_partial",
    "Verif.Stim.C37_terminates",
    "Verif.Stim.C37_violated_endless",
    "Verif.Stim.C37_violated_pooled",
    "Verif.Stim.C37_violated_shots"
   ],
   "note": "Acceptance rate and error count exact. Reported logical error rate is a mean of batch frequencies, not the pooled frequency (C37_violated_pooled); shots over-reported by a batch without at_least_min_errors (C37_violated_shots); endless loop without errors (C37_violated_endless)."
  },
  {
   "property": "C38",
   "status": "partial",
   "theorems": [
    "Verif.Stim.C38_history",
    "Verif.Stim.C38_scaling",
    "Verif.Stim.C38_noise",
    "Verif.Stim.C38_gates_partial",
    "Verif.Stim.C38_violated"
   ],
   "note": "Noise placement and scaling proved for all circuits. Gate fidelity proved for qubits used as in the package's circuits; false otherwise (C38_violated). qiskit's layering is an input of the model."
  },
  {
   "property": "C39",
   "status": "proved",
   "theorems": [
    "Verif.Analog.C39_multiround",
    "Verif.Analog.C39_solvable"
   ],
   "note": "All numbers of rounds."
  },
  {
   "property": "C40",
   "status": "proved",
   "theorems": [
    "Verif.Analog.C40_telescopes",
    "Verif.Analog.C40_move",
    "Verif.Analog.C40_odd"
   ],
   "note": "Telescoping sums over ZMod 2; all numbers of rounds."
  },
  {
   "property": "C41",
   "status": "proved",
   "theorems": [
    "Verif.Analog.C41_generate_err",
    "Verif.Analog.C41_channel_finite",
    "Verif.Analog.C41_channel_nonneg",
    "Verif.Analog.C41_channel_infinite",
    "Verif.Analog.C41_syndrome_noise"
   ],
   "note": "Uniform draws are inputs, rates rationals."
  },
  {
   "property": "C42",
   "status": "proved",
   "theorems": [
    "Verif.Analog.C42_roundtrip",
    "Verif.Analog.C42_signed",
    "Verif.Analog.C42_sign",
    "Verif.Analog.C42_noisy",
    "Verif.Analog.C42_noiseless"
   ],
   "note": "Pointwise, all lengths; analog values rationals."
  },
  {
   "property": "C43",
   "status": "proved",
   "theorems": [
    "Verif.Analog.C43_analog_pcm",
    "Verif.Analog.C43_single_stage",
    "Verif.Analog.C43_meta"
   ],
   "note": "Block matrices of all sizes."
  },
  {
   "property": "C44",
   "status": "proved",
   "theorems": [
    "Verif.Analog.C44_rank_test",
    "Verif.Analog.C44_is_logical"
   ],
   "note": "Rank test equals membership in the row space."
  },
  {
   "property": "C45",
   "status": "proved",
   "theorems": [
    "Verif.Data.C45_smallest_unused",
    "Verif.Data.C45_history"
   ],
   "note": "File system is a set of names; all finite directories and all histories of calls (concurrency is C84)."
  },
  {
   "property": "C46",
   "status": "partial",
   "theorems": [
    "Verif.Data.C46_pooled_partial",
    "Verif.Data.C46_empty",
    "Verif.Data.C46_order_partial",
    "Verif.Data.C46_grouping_partial",
    "Verif.Data.C46_violated_rate",
    "Verif.Data.C46_violated_order",
    "Verif.Data.C46_violated",
    "Verif.Data.C46_merge_x",
    "Verif.Data.C46_merge_z"
   ],
   "note": "Proved when the first data set has all counters and all have the same k (others default to 0). Violated otherwise: KeyError depending on the order, and runs counted for a side without results (witnesses)."
  },
  {
   "property": "C47",
   "status": "proved",
   "theorems": [
    "Verif.Data.C47_product_complete",
    "Verif.Data.C47_product_count",
    "Verif.Data.C47_product_once",
    "Verif.Data.C47_zip",
    "Verif.Data.C47_empty"
   ],
   "note": "All dictionaries of lists."
  },
  {
   "property": "C48",
   "status": "proved",
   "theorems": [
    "Verif.Cpp.C48_solve",
    "Verif.Cpp.C48_unsolvable",
    "Verif.Cpp.C48_wrong_length",
    "Verif.Cpp.C48_factorisation",
    "Verif.Cpp.C48_rank"
   ],
   "note": "C++ GF(2) elimination as in the repository; proved against an independent specification of rank and solutions over ZMod 2."
  },
  {
   "property": "C49",
   "status": "proved",
   "theorems": [
    "Verif.Cpp.C49_rowspace",
    "Verif.Cpp.C49_wrong_length",
    "Verif.Cpp.C49_is_x_stabilizer",
    "Verif.Cpp.C49_is_stabilizer"
   ],
   "note": "By C48."
  },
  {
   "property": "C50",
   "status": "proved",
   "theorems": [
    "Verif.Cpp.C50_transpose",
    "Verif.Cpp.C50_transpose_involution",
    "Verif.Cpp.C50_csc",
    "Verif.Cpp.C50_multiply",
    "Verif.Cpp.C50_multiply_rejects",
    "Verif.Cpp.C50_residual"
   ],
   "note": "All rectangular matrices; rejection of wrong shapes."
  },
  {
   "property": "C51",
   "status": "proved",
   "theorems": [
    "Verif.UF.C51_forest",
    "Verif.UF.C51_children"
   ],
   "note": "All histories of find/union; parent forest and children counts."
  },
  {
   "property": "C52",
   "status": "partial",
   "theorems": [
    "Verif.UFD.C52_cluster",
    "Verif.UFD.C52_violated",
    "Verif.UFD.C52_violated_single_error",
    "Verif.UFD.C52_zero",
    "Verif.UFD.C52_one_cluster_partial",
    "Verif.UFD.C52_violated_order",
    "Verif.UFD.C52_violated_split"
   ],
   "note": "False in general (C52_violated: dependent checks; C52_violated_single_error: one error in the repetition code of four bits; C52_violated_order: result halves come in Z,X order; C52_violated_split: syndrome is cut in the middle for unequal numbers of checks). Proved: the estimate of one cluster satisfies every check it touches (C52_cluster), the zero syndrome, and one-cluster decodings (C52_one_cluster_partial)."
  },
  {
   "property": "C53",
   "status": "partial",
   "theorems": [
    "Verif.UFH.C53_violated_ignores_x_checks",
    "Verif.UFH.C53_violated",
    "Verif.UFH.C53_violated_set_code"
   ],
   "note": "False: both halves are decoded with the Z checks; the X checks have no influence at all (C53_violated_ignores_x_checks, all codes and syndromes)."
  },
  {
   "property": "C54",
   "status": "proved",
   "theorems": [
    "Verif.Cpp.C54_symmetric",
    "Verif.Cpp.C54_history",
    "Verif.Cpp.C54_out_of_range"
   ],
   "note": "All histories of cache queries."
  },
  {
   "property": "C55",
   "status": "partial",
   "theorems": [
    "Verif.Ecc.C55_id_copies",
    "Verif.Ecc.C55_registers_q3",
    "Verif.Ecc.C55_registers_q9",
    "Verif.Ecc.C55_registers_q5_partial",
    "Verif.Ecc.C55_registers_q7_partial",
    "Verif.Ecc.C55_registers_surface9_partial",
    "Verif.Ecc.C55_registers_surface18_partial",
    "Verif.Ecc.C55_violated_surface9",
    "Verif.Ecc.C55_violated_surface18",
    "Verif.Ecc.C55_violated_q5",
    "Verif.Ecc.C55_violated_q7",
    "Verif.Ecc.C55_corrections",
    "Verif.Ecc.C55_accepts_q3",
    "Verif.Ecc.C55_accepts_q5",
    "Verif.Ecc.C55_accepts_q7",
    "Verif.Ecc.C55_accepts_q9",
    "Verif.Ecc.C55_accepts_surface9",
    "Verif.Ecc.C55_accepts_surface18"
   ],
   "note": "Acceptance and number of corrections proved for all schemes. Registers: proved for Q3Shor and Q9Shor; Q5Laflamme, Q7Steane (measure with exchanged arguments) and the surface schemes (decoding measures into the bit numbered like the qubit) leave the registers on some circuits (C55_violated_*), and the _partial theorems give size conditions under which they do not."
  },
  {
   "property": "C56",
   "status": "proved",
   "theorems": [
    "Verif.Ecc.C56_q3_corrects",
    "Verif.Ecc.C56_q5_corrects",
    "Verif.Ecc.C56_q7_corrects",
    "Verif.Ecc.C56_q9_corrects",
    "Verif.Ecc.C56_surface9_corrects"
   ],
   "note": "State-vector semantics over any ring with the constants needed; every number of logical qubits, every code state (stabilised, entangled with anything), at most one error per logical qubit, every measurement outcome, ancillas in any state."
  },
  {
   "property": "C57",
   "status": "proved",
   "theorems": [
    "Verif.Names.C57_growth",
    "Verif.Names.C57_growth_names",
    "Verif.Names.C57_status",
    "Verif.Names.C57_decoder",
    "Verif.Names.C57_ecc",
    "Verif.Names.C57_lattice",
    "Verif.Names.C57_json",
    "Verif.Names.C57_noise_accepts",
    "Verif.Names.C57_noise_model"
   ],
   "note": "Channels are terms (composition and tensor as in qiskit_aer), so the theorem says which channels are combined, not what they do."
  },
  {
   "property": "C58",
   "status": "partial",
   "theorems": [
    "Verif.Stab.C58_violated_sound",
    "Verif.Stab.C58_violated_complete",
    "Verif.Stab.C58_violated",
    "Verif.Stab.C58_same_group_up_to_phase_partial"
   ],
   "note": "Signs: == compares sign columns linearly, which is not the group sign; proved up to phase."
  },
  {
   "property": "C59",
   "status": "partial",
   "theorems": [
    "Verif.Stab.C59_violated",
    "Verif.Stab.C59_distinct_partial"
   ],
   "note": "Violated: repeated logicals are accepted when anticommutation pattern allows."
  },
  {
   "property": "C60",
   "status": "partial",
   "theorems": [
    "Verif.CSS.C60_self_dual_partial",
    "Verif.CSS.C60_self_dual_sound",
    "Verif.CSS.C60_violated"
   ],
   "note": "Violated with redundant check rows; correct for full-rank check matrices."
  },
  {
   "property": "C61",
   "status": "proved",
   "theorems": [
    "Verif.SP.C61_fault_set_sound"
   ],
   "note": "All circuits, numbers of errors and leaders satisfying the contract."
  },
  {
   "property": "C62",
   "status": "proved",
   "theorems": [
    "Verif.SP.C62_fault_set_complete",
    "Verif.SP.C62_fault_set_defined"
   ],
   "note": "All circuits and numbers of errors."
  },
  {
   "property": "C63",
   "status": "partial",
   "theorems": [
    "Verif.SP.C63_covered_iff",
    "Verif.SP.C63_single_faults_partial",
    "Verif.SP.C63_violated",
    "Verif.SP.C63_violated_shor"
   ],
   "note": "Violated: faults on |0>-initialised qubits later used as controls are missed (4-qubit witness); proved when every control is a Hadamard qubit. C63_covered_iff gives the exact condition (EarlyCovered) under which all single faults are covered; C63_violated_shor shows that the library's own circuit for the Shor code does not satisfy it."
  },
  {
   "property": "C64",
   "status": "proved",
   "theorems": [
    "Verif.SP.C64_history_independent"
   ],
   "note": "All call histories of the cached methods."
  },
  {
   "property": "C65",
   "status": "proved",
   "theorems": [
    "Verif.SP.C65_combine_faults"
   ],
   "note": "All lists of additional faults."
  },
  {
   "property": "C66",
   "status": "proved",
   "theorems": [
    "Verif.SP.C66_gate",
    "Verif.SP.C66_depth",
    "Verif.SP.C66_gate_monotone",
    "Verif.SP.C66_depth_monotone"
   ],
   "note": "Satisfiability of the encoding is equivalent to the existence of a circuit with that many gates / layers."
  },
  {
   "property": "C67",
   "status": "partial",
   "theorems": [
    "Verif.SP.C67_gate_partial",
    "Verif.SP.C67_depth_partial",
    "Verif.SP.C67_violated_crash",
    "Verif.SP.C67_violated"
   ],
   "note": "Correctness and minimality proved for independent checks; the code raises IndexError when one gate suffices, because it then tries zero gates (C67_violated, C67_violated_crash)."
  },
  {
   "property": "C68",
   "status": "partial",
   "theorems": [
    "Verif.SP.C68_layer_sound",
    "Verif.SP.C68_violated",
    "Verif.SP.C68_violated_unverified"
   ],
   "note": "Soundness proved. Minimality fails (ancilla count is frozen after the first success) and a layer may be missing although stabilizers exist; both with witnesses."
  },
  {
   "property": "C69",
   "status": "proved",
   "theorems": [
    "Verif.SP.C69_verification_circuit"
   ],
   "note": "Search functions are parameters; external behaviour covered by C32, C33, C68."
  },
  {
   "property": "C70",
   "status": "partial",
   "theorems": [
    "Verif.SP.C70_exact",
    "Verif.SP.C70_returned_trivial",
    "Verif.SP.C70_violated"
   ],
   "note": "Violated: only weight w-1 errors are returned, all equivalent to single-qubit errors (C70_returned_trivial); C70_exact characterises the result."
  },
  {
   "property": "C71",
   "status": "partial",
   "theorems": [
    "Verif.BB.C71_violated",
    "Verif.BB.C71_distance_partial",
    "Verif.BB.C71_distance_90",
    "Verif.BB.C71_90_exchanged",
    "Verif.BB.C71_bound_288_partial",
    "Verif.BB.C71_logical_qubits"
   ],
   "note": "Proved for n = 72, 108, 144 (C71_distance_partial: the declared distance is exactly the least weight of an undetected non-trivial X error, and of a Z error). Violated for n = 90: _cyclic_code_check_matrix takes (m, l_) but is called with (l, m) = (15, 3); the code returned declares distance 10 and has distance exactly 2 (C71_distance_90); with the two arguments exchanged the distance would be 10 (C71_90_exchanged). For n = 288 the distance is between 12 and the declared 18 (C71_bound_288_partial); equality is missing. The search for light errors is proved sound and evaluated by the kernel (decide +kernel), on the matrices of the model, using translation symmetry."
  },
  {
   "property": "C72",
   "status": "proved",
   "theorems": [
    "Verif.Lattice.C72_layout_consistent",
    "Verif.Lattice.C72_decode",
    "Verif.Lattice.C72_hexagonal",
    "Verif.Lattice.C72_square_octagon"
   ],
   "note": "Every odd distance for both lattices; layouts satisfy the preconditions of the decoder of C20-C22."
  },
  {
   "property": "C73",
   "status": "proved",
   "theorems": [
    "Verif.Lattice.C73_simulation"
   ],
   "note": "Errors, solver and times are inputs; rates exact rationals."
  },
  {
   "property": "C74",
   "status": "partial",
   "theorems": [
    "Verif.Stim.C74_records",
    "Verif.Stim.C74_violated",
    "Verif.Stim.C74_violated_collision"
   ],
   "note": "Proved for circuits in which every data qubit is in some CNOT and ancillas are measured once or twice; false otherwise (C74_violated, C74_violated_collision)."
  },
  {
   "property": "C75",
   "status": "partial",
   "theorems": [
    "Verif.PlusState.C75_plus_default_partial",
    "Verif.PlusState.C75_violated_plus",
    "Verif.Stim.C75_zero_state",
    "Verif.Stim.C75_plus_state_partial"
   ],
   "note": "Zero state proved for all codes; plus state for codes not reported self-dual (C75_plus_state_partial) and, with the decoder the simulator creates, for codes with equal X and Z checks (C75_plus_default_partial). Violated for self-dual codes whose checks are listed in different orders: of two wrong corrections of such a Steane code one is counted (C75_violated_plus)."
  },
  {
   "property": "C76",
   "status": "partial",
   "theorems": [
    "Verif.Analog.C76_commit_partial",
    "Verif.Analog.C76_commit_early",
    "Verif.Analog.C76_violated",
    "Verif.Analog.C76_commit_no_flip"
   ],
   "note": "Violated: the flips attributed to the last committed round are added to the next window (C76_violated); C76_commit_partial is the exact behaviour, C76_commit_no_flip the condition under which the claim holds."
  },
  {
   "property": "C77",
   "status": "partial",
   "theorems": [
    "Verif.Analog.C77_final_decoding_partial",
    "Verif.Analog.C77_not_analog",
    "Verif.Analog.C77_violated",
    "Verif.Analog.C77_violated_not_analog",
    "Verif.Analog.C77_trivial_syndrome"
   ],
   "note": "Holds exactly when the number of rounds is a multiple of half the window and at least a window, with analog decoding (C77_final_decoding_partial); violated otherwise, and without analog decoding the sample raises."
  },
  {
   "property": "C78",
   "status": "partial",
   "theorems": [
    "Verif.Analog.C78_history_partial",
    "Verif.Analog.C78_violated"
   ],
   "note": "Violated: a last-round call leaves its channel probabilities in the decoder object; what does hold is C78_history_partial."
  },
  {
   "property": "C79",
   "status": "partial",
   "theorems": [
    "Verif.Analog.C79_with_logicals_partial",
    "Verif.Analog.C79_without_logicals",
    "Verif.Analog.C79_violated",
    "Verif.Analog.C79_violated_false_alarm",
    "Verif.Analog.C79_final_syndrome"
   ],
   "note": "Holds with logicals supplied; without them the code tests the Hamming-space complement of the checks rows and both misses and invents failures (witnesses)."
  },
  {
   "property": "C80",
   "status": "partial",
   "theorems": [
    "Verif.Analog.C80_hard_partial",
    "Verif.Analog.C80_analog_partial",
    "Verif.Analog.C80_repaired",
    "Verif.Analog.C80_violated_truncation",
    "Verif.Analog.C80_violated_zero_rate",
    "Verif.Analog.C80_violated_single_stage_hard",
    "Verif.Analog.C80_violated",
    "Verif.Analog.C80_violated_rate",
    "Verif.Analog.C80_rate"
   ],
   "note": "Holds for two-stage hard decoding and the analog Tanner graph; violated by truncation of analog syndromes, zero error rate inversion, AttributeError in hard single-stage mode, and use of the other side's rate (witnesses)."
  },
  {
   "property": "C81",
   "status": "partial",
   "theorems": [
    "Verif.Analog.C81_run_partial",
    "Verif.Analog.C81_run_atd_partial",
    "Verif.Analog.C81_violated_atd",
    "Verif.Analog.C81_interval_one",
    "Verif.Analog.C81_violated_never_returns",
    "Verif.Analog.C81_violated"
   ],
   "note": "Holds for QssSimulator (C81_run_partial) and for AtdSimulator with a list as bias; violated by AtdSimulator with an array as bias, which is the documented type and the default, because json.dump cannot write it (C81_violated_atd; exact behaviour in C119), and by SingleShotSimulator, which writes to a file opened for reading (C81_violated_never_returns)."
  },
  {
   "property": "C82",
   "status": "proved",
   "theorems": [
    "Verif.Data.C82_converged_iff",
    "Verif.Data.C82_no_failures",
    "Verif.Data.C82_raises"
   ],
   "note": "Division by zero raises (C82_raises)."
  },
  {
   "property": "C83",
   "status": "partial",
   "theorems": [
    "Verif.Data.C83_rates",
    "Verif.Data.C83_error_bar_partial",
    "Verif.Data.C83_violated"
   ],
   "note": "Rates proved; the error bar is right only for k = 1: the code evaluates the derivative at the error bar instead of the rate (C83_violated)."
  },
  {
   "property": "C84",
   "status": "partial",
   "theorems": [
    "Verif.Data.C84_violated",
    "Verif.Data.C84_exclusive_partial"
   ],
   "note": "Violated: exists and touch are separate steps. Proved for schedules in which the two calls do not overlap between test and touch."
  },
  {
   "property": "C85",
   "status": "partial",
   "theorems": [
    "Verif.Data.C85_combined_partial",
    "Verif.Data.C85_violated_stale",
    "Verif.Data.C85_violated"
   ],
   "note": "Violated when a data set has results of both sides (stale X counters win); proved when the Z data set has no X fields."
  },
  {
   "property": "C86",
   "status": "proved",
   "theorems": [
    "Verif.Data.C86_settings"
   ],
   "note": "JSON objects as association lists."
  },
  {
   "property": "C87",
   "status": "proved",
   "theorems": [
    "Verif.Cpp.C87_syndrome",
    "Verif.Cpp.C87_x_syndrome",
    "Verif.Cpp.C87_rejects",
    "Verif.Cpp.C87_x_rejects"
   ],
   "note": "All codes and errors; by the linear algebra of C50."
  },
  {
   "property": "C88",
   "status": "partial",
   "theorems": [
    "Verif.UFD.C88_all_components_partial",
    "Verif.UFD.C88_violated_invalid_components",
    "Verif.UFD.C88_violated_qubit_random",
    "Verif.UFD.C88_violated_all_components",
    "Verif.UFD.C88_violated_smallest",
    "Verif.UFD.C88_violated_random"
   ],
   "note": "Proved for the standard growth on connected Tanner graphs. False otherwise: never terminates for INVALID_COMPONENTS on any nonzero syndrome, out-of-range access for SINGLE_QUBIT_RANDOM, endless loops for SINGLE_SMALLEST and, for every sequence of random numbers, for SINGLE_RANDOM on a connected graph with two qubits, and for disconnected graphs with the standard growth."
  },
  {
   "property": "C89",
   "status": "partial",
   "theorems": [
    "Verif.UFD.C89_one_sided_partial",
    "Verif.UFD.C89_no_history",
    "Verif.UFD.C89_violated"
   ],
   "note": "False for two-sided decoding, which resets the growth variant in reset() between the halves; proved: no dependence on earlier results, and one-sided decoding keeps the configuration."
  },
  {
   "property": "C90",
   "status": "partial",
   "theorems": [
    "Verif.UFD.C90_violated",
    "Verif.UFD.C90_partial"
   ],
   "note": "False for four of the seven qubits; C90_partial proves the other three."
  },
  {
   "property": "C91",
   "status": "partial",
   "theorems": [
    "Verif.UFH.C91_violated",
    "Verif.UFH.C91_reset_partial"
   ],
   "note": "False without reset (C91_violated); proved after reset for every history."
  },
  {
   "property": "C92",
   "status": "partial",
   "theorems": [
    "Verif.UFH.C92_violated",
    "Verif.UFH.C92_zero",
    "Verif.UFH.C92_unsupported",
    "Verif.UFH.C92_agrees_partial"
   ],
   "note": "Syndrome reproduction is false (C92_violated); proved: agreement of the two forms for one-sided decodings, zero syndrome, rejection of the unsupported variant."
  },
  {
   "property": "C93",
   "status": "partial",
   "theorems": [
    "Verif.Ecc.C93_surface18_corrects",
    "Verif.Ecc.C93_violated_unprotected",
    "Verif.Ecc.C93_violated"
   ],
   "note": "Proved for the 15 data qubits that appear in the correction table; data qubits 17, 32, 34 are not corrected (C93_violated)."
  },
  {
   "property": "C94",
   "status": "partial",
   "theorems": [
    "Verif.Ecc.C94_measures_q3",
    "Verif.Ecc.C94_measures_q9",
    "Verif.Ecc.C94_measures_surface9",
    "Verif.Ecc.C94_measures_surface18",
    "Verif.Ecc.C94_violated_q5",
    "Verif.Ecc.C94_violated_q7",
    "Verif.Ecc.C94_measures_q5_partial",
    "Verif.Ecc.C94_measures_q7_partial"
   ],
   "note": "Proved for Q3Shor, Q9Shor and both surface schemes; Q5Laflamme and Q7Steane exchange qubit and bit (C94_violated_*), right only for equal numbers (_partial)."
  },
  {
   "property": "C95",
   "status": "partial",
   "theorems": [
    "Verif.Ecc.C95_own_bits_q3",
    "Verif.Ecc.C95_own_bits_q9",
    "Verif.Ecc.C95_violated_surface9",
    "Verif.Ecc.C95_violated_surface18",
    "Verif.Ecc.C95_violated"
   ],
   "note": "Proved for Q3Shor and Q9Shor; the surface schemes overwrite bit i while decoding qubit i (C95_violated_*)."
  },
  {
   "property": "C96",
   "status": "proved",
   "theorems": [
    "Verif.Names.C96_printed",
    "Verif.Names.C96_complete",
    "Verif.Names.C96_below",
    "Verif.Names.C96_nonempty"
   ],
   "note": "Fractions are exact rationals. The word alphabetically first is printed even if below the threshold (C96_below)."
  },
  {
   "property": "C97",
   "status": "partial",
   "theorems": [
    "Verif.DecSim.C97_run",
    "Verif.DecSim.C97_violated_sides",
    "Verif.DecSim.C97_violated_one_sided",
    "Verif.DecSim.C97_failures",
    "Verif.DecSim.C97_rates",
    "Verif.DecSim.C97_value",
    "Verif.DecSim.C97_violated_default_k",
    "Verif.DecSim.C97_terminates",
    "Verif.DecSim.C97_diverges",
    "Verif.DecSim.C97_violated_stats_file"
   ],
   "note": "Counting, rates, termination proved. Violated: setCode exchanges the check matrices, so a two-sided code is simulated for the other kind of error; one-sided codes always raise; k is 0 unless set, so no rate is finite; the statistics file is never balanced JSON."
  },
  {
   "property": "C98",
   "status": "partial",
   "theorems": [
    "Verif.DecSim.C98_exact",
    "Verif.DecSim.C98_first_run_partial",
    "Verif.DecSim.C98_violated"
   ],
   "note": "Violated: the accumulator is not reset between runs; C98_exact says what is reported, the first run is right."
  },
  {
   "property": "C99",
   "status": "partial",
   "theorems": [
    "Verif.DecSim.C99_violated_always",
    "Verif.DecSim.C99_violated",
    "Verif.DecSim.C99_sizes_partial",
    "Verif.DecSim.C99_lists_partial",
    "Verif.DecSim.C99_written_partial",
    "Verif.DecSim.C99_text_partial"
   ],
   "note": "Violated for results and run information (always raises); sizes of codes are read back."
  },
  {
   "property": "C100",
   "status": "partial",
   "theorems": [
    "Verif.Ecc.C100_q5_noisy_partial",
    "Verif.Ecc.C100_q5_partial",
    "Verif.Ecc.C100_sets_q3",
    "Verif.Ecc.C100_sets_id",
    "Verif.Ecc.C100_violated_q5",
    "Verif.Ecc.C100_violated_q5_measure",
    "Verif.Ecc.C100_violated_q7",
    "Verif.Ecc.C100_violated_surface9",
    "Verif.Ecc.C100_violated_surface18",
    "Verif.Ecc.C100_q3_noisy",
    "Verif.Ecc.C100_q3",
    "Verif.Ecc.C100_id",
    "Verif.Ecc.C100_two_copies",
    "Verif.Ecc.C100_q9_noisy_partial",
    "Verif.Ecc.C100_q9_partial",
    "Verif.Ecc.C100_q7_noisy_partial",
    "Verif.Ecc.C100_q7_partial",
    "Verif.Ecc.C100_violated_q9"
   ],
   "note": "Proved with noise for Q3Shor and, for X and Y with at most one control, for Q9Shor (with two controls it fails: C100_violated_q9); without noise for Id. For Q7Steane (any number of qubits) and Q5Laflamme (one qubit): proved for circuits whose gates all precede the measurements, with at most one Pauli error per block right before a correction (C100_q7_noisy_partial, C100_q5_noisy_partial). Violated in general for Q5Laflamme, Q7Steane, Q9Surface and Q18Surface (C100_violated_*)."
  },
  {
   "property": "C101",
   "status": "proved",
   "theorems": [
    "Verif.SP.C101_fault_tolerant",
    "Verif.SP.C101_two_flagged",
    "Verif.SP.C101_unflagged_not"
   ],
   "note": "State-vector semantics with Pauli faults (Spec/PauliFaults). Weight one with t=1 is excluded because that circuit measures nothing (C34_violated_weight_one). C101_unflagged_not: without flags the property fails for weight four. C101_two_flagged covers measure_stab_two_flagged called directly (weights 5 and 6, not only the weight that measure_flagged dispatches to it)."
  },
  {
   "property": "C102",
   "status": "partial",
   "theorems": [
    "Verif.SP.C102_fault_free",
    "Verif.SP.C102_tolerates_iff",
    "Verif.SP.C102_heuristic_partial",
    "Verif.SP.C102_optimal_partial",
    "Verif.SP.C102_violated"
   ],
   "note": "Proved on state vectors over any commutative ring with 2s\u00b2=1: fault-free behaviour (C102_fault_free), the exact criterion for a set of measurements in both directions (C102_tolerates_iff), and tolerance of the circuits returned by both searches after any history of fault-set computations when every dangerous error present before the first gate is equivalent to one after some CNOT (C102_heuristic_partial, C102_optimal_partial; EarlyCovered, shown by C63_covered_iff to be exactly the condition under which the tool enumerates all single faults). Without it the claim is false: C102_violated runs heuristic_prep_circuit and heuristic_verification_circuit on the Shor code of the repository in the kernel; the only measurement Z0Z3Z6 misses X4X5 from one fault on qubit 4 between CX(3,4) and CX(4,5). The optimal search needs the circuit to contain measurements (a failed search returns a circuit without any). Missing: more than one fault. full_fault_tolerance=True is C104."
  },
  {
   "property": "C103",
   "status": "partial",
   "theorems": [
    "Verif.Ecc.C103_codes",
    "Verif.Ecc.C103_q5",
    "Verif.Ecc.C103_q3_partial",
    "Verif.Ecc.C103_q7_partial",
    "Verif.Ecc.C103_q9_partial",
    "Verif.Ecc.C103_s9_partial",
    "Verif.Ecc.C103_violated_q3_s",
    "Verif.Ecc.C103_violated_q3_cy",
    "Verif.Ecc.C103_violated_q7",
    "Verif.Ecc.C103_violated_q9",
    "Verif.Ecc.C103_violated_s9",
    "Verif.Ecc.C103_violated_s18",
    "Verif.Ecc.C103_violated_s18_claim"
   ],
   "note": "Proved in full for Q5Laflamme (C103_q5); for Q3Shor without S, S\u2020, T, T\u2020 and without Y under controls; for Q7Steane without controls and with one control on X or Z; for Q9Shor without controls and with one control on X; for Q9Surface without H. C103_codes shows that the code words of the specification are fixed by the generators of C56 and encode injectively. In the remaining cases the claim fails: S of Q3Shor acts as S\u2020 (C103_violated_q3_s), controlled Y of Q3Shor and Q7Steane as controlled -Y (C103_violated_q3_cy, C103_violated_q7), controlled Z of Q9Shor and H of Q9Surface leave the code (C103_violated_q9, C103_violated_s9), X and Z of Q18Surface commute so that no code words work at all (C103_violated_s18)."
  },
  {
   "property": "C104",
   "status": "partial",
   "theorems": [
    "Verif.SP.C104_fault_free",
    "Verif.SP.C104_tolerates_iff",
    "Verif.SP.C104_heuristic_partial",
    "Verif.SP.C104_optimal_partial",
    "Verif.SP.C104_violated_hook"
   ],
   "note": "Proved on state vectors over any commutative ring with 2s\u00b2=1: fault-free behaviour for every list of outcomes (C104_fault_free), the exact three-part criterion in both directions (C104_tolerates_iff: faults anywhere in the preparation, in the unflagged first round, in the flagged second round with one or two flags, and in the repeated reading of Z ancillas), and for the circuits of both searches after any history of fault-set computations that tolerance holds exactly when the dangerous hook errors of the first round are detected by the second, in particular when the first round measures stabilizers of weight at most 3 (C104_heuristic_partial, C104_optimal_partial; hypotheses: EarlyCovered for both kinds, no weight-one stabilizer, distances as the code class requires). The search does not ensure the hook condition since _hook_errors returns only harmless errors (C70_returned_trivial): C104_violated_hook runs heuristic_prep_circuit and heuristic_verification_circuit on the rotated surface code of distance 3 (qubits renumbered) in the kernel; X0X2X5X6 is measured without a flag, one ancilla fault leaves X5X6 and nothing detects it, with EarlyCovered satisfied. Acceptance means that every reading is 0, including the first of two readings into the same classical bit. Missing: more than one fault; preparation circuits without EarlyCovered (see C102_violated)."
  },
  {
   "property": "C105",
   "status": "partial",
   "theorems": [
    "Verif.Lifted.C105_lifted",
    "Verif.Lifted.C105_protograph",
    "Verif.Lifted.C105_bias_tailored",
    "Verif.Lifted.C105_bias_tailored_raises",
    "Verif.Lifted.C105_violated_shapes",
    "Verif.Lifted.C105_violated_protograph",
    "Verif.Lifted.C105_transpose_contract_needed"
   ],
   "note": "Proved for LiftedHgp and its protograph, and for BiasTailoredLiftedProduct when a_n*b_m = a_m*b_n. Violated: for other shapes BiasTailoredLiftedProduct raises ValueError (C105_violated_shapes), and its array protograph has anticommuting rows (C105_violated_protograph). The external array class ldpc.protograph is modelled by its contract (T transposes the entries too); C105_transpose_contract_needed shows the contract is used."
  },
  {
   "property": "C106",
   "status": "partial",
   "theorems": [
    "Verif.MergeFiles.C106_absolute_partial",
    "Verif.MergeFiles.C106_violated_relative",
    "Verif.MergeFiles.C106_violated",
    "Verif.MergeFiles.C106_functions_partial",
    "Verif.MergeFiles.C106_json_directory"
   ],
   "note": "Proved for absolute input paths and all four functions (C106_functions_partial), provided no folder holds a directory named like a JSON file: then the call fails instead of ignoring it (C106_json_directory). Violated for relative paths: iterdir already returns paths that start with the input path, and the code joins the input path again; unless a folder of the same name is nested inside, an empty list is written (C106_violated_relative, all trees; C106_violated)."
  },
  {
   "property": "C107",
   "status": "partial",
   "theorems": [
    "Verif.Eval.C107_unknown",
    "Verif.Eval.C107_partial",
    "Verif.Eval.C107_violated_no_ver",
    "Verif.Eval.C107_violated_distance",
    "Verif.Eval.C107_violated"
   ],
   "note": "Proved without --no_ver and, for colour codes, with distance 5 (C107_partial). Violated: --no_ver simulates a verified circuit for all other arguments, because the script asks for a file name no shipped file has and then builds a verified circuit (C107_violated_no_ver); the distance is ignored for the colour codes (C107_violated_distance). Undocumented names are refused (C107_unknown)."
  },
  {
   "property": "C108",
   "status": "partial",
   "theorems": [
    "Verif.CodeFiles.C108_text_round_trip",
    "Verif.CodeFiles.C108_code_object",
    "Verif.CodeFiles.C108_code_refused",
    "Verif.CodeFiles.C108_violated_malformed",
    "Verif.CodeFiles.C108_dense_files",
    "Verif.CodeFiles.C108_other_constructor",
    "Verif.CodeFiles.C108_violated_dense_distances",
    "Verif.CodeFiles.C108_violated_sparse_default",
    "Verif.CodeFiles.C108_sparse_files",
    "Verif.CodeFiles.C108_violated_sparse_no_matrices"
   ],
   "note": "The claim holds for the dense constructor without distances (text round trip for all integer matrices, CSS and metacheck conditions, logical operators, untouched files) and for the sparse one with distances and logical operators. It fails elsewhere: the dense constructor with distances always ends in KeyError because the shipped script prints dMx/dMz and the code looks for dMX/dMZ; the sparse one without distances always ends in AttributeError and, without logical operators, writes no matrix; ragged files and text that is no number are accepted by the C++ reader. The .mtx copies are not modelled."
  },
  {
   "property": "C109",
   "status": "proved",
   "theorems": [
    "Verif.AnalogTanner.C109_rate",
    "Verif.AnalogTanner.C109_bit",
    "Verif.AnalogTanner.C109_rate_lt",
    "Verif.AnalogTanner.C109_sigma",
    "Verif.AnalogTanner.C109_inverse",
    "Verif.AnalogTanner.C109_large",
    "Verif.AnalogTanner.C109_posterior",
    "Verif.AnalogTanner.C109_posterior_zero"
   ],
   "note": "Over the reals with Mathlib's Gaussian measure; scipy's erfc is its integral, erfcinv is a parameter with contract erfc(erfcinv y) = y on (0, 2), shown satisfiable. At rate 1/2 sigma is infinite, above it is negative (C109_large)."
  },
  {
   "property": "C110",
   "status": "proved",
   "theorems": [
    "Verif.AnalogTanner.C110_constructor",
    "Verif.AnalogTanner.C110_history",
    "Verif.AnalogTanner.C110_history_rate",
    "Verif.AnalogTanner.C110_estimate"
   ],
   "note": "The BP+OSD decoder is a parameter that depends on matrix, channel probabilities and syndrome only."
  },
  {
   "property": "C111",
   "status": "partial",
   "theorems": [
    "Verif.AnalogTanner.C111_arguments",
    "Verif.AnalogTanner.C111_rates",
    "Verif.AnalogTanner.C111_partial",
    "Verif.AnalogTanner.C111_violated_default",
    "Verif.AnalogTanner.C111_violated_noiseless",
    "Verif.AnalogTanner.C111_violated_one_kind",
    "Verif.AnalogTanner.C111_violated",
    "Verif.AnalogTanner.C111_samples"
   ],
   "note": "Violated: the constructor splits the rate by the bias, so that with the default bias both sides have two thirds of the noise asked for, also when sigma is given (C111_violated_default); without noise, and for bias of only X or only Z errors, it raises ValueError (C111_violated_noiseless, C111_violated_one_kind). Proved: exact rates (C111_rates), the claim for pure Y bias (C111_partial), and the samples for all histories (C111_samples)."
  },
  {
   "property": "C112",
   "status": "partial",
   "theorems": [
    "Verif.SP.C112_layered",
    "Verif.SP.C112_heuristic_partial",
    "Verif.SP.C112_optimal_partial",
    "Verif.SP.C112_violated"
   ],
   "note": "C112_layered: for any layers of measurements of which the j-th detects every dangerous sum of at most j effects of preparation faults, any number of faults up to the number of layers is tolerated, wherever they happen (a layer without fault that comes after the right number of errors always exists). C112_heuristic_partial and C112_optimal_partial: the search of the repository produces such layers whenever every error present before the first gate is equivalent to an enumerated fault. Without that condition the claim is false: C112_violated (Shor code, one fault). Missing: the second round of measurements (full_fault_tolerance=True) for more than one fault."
  },
  {
   "property": "C113",
   "status": "partial",
   "theorems": [
    "Verif.Alist.C113_read",
    "Verif.Alist.C113_round_trip_partial",
    "Verif.Alist.C113_violated_padded",
    "Verif.Alist.C113_violated_zero_row"
   ],
   "note": "C113_read is the exact result for every file whose row lines list at least one number; C113_round_trip_partial: matrices without zero rows, unpadded, are read back. The claim itself fails (C113_violated_padded): the padding number 0 becomes index -1 and sets the last column; and the empty line of a zero row is skipped by np.loadtxt, so the following lines are shifted (C113_violated_zero_row)."
  },
  {
   "property": "C114",
   "status": "partial",
   "theorems": [
    "Verif.SSO.C114_perfect",
    "Verif.SSO.C114_residual",
    "Verif.SSO.C114_priors_partial",
    "Verif.SSO.C114_single_stage_analog",
    "Verif.SSO.C114_two_stage_analog",
    "Verif.SSO.C114_two_stage_hard",
    "Verif.SSO.C114_violated"
   ],
   "note": "Violated for two-stage decoding with the analog Tanner graph (C114_violated): the rates of the two sides are swapped in the calls of _analog_tg_decoding. Proved: all other modes (C114_priors_partial), with exact calls of every noisy round after every history (C114_single_stage_analog, C114_two_stage_analog, C114_two_stage_hard), the perfect round (C114_perfect) and the residual error (C114_residual). Single-stage decoding without analog information raises in its first noisy round (C80)."
  },
  {
   "property": "C115",
   "status": "proved",
   "theorems": [
    "Verif.SSO.C115_fresh",
    "Verif.SSO.C115_samples"
   ],
   "note": "Proved for the model with decoder objects and update_channel_probs (C115_fresh, C115_samples); BP+OSD is a function of matrix, probabilities and syndrome."
  },
  {
   "property": "C116",
   "status": "proved",
   "theorems": [
    "Verif.Qss.C116_sample",
    "Verif.Qss.C116_fresh",
    "Verif.Qss.C116_question",
    "Verif.Qss.C116_end"
   ],
   "note": "Analog mode only: without it the first full window raises (C77). Numbers are reals, draws are inputs, BP+OSD and PyMatching are arbitrary functions of matrix, soft information and syndrome. The repeated flip in C116_question is the defect of C76; C116 states the exact behaviour. Rates 0 and >= 1/2 are in C109."
  },
  {
   "property": "C117",
   "status": "proved",
   "theorems": [
    "Verif.Qss.C117_matching",
    "Verif.Qss.C117_syndrome",
    "Verif.Qss.C117_bound"
   ],
   "note": "Over the reals; with floats exp overflows at 709, and log-likelihood ratios above that get the weight 16777215."
  },
  {
   "property": "C118",
   "status": "partial",
   "theorems": [
    "Verif.Wrapper.C118_run_partial",
    "Verif.Wrapper.C118_channels",
    "Verif.Wrapper.C118_violated_default",
    "Verif.Wrapper.C118_violated"
   ],
   "note": "Circuit, method, shots, seed, export and the exact set of noisy gates are proved (C118_run_partial), and the exact channel of every instruction (C118_channels). The claim fails: x, y, z, cz, ccx and classically controlled corrections have no noise; with the default scheme every simulated circuit contains such gates (C118_violated_default), and a circuit of one X gate is simulated without noise (C118_violated). Reading and writing of OpenQASM and the simulator are not modelled."
  },
  {
   "property": "C119",
   "status": "partial",
   "theorems": [
    "Verif.Results.C119_qss",
    "Verif.Results.C119_crash_partial",
    "Verif.Results.C119_interval_one",
    "Verif.Results.C119_violated_crash",
    "Verif.Results.C119_violated_default_path",
    "Verif.Results.C119_violated_atd_all",
    "Verif.Results.C119_violated_atd",
    "Verif.Results.C119_atd_partial"
   ],
   "note": "QssSimulator: returned dictionary and file proved for all samples and histories (C119_qss), and for every point at which the program is stopped if save_interval >= 2 (C119_crash_partial). Violated: with save_interval=1 nothing is saved before the end (C119_violated_crash), the default output path is a directory (C119_violated_default_path), and AtdSimulator raises AttributeError for every array as bias and leaves a torn file (C119_violated_atd_all); with a list as bias it is right (C119_atd_partial)."
  },
  {
   "property": "C120",
   "status": "partial",
   "theorems": [
    "Verif.Results.C120_exact",
    "Verif.Results.C120_violated_qss",
    "Verif.Results.C120_atd_first_partial",
    "Verif.Results.C120_violated_atd"
   ],
   "note": "Violated: QssSimulator divides every number by the number of rounds and truncates (C120_violated_qss), and neither simulator resets its counter between runs (C120_violated_atd). C120_exact says what is reported; the first run of an AtdSimulator is right (C120_atd_first_partial)."
  },
  {
   "property": "C121",
   "status": "partial",
   "theorems": [
    "Verif.Seeds.C121_seed_ignored",
    "Verif.Seeds.C121_seed_ignored_qss",
    "Verif.Seeds.C121_violated_atd",
    "Verif.Seeds.C121_draws",
    "Verif.Seeds.C121_draws_qss",
    "Verif.Seeds.C121_draws_qss_all"
   ],
   "note": "Violated: set_seed seeds the global generator np.random, but every draw uses a new default_rng() seeded by the operating system; two runs with the same seed differ (C121_violated_atd), and the seed has no influence at all (C121_seed_ignored, C121_seed_ignored_qss)."
  },
  {
   "property": "C122",
   "status": "partial",
   "theorems": [
    "Verif.CcFiles.C122_same_file",
    "Verif.CcFiles.C122_call",
    "Verif.CcFiles.C122_kept_partial",
    "Verif.CcFiles.C122_exact_partial",
    "Verif.CcFiles.C122_violated_rate",
    "Verif.CcFiles.C122_violated_solver",
    "Verif.CcFiles.C122_violated_lattice",
    "Verif.CcFiles.C122_tn_ignores",
    "Verif.CcFiles.C122_unknown",
    "Verif.CcFiles.C122_rounding",
    "Verif.CcFiles.C122_defaults"
   ],
   "note": "Proved for what the name of a file shows (C122_same_file, C122_kept_partial), and in full for calls of the MaxSAT decoder with rates of at most four digits and solvers without directories (C122_exact_partial); failures change nothing (C122_call, C122_unknown). Violated: rates are rounded to four digits (C122_violated_rate), only the last component of the path of the solver is used (C122_violated_solver), and the tensor-network decoder ignores the lattice (C122_violated_lattice, C122_tn_ignores)."
  },
  {
   "property": "C123",
   "status": "partial",
   "theorems": [
    "Verif.Plots.C123_rates",
    "Verif.Plots.C123_time_over_rate",
    "Verif.Plots.C123_times_partial",
    "Verif.Plots.C123_mismatch",
    "Verif.Plots.C123_threshold_partial",
    "Verif.Plots.C123_rate_over_distance",
    "Verif.Plots.C123_violated_times",
    "Verif.Plots.C123_violated_threshold",
    "Verif.Plots.C123_violated_success",
    "Verif.Plots.C123_tn_curves",
    "Verif.Plots.C123_tn_rates",
    "Verif.Plots.C123_violated_tn"
   ],
   "note": "Curves over the error rate proved for all results (C123_rates, C123_time_over_rate, C123_tn_curves), the rate over the distance as well (C123_rate_over_distance: the last file counts). Violated: times are plotted against the list of all distances, so a time can appear at a distance it does not belong to (C123_violated_times, C123_violated_tn) or the plotting fails (C123_mismatch, C123_violated_success); all thresholds use the first logical operator (C123_violated_threshold, C123_threshold_partial). Partial where one result per distance exists (C123_times_partial). generate_plots_comp is the subject of C129."
  },
  {
   "property": "C124",
   "status": "partial",
   "theorems": [
    "Verif.CppObj.C124_getters",
    "Verif.CppObj.C124_answers_partial",
    "Verif.CppObj.C124_assigned_partial",
    "Verif.CppObj.C124_constructed",
    "Verif.CppObj.C124_violated_syndrome",
    "Verif.CppObj.C124_violated_stabilizer",
    "Verif.CppObj.C124_violated"
   ],
   "note": "Violated: the setters do not set n, so an object that starts empty raises an exception for every syndrome (C124_violated_syndrome, C124_violated) and for every non-zero vector on its qubits in is_stabilizer (C124_violated_stabilizer). Proved: getters (C124_getters), and all answers as soon as n is assigned (C124_answers_partial, C124_assigned_partial)."
  },
  {
   "property": "C125",
   "status": "partial",
   "theorems": [
    "Verif.CppObj.C125_matrix_text",
    "Verif.CppObj.C125_printed",
    "Verif.CppObj.C125_hz_partial",
    "Verif.CppObj.C125_violated"
   ],
   "note": "Violated: hX is never printed and hZ only if there is an hX (C125_violated), and printing raises an exception if hX has fewer rows than hZ (C125_printed). Proved: texts of matrices are injective (C125_matrix_text); with both matrices the text determines hZ (C125_hz_partial)."
  },
  {
   "property": "C126",
   "status": "partial",
   "theorems": [
    "Verif.MergeFiles.C126_load_partial",
    "Verif.MergeFiles.C126_intact",
    "Verif.MergeFiles.C126_violated_relative",
    "Verif.MergeFiles.C126_violated_suffix",
    "Verif.MergeFiles.C126_violated"
   ],
   "note": "Proved for absolute paths of different files with suffix .json (C126_load_partial) and for all paths if no file is damaged (C126_intact). Violated: a damaged file with a relative path is overwritten with an empty list, which is then loaded, whatever the folder holds (C126_violated_relative, C126_violated); a damaged file whose suffix is not .json raises after another file was overwritten (C126_violated_suffix)."
  },
  {
   "property": "C127",
   "status": "proved",
   "theorems": [
    "Verif.BpDict.C127_from_dict",
    "Verif.BpDict.C127_round_trip",
    "Verif.BpDict.C127_defaults"
   ],
   "note": "Dictionaries are association lists whose first entry for a key counts; values are not interpreted."
  },
  {
   "property": "C128",
   "status": "partial",
   "theorems": [
    "Verif.ColorEq.C128_color_codes",
    "Verif.ColorEq.C128_hexagonal",
    "Verif.ColorEq.C128_square_octagon",
    "Verif.ColorEq.C128_violated_css",
    "Verif.ColorEq.C128_violated",
    "Verif.ColorEq.C128_violated_transitive"
   ],
   "note": "Proved between color codes (C128_color_codes) and for the distances (C128_hexagonal, C128_square_octagon). Violated between classes: CSSCode(d, H, H) equals every hexagonal color code but is hashed from other data (C128_violated_css, C128_violated), and == is not transitive for some iteration order of sets (C128_violated_transitive). Hashes are compared by the data that is hashed."
  },
  {
   "property": "C129",
   "status": "partial",
   "theorems": [
    "Verif.PlotsComp.C129_over_rate",
    "Verif.PlotsComp.C129_solver_color",
    "Verif.PlotsComp.C129_violated_colors",
    "Verif.PlotsComp.C129_times_partial",
    "Verif.PlotsComp.C129_rates",
    "Verif.PlotsComp.C129_violated_colors_claim",
    "Verif.PlotsComp.C129_violated_times",
    "Verif.PlotsComp.C129_mismatch"
   ],
   "note": "Curves over the rate and the color of one solver proved for all results (C129_over_rate, C129_solver_color). Violated: if all solvers have the same number of selected rates, all solvers but the first share one color (C129_violated_colors, C129_violated_colors_claim); every solver other than z3 is named CASHWMaxSAT-CorePlus, and times can appear at a wrong distance (C129_violated_times) or the function fails (C129_mismatch). C129_times_partial: points are right if every distance has one result for the rate."
  },
  {
   "property": "C130",
   "status": "proved",
   "theorems": [
    "Verif.ColorDist.C130_hexagonal_distance"
   ],
   "note": "Proved for every odd distance, by a contraction argument over rows of the lattice (C130_hexagonal_distance)."
  },
  {
   "property": "C131",
   "status": "proved",
   "theorems": [
    "Verif.ColorDist2.C131_square_octagon_distance"
   ],
   "note": "Proved for every odd distance (C131_square_octagon_distance)."
  },
  {
   "property": "C132",
   "status": "proved",
   "theorems": [
    "Verif.DecodeHalf.C132_hexagonal",
    "Verif.DecodeHalf.C132_square_octagon",
    "Verif.DecodeHalf.C132_no_failures"
   ],
   "note": "Proved for both lattices and every odd distance (C132_hexagonal, C132_square_octagon) for every optimal solver, with logical operators computed by a correct mod2 library; C132_no_failures: light samples give rate 0."
  },
  {
   "property": "C133",
   "status": "partial",
   "theorems": [
    "Verif.DecodeHalf.C133_decode_x",
    "Verif.DecodeHalf.C133_decode_z_partial",
    "Verif.DecodeHalf.C133_named",
    "Verif.DecodeHalf.C133_named_z",
    "Verif.DecodeHalf.C133_violated_z"
   ],
   "note": "X errors on every code (C133_decode_x), X and Z errors on the named codes (C133_named, C133_named_z with the default init_luts=True). Z errors in general only where decode_z is right (C133_decode_z_partial); with init_luts=False the Steane decoder decodes no Z error (C133_violated_z, see C24)."
  },
  {
   "property": "C134",
   "status": "proved",
   "theorems": [
    "Verif.ProductRank.C134_hgp",
    "Verif.ProductRank.C134_product3d",
    "Verif.ProductRank.C134_product4d",
    "Verif.ProductRank.C134_sparse_k",
    "Verif.ProductRank.C134_dense_logicals",
    "Verif.ProductRank.C134_toric",
    "Verif.ProductRank.C134_full_rank"
   ],
   "note": "Proved for all seed codes by computing the ranks of the boundary maps modulo two (Lemmas/Kunneth, Lemmas/ProductRank); bposd's hgp is modelled by its documented matrices, the ring code by its documented checks."
  },
  {
   "property": "C135",
   "status": "proved",
   "theorems": [
    "Verif.ProductRank.C135_hgp",
    "Verif.ProductRank.C135_product3d",
    "Verif.ProductRank.C135_product4d",
    "Verif.ProductRank.C135_toric",
    "Verif.ProductRank.C135_main"
   ],
   "note": "Exact formulas, lower and upper bounds, for all matrices (Lemmas/ProductDistance: distances of the product of a complex with a classical code). Distances are values in the extended naturals, infinite when there is no such operator. What GAP's randomised search reports is not modelled."
  },
  {
   "property": "C136",
   "status": "proved",
   "theorems": [
    "Verif.ProductRank.C136_product3d",
    "Verif.ProductRank.C136_product4d",
    "Verif.ProductRank.C136_toric"
   ],
   "note": "Exact values for all complexes and for toric codes (Props/ProductMeta)."
  },
  {
   "property": "C137",
   "status": "partial",
   "theorems": [
    "Verif.SP.C137_zero_partial",
    "Verif.SP.C137_plus_partial",
    "Verif.SP.C137_violated",
    "Verif.SP.C137_optimal_zero_partial",
    "Verif.SP.C137_optimal_plus_partial"
   ],
   "note": "C137_zero_partial, C137_plus_partial (heuristic verification), C137_optimal_zero_partial, C137_optimal_plus_partial (gate_optimal_verification_circuit, whatever the solver answers within its limits): holds under the hypothesis of C112_heuristic_partial (every error present before the first gate is equivalent to an enumerated fault; the front layer removal leaves the circuit unchanged) and, for the plus state, on the codes where decode_z is right (C133). Without the hypothesis the claim is false: C137_violated (Shor code, one fault, the decoded state has a logical error). The syndrome measurement itself is taken as free of faults, as in simulation.py."
  },
  {
   "property": "C138",
   "status": "proved",
   "theorems": [
    "Verif.Qss.C138_last_window",
    "Verif.Qss.C138_weighted",
    "Verif.Qss.C138_one_window",
    "Verif.Qss.C138_matching",
    "Verif.Qss.C138_windows",
    "Verif.Qss.C138_windows_total",
    "Verif.Qss.C138_violated_windows"
   ],
   "note": "C138_one_window is about the faults that happened in a sample of one window, C138_windows and C138_windows_total about the faults that happened in a sample of any number of windows; C138_last_window and C138_weighted about the effective faults of the last window (C116: what earlier corrections left, and the bits flipped once more at a commit); C138_matching uses the weights of the repository. C138_violated_windows: the bound of one window (2 x faults < distance) is false for several windows (repetition code of distance seven, windows of two rounds, three wrong bits, all answers lightest). The decoder itself (BP+OSD, PyMatching) is not modelled: that its answer is a lightest explanation is a hypothesis, shown to be satisfiable by lightest_solver and careful_solver."
  },
  {
   "property": "C139",
   "status": "proved",
   "theorems": [
    "Verif.Analog.C139_round",
    "Verif.Analog.C139_rounds",
    "Verif.Analog.C139_toric"
   ],
   "note": "C139_round covers analog and hard decisions (wrong bits are those of the read-out), C139_rounds any number of rounds with hard decisions, C139_toric the codes of create_code from ring codes. That the decoder of the metacode gives a lightest correction and the decoder of the code an exact one are hypotheses (hardTwoStage_exists: such decoders exist)."
  },
  {
   "property": "C140",
   "status": "partial",
   "theorems": [
    "Verif.FewErrors.C140_zero",
    "Verif.FewErrors.C140_plus_partial",
    "Verif.FewErrors.C140_sharp",
    "Verif.FewErrors.C140_rate",
    "Verif.FewErrors.C140_violated_plus"
   ],
   "note": "The zero state is proved for every code (C140_zero, C140_rate), and the bound is sharp (C140_sharp). The plus state is proved for codes that are not reported self-dual and for codes with equal X and Z checks (C140_plus_partial); for self-dual codes with different check matrices it is false: the simulation raises KeyError (C140_violated_plus)."
  },
  {
   "property": "C141",
   "status": "partial",
   "theorems": [
    "Verif.Scripts.C141_run_partial",
    "Verif.Scripts.C141_rate_partial",
    "Verif.Scripts.C141_violated_every_code",
    "Verif.Scripts.C141_violated"
   ],
   "note": "Proved: what the script reports (C141_run_partial, C141_rate_partial): it tests the estimate instead of error plus estimate, so for every valid decoder it writes the fraction of the detected errors. The claim is false (C141_violated): a corrected single error of Steane's code is a failure; logical errors without a syndrome never are (C141_violated_every_code). Not modelled: the script uses code.N and code.K, while the binding offers n and k."
  },
  {
   "property": "C142",
   "status": "partial",
   "theorems": [
    "Verif.NumPlots.C142_curves",
    "Verif.NumPlots.C142_fitted",
    "Verif.NumPlots.C142_general_partial",
    "Verif.NumPlots.C142_colors",
    "Verif.NumPlots.C142_exact",
    "Verif.NumPlots.C142_violated_history",
    "Verif.NumPlots.C142_violated_general",
    "Verif.NumPlots.C142_violated_runtime",
    "Verif.NumPlots.C142_violated_wer_comp",
    "Verif.NumPlots.C142_wer"
   ],
   "note": "Proved: points and sorting of all curves (C142_curves), fitted lines (C142_fitted), word error rates and their legend (C142_wer), colors after every history (C142_colors), and the exact condition for a call to succeed (C142_exact). Violated: popitem empties the dictionary of colors of matplotlib, so all calls in a process together have six curves, and then KeyError is raised (C142_violated_history); the points of the general decoder are the times at all rates of its file, under the last one (C142_violated_general; right for one rate: C142_general_partial); runtime and wer_comp always raise an exception (C142_violated_runtime, C142_violated_wer_comp). argsort and curve_fit are parameters; file names are to be filled in by the user."
  }
 ]
}