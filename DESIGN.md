# DESIGN

Machine-checked model (Lean 4.33 + single Mathlib modules) of cda-tum/mqt-qecc at the pinned commit.
The first version of this file (see git history) was the plan written before the proofs; this version
describes what was built. The table of properties is generated by `tools/design.py` from
`properties.jsonl`, `tools/notes.json` and the sources.

## Layout

* `lean/Verif/Linalg.lean`, `LinalgLemmas.lean`, `Common.lean`: vectors over ZMod 2, spans, rank, `Except` helpers.
* `lean/Verif/Spec/*`: specifications written without the model: Pauli letters and commutation (`Pauli`, `PauliGroup`),
  state vectors and gates (`Quantum`, `EccState`), codes as stabiliser lists (`EccCode`), faults (`Faults`, `PauliFaults`), circuits and
  stabilisers of a prepared state (`Prep`).
* `lean/Verif/Model/*`: the model, function by function. Every definition cites file and lines of /repo.
* `lean/Verif/Lemmas/*`: proofs connecting the two.
* `lean/Verif/Props/*`: the theorems. A theorem about property `Cnn` is called `Cnn_...`; names containing `_partial` prove
  part of the claim, names containing `_violated` prove that the claim is false for the code as written, with a concrete
  witness. Where a claim is violated, `Cnn_claim` is its full statement as a `Prop`. An `example` beside each
  theorem instantiates its hypotheses on a concrete case.

## Approach

* Shallow, total, computable functions mirroring the code branch by branch; exceptions are values (`Except`, `Option`).
* Loops whose termination depends on data take fuel; theorems either prove that a given amount suffices for every input, or hold
  for every fuel. Divergence is "no fuel suffices" and is proved as such where it occurs (C31, C81, C88, C97).
* Stateful objects (caches, solver stacks, decoders, forests, files) are state machines; history properties are inductions over
  arbitrary lists of calls. Two concurrent processes (C84) are interleavings of their atomic steps.
* Unspecified order (Python sets, C++ unordered sets) is an arbitrary permutation function.
* Random draws, measured times, samples are inputs: a theorem holds for every outcome.
* Quantum circuits (C34, C36, C56, C93-C95, C100...) have a state-vector semantics over an arbitrary commutative ring with the constants
  needed (1/sqrt 2, i); a run with outcomes is a path through projections. Nothing is bounded: numbers of logical qubits,
  circuits, entanglement with the rest are arbitrary.
* A closed finite table (code tables, correction tables) is evaluated by the kernel (`decide`, `decide +kernel`) and lifted by
  lemmas to all inputs.

## Trusted base

* Lean's kernel (the build is replayed by `vcheck`), and the axioms `propext`, `Classical.choice`, `Quot.sound`. No theorem depends on
  any other axiom: none is declared, and neither `native_decide` nor `bv_decide` is used. `tools/axioms.sh` prints them for
  every theorem of the manifest.
* The reading of /repo recorded in the comments of `Model/`. The model was written by hand from the text; nothing checks it
  against running code.
* The contracts assumed for external code, each a hypothesis of the theorems that use it, and each shown satisfiable:
  * `ldpc.mod2.nullspace` (`Mod2.Correct`): the rows returned span the kernel. `row_echelon`/`row_basis`: pivots are the rows not in
    the span of earlier ones. `reduced_row_echelon` (`RrefOk`): same row space, pivots first columns, no column permutation;
    `C28_rref_contract_needed` shows what happens otherwise (the pinned ldpc version meets it).
  * z3: a satisfying assignment satisfies the constraints; an optimum is an optimum; `unsat` means unsatisfiable.
  * BP+OSD and matching decoders: arbitrary functions, with "returns a solution of the syndrome" as hypothesis only where a
    theorem says so (C39, C77). `scipy.special.erfcinv`: a solution of `erfc x = y` for 0 < y < 2 (`IsErfcInv`).
  * qiskit: layering is an input (C38, C74); qiskit-aer channels are terms (C57). stim: the sampler is an input.
  * C++ standard library containers, JSON library; `std::to_string` of a rate is an injective-or-not parameter (C97).

## What is modelled

| part of /repo | model |
|---|---|
| `codes/stabilizer_code.py`, `pauli` helpers, `symplectic` | `Model/Stabilizer` |
| `codes/css_code.py` (incl. named codes, all npy tables) | `Model/CSS`, `Model/NamedCodes` |
| `codes/hexagonal_color_code.py`, `square_octagon_color_code.py`, `color_code.py` | `Model/ColorLattice`, `Model/ColorEq`, `Model/LightsOut` |
| `codes/bb_codes.py` | `Model/BB` |
| `analog_information_decoding/code_construction/code_constructor.py` and the 3D part of the sparse twin | `Model/Product` |
| `cc_decoder/decoder.py` | `Model/LightsOut`, `Model/LightsOutSim` |
| `cc_decoder/decoder.py: run`, `comparison/tn_decoder.py`, `cli.py` (files and names) | `Model/CcFiles` |
| `cc_decoder/plots.py` (`generate_plots`, `generate_plots_tn`, `generate_plots_comp`: data of the drawing calls) | `Model/Plots`, `Model/PlotsComp` |
| `ft_stateprep/state_prep.py` (whole file) | `Model/Synthesis`, `Search`, `Symbolic`, `Verification`, `Faults`, `Gadgets`, `VerifCircuit`, `VerifiedPrep`, `VerifPipeline` |
| `ft_stateprep/simulation.py` (whole file) | `Model/StimSim`, `Model/Lut` |
| `analog_information_decoding/simulators/*.py`, `utils/simulation_utils.py`, `utils/data_utils.py` | `Model/Analog`, `AnalogTanner`, `SingleShot`, `SingleShotObjects`, `QssObjects`, `DataUtils`, `Results`, `Seeds`, `LoadData`, `Alist` |
| `src/GF2.cpp`, `src/Utils.cpp`, `include/Code.hpp`, `include/TreeNode.hpp` | `Model/Gf2`, `Model/CodeObjects`, `Model/UnionFind` |
| `src/UFDecoder.cpp`, `src/UFHeuristic.cpp`, `include/Decoder.hpp` | `Model/UFDecoder`, `Model/UFHeuristic` |
| `src/DecodingSimulator.cpp`, JSON forms | `Model/DecSim` |
| `include/ecc/*.hpp`, `src/ecc/*.cpp` (all seven encoders) | `Model/Ecc` |
| `ecc_qiskit_wrapper.py`, name tables in headers and bindings | `Model/Names`, `Model/Wrapper` |
| `scripts/numerics/visualize/*.py` (data of the drawing calls, colors), `scripts/numerics/code_construct/lifted_hgp.py`, `scripts/examples/decoding-performance-simulations.py` | `Model/NumPlots`, `LiftedProduct`, `Scripts` |

## What is not modelled

* The tensor-network simulation itself (qecsim), the rendering of plots, the other scripts, argument parsing, logging,
  binary file formats of numpy/scipy and the Matrix Market copies of the matrices.
* Floating point: rates and times are exact rationals or reals (Gaussian noise of C109-C111: Mathlib's real Gaussian measure). Where the code's float behaviour matters beyond rounding
  (division by zero, infinities) it is modelled explicitly.
* Integer overflow of int8/int32/size_t, memory exhaustion, wall-clock timeouts (a timeout is an arbitrary outcome of the oracle).
* mqt-core functions used by the encoders (`stripIdleQubits`, OpenQASM import and export).
* Whether external solvers terminate.

## Properties

`status` is `proved` when every part of the claim is a theorem, `partial` when a part is missing or the code violates the claim (then the
violation is itself a theorem, and the strongest true part is proved as `_partial` or as an exact characterisation).

| id | property | theorems in | status | what is proved, how, and what is missing |
|---|---|---|---|---|
| C01 | Pauli strings round-trip through the binary form | Props/Stabilizer | proved | All strings of all lengths and all binary rows; induction on the string. |
| C02 | Syndrome bits and commutation agree with operator commutation | Props/Stabilizer | proved | Specification (Spec/Pauli) counts qubits with different non-identity letters; all lengths. |
| C03 | Stabilizer-code equality is equality of the signed generator row spaces | Props/Stabilizer2 | partial | Same-n comparison proved to be span equality; for different n the code raises instead of returning False (C03_violated_different_n). |
| C04 | Equal stabilizer codes have equal hashes | Props/Stabilizer2 | partial | Violated by the code: equal codes may hash differently. |
| C05 | stabilizer_equivalent decides equality up to stabilizers | Props/Stabilizer2 | partial | Violated by the code; C05_exact characterises what it decides. |
| C06 | Constructor of a stabilizer code accepts only stabilizer codes | Props/Stabilizer3 | partial | Commutation and k >= 0 are not checked by the code (violations with witnesses); everything else proved. |
| C07 | Accepted logical operators of a stabilizer code are logical operators | Props/Stabilizer4 | proved | Acceptance is characterised by an equivalence. |
| C08 | Accepted CSS codes have commuting checks and consistent n and k | Props/CSS | proved | Soundness and completeness of the constructor, and which exception the rejected inputs raise. |
| C09 | Computed CSS logicals are a basis of the undetectable errors modulo stabilizers | Props/CSS | proved | Under the contract of ldpc.mod2.nullspace (Mod2.Correct, satisfiable); logicals are a basis of the quotient, span argument, all matrices. |
| C10 | CSS stabilizer and logical-error tests | Props/CSS | proved | Double orthogonal complement over ZMod 2; all accepted codes. |
| C11 | CSS stabilizer equivalence of errors | Props/CSS | proved | Rank tests proved equal to coset equality, and the relation proved to be an equivalence compatible with addition. |
| C12 | A CSS code and its Pauli-string form describe the same code | Props/CSS2 | proved | CSS rows embedded in symplectic rows; Pauli strings, commutation and syndromes. |
| C13 | Named codes of the library are what their name says | Props/NamedCodes | proved | All eight tables of the package are in the model; distances are exact for X and Z errors. str.lower and np.load are not modelled. The distance argument is ignored for names other than surface (C13_distance_ignored). |
| C14 | Colour-code logical error test | Props/LightsOut | partial | Violated: '(...).any() is True' compares a numpy bool with the object True; the method always returns False (C14_always_false). |
| C15 | Hexagonal colour codes commute for every distance | Props/ColorLattice | proved | Every odd distance and every iteration order of the Python sets; closed form of the lattice and parity of overlaps. |
| C16 | Square-octagon colour codes commute for every distance | Props/ColorLattice2 | proved | Every odd distance and every iteration order of the Python sets. |
| C17 | Bivariate bicycle checks commute | Props/BB | proved | All sizes and exponent lists; through the CSSCode constructor model. |
| C18 | 3D product codes commute | Props/Product | proved | Integer matrices of all shapes; shape mismatch (numpy ValueError) not modelled. |
| C19 | 4D product codes commute | Props/Product | proved | Also create_code end to end with the seed hypergraph product code as a parameter satisfying hx*hz^T=0. |
| C20 | Lights-out constraints express the syndrome exactly | Props/LightsOut | proved | Dictionaries with keys 0..; lights with fewer than two switches raise IndexError (C20_preconstruct). |
| C21 | Lights-out solution is valid and of minimum weight | Props/LightsOut | proved | MaxSAT solver is a parameter with contract Solver.Optimal (shown satisfiable). |
| C22 | Repeated lights-out solves are independent | Props/LightsOut | partial | Holds for sequences of solvable patterns; violated after an unsolvable one because the assertion failure skips optimizer.pop(). |
| C23 | Lookup-table decoder returns a minimum-weight consistent error | Props/Lut | proved | Fold over all 2^n errors with an invariant of the table; every call history. |
| C24 | Z lookup table is correct whatever was called before | Props/Lut | partial | Violated by the code on self-dual codes (fresh decoder: KeyError; default decoder: wrong table); proved otherwise. |
| C25 | Coset leader is a minimum-weight representative | Props/Faults | proved | z3 Optimize is a parameter with its contract; the leader is of minimum weight in the coset, and one exists. |
| C26 | Removing stabilizer-equivalent faults keeps exactly one representative per class | Props/Faults | proved | Fold with membership invariant. |
| C27 | Trivial-fault filter keeps exactly the dangerous faults | Props/Faults | proved | The bound is the one of the code; filter exactly keeps faults whose leader is heavier. |
| C28 | State preparation circuit prepares the code's stabilizers | Props/Synthesis | partial | Heuristic: proved for every matrix, assuming mod2.reduced_row_echelon does not permute columns (C28_rref_contract_needed shows the assumption is needed). Optimal synthesis: proved for independent rows, false for redundant rows (C28_violated_gate, C28_violated_depth). |
| C29 | Greedy synthesis invariants | Props/Synthesis | proved | Fuel is provably sufficient (C29_terminates). |
| C30 | Column-addition encoding means one CNOT per gate step | Props/Synthesis | proved | The z3 constraints are formulas; a satisfying assignment is exactly one layer of CNOT column additions. |
| C31 | Iterative search returns a solution within its range | Props/Search | partial | Soundness, range and termination proved; termination fails for factor 1.5 from 1 and for min_timeout 0 (witnesses). |
| C32 | Set cover and heuristic verification detect every fault | Props/Verification | proved | Every iteration order of the sets; greedy loops proved to end. |
| C33 | Optimal verification stabilizers detect every fault | Props/Verification2 | partial | Soundness proved. Completeness fails: _odd_overlap asks for an overlap of exactly one (C33_violated); proved exact for that condition and for faults of weight at most two. |
| C34 | Measurement gadgets measure the requested stabilizer | Props/Gadgets | partial | State-vector semantics over any ring with 1/sqrt2 (Spec/Quantum). Holds for every weight >= 2 with t=1 and weights 0,1,2,4,5,6,8 with t=2. Violated: weight 1 with t=1 measures nothing; t=2 with weight 3, 7 or >= 9 raises. |
| C35 | Flag pattern is a permutation | Props/Gadgets | partial | w_flag_pattern is a permutation of 0..w-2 exactly for even w >= 4; odd weights lose positions (C35_violated). The function is not called anywhere in the package. |
| C36 | Measuring naive verification covers every generator | Props/VerifCircuit | partial | Circuit returned => it measures every X and Z generator max_errors times. Violated part: NotImplementedError for >= 3 errors, exceptions for weights not handled by measure_flagged. |
| C37 | Monte-Carlo error-rate bookkeeping | Props/StimStats | partial | Acceptance rate and error count exact. Reported logical error rate is a mean of batch frequencies, not the pooled frequency (C37_violated_pooled); shots over-reported by a batch without at_least_min_errors (C37_violated_shots); endless loop without errors (C37_violated_endless). |
| C38 | Stim noise parameters are fully propagated | Props/StimCirc, Props/StimCirc2 | partial | Noise placement and scaling proved for all circuits. Gate fidelity proved for qubits used as in the package's circuits; false otherwise (C38_violated). qiskit's layering is an input of the model. |
| C39 | Multi-round parity check matrix | Props/Analog | proved | All numbers of rounds. |
| C40 | Sliding-window commit is telescoping | Props/Analog | proved | Telescoping sums over ZMod 2; all numbers of rounds. |
| C41 | Pauli noise sampling is additive on the residual | Props/Analog3 | proved | Uniform draws are inputs, rates rationals. |
| C42 | Signed and binary syndromes are inverse | Props/Analog3 | proved | Pointwise, all lengths; analog values rationals. |
| C43 | Single-stage analog parity check | Props/Analog3 | proved | Block matrices of all sizes. |
| C44 | Logical error test by rank | Props/Analog3 | proved | Rank test equals membership in the row space. |
| C45 | Output file selection never overwrites | Props/DataFiles | proved | File system is a set of names; all finite directories and all histories of calls (concurrency is C84). |
| C46 | Merging simulation results is an exact pooled statistic | Props/DataMerge | partial | Proved when the first data set has all counters and all have the same k (others default to 0). Violated otherwise: KeyError depending on the order, and runs counted for a side without results (witnesses). |
| C47 | Cartesian and zipped parameter iterators | Props/DataRates | proved | All dictionaries of lists. |
| C48 | C++ PLU solver solves every solvable system | Props/Gf2 | proved | C++ GF(2) elimination as in the repository; proved against an independent specification of rank and solutions over ZMod 2. |
| C49 | C++ row-space membership | Props/Gf2 | proved | By C48. |
| C50 | C++ matrix utilities | Props/Gf2 | proved | All rectangular matrices; rejection of wrong shapes. |
| C51 | Union-find cluster forest | Props/UnionFind | proved | All histories of find/union; parent forest and children counts. |
| C52 | Union-find decoder result reproduces the syndrome | Props/UFDecoder | partial | False in general (C52_violated: dependent checks; C52_violated_single_error: one error in the repetition code of four bits; C52_violated_order: result halves come in Z,X order; C52_violated_split: syndrome is cut in the middle for unequal numbers of checks). Proved: the estimate of one cluster satisfies every check it touches (C52_cluster), the zero syndrome, and one-cluster decodings (C52_one_cluster_partial). |
| C53 | Heuristic union-find decoder uses the right checks for each half | Props/UFHeuristic | partial | False: both halves are decoded with the Z checks; the X checks have no influence at all (C53_violated_ignores_x_checks, all codes and syndromes). |
| C54 | Cached neighbour lists are transparent | Props/Gf2 | proved | All histories of cache queries. |
| C55 | ECC mapping: acceptance, number of corrections, registers | Props/EccRange, Props/EccSizes | partial | Acceptance and number of corrections proved for all schemes. Registers: proved for Q3Shor and Q9Shor; Q5Laflamme, Q7Steane (measure with exchanged arguments) and the surface schemes (decoding measures into the bit numbered like the qubit) leave the registers on some circuits (C55_violated_*), and the _partial theorems give size conditions under which they do not. |
| C56 | ECC correction tables correct every single error | Props/EccCorrect | proved | State-vector semantics over any ring with the constants needed; every number of logical qubits, every code state (stabilised, entangled with anything), at most one error per logical qubit, every measurement outcome, ancillas in any state. |
| C57 | Noise model and scheme names | Props/Names | proved | Channels are terms (composition and tensor as in qiskit_aer), so the theorem says which channels are combined, not what they do. |
| C58 | Stabilizer-code equality is equality of signed stabilizer groups | Props/Stabilizer5 | partial | Signs: == compares sign columns linearly, which is not the group sign; proved up to phase. |
| C59 | Accepted logical operators are independent | Props/Stabilizer4 | partial | Violated: repeated logicals are accepted when anticommutation pattern allows. |
| C60 | is_self_dual means equal X and Z stabilizer groups | Props/CSS | partial | Violated with redundant check rows; correct for full-rank check matrices. |
| C61 | Fault sets contain only real faults | Props/Faults3 | proved | All circuits, numbers of errors and leaders satisfying the contract. |
| C62 | Fault sets contain every enumerated dangerous fault combination | Props/Faults3 | proved | All circuits and numbers of errors. |
| C63 | One-fault set covers every single circuit fault | Props/Faults3, Props/PrepFaultTolerance3 | partial | Violated: faults on /0>-initialised qubits later used as controls are missed (4-qubit witness); proved when every control is a Hadamard qubit. C63_covered_iff gives the exact condition (EarlyCovered) under which all single faults are covered; C63_violated_shor shows that the library's own circuit for the Shor code does not satisfy it. |
| C64 | Fault sets do not depend on call history | Props/Faults3 | proved | All call histories of the cached methods. |
| C65 | Combining with additional faults | Props/Faults4 | proved | All lists of additional faults. |
| C66 | Optimal encodings are exact | Props/Synthesis | proved | Satisfiability of the encoding is equivalent to the existence of a circuit with that many gates / layers. |
| C67 | gate/depth_optimal_prep_circuit return minimal circuits | Props/Search | partial | Correctness and minimality proved for independent checks; the code raises IndexError when one gate suffices, because it then tries zero gates (C67_violated, C67_violated_crash). |
| C68 | Gate-optimal verification layers are sound and CNOT-minimal | Props/Verification3 | partial | Soundness proved. Minimality fails (ancilla count is frozen after the first success) and a layer may be missing although stabilizers exist; both with witnesses. |
| C69 | Verified circuits measure both rounds of stabilizers | Props/VerifCircuit | proved | Search functions are parameters; external behaviour covered by C32, C33, C68. |
| C70 | Hook errors are complete | Props/VerifCircuit | partial | Violated: only weight w-1 errors are returned, all equivalent to single-qubit errors (C70_returned_trivial); C70_exact characterises the result. |
| C71 | Bivariate bicycle codes have their declared distance | Props/BB, Props/BB2 | partial | Proved for n = 72, 108, 144 (C71_distance_partial: the declared distance is exactly the least weight of an undetected non-trivial X error, and of a Z error). Violated for n = 90: _cyclic_code_check_matrix takes (m, l_) but is called with (l, m) = (15, 3); the code returned declares distance 10 and has distance exactly 2 (C71_distance_90); with the two arguments exchanged the distance would be 10 (C71_90_exchanged). For n = 288 the distance is between 12 and the declared 18 (C71_bound_288_partial); equality is missing. The search for light errors is proved sound and evaluated by the kernel (decide +kernel), on the matrices of the model, using translation symmetry. |
| C72 | The colour-code decoder fits the colour-code lattices | Props/ColorDecoder | proved | Every odd distance for both lattices; layouts satisfy the preconditions of the decoder of C20-C22. |
| C73 | simulate_error_rate reports the frequencies of its samples | Props/ColorDecoder | proved | Errors, solver and times are inputs; rates exact rationals. |
| C74 | Measurement record layout of the noisy simulation circuit | Props/StimRecords | partial | Proved for circuits in which every data qubit is in some CNOT and ancillas are measured once or twice; false otherwise (C74_violated, C74_violated_collision). |
| C75 | The batch simulation counts exactly the residual logical errors | Props/PlusState, Props/StimRecords | partial | Zero state proved for all codes; plus state for codes not reported self-dual (C75_plus_state_partial) and, with the decoder the simulator creates, for codes with equal X and Z checks (C75_plus_default_partial). Violated for self-dual codes whose checks are listed in different orders: of two wrong corrections of such a Steane code one is counted (C75_violated_plus). |
| C76 | Sliding-window commit is consistent with the committed correction | Props/Analog | partial | Violated: the flips attributed to the last committed round are added to the next window (C76_violated); C76_commit_partial is the exact behaviour, C76_commit_no_flip the condition under which the claim holds. |
| C77 | Every quasi-single-shot sample ends with a perfect decoding | Props/Analog2 | partial | Holds exactly when the number of rounds is a multiple of half the window and at least a window, with analog decoding (C77_final_decoding_partial); violated otherwise, and without analog decoding the sample raises. |
| C78 | Window decoding does not depend on earlier calls | Props/Analog2 | partial | Violated: a last-round call leaves its channel probabilities in the decoder object; what does hold is C78_history_partial. |
| C79 | Single-shot samples report logical failure correctly | Props/SingleShot | partial | Holds with logicals supplied; without them the code tests the Hamming-space complement of the checks rows and both misses and invents failures (witnesses). |
| C80 | The decoder is asked the measured question | Props/SingleShot | partial | Holds for two-stage hard decoding and the analog Tanner graph; violated by truncation of analog syndromes, zero error rate inversion, AttributeError in hard single-stage mode, and use of the other side's rate (witnesses). |
| C81 | Simulation runs report the counters of the samples they took | Props/SingleShot | partial | Holds for QssSimulator (C81_run_partial) and for AtdSimulator with a list as bias; violated by AtdSimulator with an array as bias, which is the documented type and the default, because json.dump cannot write it (C81_violated_atd; exact behaviour in C119), and by SingleShotSimulator, which writes to a file opened for reading (C81_violated_never_returns). |
| C82 | Convergence test | Props/DataRates | proved | Division by zero raises (C82_raises). |
| C83 | Reported rates and error bars | Props/DataRates | partial | Rates proved; the error bar is right only for k = 1: the code evaluates the derivative at the error bar instead of the rate (C83_violated). |
| C84 | Concurrent simulations never share an output file | Props/DataFiles | partial | Violated: exists and touch are separate steps. Proved for schedules in which the two calls do not overlap between test and touch. |
| C85 | Combined X/Z entries | Props/DataMerge | partial | Violated when a data set has results of both sides (stale X counters win); proved when the Z data set has no X fields. |
| C86 | Settings files | Props/DataRates | proved | JSON objects as association lists. |
| C87 | C++ code object computes the syndrome of a Pauli error and refuses wrong lengths | Props/Gf2 | proved | All codes and errors; by the linear algebra of C50. |
| C88 | Union-find decoding terminates | Props/UFDecoder | partial | Proved for the standard growth on connected Tanner graphs. False otherwise: never terminates for INVALID_COMPONENTS on any nonzero syndrome, out-of-range access for SINGLE_QUBIT_RANDOM, endless loops for SINGLE_SMALLEST and, for every sequence of random numbers, for SINGLE_RANDOM on a connected graph with two qubits, and for disconnected graphs with the standard growth. |
| C89 | Union-find decoding has no side effects on later decodings | Props/UFDecoder | partial | False for two-sided decoding, which resets the growth variant in reset() between the halves; proved: no dependence on earlier results, and one-sided decoding keeps the configuration. |
| C90 | The union-find decoder corrects single errors on Steane's code | Props/UFDecoder | partial | False for four of the seven qubits; C90_partial proves the other three. |
| C91 | Heuristic decoder objects can be reused | Props/UFHeuristic | partial | False without reset (C91_violated); proved after reset for every history. |
| C92 | Heuristic decoder estimates | Props/UFHeuristic | partial | Syndrome reproduction is false (C92_violated); proved: agreement of the two forms for one-sided decodings, zero syndrome, rejection of the unsupported variant. |
| C93 | Q18Surface corrects single bit flips | Props/EccSurface18 | partial | Proved for the 15 data qubits that appear in the correction table; data qubits 17, 32, 34 are not corrected (C93_violated). |
| C94 | ECC mapping keeps user measurements | Props/EccMeasure | partial | Proved for Q3Shor, Q9Shor and both surface schemes; Q5Laflamme and Q7Steane exchange qubit and bit (C94_violated_*), right only for equal numbers (_partial). |
| C95 | ECC mapping writes no other user bits | Props/EccMeasure | partial | Proved for Q3Shor and Q9Shor; the surface schemes overwrite bit i while decoding qubit i (C95_violated_*). |
| C96 | Printed simulation results | Props/PrintResults | proved | Fractions are exact rationals. The word alphabetically first is printed even if below the threshold (C96_below). |
| C97 | Word error rates of the C++ simulator | Props/DecSim | partial | Counting, rates, termination proved. Violated: setCode exchanges the check matrices, so a two-sided code is simulated for the other kind of error; one-sided codes always raise; k is 0 unless set, so no rate is finite; the statistics file is never balanced JSON. |
| C98 | Average decoding times | Props/DecSim | partial | Violated: the accumulator is not reset between runs; C98_exact says what is reported, the first run is right. |
| C99 | JSON round trips of results | Props/DecSim | partial | Violated for results and run information (always raises); sizes of codes are read back. |
| C100 | An encoded circuit gives the results of the original circuit | Props/EccLaflamme, Props/EccResults, Props/EccShor3, Props/EccShor9, Props/EccSteane, Props/EccToffoli | partial | Proved with noise for Q3Shor and, for X and Y with at most one control, for Q9Shor (with two controls it fails: C100_violated_q9); without noise for Id. For Q7Steane (any number of qubits) and Q5Laflamme (one qubit): proved for circuits whose gates all precede the measurements, with at most one Pauli error per block right before a correction (C100_q7_noisy_partial, C100_q5_noisy_partial). Violated in general for Q5Laflamme, Q7Steane, Q9Surface and Q18Surface (C100_violated_*). |
| C101 | Flagged stabilizer measurements are fault tolerant | Props/GadgetFaults | proved | State-vector semantics with Pauli faults (Spec/PauliFaults). Weight one with t=1 is excluded because that circuit measures nothing (C34_violated_weight_one). C101_unflagged_not: without flags the property fails for weight four. C101_two_flagged covers measure_stab_two_flagged called directly (weights 5 and 6, not only the weight that measure_flagged dispatches to it). |
| C102 | One-fault tolerance of verified state preparation | Props/PrepFaultTolerance2, Props/PrepFaultTolerance3 | partial | Proved on state vectors over any commutative ring with 2s²=1: fault-free behaviour (C102_fault_free), the exact criterion for a set of measurements in both directions (C102_tolerates_iff), and tolerance of the circuits returned by both searches after any history of fault-set computations when every dangerous error present before the first gate is equivalent to one after some CNOT (C102_heuristic_partial, C102_optimal_partial; EarlyCovered, shown by C63_covered_iff to be exactly the condition under which the tool enumerates all single faults). Without it the claim is false: C102_violated runs heuristic_prep_circuit and heuristic_verification_circuit on the Shor code of the repository in the kernel; the only measurement Z0Z3Z6 misses X4X5 from one fault on qubit 4 between CX(3,4) and CX(4,5). The optimal search needs the circuit to contain measurements (a failed search returns a circuit without any). Missing: more than one fault. full_fault_tolerance=True is C104. |
| C103 | Logical gates of the ECC schemes | Props/EccLogical, Props/EccLogical2, Props/EccLogical3, Props/EccLogical4, Props/EccLogical5 | partial | Proved in full for Q5Laflamme (C103_q5); for Q3Shor without S, S†, T, T† and without Y under controls; for Q7Steane without controls and with one control on X or Z; for Q9Shor without controls and with one control on X; for Q9Surface without H. C103_codes shows that the code words of the specification are fixed by the generators of C56 and encode injectively. In the remaining cases the claim fails: S of Q3Shor acts as S† (C103_violated_q3_s), controlled Y of Q3Shor and Q7Steane as controlled -Y (C103_violated_q3_cy, C103_violated_q7), controlled Z of Q9Shor and H of Q9Surface leave the code (C103_violated_q9, C103_violated_s9), X and Z of Q18Surface commute so that no code words work at all (C103_violated_s18). |
| C104 | One-fault tolerance with full_fault_tolerance=True | Props/PrepFaultTolerance4, Props/PrepFaultTolerance6 | partial | Proved on state vectors over any commutative ring with 2s²=1: fault-free behaviour for every list of outcomes (C104_fault_free), the exact three-part criterion in both directions (C104_tolerates_iff: faults anywhere in the preparation, in the unflagged first round, in the flagged second round with one or two flags, and in the repeated reading of Z ancillas), and for the circuits of both searches after any history of fault-set computations that tolerance holds exactly when the dangerous hook errors of the first round are detected by the second, in particular when the first round measures stabilizers of weight at most 3 (C104_heuristic_partial, C104_optimal_partial; hypotheses: EarlyCovered for both kinds, no weight-one stabilizer, distances as the code class requires). The search does not ensure the hook condition since _hook_errors returns only harmless errors (C70_returned_trivial): C104_violated_hook runs heuristic_prep_circuit and heuristic_verification_circuit on the rotated surface code of distance 3 (qubits renumbered) in the kernel; X0X2X5X6 is measured without a flag, one ancilla fault leaves X5X6 and nothing detects it, with EarlyCovered satisfied. Acceptance means that every reading is 0, including the first of two readings into the same classical bit. Missing: more than one fault; preparation circuits without EarlyCovered (see C102_violated). |
| C105 | Lifted product codes commute | Props/LiftedProduct | partial | Proved for LiftedHgp and its protograph, and for BiasTailoredLiftedProduct when a_n*b_m = a_m*b_n. Violated: for other shapes BiasTailoredLiftedProduct raises ValueError (C105_violated_shapes), and its array protograph has anticommuting rows (C105_violated_protograph). The external array class ldpc.protograph is modelled by its contract (T transposes the entries too); C105_transpose_contract_needed shows the contract is used. |
| C106 | Merging result folders | Props/MergeFiles | partial | Proved for absolute input paths and all four functions (C106_functions_partial), provided no folder holds a directory named like a JSON file: then the call fails instead of ignoring it (C106_json_directory). Violated for relative paths: iterdir already returns paths that start with the input path, and the code joins the input path again; unless a folder of the same name is nested inside, an empty list is written (C106_violated_relative, all trees; C106_violated). |
| C107 | The evaluation script simulates the requested circuit | Props/EvalScript | partial | Proved without --no_ver and, for colour codes, with distance 5 (C107_partial). Violated: --no_ver simulates a verified circuit for all other arguments, because the script asks for a file name no shipped file has and then builds a verified circuit (C107_violated_no_ver); the distance is ignored for the colour codes (C107_violated_distance). Undocumented names are refused (C107_unknown). |
| C108 | Generated code files | Props/CodeFiles | partial | The claim holds for the dense constructor without distances (text round trip for all integer matrices, CSS and metacheck conditions, logical operators, untouched files) and for the sparse one with distances and logical operators. It fails elsewhere: the dense constructor with distances always ends in KeyError because the shipped script prints dMx/dMz and the code looks for dMX/dMZ; the sparse one without distances always ends in AttributeError and, without logical operators, writes no matrix; ragged files and text that is no number are accepted by the C++ reader. The .mtx copies are not modelled. |
| C109 | Analog noise strength and syndrome error rate are the same quantity | Props/AnalogTanner | proved | Over the reals with Mathlib's Gaussian measure; scipy's erfc is its integral, erfcinv is a parameter with contract erfc(erfcinv y) = y on (0, 2), shown satisfiable. At rate 1/2 sigma is infinite, above it is negative (C109_large). |
| C110 | The analog Tanner graph decoder asks about the given syndrome | Props/AnalogTanner | proved | The BP+OSD decoder is a parameter that depends on matrix, channel probabilities and syndrome only. |
| C111 | The analog Tanner graph simulator has the measurement noise asked for | Props/AnalogTanner | partial | Violated: the constructor splits the rate by the bias, so that with the default bias both sides have two thirds of the noise asked for, also when sigma is given (C111_violated_default); without noise, and for bias of only X or only Z errors, it raises ValueError (C111_violated_noiseless, C111_violated_one_kind). Proved: exact rates (C111_rates), the claim for pure Y bias (C111_partial), and the samples for all histories (C111_samples). |
| C112 | Verified state preparation tolerates several faults | Props/ManyFaults2 | partial | C112_layered: for any layers of measurements of which the j-th detects every dangerous sum of at most j effects of preparation faults, any number of faults up to the number of layers is tolerated, wherever they happen (a layer without fault that comes after the right number of errors always exists). C112_heuristic_partial and C112_optimal_partial: the search of the repository produces such layers whenever every error present before the first gate is equivalent to an enumerated fault. Without that condition the claim is false: C112_violated (Shor code, one fault). Missing: the second round of measurements (full_fault_tolerance=True) for more than one fault. |
| C113 | Alist files are read back as the matrix they describe | Props/Alist | partial | C113_read is the exact result for every file whose row lines list at least one number; C113_round_trip_partial: matrices without zero rows, unpadded, are read back. The claim itself fails (C113_violated_padded): the padding number 0 becomes index -1 and sets the last column; and the empty line of a zero row is skipped by np.loadtxt, so the following lines are shifted (C113_violated_zero_row). |
| C114 | Simulator decoders have the matrix and priors of their own side | Props/SingleShotObjects | partial | Violated for two-stage decoding with the analog Tanner graph (C114_violated): the rates of the two sides are swapped in the calls of _analog_tg_decoding. Proved: all other modes (C114_priors_partial), with exact calls of every noisy round after every history (C114_single_stage_analog, C114_two_stage_analog, C114_two_stage_hard), the perfect round (C114_perfect) and the residual error (C114_residual). Single-stage decoding without analog information raises in its first noisy round (C80). |
| C115 | Samples of the single-shot simulator do not depend on earlier samples | Props/SingleShotObjects | proved | Proved for the model with decoder objects and update_channel_probs (C115_fresh, C115_samples); BP+OSD is a function of matrix, probabilities and syndrome. |
| C116 | Samples of the quasi-single-shot simulator use the right soft information in every window | Props/Qss | proved | Analog mode only: without it the first full window raises (C77). Numbers are reals, draws are inputs, BP+OSD and PyMatching are arbitrary functions of matrix, soft information and syndrome. The repeated flip in C116_question is the defect of C76; C116 states the exact behaviour. Rates 0 and >= 1/2 are in C109. |
| C117 | Matching weights order errors by probability | Props/QssWeights | proved | Over the reals; with floats exp overflows at 709, and log-likelihood ratios above that get the weight 16777215. |
| C118 | The ECC wrapper simulates the requested circuit with noise on every gate | Props/Wrapper | partial | Circuit, method, shots, seed, export and the exact set of noisy gates are proved (C118_run_partial), and the exact channel of every instruction (C118_channels). The claim fails: x, y, z, cz, ccx and classically controlled corrections have no noise; with the default scheme every simulated circuit contains such gates (C118_violated_default), and a circuit of one X gate is simulated without noise (C118_violated). Reading and writing of OpenQASM and the simulator are not modelled. |
| C119 | Result files of simulator runs | Props/Results | partial | QssSimulator: returned dictionary and file proved for all samples and histories (C119_qss), and for every point at which the program is stopped if save_interval >= 2 (C119_crash_partial). Violated: with save_interval=1 nothing is saved before the end (C119_violated_crash), the default output path is a directory (C119_violated_default_path), and AtdSimulator raises AttributeError for every array as bias and leaves a torn file (C119_violated_atd_all); with a list as bias it is right (C119_atd_partial). |
| C120 | Reported numbers of BP iterations | Props/Results | partial | Violated: QssSimulator divides every number by the number of rounds and truncates (C120_violated_qss), and neither simulator resets its counter between runs (C120_violated_atd). C120_exact says what is reported; the first run of an AtdSimulator is right (C120_atd_first_partial). |
| C121 | Seeds make simulations reproducible | Props/Seeds | partial | Violated: set_seed seeds the global generator np.random, but every draw uses a new default_rng() seeded by the operating system; two runs with the same seed differ (C121_violated_atd), and the seed has no influence at all (C121_seed_ignored, C121_seed_ignored_qss). |
| C122 | Result files of the color code decoders are kept apart | Props/CcFiles | partial | Proved for what the name of a file shows (C122_same_file, C122_kept_partial), and in full for calls of the MaxSAT decoder with rates of at most four digits and solvers without directories (C122_exact_partial); failures change nothing (C122_call, C122_unknown). Violated: rates are rounded to four digits (C122_violated_rate), only the last component of the path of the solver is used (C122_violated_solver), and the tensor-network decoder ignores the lattice (C122_violated_lattice, C122_tn_ignores). |
| C123 | Plots show the values of the result files | Props/Plots | partial | Curves over the error rate proved for all results (C123_rates, C123_time_over_rate, C123_tn_curves), the rate over the distance as well (C123_rate_over_distance: the last file counts). Violated: times are plotted against the list of all distances, so a time can appear at a distance it does not belong to (C123_violated_times, C123_violated_tn) or the plotting fails (C123_mismatch, C123_violated_success); all thresholds use the first logical operator (C123_violated_threshold, C123_threshold_partial). Partial where one result per distance exists (C123_times_partial). generate_plots_comp is the subject of C129. |
| C124 | Codes built with the setters answer like constructed ones | Props/CodeObjects | partial | Violated: the setters do not set n, so an object that starts empty raises an exception for every syndrome (C124_violated_syndrome, C124_violated) and for every non-zero vector on its qubits in is_stabilizer (C124_violated_stabilizer). Proved: getters (C124_getters), and all answers as soon as n is assigned (C124_answers_partial, C124_assigned_partial). |
| C125 | The text of a code shows its matrices | Props/CodeObjects | partial | Violated: hX is never printed and hZ only if there is an hX (C125_violated), and printing raises an exception if hX has fewer rows than hZ (C125_printed). Proved: texts of matrices are injective (C125_matrix_text); with both matrices the text determines hZ (C125_hz_partial). |
| C126 | load_data loads every named result file once, in order, and repairs only damaged files | Props/LoadData | partial | Proved for absolute paths of different files with suffix .json (C126_load_partial) and for all paths if no file is damaged (C126_intact). Violated: a damaged file with a relative path is overwritten with an empty list, which is then loaded, whatever the folder holds (C126_violated_relative, C126_violated); a damaged file whose suffix is not .json raises after another file was overwritten (C126_violated_suffix). |
| C127 | BpParams.from_dict accepts every dictionary and is inverse to writing the parameters out | Props/LoadData | proved | Dictionaries are association lists whose first entry for a key counts; values are not interpreted. |
| C128 | Equality of color codes is a comparison of check matrices that agrees with hashing and with other code classes | Props/ColorEq | partial | Proved between color codes (C128_color_codes) and for the distances (C128_hexagonal, C128_square_octagon). Violated between classes: CSSCode(d, H, H) equals every hexagonal color code but is hashed from other data (C128_violated_css, C128_violated), and == is not transitive for some iteration order of sets (C128_violated_transitive). Hashes are compared by the data that is hashed. |
| C129 | The comparison plot shows each solver's own data under its own name and color | Props/PlotsComp | partial | Curves over the rate and the color of one solver proved for all results (C129_over_rate, C129_solver_color). Violated: if all solvers have the same number of selected rates, all solvers but the first share one color (C129_violated_colors, C129_violated_colors_claim); every solver other than z3 is named CASHWMaxSAT-CorePlus, and times can appear at a wrong distance (C129_violated_times) or the function fails (C129_mismatch). C129_times_partial: points are right if every distance has one result for the rate. |
| C130 | Hexagonal color codes have the distance they declare | Props/ColorDistance | proved | Proved for every odd distance, by a contraction argument over rows of the lattice (C130_hexagonal_distance). |
| C131 | Square-octagon color codes have the distance they declare | Props/ColorDistance2 | proved | Proved for every odd distance (C131_square_octagon_distance). |
| C132 | The MaxSAT decoder corrects every error of weight less than half the distance | Props/DecodeHalf | proved | Proved for both lattices and every odd distance (C132_hexagonal, C132_square_octagon) for every optimal solver, with logical operators computed by a correct mod2 library; C132_no_failures: light samples give rate 0. |
| C133 | The lookup-table decoder corrects every error of weight less than half the distance | Props/DecodeHalf | partial | X errors on every code (C133_decode_x), X and Z errors on the named codes (C133_named, C133_named_z with the default init_luts=True). Z errors in general only where decode_z is right (C133_decode_z_partial); with init_luts=False the Steane decoder decodes no Z error (C133_violated_z, see C24). |
| C134 | Product codes have the number of logical qubits that the Künneth formula gives | Props/ProductK | proved | Proved for all seed codes by computing the ranks of the boundary maps modulo two (Lemmas/Kunneth, Lemmas/ProductRank); bposd's hgp is modelled by its documented matrices, the ring code by its documented checks. |
| C135 | Product codes have the distances that their seed codes determine | Props/ProductDistance | proved | Exact formulas, lower and upper bounds, for all matrices (Lemmas/ProductDistance: distances of the product of a complex with a classical code). Distances are values in the extended naturals, infinite when there is no such operator. What GAP's randomised search reports is not modelled. |
| C136 | Metachecks of product codes let no light syndrome error pass as an impossible syndrome | Props/ProductMeta | proved | Exact values for all complexes and for toric codes (Props/ProductMeta). |
| C137 | A verified preparation followed by the lookup decoder gives the exact logical state | Props/Corrected2, Props/Corrected3 | partial | C137_zero_partial, C137_plus_partial (heuristic verification), C137_optimal_zero_partial, C137_optimal_plus_partial (gate_optimal_verification_circuit, whatever the solver answers within its limits): holds under the hypothesis of C112_heuristic_partial (every error present before the first gate is equivalent to an enumerated fault; the front layer removal leaves the circuit unchanged) and, for the plus state, on the codes where decode_z is right (C133). Without the hypothesis the claim is false: C137_violated (Shor code, one fault, the decoded state has a logical error). The syndrome measurement itself is taken as free of faults, as in simulation.py. |
| C138 | Fewer than half the distance many data and measurement faults in a window are corrected | Props/QssWindow, Props/QssWindow2, Props/QssWindow3, Props/QssWindow4 | proved | C138_one_window is about the faults that happened in a sample of one window, C138_windows and C138_windows_total about the faults that happened in a sample of any number of windows; C138_last_window and C138_weighted about the effective faults of the last window (C116: what earlier corrections left, and the bits flipped once more at a commit); C138_matching uses the weights of the repository. C138_violated_windows: the bound of one window (2 x faults < distance) is false for several windows (repetition code of distance seven, windows of two rounds, three wrong bits, all answers lightest). The decoder itself (BP+OSD, PyMatching) is not modelled: that its answer is a lightest explanation is a hypothesis, shown to be satisfiable by lightest_solver and careful_solver. |
| C139 | Metachecks keep the residual error of two-stage decoding bounded | Props/MetaRepair | proved | C139_round covers analog and hard decisions (wrong bits are those of the read-out), C139_rounds any number of rounds with hard decisions, C139_toric the codes of create_code from ring codes. That the decoder of the metacode gives a lightest correction and the decoder of the code an exact one are hypotheses (hardTwoStage_exists: such decoders exist). |
| C140 | Few data errors are never counted as a logical error by the preparation simulation | Props/FewErrors | partial | The zero state is proved for every code (C140_zero, C140_rate), and the bound is sharp (C140_sharp). The plus state is proved for codes that are not reported self-dual and for codes with equal X and Z checks (C140_plus_partial); for self-dual codes with different check matrices it is false: the simulation raises KeyError (C140_violated_plus). |
| C141 | The example script reports the word error rate | Props/Scripts | partial | Proved: what the script reports (C141_run_partial, C141_rate_partial): it tests the estimate instead of error plus estimate, so for every valid decoder it writes the fraction of the detected errors. The claim is false (C141_violated): a corrected single error of Steane's code is a failure; logical errors without a syndrome never are (C141_violated_every_code). Not modelled: the script uses code.N and code.K, while the binding offers n and k. |
| C142 | Figures of run times and word error rates show the data of their files | Props/NumPlots | partial | Proved: points and sorting of all curves (C142_curves), fitted lines (C142_fitted), word error rates and their legend (C142_wer), colors after every history (C142_colors), and the exact condition for a call to succeed (C142_exact). Violated: popitem empties the dictionary of colors of matplotlib, so all calls in a process together have six curves, and then KeyError is raised (C142_violated_history); the points of the general decoder are the times at all rates of its file, under the last one (C142_violated_general; right for one rate: C142_general_partial); runtime and wer_comp always raise an exception (C142_violated_runtime, C142_violated_wer_comp). argsort and curve_fit are parameters; file names are to be filled in by the user. |
