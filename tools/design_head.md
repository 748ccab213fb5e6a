# DESIGN

Machine-checked model (Lean 4.33 + single Mathlib modules) of cda-tum/mqt-qecc at the pinned commit.
The first version of this file (see git history) was the plan written before the proofs; this version
describes what was built. The table of properties is generated by `tools/design.py` from
`properties.jsonl`, `tools/notes.json` and the sources.

## Layout

* `lean/Verif/Linalg.lean`, `LinalgLemmas.lean`, `Common.lean`: vectors over ZMod 2, spans, rank, `Except` helpers.
* `lean/Verif/Spec/*`: specifications written without the model: Pauli letters and commutation (`Pauli`, `PauliGroup`),
  state vectors and gates (`Quantum`, `EccState`), codes as stabiliser lists (`EccCode`), faults (`Faults`, `PauliFaults`), circuits and
  stabilisers of a prepared state (`Prep`).
* `lean/Verif/Model/*`: the model, function by function. Every definition cites file and lines of /repo.
* `lean/Verif/Lemmas/*`: proofs connecting the two.
* `lean/Verif/Props/*`: the theorems. A theorem about property `Cnn` is called `Cnn_...`; names containing `_partial` prove
  part of the claim, names containing `_violated` prove that the claim is false for the code as written, with a concrete
  witness. Where a claim is violated, `Cnn_claim` is its full statement as a `Prop`. An `example` beside each
  theorem instantiates its hypotheses on a concrete case.

## Approach

* Shallow, total, computable functions mirroring the code branch by branch; exceptions are values (`Except`, `Option`).
* Loops whose termination depends on data take fuel; theorems either prove that a given amount suffices for every input, or hold
  for every fuel. Divergence is "no fuel suffices" and is proved as such where it occurs (C31, C81, C88, C97).
* Stateful objects (caches, solver stacks, decoders, forests, files) are state machines; history properties are inductions over
  arbitrary lists of calls. Two concurrent processes (C84) are interleavings of their atomic steps.
* Unspecified order (Python sets, C++ unordered sets) is an arbitrary permutation function.
* Random draws, measured times, samples are inputs: a theorem holds for every outcome.
* Quantum circuits (C34, C36, C56, C93-C95, C100...) have a state-vector semantics over an arbitrary commutative ring with the constants
  needed (1/sqrt 2, i); a run with outcomes is a path through projections. Nothing is bounded: numbers of logical qubits,
  circuits, entanglement with the rest are arbitrary.
* A closed finite table (code tables, correction tables) is evaluated by the kernel (`decide`, `decide +kernel`) and lifted by
  lemmas to all inputs.

## Trusted base

* Lean's kernel (the build is replayed by `vcheck`), and the axioms `propext`, `Classical.choice`, `Quot.sound`. No theorem depends on
  any other axiom: none is declared, and neither `native_decide` nor `bv_decide` is used. `tools/axioms.sh` prints them for
  every theorem of the manifest.
* The reading of /repo recorded in the comments of `Model/`. The model was written by hand from the text; nothing checks it
  against running code.
* The contracts assumed for external code, each a hypothesis of the theorems that use it, and each shown satisfiable:
  * `ldpc.mod2.nullspace` (`Mod2.Correct`): the rows returned span the kernel. `row_echelon`/`row_basis`: pivots are the rows not in
    the span of earlier ones. `reduced_row_echelon` (`RrefOk`): same row space, pivots first columns, no column permutation;
    `C28_rref_contract_needed` shows what happens otherwise (the pinned ldpc version meets it).
  * z3: a satisfying assignment satisfies the constraints; an optimum is an optimum; `unsat` means unsatisfiable.
  * BP+OSD and matching decoders: arbitrary functions, with "returns a solution of the syndrome" as hypothesis only where a
    theorem says so (C39, C77). `scipy.special.erfcinv`: a solution of `erfc x = y` for 0 < y < 2 (`IsErfcInv`).
  * qiskit: layering is an input (C38, C74); qiskit-aer channels are terms (C57). stim: the sampler is an input.
  * C++ standard library containers, JSON library; `std::to_string` of a rate is an injective-or-not parameter (C97).

## What is modelled

| part of /repo | model |
|---|---|
| `codes/stabilizer_code.py`, `pauli` helpers, `symplectic` | `Model/Stabilizer` |
| `codes/css_code.py` (incl. named codes, all npy tables) | `Model/CSS`, `Model/NamedCodes` |
| `codes/hexagonal_color_code.py`, `square_octagon_color_code.py`, `color_code.py` | `Model/ColorLattice`, `Model/ColorEq`, `Model/LightsOut` |
| `codes/bb_codes.py` | `Model/BB` |
| `analog_information_decoding/code_construction/code_constructor.py` and the 3D part of the sparse twin | `Model/Product` |
| `cc_decoder/decoder.py` | `Model/LightsOut`, `Model/LightsOutSim` |
| `cc_decoder/decoder.py: run`, `comparison/tn_decoder.py`, `cli.py` (files and names) | `Model/CcFiles` |
| `cc_decoder/plots.py` (`generate_plots`, `generate_plots_tn`, `generate_plots_comp`: data of the drawing calls) | `Model/Plots`, `Model/PlotsComp` |
| `ft_stateprep/state_prep.py` (whole file) | `Model/Synthesis`, `Search`, `Symbolic`, `Verification`, `Faults`, `Gadgets`, `VerifCircuit`, `VerifiedPrep`, `VerifPipeline` |
| `ft_stateprep/simulation.py` (whole file) | `Model/StimSim`, `Model/Lut` |
| `analog_information_decoding/simulators/*.py`, `utils/simulation_utils.py`, `utils/data_utils.py` | `Model/Analog`, `AnalogTanner`, `SingleShot`, `SingleShotObjects`, `QssObjects`, `DataUtils`, `Results`, `Seeds`, `LoadData`, `Alist` |
| `src/GF2.cpp`, `src/Utils.cpp`, `include/Code.hpp`, `include/TreeNode.hpp` | `Model/Gf2`, `Model/CodeObjects`, `Model/UnionFind` |
| `src/UFDecoder.cpp`, `src/UFHeuristic.cpp`, `include/Decoder.hpp` | `Model/UFDecoder`, `Model/UFHeuristic` |
| `src/DecodingSimulator.cpp`, JSON forms | `Model/DecSim` |
| `include/ecc/*.hpp`, `src/ecc/*.cpp` (all seven encoders) | `Model/Ecc` |
| `ecc_qiskit_wrapper.py`, name tables in headers and bindings | `Model/Names`, `Model/Wrapper` |
| `scripts/numerics/visualize/*.py` (data of the drawing calls, colors), `scripts/numerics/code_construct/lifted_hgp.py`, `scripts/examples/decoding-performance-simulations.py` | `Model/NumPlots`, `LiftedProduct`, `Scripts` |

## What is not modelled

* The tensor-network simulation itself (qecsim), the rendering of plots, the other scripts, argument parsing, logging,
  binary file formats of numpy/scipy and the Matrix Market copies of the matrices.
* Floating point: rates and times are exact rationals or reals (Gaussian noise of C109-C111: Mathlib's real Gaussian measure). Where the code's float behaviour matters beyond rounding
  (division by zero, infinities) it is modelled explicitly.
* Integer overflow of int8/int32/size_t, memory exhaustion, wall-clock timeouts (a timeout is an arbitrary outcome of the oracle).
* mqt-core functions used by the encoders (`stripIdleQubits`, OpenQASM import and export).
* Whether external solvers terminate.

## Properties

`status` is `proved` when every part of the claim is a theorem, `partial` when a part is missing or the code violates the claim (then the
violation is itself a theorem, and the strongest true part is proved as `_partial` or as an exact characterisation).

