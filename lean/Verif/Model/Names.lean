import Verif.Common
import Mathlib.Data.List.Lex
import Mathlib.Data.Char
import Mathlib.Data.Rat.Defs
import Mathlib.Algebra.Order.Field.Rat

/-!
# Model of the functions that turn strings into settings, and of the command line wrapper

`include/Decoder.hpp`, `include/DecodingRunInformation.hpp`, `include/DecodingSimulator.hpp`, `src/python/bindings.cpp`,
`src/mqt/qecc/cc_decoder/__init__.py`, `src/mqt/qecc/ecc_qiskit_wrapper.py`.
-/

namespace Verif.Names

/-- The exceptions raised (raised in src/python/bindings.cpp:47-80, src/mqt/qecc/ecc_qiskit_wrapper.py:30-88, src/mqt/qecc/cc_decoder/__init__.py:9-16). -/
inductive NameErr
  | invalidArgument
  | valueError
  | assertion
deriving DecidableEq, Repr

/-- `GrowthVariant` (include/Decoder.hpp:16-22). -/
inductive Growth
  | allComponents | invalidComponents | singleSmallest | singleRandom | singleQubitRandom
deriving DecidableEq, Repr

/-- `growthVariantFromString` (include/Decoder.hpp:24-41). -/
def growthFromString (s : String) : Except NameErr Growth :=
  if s = "ALL_COMPONENTS" ∨ s = "0" then .ok .allComponents
  else if s = "INVALID_COMPONENTS" ∨ s = "1" then .ok .invalidComponents
  else if s = "SINGLE_SMALLEST" ∨ s = "2" then .ok .singleSmallest
  else if s = "SINGLE_RANDOM" ∨ s = "3" then .ok .singleRandom
  else if s = "SINGLE_QUBIT_RANDOM" ∨ s = "4" then .ok .singleQubitRandom
  else .error .invalidArgument

/-- The names of the values in Python (src/python/bindings.cpp:116-121). -/
def Growth.pyName : Growth → String
  | .allComponents => "ALL_COMPONENTS"
  | .invalidComponents => "INVALID_COMPONENTS"
  | .singleSmallest => "SINGLE_SMALLEST"
  | .singleRandom => "SINGLE_RANDOM"
  | .singleQubitRandom => "SINGLE_QUBIT_RANDOM"

/-- `NLOHMANN_JSON_SERIALIZE_ENUM` (include/Decoder.hpp:43-47): the pairs in order. -/
def growthJson : List (Growth × String) :=
  [(.allComponents, "all components"), (.invalidComponents, "invalid components"), (.singleSmallest, "smallest component only"),
   (.singleQubitRandom, "single random qubit only"), (.singleRandom, "single random component")]

/-- The generated `to_json`: the first pair with the value, or the first pair (nlohmann/json, `NLOHMANN_JSON_SERIALIZE_ENUM`) (include/Decoder.hpp:43-47, include/DecodingRunInformation.hpp:32-33, include/DecodingSimulator.hpp:27-28). -/
def enumToJson {α : Type} [DecidableEq α] (l : List (α × String)) (d : α × String) (v : α) : String :=
  ((l.find? fun p => p.1 = v).getD d).2

/-- The generated `from_json`: the first pair with the name, or the first pair (include/Decoder.hpp:43-47, include/DecodingRunInformation.hpp:32-33, include/DecodingSimulator.hpp:27-28). -/
def enumFromJson {α : Type} (l : List (α × String)) (d : α × String) (s : String) : α :=
  ((l.find? fun p => p.2 = s).getD d).1

/-- `DecodingResultStatus` (include/DecodingRunInformation.hpp:16-20). -/
inductive Status
  | success | failure
deriving DecidableEq, Repr

/-- `decodingResultStatusFromString` (include/DecodingRunInformation.hpp:22-30). -/
def statusFromString (s : String) : Except NameErr Status :=
  if s = "SUCCESS" ∨ s = "0" then .ok .success
  else if s = "FAILURE" ∨ s = "1" then .ok .failure
  else .error .invalidArgument

/-- The JSON names (include/DecodingRunInformation.hpp:32-33). -/
def statusJson : List (Status × String) := [(.success, "success"), (.failure, "failure")]

/-- `DecoderType` (include/DecodingSimulator.hpp:13-16). -/
inductive Decoder
  | ufHeuristic | ufDecoder
deriving DecidableEq, Repr

/-- `decoderTypeFromString` (include/DecodingSimulator.hpp:17-25). -/
def decoderFromString (s : String) : Except NameErr Decoder :=
  if s = "UF_HEURISTIC" ∨ s = "0" then .ok .ufHeuristic
  else if s = "ORIGINAL_UF" ∨ s = "1" then .ok .ufDecoder
  else .error .invalidArgument

/-- The JSON names (include/DecodingSimulator.hpp:27-28). -/
def decoderJson : List (Decoder × String) := [(.ufHeuristic, "UF_HEURISTIC"), (.ufDecoder, "UF_DECODER")]

/-- The schemes of `applyEcc` (src/python/bindings.cpp:47-80). -/
inductive EccName
  | id | q3Shor | q5Laflamme | q7Steane | q9Shor | q9Surface | q18Surface
deriving DecidableEq, Repr

/-- The choice of the scheme in `applyEcc` (src/python/bindings.cpp:47-80). -/
def eccFromString (s : String) : Except NameErr EccName :=
  if s = "Id" then .ok .id
  else if s = "Q3Shor" then .ok .q3Shor
  else if s = "Q5Laflamme" then .ok .q5Laflamme
  else if s = "Q7Steane" then .ok .q7Steane
  else if s = "Q9Shor" then .ok .q9Shor
  else if s = "Q9Surface" then .ok .q9Surface
  else if s = "Q18Surface" then .ok .q18Surface
  else .error .invalidArgument

/-- The lattices of `code_from_string` (src/mqt/qecc/cc_decoder/__init__.py:9-16). -/
inductive Lattice
  | hexagon | squareOctagon
deriving DecidableEq, Repr

/-- `code_from_string` (src/mqt/qecc/cc_decoder/__init__.py:9-16): which class is constructed, with which distance. -/
def codeFromString (s : String) (distance : ℕ) : Except NameErr (Lattice × ℕ) :=
  if s = "hexagon" then .ok (.hexagon, distance)
  else if s = "square_octagon" then .ok (.squareOctagon, distance)
  else .error .valueError

/-! ## The noise model -/

/-- Channels of `qiskit_aer.noise`, as far as `create_noise_model` uses them; `P` is the type of probabilities.  `compose` is
`QuantumError.compose` (first argument first), `tensor` is `QuantumError.tensor` (src/mqt/qecc/ecc_qiskit_wrapper.py:30-88). -/
inductive Channel (P : Type) : Type
  | bitFlip (p : P)
  | depolarizing (p : P)
  | amplitudeDamping (p : P)
  | phaseFlip (p : P)
  | compose (a b : Channel P)
  | tensor (a b : Channel P)

/-- The channel of a letter (src/mqt/qecc/ecc_qiskit_wrapper.py:36-53). -/
def letter {P : Type} (p : P) (c : Char) : Except NameErr (Channel P) :=
  if c = 'B' then .ok (.bitFlip p)
  else if c = 'D' then .ok (.depolarizing p)
  else if c = 'A' then .ok (.amplitudeDamping p)
  else if c = 'P' then .ok (.phaseFlip p)
  else .error .valueError

/-- `compose_error` (src/mqt/qecc/ecc_qiskit_wrapper.py:25-27). -/
def composeError {P : Type} (e : Option (Channel P)) (new : Channel P) : Channel P :=
  match e with
  | none => new
  | some e => .compose e new

/-- The loop over the letters (src/mqt/qecc/ecc_qiskit_wrapper.py:35-55). -/
def noiseLoop {P : Type} (p : P) : List Char → Option (Channel P) → Except NameErr (Option (Channel P))
  | [], e => .ok e
  | c :: cs, e =>
    match letter p c with
    | .error x => .error x
    | .ok new => noiseLoop p cs (some (composeError e new))

/-- A noise model: the channel of every instruction that has one (src/mqt/qecc/ecc_qiskit_wrapper.py:69-88). -/
abbrev NoiseModel (P : Type) := List (String × Channel P)

/-- `create_noise_model` (src/mqt/qecc/ecc_qiskit_wrapper.py:30-66). -/
def createNoiseModel {P : Type} (s : String) (p : P) : Except NameErr (NoiseModel P) :=
  match noiseLoop p s.toList none with
  | .error x => .error x
  | .ok none => .error .assertion
  | .ok (some e) =>
    .ok ((["u1", "u2", "u3", "h", "id", "t", "tdg", "sdg", "rx", "ry", "rz", "s"].map fun g => (g, e)) ++
      (["cx", "swap"].map fun g => (g, .tensor e e)) ++ [("cswap", .tensor (.tensor e e) e)])

/-! ## Printing the results -/

/-- `result_id.split(" ")[-1]` (src/mqt/qecc/ecc_qiskit_wrapper.py:75) on the list of characters: what follows the last
space. -/
def lastWord (s : List Char) : List Char := (s.reverse.takeWhile (· ≠ ' ')).reverse

/-- The dictionary update (src/mqt/qecc/ecc_qiskit_wrapper.py:76-78); a dictionary is a list of pairs in insertion order. -/
def addCount (d : List (List Char × ℕ)) (key : List Char) (n : ℕ) : List (List Char × ℕ) :=
  let d := if d.any (fun e => e.1 = key) then d else d ++ [(key, 0)]
  d.map fun e => if e.1 = key then (e.1, e.2 + n) else e

/-- The summarising loop (src/mqt/qecc/ecc_qiskit_wrapper.py:72-78). -/
def summarize (counts : List (List Char × ℕ)) : List (List Char × ℕ) :=
  counts.foldl (fun d e => addCount d (lastWord e.1) e.2) []

/-- The printing loop (src/mqt/qecc/ecc_qiskit_wrapper.py:80-88): `above` is the comparison with the threshold, `k` lines were
printed before; the result is the printed entries. -/
def printLoop (above : ℕ → Bool) : ℕ → List (List Char × ℕ) → List (List Char × ℕ)
  | _, [] => []
  | k, e :: es =>
    if above e.2 ∨ k = 0 then e :: (if k + 1 = 1000 then [] else printLoop above (k + 1) es)
    else printLoop above k es

/-- The entries in the order of `sorted(summarized_counts.keys())` (src/mqt/qecc/ecc_qiskit_wrapper.py:80): lexicographic order
of strings. -/
def table (counts : List (List Char × ℕ)) : List (List Char × ℕ) :=
  (summarize counts).mergeSort fun a b => decide (a.1 ≤ b.1)

/-- `print_simulation_results` (src/mqt/qecc/ecc_qiskit_wrapper.py:69-88): the
printed number is the count divided by `n_shots`, compared with the threshold exactly (rationals). -/
def printResults (counts : List (List Char × ℕ)) (shots : ℕ) (threshold : ℚ) : List (List Char × ℚ) :=
  (printLoop (fun n => decide (threshold < (n : ℚ) / shots)) 0 (table counts)).map fun e => (e.1, (e.2 : ℚ) / shots)

end Verif.Names
