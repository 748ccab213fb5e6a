import Verif.Model.UFDecoder
import Mathlib.Data.Rat.Defs
import Mathlib.Algebra.Order.Field.Rat

/-!
# Model of `DecodingSimulator` (src/DecodingSimulator.cpp) and of the JSON forms of results

Sampled errors, decoders and the text of a rate are inputs.  Floating-point numbers are rationals (a quotient by zero is no
number); files and the console are not modelled except for the text written to the statistics file.
-/

namespace Verif.DecSim
open Verif Verif.Cpp Verif.UFD

/-- One run of `simulateWER` (src/DecodingSimulator.cpp:72-79) on a sampled error; `decode` gives `estimBoolVector`. -/
def run (decode : Code → List Bool → Except Fail (List Bool)) (c : Code) (error : List Bool) : Except Fail Bool :=
  match (setCode c).getXSyndrome error with
  | none => .error .undefinedBehaviour
  | some s => do
    let syndrome ← lift s
    let est ← decode (setCode c) syndrome
    let residual ← lift (computeResidualErr error est)
    lift ((setCode c).isXStabilizer residual)

/-- The failed runs (src/DecodingSimulator.cpp:62-88). -/
def failures (decode : Code → List Bool → Except Fail (List Bool)) (c : Code) : List (List Bool) → Except Fail ℕ
  | [] => .ok 0
  | e :: es =>
    match run decode c e with
    | .error x => .error x
    | .ok b =>
      match failures decode c es with
      | .error x => .error x
      | .ok k => .ok (if b then k else k + 1)

/-- A quotient of floating-point numbers by an integer: not a (finite) number for zero (src/DecodingSimulator.cpp:97-98). -/
def quotient (a : ℚ) (b : ℕ) : Option ℚ := if b = 0 then none else some (a / b)

/-- `std::map::try_emplace`: an existing key keeps its value (src/DecodingSimulator.cpp:99, 175-177). -/
def emplace {α : Type} (m : List (String × α)) (k : String) (v : α) : List (String × α) :=
  if m.any (fun e => e.1 = k) then m else m ++ [(k, v)]

/-- The parameters of `simulateWER`: `samples i` are the errors of the `i`-th rate, `key` is `std::to_string`, `k` is the
number of logical qubits stored in the code object (include/Code.hpp:116: 0 unless set). -/
structure Params where
  code : Code
  k : ℕ
  minRate : ℚ
  maxRate : ℚ
  step : ℚ
  runs : ℕ
  samples : ℕ → List (List Bool)
  key : ℚ → String

/-- The word error rate (src/DecodingSimulator.cpp:97-98). -/
def wordErrorRate (k runs failed : ℕ) : Option ℚ := (quotient failed runs).bind fun b => quotient b k

/-- The loop over the rates (src/DecodingSimulator.cpp:60-102); `none` if the fuel is used up. -/
def werLoop (decode : Code → List Bool → Except Fail (List Bool)) (p : Params) :
    ℕ → ℕ → ℚ → List (String × Option ℚ) → Option (Except Fail (List (String × Option ℚ)))
  | 0, _, _, _ => none
  | fuel + 1, i, cur, acc =>
    if cur < p.maxRate then
      match failures decode p.code (p.samples i) with
      | .error e => some (.error e)
      | .ok f => werLoop decode p fuel (i + 1) (cur + p.step) (emplace acc (p.key cur) (wordErrorRate p.k p.runs f))
    else some (.ok acc)

/-- `simulateWER` (src/DecodingSimulator.cpp:33-109): the map written to the raw data file. -/
def simulateWER (decode : Code → List Bool → Except Fail (List Bool)) (p : Params) (fuel : ℕ) :
    Option (Except Fail (List (String × Option ℚ))) := werLoop decode p fuel 0 p.minRate []

/-- The characters of the statistics file (src/DecodingSimulator.cpp:56-57, 89-94, 104): `rate` is the text of the first rate,
`dumps` are the texts of the runs, for every rate. -/
def statsText (rate : List Char) (dumps : List (List (List Char))) : List Char :=
  "{ \"runs\" : [ ".toList ++ "{ \"run\": { \"physicalErrRate\":".toList ++ rate ++ ", \"data\": [ ".toList ++
    (dumps.map fun l => [',', ' '].intercalate l).flatten ++ ['}']

/-! ## `simulateAverageRuntime` -/

/-- The averages of the runs over one code (src/DecodingSimulator.cpp:145-176): the sum is not reset between runs.  Each run
is the list of the decoding times of its samples; `none` is an integer division by zero. -/
def averages (nrSamples : ℕ) : ℕ → List (List ℕ) → Option (List ℕ)
  | _, [] => some []
  | acc, t :: ts =>
    if nrSamples = 0 then none
    else (averages nrSamples (acc + t.sum) ts).map fun l => ((acc + t.sum) / nrSamples) :: l

/-! ## JSON -/

/-- JSON values (`nlohmann::json`, include/Code.hpp:324-331, include/DecodingRunInformation.hpp:62-80, include/Decoder.hpp:53-61). -/
inductive Json
  | num (q : ℚ)
  | bool (b : Bool)
  | str (s : String)
  | arr (l : List Json)
  | obj (l : List (String × Json))

/-- The exceptions of the library (`nlohmann::json`, include/Code.hpp:324-340). -/
inductive JsonErr
  | typeError
  | outOfRange
deriving DecidableEq

/-- `j.at(key)` (include/Code.hpp:333-337, include/DecodingRunInformation.hpp:62-80, include/Decoder.hpp:53-61). -/
def Json.at (j : Json) (key : String) : Except JsonErr Json :=
  match j with
  | .obj l =>
    match l.find? fun e => e.1 = key with
    | some e => .ok e.2
    | none => .error .outOfRange
  | _ => .error .typeError

/-- `get_to` for a number (include/Code.hpp:333-337, include/DecodingRunInformation.hpp:62-80, include/Decoder.hpp:53-61). -/
def Json.getNum : Json → Except JsonErr ℚ
  | .num q => .ok q
  | _ => .error .typeError

/-- `get_to` for an element of a `std::vector<bool>` (include/DecodingRunInformation.hpp:62-80, include/Decoder.hpp:53-61). -/
def Json.getBool : Json → Except JsonErr Bool
  | .bool b => .ok b
  | _ => .error .typeError

/-- `get_to` for a list (include/DecodingRunInformation.hpp:62-80, include/Decoder.hpp:53-61). -/
def Json.getList {α : Type} (f : Json → Except JsonErr α) : Json → Except JsonErr (List α)
  | .arr l => l.mapM f
  | _ => .error .typeError

/-- `Utils::getStringFrom(vector)` (src/Utils.cpp:123-138). -/
def vecString (v : List Bool) : String := "[" ++ ",".intercalate (v.map fun b => if b then "1" else "0") ++ "]"

/-- `DecodingResult` (include/Decoder.hpp:48-51). -/
structure DecodingResult where
  decodingTime : ℕ
  estimNodeIdx : List ℕ
  estimBool : List Bool

/-- `DecodingResult::to_json` (include/Decoder.hpp:53-56). -/
def DecodingResult.toJson (r : DecodingResult) : Json :=
  .obj [("decodingTime(ms)", .num r.decodingTime), ("estimate", .str (vecString r.estimBool))]

/-- `DecodingResult::from_json` (include/Decoder.hpp:57-61): the values read. -/
def DecodingResult.fromJson (j : Json) : Except JsonErr (ℚ × List Bool × List ℚ) := do
  let t ← (← j.at "decodingTime(ms)").getNum
  let e ← (← j.at "estimate").getList Json.getBool
  let n ← (← j.at "estimatedNodes").getList Json.getNum
  return (t, e, n)

/-- `DecodingRunInformation` (include/DecodingRunInformation.hpp:55-60). -/
structure RunInfo where
  physicalErrR : ℚ
  codeSize : ℕ
  error : List Bool
  syndrome : List Bool
  success : Bool
  result : DecodingResult

/-- `DecodingRunInformation::to_json` (include/DecodingRunInformation.hpp:62-70). -/
def RunInfo.toJson (r : RunInfo) : Json :=
  .obj [("physicalErrRate", .num r.physicalErrR), ("codeSize", .num r.codeSize), ("error", .str (vecString r.error)),
    ("syndrome", .str (vecString r.syndrome)), ("decodingResult", r.result.toJson),
    ("decodingStatus", .str (if r.success then "success" else "failure"))]

/-- `DecodingRunInformation::from_json` (include/DecodingRunInformation.hpp:71-77); the status is read by name, an unknown one
as the first. -/
def RunInfo.fromJson (j : Json) : Except JsonErr (ℚ × ℚ × List Bool × List Bool) := do
  let p ← (← j.at "physicalErrRate").getNum
  let c ← (← j.at "codeSize").getNum
  let e ← (← j.at "error").getList Json.getBool
  let s ← (← j.at "syndrome").getList Json.getBool
  let _ ← j.at "decodingStatus"
  return (p, c, e, s)

/-- The sizes of a code object (include/Code.hpp:110-118). -/
structure Sizes where
  n : ℕ
  k : ℕ
  d : ℕ
deriving DecidableEq

/-- `Code::to_json` (include/Code.hpp:324-331) with the JSON forms of the matrices. -/
def Sizes.toJson (c : Sizes) (hZ hX : Json) : Json :=
  .obj [("hZ", hZ), ("hX", hX), ("n", .num c.n), ("k", .num c.k), ("d", .num c.d)]

/-- `Code::from_json` (include/Code.hpp:333-337). -/
def Sizes.fromJson (j : Json) : Except JsonErr (ℚ × ℚ × ℚ) := do
  let n ← (← j.at "n").getNum
  let k ← (← j.at "k").getNum
  let d ← (← j.at "d").getNum
  return (n, k, d)

end Verif.DecSim
