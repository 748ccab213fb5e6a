import Verif.Model.DecSim

/-!
# Model of the example script scripts/examples/decoding-performance-simulations.py

The sampled errors and the decoder are inputs.  The spelling of the attributes of the bound class, which offers `n` and `k`
(src/python/bindings.cpp:102-103), is not modelled: `code.N` and `code.K` of the script stand for them.
-/

namespace Verif.Scripts
open Verif Verif.Cpp Verif.UFD Verif.DecSim

/-- One run of the script (decoding-performance-simulations.py:27-32): whether the run is no failure.  `decode` is
`decoder.decode` of a new decoder followed by `decoder.result.estimate`. -/
def scriptRun (decode : List Bool → Except Fail (List Bool)) (c : Code) (error : List Bool) : Except Fail Bool :=
  match c.getXSyndrome error with
  | none => .error .undefinedBehaviour
  | some s => do
    let syndrome ← lift s
    let result ← decode syndrome
    match c.isStabilizer result with
    | none => .error .undefinedBehaviour
    | some b => lift b

/-- The number of failed runs (decoding-performance-simulations.py:25-33). -/
def scriptFailures (decode : List Bool → Except Fail (List Bool)) (c : Code) : List (List Bool) → Except Fail ℕ
  | [] => .ok 0
  | e :: es => do
    let b ← scriptRun decode c e
    let k ← scriptFailures decode c es
    return if b then k else k + 1

/-- The rate written for one physical rate (decoding-performance-simulations.py:34-35); `errors` are the errors of the runs. -/
def scriptRate (decode : List Bool → Except Fail (List Bool)) (c : Code) (k : ℕ) (errors : List (List Bool)) : Except Fail (Option ℚ) := do
  let f ← scriptFailures decode c errors
  return wordErrorRate k errors.length f

end Verif.Scripts
