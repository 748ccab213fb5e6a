import Verif.Model.LightsOut
import Mathlib.Data.Rat.Defs

/-!
# Model of `simulate_error_rate` (src/mqt/qecc/cc_decoder/decoder.py:137-189)

Random errors and measured times are inputs: a run is given by the list of its samples.  Times and
rates are exact rationals instead of floats; the standard error (a square root) is not modelled.
-/

namespace Verif.LO
open Verif

/-- One iteration: the sampled error and the two measured times (decoder.py:149-160). -/
structure Sample (n : ℕ) where
  error : Vec n
  constrTime : ℚ
  solveTime : ℚ

/-- The local variables of the loop (decoder.py:144-147). -/
structure SimState where
  minWt : List ℤ
  logicalErrors : List ℕ
  avgConstr : ℚ
  avgSolve : ℚ

/-- `lights = [bool(b) for b in syndrome]` (decoder.py:154-155). -/
def lightsOf {n : ℕ} (H : List (Vec n)) (e : Vec n) : List Bool := (ColorCode.getSyndrome H e).map fun b => decide (b ≠ 0)

/-- `np.array(estimate)` as a vector mod 2 (decoder.py:161). -/
def vecOf (n : ℕ) (sw : List ℕ) : Vec n := fun i => (sw.getD i.val 0 : ZMod 2)

/-- The inner loop over the logicals (decoder.py:162-168): the first logical that anticommutes. -/
def firstLogical {n : ℕ} (L : List (Vec n)) (residual : Vec n) : Option ℕ := L.findIdx? fun l => decide (dot l residual ≠ 0)

/-- Update after the inner loop (decoder.py:163-168). -/
def record {n : ℕ} (st : SimState) (L : List (Vec n)) (residual : Vec n) : SimState :=
  match firstLogical L residual with
  | none => st
  | some l => { st with
      logicalErrors := st.logicalErrors.modify l (· + 1)
      minWt := st.minWt.modify l fun m => if m = -1 ∨ (wt residual : ℤ) < m then (wt residual : ℤ) else m }

/-- Rolling averages (decoder.py:171-172). -/
def rollTimes (st : SimState) (i : ℕ) (c s : ℚ) : SimState :=
  { st with avgConstr := (st.avgConstr * i + c) / (i + 1), avgSolve := (st.avgSolve * i + s) / (i + 1) }

/-- The loop (decoder.py:149-172), from iteration `i` on. -/
def simLoop {n : ℕ} (solver : Solver) (H L : List (Vec n)) :
    Problem → ℕ → SimState → List (Sample n) → Except Err SimState
  | _, _, st, [] => .ok st
  | p, i, st, s :: ss =>
    match solve solver p (lightsOf H s.error) with
    | (.error e, _, _) => .error e
    | (.ok estimate, p', _) =>
      let st := if 0 < estimate.length then record st L (s.error + vecOf n estimate) else st
      simLoop solver H L p' (i + 1) (rollTimes st i s.constrTime s.solveTime) ss

/-- The returned dictionary: rates, average times, minimum weights (decoder.py:174-189). -/
structure SimResult where
  logicalErrorRates : List ℚ
  avgConstr : ℚ
  avgSolve : ℚ
  avgTotal : ℚ
  minWts : List ℤ

/-- `simulate_error_rate` (decoder.py:137-189). -/
def simulateErrorRate {n : ℕ} (solver : Solver) (lts stl : List (List ℕ)) (H L : List (Vec n)) (samples : List (Sample n)) :
    Except Err SimResult :=
  match Problem.preconstruct { lightsToSwitches := lts, switchesToLights := stl } with
  | .error e => .error e
  | .ok p =>
    match simLoop solver H L p 0 ⟨L.map fun _ => -1, L.map fun _ => 0, 0, 0⟩ samples with
    | .error e => .error e
    | .ok st => .ok ⟨st.logicalErrors.map fun k : ℕ => (k : ℚ) / (samples.length : ℚ), st.avgConstr, st.avgSolve,
        st.avgConstr + st.avgSolve, st.minWt⟩

end Verif.LO
