import Verif.Model.Synthesis
import Mathlib.Data.Rat.Floor

/-!
# Iterative search and circuit optimisation (`state_prep.py:380-443, 510-567`)

The subprocess started by `_run_with_timeout` is an oracle: `run i p t` is what happens in the
`i`-th call of the whole execution, made with parameter `p` and timeout `t`.
-/

namespace Verif.SP
open Verif

/-- Outcomes of `_run_with_timeout` (state_prep.py:510-528). -/
inductive Outcome (α : Type)
  /-- The function finished; its value (`None` when unsatisfiable) is returned. -/
  | value (r : Option α)
  /-- The process was still alive after the timeout: the string "timeout". -/
  | timeout
  /-- The function raised in the child process: `return_list[0]` raises `IndexError`. -/
  | crash
deriving DecidableEq, Repr

/-- Final result of a search (state_prep.py:531-567). -/
inductive SRes (α : Type)
  | found (r : α) (param : ℕ)
  | notFound (param : ℕ)
  | crash
deriving DecidableEq, Repr

/-- `int(x * factor)` for non-negative `x * factor` (state_prep.py:549-567). -/
def scale (x : ℕ) (f : ℚ) : ℕ := ⌊(x : ℚ) * f⌋₊

/-- The two nested `while` loops of `iterative_search_with_timeout` (state_prep.py:549-567), one
oracle call or one timeout increase per unit of fuel; `none` when the fuel is used up.  `i` counts
the oracle calls, `t` is `curr_timeout`, `p` is `curr_param`. -/
def searchLoop {α : Type} (run : ℕ → ℕ → ℕ → Outcome α) (minP maxP maxT : ℕ) (pf tf : ℚ) :
    ℕ → ℕ → ℕ → ℕ → Option (SRes α)
  | 0, _, _, _ => none
  | k + 1, i, t, p =>
    if t ≤ maxT then
      if p ≤ maxP then
        match run i p t with
        | .value (some r) => some (.found r p)
        | .crash => some .crash
        | .value none | .timeout =>
          if p = maxP then searchLoop run minP maxP maxT pf tf k (i + 1) (scale t tf) minP
          else searchLoop run minP maxP maxT pf tf k (i + 1) t (min (scale p pf) maxP)
      else searchLoop run minP maxP maxT pf tf k i (scale t tf) minP
    else some (.notFound maxP)

/-- `iterative_search_with_timeout` (state_prep.py:531-567), parameters restricted to non-negative
integers and factors to rationals. -/
def iterativeSearch {α : Type} (run : ℕ → ℕ → ℕ → Outcome α) (minP maxP minT maxT : ℕ) (pf tf : ℚ)
    (fuel : ℕ) : Option (SRes α) :=
  searchLoop run minP maxP maxT pf tf fuel 0 minT minP

/-- Result of `_optimal_circuit`; `proved` is a ghost field recording that the final downward call
answered "unsatisfiable" rather than timing out (state_prep.py:380-443). -/
inductive ORes (α : Type)
  | circuit (r : α) (param : ℕ) (proved : Bool)
  | none
  | crash
deriving DecidableEq, Repr

/-- The downward loop of `_optimal_circuit` (state_prep.py:431-439).  `j` numbers the calls of this
phase.  At `param = 0` the next parameter is `-1`, for which the prepared arrays are empty and the
called functions raise. -/
def minimizeLoop {α : Type} (run : ℕ → ℕ → ℕ → Outcome α) (maxT : ℕ) : ℕ → α → ℕ → ORes α
  | _, _, 0 => .crash
  | j, c, p + 1 =>
    match run j p maxT with
    | .value none => .circuit c (p + 1) true
    | .timeout => .circuit c (p + 1) false
    | .crash => .crash
    | .value (some c') => minimizeLoop run maxT (j + 1) c' p

/-- `_optimal_circuit` (state_prep.py:380-443) with separate oracles for the calls of the two phases. -/
def optimalCircuit {α : Type} (run run' : ℕ → ℕ → ℕ → Outcome α) (minP maxP minT maxT fuel : ℕ) :
    Option (ORes α) :=
  match iterativeSearch run minP maxP minT maxT 2 2 fuel with
  | none => none
  | some .crash => some .crash
  | some (.notFound _) => some .none
  | some (.found c p) => some (minimizeLoop run' maxT 0 c p)

/-- Possible outcomes of running `_generate_circ_with_bounded_gates` (state_prep.py:331-379) in a
subprocess: a timeout, a circuit read off any satisfying assignment, `None` if there is none; with
`max_cnots = 0` the array of additions has one dimension and `col_add_vars.shape[2]`
(state_prep.py:1136) raises. -/
def GateOutcome {n : ℕ} (checks : List (Vec n)) (zeroState : Bool) (p : ℕ) (o : Outcome (PrepCircuit n)) : Prop :=
  o = .timeout ∨
  (if p = 0 then o = .crash
   else (∃ a c, gateConstraint checks p a = true ∧ gateExtract checks p zeroState a = some c ∧ o = .value (some c)) ∨
     ((∀ a, gateConstraint checks p a = false) ∧ o = .value none))

/-- Possible outcomes of running `_generate_circ_with_bounded_depth` (state_prep.py:262-328) in a
subprocess; `assert max_depth > 0` fails for 0 (state_prep.py:265). -/
def DepthOutcome {n : ℕ} (checks : List (Vec n)) (zeroState : Bool) (p : ℕ) (o : Outcome (PrepCircuit n)) : Prop :=
  o = .timeout ∨
  (if p = 0 then o = .crash
   else (∃ a, depthConstraint checks p a = true ∧ o = .value (some (depthExtract checks p zeroState a))) ∨
     ((∀ a, depthConstraint checks p a = false) ∧ o = .value none))

end Verif.SP
