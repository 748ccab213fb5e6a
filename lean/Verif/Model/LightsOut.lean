import Verif.Model.CSS

/-!
# Model of `src/mqt/qecc/cc_decoder/decoder.py` (the MaxSAT colour-code decoder) and of
`ColorCode.check_if_logical_error`

The dictionaries `lights_to_switches`, `switches_to_lights` have keys `0, 1, ...` (as built by
`construct_layout`), so they are lists of lists.  The z3 optimizer is the stack of its contexts, a
context being the list of the constraints added to it; `simplify` is the identity.  The MaxSAT search
itself (`optimizer.check`, `optimizer.model`) is a parameter.
-/

namespace Verif.LO
open Verif

/-- The Boolean variables of the instance (decoder.py:67, 71). -/
inductive Var
  | switch (i : ℕ)
  | helper (light i : ℕ)
deriving DecidableEq, Repr

/-- The hard constraints: `Xor(a, b) == c`, `a == b`, `Xor(a, b) == val` (decoder.py:44, 47, 57). -/
inductive Constr
  | xorEq (a b c : Var)
  | eq (a b : Var)
  | xorVal (a b : Var) (val : Bool)
deriving DecidableEq, Repr

/-- Meaning of a constraint under an assignment (the z3 constraints of decoder.py:35-58). -/
def Constr.holds (σ : Var → Bool) : Constr → Prop
  | .xorEq a b c => (σ a ^^ σ b) = σ c
  | .eq a b => σ a = σ b
  | .xorVal a b v => (σ a ^^ σ b) = v

/-- Whether a constraint of decoder.py:44-57 holds can be decided. -/
instance (σ : Var → Bool) (c : Constr) : Decidable (c.holds σ) := by
  cases c <;> unfold Constr.holds <;> infer_instance

/-- Exceptions (raised in decoder.py:35-134). -/
inductive Err
  | indexError
  | keyError
  | noSolution
  | invalidModel
deriving DecidableEq, Repr

/-- `preconstruct_parity_constraint` (decoder.py:35-48): `len(indices) - 1` helper variables. -/
def preconstructParity (light : ℕ) (indices : List ℕ) : Except Err (List Constr) :=
  match indices.getLast? with
  | none => .error .indexError
  | some last =>
    if indices.length ≤ 1 then .error .indexError
    else .ok (((List.range' 1 (indices.length - 2)).map fun i =>
        Constr.xorEq (.switch (indices.getD i 0)) (.helper light i) (.helper light (i - 1))) ++
      [.eq (.switch last) (.helper light (indices.length - 2))])

/-- `complete_parity_constraint` (decoder.py:50-58). -/
def completeParity (light : ℕ) (indices : List ℕ) (val : Bool) : Except Err (List Constr) :=
  match indices with
  | [] => .error .indexError
  | [_] => .error .indexError
  | i :: _ => .ok [.xorVal (.switch i) (.helper light 0) val]

/-- The decoder object: the two dictionaries and the contexts of the optimizer (innermost first) (decoder.py:25-33). -/
structure Problem where
  lightsToSwitches : List (List ℕ)
  switchesToLights : List (List ℕ)
  ctx : List (List Constr) := [[]]

/-- `optimizer.add`: to the innermost context (decoder.py:45, 48, 58). -/
def Problem.add (p : Problem) (cs : List Constr) : Problem :=
  match p.ctx with
  | [] => { p with ctx := [cs] }
  | c :: cx => { p with ctx := (c ++ cs) :: cx }

/-- `optimizer.push` (decoder.py:99). -/
def Problem.push (p : Problem) : Problem := { p with ctx := [] :: p.ctx }

/-- `optimizer.pop` (decoder.py:132). -/
def Problem.pop (p : Problem) : Problem := { p with ctx := p.ctx.tail }

/-- All constraints in force (what decoder.py:110 solves). -/
def Problem.hard (p : Problem) : List Constr := p.ctx.flatten

/-- `preconstruct_z3_instance` (decoder.py:60-75); the soft constraints are `Not(switch_i)` with unit
weights for all switches, see `weight`. -/
def Problem.preconstruct (p : Problem) : Except Err Problem := do
  let cs ← p.lightsToSwitches.zipIdx.mapM fun q => preconstructParity q.2 q.1
  return p.add cs.flatten

/-- Number of violated soft constraints (decoder.py:75). -/
def weight (nSwitches : ℕ) (σ : Var → Bool) : ℕ := (List.range nSwitches).countP fun i => σ (.switch i)

/-- One step of the loop of `validate_model` (decoder.py:80-84): flip the lights of a switch. -/
def flipLights (lights : List Bool) (ls : List ℕ) : List Bool :=
  ls.foldl (fun acc l => acc.modify l (! ·)) lights

/-- The lights after `validate_model` pressed the switches of the model (decoder.py:77-84; light
indices are in range). -/
def pressAll (p : Problem) (σ : Var → Bool) (lights : List Bool) : List Bool :=
  p.switchesToLights.zipIdx.foldl (fun acc q => if σ (.switch q.2) then flipLights acc q.1 else acc) lights

/-- `validate_model` (decoder.py:77-86). -/
def validateModel (p : Problem) (σ : Var → Bool) (lights : List Bool) : Bool :=
  (pressAll p σ lights).all (! ·)

/-- `count_switches` (decoder.py:88-91). -/
def countSwitches (p : Problem) (σ : Var → Bool) : ℕ := weight p.switchesToLights.length σ

/-- The MaxSAT solver: a model of the hard constraints minimising the number of violated soft
constraints, or `none` for "unsat".  Variables the z3 model leaves open count as false, as in
`if model[var]` (decoder.py:110-118). -/
abbrev Solver := List Constr → ℕ → Option (Var → Bool)

/-- Contract of the MaxSAT solver (z3 as called in decoder.py:110-115). -/
structure Solver.Optimal (s : Solver) : Prop where
  sound : ∀ cs n σ, s cs n = some σ → ∀ c ∈ cs, c.holds σ
  minimal : ∀ cs n σ τ, s cs n = some σ → (∀ c ∈ cs, c.holds τ) → weight n σ ≤ weight n τ
  complete : ∀ cs n, s cs n = none → ¬ ∃ τ, ∀ c ∈ cs, c.holds τ

/-- The constraints for one pattern (decoder.py:103-104), from light `i` on: `enumerate(lights)`; a
missing key raises.  The constraints added, and the exception raised after adding them, if any. -/
def patternConstraints (lightsToSwitches : List (List ℕ)) : ℕ → List Bool → List Constr × Option Err
  | _, [] => ([], none)
  | i, b :: bs =>
    match lightsToSwitches[i]? with
    | none => ([], some .keyError)
    | some ix =>
      match completeParity i ix b with
      | .error e => ([], some e)
      | .ok cs => (cs ++ (patternConstraints lightsToSwitches (i + 1) bs).1,
          (patternConstraints lightsToSwitches (i + 1) bs).2)

/-- `solve` with the built-in solver (decoder.py:93-134): the answer, the object afterwards and the
caller's list of lights afterwards.  When an exception is raised the context is not popped. -/
def solve (solver : Solver) (p : Problem) (lights : List Bool) : Except Err (List ℕ) × Problem × List Bool :=
  let pc := patternConstraints p.lightsToSwitches 0 lights
  let q := p.push.add pc.1
  match pc.2 with
  | some e => (.error e, q, lights)
  | none =>
    match solver q.hard q.switchesToLights.length with
    | none => (.error .noSolution, q, lights)
    | some σ =>
      if validateModel q σ lights then
        (.ok ((List.range q.switchesToLights.length).map fun i => if σ (.switch i) then 1 else 0), q.pop,
          pressAll q σ lights)
      else (.error .invalidModel, q, pressAll q σ lights)

/-- A sequence of `solve` calls on one object: the answers (repeated `solve`, decoder.py:93-134). -/
def solveAll (solver : Solver) : Problem → List (List Bool) → List (Except Err (List ℕ))
  | _, [] => []
  | p, l :: ls => (solve solver p l).1 :: solveAll solver (solve solver p l).2.1 ls

end Verif.LO

namespace Verif.ColorCode
open Verif

/-- A numpy boolean scalar, as returned by `.any()`; it is never the Python object `True` (color_code.py:66). -/
inductive PyBool
  | pyTrue
  | pyFalse
  | npTrue
  | npFalse
deriving DecidableEq

/-- `ndarray.any()` returns a numpy boolean (color_code.py:66). -/
def npAny (l : List (ZMod 2)) : PyBool := if l.any (fun b => decide (b ≠ 0)) then .npTrue else .npFalse

/-- `x is True` (color_code.py:66). -/
def isTrue (b : PyBool) : Bool := decide (b = .pyTrue)

/-- `ColorCode.check_if_logical_error` (color_code.py:64-66). -/
def checkIfLogicalError {n : ℕ} (L : List (Vec n)) (residual : Vec n) : Bool := isTrue (npAny (mulVec L residual))

/-- `ColorCode.get_syndrome` (color_code.py:60-62). -/
def getSyndrome {n : ℕ} (H : List (Vec n)) (e : Vec n) : List (ZMod 2) := mulVec H e

end Verif.ColorCode
