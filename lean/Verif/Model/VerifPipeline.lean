import Verif.Model.VerifiedPrep
import Verif.Model.Faults
import Verif.Model.Verification

/-!
# The search for verification circuits as a whole

`StatePrepCircuit`, `heuristic_verification_stabilizers`, `gate_optimal_verification_stabilizers`,
`heuristic_verification_circuit`, `gate_optimal_verification_circuit` and `_verification_circuit`, with the fault set caches
as state and the exceptions as results.
-/

namespace Verif.SP
open Verif Verif.Spec
variable {n : ℕ}

/-- `StatePrepCircuit` (state_prep.py:33-61) with the fields of the code it reads.  Distances are natural numbers. -/
structure StatePrep (n : ℕ) where
  circ : PrepCircuit n
  /-- `code.Hx`, `code.Hz`, `code.Lx`, `code.Lz` -/
  hx : List (Vec n)
  hz : List (Vec n)
  lx : List (Vec n)
  lz : List (Vec n)
  /-- `code.distance`, `code.x_distance`, `code.z_distance` -/
  dist : ℕ
  xDist : ℕ
  zDist : ℕ
  zeroState : Bool
  errorDetection : Bool

/-- `self.x_checks` (state_prep.py:52). -/
def StatePrep.xChecks (sp : StatePrep n) : List (Vec n) := if sp.zeroState then sp.hx else sp.lx ++ sp.hx

/-- `self.z_checks` (state_prep.py:53). -/
def StatePrep.zChecks (sp : StatePrep n) : List (Vec n) := if sp.zeroState then sp.lz ++ sp.hz else sp.hz

/-- The checks of the kind of the errors (state_prep.py:132) and of the other kind (state_prep.py:805). -/
def StatePrep.checks (sp : StatePrep n) (x : Bool) : List (Vec n) := if x then sp.xChecks else sp.zChecks

/-- `self.max_errors` (state_prep.py:179-184). -/
def StatePrep.maxErrors (sp : StatePrep n) : ℕ :=
  if sp.errorDetection = true ∨ sp.dist = 2 then sp.dist / 2 else (sp.dist - 1) / 2

/-- `self.max_x_errors` and `self.max_z_errors` (state_prep.py:185-190). -/
def StatePrep.maxErrorsOf (sp : StatePrep n) (x : Bool) : ℕ :=
  let d := if x then sp.xDist else sp.zDist
  if sp.errorDetection = true ∨ sp.dist = 2 then d / 2 else (d - 1) / 2

/-- What `compute_fault_set` reads for one error type; `leader` is `_coset_leader` (state_prep.py:179-194). -/
def StatePrep.side (sp : StatePrep n) (leader : Vec n → List (Vec n) → Vec n) (x : Bool) : Side n where
  xErrors := x
  cnots := sp.circ.cnots
  hadamards := sp.circ.hadamards
  stabs := sp.checks x
  d := sp.dist
  dError := if x then sp.xDist else sp.zDist
  leader := fun e => leader e (sp.checks x)

/-- The four lists of fault sets (state_prep.py:191-194). -/
structure Caches (n : ℕ) where
  x : Cache n
  z : Cache n

/-- Models state_prep.py:68-71. -/
def Caches.get (s : Caches n) (x : Bool) : Cache n := if x then s.x else s.z

/-- Exceptions of the search and non-termination (the bounded runs of `_set_cover` and `_heuristic_layer` out of fuel) (raised in state_prep.py:570-692, 778-920). -/
inductive PErr
  | fault (e : FErr)
  | layer
  | loops
  | crash
  | gadget (e : GadgetError)
deriving DecidableEq

/-- `compute_fault_sets()` (state_prep.py:68-71). -/
def computeFaultSets (sp : StatePrep n) (leader : Vec n → List (Vec n) → Vec n) (s : Caches n) : Except PErr (Caches n) :=
  match computeFaultSet (sp.side leader true) true sp.maxErrors s.x with
  | .error e => .error (.fault e)
  | .ok (_, x) =>
    match computeFaultSet (sp.side leader false) true sp.maxErrors s.z with
    | .error e => .error (.fault e)
    | .ok (_, z) => .ok ⟨x, z⟩

/-- One layer: `none` is the early `return []` of the optimal search (state_prep.py:606-690, 806-815). -/
abbrev LayerFn (n : ℕ) := ℕ → List (Vec n) → List (Vec n) → Except PErr (Option (List (Vec n)))

/-- The loop over the number of errors (state_prep.py:806-815, 606-690); the argument list holds the numbers still to do. -/
def layersLoop (layer : LayerFn n) (sets : List (Option (List (Vec n)))) (checks : List (Vec n)) :
    List ℕ → List (List (Vec n)) → Except PErr (List (List (Vec n)))
  | [], acc => .ok acc
  | k :: ks, acc =>
    match sets[k]?.join with
    | none => .error (.fault .assertion)
    | some faults =>
      if faults.length = 0 then layersLoop layer sets checks ks (acc ++ [[]])
      else match layer k faults checks with
        | .error e => .error e
        | .ok none => .ok []
        | .ok (some ms) => layersLoop layer sets checks ks (acc ++ [ms])

/-- The common part of `heuristic_verification_stabilizers` (state_prep.py:795-817) and
`gate_optimal_verification_stabilizers` (state_prep.py:591-692). -/
def findStabilizers (layer : LayerFn n) (sp : StatePrep n) (leader : Vec n → List (Vec n) → Vec n) (x : Bool)
    (additional : Option (List (Vec n))) (s : Caches n) : Except PErr (List (List (Vec n)) × Caches n) :=
  match computeFaultSets sp leader s with
  | .error e => .error e
  | .ok s =>
    let sets : Except PErr (List (Option (List (Vec n))) × Caches n) :=
      match additional with
      | none => .ok ((s.get x).sets, s)
      | some a =>
        -- `combine_faults` calls `compute_fault_sets` again, which finds everything in the caches
        match combineFaults (sp.side leader x) sp.maxErrors a (s.get x) with
        | .error e => .error (.fault e)
        | .ok (fs, _) => .ok (fs, s)
    match sets with
    | .error e => .error e
    | .ok (fs, s) =>
      match layersLoop layer fs (sp.checks (!x)) (List.range' 1 sp.maxErrors) [] with
      | .error e => .error e
      | .ok layers => .ok (layers, s)

/-- `_heuristic_layer` as a layer (state_prep.py:815). -/
def heuristicLayerFn (ord : List CSet → List CSet) (leader : Vec n → List (Vec n) → Vec n) (findLeaders : Bool) (limit fuel : ℕ) :
    LayerFn n := fun _ faults checks =>
  match heuristicLayer ord leader faults checks findLeaders limit fuel with
  | .ok ms => .ok (some ms)
  | .valueError => .error .layer
  | .outOfFuel => .error .loops

/-- One layer of the optimal search (state_prep.py:613-690); the results of the subprocess calls (numbered, with the number of
CNOTs, ancillas or the timeout) are given for each number of errors and each list of faults. -/
def optimalLayerFn (run1 run2 run3 : ℕ → List (Vec n) → ℕ → ℕ → ℕ → Outcome (List (Vec n))) (minT maxT fuel : ℕ) : LayerFn n :=
  fun k faults checks =>
  match optimalLayer (run1 k faults) (run2 k faults) (run3 k faults) faults checks minT maxT fuel with
  | none => .error .loops
  | some .crash => .error .crash
  | some .notFound => .ok none
  | some (.ok ms) => .ok (some ms)

/-- `_verification_circuit` (state_prep.py:695-715) and `_measure_ft_stabs` (state_prep.py:961-981) with a search function
that uses the caches and can fail. -/
def verifyCircuit (layer : Bool → LayerFn n) (sp : StatePrep n) (leader : Vec n → List (Vec n) → Vec n) (full : Bool)
    (s : Caches n) : Except PErr (List (Instr VQ VC)) :=
  match findStabilizers (layer sp.zeroState) sp leader sp.zeroState none s with
  | .error e => .error e
  | .ok (layers1, s) =>
    let m1 := layers1.flatten
    let r : Except PErr (List (Vec n)) :=
      if full then
        match findStabilizers (layer (!sp.zeroState)) sp leader (!sp.zeroState) (some (hookErrors m1)) s with
        | .error e => .error e
        | .ok (layers2, _) => .ok layers2.flatten
      else .ok []
    match r with
    | .error e => .error e
    | .ok m2 =>
      match (if sp.zeroState then measureFtStabs sp.zeroState (sp.maxErrorsOf sp.zeroState) full m2 m1
          else measureFtStabs sp.zeroState (sp.maxErrorsOf sp.zeroState) full m1 m2) with
      | .error e => .error (.gadget e)
      | .ok l => .ok (prepInstrs sp.circ ++ l)

/-- `heuristic_verification_circuit` (state_prep.py:751-775). -/
def heuristicVerification (ord : List CSet → List CSet) (leader : Vec n → List (Vec n) → Vec n) (findLeaders : Bool)
    (limit fuel : ℕ) (sp : StatePrep n) (full : Bool) (s : Caches n) : Except PErr (List (Instr VQ VC)) :=
  verifyCircuit (fun _ => heuristicLayerFn ord leader findLeaders limit fuel) sp leader full s

/-- `gate_optimal_verification_circuit` (state_prep.py:718-748); the subprocess results are given for each error type. -/
def optimalVerification (run1 run2 run3 : Bool → ℕ → List (Vec n) → ℕ → ℕ → ℕ → Outcome (List (Vec n))) (minT maxT fuel : ℕ)
    (leader : Vec n → List (Vec n) → Vec n) (sp : StatePrep n) (full : Bool) (s : Caches n) :
    Except PErr (List (Instr VQ VC)) :=
  verifyCircuit (fun x => optimalLayerFn (run1 x) (run2 x) (run3 x) minT maxT fuel) sp leader full s

end Verif.SP
