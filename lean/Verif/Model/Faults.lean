import Verif.Model.Symbolic
import Verif.Model.Lut

/-!
# Fault sets: `StatePrepCircuit` (state_prep.py:30-194) and its helpers (state_prep.py:1175-1245)

A state preparation circuit is a list of Hadamards followed by a list of CNOTs (this is the form of
every circuit the library generates).  One `Side` describes what is needed to compute fault sets of
one error type (X or Z).  The optimiser behind `_coset_leader` is a parameter `leader`; its contract
is `∀ f, CosetLeader f stabs (leader f)`.

Simplifications: `dag.topological_op_nodes()` is taken to be the circuit order (another topological
order only exchanges commuting gates); exceptions are values.
-/

namespace Verif.SP
open Verif
variable {n : ℕ}

/-- A CNOT: control and target (`qargs[0]`, `qargs[1]`) (state_prep.py:1188-1194). -/
abbrev CX (n : ℕ) := Fin n × Fin n

/-- Propagation of an error through one gate inside `_propagate_error`
(state_prep.py:1188-1194). -/
def propStep (xErrors : Bool) (e : Vec n) (g : CX n) : Vec n :=
  if xErrors then Function.update e g.2 (e g.2 + e g.1)
  else Function.update e g.1 (e g.2 + e g.1)

/-- `_propagate_error` (state_prep.py:1175-1195); `none` is the `IndexError` for an empty list. -/
def propagateError (xErrors : Bool) : List (CX n) → Option (Vec n)
  | [] => none
  | g :: gs => some (gs.foldl (propStep xErrors) (Pi.single (if xErrors then g.1 else g.2) 1))

/-- Removal of the front layer of the DAG (state_prep.py:96-98): all Hadamards, and every CNOT both
of whose qubits are untouched before it. -/
def removeFrontLayer (touched : List (Fin n)) : List (CX n) → List (CX n)
  | [] => []
  | g :: gs =>
    if g.1 ∈ touched ∨ g.2 ∈ touched then g :: removeFrontLayer (g.1 :: g.2 :: touched) gs
    else removeFrontLayer (g.1 :: g.2 :: touched) gs

/-- The loop over `nodes[i:]` (state_prep.py:101-104). -/
def faultList (xErrors : Bool) (nodes : List (CX n)) : List (Vec n) :=
  (List.range nodes.length).filterMap fun i => propagateError xErrors (nodes.drop i)

/-- `np.unique(rows, axis=0)`: the distinct rows in ascending lexicographic order (state_prep.py:104, 127). -/
def npUnique (rows : List (Vec n)) : List (Vec n) :=
  ((List.range (2 ^ n)).map (Lut.stateOf n)).filter fun v => decide (v ∈ rows)

/-- `np.eye(n)` (state_prep.py:107, 110). -/
def eyeRows (n : ℕ) : List (Vec n) := (List.finRange n).map fun i => Pi.single i 1

/-- `_remove_trivial_faults` (state_prep.py:1198-1212).  `dError` is `code.x_distance` or
`code.z_distance`, `d` is `code.distance`. -/
def removeTrivialFaults (leader : Vec n → Vec n) (faults : List (Vec n)) (d dError : ℤ)
    (numErrors : ℕ) : List (Vec n) :=
  let tError := max ((dError - 1) / 2) 1
  let t := max ((d - 1) / 2) 1
  let maxW := tError / t
  npUnique ((faults.map leader).filter fun f => decide (maxW * numErrors < (wt f : ℤ)))

/-- Inner loop of `_remove_stabilizer_equivalent_faults` (state_prep.py:1232-1238): `js` are the
indices after `i`. -/
def dedupInner (stabs : List (Vec n)) (f1 : Vec n) (faults : ℕ → Vec n) :
    List ℕ → List ℕ → List ℕ
  | [], removed => removed
  | j :: js, removed =>
    if j ∈ removed then dedupInner stabs f1 faults js removed
    else if rank (stabs ++ [f1] ++ [faults j]) = rank (stabs ++ [f1]) then
      dedupInner stabs f1 faults js (j :: removed)
    else dedupInner stabs f1 faults js removed

/-- Outer loop of `_remove_stabilizer_equivalent_faults` (state_prep.py:1224-1238). -/
def dedupOuter (stabs : List (Vec n)) (faults : ℕ → Vec n) (len : ℕ) : List ℕ → List ℕ → List ℕ
  | [], removed => removed
  | i :: is, removed =>
    if i ∈ removed then dedupOuter stabs faults len is removed
    else if rank (stabs ++ [faults i]) = rank stabs then
      dedupOuter stabs faults len is (i :: removed)
    else dedupOuter stabs faults len is
      (dedupInner stabs (faults i) faults (List.range' (i + 1) (len - (i + 1))) removed)

/-- `_remove_stabilizer_equivalent_faults` (state_prep.py:1215-1245).  The order of
`list(set(range(len)) - removed)` is unspecified in Python; the model uses ascending order and the
theorems are insensitive to it. -/
def removeEquivalent (faults stabs : List (Vec n)) : List (Vec n) :=
  let removed := dedupOuter stabs (fun i => faults.getD i 0) faults.length
    (List.range faults.length) []
  ((List.range faults.length).filter fun i => decide (i ∉ removed)).map fun i => faults.getD i 0

/-- Everything `compute_fault_set` reads for one error type (state_prep.py:73-145). -/
structure Side (n : ℕ) where
  /-- `x_errors` -/
  xErrors : Bool
  /-- gates of `self.circ` after the Hadamards, and the Hadamard qubits -/
  cnots : List (CX n)
  hadamards : List (Fin n)
  /-- `self.x_checks if x_errors else self.z_checks` -/
  stabs : List (Vec n)
  /-- `code.distance` and `code.x_distance`/`code.z_distance` -/
  d : ℤ
  dError : ℤ
  /-- the optimiser used by `_coset_leader` for these stabilizers -/
  leader : Vec n → Vec n

/-- The cache of one error type: `x_fault_sets` and `x_fault_sets_unreduced` (state_prep.py:191-194),
lists of length `max_errors + 1`. -/
structure Cache (n : ℕ) where
  sets : List (Option (List (Vec n)))
  unreduced : List (Option (List (Vec n)))

/-- Fresh caches (state_prep.py:191-194). -/
def freshCache (n maxErrors : ℕ) : Cache n :=
  ⟨List.replicate (maxErrors + 1) none, List.replicate (maxErrors + 1) none⟩

/-- Exceptions of `compute_fault_set` (raised in state_prep.py:73-145). -/
inductive FErr
  | index      -- list index out of range
  | value      -- numpy shape mismatch (no CNOT left in the circuit)
  | zero       -- `num_errors = 0`: not modelled (recursion to negative numbers)
  | assertion  -- missing cached entry
  deriving DecidableEq

/-- `_remove_trivial_faults` then, if `reduce`, `_remove_stabilizer_equivalent_faults`
(state_prep.py:133-141). -/
def filterFaults (sd : Side n) (reduce : Bool) (faults : List (Vec n)) (k : ℕ) : List (Vec n) :=
  let f := removeTrivialFaults sd.leader faults sd.d sd.dError k
  if reduce then removeEquivalent f sd.stabs else f

/-- Single faults of the circuit (state_prep.py:96-106). -/
def singleFaults (sd : Side n) : List (Vec n) :=
  npUnique (faultList sd.xErrors (removeFrontLayer sd.hadamards sd.cnots))

/-- `(a[:, np.newaxis, :] + b).reshape(-1, n) % 2` (state_prep.py:126, 165). -/
def allSums (a b : List (Vec n)) : List (Vec n) := a.flatMap fun x => b.map fun y => x + y

/-- `StatePrepCircuit.compute_fault_set` (state_prep.py:73-145) for `num_errors ≥ 1`. -/
def computeFaultSet (sd : Side n) (reduce : Bool) :
    ℕ → Cache n → Except FErr (List (Vec n) × Cache n)
  | 0, _ => .error .zero
  | k + 1, s =>
    match s.sets[k + 1]? with
    | none => .error .index
    | some (some f) => .ok (f, s)
    | some none =>
      if k = 0 then
        if removeFrontLayer sd.hadamards sd.cnots = [] then .error .value
        else
          let faults := singleFaults sd
          let s1 : Cache n :=
            if sd.xErrors = true ∧ s.unreduced[1]?.join ≠ none then s
            else { s with unreduced := s.unreduced.set 1 (some (faults ++ eyeRows n)) }
          let out := filterFaults sd reduce faults 1
          .ok (out, { s1 with sets := s1.sets.set 1 (some out) })
      else
        match computeFaultSet sd reduce k s with
        | .error e => .error e
        | .ok (_, s1) =>
          match s1.unreduced[k]?.join, s1.unreduced[1]?.join with
          | some fk, some f1 =>
            let faults := npUnique (allSums fk f1)
            let out := filterFaults sd reduce faults (k + 1)
            .ok (out, { sets := s1.sets.set (k + 1) (some out),
                        unreduced := s1.unreduced.set (k + 1) (some faults) })
          | _, _ => .error .assertion

end Verif.SP

namespace Verif.SP
open Verif
variable {n : ℕ}

/-- The state after a history of `compute_fault_set(num_errors, reduce=…)` calls for one error type;
a call that raises leaves the caches unchanged (repeated calls, state_prep.py:73-145). -/
def faultHistory (sd : Side n) : List (Bool × ℕ) → Cache n → Cache n
  | [], s => s
  | (r, k) :: h, s =>
    match computeFaultSet sd r k s with
    | .ok (_, s') => faultHistory sd h s'
    | .error _ => faultHistory sd h s

/-- The loop of `combine_faults` (state_prep.py:162-168): `i` runs over the given indices. -/
def combineLoop (additional : List (Vec n)) :
    List ℕ → List (Option (List (Vec n))) → Except FErr (List (Option (List (Vec n))))
  | [], u => .ok u
  | i :: is, u =>
    match u[i]?.join, u[i + 1]?.join with
    | some un, some next =>
      combineLoop additional is (u.set (i + 1) (some (next ++ allSums un additional)))
    | _, _ => .error .assertion

/-- The final loop of `combine_faults` (state_prep.py:171-176). -/
def combineFilter (sd : Side n) (u : List (Option (List (Vec n)))) :
    List ℕ → List (Option (List (Vec n))) → Except FErr (List (Option (List (Vec n))))
  | [], out => .ok out
  | k :: ks, out =>
    match u[k]?.join with
    | some fs => combineFilter sd u ks
        (out.set k (some (removeTrivialFaults sd.leader fs sd.d sd.dError k)))
    | none => .error .assertion

/-- `StatePrepCircuit.combine_faults` (state_prep.py:147-177) for one error type.  Simplification:
`compute_fault_sets` also fills the caches of the other error type, which are independent of this
one and not part of this state. -/
def combineFaults (sd : Side n) (maxErrors : ℕ) (additional : List (Vec n)) (s : Cache n) :
    Except FErr (List (Option (List (Vec n))) × Cache n) :=
  match computeFaultSet sd true maxErrors s with
  | .error e => .error e
  | .ok (_, s1) =>
    if additional.length = 0 then .ok (s1.sets, s1)
    else
      match s1.unreduced[1]?.join with
      | none => .error .assertion
      | some u1 =>
        match combineLoop additional (List.range' 1 (maxErrors - 1))
            (s1.unreduced.set 1 (some (u1 ++ additional))) with
        | .error e => .error e
        | .ok u =>
          match combineFilter sd u (List.range' 1 maxErrors) (List.replicate (maxErrors + 1) none) with
          | .error e => .error e
          | .ok out => .ok (out, s1)

end Verif.SP
