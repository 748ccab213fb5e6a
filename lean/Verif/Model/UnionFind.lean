import Verif.Common
import Mathlib.Logic.Relation

/-!
# Model of the union-find forest (`include/TreeNode.hpp`) and of the node map of `UFHeuristic`

Nodes are identified with their vertex index.  `getNodeFromIdx` creates a node on first use; since a fresh node only depends
on its index, the node map is the function giving the fresh node for indices not used so far.
-/

namespace Verif.UF
open Verif

/-- `TreeNode` (include/TreeNode.hpp:15-25). -/
structure Node where
  isCheck : Bool
  parent : Option ℕ := none
  children : List ℕ := []
  size : ℕ := 1
  boundary : List ℕ
  checks : List ℕ
  marked : Bool := false
  deleted : Bool := false
deriving DecidableEq

/-- Models the objects of include/TreeNode.hpp:15-25. -/
abbrev Forest := ℕ → Node

/-- The fresh nodes for a code with `n` bits (include/TreeNode.hpp:29-31, src/UFHeuristic.cpp:28-41, 363-376). -/
def fresh (n : ℕ) : Forest := fun v =>
  { isCheck := decide (n ≤ v), boundary := [v], checks := if n ≤ v then [v] else [] }

/-- `TreeNode::Find` (include/TreeNode.hpp:36-46): follow the parents to the node without one.  `none`: fuel used up. -/
def find (f : Forest) : ℕ → ℕ → Option ℕ
  | 0, _ => none
  | k + 1, v =>
    match (f v).parent with
    | none => some v
    | some p => find f k p

/-- Assignment to a node (include/TreeNode.hpp:64-74). -/
def setNode (f : Forest) (v : ℕ) (x : Node) : Forest := fun w => if w = v then x else f w

/-- `addFirstToSecondTree` (include/TreeNode.hpp:64-74). -/
def addFirstToSecond (f : Forest) (first second : ℕ) : Forest :=
  setNode
    (setNode f second { f second with
      children := (f second).children ++ [first]
      size := (f second).size + (f first).size
      checks := (f second).checks ++ (f first).checks })
    first { f first with
      parent := some second
      checks := if (f first).isCheck then [first] else [] }

/-- `TreeNode::Union` (include/TreeNode.hpp:50-62). -/
def union (f : Forest) (fuel u v : ℕ) : Option Forest := do
  let r1 ← find f fuel u
  let r2 ← find f fuel v
  if r1 = r2 then some f
  else if (f r1).size ≤ (f r2).size then some (addFirstToSecond f r1 r2)
  else some (addFirstToSecond f r2 r1)

/-- A sequence of unions (src/UFHeuristic.cpp:119-127). -/
def unions (fuel : ℕ) : Forest → List (ℕ × ℕ) → Option Forest
  | f, [] => some f
  | f, e :: es => do
    let g ← union f fuel e.1 e.2
    unions fuel g es

end Verif.UF
