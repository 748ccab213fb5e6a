import Verif.Common
import Verif.Linalg

/-!
# Model of the C++ linear algebra: `src/GF2.cpp`, `src/Utils.cpp`, `include/Code.hpp`

A `gf2Mat` is the list of its rows, a `gf2Vec` a list of Booleans.  Inside the decomposition Boolean (and 0/1 `uint64_t`)
entries are residues modulo 2 and arrays are functions of the index; unbounded integers stand for `std::size_t`.
`at` on ragged matrices (an out-of-range exception in the code) reads `false`; all theorems are about rectangular ones.
-/

namespace Verif.Cpp
open Verif

/-- Models `gf2Mat`, include/Code.hpp:33. -/
abbrev Gf2Mat := List (List Bool)

/-- The object state of `PluDecomposition` (include/GF2.hpp:34-42).  `ops` pairs `swapRows` with `eliminationRows`: both
get one entry per pivot. -/
structure Plu where
  rank : ℕ := 0
  ops : List (ℕ × List ℕ) := []
  rows : ℕ → ℕ := id
  lower : ℕ → List ℕ := fun _ => []
  upper : ℕ → List ℕ := fun _ => []
  pivotCols : List ℕ := []

/-- `std::swap(f[i], f[j])` (src/GF2.cpp:38-85). -/
def swapAt {α : Type} (f : ℕ → α) (i j : ℕ) : ℕ → α := fun k => if k = i then f j else if k = j then f i else f k

/-- `f[i] = a` (src/GF2.cpp:38-119). -/
def put {α : Type} (f : ℕ → α) (i : ℕ) (a : α) : ℕ → α := fun k => if k = i then a else f k

/-- The inner loop of the elimination (src/GF2.cpp:43-45): flip the listed entries. -/
def flips (c : ℕ → ZMod 2) (l : List ℕ) : ℕ → ZMod 2 := l.foldl (fun c k => put c k (c k + 1)) c

/-- One previous operation applied to a column (src/GF2.cpp:39-46). -/
def applyOp (i : ℕ) (o : ℕ × List ℕ) (c : ℕ → ZMod 2) : ℕ → ZMod 2 :=
  if swapAt c i o.1 i = 1 then flips (swapAt c i o.1) o.2 else swapAt c i o.1

/-- All previous operations (src/GF2.cpp:38-47), counting from operation `i`. -/
def applyOps : ℕ → List (ℕ × List ℕ) → (ℕ → ZMod 2) → ℕ → ZMod 2
  | _, [], c => c
  | i, o :: os, c => applyOps (i + 1) os (applyOp i o c)

/-- The column as a Boolean vector (src/GF2.cpp:32-36). -/
def column (col : List ℕ) : ℕ → ZMod 2 := fun k => if col.contains k then 1 else 0

/-- The part of `eliminateColumn` after a pivot was found in row `s` (src/GF2.cpp:63-85): `c` is the column after the
previous operations. -/
def addPivot (rowCount : ℕ) (p : Plu) (colIdx : ℕ) (c : ℕ → ZMod 2) (s : ℕ) : Plu :=
  let c1 := swapAt c p.rank s
  let low := swapAt p.lower p.rank s
  let low := put low p.rank (low p.rank ++ [p.rank])
  let elim := (List.range rowCount).filter fun i => p.rank < i ∧ c1 i = 1
  { rank := p.rank + 1
    ops := p.ops ++ [(s, elim)]
    rows := swapAt p.rows p.rank s
    lower := fun i => if elim.contains i then low i ++ [p.rank] else low i
    upper := fun i => if i ≤ p.rank ∧ c1 i = 1 then p.upper i ++ [colIdx] else p.upper i
    pivotCols := p.pivotCols ++ [colIdx] }

/-- `eliminateColumn` (src/GF2.cpp:31-86). -/
def eliminateColumn (rowCount : ℕ) (csc : List (List ℕ)) (p : Plu) (colIdx : ℕ) : Plu :=
  let c := applyOps 0 p.ops (column (csc.getD colIdx []))
  match (List.range rowCount).find? fun i => decide (p.rank ≤ i ∧ c i = 1) with
  | none => p
  | some s => addPivot rowCount p colIdx c s

/-- The loop of `rref` with its early exit (src/GF2.cpp:23-28). -/
def rrefLoop (rowCount maxRank : ℕ) (csc : List (List ℕ)) : List ℕ → Plu → Plu
  | [], p => p
  | c :: cs, p =>
    if (eliminateColumn rowCount csc p c).rank = maxRank then eliminateColumn rowCount csc p c
    else rrefLoop rowCount maxRank csc cs (eliminateColumn rowCount csc p c)

/-- The constructor: `rref` (src/GF2.cpp:13-29, include/GF2.hpp:45-50). -/
def plu (rowCount colCount : ℕ) (csc : List (List ℕ)) : Plu :=
  rrefLoop rowCount (min rowCount colCount) csc (List.range colCount) {}

/-- Forward substitution (src/GF2.cpp:105-111): `b` is zero at the entries not yet computed. -/
def forward (p : Plu) (y : ℕ → ZMod 2) : ℕ → ℕ → ZMod 2
  | 0 => fun _ => 0
  | r + 1 => put (forward p y r) r (((p.lower r).map (forward p y r)).sum + y (p.rows r))

/-- Backward substitution (src/GF2.cpp:113-119), `r` rows remaining. -/
def backward (p : Plu) (b : ℕ → ZMod 2) : ℕ → (ℕ → ZMod 2) → ℕ → ZMod 2
  | 0, x => x
  | r + 1, x => backward p b r (put x (p.pivotCols.getD r 0) (((p.upper r).map x).sum + b r))

/-- Exceptions of the C++ code (thrown in src/Utils.cpp and src/GF2.cpp). -/
inductive CppErr
  | invalidArgument
  | qecc
  | outOfRange
deriving DecidableEq

/-- `luSolve` (src/GF2.cpp:88-121). -/
def luSolve (rowCount colCount : ℕ) (p : Plu) (y : List (ZMod 2)) : Except CppErr (List (ZMod 2)) :=
  if y.length ≠ rowCount then .error .invalidArgument
  else .ok ((List.range colCount).map
    (backward p (forward p (fun i => y.getD i 0) p.rank) p.rank fun _ => 0))

/-! ## `src/Utils.cpp` -/

/-- `mat.at(0).size()` (src/Utils.cpp:19-69). -/
def cols (M : Gf2Mat) : ℕ := (M.headD []).length

/-- `mat.at(i).at(j)` (src/Utils.cpp:19-69). -/
def entry (M : Gf2Mat) (i j : ℕ) : Bool := (M.getD i []).getD j false

/-- `toCsc` (src/Utils.cpp:195-216). -/
def toCsc (M : Gf2Mat) : List (List ℕ) :=
  (List.range (cols M)).map fun i => (List.range M.length).filter fun j => entry M j i

/-- `assertMatrixPresent` (src/Utils.cpp:71-75). -/
def matrixPresent (M : Gf2Mat) : Bool := !M.isEmpty && !(M.headD []).isEmpty

/-- `getTranspose` (src/Utils.cpp:45-55). -/
def getTranspose (M : Gf2Mat) : Except CppErr Gf2Mat :=
  if matrixPresent M then .ok ((List.range (cols M)).map fun j => (List.range M.length).map fun i => entry M i j)
  else .error .qecc

/-- The loop over one row in `rectMatrixMultiply` (src/Utils.cpp:65-67): `acc ^= row[k] && vec[k]`. -/
def rowTimes (acc : Bool) (row vec : List Bool) : Bool :=
  (List.range vec.length).foldl (fun a k => a ^^ (row.getD k false && vec.getD k false)) acc

/-- `rectMatrixMultiply` (src/Utils.cpp:57-69): the new content of `result`.  The capacity of `result` is its length. -/
def rectMatrixMultiply (M : Gf2Mat) (vec result : List Bool) : Except CppErr (List Bool) :=
  if !matrixPresent M || vec.isEmpty then .error .qecc
  else if cols M ≠ vec.length ∨ M.length > result.length then .error .qecc
  else .ok ((List.range result.length).map fun i =>
    if i < M.length then rowTimes (result.getD i false) (M.getD i []) vec else result.getD i false)

/-- `isVectorInRowspace` (src/Utils.cpp:19-43). -/
def isVectorInRowspace (M : Gf2Mat) (vec : List Bool) : Except CppErr Bool :=
  if !matrixPresent M || vec.isEmpty then .error .qecc
  else if !vec.any id then .ok true
  else if vec.length ≠ cols M then .error .qecc
  else do
    let matrix ← getTranspose M
    let csc := toCsc matrix
    let idxs := (List.range vec.length).filter fun i => vec.getD i false
    return decide ((plu matrix.length (cols matrix + 1) (csc ++ [idxs])).rank = (plu matrix.length (cols matrix) csc).rank)

/-- `computeResidualErr` (src/Utils.cpp:154-158): the new content of `residual`. -/
def computeResidualErr (error residual : List Bool) : Except CppErr (List Bool) :=
  if residual.length ≤ error.length then
    .ok ((List.range residual.length).map fun j => residual.getD j false != error.getD j false)
  else .error .outOfRange

/-! ## `include/Code.hpp` -/

/-- The C++ class `Code` (include/Code.hpp:110-166): the X matrix may be absent. -/
structure Code where
  hX : Option Gf2Mat := none
  hZ : Gf2Mat
  n : ℕ

/-- The constructors from matrices (include/Code.hpp:146-156). -/
def mkCode (hX : Option Gf2Mat) (hZ : Gf2Mat) : Code := ⟨hX, hZ, cols hZ⟩

/-- `getSyndrome` (include/Code.hpp:219-234); `none` stands for a null dereference. -/
def Code.getSyndrome (c : Code) (xerr zerr : List Bool) : Option (Except CppErr (List Bool)) :=
  if xerr = [] ∨ zerr = [] ∨ xerr.length ≠ c.n ∨ zerr.length ≠ c.n then some (.error .qecc)
  else c.hX.map fun hX => do
    let xs ← rectMatrixMultiply c.hZ xerr (List.replicate c.hZ.length false)
    let zs ← rectMatrixMultiply hX zerr (List.replicate hX.length false)
    return xs ++ zs

/-- `getXSyndrome` (include/Code.hpp:195-212). -/
def Code.getXSyndrome (c : Code) (err : List Bool) : Option (Except CppErr (List Bool)) :=
  if err = [] then some (.error .qecc)
  else if err.length > c.n then c.getSyndrome (err.take c.n) (err.drop c.n)
  else some (rectMatrixMultiply c.hZ err (List.replicate c.hZ.length false))

/-- `isXStabilizer` (include/Code.hpp:241-246). -/
def Code.isXStabilizer (c : Code) (est : List Bool) : Except CppErr Bool :=
  match c.hX with
  | none => .error .qecc
  | some hX => isVectorInRowspace hX est

/-- `isStabilizer(xest, zest)` (include/Code.hpp:255-257): `&&` does not evaluate the second test if the first fails. -/
def Code.isStabilizer2 (c : Code) (xest zest : List Bool) : Option (Except CppErr Bool) :=
  c.hX.map fun hX => do
    let a ← isVectorInRowspace hX xest
    if a then isVectorInRowspace c.hZ zest else return false

/-- `isStabilizer(est)` (include/Code.hpp:266-280). -/
def Code.isStabilizer (c : Code) (est : List Bool) : Option (Except CppErr Bool) :=
  if !est.any id then some (.ok true)
  else if est.length > c.n then c.isStabilizer2 (est.take (est.length / 2)) (est.drop (est.length / 2))
  else c.hX.map fun hX => isVectorInRowspace hX est

/-! ### Neighbours -/

/-- `ParityCheckMatrix` with its cache (include/Code.hpp:33-35). -/
structure Pcm where
  pcm : Gf2Mat
  cache : List (ℕ × List ℕ) := []

/-- The neighbours computed on a cache miss (include/Code.hpp:81-96). -/
def computeNbrs (M : Gf2Mat) (i : ℕ) : Except CppErr (List ℕ) :=
  if !matrixPresent M then .error .qecc
  else if i < cols M then .ok (((List.range M.length).filter fun r => entry M r i).map (cols M + ·))
  else if i - cols M < M.length then .ok ((List.range (cols M)).filter fun b => entry M (i - cols M) b)
  else .error .outOfRange

/-- `getNbrs` (include/Code.hpp:73-99). -/
def Pcm.getNbrs (p : Pcm) (i : ℕ) : Except CppErr (List ℕ × Pcm) :=
  match p.cache.find? fun e => e.1 == i with
  | some e => .ok (e.2, p)
  | none => (computeNbrs p.pcm i).map fun res => (res, { p with cache := p.cache ++ [(i, res)] })

/-- A history of calls, with all answers; a failing call leaves the object unchanged (repeated `getNbrs`, include/Code.hpp:73-99). -/
def Pcm.calls (p : Pcm) : List ℕ → List (Except CppErr (List ℕ)) × Pcm
  | [] => ([], p)
  | i :: is =>
    match p.getNbrs i with
    | .ok (r, p') => (.ok r :: (p'.calls is).1, (p'.calls is).2)
    | .error e => (.error e :: (p.calls is).1, (p.calls is).2)

end Verif.Cpp
