import Verif.Model.Gf2

/-!
# The C++ class `Code` as an object: setters, getters and printing (include/Code.hpp, src/Utils.cpp)

`none` stands for a null dereference, as in `Model/Gf2`.  Texts are lists of characters.
-/

namespace Verif.Cpp
open Verif

/-- An object of the class `Code` (include/Code.hpp:110-118): matrices may be absent, sizes are 0 unless set. -/
structure CodeObj where
  hX : Option Gf2Mat := none
  hZ : Option Gf2Mat := none
  n : ℕ := 0
  k : ℕ := 0
  d : ℕ := 0

/-- The constructors from matrices (include/Code.hpp:146-156; bindings.cpp:99-100). -/
def CodeObj.make (hX : Option Gf2Mat) (hZ : Gf2Mat) : CodeObj := { hX := hX, hZ := some hZ, n := cols hZ }

/-- The methods and attributes that change an object (include/Code.hpp:135-141; bindings.cpp:101-107). -/
inductive CodeOp
  | setHx (M : Gf2Mat)
  | setHz (M : Gf2Mat)
  | setN (n : ℕ)
  | setK (k : ℕ)
  | setD (d : ℕ)

/-- `setHx`, `setHz` (include/Code.hpp:135-141) and assignments to `n`, `k`, `d`: each changes its own field only. -/
def CodeObj.step (o : CodeObj) : CodeOp → CodeObj
  | .setHx M => { o with hX := some M }
  | .setHz M => { o with hZ := some M }
  | .setN n => { o with n := n }
  | .setK k => { o with k := k }
  | .setD d => { o with d := d }

/-- A history of changes (repeated setters, include/Code.hpp:135-141). -/
def CodeObj.steps (o : CodeObj) (ops : List CodeOp) : CodeObj := ops.foldl CodeObj.step o

/-- `getHxMat`, `getHzMat` (include/Code.hpp:127-133). -/
def CodeObj.getHx (o : CodeObj) : Option Gf2Mat := o.hX
/-- Models `getHzMat`, include/Code.hpp:133. -/
def CodeObj.getHz (o : CodeObj) : Option Gf2Mat := o.hZ

/-- `getSyndrome` (include/Code.hpp:219-234): the part of `hZ` is computed first. -/
def CodeObj.getSyndrome (o : CodeObj) (xerr zerr : List Bool) : Option (Except CppErr (List Bool)) :=
  if xerr = [] ∨ zerr = [] ∨ xerr.length ≠ o.n ∨ zerr.length ≠ o.n then some (.error .qecc)
  else match o.hZ with
    | none => none
    | some hZ =>
      match rectMatrixMultiply hZ xerr (List.replicate hZ.length false) with
      | .error e => some (.error e)
      | .ok xs => o.hX.map fun hX => (rectMatrixMultiply hX zerr (List.replicate hX.length false)).map fun zs => xs ++ zs

/-- `getXSyndrome` (include/Code.hpp:195-212). -/
def CodeObj.getXSyndrome (o : CodeObj) (err : List Bool) : Option (Except CppErr (List Bool)) :=
  if err = [] then some (.error .qecc)
  else if err.length > o.n then o.getSyndrome (err.take o.n) (err.drop o.n)
  else o.hZ.map fun hZ => rectMatrixMultiply hZ err (List.replicate hZ.length false)

/-- `isStabilizer(xest, zest)` (include/Code.hpp:255-257). -/
def CodeObj.isStabilizer2 (o : CodeObj) (xest zest : List Bool) : Option (Except CppErr Bool) :=
  match o.hX with
  | none => none
  | some hX =>
    match isVectorInRowspace hX xest with
    | .error e => some (.error e)
    | .ok false => some (.ok false)
    | .ok true => o.hZ.map fun hZ => isVectorInRowspace hZ zest

/-- `isStabilizer(est)` (include/Code.hpp:266-280). -/
def CodeObj.isStabilizer (o : CodeObj) (est : List Bool) : Option (Except CppErr Bool) :=
  if !est.any id then some (.ok true)
  else if est.length > o.n then o.isStabilizer2 (est.take (est.length / 2)) (est.drop (est.length / 2))
  else o.hX.map fun hX => isVectorInRowspace hX est

/-! ## Printing -/

/-- Models the text streams of src/Utils.cpp:97-121. -/
abbrev Text := List Char

/-- A Boolean in a stream (`<<`, src/Utils.cpp:104-118). -/
def bitText (b : Bool) : Char := if b then '1' else '0'

/-- The entries of a row (src/Utils.cpp:106-112) from the column `j` on; `todo` entries are left, and `at` checks the range. -/
def rowText (row : List Bool) : (todo j : ℕ) → Except CppErr Text
  | 0, _ => .ok []
  | todo + 1, j =>
    match row[j]? with
    | none => .error .outOfRange
    | some b =>
      match rowText row todo (j + 1) with
      | .error e => .error e
      | .ok s => .ok (bitText b :: ((if todo = 0 then [] else [',']) ++ s))

/-- The rows (src/Utils.cpp:104-118). -/
def rowsText (ncols : ℕ) : Gf2Mat → Except CppErr Text
  | [] => .ok []
  | row :: rest =>
    match rowText row ncols 0 with
    | .error e => .error e
    | .ok s =>
      match rowsText ncols rest with
      | .error e => .error e
      | .ok t => .ok ('[' :: (s ++ (']' :: ((if rest = [] then [] else [',']) ++ ('\n' :: t)))))

/-- `Utils::getStringFrom(matrix)` (src/Utils.cpp:97-121). -/
def matString (M : Gf2Mat) : Except CppErr Text :=
  if M = [] then .ok "[]".toList
  else
    match rowsText (cols M) M with
    | .error e => .error e
    | .ok t => .ok (Nat.toDigits 10 M.length ++ ('x' :: (Nat.toDigits 10 (cols M) ++ ("matrix [\n".toList ++ (t ++ [']'])))))

/-- `pcm->at(i).at(j)` (include/Code.hpp:294-304). -/
def atAt (M : Gf2Mat) (i j : ℕ) : Except CppErr Bool :=
  match M[i]? with
  | none => .error .outOfRange
  | some r =>
    match r[j]? with
    | none => .error .outOfRange
    | some b => .ok b

/-- One row of the matrix that `operator<<` fills (include/Code.hpp:294-304, 309-319), for the matrix `M` and the sizes taken from `hZ`. -/
def printRow (M : Gf2Mat) (checks data i : ℕ) : Except CppErr (List Bool) :=
  if i < data then ((List.range checks).mapM fun j => atAt M j i).map fun r => List.replicate data false ++ r
  else ((List.range data).mapM fun j => atAt M (i - data) j).map fun r => r ++ List.replicate checks false

/-- The filled matrix (include/Code.hpp:293-305, 308-320). -/
def printMat (M : Gf2Mat) (checks data : ℕ) : Except CppErr Gf2Mat := (List.range (checks + data)).mapM fun i => printRow M checks data i

/-- `operator<<` (include/Code.hpp:287-323) for an object with `hZ`: the text of the matrix is written before the second matrix is filled, and
only if there is an `hX`. -/
def printCode (hX : Option Gf2Mat) (hZ : Gf2Mat) : Except CppErr Text :=
  match printMat hZ hZ.length (cols hZ) with
  | .error e => .error e
  | .ok res =>
    match hX with
    | none => .ok "hZ:\n".toList
    | some hX =>
      match matString res with
      | .error e => .error e
      | .ok s =>
        match printMat hX hZ.length (cols hZ) with
        | .error e => .error e
        | .ok _ => .ok ("hZ:\n".toList ++ (s ++ "hX:\n".toList))

end Verif.Cpp
