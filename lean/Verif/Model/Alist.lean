import Verif.Model.CodeFiles

/-!
# Reading alist files: `alist2numpy`

`analog_information_decoding/utils/simulation_utils.py`, lines 25-40.
-/

namespace Verif.Alist
open Verif Verif.CodeFiles

/-- Exceptions (raised in simulation_utils.py:27-38). -/
inductive AErr
  | valueError
  | indexError
  | attributeError
  | overflowError
deriving DecidableEq

/-- The word a text begins with (without leading blanks), and the words after it (`split()`, simulation_utils.py:28, 35). -/
def wordsFrom : Text → Text × List Text
  | [] => ([], [])
  | c :: cs =>
    let r := wordsFrom cs
    if isBlank c then ([], if r.1 = [] then r.2 else r.1 :: r.2) else (c :: r.1, r.2)

/-- `line.split()` (simulation_utils.py:28, 35): the words between blanks. -/
def splitWs (t : Text) : List Text :=
  let r := wordsFrom t
  if r.1 = [] then r.2 else r.1 :: r.2

/-- `np.loadtxt(fname, delimiter=",", dtype=str)` (simulation_utils.py:27): comments are cut off, lines that are then empty are
skipped.  With commas, the lines must have the same number of fields; then the array has two dimensions and its rows have no
method `split`. -/
def loadLines (t : Text) : Except AErr (List Text) :=
  let ls := ((getlines t).map fun l => l.takeWhile (· ≠ '#')).filter (· ≠ [])
  if ls.all (fun l => l.count ',' = 0) then .ok ls
  else if ls.all (fun l => l.count ',' = (ls.headD []).count ',') then .error .attributeError
  else .error .valueError

/-- `int(matrix_dimensions[i])` (simulation_utils.py:29-30). -/
def dim (words : List Text) (i : ℕ) : Except AErr ℤ :=
  match words[i]? with
  | none => .error .indexError
  | some w =>
    match pyInt w with
    | .ok z => .ok z
    | .error _ => .error .valueError

/-- One of the numbers of a line, as the index of a column (simulation_utils.py:36-38): 32 bits, reduced by one; the index -1
means the last column. -/
def column (n : ℕ) (w : Text) : Except AErr ℕ :=
  let v := Nat.ofDigitChars 10 w 0
  if 2147483647 < v then .error .overflowError
  else if v = 0 then (if n = 0 then .error .indexError else .ok (n - 1))
  else if v - 1 < n then .ok (v - 1)
  else .error .indexError

/-- One row (simulation_utils.py:35-38): words that are not numbers are skipped; digits of other scripts are not modelled. -/
def readRow (n : ℕ) (line : Text) : Except AErr (List Bool) := do
  let cols ← ((splitWs line).filter fun w => w.all Char.isDigit).mapM (column n)
  return (List.range n).map fun j => decide (j ∈ cols)

/-- The rows, in order (the loop, simulation_utils.py:34-38). -/
def readRows (n : ℕ) (ls : List Text) : List ℕ → Except AErr (List (List Bool))
  | [] => .ok []
  | i :: is =>
    match ls[i + 4]? with
    | none => .error .indexError
    | some l => do
      let r ← readRow n l
      let rs ← readRows n ls is
      return r :: rs

/-- `alist2numpy(fname)` (simulation_utils.py:25-40) on the text of the file: the numbers of rows and columns, and the rows.  With
one line, the loaded array has no dimension and cannot be indexed. -/
def alist2numpy (t : Text) : Except AErr (ℕ × ℕ × List (List Bool)) := do
  let ls ← loadLines t
  require (2 ≤ ls.length) .indexError
  let m ← dim (splitWs (ls.headD [])) 0
  let n ← dim (splitWs (ls.headD [])) 1
  require (0 ≤ m ∧ 0 ≤ n) .valueError
  let rows ← readRows n.toNat ls (List.range m.toNat)
  return (m.toNat, n.toNat, rows)

end Verif.Alist
