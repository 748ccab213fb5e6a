import Verif.Linalg
import Verif.Common

/-!
# Model of `src/mqt/qecc/codes/stabilizer_code.py`

One-dimensional numpy arrays are `Row = List (ZMod 2)` (entries are taken mod 2, which is how every
consumer in this file uses them), two-dimensional arrays are lists of rows.  Python exceptions are
values of `Err`.
-/

namespace Verif.Stab
open Verif

/-- Python exceptions raised in this file (raised in stabilizer_code.py:31-200). -/
inductive Err
  | invalid (msg : String)  -- InvalidStabilizerCodeError
  | value                   -- ValueError raised by numpy (shape mismatch)
  | index                   -- IndexError
  deriving DecidableEq, Repr

/-- A one-dimensional numpy array with 0/1 entries (stabilizer_code.py:188-209). -/
abbrev Row := List (ZMod 2)
/-- A two-dimensional numpy array (list of rows of equal length) (stabilizer_code.py:183-195). -/
abbrev Mat := List Row

/-- A Python string (stabilizer_code.py:165-185). -/
abbrev Str := List Char

/-- The union type `Pauli`: a string or a binary array (stabilizer_code.py:11-20). -/
inductive Pauli
  | str (s : Str)
  | arr (r : Row)
  deriving DecidableEq

/-- The argument type of generators / logicals: a list of strings or a 2d array
(stabilizer_code.py:33-36).  Mixed lists are not modelled. -/
inductive Paulis
  | strs (l : List Str)
  | arrs (m : Mat)
  deriving DecidableEq

/-- The elements of the argument, as `Pauli`s (stabilizer_code.py:183-195). -/
def Paulis.toList : Paulis → List Pauli
  | .strs l => l.map .str
  | .arrs m => m.map .arr

/-- `len` of a string / 1d array (stabilizer_code.py:106-121). -/
def Pauli.len : Pauli → ℕ
  | .str s => s.length
  | .arr r => r.length

/-- The 0/1 indicator `int(p == c)` (stabilizer_code.py:175-180). -/
def ind (c p : Char) : ZMod 2 := if p = c then 1 else 0

/-- The un-signed part of `pauli_to_binary`: x part, z part, phase
(stabilizer_code.py:175-180).  `x_part += y_part` never exceeds 1 because a letter is not both. -/
def lettersToBinary (p : Str) (phase : ZMod 2) : Row :=
  (p.map fun c => ind 'X' c + ind 'Y' c) ++ (p.map fun c => ind 'Z' c + ind 'Y' c) ++ [phase]

/-- `pauli_to_binary` (stabilizer_code.py:165-180).  `p[0]` of the empty string raises. -/
def pauliToBinary : Pauli → Except Err Row
  | .arr r => .ok r
  | .str [] => .error .index
  | .str (c :: cs) =>
    if c = '+' ∨ c = '-' then .ok (lettersToBinary cs (if c = '+' then 0 else 1))
    else .ok (lettersToBinary (c :: cs) 0)

/-- Width of a 2d array (stabilizer_code.py:46-71). -/
def width : Mat → ℕ
  | [] => 0
  | r :: _ => r.length

/-- `np.array` of a list of rows: numpy ≥ 1.24 raises ValueError on ragged input (stabilizer_code.py:183-195). -/
def npArray (rows : List Row) : Except Err Mat :=
  if rows.all (fun r => r.length == width rows) then .ok rows else .error .value

/-- `paulis_to_binary` (stabilizer_code.py:183-185). -/
def paulisToBinary (ps : List Pauli) : Except Err Mat := do
  let rows ← ps.mapM pauliToBinary
  npArray rows

/-- One letter of `binary_to_pauli_string` (stabilizer_code.py:194). -/
def letterOf (x z : ZMod 2) : Char :=
  if x ≠ 0 ∧ ¬ z ≠ 0 then 'X' else if z ≠ 0 ∧ ¬ x ≠ 0 then 'Z'
  else if x ≠ 0 ∧ z ≠ 0 then 'Y' else 'I'

/-- `binary_to_pauli_string` (stabilizer_code.py:188-195); `b[-1]` of an empty array raises. -/
def binaryToPauliString (b : Row) : Except Err Str :=
  match b.getLast? with
  | none => .error .index
  | some phase =>
    let xPart := b.take (b.length / 2)
    let zPart := (b.drop (b.length / 2)).dropLast
    .ok ((if phase = 0 then [] else ['-']) ++ List.zipWith letterOf xPart zPart)

/-- `is_pauli_string` (stabilizer_code.py:198-200). -/
def isPauliString : Str → Bool
  | [] => false
  | c :: cs => cs.all (fun d => d ∈ ['I', 'X', 'Y', 'Z']) && decide (c ∈ ['+', '-', 'I', 'X', 'Y', 'Z'])

/-- `get_n_qubits_from_pauli` (stabilizer_code.py:203-209). -/
def getNQubits : Pauli → Except Err ℕ
  | .arr r => .ok (r.length / 2)
  | .str [] => .error .index
  | .str (c :: cs) => if c = '+' ∨ c = '-' then .ok cs.length else .ok (cs.length + 1)

/-- `a @ b` for 1d arrays, mod 2; numpy raises ValueError on different lengths (stabilizer_code.py:227-230). -/
def ldot (a b : Row) : Except Err (ZMod 2) :=
  if a.length = b.length then .ok (List.zipWith (· * ·) a b).sum else .error .value

/-- `symplectic_inner_product` (stabilizer_code.py:227-230) with `n = len(p1) // 2`. -/
def symplecticInner (p1 p2 : Row) : Except Err (ZMod 2) := do
  let n := p1.length / 2
  let a ← ldot (p1.take n) (p2.drop n)
  let b ← ldot (p1.drop n) (p2.take n)
  return a + b

/-- `commute` (stabilizer_code.py:212-214). -/
def commute (p1 p2 : Row) : Except Err Bool := do
  let s ← symplecticInner p1 p2
  return decide (s = 0)

/-- `anti_commute` (stabilizer_code.py:217-219). -/
def antiCommute (p1 p2 : Row) : Except Err Bool := do
  let c ← commute p1 p2
  return !c

/-- `symplectic_matrix_mul` (stabilizer_code.py:239-242): row `i` of the result is the symplectic
product of row `i` with `v`; all rows have the same width, so the shape test is per row.
(For a matrix without rows, which no constructor produces, numpy would still check the shape.) -/
def symplecticMatrixMul (m : Mat) (v : Row) : Except Err Row :=
  m.mapM fun r => symplecticInner r v

/-- `symplectic_matrix_product` (stabilizer_code.py:233-236). -/
def symplecticMatrixProduct (m1 m2 : Mat) : Except Err Mat :=
  m1.mapM fun r => symplecticMatrixMul m2 r

/-- `all_commute` (stabilizer_code.py:222-224). -/
def allCommute (m1 m2 : Mat) : Except Err Bool := do
  let p ← symplecticMatrixProduct m1 m2
  return p.all fun r => r.all fun b => decide (b = 0)

/-- `pauli_to_symplectic_vec` (stabilizer_code.py:245-247). -/
def pauliToSymplecticVec (p : Pauli) : Except Err Row := do
  let b ← pauliToBinary p
  return b.dropLast

/-- A row as a vector of the given width (stabilizer_code.py:106-121). -/
def toVec (w : ℕ) (r : Row) : Vec w := fun i => r.getD i 0

/-- `mod2.rank` of a runtime-shaped matrix (stabilizer_code.py:49). -/
def matRank (m : Mat) : ℕ := rank (m.map (toVec (width m)))

/-- `np.vstack` of 2d arrays: ValueError if the widths differ (stabilizer_code.py:123-162). -/
def vstack (a b : Mat) : Except Err Mat :=
  if width a = width b then .ok (a ++ b) else .error .value

/-- The state of a `StabilizerCode` object (attributes set in stabilizer_code.py:46-71;
`symplectic_matrix` and `phases` are projections of `generators`). -/
structure Code where
  n : ℕ
  generators : Mat
  k : ℤ
  distance : ℤ
  lz : Option Mat
  lx : Option Mat
  deriving DecidableEq

/-- `symplectic_matrix = generators[:, :-1]` (stabilizer_code.py:49). -/
def symplecticMatrix (m : Mat) : Mat := m.map List.dropLast

/-- `_check_stabilizer_generators` (stabilizer_code.py:106-121). -/
def checkGenerators (g : Paulis) : Except Err Unit :=
  match g.toList with
  | [] => .error (.invalid "Stabilizer code must have at least one generator.")
  | p :: ps =>
    if !((p :: ps).all fun q => p.len == q.len) then
      .error (.invalid "All stabilizer generators must have the same length.")
    else match g with
      | .arrs _ => .ok ()
      | .strs l =>
        if l.all isPauliString then .ok ()
        else .error (.invalid "must be valid Pauli strings.")

/-- Conversion of an optional logical-operator argument (stabilizer_code.py:59-71):
`np.array([])[:, :-1]` raises IndexError for an empty list. -/
def logicalArg : Option Paulis → Except Err (Option Mat)
  | none => .ok none
  | some l => do
    let m ← paulisToBinary l.toList
    if m.isEmpty then .error .index else return some m

/-- `_check_code_correct` (stabilizer_code.py:123-162). -/
def checkCodeCorrect (c : Code) : Except Err Unit :=
  match c.lz, c.lx with
  | none, none => .ok ()
  | none, some _ => .error (.invalid "logical Z-operators must also be given.")
  | some _, none => .error (.invalid "logical X-operators must also be given.")
  | some lz, some lx => do
    require (width lz / 2 = c.n) (.invalid "Logical operators: same number of qubits.")
    require ((lz.length : ℤ) ≤ c.k) (.invalid "Number of logical Z-operators.")
    require (width lx / 2 = c.n) (.invalid "Logical operators: same number of qubits.")
    require ((lx.length : ℤ) ≤ c.k) (.invalid "Number of logical X-operators.")
    let b1 ← allCommute (symplecticMatrix lz) (symplecticMatrix c.generators)
    require (b1 = true) (.invalid "Logical Z-operators must commute with the generators.")
    let b2 ← allCommute (symplecticMatrix lx) (symplecticMatrix c.generators)
    require (b2 = true) (.invalid "Logical X-operators must commute with the generators.")
    let comm ← symplecticMatrixProduct (symplecticMatrix lz) (symplecticMatrix lx)
    require ((comm.all fun r => decide (r.countP (fun b => decide (b = 1)) = 1)) = true)
      (.invalid "anti-commute with exactly one")

/-- The distance check of the constructor (stabilizer_code.py:53-55). -/
def checkDistance : Option ℤ → Except Err Unit
  | some d => if d ≤ 0 then .error (.invalid "Distance must be a positive integer.") else .ok ()
  | none => .ok ()

/-- `n = get_n_qubits_from_pauli(generators[0])` (stabilizer_code.py:47). -/
def firstNQubits : List Pauli → Except Err ℕ
  | [] => .error .index
  | p :: _ => getNQubits p

/-- `StabilizerCode.__init__` (stabilizer_code.py:31-73). -/
def mkCode (gens : Paulis) (distance : Option ℤ) (lz lx : Option Paulis) : Except Err Code := do
  checkGenerators gens
  let n ← firstNQubits gens.toList
  let g ← paulisToBinary gens.toList
  let k : ℤ := (n : ℤ) - matRank g
  checkDistance distance
  let dist := distance.getD 1
  let lz' ← logicalArg lz
  let lx' ← logicalArg lx
  let c : Code := { n, generators := g, k, distance := dist, lz := lz', lx := lx' }
  checkCodeCorrect c
  return c

/-- The integer which `__hash__` hashes: the bytes of the generator array
(stabilizer_code.py:75-77), i.e. a function of the flattened entries. -/
def hashKey (c : Code) : Row := c.generators.flatten

/-- `__eq__` for two stabilizer codes (stabilizer_code.py:79-86); the second conjunct is only
evaluated if the first holds, and `np.vstack` may raise. -/
def codeEq (a b : Code) : Except Err Bool :=
  if matRank a.generators = matRank b.generators then do
    let s ← vstack a.generators b.generators
    return decide (matRank a.generators = matRank s)
  else .ok false

/-- `get_syndrome` (stabilizer_code.py:88-94). -/
def getSyndrome (c : Code) (e : Pauli) : Except Err Row := do
  let v ← pauliToSymplecticVec e
  symplecticMatrixMul (symplecticMatrix c.generators) v

/-- `stabs_as_pauli_strings` (stabilizer_code.py:96-98). -/
def stabsAsPauliStrings (c : Code) : Except Err (List Str) :=
  c.generators.mapM binaryToPauliString

/-- `stabilizer_equivalent` (stabilizer_code.py:100-104). -/
def stabilizerEquivalent (c : Code) (p1 p2 : Pauli) : Except Err Bool := do
  let v1 ← pauliToBinary p1
  let v2 ← pauliToBinary p2
  let a ← vstack c.generators [v1]
  let b ← vstack a [v2]
  return decide (matRank b = matRank a)

end Verif.Stab
