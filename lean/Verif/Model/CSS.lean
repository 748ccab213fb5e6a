import Verif.Model.Stabilizer

/-!
# Model of `src/mqt/qecc/codes/css_code.py`

Check matrices are `List (Vec n)`.  `ldpc.mod2.nullspace` is a parameter (`Mod2.nullspace`) whose
contract is `Mod2.Correct`; `ldpc.mod2.row_basis` and the pivots of `row_echelon` of the transpose
are modelled by `greedy`, i.e. a row is a pivot iff it is not in the span of the rows before it.
-/

namespace Verif.CSS
open Verif

/-- A two-dimensional binary numpy array (css_code.py:20-27). -/
structure NpMat where
  cols : ℕ
  rows : List (Vec cols)

/-- The part of `ldpc.mod2` which is not determined uniquely by its mathematical meaning (used in css_code.py:79-87). -/
structure Mod2 where
  nullspace : {n : ℕ} → List (Vec n) → List (Vec n)

/-- Rows of `vs` that are pivots of the stacked matrix `prev ++ vs`: not in the span of the rows
above.  Models `mod2.row_echelon(log_stack.T)[3]` (css_code.py:85). -/
def greedy {n : ℕ} (prev : List (Vec n)) : List (Vec n) → List (Vec n)
  | [] => []
  | v :: vs => if inSpan prev v then greedy (prev ++ [v]) vs else v :: greedy (prev ++ [v]) vs

/-- `mod2.row_basis` (css_code.py:83): the pivot rows. -/
def rowBasis {n : ℕ} (m : List (Vec n)) : List (Vec n) := greedy [] m

/-- `CSSCode._compute_logical` (css_code.py:79-87). -/
def computeLogical {n : ℕ} (lib : Mod2) (m1 m2 : List (Vec n)) : List (Vec n) :=
  greedy (rowBasis m2) (lib.nullspace m1)

/-- Exceptions of the constructor (css_code.py:145-162, stabilizer_code.py). -/
inductive Err
  | invalidCSS (msg : String)
  | stab (e : Stab.Err)
  deriving DecidableEq

/-- The attributes of a `CSSCode` object (css_code.py:29-61). -/
structure Code where
  n : ℕ
  hx : List (Vec n)
  hz : List (Vec n)
  stab : Stab.Code
  distance : ℤ
  xDistance : ℤ
  zDistance : ℤ
  lx : List (Vec n)
  lz : List (Vec n)

/-- The padded generator rows handed to the base class (css_code.py:44-50). -/
def generatorRows {n : ℕ} (hx hz : List (Vec n)) : Stab.Mat :=
  (hx.map fun r => List.ofFn r ++ List.replicate n 0 ++ [0]) ++
  (hz.map fun r => List.replicate n 0 ++ List.ofFn r ++ [0])

/-- Error embedding for the base-class constructor (css_code.py:50). -/
def liftStab (r : Except Stab.Err Stab.Code) : Except Err Stab.Code :=
  match r with
  | .ok c => .ok c
  | .error e => .error (.stab e)

/-- The constructor after the check matrices have been validated and completed
(css_code.py:44-61). -/
def build (lib : Mod2) (n : ℕ) (hx hz : List (Vec n)) (distance : ℤ) (xd zd : Option ℤ) :
    Except Err Code := do
  let s ← liftStab (Stab.mkCode (.arrs (generatorRows hx hz)) (some distance) none none)
  let x := xd.getD distance
  let z := zd.getD distance
  require (¬ (x < distance ∨ z < distance)) (.invalidCSS "x and z distances")
  return { n, hx, hz, stab := s, distance, xDistance := x, zDistance := z,
           lx := computeLogical lib hz hx, lz := computeLogical lib hx hz }

/-- `CSSCode.__init__` with `_check_valid_check_matrices` (css_code.py:20-61, 145-158). -/
def mkCSS (lib : Mod2) (distance : ℤ) (hx hz : Option NpMat) (xd zd : Option ℤ) :
    Except Err Code :=
  match hx, hz with
  | none, none => .error (.invalidCSS "At least one of the check matrices must be provided")
  | some hx, none => build lib hx.cols hx.rows [] distance xd zd
  | none, some hz => build lib hz.cols [] hz.rows distance xd zd
  | some hx, some hz =>
    if h : hz.cols = hx.cols then do
      let hzr : List (Vec hx.cols) := h ▸ hz.rows
      require (hx.rows.all (fun r => hzr.all fun s => decide (dot r s = 0)) = true)
        (.invalidCSS "The check matrices must be orthogonal")
      build lib hx.cols hx.rows hzr distance xd zd
    else .error (.invalidCSS "Check matrices must have the same number of columns")

namespace Code
variable (c : Code)

/-- `get_x_syndrome` (css_code.py:89-93); `self.Hx` is never None after construction. -/
def getXSyndrome (e : Vec c.n) : List (ZMod 2) := mulVec c.hx e
/-- `get_z_syndrome` (css_code.py:95-99). -/
def getZSyndrome (e : Vec c.n) : List (ZMod 2) := mulVec c.hz e
/-- `check_if_logical_x_error` (css_code.py:101-103). -/
def checkIfLogicalXError (r : Vec c.n) : Bool := (mulVec c.lz r).any fun b => decide (b = 1)
/-- `check_if_x_stabilizer` (css_code.py:105-108). -/
def checkIfXStabilizer (p : Vec c.n) : Bool := decide (rank (c.hx ++ [p]) = rank c.hx)
/-- `check_if_logical_z_error` (css_code.py:110-112). -/
def checkIfLogicalZError (r : Vec c.n) : Bool := (mulVec c.lx r).any fun b => decide (b = 1)
/-- `check_if_z_stabilizer` (css_code.py:114-117). -/
def checkIfZStabilizer (p : Vec c.n) : Bool := decide (rank (c.hz ++ [p]) = rank c.hz)
/-- `stabilizer_eq_x_error` (css_code.py:119-126). -/
def stabilizerEqXError (e1 e2 : Vec c.n) : Bool :=
  decide (rank (c.hx ++ [e1]) = rank (c.hx ++ [e2]) ∧
    rank (c.hx ++ [e2]) = rank (c.hx ++ [e1] ++ [e2]))
/-- `stabilizer_eq_z_error` (css_code.py:128-135). -/
def stabilizerEqZError (e1 e2 : Vec c.n) : Bool :=
  decide (rank (c.hz ++ [e1]) = rank (c.hz ++ [e2]) ∧
    rank (c.hz ++ [e2]) = rank (c.hz ++ [e1] ++ [e2]))
/-- `is_self_dual` (css_code.py:137-143). -/
def isSelfDual : Bool :=
  decide (c.hx.length = c.hz.length ∧ rank c.hx = rank (c.hx ++ c.hz))
/-- `x_checks_as_pauli_strings` (css_code.py:63-65). -/
def xChecksAsPauliStrings : List Stab.Str :=
  c.hx.map fun r => (List.ofFn r).map fun b => if b = 1 then 'X' else 'I'
/-- `z_checks_as_pauli_strings` (css_code.py:67-69). -/
def zChecksAsPauliStrings : List Stab.Str :=
  c.hz.map fun r => (List.ofFn r).map fun b => if b = 1 then 'Z' else 'I'
/-- `x_logicals_as_pauli_strings` (css_code.py:71-73). -/
def xLogicalsAsPauliStrings : List Stab.Str :=
  c.lx.map fun r => (List.ofFn r).map fun b => if b = 1 then 'X' else 'I'
/-- `z_logicals_as_pauli_strings` (css_code.py:75-77). -/
def zLogicalsAsPauliStrings : List Stab.Str :=
  c.lz.map fun r => (List.ofFn r).map fun b => if b = 1 then 'Z' else 'I'
end Code

/-- All binary vectors of length `n` (no code of /repo: used by the reference for `mod2.nullspace`, css_code.py:83). -/
def allVecs : (n : ℕ) → List (Vec n)
  | 0 => [Fin.elim0]
  | n + 1 => (allVecs n).flatMap fun v => [Fin.cons 0 v, Fin.cons 1 v]

/-- An executable reference for `mod2.nullspace`, used to show that the contract is satisfiable and
for concrete examples (css_code.py:83). -/
def refLib : Mod2 where
  nullspace := fun {n} m => greedy [] ((allVecs n).filter fun v => m.all fun r => decide (dot r v = 0))

end Verif.CSS
