import Verif.Model.ColorLattice

/-!
# Comparison and hashing of code objects of different classes (`codes/color_code.py:40-48`, `codes/stabilizer_code.py:75-86`)
-/

namespace Verif.ColorEq
open Verif

/-- The classes of code objects (stabilizer_code.py:28, css_code.py:17, color_code.py:23, hexagonal_color_code.py:12,
square_octagon_color_code.py:8). -/
inductive Cls
  | stabilizer
  | css
  | hexagonal
  | squareOctagon
deriving DecidableEq

/-- `isinstance(x, ColorCode)` (color_code.py:46). -/
def Cls.isColor : Cls → Bool
  | .stabilizer | .css => false
  | .hexagonal | .squareOctagon => true

/-- Strict subclasses (hexagonal_color_code.py:12, square_octagon_color_code.py:8, color_code.py:23, css_code.py:17). -/
def Cls.sub : Cls → Cls → Bool
  | .css, .stabilizer => true
  | .hexagonal, .stabilizer | .hexagonal, .css => true
  | .squareOctagon, .stabilizer | .squareOctagon, .css => true
  | _, _ => false

/-- The attributes of an object that comparison and hashing read; `H` is set for color codes only (color_code.py:35). -/
structure Obj where
  cls : Cls
  code : Stab.Code
  H : CSS.NpMat

/-- `np.array_equal`: the same shape and the same entries (color_code.py:48). -/
def arrayEqual (a b : CSS.NpMat) : Bool :=
  if h : a.cols = b.cols then decide (h ▸ a.rows = b.rows) else false

/-- `a.__eq__(b)`: `none` for `NotImplemented` (color_code.py:44-48, stabilizer_code.py:79-86). -/
def eqMethod (a b : Obj) : Option (Except Stab.Err Bool) :=
  if a.cls.isColor then
    if b.cls.isColor then some (.ok (arrayEqual a.H b.H)) else none
  else some (Stab.codeEq a.code b.code)

/-- `a == b`: the method of the right operand is tried first if its class is a strict subclass that overrides it; the other operand is tried
if the first answer is `NotImplemented`.  Objects are compared by identity if both answers are; this cannot happen here, as one of the two
operands is no color code then (the operator calling `__eq__` of color_code.py:44-48 and stabilizer_code.py:79-86). -/
def pyEq (a b : Obj) : Except Stab.Err Bool :=
  if b.cls.sub a.cls ∧ b.cls.isColor then ((eqMethod b a).or (eqMethod a b)).getD (.ok false)
  else ((eqMethod a b).or (eqMethod b a)).getD (.ok false)

/-- What is hashed: an integer, or a string of bytes (stabilizer_code.py:75-77, color_code.py:40-42). -/
inductive HashKey
  | int (r : Stab.Row)
  | bytes (r : List (ZMod 2))
deriving DecidableEq

/-- `__hash__` (stabilizer_code.py:75-77, color_code.py:40-42). -/
def hashKey (a : Obj) : HashKey :=
  if a.cls.isColor then .bytes (a.H.rows.flatMap List.ofFn) else .int (Stab.hashKey a.code)

/-- `CSSCode(distance, H, H)` (css_code.py:20-61). -/
def cssObj (lib : CSS.Mod2) (d : ℤ) (m : CSS.NpMat) : Except CSS.Err Obj := do
  let c ← CSS.mkCSS lib d (some m) (some m) none none
  return ⟨.css, c.stab, ⟨0, []⟩⟩

/-- `HexagonalColorCode(d)` (hexagonal_color_code.py:15-17, color_code.py:26-38); `order` gives the iteration order of a set from the
sequence of the elements added to it. -/
def hexObj (lib : CSS.Mod2) (order : List Lattice.Pt → List Lattice.Pt) (d : ℕ) : Except CSS.Err Obj := do
  let data := order (Lattice.hexData d)
  let faces := (order (Lattice.hexAncilla d)).map Lattice.hexNbrs
  let c ← Lattice.colorCode lib d data faces
  return ⟨.hexagonal, c.stab, ⟨data.length, Lattice.checkMatrix data faces⟩⟩

/-- `SquareOctagonColorCode(d)` (square_octagon_color_code.py:11-22, color_code.py:26-38). -/
def soObj (lib : CSS.Mod2) (order : List Lattice.Pt → List Lattice.Pt) (d : ℕ) : Except CSS.Err Obj := do
  let data := order (Lattice.soOf .data d)
  let faces := Lattice.soFaces (order (Lattice.soOf .square d)) (order (Lattice.soOf .octagon d))
  let c ← Lattice.colorCode lib d data faces
  return ⟨.squareOctagon, c.stab, ⟨data.length, Lattice.checkMatrix data faces⟩⟩

end Verif.ColorEq
