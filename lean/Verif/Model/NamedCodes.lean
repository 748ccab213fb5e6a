import Verif.Model.CSS

/-!
# Model of `CSSCode.from_code_name` (src/mqt/qecc/codes/css_code.py:160-220)

The files `hx.npy`, `hz.npy` of the eight directories are tables below.  A row is written as a number
whose bit `i` is the entry of column `i`; `toVec` turns it into the numpy row.
-/

namespace Verif.Named
open Verif

/-- The row with the given bits (the arrays loaded in css_code.py:201-205). -/
def toVec (n m : ℕ) : Vec n := fun i => if m.testBit i.val then 1 else 0

/-- A directory with `hx.npy` and `hz.npy`, and the pair in `distances` (css_code.py:190-199). -/
structure Entry where
  n : ℕ
  hx : List ℕ
  hz : List ℕ
  dx : ℤ
  dz : ℤ

/-- `codes/steane/hx.npy`, `codes/steane/hz.npy` (loaded in css_code.py:201-205). -/
def steane : Entry :=
  ⟨7, [51, 85, 120], [51, 85, 120], 3, 3⟩

/-- `codes/tetrahedral/hx.npy`, `codes/tetrahedral/hz.npy` (loaded in css_code.py:201-205). -/
def tetrahedral : Entry :=
  ⟨15, [255, 6966, 11884, 30960], [15, 54, 108, 240, 4370, 2596, 1548, 6192, 10336, 24768], 7, 3⟩

/-- `codes/hamming/hx.npy`, `codes/hamming/hz.npy` (loaded in css_code.py:201-205). -/
def hamming : Entry :=
  ⟨15, [32640, 30840, 26214, 21845], [32640, 30840, 26214, 21845], 3, 3⟩

/-- `codes/shor/hx.npy`, `codes/shor/hz.npy` (loaded in css_code.py:201-205). -/
def shor : Entry :=
  ⟨9, [63, 455], [3, 5, 24, 40, 192, 320], 3, 3⟩

/-- `codes/golay/hx.npy`, `codes/golay/hz.npy` (loaded in css_code.py:201-205). -/
def golay : Entry :=
  ⟨23, [4198290, 2099145, 1051766, 525883, 265359, 133589, 68472, 34236, 17118, 8559, 7973], [4198290, 2099145, 1051766, 525883, 265359, 133589, 68472, 34236, 17118, 8559, 7973], 7, 7⟩

/-- `codes/rotated_surface_d3/hx.npy`, `codes/rotated_surface_d3/hz.npy` (loaded in css_code.py:201-205). -/
def surface3 : Entry :=
  ⟨9, [27, 36, 432, 72], [3, 54, 216, 384], 3, 3⟩

/-- `codes/rotated_surface_d5/hx.npy`, `codes/rotated_surface_d5/hz.npy` (loaded in css_code.py:201-205). -/
def surface5 : Entry :=
  ⟨25, [3, 198, 12, 792, 3168, 12672, 202752, 811008, 3244032, 12976128, 6291456, 25165824], [99, 396, 528, 1056, 6336, 25344, 101376, 405504, 540672, 1081344, 6488064, 25952256], 5, 5⟩

/-- `codes/carbon/hx.npy`, `codes/carbon/hz.npy` (loaded in css_code.py:201-205). -/
def carbon : Entry :=
  ⟨12, [455, 1820, 3185, 63, 4032], [700, 2513, 1127, 1337, 2758], 4, 4⟩

/-- `paths` and `distances` (css_code.py:178-199): both dictionaries have the same keys. -/
def table : List (String × Entry) :=
  [("steane", steane), ("tetrahedral", tetrahedral), ("hamming", hamming), ("shor", shor), ("surface_3", surface3),
    ("surface_5", surface5), ("golay", golay), ("carbon", carbon)]

/-- The name looked up (css_code.py:201-205), given the lower-case name (`str.lower` is not modelled). -/
def lookupName (lowerName : String) (distance : Option ℤ) : String :=
  if lowerName = "surface" then lowerName ++ ("_" ++ toString (distance.getD 3)) else lowerName

/-- `from_code_name` (css_code.py:160-220).  `lowerName` is `code_name.lower()`. -/
def fromCodeName (lib : CSS.Mod2) (lowerName : String) (distance : Option ℤ) : Except CSS.Err CSS.Code :=
  match table.lookup (lookupName lowerName distance) with
  | some e => CSS.mkCSS lib (min e.dx e.dz) (some ⟨e.n, e.hx.map (toVec e.n)⟩) (some ⟨e.n, e.hz.map (toVec e.n)⟩)
      (some e.dx) (some e.dz)
  | none => .error (.invalidCSS ("Unknown code name: " ++ lookupName lowerName distance))

end Verif.Named
