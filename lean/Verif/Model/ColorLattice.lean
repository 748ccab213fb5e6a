import Verif.Model.CSS

/-!
# Model of `hexagonal_color_code.py`, `square_octagon_color_code.py` and of `ColorCode.__init__`

Python sets of coordinates are lists here.  Their iteration order is not specified, so the
constructions below take the order as a parameter: `data` and the face lists may be any duplicate-free
enumerations of the sets.  Loops `while i < x_max` are `List.range x_max`.
-/

namespace Verif.Lattice
open Verif

/-- Models the coordinates, color_code.py:29-30. -/
abbrev Pt := ℤ × ℤ

/-- Any iteration order of a set given by a list of the elements added to it (`enumerate` of a set, hexagonal_color_code.py:80, 84). -/
def IsOrder (order added : List Pt) : Prop := order.Nodup ∧ ∀ p, p ∈ order ↔ p ∈ added

/-! ## Shared layout construction -/

/-- Qubits of a face: the neighbouring coordinates that are data qubits, as indices
(hexagonal_color_code.py:84-98). -/
def faceQubits (data nbrs : List Pt) : List ℕ := nbrs.filterMap fun c => data.idxOf? c

/-- `faces_to_qubits`; a face is given by the list of its neighbouring coordinates (hexagonal_color_code.py:98). -/
def facesToQubits (data : List Pt) (faces : List (List Pt)) : List (List ℕ) := faces.map (faceQubits data)

/-- `qubits_to_faces`: faces are appended in the order in which they are visited (hexagonal_color_code.py:82, 97). -/
def qubitsToFaces (data : List Pt) (faces : List (List Pt)) : List (List ℕ) :=
  (List.range data.length).map fun q =>
    (facesToQubits data faces).zipIdx.flatMap fun f => (f.1.filter (· == q)).map fun _ => f.2

/-- The check matrix `H` (hexagonal_color_code.py:99-100). -/
def checkMatrix (data : List Pt) (faces : List (List Pt)) : List (Vec data.length) :=
  (facesToQubits data faces).map fun qs j => if j.val ∈ qs then 1 else 0

/-- `ColorCode.__init__` (color_code.py:26-38): `CSSCode.__init__(self, distance, self.H, self.H)`. -/
def colorCode (lib : CSS.Mod2) (d : ℕ) (data : List Pt) (faces : List (List Pt)) : Except CSS.Err CSS.Code :=
  CSS.mkCSS lib d (some ⟨data.length, checkMatrix data faces⟩) (some ⟨data.length, checkMatrix data faces⟩) none none

/-! ## Hexagonal lattice -/

/-- `red_row` (hexagonal_color_code.py:36-47): coordinates with a flag telling data from ancilla. -/
def redRow (xMax y : ℕ) : List (Pt × Bool) :=
  (List.range xMax).map fun i : ℕ => (((y : ℤ) + 2 * (i : ℤ), (y : ℤ)), decide (i % 3 = 0 ∨ i % 3 = 2))

/-- `blue_row` (hexagonal_color_code.py:49-60). -/
def blueRow (xMax y : ℕ) : List (Pt × Bool) :=
  (List.range xMax).map fun i : ℕ => (((y : ℤ) + 2 * (i : ℤ), (y : ℤ)), decide (i % 3 = 0 ∨ i % 3 = 1))

/-- `green_row` (hexagonal_color_code.py:62-73). -/
def greenRow (xMax y : ℕ) : List (Pt × Bool) :=
  (List.range xMax).map fun i : ℕ => (((y : ℤ) + 2 * (i : ℤ), (y : ℤ)), decide (i % 3 = 1 ∨ i % 3 = 2))

/-- The loop of `add_qubits` (hexagonal_color_code.py:25-34). -/
def hexLoop : (xMax y : ℕ) → List (Pt × Bool)
  | 0, _ => []
  | xMax + 1, y =>
    (if y % 3 = 0 then redRow (xMax + 1) y else if y % 3 = 1 then blueRow (xMax + 1) y else greenRow (xMax + 1) y) ++
      hexLoop xMax (y + 1)

/-- `add_qubits` (hexagonal_color_code.py:19-34). -/
def hexSites (d : ℕ) : List (Pt × Bool) := hexLoop (d + d / 2) 0

/-- Models `data_qubits`, hexagonal_color_code.py:43, 56, 69. -/
def hexData (d : ℕ) : List Pt := ((hexSites d).filter (·.2)).map (·.1)
/-- Models `ancilla_qubits`, hexagonal_color_code.py:45, 58, 71. -/
def hexAncilla (d : ℕ) : List Pt := ((hexSites d).filter (! ·.2)).map (·.1)

/-- The neighbours visited for an ancilla (hexagonal_color_code.py:86-93). -/
def hexNbrs (a : Pt) : List Pt :=
  [(a.1 - 1, a.2 + 1), (a.1 - 2, a.2), (a.1 - 1, a.2 - 1), (a.1 + 1, a.2 - 1), (a.1 + 2, a.2), (a.1 + 1, a.2 + 1)]

/-! ## Square-octagon lattice -/

/-- What is added at a coordinate (square_octagon_color_code.py:20-21). -/
inductive Kind
  | data
  | square
  | octagon
deriving DecidableEq, Repr

/-- The alternating loops of the data rows (square_octagon_color_code.py:81-95, 97-111): steps of 2
and 4. -/
def soDataRow (xMax : ℕ) (x0 y : ℤ) : List (Pt × Kind) :=
  (List.range xMax).map fun n : ℕ => ((x0 + 6 * ((n / 2 : ℕ) : ℤ) + 2 * ((n % 2 : ℕ) : ℤ), y), .data)

/-- The alternating loops of the ancilla rows (square_octagon_color_code.py:49-79): steps of 3. -/
def soAncillaRow (xMax : ℕ) (x0 y : ℤ) (first second : Kind) : List (Pt × Kind) :=
  (List.range xMax).map fun n : ℕ => ((x0 + 3 * (n : ℤ), y), if n % 2 = 0 then first else second)

/-- One ancilla row, by parity of `y` (square_octagon_color_code.py:41-44). -/
def soAncillas (xMax y : ℕ) : List (Pt × Kind) :=
  if y % 2 = 0 then soAncillaRow xMax (y + 1) y .square .octagon
  else soAncillaRow xMax ((y : ℤ) - 2) y .octagon .square

/-- The loop of `add_qubits` (square_octagon_color_code.py:30-45); `x_max` never matters once
negative, so natural subtraction is used.  `fuel` bounds the number of iterations; each one increases
`y`. -/
def soLoop (m : ℕ) : (fuel y xMax : ℕ) → List (Pt × Kind)
  | 0, _, _ => []
  | fuel + 1, y, xMax =>
    if y ≤ m then
      let xm := if y = 1 then xMax - 1 else xMax - 2
      soDataRow xMax ((y : ℤ) - 1) y ++
      (if y + 1 ≤ m then soDataRow xm ((y : ℤ) + 1 + 1) (y + 1 : ℕ) else []) ++
      (if y + 2 ≤ m then soAncillas xm (y + 2) else []) ++
      soLoop m fuel (y + 3) xm
    else []

/-- `bottom_row_ancillas` (square_octagon_color_code.py:113-116): `range(4, d // 2 * 6, 6)`. -/
def soBottom (d : ℕ) : List (Pt × Kind) :=
  (List.range ((d / 2 * 6 - 4 + 5) / 6)).map fun k : ℕ => ((4 + 6 * (k : ℤ), 0), .octagon)

/-- `add_qubits` (square_octagon_color_code.py:24-47). -/
def soSites (d : ℕ) : List (Pt × Kind) := soBottom d ++ soLoop (d + d / 2) (d + d / 2) 1 d

/-- Models the three sets, square_octagon_color_code.py:20-21, 56, 61, 72, 77, 88, 93, 104, 109, 116. -/
def soOf (k : Kind) (d : ℕ) : List Pt := ((soSites d).filter (·.2 = k)).map (·.1)

/-- Neighbours of a square (square_octagon_color_code.py:129-134). -/
def squareNbrs (a : Pt) : List Pt :=
  [(a.1 - 1, a.2 - 1), (a.1 + 1, a.2 - 1), (a.1 + 1, a.2 + 1), (a.1 - 1, a.2 + 1)]

/-- Neighbours of an octagon (square_octagon_color_code.py:147-156). -/
def octagonNbrs (a : Pt) : List Pt :=
  [(a.1 - 2, a.2 - 1), (a.1 - 1, a.2 - 2), (a.1 + 1, a.2 - 2), (a.1 + 2, a.2 - 1), (a.1 + 2, a.2 + 1),
    (a.1 + 1, a.2 + 2), (a.1 - 1, a.2 + 2), (a.1 - 2, a.2 + 1)]

/-- The faces in row order: squares first, then octagons (square_octagon_color_code.py:127-164). -/
def soFaces (squares octagons : List Pt) : List (List Pt) := squares.map squareNbrs ++ octagons.map octagonNbrs

end Verif.Lattice
