import Verif.Model.CSS

/-!
# Model of `LutDecoder` (`src/mqt/qecc/ft_stateprep/simulation.py:335-411`)

Python dictionaries are association lists in insertion order.  Dictionary keys are the bytes of an
int8 syndrome array; since all syndromes of one table have the same length, byte strings and
syndromes are in bijection, so the syndrome itself is the key.  Simplification: callers pass int8
syndromes (any other dtype has different bytes and misses the table).
-/

namespace Verif.Lut
open Verif

/-- `np.array(list(np.binary_repr(i).zfill(n_qubits)))` (simulation.py:402): bits of `i`, most
significant first. -/
def stateOf (n i : ℕ) : Vec n := fun j => if i.testBit (n - 1 - j.val) then 1 else 0

/-- `syndromes[key].append(state)` on a `defaultdict(list)` (simulation.py:404). -/
def appendTo {κ α : Type*} [DecidableEq κ] (k : κ) (a : α) : List (κ × List α) → List (κ × List α)
  | [] => [(k, [a])]
  | (k', l) :: d => if k' = k then (k', l ++ [a]) :: d else (k', l) :: appendTo k a d

/-- Python `min(v, key=np.sum)`: the first element of minimal weight (simulation.py:408); `none`
stands for the `ValueError` of an empty list. -/
def minByWt {n : ℕ} : List (Vec n) → Option (Vec n)
  | [] => none
  | v :: vs =>
    match minByWt vs with
    | none => some v
    | some w => if wt v ≤ wt w then some v else some w

/-- The table of all errors per syndrome (simulation.py:399-404). -/
def syndromeTable {n : ℕ} (checks : List (Vec n)) : List (List (ZMod 2) × List (Vec n)) :=
  (List.range (2 ^ n)).foldl
    (fun d i => appendTo (mulVec checks (stateOf n i)) (stateOf n i) d) []

/-- A lookup table (simulation.py:352-358). -/
abbrev Table (n : ℕ) := List (List (ZMod 2) × Vec n)

/-- `LutDecoder._generate_lut` (simulation.py:392-411).  No entry of the intermediate table is
empty, so `filterMap` drops nothing (`minByWt` never fails). -/
def generateLut {n : ℕ} (checks : List (Vec n)) : Table n :=
  (syndromeTable checks).filterMap fun e => (minByWt e.2).map fun v => (e.1, v)

/-- The mutable attributes of a `LutDecoder` for the code `c` (simulation.py:345-347). -/
structure Luts (c : CSS.Code) where
  xLut : Table c.n
  zLut : Table c.n

variable {c : CSS.Code}

/-- `generate_x_lut` (simulation.py:372-380). -/
def generateXLut (d : Luts c) : Luts c :=
  if d.xLut.length ≠ 0 then d
  else
    let d' := { d with xLut := generateLut c.hz }
    if c.isSelfDual then { d' with zLut := d'.xLut } else d'

/-- `generate_z_lut` (simulation.py:382-390). -/
def generateZLut (d : Luts c) : Luts c :=
  if d.zLut.length ≠ 0 then d
  else
    let d' := { d with zLut := generateLut c.hx }
    if c.isSelfDual then { d' with zLut := d'.xLut } else d'

/-- `LutDecoder.__init__` (simulation.py:338-350). -/
def mkDecoder (c : CSS.Code) (initLuts : Bool) : Luts c :=
  if initLuts then generateZLut (generateXLut ⟨[], []⟩) else ⟨[], []⟩

/-- `decode_x` (simulation.py:360-364): result and new state; `none` is a `KeyError`. -/
def decodeX (d : Luts c) (s : List (ZMod 2)) : Option (Vec c.n) × Luts c :=
  let d' := if d.xLut.length = 0 then generateXLut d else d
  (d'.xLut.lookup s, d')

/-- `decode_z` (simulation.py:366-370). -/
def decodeZ (d : Luts c) (s : List (ZMod 2)) : Option (Vec c.n) × Luts c :=
  let d' := if d.zLut.length = 0 then generateZLut d else d
  (d'.zLut.lookup s, d')

/-- The calls a user can make on a decoder (simulation.py:352-390). -/
inductive Call
  | genX
  | genZ
  | decX (s : List (ZMod 2))
  | decZ (s : List (ZMod 2))
  | batchX (ss : List (List (ZMod 2)))
  | batchZ (ss : List (List (ZMod 2)))

/-- State after a call.  A batch call (simulation.py:352-358) decodes row by row; a `KeyError` in
the middle of a batch leaves the state of the rows processed so far, and all rows after the first
leave the state unchanged, so folding over all rows gives the same final state. -/
def step (d : Luts c) : Call → Luts c
  | .genX => generateXLut d
  | .genZ => generateZLut d
  | .decX s => (decodeX d s).2
  | .decZ s => (decodeZ d s).2
  | .batchX ss => ss.foldl (fun d s => (decodeX d s).2) d
  | .batchZ ss => ss.foldl (fun d s => (decodeZ d s).2) d

/-- State after a history of calls on a freshly constructed decoder (repeated calls, simulation.py:360-390). -/
def after (c : CSS.Code) (initLuts : Bool) (h : List Call) : Luts c :=
  h.foldl step (mkDecoder c initLuts)

end Verif.Lut
