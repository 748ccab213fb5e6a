import Verif.Common
import Mathlib.Data.List.Infix

/-!
# The evaluation script (`ft_stateprep/eval/estimate_logical_error_rate.py`)

Which code, and which circuit, the script simulates for given command line arguments and given files in `eval/circuits`.
The simulation itself is the subject of C37, C38, C73-C75.
-/

namespace Verif.Eval
open Verif

/-- The positional argument `code`, as a list of characters (estimate_logical_error_rate.py:49). -/
abbrev CodeName := List Char

/-- `"steane"` (estimate_logical_error_rate.py:24). -/
def steane : CodeName := ['s', 't', 'e', 'a', 'n', 'e']

/-- `"tetrahedral"` (estimate_logical_error_rate.py:24). -/
def tetrahedral : CodeName := ['t', 'e', 't', 'r', 'a', 'h', 'e', 'd', 'r', 'a', 'l']

/-- `"shor"` (estimate_logical_error_rate.py:24). -/
def shor : CodeName := ['s', 'h', 'o', 'r']

/-- `"surface"` (estimate_logical_error_rate.py:24). -/
def surface : CodeName := ['s', 'u', 'r', 'f', 'a', 'c', 'e']

/-- `"cc_4_8_8"` (estimate_logical_error_rate.py:24). -/
def cc488 : CodeName := ['c', 'c', '_', '4', '_', '8', '_', '8']

/-- `"cc_6_6_6"` (estimate_logical_error_rate.py:24). -/
def cc666 : CodeName := ['c', 'c', '_', '6', '_', '6', '_', '6']

/-- `"hamming"` (estimate_logical_error_rate.py:24). -/
def hamming : CodeName := ['h', 'a', 'm', 'm', 'i', 'n', 'g']

/-- `"carbon"` (estimate_logical_error_rate.py:24). -/
def carbon : CodeName := ['c', 'a', 'r', 'b', 'o', 'n']

/-- `available_codes` (estimate_logical_error_rate.py:24). -/
def available : List CodeName := [steane, tetrahedral, shor, surface, cc488, cc666, hamming, carbon]

/-- `--naive_ver`, `--heuristic_ver`, and the default (estimate_logical_error_rate.py:40-41, 67). -/
inductive Ver
  | naive
  | optimal
  | heuristic
deriving DecidableEq

/-- The parsed arguments that matter here (estimate_logical_error_rate.py:25-48). -/
structure Args where
  code : CodeName
  zeroState : Bool
  exactCirc : Bool
  exactVer : Bool
  naiveVer : Bool
  noVer : Bool
  distance : ℕ

/-- The code objects that can be constructed (estimate_logical_error_rate.py:50-63). -/
inductive CodeSel
  | rotatedSurface (d : ℕ)
  | squareOctagon (d : ℕ)
  | hexagonal (d : ℕ)
  | named (n : CodeName)
deriving DecidableEq

/-- The folder below `eval/circuits`: the name of the code, or `rotated_surface_d` and the distance (estimate_logical_error_rate.py:49-65). -/
inductive Folder
  | rotatedSurface (d : ℕ)
  | named (n : CodeName)
deriving DecidableEq

/-- The name of a circuit file: `zero` or `plus`, `ft` or `non_ft`, `opt` or `heuristic`, and the verification, if any, joined by
underscores (estimate_logical_error_rate.py:66-71). -/
structure FileName where
  zero : Bool
  ft : Bool
  exactCirc : Bool
  ver : Option Ver
deriving DecidableEq

/-- Selection of the code (estimate_logical_error_rate.py:49-63); `none` is the `ValueError`. -/
def selectCode (a : Args) : Option (CodeSel × Folder) :=
  if surface <:+: a.code then some (.rotatedSurface a.distance, .rotatedSurface a.distance)
  else if cc488 <:+: a.code then some (.squareOctagon 5, .named a.code)
  else if cc666 <:+: a.code then some (.hexagonal 5, .named a.code)
  else if a.code ∈ available then some (.named a.code, .named a.code)
  else none

/-- `ver_circ_name` (estimate_logical_error_rate.py:67). -/
def verName (a : Args) : Ver := if a.naiveVer then .naive else if a.exactVer then .optimal else .heuristic

/-- `circ_file` (estimate_logical_error_rate.py:66-71). -/
def circFile (a : Args) : FileName := ⟨a.zeroState, !a.noVer, a.exactCirc, some (verName a)⟩

/-- A circuit: the code it was made for, the state, the synthesis method and the verification, if any (estimate_logical_error_rate.py:76-91). -/
structure Circuit where
  code : CodeSel
  zero : Bool
  exactCirc : Bool
  ver : Option Ver
deriving DecidableEq

/-- The circuit built when there is no file (estimate_logical_error_rate.py:75-88). -/
def build (a : Args) (c : CodeSel) : Circuit :=
  ⟨c, a.zeroState, a.exactCirc, some (if a.naiveVer then .naive else if a.exactVer then .optimal else .heuristic)⟩

/-- The circuit handed to the simulator (estimate_logical_error_rate.py:49-96); `store` is the content of `eval/circuits`. -/
def simulated (store : Folder → FileName → Option Circuit) (a : Args) : Option Circuit :=
  match selectCode a with
  | none => none
  | some (c, f) =>
    match store f (circFile a) with
    | none => some (build a c)
    | some qc => some qc

/-- The OpenQASM files shipped with the package (src/mqt/qecc/ft_stateprep/eval/circuits) (listed by estimate_logical_error_rate.py:74). -/
def shipped : List (Folder × FileName) := [
  (.named carbon, ⟨true, true, false, some .heuristic⟩),
  (.named carbon, ⟨true, true, false, some .optimal⟩),
  (.named carbon, ⟨true, true, true, some .optimal⟩),
  (.named carbon, ⟨true, false, false, none⟩),
  (.named carbon, ⟨true, false, true, none⟩),
  (.named cc488, ⟨true, true, false, some .optimal⟩),
  (.named cc488, ⟨true, false, false, none⟩),
  (.named cc666, ⟨true, true, false, some .optimal⟩),
  (.named cc666, ⟨true, false, false, none⟩),
  (.named hamming, ⟨false, true, false, some .heuristic⟩),
  (.named hamming, ⟨false, true, false, some .optimal⟩),
  (.named hamming, ⟨false, true, true, some .optimal⟩),
  (.named hamming, ⟨false, false, false, none⟩),
  (.named hamming, ⟨false, false, true, none⟩),
  (.named hamming, ⟨true, true, false, some .heuristic⟩),
  (.named hamming, ⟨true, true, false, some .optimal⟩),
  (.named hamming, ⟨true, true, true, some .optimal⟩),
  (.named hamming, ⟨true, false, false, none⟩),
  (.named hamming, ⟨true, false, true, none⟩),
  (.rotatedSurface 3, ⟨false, true, false, some .heuristic⟩),
  (.rotatedSurface 3, ⟨false, true, false, some .optimal⟩),
  (.rotatedSurface 3, ⟨false, true, true, some .optimal⟩),
  (.rotatedSurface 3, ⟨false, false, false, none⟩),
  (.rotatedSurface 3, ⟨false, false, true, none⟩),
  (.rotatedSurface 3, ⟨true, true, false, some .heuristic⟩),
  (.rotatedSurface 3, ⟨true, true, false, some .optimal⟩),
  (.rotatedSurface 3, ⟨true, true, true, some .optimal⟩),
  (.rotatedSurface 3, ⟨true, false, false, none⟩),
  (.rotatedSurface 3, ⟨true, false, true, none⟩),
  (.rotatedSurface 5, ⟨true, true, false, some .naive⟩),
  (.rotatedSurface 5, ⟨true, true, false, some .optimal⟩),
  (.rotatedSurface 5, ⟨true, false, false, none⟩),
  (.named shor, ⟨false, true, false, some .heuristic⟩),
  (.named shor, ⟨false, true, false, some .optimal⟩),
  (.named shor, ⟨false, true, true, some .optimal⟩),
  (.named shor, ⟨false, false, false, none⟩),
  (.named shor, ⟨false, false, true, none⟩),
  (.named shor, ⟨true, true, false, some .heuristic⟩),
  (.named shor, ⟨true, true, false, some .optimal⟩),
  (.named shor, ⟨true, true, true, some .optimal⟩),
  (.named shor, ⟨true, false, false, none⟩),
  (.named shor, ⟨true, false, true, none⟩),
  (.named steane, ⟨false, true, false, some .heuristic⟩),
  (.named steane, ⟨false, true, false, some .optimal⟩),
  (.named steane, ⟨false, true, true, some .optimal⟩),
  (.named steane, ⟨false, false, false, none⟩),
  (.named steane, ⟨false, false, true, none⟩),
  (.named steane, ⟨true, true, false, some .heuristic⟩),
  (.named steane, ⟨true, true, false, some .optimal⟩),
  (.named steane, ⟨true, true, true, some .optimal⟩),
  (.named steane, ⟨true, false, false, none⟩),
  (.named steane, ⟨true, false, true, none⟩),
  (.named tetrahedral, ⟨false, true, false, some .heuristic⟩),
  (.named tetrahedral, ⟨false, true, false, some .optimal⟩),
  (.named tetrahedral, ⟨false, false, false, none⟩),
  (.named tetrahedral, ⟨true, true, false, some .heuristic⟩),
  (.named tetrahedral, ⟨true, true, false, some .optimal⟩),
  (.named tetrahedral, ⟨true, true, true, some .optimal⟩),
  (.named tetrahedral, ⟨true, false, false, none⟩),
  (.named tetrahedral, ⟨true, false, true, none⟩)]

end Verif.Eval
