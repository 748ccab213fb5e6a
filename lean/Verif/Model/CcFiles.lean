import Verif.Common
import Verif.Model.Names
import Mathlib.Algebra.Order.Floor.Ring
import Mathlib.Data.Rat.Floor

/-!
# Result files of the color code decoders and their command line

`run` of the MaxSAT decoder and of the tensor-network decoder, and `cli`.  The dictionary that a simulation returns is an opaque value `D`
(see `Model/LightsOutSim` for the one of `simulate_error_rate`; the other one comes from the package qecsim).  A directory is a map from names
to contents; directories are told apart by the string that names them.  Texts are lists of characters.
-/

namespace Verif.CcFiles
open Verif Verif.Names

/-- Models file names, decoder.py:203-208. -/
abbrev Text := List Char

/-- Exceptions (raised in decoder.py:192-208, tn_decoder.py:13-34). -/
inductive CErr
  | valueError
  | simulation
  deriving DecidableEq

/-- Rounding of a number to an integer, ties to even (Python's `round`) (decoder.py:204, tn_decoder.py:30). -/
def roundHalfEven (x : ℚ) : ℤ :=
  if x - ⌊x⌋ < 1 / 2 then ⌊x⌋
  else if 1 / 2 < x - ⌊x⌋ then ⌊x⌋ + 1
  else if ⌊x⌋ % 2 = 0 then ⌊x⌋ else ⌊x⌋ + 1

/-- `round(error_rate, 4)` (decoder.py:204, tn_decoder.py:30), exact. -/
def round4 (p : ℚ) : ℚ := (roundHalfEven (p * 10000) : ℚ) / 10000

/-- How Python writes numbers and lattices: the shortest text of a float, and the value of a member of `LatticeType` in a formatted string
(`hexagon` until Python 3.11, `LatticeType.HEXAGON` since Python 3.12).  Different values have different texts, and no text has a comma (decoder.py:203-204, tn_decoder.py:30). -/
structure Fmt where
  float : ℚ → Text
  lattice : Lattice → Text
  float_inj : Function.Injective float
  lattice_inj : Function.Injective lattice
  float_comma : ∀ p, ',' ∉ float p
  lattice_comma : ∀ l, ',' ∉ lattice l

/-- `solver.split("/")[-1]` (decoder.py:203). -/
def baseName : Text → Text
  | [] => []
  | c :: cs => if '/' ∈ cs then baseName cs else if c = '/' then cs else c :: cs

/-- The file name of the MaxSAT decoder (decoder.py:204); the leading `./` has no effect on the path. -/
def maxsatName (f : Fmt) (l : Lattice) (d : ℕ) (p : ℚ) (solver : Text) : Text :=
  "code=".toList ++ (f.lattice l ++ (",distance=".toList ++ (Nat.toDigits 10 d ++ (",p=".toList ++ (f.float (round4 p) ++
    (",solver=".toList ++ (baseName solver ++ ".json".toList)))))))

/-- The file name of the tensor-network decoder (tn_decoder.py:30). -/
def tnName (f : Fmt) (d : ℕ) (p : ℚ) : Text :=
  "distance=".toList ++ (Nat.toDigits 10 d ++ (",p=".toList ++ (f.float (round4 p) ++ ".json".toList)))

/-- The files: directory and name (decoder.py:205-208, tn_decoder.py:31-34). -/
abbrev Fs (D : Type) := Text → Text → Option D

/-- `(path / filename).open("w")` and writing the dictionary (decoder.py:205-208, tn_decoder.py:31-34). -/
def write {D : Type} (fs : Fs D) (dir name : Text) (v : D) : Fs D :=
  fun dir' name' => if dir' = dir ∧ name' = name then some v else fs dir' name'

/-- What a simulation is asked for (the arguments of `simulate_error_rate`, decoder.py:202). -/
structure Job where
  lattice : Lattice
  distance : ℕ
  rate : ℚ
  sims : ℕ
  solver : Text

/-- `run` (decoder.py:192-208); `sim` is `simulate_error_rate` with its random samples. -/
def maxsatRun {D : Type} (f : Fmt) (sim : Job → Except CErr D) (fs : Fs D) (type : String) (d : ℕ) (p : ℚ) (n : ℕ) (dir solver : Text) :
    Except CErr Unit × Fs D :=
  match codeFromString type d with
  | .error _ => (.error .valueError, fs)
  | .ok (l, d) =>
    match sim ⟨l, d, p, n, solver⟩ with
    | .error e => (.error e, fs)
    | .ok v => (.ok (), write fs dir (maxsatName f l d p solver) v)

/-- `run` (tn_decoder.py:13-34); `sim` is qecsim's simulation of the hexagonal color code, for a distance, a rate and a number of samples. -/
def tnRun {D : Type} (f : Fmt) (sim : ℕ → ℚ → ℕ → Except CErr D) (fs : Fs D) (d : ℕ) (p : ℚ) (n : ℕ) (dir : Text) :
    Except CErr Unit × Fs D :=
  match sim d p n with
  | .error e => (.error e, fs)
  | .ok v => (.ok (), write fs dir (tnName f d p) v)

/-- The arguments of the command line, with their defaults (cli.py:13-46). -/
structure Args where
  distance : ℕ
  rate : ℚ
  type : String := "hexagon"
  sims : ℕ := 10000
  dir : Text := "./results".toList
  decoder : String := "maxsat"
  solver : Text := "z3".toList

/-- `cli` (cli.py:10-62) after the parsing of the arguments. -/
def cli {D : Type} (f : Fmt) (sim : Job → Except CErr D) (tnSim : ℕ → ℚ → ℕ → Except CErr D) (fs : Fs D) (a : Args) :
    Except CErr Unit × Fs D :=
  if a.decoder = "maxsat" then maxsatRun f sim fs a.type a.distance a.rate a.sims a.dir a.solver
  else if a.decoder = "tn" then tnRun f tnSim fs a.distance a.rate a.sims a.dir
  else (.error .valueError, fs)

/-- A sequence of calls of the command line, each with the outcomes of its simulations; exceptions end their own call only (repeated `run`, cli.py:10-62). -/
def calls {D : Type} (f : Fmt) : Fs D → List (Args × (Job → Except CErr D) × (ℕ → ℚ → ℕ → Except CErr D)) → Fs D
  | fs, [] => fs
  | fs, (a, sim, tnSim) :: cs => calls f (cli f sim tnSim fs a).2 cs

end Verif.CcFiles
