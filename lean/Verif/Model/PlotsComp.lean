import Verif.Model.Plots

/-!
# Plots for the comparison of solvers (src/mqt/qecc/cc_decoder/plots.py:266-352)

The parallel lists of rates and times are lists of pairs here.  The directories are given in the order in which `os.walk` finds them, each
with the last component of its path and the results in its files.  Labels of axes and legends are left out.
-/

namespace Verif.PlotsComp
open Verif Verif.Plots

/-- The entries of a result file that are used (plots.py:302-309). -/
structure CRes where
  distance : ℕ
  p : ℚ
  time : ℚ

/-- A directory: the name of the solver (plots.py:288) and the results. -/
abbrev Dir := String × List CRes

/-- A call of `plot`: on `ax[0]` for a solver and a distance, on `ax[1]` for a rate with the name of a solver in the label; a color is an index
into `cols`, and the marker `x` is `true` (plots.py:313-318, 334-340). -/
inductive CDraw
  | overRate (solver : String) (d : ℕ) (color : ℕ) (xs ys : List ℚ)
  | overDistance (p : ℚ) (solver : String) (color : ℕ) (marker : Bool) (xs ys : List ℚ)
  deriving DecidableEq

/-- `metrics` (plots.py:298-306). -/
def groups (rs : List CRes) : Assoc ℕ (List (ℚ × ℚ)) := rs.foldl (fun m r => alter [] (· ++ [(r.p, r.time)]) r.distance m) []

/-- The order of Python's pairs (`sorted` in plots.py:312). -/
def pairLe (a b : ℚ × ℚ) : Prop := a.1 < b.1 ∨ a.1 = b.1 ∧ a.2 ≤ b.2

/-- Pairs can be compared (plots.py:312). -/
instance : DecidableRel pairLe := fun _ _ => inferInstanceAs (Decidable (_ ∨ _))

/-- The distances that are drawn over the rate (plots.py:309). -/
def shown (d : ℕ) : Bool := d = 17 || d = 21

/-- The sorting of the lists of these distances (plots.py:310-313); it changes `metrics`. -/
def sortShown (e : ℕ × List (ℚ × ℚ)) : ℕ × List (ℚ × ℚ) := if shown e.1 then (e.1, e.2.insertionSort pairLe) else e

/-- `pers` (plots.py:323). -/
def compPers : List ℚ := [1 / 1000, 51 / 1000, 131 / 1000]

/-- `solver if solver == "z3" else "CASHWMaxSAT-CorePlus"` (plots.py:338). -/
def label (solver : String) : String := if solver = "z3" then solver else "CASHWMaxSAT-CorePlus"

/-- The loop over the rates (plots.py:334-341); `pd` is `p_data` in the order of insertion, which gives the colors (plots.py:328-331): all of its
rates got their color in the same directory.  `ds` are all distances; lists of different lengths raise an exception. -/
def drawRates (solver : String) (ds : List ℚ) (pd : Assoc ℚ (List ℚ)) : Assoc ℚ (List ℚ) → Except PErr (List CDraw)
  | [] => .ok []
  | (p, ts) :: rest => do
    if ds.length ≠ ts.length then .error .valueError
    let b ← drawRates solver ds pd rest
    pure (.overDistance p (label solver) ((pd.map (·.1)).idxOf p) (solver = "z3") ds ts :: b)

/-- `idx` and `solver_to_col` (plots.py:281-282). -/
structure Colors where
  idx : ℕ := 0
  ofSolver : Assoc String ℕ := []

/-- The color of a new solver (plots.py:289-291); `idx` is at most 3 here, and there are ten colors. -/
def Colors.add (c : Colors) (solver : String) : Colors :=
  match c.ofSolver.lookup solver with
  | some _ => c
  | none => ⟨c.idx + 1, c.ofSolver ++ [(solver, c.idx)]⟩

/-- `metrics` of a directory sorted by distance, after the first loop (plots.py:298-313). -/
def items (rs : List CRes) : Assoc ℕ (List (ℚ × ℚ)) := (sortedItems (groups rs)).map sortShown

/-- The body of the loop over the directories (plots.py:285-341). -/
def drawDir (c : Colors) (dir : Dir) : Except PErr (List CDraw × Colors) :=
  if dir.2.isEmpty then .ok ([], c)
  else do
    let c' := c.add dir.1
    let s := items dir.2
    let col := (c'.ofSolver.lookup dir.1).getD 0
    let a := (s.filter fun e => shown e.1).map fun e => CDraw.overRate dir.1 e.1 col (e.2.map (·.1)) (e.2.map (·.2))
    let pd := pData compPers s []
    let b ← drawRates dir.1 (s.map fun e => (e.1 : ℚ)) pd (sortedItems pd)
    pure (a ++ b, ⟨pd.length, c'.ofSolver⟩)

/-- The loop over the directories (plots.py:284-340). -/
def drawDirs (c : Colors) : List Dir → Except PErr (List CDraw)
  | [] => .ok []
  | dir :: rest => do
    let r ← drawDir c dir
    let b ← drawDirs r.2 rest
    pure (r.1 ++ b)

/-- `generate_plots_comp` (plots.py:266-352). -/
def generatePlotsComp (dirs : List Dir) : Except PErr (List CDraw) := drawDirs {} dirs

end Verif.PlotsComp
