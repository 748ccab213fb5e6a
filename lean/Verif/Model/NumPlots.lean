import Verif.Common
import Mathlib.Data.List.Sort
import Mathlib.Algebra.Order.Field.Rat

/-!
# Figures of run times and word error rates (scripts/numerics/visualize)

The names of the files are constants in the scripts that the user fills in; the functions of the model take the contents of the files.  Numbers are
rationals.  The outcome is the list of the calls of `plot` with their data if `plt.show` is reached, or the exception that ends the function.  Labels
of axes, scales and markers are left out.  `np.argsort` and `scipy.optimize.curve_fit` are parameters.
-/

namespace Verif.NumPlots
open Verif

/-- Exceptions: of the context manager, of `popitem`, of attributes of `Axes`, and of `curve_fit` (visualizeDecodingRuntime.py:49, 129, 141;
visualizeWordErrRate.py:103). -/
inductive RErr
  | typeError
  | keyError
  | attributeError
  | fitError
  deriving DecidableEq

/-- The keys of `mcolors.BASE_COLORS` (visualizeDecodingRuntime.py:66, 126). -/
inductive Col
  | b
  | g
  | r
  | c
  | m
  | y
  | k
  | w
  deriving DecidableEq

/-- `mcolors.BASE_COLORS` when matplotlib has been imported; all functions change this one dictionary (visualizeDecodingRuntime.py:66, 126). -/
def baseColors : List Col := [.b, .g, .r, .c, .m, .y, .k, .w]

/-- `col in {"w", "k"}` (visualizeDecodingRuntime.py:70, 130). -/
def invisible (col : Col) : Bool := col = .w || col = .k

/-- The color of a curve, and the remaining dictionary (visualizeDecodingRuntime.py:69-74, 129-134): up to three calls of `popitem`; the result of the
third one is not tested.  The list `cols` is not used. -/
def nextColor (s : List Col) : Except RErr Col × List Col :=
  match s.getLast? with
  | none => (.error .keyError, s)
  | some c1 =>
    if invisible c1 then
      match s.dropLast.getLast? with
      | none => (.error .keyError, s.dropLast)
      | some c2 =>
        if invisible c2 then
          match s.dropLast.dropLast.getLast? with
          | none => (.error .keyError, s.dropLast.dropLast)
          | some c3 => (.ok c3, s.dropLast.dropLast.dropLast)
        else (.ok c2, s.dropLast.dropLast)
    else (.ok c1, s.dropLast)

/-- The contents of a file of run times: for every error rate the code lengths with the times in milliseconds (visualizeDecodingRuntime.py:52-61, 106-121). -/
abbrev Times := List (ℚ × List (ℚ × ℚ))

/-- The calls of `plot`: the measured points of an error rate, the line fitted to them, the points of the general decoder and the parabola fitted to
them (visualizeDecodingRuntime.py:139-148, 155-164). -/
inductive RDraw
  | points (rate : ℚ) (color : Col) (xs ys : List ℚ)
  | line (color : Col) (xs ys : List ℚ)
  | general (rate : ℚ) (xs ys : List ℚ)
  | parabola (xs ys : List ℚ)
  deriving DecidableEq

/-- `np.array(l)[order]` (visualizeDecodingRuntime.py:137-138, 153-154; visualizeWordErrRate.py:29-30). -/
def pick (order : List ℕ) (l : List ℚ) : List ℚ := order.map fun i => l.getD i 0

/-- `lin_fun` (visualizeDecodingRuntime.py:20-22). -/
def linFun (a b x : ℚ) : ℚ := a * x + b

/-- `quad_fun` (visualizeDecodingRuntime.py:25-27). -/
def quadFun (a b x : ℚ) : ℚ := a * x ^ 2 + b

/-- The loop over the error rates (visualizeDecodingRuntime.py:128-148) with the reading of the columns (106-115); the dictionary of colors keeps its
changes if an exception is raised.  `fit` is `curve_fit` with the line. -/
def drawRates (argsort : List ℚ → List ℕ) (fit : List ℚ → List ℚ → Except RErr (ℚ × ℚ)) :
    List Col → Times → Except RErr (List RDraw) × List Col
  | s, [] => (.ok [], s)
  | s, (p, rs) :: rest =>
    match nextColor s with
    | (.error e, s') => (.error e, s')
    | (.ok col, s') =>
      let o := argsort (rs.map (·.1))
      let xs := pick o (rs.map (·.1))
      let ys := pick o (rs.map fun r => r.2 / 1000)
      match fit xs ys with
      | .error e => (.error e, s')
      | .ok ab =>
        match drawRates argsort fit s' rest with
        | (.error e, s'') => (.error e, s'')
        | (.ok ds, s'') => (.ok (.points p col xs ys :: .line col xs (xs.map (linFun ab.1 ab.2)) :: ds), s'')

/-- `pers2` (visualizeDecodingRuntime.py:98, 121). -/
def lastRate (d : Times) : ℚ := (d.getLast?.map (·.1)).getD 0

/-- `runtime_comparison` (visualizeDecodingRuntime.py:88-170); `fit2` is `curve_fit` with the parabola. -/
def runtimeComparison (argsort : List ℚ → List ℕ) (fit fit2 : List ℚ → List ℚ → Except RErr (ℚ × ℚ)) (s : List Col) (d d2 : Times) :
    Except RErr (List RDraw) × List Col :=
  match drawRates argsort fit s d with
  | (.error e, s') => (.error e, s')
  | (.ok ds, s') =>
    let rs := d2.flatMap (·.2)
    let o := argsort (rs.map (·.1))
    let xs := pick o (rs.map (·.1))
    let ys := pick o (rs.map fun r => r.2 / 1000)
    match fit2 xs ys with
    | .error e => (.error e, s')
    | .ok ab => (.ok (ds ++ [.general (lastRate d2) xs ys, .parabola xs (xs.map (quadFun ab.1 ab.2))]), s')

/-- The dictionary of colors after calls of `runtime_comparison` in one process (visualizeDecodingRuntime.py:126). -/
def after (argsort : List ℚ → List ℕ) (fit fit2 : List ℚ → List ℚ → Except RErr (ℚ × ℚ)) (hist : List (Times × Times)) : List Col :=
  hist.foldl (fun s c => (runtimeComparison argsort fit fit2 s c.1 c.2).2) baseColors

/-- `runtime` (visualizeDecodingRuntime.py:40-85): `with Path(input_filen).open as data_file` gives a method to `with`, which is no context manager. -/
def runtime (_ : Times) : Except RErr (List RDraw) := .error .typeError

/-- A curve of word error rates (visualizeWordErrRate.py:56-58). -/
structure WCurve where
  label : String
  color : Col
  xs : List ℚ
  ys : List ℚ
  deriving DecidableEq

/-- A file of word error rates, sorted (visualizeWordErrRate.py:20-30). -/
def werCurve (argsort : List ℚ → List ℕ) (label : String) (color : Col) (d : List (ℚ × ℚ)) : WCurve :=
  ⟨label, color, pick (argsort (d.map (·.1))) (d.map (·.1)), pick (argsort (d.map (·.1))) (d.map (·.2))⟩

/-- `wer` (visualizeWordErrRate.py:12-72): the curves, and the entries of the legend in their order, each a drawn curve and the text beside it. -/
def wer (argsort : List ℚ → List ℕ) (d1 d2 d3 : List (ℚ × ℚ)) : List WCurve × List (WCurve × String) :=
  let c1 := werCurve argsort "heuristic SSG" .b d1
  let c2 := werCurve argsort "GD" .g d2
  let c3 := werCurve argsort "heuristic AG" .r d3
  let handles := [c1, c2, c3]
  let labels := handles.map (·.label)
  let handles' := [handles.getD 1 c1, handles.getD 2 c1, handles.getD 0 c1]
  let labels' := [labels.getD 1 "", labels.getD 2 "", labels.getD 0 ""]
  (handles, handles'.zip labels')

/-- `wer_comp` (visualizeWordErrRate.py:75-117): after two curves, line 103 calls `ax.xlabel`, which `Axes` does not have. -/
def werComp (_ _ : List (ℚ × ℚ)) : Except RErr (List WCurve) := .error .attributeError

end Verif.NumPlots
