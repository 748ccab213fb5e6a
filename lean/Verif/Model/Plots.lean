import Verif.Common
import Mathlib.Data.List.Sort
import Mathlib.Data.List.Lex
import Mathlib.Data.Prod.Lex
import Mathlib.Algebra.Order.Field.Rat

/-!
# Plots of the color code decoders (src/mqt/qecc/cc_decoder/plots.py)

What `generate_plots` and `generate_plots_tn` draw.  A result file is a record of the entries that are used; floats are
rationals.  The outcome is the list of the drawing calls with their data, or the exception that ends the function; labels of axes, legends and
limits are left out, and the least-squares fit of scipy is represented by the data that it is given (it is taken to succeed).
-/

namespace Verif.Plots
open Verif

/-- Exceptions (raised in plots.py:54-263). -/
inductive PErr
  | valueError
  | indexError
  | keyError
  | unboundLocal
  | zeroDivision
  deriving DecidableEq

/-- A drawing call: `bars` is `errorbar` and `line` is `plot` on `ax[row][col]`; `fit` is the input of `curve_fit` for `ax[1][col]` (plots.py:162, 167, 186, 194-195, 220, 236, 254). -/
inductive Draw
  | bars (row col : ℕ) (label : ℕ) (xs ys ebs : List ℚ)
  | line (row col : ℕ) (label : ℚ) (xs ys : List ℚ)
  | fit (col : ℕ) (ps : List ℚ) (ds : List ℕ) (ys : List ℚ)
  deriving DecidableEq

/-- A result of `simulate_error_rate` (decoder.py:178-189); the lattice, the times of the phases and the least weights are not used. -/
structure Res where
  distance : ℕ
  p : ℚ
  lers : List ℚ
  ebs : List ℚ
  time : ℚ

/-- `metrics[d]` (plots.py:130-136): parallel lists. -/
structure MData where
  ps : List ℚ := []
  lers : List (List ℚ) := []
  ebs : List (List ℚ) := []
  times : List ℚ := []

/-- A dictionary in the order of insertion (plots.py:122-123, 175, 209). -/
abbrev Assoc (K V : Type) := List (K × V)

/-- `if k not in dic: dic[k] = dflt` and then a change of `dic[k]` (plots.py:129-144). -/
def alter {K V : Type} [DecidableEq K] (dflt : V) (g : V → V) (k : K) : Assoc K V → Assoc K V
  | [] => [(k, g dflt)]
  | (k', v) :: rest => if k' = k then (k', g v) :: rest else (k', v) :: alter dflt g k rest

/-- Appending a result (plots.py:140-144). -/
def MData.add (m : MData) (r : Res) : MData := ⟨m.ps ++ [r.p], m.lers ++ [r.lers], m.ebs ++ [r.ebs], m.times ++ [r.time]⟩

/-- `metrics` (plots.py:125-144). -/
def metrics (rs : List Res) : Assoc ℕ MData := rs.foldl (fun m r => alter {} (fun e => e.add r) r.distance m) []

/-- `per_metrics` (plots.py:137-146); a later file replaces an earlier one. -/
def perMetrics (rs : List Res) : Assoc ℚ (Assoc ℕ (List ℚ)) :=
  rs.foldl (fun m r => alter [] (fun e => alter [] (fun _ => r.lers) r.distance e) r.p m) []

/-- `sorted(dict.items())`: keys are different, the values are never compared (plots.py:147, 177, 185, 219, 235, 245, 253). -/
def sortedItems {K V : Type} [LinearOrder K] (d : Assoc K V) : Assoc K V := d.insertionSort fun a b => a.1 ≤ b.1

/-- Models the tuples of plots.py:149. -/
abbrev Row := ℚ × List ℚ × ℚ × List ℚ

/-- The order of Python's tuples and lists (`sorted` in plots.py:149). -/
def rowLe (a b : Row) : Prop := toLex (a.1, toLex (a.2.1, toLex (a.2.2.1, a.2.2.2))) ≤ toLex (b.1, toLex (b.2.1, toLex (b.2.2.1, b.2.2.2)))

/-- Tuples can be compared (plots.py:149). -/
instance : DecidableRel rowLe := fun _ _ => inferInstanceAs (Decidable (_ ≤ _))

/-- `zip(mdata["p"], mdata[ler_k], mdata["avg_total_time"], mdata[ler_eb_k])` (plots.py:149). -/
def MData.rows (m : MData) : List Row := m.ps.zip (m.lers.zip (m.times.zip m.ebs))

/-- The sorting of `metrics[d]` (plots.py:148-150). -/
def MData.sort (m : MData) : MData :=
  let rows := m.rows.insertionSort rowLe
  ⟨rows.map (·.1), rows.map (·.2.1), rows.map (·.2.2.2), rows.map (·.2.2.1)⟩

/-- `np.sum(…, axis=1)` (plots.py:153-154): rows of different lengths raise an exception. -/
def rectangular (l : List (List ℚ)) : Bool := l.all fun r => r.length = (l.headD []).length

/-- `a[:, j]` of a rectangular array (plots.py:159, 161). -/
def column (l : List (List ℚ)) (j : ℕ) : Except PErr (List ℚ) :=
  l.mapM fun r => match r[j]? with
    | some x => .ok x
    | none => .error .indexError

/-- The loop over the logicals (plots.py:157-162), from the index `j` on; there are four columns of axes. -/
def drawLogicals (d : ℕ) (m : MData) : (todo j : ℕ) → Except PErr (List Draw)
  | 0, _ => .ok []
  | todo + 1, j => do
    let y ← column m.lers j
    let e ← column m.ebs j
    if 4 ≤ j then .error .indexError
    let rest ← drawLogicals d m todo (j + 1)
    pure (.bars 0 j d m.ps y e :: rest)

/-- The number of logicals, `len(mdata[ler_k][0])` (plots.py:157, 191). -/
def MData.logicals (m : MData) : ℕ := (m.lers.headD []).length

/-- One distance (plots.py:148-171), after the sorting. -/
def drawDistance (d : ℕ) (m : MData) : Except PErr (List Draw) := do
  if rectangular m.lers && rectangular m.ebs then
    let l ← drawLogicals d m m.logicals 0
    pure (l ++ [.line 1 0 d m.ps m.times])
  else .error .valueError

/-- The loop over the distances (plots.py:147-171); `items` are sorted by distance, and the entries have been sorted. -/
def drawDistances : Assoc ℕ MData → Except PErr (List Draw)
  | [] => .ok []
  | (d, m) :: rest => do
    let a ← drawDistance d m
    let b ← drawDistances rest
    pure (a ++ b)

/-- `pers` (plots.py:176). -/
def pers : List ℚ := [1 / 1000, 2 / 100, 5 / 100, 8 / 100, 13 / 100]

/-- `p_data` (plots.py:177-184) as dictionary from rates to times (the entry `d` is never read): the inner loop for one distance. -/
def collect (sel : List ℚ) : List (ℚ × ℚ) → Assoc ℚ (List ℚ) → Assoc ℚ (List ℚ)
  | [], acc => acc
  | (p, t) :: rest, acc => collect sel rest (if p ∈ sel then alter [] (· ++ [t]) p acc else acc)

/-- `p_data` (plots.py:177-184). -/
def pData (sel : List ℚ) : Assoc ℕ (List (ℚ × ℚ)) → Assoc ℚ (List ℚ) → Assoc ℚ (List ℚ)
  | [], acc => acc
  | (_, pts) :: rest, acc => pData sel rest (collect sel pts acc)

/-- `ax[…][1].plot(ds, pdata["t"])` (plots.py:185-186, 253-254): `ds` are all distances; lists of different lengths raise an exception. -/
def drawTimes (row : ℕ) (ds : List ℚ) : Assoc ℚ (List ℚ) → Except PErr (List Draw)
  | [] => .ok []
  | (p, ts) :: rest => do
    if ds.length ≠ ts.length then .error .valueError
    let b ← drawTimes row ds rest
    pure (.line row 1 p ds ts :: b)

/-- Rate and rate of logical errors of a row (plots.py:74-76). -/
def pick (idx : ℕ) (r : ℚ × List ℚ) : Except PErr (ℚ × ℚ) :=
  match r.2[idx]? with
  | some x => .ok (r.1, x)
  | none => .error .indexError

/-- The rows of a distance that `calculate_threshold` selects (plots.py:72-80). -/
def selected (idx : ℕ) (lo hi : ℚ) (m : MData) : Except PErr (List (ℚ × ℚ)) :=
  ((m.ps.zip m.lers).filter fun r => lo < r.1 ∧ r.1 < hi).mapM (pick idx)

/-- The points of all distances, in the order of the dictionary (plots.py:66-81). -/
def fitPoints (idx : ℕ) (lo hi : ℚ) : Assoc ℕ MData → Except PErr (List (ℚ × ℕ × ℚ))
  | [] => .ok []
  | (d, m) :: rest => do
    let a ← selected idx lo hi m
    let b ← fitPoints idx lo hi rest
    pure (a.map (fun x => (x.1, d, x.2)) ++ b)

/-- The error bars of `calculate_threshold` (plots.py:88-104), in the order of the distances. -/
def thresholdBars (col idx : ℕ) : Assoc ℕ MData → Except PErr (List Draw)
  | [] => .ok []
  | (d, m) :: rest => do
    let y ← column m.lers idx
    let e ← column m.ebs idx
    let b ← thresholdBars col idx rest
    pure (.bars 1 col d m.ps y e :: b)

/-- `calculate_threshold` (plots.py:54-110) on `ax[1][col]` for the logical `idx`. -/
def threshold (m sorted : Assoc ℕ MData) (col idx : ℕ) (lo hi : ℚ) : Except PErr (List Draw) := do
  let pts ← fitPoints idx lo hi m
  let bars ← thresholdBars col idx sorted
  pure (.fit col (pts.map (·.1)) (pts.map (·.2.1)) (pts.map (·.2.2)) :: bars)

/-- The loop that calls `calculate_threshold` (plots.py:193-194): the logical is not handed on, so that its default 0 is used. -/
def thresholds (m sorted : Assoc ℕ MData) : (todo j : ℕ) → Except PErr (List Draw)
  | 0, _ => .ok []
  | todo + 1, j => do
    let a ← threshold m sorted j 0 (6 / 100) (13 / 100)
    let b ← thresholds m sorted todo (j + 1)
    pure (a ++ b)

/-- `plot_ler_vs_distance` (plots.py:25-37) for one rate and the logical 0, on `ax[3][0]`. -/
def lerVsDistance (per : Assoc ℚ (Assoc ℕ (List ℚ))) (p : ℚ) : Except PErr (List Draw) :=
  match per.lookup p with
  | none => .error .keyError
  | some e => do
    let ys ← column ((sortedItems e).map (·.2)) 0
    pure [.line 3 0 p ((sortedItems e).map fun x => (x.1 : ℚ)) ys]

/-- `generate_plots` (plots.py:113-197), for the results in the order in which the files are found. -/
def generatePlots (rs : List Res) : Except PErr (List Draw) := do
  let m := (metrics rs).map fun e => (e.1, e.2.sort)
  let s := sortedItems m
  let a ← drawDistances s
  let b ← drawTimes 2 (s.map fun e => (e.1 : ℚ)) (sortedItems (pData pers (s.map fun e => (e.1, e.2.ps.zip e.2.times)) []))
  let c ← match s.getLast? with
    | none => .error .unboundLocal
    | some e => thresholds m s e.2.logicals 0
  let d ← lerVsDistance (perMetrics rs) (1 / 100)
  pure (a ++ (b ++ (c ++ d)))

/-! ## The tensor-network decoder -/

/-- A result of qecsim's `app.run`: `n_k_d[-1]`, `physical_error_rate` (the measured rate), `logical_failure_rate`, `error_probability` (the
given rate), `wall_time` and `n_run` (plots.py:210-212, 227-230). -/
structure TnRes where
  d : ℕ
  physical : ℚ
  logical : ℚ
  p : ℚ
  wall : ℚ
  runs : ℕ

/-- `code_to_xys` with its sorting (plots.py:209-215, 226-233). -/
def xys (pts : List (ℕ × ℚ × ℚ)) : Assoc ℕ (List (ℚ × ℚ)) :=
  (pts.foldl (fun m x => alter [] (· ++ [x.2]) x.1 m) []).map fun e => (e.1, e.2.insertionSort fun a b => a.1 ≤ b.1)

/-- The lines of the distances (plots.py:219-220, 235-236). -/
def tnLines (row : ℕ) (x : Assoc ℕ (List (ℚ × ℚ))) : List Draw := (sortedItems x).map fun e => .line row 0 e.1 (e.2.map (·.1)) (e.2.map (·.2))

/-- The second map (plots.py:226-230): microseconds per run; a division by zero raises an exception. -/
def tnTimes : List TnRes → Except PErr (List (ℕ × ℚ × ℚ))
  | [] => .ok []
  | r :: rest => do
    if r.runs = 0 then .error .zeroDivision
    let b ← tnTimes rest
    pure ((r.d, r.p, r.wall / r.runs * 1000000) :: b)

/-- `pers` (plots.py:244). -/
def tnPers : List ℚ := [1 / 1000, 21 / 1000, 51 / 1000, 81 / 1000, 111 / 1000]

/-- `generate_plots_tn` (plots.py:200-263). -/
def generatePlotsTn (rs : List TnRes) : Except PErr (List Draw) := do
  let ts ← tnTimes rs
  let s := sortedItems (xys ts)
  let c ← drawTimes 1 (s.map fun e => (e.1 : ℚ)) (sortedItems (pData tnPers s []))
  pure (tnLines 0 (xys (rs.map fun r => (r.d, r.physical, r.logical))) ++ (tnLines 1 (xys ts) ++ c))

end Verif.Plots
