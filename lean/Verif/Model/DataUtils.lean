import Verif.Common
import Mathlib.Analysis.SpecialFunctions.Pow.Real

/-!
# Model of `analog_information_decoding/utils/data_utils.py`

Floating point numbers are real numbers.  A results dictionary is a record: the keys the code reads or writes are
optional fields, all other entries are `other`.
-/

namespace Verif.Data
open Verif

/-! ## Output files -/

/-- The file name for an identifier (data_utils.py:164-167). -/
def fileName (dir : String) (i : ℕ) : String := dir ++ ("id_" ++ (toString i ++ ".json"))

/-- The loop of `create_outpath` (data_utils.py:164-167) on a file system containing the files `fs`; `none` when the
fuel is used up. -/
def findFree (fs : List String) (dir : String) : ℕ → ℕ → Option ℕ
  | 0, _ => none
  | fuel + 1, i => if fs.contains (fileName dir i) then findFree fs dir fuel (i + 1) else some i

/-- `create_outpath` (data_utils.py:108-170) in directory `dir` (the part of the path before the identifier): the
returned path and the files afterwards (`touch`).  The fuel is enough by `C45_smallest_unused`. -/
def createOutpath (fs : List String) (dir : String) (identifier : ℕ) : Option (String × List String) :=
  (findFree fs dir (fs.length + 1) identifier).map fun i =>
    (fileName dir i, if fs.contains (fileName dir i) then fs else fileName dir i :: fs)

/-- A sequence of calls: the returned paths and the files afterwards (repeated `create_outpath`, data_utils.py:108-170). -/
def createAll : List String → List (String × ℕ) → Option (List String × List String)
  | fs, [] => some ([], fs)
  | fs, (dir, i) :: cs => do
    let (p, fs1) ← createOutpath fs dir i
    let (ps, fs2) ← createAll fs1 cs
    some (p :: ps, fs2)

/-! ### Two processes -/

/-- A process inside `create_outpath`: about to test `exists` for an identifier, about to `touch` it, or done (data_utils.py:164-170). -/
inductive Proc
  | testing (i : ℕ)
  | touching (i : ℕ)
  | done (path : String)
deriving DecidableEq

/-- One atomic step of a process (data_utils.py:164-169): `exists` and `touch` are separate system calls, and `touch`
succeeds on an existing file. -/
def Proc.step (dir : String) (fs : List String) : Proc → Proc × List String
  | .testing i => if fs.contains (fileName dir i) then (.testing (i + 1), fs) else (.touching i, fs)
  | .touching i => (.done (fileName dir i), if fs.contains (fileName dir i) then fs else fileName dir i :: fs)
  | .done p => (.done p, fs)

/-- Two processes and a schedule: `true` lets the first process make a step (data_utils.py:164-170). -/
def interleave (dir : String) : List Bool → Proc × Proc × List String → Proc × Proc × List String
  | [], s => s
  | true :: sch, (a, b, fs) => interleave dir sch ((a.step dir fs).1, b, (a.step dir fs).2)
  | false :: sch, (a, b, fs) => interleave dir sch (a, (b.step dir fs).1, (b.step dir fs).2)

/-! ## Error rates -/

/-- Logical error rate, its error bar, word error rate, its error bar (data_utils.py:72-87). -/
structure Rates where
  ler : ℝ
  lerEb : ℝ
  wer : ℝ
  werEb : ℝ

/-- Exceptions (raised in data_utils.py:72-105, 200-353). -/
inductive DErr
  | zeroDivision
  | keyError
deriving DecidableEq

/-- `calculate_error_rates` (data_utils.py:72-87) and `_update_error_rates` (data_utils.py:200-211), the same formulas. -/
noncomputable def errorRates (success runs k : ℕ) : Except DErr Rates :=
  if runs = 0 ∨ k = 0 then .error .zeroDivision
  else
    let ler : ℝ := 1 - (success : ℝ) / runs
    let lerEb := Real.sqrt ((1 - ler) * ler / runs)
    .ok ⟨ler, lerEb, 1 - (1 - ler) ^ (1 / (k : ℝ)), lerEb * (1 - lerEb) ^ (1 / (k : ℝ) - 1) / k⟩

open Classical in
/-- `_check_convergence` (data_utils.py:97-105): Python's `True`, `None` or `False`. -/
noncomputable def checkConvergence (success runs k : ℕ) (precision : ℝ) : Except DErr (Option Bool) :=
  (errorRates success runs k).map fun r =>
    if r.werEb ≠ 0 then if r.werEb / r.wer < precision then some true else none else some false

/-- `is_converged` (data_utils.py:90-94): the chained comparison `x_cond == z_cond is True`. -/
noncomputable def isConverged (x z runs k : ℕ) (precision : ℝ) : Except DErr Bool := do
  let a ← checkConvergence x runs k precision
  let b ← checkConvergence z runs k precision
  return decide (a = b) && decide (b = some true)

/-! ## Merging -/

/-- A results dictionary (data_utils.py:214-353, 515). -/
structure Dataset where
  runs : Option ℕ := none
  x : Option ℕ := none
  z : Option ℕ := none
  k : Option ℕ := none
  xRates : Option Rates := none
  zRates : Option Rates := none
  xRuns : Option ℕ := none
  zRuns : Option ℕ := none
  other : List (String × String) := []

/-- `d[key] += v` (data_utils.py:214-353). -/
def plus (a : Option ℕ) (v : ℕ) : Except DErr (Option ℕ) :=
  match a with
  | some a => .ok (some (a + v))
  | none => .error .keyError

/-- `d[key]` (data_utils.py:214-353). -/
def get {α : Type} (a : Option α) : Except DErr α :=
  match a with
  | some a => .ok a
  | none => .error .keyError

/-- One iteration of the loop of `merge_datasets` (data_utils.py:232-235). -/
def addXZ (acc d : Dataset) : Except DErr Dataset := do
  let r ← plus acc.runs (d.runs.getD 0)
  let x ← plus acc.x (d.x.getD 0)
  let z ← plus acc.z (d.z.getD 0)
  return { acc with runs := r, x := x, z := z }

/-- The end of `merge_datasets` (data_utils.py:238-258). -/
noncomputable def finishXZ (d : Dataset) : Except DErr Dataset := do
  let runs ← get d.runs
  let x ← get d.x
  let z ← get d.z
  let k ← get d.k
  let xr ← errorRates x runs k
  let zr ← errorRates z runs k
  return { d with xRates := some xr, zRates := some zr }

/-- `merge_datasets` (data_utils.py:214-258); `none` is the empty dictionary. -/
noncomputable def mergeDatasets : List Dataset → Except DErr (Option Dataset)
  | [] => .ok none
  | d :: ds => do
    let acc ← ds.foldlM addXZ d
    let r ← finishXZ acc
    return some r

/-- One iteration of the loop of `_merge_datasets_x` (data_utils.py:287-289). -/
def addX (acc d : Dataset) : Except DErr Dataset := do
  let r ← plus acc.runs (d.runs.getD 0)
  let x ← plus acc.x (d.x.getD 0)
  return { acc with runs := r, x := x }

/-- The end of `_merge_datasets_x` (data_utils.py:291-305). -/
noncomputable def finishX (d : Dataset) : Except DErr Dataset := do
  let runs ← get d.runs
  let x ← get d.x
  let k ← get d.k
  let xr ← errorRates x runs k
  return { d with xRates := some xr }

/-- `_merge_datasets_x` (data_utils.py:261-305). -/
noncomputable def mergeX (ds : List Dataset) : Except DErr (Option Dataset) :=
  match ds.filter (·.x.isSome) with
  | [] => .ok none
  | d :: ds => do
    let acc ← ds.foldlM addX d
    let r ← finishX acc
    return some r

/-- One iteration of the loop of `_merge_datasets_z` (data_utils.py:334-336). -/
def addZ (acc d : Dataset) : Except DErr Dataset := do
  let r ← plus acc.runs (d.runs.getD 0)
  let z ← plus acc.z (d.z.getD 0)
  return { acc with runs := r, z := z }

/-- The end of `_merge_datasets_z` (data_utils.py:338-352). -/
noncomputable def finishZ (d : Dataset) : Except DErr Dataset := do
  let runs ← get d.runs
  let z ← get d.z
  let k ← get d.k
  let zr ← errorRates z runs k
  return { d with zRates := some zr }

/-- `_merge_datasets_z` (data_utils.py:308-352). -/
noncomputable def mergeZ (ds : List Dataset) : Except DErr (Option Dataset) :=
  match ds.filter (·.z.isSome) with
  | [] => .ok none
  | d :: ds => do
    let acc ← ds.foldlM addZ d
    let r ← finishZ acc
    return some r

/-- `a.update(b)`: entries of `b` win (data_utils.py:515-534). -/
def update (a b : Dataset) : Dataset :=
  { runs := b.runs <|> a.runs, x := b.x <|> a.x, z := b.z <|> a.z, k := b.k <|> a.k, xRates := b.xRates <|> a.xRates
    zRates := b.zRates <|> a.zRates, xRuns := b.xRuns <|> a.xRuns, zRuns := b.zRuns <|> a.zRuns
    other := b.other ++ a.other.filter fun p => !(b.other.map (·.1)).contains p.1 }

/-- `xdata["x_runs"] = xdata.pop("nr_runs")` (data_utils.py:515-534). -/
def renameX (d : Dataset) : Except DErr Dataset := (get d.runs).map fun r => { d with runs := none, xRuns := some r }

/-- `zdata["z_runs"] = zdata.pop("nr_runs")` (data_utils.py:515-534). -/
def renameZ (d : Dataset) : Except DErr Dataset := (get d.runs).map fun r => { d with runs := none, zRuns := some r }

/-- `_combine_xz_data` (data_utils.py:515-534). -/
def combineXZ (xd zd : Option Dataset) : Except DErr (Option Dataset) :=
  match xd, zd with
  | some x, some z => do
    let x ← renameX x
    let z ← renameZ z
    return some (update x z)
  | some x, none => (renameX x).map some
  | none, some z => (renameZ z).map some
  | none, none => .ok none

/-- The entry written by `merge_json_files_xz` for one folder (data_utils.py:502-506). -/
noncomputable def mergeXZ (ds : List Dataset) : Except DErr (Option Dataset) := do
  let x ← mergeX ds
  let z ← mergeZ ds
  combineXZ x z

/-! ## Parameter iterators -/

/-- `itertools.product(*vals)`: the last factor varies fastest (data_utils.py:184-192). -/
def product {α : Type} : List (List α) → List (List α)
  | [] => [[]]
  | l :: ls => l.flatMap fun a => (product ls).map (a :: ·)

/-- `product_dict` (data_utils.py:184-192): keyword arguments in order; a dictionary is the list of its items. -/
def productDict {κ α : Type} (kw : List (κ × List α)) : List (List (κ × α)) :=
  (product (kw.map (·.2))).map fun inst => (kw.map (·.1)).zip inst

/-- `zip(*vals)`: stops at the shortest; no tuples without iterables (data_utils.py:195-197). -/
def zipAll {α : Type} (vals : List (List α)) : List (List α) :=
  if vals = [] then []
  else (List.range (((vals.map List.length).min?).getD 0)).map fun i => vals.filterMap fun l => l[i]?

/-- `zip_dict` (data_utils.py:195-197). -/
def zipDict {κ α : Type} (kw : List (κ × List α)) : List (List (κ × α)) :=
  (zipAll (kw.map (·.2))).map fun inst => (kw.map (·.1)).zip inst

/-- One key/value pair in `extract_settings` (data_utils.py:45-49). -/
def addSetting {κ α : Type} [DecidableEq κ] [DecidableEq α] (acc : List (κ × List α)) (kv : κ × α) : List (κ × List α) :=
  if acc.any (fun p => p.1 == kv.1) then
    acc.map fun p => if p.1 = kv.1 then (p.1, if p.2.contains kv.2 then p.2 else p.2 ++ [kv.2]) else p
  else acc ++ [(kv.1, [kv.2])]

/-- `extract_settings` (data_utils.py:38-51) on the parsed lines of the file. -/
def extractSettings {κ α : Type} [DecidableEq κ] [DecidableEq α] (lines : List (List (κ × α))) : List (κ × List α) :=
  lines.flatten.foldl addSetting []

end Verif.Data
