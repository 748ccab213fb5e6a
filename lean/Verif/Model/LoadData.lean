import Verif.Model.MergeFiles

/-!
# Loading of result files (`analog_information_decoding/utils/data_utils.py:32-35, 54-69`)

The file system is the one of `Model/MergeFiles`, with the files that `load_data` writes on top of it.  Simplification: a file written by
`load_data` is seen when it is loaded again, but not by a later merge of the folder it is in.
-/

namespace Verif.MergeFiles
open Verif Verif.Data

/-- What a JSON file holds: one data set, or the list that a merge wrote (data_utils.py:63, 67). -/
inductive Loaded
  | one (d : Dataset)
  | many (l : List Dataset)

/-- Exceptions of `load_data` (data_utils.py:54-69). -/
inductive LErr
  | notJson
  | os (e : MErr)

/-- The files written so far, the last one first (data_utils.py:66). -/
abbrev Written := List (List Name × List Dataset)

/-- `json.load(path.open())` (data_utils.py:63, 67): `none` for text that is no JSON. -/
def FS.readJson (fs : FS) (w : Written) (p : Path) : Except MErr (Option Loaded) :=
  match w.lookup (fs.resolve p) with
  | some l => .ok (some (.many l))
  | none => (fs.load p).map fun c => c.map .one

/-- The name without its suffix (`with_suffix("")`, data_utils.py:66). -/
def stem (n : Name) : Name := n.take (n.length - (suffix n).length)

/-- `path.with_suffix("")` (data_utils.py:66), for a path with a name. -/
def Path.noSuffix (p : Path) : Path := ⟨p.absolute, p.parts.dropLast ++ [stem p.name]⟩

/-- The body of the loop (data_utils.py:60-68), with the files written. -/
noncomputable def FS.loadOne (fs : FS) (w : Written) (p : Path) : Except LErr Loaded × Written :=
  match fs.readJson w p with
  | .error e => (.error (.os e), w)
  | .ok (some l) => (.ok l, w)
  | .ok none =>
    match mergeJsonFiles fs p.noSuffix with
    | .error e => (.error (.os e), w)
    | .ok out =>
      match fs.readJson ((out.path, out.data) :: w) p with
      | .error e => (.error (.os e), (out.path, out.data) :: w)
      | .ok none => (.error .notJson, (out.path, out.data) :: w)
      | .ok (some l) => (.ok l, (out.path, out.data) :: w)

/-- The loop over the file names (data_utils.py:58-69). -/
noncomputable def FS.loadLoop (fs : FS) : Written → List Path → Except LErr (List Loaded) × Written
  | w, [] => (.ok [], w)
  | w, p :: ps =>
    match fs.loadOne w p with
    | (.error e, w') => (.error e, w')
    | (.ok l, w') =>
      match fs.loadLoop w' ps with
      | (.error e, w'') => (.error e, w'')
      | (.ok ls, w'') => (.ok (l :: ls), w'')

/-- `load_data` (data_utils.py:54-69). -/
noncomputable def loadData (fs : FS) (files : List Path) : Except LErr (List Loaded) × Written := fs.loadLoop [] files

end Verif.MergeFiles

namespace Verif.BpDict

/-- The fields of `BpParams` (data_utils.py:20-29), in their order. -/
inductive Field
  | bpMethod | maxBpIter | osdOrder | osdMethod | msScalingFactor | schedule | ompThreadCount | randomSerialSchedule | serialScheduleOrder | cutoff
  deriving DecidableEq, Repr

/-- All fields (data_utils.py:20-29). -/
def Field.all : List Field :=
  [.bpMethod, .maxBpIter, .osdOrder, .osdMethod, .msScalingFactor, .schedule, .ompThreadCount, .randomSerialSchedule, .serialScheduleOrder, .cutoff]

/-- Their names (data_utils.py:20-29). -/
def Field.name : Field → String
  | .bpMethod => "bp_method"
  | .maxBpIter => "max_bp_iter"
  | .osdOrder => "osd_order"
  | .osdMethod => "osd_method"
  | .msScalingFactor => "ms_scaling_factor"
  | .schedule => "schedule"
  | .ompThreadCount => "omp_thread_count"
  | .randomSerialSchedule => "random_serial_schedule"
  | .serialScheduleOrder => "serial_schedule_order"
  | .cutoff => "cutoff"

/-- Values: strings, integers, the rational 0.75, `None`, infinity, lists (data_utils.py:20-29). -/
inductive Val
  | str (s : String)
  | int (i : ℤ)
  | ratio (num den : ℕ)
  | none
  | inf
  | list (l : List ℤ)
  deriving DecidableEq, Repr

/-- The defaults (data_utils.py:20-29). -/
def Field.default : Field → Val
  | .bpMethod => .str "msl"
  | .maxBpIter => .int 30
  | .osdOrder => .int 10
  | .osdMethod => .str "osd_cs"
  | .msScalingFactor => .ratio 3 4
  | .schedule => .str "parallel"
  | .ompThreadCount => .int 1
  | .randomSerialSchedule => .int 0
  | .serialScheduleOrder => .none
  | .cutoff => .inf

/-- An object: the values of its fields (data_utils.py:17-29). -/
abbrev Params := Field → Val

/-- A dictionary: keys are different, in the order of insertion (data_utils.py:32-35). -/
abbrev Dict := List (String × Val)

/-- The call of the generated `__init__` with keyword arguments (data_utils.py:17-29): an unexpected one raises a `TypeError`. -/
def init : Dict → Except String Params
  | [] => .ok Field.default
  | (k, v) :: kw =>
    match Field.all.find? (fun f => f.name = k) with
    | Option.none => .error "TypeError"
    | some f =>
      match init kw with
      | .error e => .error e
      | .ok p => .ok fun g => if g = f then v else p g

/-- `BpParams.from_dict` (data_utils.py:32-35): only the names of fields are handed on. -/
def fromDict (d : Dict) : Except String Params := init (d.filter fun kv => Field.all.any fun f => f.name = kv.1)

/-- `dataclasses.asdict`: all fields in their order (the inverse of data_utils.py:32-35). -/
def asDict (p : Params) : Dict := Field.all.map fun f => (f.name, p f)

end Verif.BpDict
