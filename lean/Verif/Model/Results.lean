import Verif.Common
import Verif.Model.DataUtils

/-!
# Result dictionaries and result files of the simulators

`AtdSimulator.run`, `QssSimulator.run` and their functions `save_results`, with the values of the dictionaries, the conversion to JSON
and the contents of the file.  The samples themselves (success, numbers of BP iterations) are inputs; see `Model/AnalogTanner` and
`Model/QssObjects` for them.  Printing is left out.
-/

namespace Verif.Results
open Verif Verif.Data

/-- A float; numpy's `float64` is a subclass of `float` and is not distinguished from it (simulation_utils.py:259-277). -/
inductive Flt where
  | fin (r : ℝ)
  | inf
  | negInf
  | nan

/-- Python values that occur in results: `npInt` is an integer of numpy, `ndarray` an array of numpy (its items as a list), `obj` an
instance with its attributes (the values in simulation_utils.py:246-280). -/
inductive PyVal where
  | none
  | bool (b : Bool)
  | int (z : ℤ)
  | float (x : Flt)
  | str (s : String)
  | npInt (z : ℤ)
  | ndarray (l : List PyVal)
  | list (l : List PyVal)
  | dict (d : List (String × PyVal))
  | obj (d : List (String × PyVal))

/-- A dictionary, in the order of insertion (simulation_utils.py:259-277). -/
abbrev Dict := List (String × PyVal)

/-- JSON values (`json.dumps`, simulation_utils.py:279). -/
inductive Json where
  | null
  | bool (b : Bool)
  | int (z : ℤ)
  | num (x : Flt)
  | str (s : String)
  | arr (l : List Json)
  | obj (d : List (String × Json))

/-- Exceptions (raised in simulation_utils.py:246-280 and data_utils.py:173-181). -/
inductive RErr where
  | data (e : DErr)
  | attributeError
  | typeError
  | isADirectory
  | unbound
  deriving DecidableEq

mutual
/-- `json.dump(…, default=lambda o: o.__dict__)` (analog_tannergraph_decoding.py:309, simulation_utils.py:279): `default` is called for
values that JSON does not know; arrays and integers of numpy have no attribute `__dict__`. -/
def toJson : PyVal → Except RErr Json
  | .none => .ok .null
  | .bool b => .ok (.bool b)
  | .int z => .ok (.int z)
  | .float x => .ok (.num x)
  | .str s => .ok (.str s)
  | .npInt _ => .error .attributeError
  | .ndarray _ => .error .attributeError
  | .list l =>
    match toJsonList l with
    | .error e => .error e
    | .ok r => .ok (.arr r)
  | .dict d =>
    match toJsonDict d with
    | .error e => .error e
    | .ok r => .ok (.obj r)
  | .obj d =>
    match toJsonDict d with
    | .error e => .error e
    | .ok r => .ok (.obj r)

/-- The items of a list (`json.dumps`, simulation_utils.py:279). -/
def toJsonList : List PyVal → Except RErr (List Json)
  | [] => .ok []
  | v :: vs =>
    match toJson v with
    | .error e => .error e
    | .ok j =>
      match toJsonList vs with
      | .error e => .error e
      | .ok js => .ok (j :: js)

/-- The entries of a dictionary (`json.dumps`, simulation_utils.py:279). -/
def toJsonDict : List (String × PyVal) → Except RErr (List (String × Json))
  | [] => .ok []
  | (k, v) :: vs =>
    match toJson v with
    | .error e => .error e
    | .ok j =>
      match toJsonDict vs with
      | .error e => .error e
      | .ok js => .ok ((k, j) :: js)
end

/-- `d[k] = v`: an existing key keeps its place (simulation_utils.py:267-271). -/
def Dict.set : Dict → String → PyVal → Dict
  | [], k, v => [(k, v)]
  | (k', v') :: d, k, v => if k' = k then (k, v) :: d else (k', v') :: Dict.set d k v

/-- `d.update(e)` (simulation_utils.py:259-277). -/
def Dict.update (d : Dict) : Dict → Dict
  | [] => d
  | (k, v) :: e => (Dict.set d k v).update e

/-- `d[k]` (data_utils.py:173-181). -/
def Dict.get (d : Dict) (k : String) : Option PyVal := d.lookup k

/-- `np.isinf(item)` for the items of a bias (data_utils.py:173-181). -/
def isInf : PyVal → Except RErr Bool
  | .float .inf => .ok true
  | .float .negInf => .ok true
  | .float _ => .ok false
  | .int _ => .ok false
  | .npInt _ => .ok false
  | .bool _ => .ok false
  | _ => .error .typeError

/-- The loop of `replace_inf` (data_utils.py:173-181). -/
def replaceInfItems : List PyVal → Except RErr (List PyVal)
  | [] => .ok []
  | v :: vs =>
    match isInf v with
    | .error e => .error e
    | .ok b =>
      match replaceInfItems vs with
      | .error e => .error e
      | .ok ws => .ok ((if b then .str "i" else v) :: ws)

/-- `replace_inf` (data_utils.py:173-181). -/
def replaceInf : PyVal → Except RErr PyVal
  | .list l => (replaceInfItems l).map .list
  | .ndarray l => (replaceInfItems l).map .list
  | _ => .error .typeError

/-- The contents of the results file; `torn`: the writing was broken off (simulation_utils.py:278-279). -/
inductive File where
  | absent
  | empty
  | torn
  | json (j : Json)

/-- Writing a dictionary (analog_tannergraph_decoding.py:308-309, simulation_utils.py:278-279): opening the file for writing empties
it; if the conversion raises, a part of the text is left. -/
def writeDict (isDir : Bool) (d : Dict) (f : File) : Except RErr Unit × File :=
  if isDir then (.error .isADirectory, f)
  else
    match toJsonDict d with
    | .error e => (.error e, .torn)
    | .ok j => (.ok (), .json (.obj j))

/-- The numbers of a code, `code_params`; `more` are its other entries (quasi_single_shot_v2.py:36-55). -/
structure CodeParams where
  n : ℕ
  k : ℕ
  more : Dict

/-- Models quasi_single_shot_v2.py:264-276. -/
def CodeParams.toPy (c : CodeParams) : PyVal := .dict (("n", .int c.n) :: ("k", .int c.k) :: c.more)

/-- A nonnegative integer as a value (the counters of quasi_single_shot_v2.py:264-276). -/
def nat (n : ℕ) : PyVal := .int n

/-- A real number as a value (the rates of simulation_utils.py:267-271). -/
def real (r : ℝ) : PyVal := .float (.fin r)

/-- `None` or a float (quasi_single_shot_v2.py:36-55). -/
def optional : Option Flt → PyVal
  | none => .none
  | some s => .float s

/-! ## The quasi-single-shot simulator -/

/-- Constructor arguments of `QssSimulator` (quasi_single_shot_v2.py:36-55) that reach the results; the bias is any array or list. -/
structure QssArgs where
  per : Flt
  ser : Flt
  checkSide : String
  bias : PyVal
  codename : String
  bpParams : PyVal
  method : String
  saveInterval : ℕ
  precision : ℝ
  analogTg : Bool
  repetitions : ℕ
  rounds : ℕ
  experiment : String
  params : CodeParams
  outIsDir : Bool

/-- `self.input_values` (quasi_single_shot_v2.py:72-109): the attributes at that time, in the order in which they were set. -/
def QssArgs.inputValues (a : QssArgs) : Dict :=
  [("data_err_rate", .float a.per), ("syndr_err_rate", .float a.ser), ("check_side", .str a.checkSide), ("bias", a.bias),
    ("codename", .str a.codename), ("bp_params", a.bpParams), ("decoding_method", .str a.method), ("save_interval", nat a.saveInterval),
    ("eb_precision", real a.precision), ("analog_tg", .bool a.analogTg), ("repetitions", nat a.repetitions), ("rounds", nat a.rounds),
    ("experiment", .str a.experiment), ("code_params", a.params.toPy)]

/-- The names of the result entries of one side, `f"{err_side}_…"` (simulation_utils.py:267-271). -/
structure SideKeys where
  ler : String
  lerEb : String
  wer : String
  werEb : String
  success : String

/-- Models analog_tannergraph_decoding.py:284-305. -/
def xKeys : SideKeys := ⟨"x_ler", "x_ler_eb", "x_wer", "x_wer_eb", "x_success_cnt"⟩

/-- Models analog_tannergraph_decoding.py:284-305. -/
def zKeys : SideKeys := ⟨"z_ler", "z_ler_eb", "z_wer", "z_wer_eb", "z_success_cnt"⟩

/-- `err_side` (quasi_single_shot_v2.py:273): Z errors for the X checks. -/
def QssArgs.keys (a : QssArgs) : SideKeys := if a.checkSide = "X" then zKeys else xKeys

/-- The dictionary of `save_results` before the input values (simulation_utils.py:261-274). -/
noncomputable def qssResults (a : QssArgs) (iters success runs : ℕ) (r : Rates) : Dict :=
  [("code_K", nat a.params.k), ("code_N", nat a.params.n), ("nr_runs", nat runs), ("pers", .float a.per), ("sers", .float a.ser),
    (a.keys.ler, real r.ler), (a.keys.lerEb, real r.lerEb), (a.keys.wer, real r.wer), (a.keys.werEb, real r.werEb),
    (a.keys.success, nat success), ("avg_bp_iterations", real (iters / runs)), ("bp_params", a.bpParams)]

/-- The dictionary that is written and returned (simulation_utils.py:259-277). -/
noncomputable def qssOutput (a : QssArgs) (iters success runs : ℕ) : Except RErr Dict :=
  match errorRates success runs a.params.k with
  | .error e => .error (.data e)
  | .ok r =>
    match replaceInf a.bias with
    | .error e => .error e
    | .ok b => .ok (((qssResults a iters success runs r).update a.inputValues).set "bias" b)

/-- `_save_results` (quasi_single_shot_v2.py:264-276, simulation_utils.py:246-280). -/
noncomputable def qssSave (a : QssArgs) (iters success runs : ℕ) (f : File) : Except RErr Dict × File :=
  match qssOutput a iters success runs with
  | .error e => (.error e, f)
  | .ok d =>
    match writeDict a.outIsDir d f with
    | (.error e, f') => (.error e, f')
    | (.ok (), f') => (.ok d, f')

/-- One sample: whether it succeeded, and the number of BP iterations of every window (quasi_single_shot_v2.py:281-283). -/
structure QssSample where
  success : Bool
  iters : List ℕ

/-- The counters of a run and the attribute `bp_iterations` (quasi_single_shot_v2.py:278-289). -/
structure QssState where
  runs : ℕ
  success : ℕ
  iters : ℕ

/-- One sample (quasi_single_shot_v2.py:247, 260, 282): the numbers of iterations are divided by the number of rounds and truncated (without
rounds there are no windows). -/
def QssState.step (a : QssArgs) (s : QssState) (o : QssSample) : QssState :=
  ⟨s.runs + 1, s.success + o.success.toNat, s.iters + (o.iters.map fun i => i / a.rounds).sum⟩

/-- `_check_convergence(...)` as a condition (quasi_single_shot_v2.py:285). -/
noncomputable def qssConverged (a : QssArgs) (s : QssState) : Except RErr Bool :=
  match checkConvergence s.success s.runs a.params.k a.precision with
  | .error e => .error (.data e)
  | .ok r => .ok (decide (r = some true))

/-- The loop of `run` (quasi_single_shot_v2.py:281-288). -/
noncomputable def qssLoop (a : QssArgs) : QssState → File → List QssSample → Except RErr QssState × File
  | s, f, [] => (.ok s, f)
  | s, f, o :: os =>
    let s := s.step a o
    if a.saveInterval = 0 then (.error (.data .zeroDivision), f)
    else if s.runs % a.saveInterval = 1 then
      match qssSave a s.iters s.success s.runs f with
      | (.error e, f) => (.error e, f)
      | (.ok _, f) =>
        match qssConverged a s with
        | .error e => (.error e, f)
        | .ok true => (.ok s, f)
        | .ok false => qssLoop a s f os
    else qssLoop a s f os

/-- `QssSimulator.run(samples)` (quasi_single_shot_v2.py:278-289) of an object whose attribute `bp_iterations` is `iters`: result, the new
value of the attribute, and the file. -/
noncomputable def qssRun (a : QssArgs) (iters : ℕ) (f : File) (os : List QssSample) : Except RErr (Dict × ℕ) × File :=
  match qssLoop a ⟨0, 0, iters⟩ f os with
  | (.error e, f) => (.error e, f)
  | (.ok s, f) =>
    if os = [] then (.error .unbound, f)
    else
      match qssSave a s.iters s.success s.runs f with
      | (.error e, f) => (.error e, f)
      | (.ok d, f) => (.ok (d, s.iters), f)

/-! ## The analog Tanner graph simulator -/

/-- Constructor arguments and attributes of `AtdSimulator` (analog_tannergraph_decoding.py:98-172) that reach the results; `sigma` is
`None` or a number. -/
structure AtdArgs where
  codename : String
  per : Flt
  bias : PyVal
  experiment : String
  method : String
  sigma : Option Flt
  outfile : String
  ser : Flt
  xSigma : Flt
  zSigma : Flt
  bpParams : PyVal
  saveInterval : ℕ
  precision : ℝ
  params : CodeParams
  outIsDir : Bool

/-- `self.input_values` (analog_tannergraph_decoding.py:122-172). -/
def AtdArgs.inputValues (a : AtdArgs) : Dict :=
  [("codename", .str a.codename), ("data_err_rate", .float a.per), ("bias", a.bias), ("experiment", .str a.experiment),
    ("decoding_method", .str a.method), ("sigma", optional a.sigma), ("outfile", .str a.outfile),
    ("syndr_err_rate", .float a.ser), ("x_sigma", .float a.xSigma), ("z_sigma", .float a.zSigma), ("bp_params", a.bpParams),
    ("save_interval", nat a.saveInterval), ("eb_precision", real a.precision)]

/-- The counters of a run and the attributes `x_bp_iterations`, `z_bp_iterations` (analog_tannergraph_decoding.py:232-279). -/
structure AtdState where
  runs : ℕ
  x : ℕ
  z : ℕ
  xIters : ℕ
  zIters : ℕ

/-- One sample: success of both sides, BP iterations of both decoders (analog_tannergraph_decoding.py:236-240). -/
structure AtdSample where
  x : Bool
  z : Bool
  xIters : ℕ
  zIters : ℕ

/-- One sample (analog_tannergraph_decoding.py:217, 223, 237-240). -/
def AtdState.step (s : AtdState) (o : AtdSample) : AtdState :=
  ⟨s.runs + 1, s.x + o.x.toNat, s.z + o.z.toNat, s.xIters + o.xIters, s.zIters + o.zIters⟩

/-- The dictionary of results (analog_tannergraph_decoding.py:255-275, 284-305). -/
noncomputable def atdResults (a : AtdArgs) (s : AtdState) (rx rz : Rates) : Dict :=
  [("code_K", nat a.params.k), ("code_N", nat a.params.n), ("nr_runs", nat s.runs), ("pers", .float a.per), ("x_sigma", .float a.xSigma),
    ("z_sigma", .float a.zSigma), ("x_ler", real rx.ler), ("x_ler_eb", real rx.lerEb), ("x_wer", real rx.wer), ("x_wer_eb", real rx.werEb),
    ("x_success_cnt", nat s.x), ("z_ler", real rz.ler), ("z_ler_eb", real rz.lerEb), ("z_wer", real rz.wer), ("z_wer_eb", real rz.werEb),
    ("z_success_cnt", nat s.z), ("bp_params", a.bpParams), ("x_bp_iterations", real (s.xIters / s.runs)),
    ("z_bp_iterations", real (s.zIters / s.runs))]

/-- The rates of both sides (analog_tannergraph_decoding.py:255-275). -/
noncomputable def atdRates (a : AtdArgs) (s : AtdState) : Except RErr (Rates × Rates) :=
  match errorRates s.x s.runs a.params.k with
  | .error e => .error (.data e)
  | .ok rx =>
    match errorRates s.z s.runs a.params.k with
    | .error e => .error (.data e)
    | .ok rz => .ok (rx, rz)

/-- `save_results` (analog_tannergraph_decoding.py:281-310). -/
noncomputable def atdSave (a : AtdArgs) (s : AtdState) (f : File) : Except RErr Dict × File :=
  match atdRates a s with
  | .error e => (.error e, f)
  | .ok r =>
    let d := (atdResults a s r.1 r.2).update a.inputValues
    match writeDict a.outIsDir d f with
    | (.error e, f') => (.error e, f')
    | (.ok (), f') => (.ok d, f')

/-- `is_converged(...)` (analog_tannergraph_decoding.py:245-251). -/
noncomputable def atdConverged (a : AtdArgs) (s : AtdState) : Except RErr Bool :=
  match isConverged s.x s.z s.runs a.params.k a.precision with
  | .error e => .error (.data e)
  | .ok b => .ok b

/-- The loop of `run` (analog_tannergraph_decoding.py:236-253). -/
noncomputable def atdLoop (a : AtdArgs) : AtdState → File → List AtdSample → Except RErr AtdState × File
  | s, f, [] => (.ok s, f)
  | s, f, o :: os =>
    let s := s.step o
    if a.saveInterval = 0 then (.error (.data .zeroDivision), f)
    else if s.runs % a.saveInterval = 1 then
      match atdSave a s f with
      | (.error e, f) => (.error e, f)
      | (.ok _, f) =>
        match atdConverged a s with
        | .error e => (.error e, f)
        | .ok true => (.ok s, f)
        | .ok false => atdLoop a s f os
    else atdLoop a s f os

/-- `AtdSimulator.run(samples)` (analog_tannergraph_decoding.py:232-279) of an object with the given numbers of iterations: the returned
dictionary, the new numbers, and the file. -/
noncomputable def atdRunFile (a : AtdArgs) (xIters zIters : ℕ) (f : File) (os : List AtdSample) :
    Except RErr (Dict × ℕ × ℕ) × File :=
  match atdLoop a ⟨0, 0, 0, xIters, zIters⟩ f os with
  | (.error e, f) => (.error e, f)
  | (.ok s, f) =>
    if os = [] then (.error .unbound, f)
    else
      match atdRates a s with
      | .error e => (.error e, f)
      | .ok r =>
        match atdSave a s f with
        | (.error e, f) => (.error e, f)
        | (.ok _, f) => (.ok (atdResults a s r.1 r.2, s.xIters, s.zIters), f)

end Verif.Results
