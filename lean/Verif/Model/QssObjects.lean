import Verif.Common
import Verif.Model.AnalogTanner

/-!
# The quasi-single-shot simulator with analog values and decoder objects

`analog_information_decoding/simulators/quasi_single_shot_v2.py` and `memory_experiment_v2.py`, with the matrix of analog values, the
channel probabilities, and the calls of decoders.  `Model/Analog` models the binary part of the same loop.

Numbers are reals (`Num` as in `Model/AnalogTanner`), random draws are inputs, BP+OSD and PyMatching are parameters.  The window has
`k + 1` rounds (`repetitions`, at least one).  The number of iterations, the seed and the output file are left out.
-/

namespace Verif.Qss
open Verif Analog AnalogTanner Real

/-- Exceptions; `notModelled`: the noise strength is infinite or not a number, and so are the sampled values (raised in quasi_single_shot_v2.py:36-289). -/
inductive QErr where
  | valueError
  | indexError
  | unbound
  | notModelled
  deriving DecidableEq

/-- `decoding_method` (quasi_single_shot_v2.py:43, 122-134). -/
inductive Method where
  | bposd
  | matching
  deriving DecidableEq

/-- The two known names (quasi_single_shot_v2.py:92-94). -/
def Method.ofName (name : List Char) : Except QErr Method :=
  if name = ['b', 'p', 'o', 's', 'd'] then .ok .bposd
  else if name = ['m', 'a', 't', 'c', 'h', 'i', 'n', 'g'] then .ok .matching
  else .error .valueError

/-- `np.log((1 - p) / p)` without clipping (quasi_single_shot_v2.py:169) for a probability; the logarithm of zero and the division by
zero are infinite, here only positive infinity is a value of its own. -/
noncomputable def weight : Num → Num
  | .fin p => if p = 0 then .inf else if 1 - p = 0 then .nan else if (1 - p) / p < 0 then .nan else .fin (log ((1 - p) / p))
  | .inf => .nan
  | .nan => .nan

/-- `np.clip(np.log((1 - p) / p), -16777215, 16777215)` (memory_experiment_v2.py:70-74). -/
noncomputable def clippedWeight : Num → Num
  | .fin p =>
    if p = 0 then .fin 16777215 else if 1 - p = 0 then .fin (-16777215) else if (1 - p) / p < 0 then .nan
    else .fin (max (-16777215) (min 16777215 (log ((1 - p) / p))))
  | .inf => .nan
  | .nan => .nan

/-- What a decoder object holds besides its matrix: channel probabilities or weights (memory_experiment_v2.py:59-77). -/
inductive Soft (N : ℕ) where
  | probs (p : Fin N → Num)
  | weights (w : Fin N → Num)

/-- `get_updated_decoder` (memory_experiment_v2.py:59-77). -/
noncomputable def Soft.updated {N : ℕ} (d : Method) (p : Fin N → Num) : Soft N :=
  match d with
  | .bposd => .probs p
  | .matching => .weights fun i => clippedWeight (p i)

/-- A decoder: the estimate for a matrix, soft information and a syndrome (memory_experiment_v2.py:80-163). -/
abbrev Solver := (a b : ℕ) → Mat a b → Soft b → Vec a → Vec b

/-- One call of `decoder.decode` (memory_experiment_v2.py:129). -/
structure WCall (k m n : ℕ) where
  last : Bool
  pcm : Mat ((k + 1) * m) ((k + 1) * n + (k + 1) * m)
  soft : Soft ((k + 1) * n + (k + 1) * m)
  syn : Vec ((k + 1) * m)

/-- The constructor arguments that matter for a sample (quasi_single_shot_v2.py:36-55); `xSide`: `check_side == "X"`. -/
structure Args (m n : ℕ) where
  H : Mat m n
  per : ℝ
  ser : ℝ
  L : List (Vec n)
  bx : Option ℝ
  bY : Option ℝ
  bz : Option ℝ
  method : List Char
  xSide : Bool
  analogTg : Bool

/-- The simulator object.  `sigma` exists only for analog decoding (quasi_single_shot_v2.py:36-171). -/
structure Sim (k m n : ℕ) where
  H : Mat m n
  L : List (Vec n)
  analogTg : Bool
  method : Method
  bits : ℝ × ℝ × ℝ
  errIdx : Bool
  synRate : ℝ
  H3D : Mat ((k + 1) * m) ((k + 1) * n + (k + 1) * m)
  channelProbs : Fin ((k + 1) * n + (k + 1) * m) → Num
  sigma : Option Num
  soft : Soft ((k + 1) * n + (k + 1) * m)

/-- The rate of one side (quasi_single_shot_v2.py:122-134): Z and Y errors for the X checks, X and Y errors otherwise. -/
def sideRate (p : ℝ × ℝ × ℝ) (xSide : Bool) : ℝ := if xSide then p.2.1 + p.2.2 else p.1 + p.2.1

/-- `QssSimulator.__init__` (quasi_single_shot_v2.py:36-171). -/
noncomputable def Sim.new {m n : ℕ} (erfcinv : ℝ → ℝ) (k : ℕ) (a : Args m n) : Except QErr (Sim k m n) := do
  require ((k + 1) % 2 = 0) .valueError
  let d ← Method.ofName a.method
  let p := channelSetup a.per a.bx a.bY a.bz
  let s := sideRate (channelSetup a.ser a.bx a.bY a.bz) a.xSide
  let probs : Fin ((k + 1) * n + (k + 1) * m) → Num := Fin.append (fun _ => .fin (sideRate p a.xSide)) fun _ => .fin s
  require (!a.analogTg || m ≠ 0) .indexError
  return ⟨a.H, a.L, a.analogTg, d, p, a.xSide, s, buildMultiroundPcm a.H k, probs,
    if a.analogTg then some (sigmaOfRate erfcinv s) else none,
    match d with
    | .bposd => .probs probs
    | .matching => .weights fun i => weight (probs i)⟩

/-- The random draws of a round (quasi_single_shot_v2.py:205-235). -/
structure Draws (m n : ℕ) where
  u : Fin n → ℝ
  g : Fin m → ℝ


/-- The local variables of `_single_sample` (quasi_single_shot_v2.py:193-203), the decoder object, and, for the specification, the
errors and analog values of all rounds so far and the calls of the decoder. -/
structure State (k m n : ℕ) where
  err : Vec n
  mat : Mat m (k + 1)
  amat : Fin m → Fin (k + 1) → ℝ
  cnt : ℕ
  soft : Soft ((k + 1) * n + (k + 1) * m)
  log : List (Vec n × (Fin m → ℝ))
  calls : List (WCall k m n)

/-- `analog_syndr_mat[:, cnt] += analog_syndrome` (quasi_single_shot_v2.py:233). -/
def addAnalog {m R : ℕ} (M : Fin m → Fin R → ℝ) (cnt : ℕ) (y : Fin m → ℝ) : Fin m → Fin R → ℝ := fun i r =>
  if r.val = cnt then M i r + y i else M i r

/-- `move_syndrome(analog_syndr_mat, data_type=np.float64)` (memory_experiment_v2.py:47-56) for an even number of columns. -/
def moveAnalog {m R : ℕ} (M : Fin m → Fin R → ℝ) : Fin m → Fin R → ℝ := fun i r =>
  if h : r.val + R / 2 < R then M i ⟨r.val + R / 2, h⟩ else 0

/-- The new channel of an analog call (memory_experiment_v2.py:109-118): the data part of the constructor, then, column after column,
the values of the analog syndromes; the last `m` entries are `1e-15` in the last round (all entries for `m = 0`). -/
noncomputable def newChannel {k m n : ℕ} (s : Sim k m n) (sigma : Num) (amat : Fin m → Fin (k + 1) → ℝ) (last : Bool) :
    Fin ((k + 1) * n + (k + 1) * m) → Num :=
  let c := Fin.append (fun i : Fin ((k + 1) * n) => s.channelProbs (Fin.castAdd _ i)) fun j : Fin ((k + 1) * m) =>
    virtualInit (amat j.modNat j.divNat) sigma
  if last then fun i => if m = 0 ∨ (k + 1) * n + (k + 1) * m - m ≤ i.val then .fin (1 / 10 ^ 15) else c i else c

/-- `_decode_multiround` (quasi_single_shot_v2.py:173-191, memory_experiment_v2.py:80-163) in analog mode: the call, and correction and
syndrome matrix.  With bposd the decoder object is changed, with matching a new one is made and dropped. -/
noncomputable def window {k m n : ℕ} (bp : Solver) (s : Sim k m n) (sigma : Num) (q : State k m n) (last : Bool) :
    WCall k m n × (Vec n × Mat m (k + 1)) × Soft ((k + 1) * n + (k + 1) * m) :=
  let soft := Soft.updated s.method (newChannel s sigma q.amat last)
  let c : WCall k m n := ⟨last, s.H3D, soft, flattenF (diffSyndrome q.mat)⟩
  (c, decodeMultiround s.H (fun v => bp _ _ s.H3D soft v) q.mat last, if s.method = .bposd then soft else q.soft)

/-- The measurement of a round (quasi_single_shot_v2.py:205-235): error, syndrome, analog values. -/
noncomputable def measure {k m n : ℕ} (s : Sim k m n) (sigma : ℝ) (q : State k m n) (d : Draws m n) (last : Bool) : State k m n :=
  let e2 := generateErr (fun _ => s.bits.1) (fun _ => s.bits.2.1) (fun _ => s.bits.2.2) d.u q.err q.err
  let e := if s.errIdx then e2.2 else e2.1
  let y := noisyAnalog (apply s.H e) (if last then 0 else sigma) d.g
  let b := if last then apply s.H e else binaryFromAnalog y
  { q with err := e, mat := addColumn q.mat q.cnt b, amat := addAnalog q.amat q.cnt y, cnt := q.cnt + 1, log := q.log ++ [(e, y)] }

/-- A full window (quasi_single_shot_v2.py:237-261). -/
noncomputable def full {k m n : ℕ} (bp : Solver) (s : Sim k m n) (sigma : Num) (q : State k m n) (last : Bool) : Except QErr (State k m n) :=
  let w := window bp s sigma q last
  if last then .ok { q with err := q.err + w.2.1.1, mat := w.2.1.2, soft := w.2.2, calls := q.calls ++ [w.1] }
  else
    match moveSyndrome w.2.1.2 with
    | .error _ => .error .valueError
    | .ok M => .ok { q with err := q.err + w.2.1.1, mat := M, amat := moveAnalog q.amat, cnt := (k + 1) / 2, soft := w.2.2, calls := q.calls ++ [w.1] }

/-- The loop over the rounds (quasi_single_shot_v2.py:205-261) in analog mode.  A column index beyond the matrix raises. -/
noncomputable def loop {k m n : ℕ} (bp : Solver) (s : Sim k m n) (sigma : ℝ) : List (Draws m n) → State k m n → Except QErr (State k m n)
  | [], q => .ok q
  | d :: ds, q =>
    if k + 1 ≤ q.cnt then .error .indexError
    else
      let q' := measure s sigma q d ds.isEmpty
      if q'.cnt = k + 1 then
        match full bp s (.fin sigma) q' ds.isEmpty with
        | .error e => .error e
        | .ok q'' => loop bp s sigma ds q''
      else loop bp s sigma ds q'

/-- The state before the first round (quasi_single_shot_v2.py:237-247). -/
def Sim.start {k m n : ℕ} (s : Sim k m n) : State k m n := ⟨0, 0, 0, 0, s.soft, [], []⟩

/-- `_single_sample` (quasi_single_shot_v2.py:193-262) for `rounds` = length of the list, in analog mode: the final state and the result
(`true`: no logical error).  Without analog decoding the first full window raises (`Model/Analog`, `qssLoop`), as `analog_syndr_mat` is
unbound; here `.unbound` stands for this mode. -/
noncomputable def Sim.sample {k m n : ℕ} (bp : Solver) (s : Sim k m n) (rounds : List (Draws m n)) : Except QErr (State k m n × Bool) :=
  match s.sigma with
  | none => .error .unbound
  | some (.fin sigma) =>
    match loop bp s sigma rounds s.start with
    | .error e => .error e
    | .ok q => .ok (q, !isLogicalErr s.L q.err)
  | some _ => .error .notModelled

/-- Several samples with the same object (`run`, quasi_single_shot_v2.py:278-289, without the tests for convergence). -/
noncomputable def Sim.samples {k m n : ℕ} (bp : Solver) (s : Sim k m n) : List (List (Draws m n)) → Except QErr (Sim k m n × List Bool)
  | [] => .ok (s, [])
  | r :: rs =>
    match s.sample bp r with
    | .error e => .error e
    | .ok q =>
      match Sim.samples bp { s with soft := q.1.soft } rs with
      | .error e => .error e
      | .ok t => .ok (t.1, q.2 :: t.2)

end Verif.Qss
