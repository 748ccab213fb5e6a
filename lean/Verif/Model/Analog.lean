import Verif.Linalg
import Mathlib.Data.Fin.Tuple.Basic
import Mathlib.Logic.Equiv.Fin.Basic
import Mathlib.Algebra.Order.Ring.Rat
import Mathlib.Algebra.Order.Field.Basic

/-!
# Model of the analog-information simulators

`analog_information_decoding/simulators/memory_experiment_v2.py`,
`analog_information_decoding/simulators/quasi_single_shot_v2.py` and
`analog_information_decoding/utils/simulation_utils.py`.

An `a × b` binary numpy array is `Mat a b`; shapes are in the types.  Floats are rationals (for some functions elements of any field, for `AnalogTanner`), random draws and
Gaussian noise are inputs, and the BP+OSD / matching decoder is a parameter.
-/

namespace Verif.Analog
open Verif

/-- A binary matrix (the check matrices of simulators/simulation.py and quasi_single_shot_v2.py, arrays of 0 and 1). -/
abbrev Mat (a b : ℕ) := Fin a → Fin b → ZMod 2

/-- `np.identity` (analog_tannergraph_decoding.py:315). -/
def eye (m : ℕ) : Mat m m := fun i j => if i = j then 1 else 0

/-! ## Multi-round decoding -/

/-- `block_diag([pcm] * R)` (memory_experiment_v2.py:32, 35). -/
def blockDiag {m n : ℕ} (H : Mat m n) (R : ℕ) : Mat (R * m) (R * n) := fun i j =>
  if i.divNat = j.divNat then H i.modNat j.modNat else 0

/-- `eye(N, k=-d)`: ones at `(j + d, j)` (memory_experiment_v2.py:38). -/
def eyeBelow (N d : ℕ) : Mat N N := fun i j => if i.val = j.val + d then 1 else 0

/-- `build_multiround_pcm` (memory_experiment_v2.py:19-44): `(H_diag | I + I_off)` with `repetitions + 1` rounds. -/
def buildMultiroundPcm {m n : ℕ} (H : Mat m n) (repetitions : ℕ) :
    Mat ((repetitions + 1) * m) ((repetitions + 1) * n + (repetitions + 1) * m) := fun i =>
  Fin.append (blockDiag H (repetitions + 1) i)
    (fun j => blockDiag (eye m) (repetitions + 1) i j + eyeBelow ((repetitions + 1) * m) m i j)

/-- The difference syndrome (memory_experiment_v2.py:102-103). -/
def diffSyndrome {m R : ℕ} (S : Mat m R) : Mat m R := fun i r =>
  if r.val = 0 then S i r else S i r - S i ⟨r.val - 1, by omega⟩

/-- `flatten("F")`: column after column (memory_experiment_v2.py:127). -/
def flattenF {m R : ℕ} (M : Mat m R) : Vec (R * m) := fun k => M k.modNat k.divNat

/-- `decoded[: n * R].reshape((R, n)).T` (memory_experiment_v2.py:133). -/
def spaceCorrection {m n R : ℕ} (d : Vec (R * n + R * m)) : Mat n R := fun q r =>
  d (Fin.castAdd _ (finProdFinEquiv (r, q)))

/-- `decoded[n * R :].reshape((R, m)).T` (memory_experiment_v2.py:138). -/
def timeCorrection {m n R : ℕ} (d : Vec (R * n + R * m)) : Mat m R := fun i r =>
  d (Fin.natAdd _ (finProdFinEquiv (r, i)))

/-- Column `k` of `np.cumsum(M, 1) % 2` (memory_experiment_v2.py:144, 159). -/
def cumsumCol {a R : ℕ} (M : Mat a R) (k : ℕ) : Vec a := fun q => ∑ r : Fin R, if r.val ≤ k then M q r else 0

/-- `pcm @ v % 2` (memory_experiment_v2.py:147, simulation_utils.py:52-58). -/
def apply {m n : ℕ} (H : Mat m n) (v : Vec n) : Vec m := fun i => ∑ q, H i q * v q

/-- The syndrome matrix after the commit (memory_experiment_v2.py:144-155) of the correction `c` of the first
`T` rounds, with the time correction `tm` of round `T - 1`. -/
def commit {m n R : ℕ} (H : Mat m n) (S : Mat m R) (T : ℕ) (c : Vec n) (tm : Vec m) : Mat m R := fun i r =>
  if r.val = T then S i r + apply H c i + tm i else if T ≤ r.val then S i r + apply H c i else S i r

/-- `decode_multiround` (memory_experiment_v2.py:80-161) for an even number `R ≥ 2` of rounds: the correction
and the syndrome matrix afterwards.  `dec` is `decoder.decode` with the channel set up for this call. -/
def decodeMultiround {m n R : ℕ} (H : Mat m n) (dec : Vec (R * m) → Vec (R * n + R * m)) (S : Mat m R)
    (lastRound : Bool) : Vec n × Mat m R :=
  let d := dec (flattenF (diffSyndrome S))
  if lastRound then (cumsumCol (spaceCorrection d) (R - 1), S)
  else
    let c := cumsumCol (spaceCorrection d) (R / 2 - 1)
    (c, commit H S (R / 2) c (fun i => ∑ r : Fin R, if r.val = R / 2 - 1 then timeCorrection d i r else 0))

/-- Exceptions (raised in memory_experiment_v2.py:59-77). -/
inductive Err
  | valueError
  | unbound
  | indexError
deriving DecidableEq

/-- `move_syndrome` (memory_experiment_v2.py:47-56): for an odd number of columns the two slices have different
widths. -/
def moveSyndrome {m R : ℕ} (S : Mat m R) : Except Err (Mat m R) :=
  if R - R / 2 = R / 2 then .ok fun i r => if h : r.val + R / 2 < R then S i ⟨r.val + R / 2, h⟩ else 0
  else .error .valueError

/-! ### The decoder object -/

/-- The `bposd_decoder` object as far as `decode_multiround` sees it: its channel probabilities (changed by
`update_channel_probs`) and its decoding function (used in memory_experiment_v2.py:59-68, 80-130). -/
structure Bposd (N M : ℕ) where
  channel : Fin M → ℚ
  decode : (Fin M → ℚ) → Vec N → Vec M

/-- The channel with the last `m` entries set to `1e-15` (memory_experiment_v2.py:116-117, 122-123). -/
def perfectLast {M : ℕ} (m : ℕ) (ch : Fin M → ℚ) : Fin M → ℚ := fun i => if M - m ≤ i.val then 1 / 10 ^ 15 else ch i

/-- `decode_multiround(..., decoding_method="bposd", analog_syndr=None)` with the decoder object as state
(memory_experiment_v2.py:121-127). -/
def decodeMultiroundObj {m n R : ℕ} (H : Mat m n) (channelProbs : Fin (R * n + R * m) → ℚ)
    (b : Bposd (R * m) (R * n + R * m)) (S : Mat m R) (lastRound : Bool) :
    (Vec n × Mat m R) × Bposd (R * m) (R * n + R * m) :=
  let b' := if lastRound then { b with channel := perfectLast m channelProbs } else b
  (decodeMultiround H (b'.decode b'.channel) S lastRound, b')

/-! ## Quasi-single-shot sampling -/

/-- One round: the data error added by `generate_err` and the bits flipped by the syndrome noise (quasi_single_shot_v2.py:206-227). -/
structure Round (m n : ℕ) where
  dataErr : Vec n
  synErr : Vec m

/-- Local variables of `_single_sample` (quasi_single_shot_v2.py:193-202), and the list of the calls of the decoder
(`true` for `last_round`). -/
structure QState (m n R : ℕ) where
  err : Vec n
  mat : Mat m R
  cnt : ℕ
  calls : List Bool

/-- The measured syndrome of a round (quasi_single_shot_v2.py:215-227): the last round is perfect. -/
def roundSyndrome {m n : ℕ} (H : Mat m n) (err : Vec n) (r : Round m n) (last : Bool) : Vec m :=
  if last then apply H err else apply H err + r.synErr

/-- `syndrome_mat[:, cnt] += syndrome` (quasi_single_shot_v2.py:230). -/
def addColumn {m R : ℕ} (M : Mat m R) (cnt : ℕ) (s : Vec m) : Mat m R := fun i r =>
  if r.val = cnt then M i r + s i else M i r

/-- What happens when the syndrome matrix is full (quasi_single_shot_v2.py:236-261). -/
def fullWindow {m n R : ℕ} (H : Mat m n) (dec : Bool → Vec (R * m) → Vec (R * n + R * m)) (q : QState m n R)
    (last : Bool) : Except Err (QState m n R) :=
  if last then
    .ok ⟨q.err + (decodeMultiround H (dec true) q.mat true).1, (decodeMultiround H (dec true) q.mat true).2, q.cnt,
      q.calls ++ [true]⟩
  else
    (moveSyndrome (decodeMultiround H (dec false) q.mat false).2).map fun M =>
      ⟨q.err + (decodeMultiround H (dec false) q.mat false).1, M, R / 2, q.calls ++ [false]⟩

/-- The state after the measurement of one round (quasi_single_shot_v2.py:205-234). -/
def measure {m n R : ℕ} (H : Mat m n) (q : QState m n R) (r : Round m n) (last : Bool) : QState m n R :=
  ⟨q.err + r.dataErr, addColumn q.mat q.cnt (roundSyndrome H (q.err + r.dataErr) r last), q.cnt + 1, q.calls⟩

/-- The loop over the rounds (quasi_single_shot_v2.py:204-261) in analog mode; `analog = false` raises at the first
call of the decoder, because `analog_syndr_mat` is unbound (and `self.sigma` missing).  A column index beyond the
matrix raises. -/
def qssLoop {m n R : ℕ} (H : Mat m n) (analog : Bool) (dec : Bool → Vec (R * m) → Vec (R * n + R * m)) :
    List (Round m n) → QState m n R → Except Err (QState m n R)
  | [], q => .ok q
  | r :: rs, q =>
    if R ≤ q.cnt then .error .indexError
    else if (measure H q r rs.isEmpty).cnt = R then
      if analog then (fullWindow H dec (measure H q r rs.isEmpty) rs.isEmpty).bind (qssLoop H analog dec rs)
      else .error .unbound
    else qssLoop H analog dec rs (measure H q r rs.isEmpty)

/-- `_single_sample` up to the logical check (quasi_single_shot_v2.py:193-261) with the parity test of the
constructor (quasi_single_shot_v2.py:95-97). -/
def qssSample {m n R : ℕ} (H : Mat m n) (analog : Bool) (dec : Bool → Vec (R * m) → Vec (R * n + R * m))
    (rounds : List (Round m n)) : Except Err (QState m n R) :=
  if R % 2 ≠ 0 then .error .valueError else qssLoop H analog dec rounds ⟨0, 0, 0, []⟩

/-! ## Noise -/

/-- One iteration of `generate_err` (simulation_utils.py:101-120) for a qubit with residual `(x, z)`, probabilities
`px, py, pz` and the draw `u`: the new `(x, z)`. -/
def stepErr {K : Type} [Field K] [LinearOrder K] (px py pz u : K) (x z : ZMod 2) : ZMod 2 × ZMod 2 :=
  if u < pz then (x, z + 1)
  else if pz ≤ u ∧ u < pz + px then (x + 1, z)
  else if pz + px ≤ u ∧ u < px + py + pz then (x + 1, z + 1)
  else (x, z)

/-- `generate_err` (simulation_utils.py:84-122).  The function writes into the residual arrays; entry `i` is read
and written in iteration `i` only, so the iterations are independent (the two residual arrays are different
objects in every call in /repo). -/
def generateErr {K : Type} [Field K] [LinearOrder K] {n : ℕ} (px py pz u : Fin n → K) (x z : Vec n) : Vec n × Vec n :=
  (fun i => (stepErr (px i) (py i) (pz i) (u i) (x i) (z i)).1, fun i => (stepErr (px i) (py i) (pz i) (u i) (x i) (z i)).2)

/-- `error_channel_setup` (simulation_utils.py:193-219): the rates `(px, py, pz)` given to every qubit; `none` is an
infinite bias. -/
def channelSetup {K : Type} [Field K] (rate : K) (bx bY bz : Option K) : K × K × K :=
  match bx, bY, bz with
  | none, _, _ => (rate, 0, 0)
  | some _, none, _ => (0, rate, 0)
  | some _, some _, none => (0, 0, rate)
  | some x, some y, some z => (rate * x / (x + y + z), rate * y / (x + y + z), rate * z / (x + y + z))

/-- `generate_syndr_err` (simulation_utils.py:164-174). -/
def generateSyndrErr {m : ℕ} (p u : Fin m → ℚ) : Vec m := fun i => if u i < p i then 1 else 0

/-! ## Syndromes -/

/-- `get_signed_from_binary` (simulation_utils.py:229-235). -/
def signedFromBinary {m : ℕ} (s : Vec m) : Fin m → ℤ := fun i => if s i = 0 then 1 else -1

/-- `get_binary_from_analog` (simulation_utils.py:238-243). -/
def binaryFromAnalog {K : Type} [Field K] [LinearOrder K] {m : ℕ} (a : Fin m → K) : Vec m := fun i => if a i ≤ 0 then 1 else 0

/-- `get_noisy_analog_syndrome` (simulation_utils.py:177-190): a normal variable with mean `sgns` and deviation
`sigma` is `sgns + sigma * g` with `g` standard normal. -/
def noisyAnalog {K : Type} [Field K] {m : ℕ} (s : Vec m) (sigma : K) (g : Fin m → K) : Fin m → K := fun i =>
  (if s i = 0 then 1 else -1) + sigma * g i

/-- `get_analog_pcm` (analog_tannergraph_decoding.py:313-315). -/
def analogPcm {m n : ℕ} (H : Mat m n) : Mat m (n + m) := fun i => Fin.append (H i) (eye m i)

/-- `build_single_stage_pcm` (simulation_utils.py:222-226). -/
def singleStagePcm {m n l : ℕ} (H : Mat m n) (M : Mat l m) : Mat (m + l) (n + m) := fun i j =>
  Fin.append (fun a : Fin m => Fin.append (H a) (eye m a) j) (fun b : Fin l => Fin.append (0 : Vec n) (M b) j) i

/-! ## Logical errors -/

/-- The rows of `np.append(check_matrix.T, residual_err, axis=1)` (simulation_utils.py:52-58). -/
def appendResidual {m n : ℕ} (H : Mat m n) (r : Vec n) : List (Vec (m + 1)) :=
  List.ofFn fun q : Fin n => Fin.append (fun i => H i q) (fun _ : Fin 1 => r q)

/-- `check_logical_err_h` (simulation_utils.py:45-64); `mod2.rank` returns a Python int, so that `... is True` is the
comparison itself. -/
def checkLogicalErrH {m n : ℕ} (H : Mat m n) (original estimate : Vec n) : Bool :=
  decide (rank (List.ofFn H) < rank (appendResidual H (original + estimate)))

/-- `is_logical_err` (simulation_utils.py:72-78). -/
def isLogicalErr {n : ℕ} (logicals : List (Vec n)) (residual : Vec n) : Bool :=
  (mulVec logicals residual).any fun b => decide (b ≠ 0)

end Verif.Analog
