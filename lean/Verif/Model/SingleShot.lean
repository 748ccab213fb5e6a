import Verif.Model.Analog

/-!
# Model of `SingleShotSimulator` (simulators/simulation.py) and of the `run` loops

The two error sides do not interact after the errors are drawn, so the model follows one side: `H` are the checks
that see the errors of this side (`Hz` for X errors), `M` their meta checks.  BP+OSD decoders are functions of what
is passed to them.  A value passed to a decoder is a rational number, because the code also passes analog values.
-/

namespace Verif.Analog
open Verif

/-- Exceptions of this simulator (raised in simulation.py:157-769). -/
inductive SErr
  | attributeError
  | valueError
  | unsupportedOperation
  | unbound
deriving DecidableEq

/-- Constructor arguments that select the decoding method (simulation.py:41-65). -/
structure SSConfig where
  singleStage : Bool
  analogInfo : Bool
  analogTg : Bool
deriving DecidableEq

/-- `check_input` (simulation.py:151-155). -/
def SSConfig.check (c : SSConfig) : Except SErr Unit :=
  if c.analogTg && c.analogInfo then .error .valueError else .ok ()

/-- `self.analog_info or self.analog_tg` (simulation.py:232-248). -/
def SSConfig.analog (c : SSConfig) : Bool := c.analogInfo || c.analogTg

/-- A binary array seen as numbers (simulation.py:232-248). -/
def toRat {m : ℕ} (s : Vec m) : Fin m → ℚ := fun i => if s i = 0 then 0 else 1

/-- `_get_noisy_syndrome` (simulation.py:232-248) for one side: `ser` is `syndr_err_rate`, `g` the Gaussian draws,
`flips` the result of `generate_syndr_err`. -/
def noisySyndrome {m : ℕ} (c : SSConfig) (ser sigma : ℚ) (g : Fin m → ℚ) (flips s : Vec m) : Fin m → ℚ :=
  if ser ≠ 0 then if c.analog then noisyAnalog s sigma g else toRat (s + flips) else toRat s

/-- What a decoder is asked: a syndrome for the checks `H`, for `[H | I]` or for the single-stage matrix, the last two
with the rate given to the data bits.  (The rates of the virtual bits are not part of the model.) (the calls of `decode` in simulation.py:250-465). -/
inductive Question (m l : ℕ)
  | plain (syn : Fin m → ℚ)
  | analog (syn : Fin m → ℚ) (rate : ℚ)
  | stage (syn : Fin (m + l) → ℚ) (rate : Option ℚ)

/-- `meta_pcm @ s % 2` for a syndrome of numbers 0 and 1 (simulation.py:401-420). -/
def metaOf {m l : ℕ} (M : Mat l m) (s : Vec m) : Vec l := apply M s

/-- `x.astype(np.int32)`: truncation towards zero (simulation.py:427, 434). -/
def truncate (q : ℚ) : ℤ := q.num.tdiv q.den

/-- Reading back a 0/1 array as bits (used where the code computes modulo two with it) (simulation.py:443-465). -/
def bitsOf {m : ℕ} (a : Fin m → ℚ) : Vec m := fun i => ((truncate (a i) : ℤ) : ZMod 2)

/-- `_single_stage_decoding` with `_decode_ss_with_meta`, `_ss_analog_tg_decoding`, `_decode_ss_no_meta`
(simulation.py:250-386) for one side: the question asked.  `own` is the rate of the errors of this side.  The
argument `self.sigma_x` is evaluated in every case, and exists only for analog decoding (simulation.py:133-135). -/
def singleStageQuestion {m l : ℕ} (c : SSConfig) (M : Option (Mat l m)) (own : ℚ) (s : Fin m → ℚ) :
    Except SErr (Question m l) :=
  if c.analog then
    match M with
    | some M =>
      if c.analogTg then .ok (.stage (Fin.append (toRat (binaryFromAnalog s)) (toRat (metaOf M (binaryFromAnalog s)))) (some own))
      else .ok (.stage (Fin.append s fun i => (signedFromBinary (metaOf M (binaryFromAnalog s)) i : ℚ)) none)
    | none => if c.analogTg then .ok (.analog (toRat (binaryFromAnalog s)) own) else .ok (.plain s)
  else .error .attributeError

/-- `_meta_code_decoding` (simulation.py:443-465); `mdec` is the decoder of the meta code. -/
def metaRepair {m l : ℕ} (c : SSConfig) (M : Mat l m) (mdec : Vec l → Vec m) (s : Fin m → ℚ) : Vec m :=
  if c.analog then binaryFromAnalog s + mdec (metaOf M (binaryFromAnalog s)) else bitsOf s + mdec (metaOf M (bitsOf s))

/-- The syndrome of the second stage (simulation.py:401-420). -/
def repaired {m l : ℕ} (c : SSConfig) (M : Option (Mat l m)) (mdec : Vec l → Vec m) (s : Fin m → ℚ) : Fin m → ℚ :=
  match M with
  | some M => toRat (metaRepair c M mdec s)
  | none => fun i => (truncate (s i) : ℚ)

/-- `_two_stage_decoding` (simulation.py:388-441) for one side.  `other` is the rate the code passes for this side:
`z_bit_err_channel + y_bit_err_channel` for X errors and the other way round (simulation.py:427, 434). -/
def twoStageQuestion {m l : ℕ} (c : SSConfig) (M : Option (Mat l m)) (mdec : Vec l → Vec m) (other : ℚ)
    (s : Fin m → ℚ) : Question m l :=
  if c.analogTg then .analog (repaired c M mdec s) other else .plain (repaired c M mdec s)

/-- The question asked in a noisy round (simulation.py:183-188). -/
def question {m l : ℕ} (c : SSConfig) (M : Option (Mat l m)) (mdec : Vec l → Vec m) (own other : ℚ) (s : Fin m → ℚ) :
    Except SErr (Question m l) :=
  if c.singleStage then singleStageQuestion c M own s else .ok (twoStageQuestion c M mdec other s)

/-- The draws of one noisy round (simulation.py:168-193). -/
structure SSRound (m n : ℕ) where
  dataErr : Vec n
  flips : Vec m
  noise : Fin m → ℚ

/-- Everything fixed during a sample: checks, meta checks, decoders (`answer` returns the first `n` bits) (the attributes of simulation.py:41-155). -/
structure SSSetup (m n l : ℕ) where
  cfg : SSConfig
  H : Mat m n
  M : Option (Mat l m)
  mdec : Vec l → Vec m
  answer : Question m l → Vec n
  ser : ℚ
  sigma : ℚ
  own : ℚ
  other : ℚ

/-- One noisy round (simulation.py:168-197): the new residual error. -/
def ssRound {m n l : ℕ} (u : SSSetup m n l) (residual : Vec n) (r : SSRound m n) : Except SErr (Vec n) :=
  (question u.cfg u.M u.mdec u.own u.other
    (noisySyndrome u.cfg u.ser u.sigma r.noise r.flips (apply u.H (residual + r.dataErr)))).map
    fun q => residual + r.dataErr + u.answer q

/-- The noisy rounds (simulation.py:168-197). -/
def ssRounds {m n l : ℕ} (u : SSSetup m n l) : Vec n → List (SSRound m n) → Except SErr (Vec n)
  | residual, [] => .ok residual
  | residual, r :: rs => (ssRound u residual r).bind fun e => ssRounds u e rs

/-- The logical check (simulation.py:223-228): without logical operators the *residual* is passed in the place of the
estimate, and the checks `H` that see this error. -/
def ssFlag {m n : ℕ} (H : Mat m n) (logicals : Option (List (Vec n))) (err residual : Vec n) : Bool :=
  match logicals with
  | some L => isLogicalErr L residual
  | none => checkLogicalErrH H err residual

/-- `_single_sample` (simulation.py:157-230) for one side: the final residual and the flag.  `last` is the error drawn
before the perfect round. -/
def ssSample {m n l : ℕ} (u : SSSetup m n l) (logicals : Option (List (Vec n))) (rounds : List (SSRound m n))
    (last : Vec n) : Except SErr (Vec n × Bool) :=
  (ssRounds u 0 rounds).map fun r =>
    (r + last + u.answer (.plain (toRat (apply u.H (r + last)))),
      ssFlag u.H logicals (r + last) (r + last + u.answer (.plain (toRat (apply u.H (r + last))))))

/-! ## The `run` loops -/

/-- Counters of a `run`: number of runs, X successes, Z successes (simulation.py:714-739). -/
structure Counts where
  runs : ℕ
  x : ℕ
  z : ℕ
deriving DecidableEq

/-- Counters after one more sample; `true` is a success (simulation.py:714-739). -/
def Counts.add (k : Counts) (o : Bool × Bool) : Counts := ⟨k.runs + 1, k.x + o.1.toNat, k.z + o.2.toNat⟩

/-- The loop of `AtdSimulator.run` (analog_tannergraph_decoding.py:236-255) and of
`QssSimulator.run` (quasi_single_shot_v2.py:281-289, one side), with `residue = 1`, and of `SingleShotSimulator.run`
(simulation.py:714-739) with `residue = 0`: results are saved and convergence is tested when
`runs % save_interval == residue`.  `save` is what happens when the results file is written, `converged` the
convergence test.  `save_interval` is at least 1. -/
def runLoop (interval residue : ℕ) (save : Except SErr Unit) (converged : Counts → Bool) :
    Counts → List (Bool × Bool) → Except SErr Counts
  | k, [] => .ok k
  | k, o :: os =>
    if (k.add o).runs % interval = residue then
      match save with
      | .error e => .error e
      | .ok () => if converged (k.add o) then .ok (k.add o) else runLoop interval residue save converged (k.add o) os
    else runLoop interval residue save converged (k.add o) os

/-- `run(samples)`: without samples the loop variable is unbound; the results are saved once more at the end (simulation.py:714-769). -/
def runAll (interval residue : ℕ) (save : Except SErr Unit) (converged : Counts → Bool) (outcomes : List (Bool × Bool)) :
    Except SErr Counts :=
  if outcomes = [] then .error .unbound
  else
    match runLoop interval residue save converged ⟨0, 0, 0⟩ outcomes with
    | .error e => .error e
    | .ok k =>
      match save with
      | .error e => .error e
      | .ok () => .ok k

/-- `QssSimulator.run` (quasi_single_shot_v2.py:278-289): the results file is opened for writing (simulation_utils.py:278).  With one side
only, both entries of an outcome are the same.  `Model/Results` has the dictionary and the file. -/
def qssRun (interval : ℕ) (converged : Counts → Bool) (outcomes : List (Bool × Bool)) : Except SErr Counts :=
  runAll interval 1 (.ok ()) converged outcomes

/-- `AtdSimulator.run` (analog_tannergraph_decoding.py:232-279): the results contain the bias.  If it is an array of numpy, as the
constructor asks for and as the default is, it cannot be written (analog_tannergraph_decoding.py:309, `Model/Results`); a list can. -/
def atdRun (arrayBias : Bool) (interval : ℕ) (converged : Counts → Bool) (outcomes : List (Bool × Bool)) : Except SErr Counts :=
  runAll interval 1 (if arrayBias then .error .attributeError else .ok ()) converged outcomes

/-- `SingleShotSimulator.run` (simulation.py:714-769): `save_results` opens the file without a mode, that is for
reading, and writes to it (simulation.py:703-711). -/
def singleShotRun (interval : ℕ) (converged : Counts → Bool) (outcomes : List (Bool × Bool)) : Except SErr Counts :=
  runAll interval 0 (.error .unsupportedOperation) converged outcomes

end Verif.Analog
