import Verif.Model.Analog
import Verif.Spec.Gauss

/-!
# Model of the analog Tanner graph decoder and simulator

`analog_information_decoding/simulators/analog_tannergraph_decoding.py` and the conversions of
`analog_information_decoding/utils/simulation_utils.py:125-161`.

Numbers are reals; a float that may be infinite or not a number is a `Num` (signed zeros, rounding, overflow and underflow are not
modelled).  `erfcinv` of scipy and the BP+OSD decoder are parameters; random draws are inputs.
-/

namespace Verif.AnalogTanner
open Verif Analog Real Gauss

/-- A float (the floats of simulation_utils.py:125-161). -/
inductive Num where
  | fin (r : ℝ)
  | inf
  | nan

/-- `x <= 0.0`: false for an infinite value and for `nan` (simulation_utils.py:132-161). -/
def Num.le0 : Num → Prop
  | .fin r => r ≤ 0
  | _ => False

/-- `get_error_rate_from_sigma` (simulation_utils.py:142-149). -/
noncomputable def errorRate (sigma : ℝ) : ℝ :=
  if sigma = 0 then 0 else 0.5 * erfc (1 / √(2 * sigma ^ 2))

/-- `get_sigma_from_syndr_er` (simulation_utils.py:132-139).  `erfcinv` of scipy is `nan` outside of [0, 2] and infinite at the
ends (for `ser = 1` the quotient is a zero); a division by zero in numpy is infinite. -/
noncomputable def sigmaOfRate (erfcinv : ℝ → ℝ) (ser : ℝ) : Num :=
  if ser = 0 then .fin 0
  else if 2 * ser < 0 ∨ 2 < 2 * ser then .nan
  else if 2 * ser = 2 then .fin 0
  else if erfcinv (2 * ser) = 0 then .inf
  else .fin (1 / √2 / erfcinv (2 * ser))

/-- `get_analog_llr` (simulation_utils.py:125-129) of one value. -/
noncomputable def analogLlr (y sigma : ℝ) : ℝ := if sigma ≤ 0 then 0 else (2 * y) / sigma ^ 2

/-- `get_virtual_check_init_vals` (simulation_utils.py:152-161) of one value; an infinite `sigma` makes the ratio a zero. -/
noncomputable def virtualInit (y : ℝ) : Num → Num
  | .fin sigma => .fin (if sigma ≤ 0 then 0 else 1 / (exp |analogLlr y sigma| + 1))
  | .inf => .fin (1 / (exp |0| + 1))
  | .nan => .nan

/-- Exceptions (raised in analog_tannergraph_decoding.py:30-93). -/
inductive Err where
  | valueError
  | unboundLocal
  deriving DecidableEq

/-- What `bposd_decoder` computes: the estimate for a check matrix, the channel probabilities and a syndrome.  It has no other
memory that influences its results (called in analog_tannergraph_decoding.py:78-93). -/
abbrev BpOsd := (m n : ℕ) → Mat m n → (Fin n → Num) → Vec m → Vec n

/-- `AnalogTannergraphDecoder` (analog_tannergraph_decoding.py:24-93): the attributes that are used after the construction.
`channel` is `bposd_decoder.channel_probs`. -/
structure Decoder (m n : ℕ) where
  H : Mat m n
  sigma : Num
  channel : Fin (n + m) → Num

/-- The noise strength in the constructor (analog_tannergraph_decoding.py:46-53). -/
noncomputable def decoderSigma (erfcinv : ℝ → ℝ) (sigma : Num) (ser : Option ℝ) : Except Err Num :=
  open Classical in
  if sigma.le0 then
    match ser with
    | none => .error .valueError
    | some r => .ok (sigmaOfRate erfcinv r)
  else if ser.isSome then .error .valueError
  else .ok sigma

/-- `AnalogTannergraphDecoder.__init__` (analog_tannergraph_decoding.py:30-68).  The remaining parameters of the BP+OSD decoder are
constants. -/
noncomputable def Decoder.new {m n : ℕ} (erfcinv : ℝ → ℝ) (H : Mat m n) (channel : Fin n → ℝ) (sigma : Num) (ser : Option ℝ) :
    Except Err (Decoder m n) := do
  let s ← decoderSigma erfcinv sigma ser
  return ⟨H, s, Fin.append (fun i => Num.fin (channel i)) fun _ : Fin m => Num.fin 0⟩

/-- `_set_analog_syndrome` (analog_tannergraph_decoding.py:78-88). -/
noncomputable def Decoder.setAnalogSyndrome {m n : ℕ} (d : Decoder m n) (y : Fin m → ℝ) : Decoder m n :=
  { d with channel := Fin.append (fun i => d.channel (Fin.castAdd m i)) fun j => virtualInit (y j) d.sigma }

/-- `decode` (analog_tannergraph_decoding.py:90-93): the decoder afterwards and the estimate. -/
noncomputable def Decoder.decode {m n : ℕ} (bp : BpOsd) (d : Decoder m n) (y : Fin m → ℝ) : Decoder m n × Vec (n + m) :=
  let d' := d.setAnalogSyndrome y
  (d', bp _ _ (analogPcm d'.H) d'.channel (binaryFromAnalog y))

/-- Several calls of `decode`: the decoder afterwards and all estimates (repeated `decode`, analog_tannergraph_decoding.py:90-93). -/
noncomputable def Decoder.decodeAll {m n : ℕ} (bp : BpOsd) : Decoder m n → List (Fin m → ℝ) → Decoder m n × List (Vec (n + m))
  | d, [] => (d, [])
  | d, y :: ys =>
    let r := d.decode bp y
    let t := Decoder.decodeAll bp r.1 ys
    (t.1, r.2 :: t.2)

/-- The arguments of `AtdSimulator` that matter for one sample (analog_tannergraph_decoding.py:99-117); `none` in `bias` is an
infinite entry. -/
structure Config where
  dataRate : ℝ
  ser : Option ℝ := none
  sigma : Option ℝ := none
  bx : Option ℝ := some 1
  bY : Option ℝ := some 1
  bz : Option ℝ := some 1
  method : List Char := ['a', 't', 'd']

/-- The attributes of `AtdSimulator` used by a sample (analog_tannergraph_decoding.py:99-197). -/
structure Sim (mx mz n : ℕ) where
  Hx : Mat mx n
  Hz : Mat mz n
  Lx : List (Vec n)
  Lz : List (Vec n)
  ser : ℝ
  xSigma : Num
  zSigma : Num
  channel : ℝ × ℝ × ℝ
  xDecoder : Decoder mz n
  zDecoder : Decoder mx n

/-- The syndrome error rate (analog_tannergraph_decoding.py:133-158). -/
noncomputable def Config.rate (c : Config) : Except Err ℝ :=
  match c.sigma, c.ser with
  | none, none => .error .valueError
  | none, some r => .ok r
  | some s, none => .ok (errorRate s)
  | some _, some _ => .error .valueError

/-- `AtdSimulator.__init__` (analog_tannergraph_decoding.py:99-197).  A `decoding_method` other than "atd" leaves the local variable
`Decoder` unset. -/
noncomputable def Sim.new {mx mz n : ℕ} (erfcinv : ℝ → ℝ) (Hx : Mat mx n) (Lx : List (Vec n)) (Hz : Mat mz n) (Lz : List (Vec n))
    (c : Config) : Except Err (Sim mx mz n) := do
  let ser ← c.rate
  let sc := channelSetup ser c.bx c.bY c.bz
  let xSigma := sigmaOfRate erfcinv (sc.1 + sc.2.1)
  let zSigma := sigmaOfRate erfcinv (sc.2.2 + sc.2.1)
  let full := channelSetup c.dataRate c.bx c.bY c.bz
  if c.method ≠ ['a', 't', 'd'] then .error .unboundLocal
  else
    let xd ← Decoder.new erfcinv Hz (fun _ => full.1 + full.2.1) xSigma none
    let zd ← Decoder.new erfcinv Hx (fun _ => full.2.2 + full.2.1) zSigma none
    return ⟨Hx, Hz, Lx, Lz, ser, xSigma, zSigma, full, xd, zd⟩

/-- The random draws of a sample: one uniform draw per qubit and one standard normal draw per check (analog_tannergraph_decoding.py:199-215). -/
structure Draws (mx mz n : ℕ) where
  u : Fin n → ℝ
  gx : Fin mz → ℝ
  gz : Fin mx → ℝ

/-- `[: self.n]` (analog_tannergraph_decoding.py:199-228). -/
def dataPart {m n : ℕ} (v : Vec (n + m)) : Vec n := fun i => v (Fin.castAdd m i)

/-- One side of `single_sample` (analog_tannergraph_decoding.py:213-226): the decoder afterwards and whether the side succeeded. -/
noncomputable def side {m n : ℕ} (bp : BpOsd) (H : Mat m n) (L : List (Vec n)) (sigma : ℝ) (d : Decoder m n) (e : Vec n)
    (g : Fin m → ℝ) : Decoder m n × Bool :=
  let r := d.decode bp (noisyAnalog (apply H e) sigma g)
  (r.1, !isLogicalErr L (e + dataPart r.2))

/-- `single_sample` (analog_tannergraph_decoding.py:199-228).  `none`: a noise strength is infinite or not a number, and so are the
sampled values; that case is not modelled.  The counters of iterations are left out. -/
noncomputable def Sim.singleSample {mx mz n : ℕ} (bp : BpOsd) (s : Sim mx mz n) (r : Draws mx mz n) :
    Option (Sim mx mz n × Bool × Bool) :=
  let e := generateErr (fun _ => s.channel.1) (fun _ => s.channel.2.1) (fun _ => s.channel.2.2) r.u 0 0
  match s.xSigma, s.zSigma with
  | .fin sx, .fin sz =>
    let x := side bp s.Hz s.Lz sx s.xDecoder e.1 r.gx
    let z := side bp s.Hx s.Lx sz s.zDecoder e.2 r.gz
    some ({ s with xDecoder := x.1, zDecoder := z.1 }, x.2, z.2)
  | _, _ => none

/-- The samples drawn by `run` (analog_tannergraph_decoding.py:230-240): the results of all samples.  The tests for convergence are
in `Model/SingleShot` (`runLoop`). -/
noncomputable def Sim.samples {mx mz n : ℕ} (bp : BpOsd) : Sim mx mz n → List (Draws mx mz n) → Option (List (Bool × Bool))
  | _, [] => some []
  | s, r :: rs =>
    match s.singleSample bp r with
    | none => none
    | some (s', b) => (Sim.samples bp s' rs).map (b :: ·)

end Verif.AnalogTanner
