import Verif.Model.SingleShot
import Verif.Model.AnalogTanner

/-!
# The decoder objects of `SingleShotSimulator`

`analog_information_decoding/simulators/simulation.py`, with the check matrix and the channel probabilities of every decoder object,
the changes made by `update_channel_probs`, and all calls of `decode`.  `Model/SingleShot` follows one side without the objects.

The two error sides do not interact after the errors are drawn; each has its own list of calls, and the order of calls between the
sides is not modelled.  Random draws are inputs, numbers are reals (`Num` as in `Model/AnalogTanner`).  The name of the output file,
the time measurement and the numbers of iterations are left out.
-/

namespace Verif.SSO
open Verif Analog AnalogTanner

/-- Exceptions; `notModelled`: a noise strength is infinite or not a number, and so are the sampled values (raised in simulation.py:41-769). -/
inductive ObjErr where
  | attributeError
  | valueError
  | indexError
  | notModelled
  deriving DecidableEq

/-- A decoder object (`get_decoder`, simulation.py:637-658): check matrix and current channel probabilities.  The parameters of BP+OSD
are the same for all objects. -/
structure BpDec (m n : ℕ) where
  pcm : Mat m n
  probs : Fin n → Num

/-- One call of `decode`: what the decoder object holds at that time, and the syndrome (the calls of `decode` in simulation.py:250-486). -/
structure Call (m n : ℕ) where
  pcm : Mat m n
  probs : Fin n → Num
  syn : Fin m → ℝ

/-- `bposd_decoder`: an estimate for every call (the calls of `decode` in simulation.py:250-486). -/
abbrev Bp := (m n : ℕ) → Call m n → Vec n

/-- `d.decode(syn)` as a call (the calls of `decode` in simulation.py:250-486). -/
def BpDec.ask {m n : ℕ} (d : BpDec m n) (syn : Fin m → ℝ) : Call m n := ⟨d.pcm, d.probs, syn⟩

/-- `d.update_channel_probs(probs)` (simulation.py:327-386). -/
def BpDec.update {m n : ℕ} (d : BpDec m n) (probs : Fin n → Num) : BpDec m n := { d with probs := probs }

/-- `np.ones(n) * p` (simulation.py:637-658). -/
def const {n : ℕ} (p : ℝ) : Fin n → Num := fun _ => .fin p

/-- The calls on one side: the standard checks, the analog Tanner graph, the single-stage matrix, the meta checks (simulation.py:250-486). -/
inductive SideCall (m n l : ℕ) where
  | std (c : Call m n)
  | tanner (c : Call m (n + m))
  | stage (c : Call (m + l) (n + m))
  | metaCode (c : Call l m)

/-- The decoder objects of one side (`x_bpd`, `x_abpd`, `ss_x_bpd`, `mx_bp`) (simulation.py:488-635). -/
structure Decs (m n l : ℕ) where
  std : BpDec m n
  tanner : Option (BpDec m (n + m))
  stage : Option (BpDec (m + l) (n + m))
  metaCode : Option (BpDec l m)

/-- The attributes of the simulator that belong to one side: the checks that see the errors, their meta checks if they are used, the
rate of the errors of this side and of the other side, the rate of syndrome errors, and the noise strength, which exists only for analog
decoding (simulation.py:41-155). -/
structure Side (m n l : ℕ) where
  H : Mat m n
  M : Option (Mat l m)
  own : ℝ
  other : ℝ
  synRate : ℝ
  sigma : Option Num
  decs : Decs m n l

/-- `_single_stage_setup` (simulation.py:488-572) for one side. -/
def singleStageSetup {m n l : ℕ} (c : SSConfig) (H : Mat m n) (M : Option (Mat l m)) (own synRate : ℝ) : Decs m n l where
  std := ⟨H, const own⟩
  tanner := if c.analogTg then some ⟨analogPcm H, Fin.append (const own) (const 0)⟩ else none
  stage := M.map fun M => ⟨singleStagePcm H M, Fin.append (const own) (const synRate)⟩
  metaCode := none

/-- `_two_stage_setup` (simulation.py:574-635) for one side. -/
def twoStageSetup {m n l : ℕ} (c : SSConfig) (H : Mat m n) (M : Option (Mat l m)) (own synRate : ℝ) : Decs m n l where
  std := ⟨H, const own⟩
  tanner := if c.analogTg then some ⟨analogPcm H, Fin.append (const own) (const 0)⟩ else none
  stage := none
  metaCode := M.map fun M => ⟨M, const synRate⟩

/-- The constructor arguments (simulation.py:43-65) that matter for a sample; the number of noisy rounds
`sus_th_depth` is the length of the list of draws in `Sim.sample`.  An absent matrix is `none`; so is an infinite bias. -/
structure Args (mx mz lx lz n : ℕ) where
  cfg : SSConfig
  per : ℝ
  ser : ℝ
  bx : Option ℝ
  bY : Option ℝ
  bz : Option ℝ
  xMeta : Bool
  zMeta : Bool
  Hx : Mat mx n
  Hz : Mat mz n
  Mx : Option (Mat lx mx)
  Mz : Option (Mat lz mz)
  Lx : Option (List (Vec n))
  Lz : Option (List (Vec n))

/-- The simulator object.  The `x` side has the checks `Hz` (simulation.py:41-155). -/
structure Sim (mx mz lx lz n : ℕ) where
  cfg : SSConfig
  ser : ℝ
  channel : ℝ × ℝ × ℝ
  logicals : Option (List (Vec n) × List (Vec n))
  x : Side mz n lz
  z : Side mx n lx

/-- `self.lx`, `self.lz` (simulation.py:105-111): only if both are given. -/
def logicalsOf {n : ℕ} : Option (List (Vec n)) → Option (List (Vec n)) → Option (List (Vec n) × List (Vec n))
  | some lx, some lz => some (lx, lz)
  | _, _ => none

/-- The decoder objects of one side (simulation.py:144-147). -/
def setup {m n l : ℕ} (c : SSConfig) (H : Mat m n) (M : Option (Mat l m)) (own synRate : ℝ) : Decs m n l :=
  if c.singleStage then singleStageSetup c H M own synRate else twoStageSetup c H M own synRate

/-- The attributes of one side (simulation.py:41-149). -/
noncomputable def sideNew {m n l : ℕ} (erfcinv : ℝ → ℝ) (c : SSConfig) (H : Mat m n) (M : Option (Mat l m)) (own other synRate : ℝ) :
    Side m n l :=
  ⟨H, M, own, other, synRate, if c.analog then some (sigmaOfRate erfcinv synRate) else none, setup c H M own synRate⟩

/-- `SingleShotSimulator.__init__` (simulation.py:41-149) with `check_input`: for analog decoding the first entry of the channel of the
syndrome errors is read, which does not exist without checks. -/
noncomputable def Sim.new {mx mz lx lz n : ℕ} (erfcinv : ℝ → ℝ) (a : Args mx mz lx lz n) : Except ObjErr (Sim mx mz lx lz n) :=
  if a.cfg.analogTg && a.cfg.analogInfo then .error .valueError
  else if a.cfg.analog && (mx = 0 || mz = 0) then .error .indexError
  else
    let p := channelSetup a.per a.bx a.bY a.bz
    let s := channelSetup a.ser a.bx a.bY a.bz
    .ok ⟨a.cfg, a.ser, p, logicalsOf a.Lx a.Lz,
      sideNew erfcinv a.cfg a.Hz (if a.zMeta then a.Mz else none) (p.1 + p.2.1) (p.2.2 + p.2.1) (s.1 + s.2.1),
      sideNew erfcinv a.cfg a.Hx (if a.xMeta then a.Mx else none) (p.2.2 + p.2.1) (p.1 + p.2.1) (s.2.2 + s.2.1)⟩

/-- A binary array seen as numbers (simulation.py:232-248). -/
def toReal {m : ℕ} (s : Vec m) : Fin m → ℝ := fun i => if s i = 0 then 0 else 1

/-- `x.astype(np.int32)`: truncation towards zero (simulation.py:427, 434). -/
noncomputable def truncR (r : ℝ) : ℤ := if 0 ≤ r then ⌊r⌋ else ⌈r⌉

/-- An array of numbers 0 and 1 used in a computation modulo two (simulation.py:443-465). -/
noncomputable def bitsR {m : ℕ} (y : Fin m → ℝ) : Vec m := fun i => ((truncR (y i) : ℤ) : ZMod 2)

/-- `_get_noisy_syndrome` (simulation.py:232-248) for one side: `g` are Gaussian draws, `u` uniform ones
(`generate_syndr_err`, simulation_utils.py:164-174). -/
noncomputable def Side.noisySyndrome {m n l : ℕ} (t : Side m n l) (c : SSConfig) (ser : ℝ) (g u : Fin m → ℝ) (s : Vec m) :
    Except ObjErr (Fin m → ℝ) :=
  if ser ≠ 0 then
    if c.analog then
      match t.sigma with
      | none => .error .attributeError
      | some (.fin sigma) => .ok (noisyAnalog s sigma g)
      | some _ => .error .notModelled
    else .ok (toReal (s + fun i => if u i < t.synRate then 1 else 0))
  else .ok (toReal s)

/-- What one decoding returns: the calls, the decoder objects afterwards, the estimate (what simulation.py:250-441 return). -/
structure Outcome (m n l : ℕ) where
  calls : List (SideCall m n l)
  decs : Decs m n l
  estimate : Vec n

/-- `_analog_tg_decoding` (simulation.py:467-486). -/
noncomputable def analogTgDecoding {m n l : ℕ} (bp : Bp) (ds : Decs m n l) (y hard : Fin m → ℝ) (rate : ℝ) (sigma : Num) :
    Except ObjErr (Outcome m n l) :=
  match ds.tanner with
  | none => .error .attributeError
  | some d =>
    let d' := d.update (Fin.append (const rate) fun j => virtualInit (y j) sigma)
    .ok ⟨[.tanner (d'.ask hard)], { ds with tanner := some d' }, dataPart (bp _ _ (d'.ask hard))⟩

/-- `_ss_analog_tg_decoding` (simulation.py:364-386). -/
noncomputable def ssAnalogTgDecoding {m n l : ℕ} (bp : Bp) (ds : Decs m n l) (M : Mat l m) (y : Fin m → ℝ) (rate : ℝ) (sigma : Num) :
    Except ObjErr (Outcome m n l) :=
  match ds.stage with
  | none => .error .attributeError
  | some d =>
    let d' := d.update (Fin.append (const rate) fun j => virtualInit (y j) sigma)
    let q := d'.ask (Fin.append (toReal (binaryFromAnalog y)) (toReal (metaOf M (binaryFromAnalog y))))
    .ok ⟨[.stage q], { ds with stage := some d' }, dataPart (bp _ _ q)⟩

/-- `_decode_ss_with_meta` (simulation.py:327-362). -/
noncomputable def decodeSsWithMeta {m n l : ℕ} (bp : Bp) (c : SSConfig) (ds : Decs m n l) (M : Mat l m) (y : Fin m → ℝ) (rate : ℝ)
    (sigma : Num) : Except ObjErr (Outcome m n l) :=
  if c.analogTg then ssAnalogTgDecoding bp ds M y rate sigma
  else
    match ds.stage with
    | none => .error .attributeError
    | some d =>
      let q := d.ask (Fin.append y (if c.analogInfo then fun i => (signedFromBinary (metaOf M (binaryFromAnalog y)) i : ℝ)
        else toReal (metaOf M (bitsR y))))
      .ok ⟨[.stage q], ds, dataPart (bp _ _ q)⟩

/-- `_decode_ss_no_meta` (simulation.py:300-325). -/
noncomputable def decodeSsNoMeta {m n l : ℕ} (bp : Bp) (c : SSConfig) (ds : Decs m n l) (y : Fin m → ℝ) (rate : ℝ) (sigma : Num) :
    Except ObjErr (Outcome m n l) :=
  if c.analogTg then analogTgDecoding bp ds y (toReal (binaryFromAnalog y)) rate sigma
  else .ok ⟨[.std (ds.std.ask y)], ds, bp _ _ (ds.std.ask y)⟩

/-- `_single_stage_decoding` (simulation.py:250-298) for one side.  The argument `self.sigma_x` is evaluated in every case. -/
noncomputable def singleStageDecoding {m n l : ℕ} (bp : Bp) (c : SSConfig) (t : Side m n l) (y : Fin m → ℝ) : Except ObjErr (Outcome m n l) :=
  match t.sigma with
  | none => .error .attributeError
  | some sigma =>
    match t.M with
    | some M => decodeSsWithMeta bp c t.decs M y t.own sigma
    | none => decodeSsNoMeta bp c t.decs y t.own sigma

/-- `_meta_code_decoding` (simulation.py:443-465): the calls and the repaired syndrome. -/
noncomputable def metaCodeDecoding {m n l : ℕ} (bp : Bp) (c : SSConfig) (ds : Decs m n l) (M : Mat l m) (y : Fin m → ℝ) :
    Except ObjErr (List (SideCall m n l) × Vec m) :=
  match ds.metaCode with
  | none => .error .attributeError
  | some d =>
    let b := if c.analog then binaryFromAnalog y else bitsR y
    let q := d.ask (toReal (metaOf M b))
    .ok ([.metaCode q], b + bp _ _ q)

/-- The syndrome of the second stage (simulation.py:401-420). -/
noncomputable def repairedSyndrome {m n l : ℕ} (bp : Bp) (c : SSConfig) (t : Side m n l) (y : Fin m → ℝ) :
    Except ObjErr (List (SideCall m n l) × (Fin m → ℝ)) :=
  match t.M with
  | some M => (metaCodeDecoding bp c t.decs M y).map fun r => (r.1, toReal r.2)
  | none => .ok ([], fun i => ((truncR (y i) : ℤ) : ℝ))

/-- The second stage (simulation.py:422-439): the rate passed with the analog Tanner graph is the rate of the *other* side. -/
noncomputable def secondStage {m n l : ℕ} (bp : Bp) (c : SSConfig) (t : Side m n l) (y hard : Fin m → ℝ) : Except ObjErr (Outcome m n l) :=
  if c.analogTg then
    match t.sigma with
    | none => .error .attributeError
    | some sigma => analogTgDecoding bp t.decs y hard t.other sigma
  else .ok ⟨[.std (t.decs.std.ask hard)], t.decs, bp _ _ (t.decs.std.ask hard)⟩

/-- `_two_stage_decoding` (simulation.py:388-441) for one side. -/
noncomputable def twoStageDecoding {m n l : ℕ} (bp : Bp) (c : SSConfig) (t : Side m n l) (y : Fin m → ℝ) : Except ObjErr (Outcome m n l) := do
  let r ← repairedSyndrome bp c t y
  let o ← secondStage bp c t y r.2
  return { o with calls := r.1 ++ o.calls }

/-- The decoding of a round on one side (simulation.py:183-188). -/
noncomputable def decoding {m n l : ℕ} (bp : Bp) (c : SSConfig) (t : Side m n l) (y : Fin m → ℝ) : Except ObjErr (Outcome m n l) :=
  if c.singleStage then singleStageDecoding bp c t y else twoStageDecoding bp c t y

/-- One noisy round on one side (simulation.py:177-197): calls, the side afterwards, the residual error. -/
noncomputable def Side.round {m n l : ℕ} (bp : Bp) (c : SSConfig) (ser : ℝ) (t : Side m n l) (err : Vec n) (g u : Fin m → ℝ) :
    Except ObjErr (List (SideCall m n l) × Side m n l × Vec n) := do
  let y ← t.noisySyndrome c ser g u (apply t.H err)
  let o ← decoding bp c t y
  return (o.calls, { t with decs := o.decs }, err + o.estimate)

/-- The random draws of a round: for the data errors, and for the syndromes of both sides (simulation.py:168-193). -/
structure Draws (mx mz n : ℕ) where
  u : Fin n → ℝ
  gx : Fin mz → ℝ
  ux : Fin mz → ℝ
  gz : Fin mx → ℝ
  uz : Fin mx → ℝ

/-- The calls on both sides (the calls made in simulation.py:157-230). -/
structure Trace (mx mz lx lz n : ℕ) where
  x : List (SideCall mz n lz)
  z : List (SideCall mx n lx)

/-- Calls after calls (the calls made in simulation.py:157-230). -/
def Trace.append {mx mz lx lz n : ℕ} (a b : Trace mx mz lx lz n) : Trace mx mz lx lz n := ⟨a.x ++ b.x, a.z ++ b.z⟩

/-- The errors before a round (`generate_err`, simulation.py:169-173, 197-201). -/
noncomputable def Sim.errors {mx mz lx lz n : ℕ} (s : Sim mx mz lx lz n) (u : Fin n → ℝ) (residual : Vec n × Vec n) : Vec n × Vec n :=
  generateErr (fun _ => s.channel.1) (fun _ => s.channel.2.1) (fun _ => s.channel.2.2) u residual.1 residual.2

/-- One noisy round (simulation.py:168-193). -/
noncomputable def Sim.round {mx mz lx lz n : ℕ} (bp : Bp) (s : Sim mx mz lx lz n) (residual : Vec n × Vec n) (d : Draws mx mz n) :
    Except ObjErr (Trace mx mz lx lz n × Sim mx mz lx lz n × Vec n × Vec n) := do
  let e := s.errors d.u residual
  let x ← s.x.round bp s.cfg s.ser e.1 d.gx d.ux
  let z ← s.z.round bp s.cfg s.ser e.2 d.gz d.uz
  return (⟨x.1, z.1⟩, { s with x := x.2.1, z := z.2.1 }, x.2.2, z.2.2)

/-- The noisy rounds (simulation.py:168-193), one for each element of the list. -/
noncomputable def Sim.rounds {mx mz lx lz n : ℕ} (bp : Bp) (s : Sim mx mz lx lz n) (residual : Vec n × Vec n) :
    List (Draws mx mz n) → Except ObjErr (Trace mx mz lx lz n × Sim mx mz lx lz n × Vec n × Vec n)
  | [] => .ok (⟨[], []⟩, s, residual.1, residual.2)
  | d :: ds => do
    let r ← s.round bp residual d
    let r' ← Sim.rounds bp r.2.1 r.2.2 ds
    return (r.1.append r'.1, r'.2)

/-- The logical check of one side (simulation.py:222-228): without logical operators the residual is passed in the place of the
estimate. -/
def flag {m n : ℕ} (H : Mat m n) (logicals : Option (List (Vec n))) (err residual : Vec n) : Bool :=
  match logicals with
  | some L => isLogicalErr L residual
  | none => checkLogicalErrH H err residual

/-- The perfect round at the end (simulation.py:195-230): its calls and the two flags. -/
noncomputable def Sim.perfect {mx mz lx lz n : ℕ} (bp : Bp) (s : Sim mx mz lx lz n) (residual : Vec n × Vec n) (u : Fin n → ℝ) :
    Trace mx mz lx lz n × Bool × Bool :=
  let e := s.errors u residual
  let qx := s.x.decs.std.ask (toReal (apply s.x.H e.1))
  let qz := s.z.decs.std.ask (toReal (apply s.z.H e.2))
  (⟨[.std qx], [.std qz]⟩,
    flag s.x.H (s.logicals.map (·.2)) e.1 (e.1 + bp _ _ qx), flag s.z.H (s.logicals.map (·.1)) e.2 (e.2 + bp _ _ qz))

/-- `_single_sample` (simulation.py:157-230); the list holds the draws of the `sus_th_depth` noisy rounds. -/
noncomputable def Sim.sample {mx mz lx lz n : ℕ} (bp : Bp) (s : Sim mx mz lx lz n) (noisy : List (Draws mx mz n)) (last : Fin n → ℝ) :
    Except ObjErr (Trace mx mz lx lz n × Sim mx mz lx lz n × Bool × Bool) := do
  let r ← s.rounds bp (0, 0) noisy
  let q := r.2.1.perfect bp r.2.2 last
  return (r.1.append q.1, r.2.1, q.2)

/-- Several samples with the same object (`run`, simulation.py:714-739, without the tests for convergence of `Model/SingleShot`). -/
noncomputable def Sim.samples {mx mz lx lz n : ℕ} (bp : Bp) (s : Sim mx mz lx lz n) :
    List (List (Draws mx mz n) × (Fin n → ℝ)) → Except ObjErr (Sim mx mz lx lz n × List (Bool × Bool))
  | [] => .ok (s, [])
  | d :: ds => do
    let r ← s.sample bp d.1 d.2
    let t ← Sim.samples bp r.2.1 ds
    return (t.1, r.2.2 :: t.2)

end Verif.SSO
