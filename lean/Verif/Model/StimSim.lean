import Mathlib.Algebra.Order.Ring.Rat
import Mathlib.Algebra.BigOperators.Group.List.Basic
import Verif.Model.Lut

/-!
# Model of `NoisyNDFTStatePrepSimulator` (`src/mqt/qecc/ft_stateprep/simulation.py:22-297`)

Floating point numbers are rationals.  The layering computed by qiskit (`circuit_to_dag(...).layers()`)
is an input: a circuit is a list of layers, a layer a list of gates in the order of `layer_circ.data`.
The `stim` sampler is an input too: a batch is a list of measurement records.
-/

namespace Verif.Stim
open Verif

/-- The gates the converter looks at (simulation.py:126-174); every other operation is ignored. -/
inductive Gate
  | h (q : ℕ)
  | cx (c t : ℕ)
  | meas (q : ℕ)
  | other
deriving DecidableEq, Repr

/-- Noise channels used (simulation.py:114, 132, 144-151, 155, 162). -/
inductive Kind
  | dep1
  | dep2
  | xErr
  | zErr
deriving DecidableEq, Repr

/-- Instructions appended to the stim circuit.  Simplification: an instruction on a list of measured
qubits is a list of instructions (the stim instructions of simulation.py:102-216). -/
inductive Op
  | h (q : ℕ)
  | cx (c t : ℕ)
  | mr (q : ℕ)
  | mrx (q : ℕ)
  | mrz (q : ℕ)
  | noise (k : Kind) (qs : List ℕ) (rate : ℚ)
deriving DecidableEq, Repr

/-- The qubits of an instruction (the stim instructions of simulation.py:102-216). -/
def Op.qubits : Op → List ℕ
  | .h q | .mr q | .mrx q | .mrz q => [q]
  | .cx c t => [c, t]
  | .noise _ qs _ => qs

/-- `stim.Circuit.num_qubits`: one more than the largest qubit index used (simulation.py:93-177). -/
def numQubits (ops : List Op) : ℕ := ops.foldr (fun o m => o.qubits.foldr (fun q m => max (q + 1) m) m) 0

/-- Local variables of `to_stim_circ` and the attributes it changes (simulation.py:102-121, 163-176).
`inited` are the indices with `initialized[q]`, `measured` the measured qubits with repetition. -/
structure St where
  ops : List Op
  inited : List ℕ
  ctrls : List ℕ
  targets : List ℕ
  measured : List ℕ
  used : List ℕ
  xver : List ℕ
  zver : List ℕ
  nMeas : ℕ
  reused : ℕ

/-- `idle_error` (simulation.py:106-114) of a circuit with `nq` qubits. -/
def idle (p : ℚ) (nq : ℕ) (inited used : List ℕ) : List Op :=
  ((List.range nq).filter fun q => inited.contains q && !used.contains q).map fun q => .noise .dep1 [q] (2 * p / 3)

/-- The instructions emitted for the first use of the control (simulation.py:139-146). -/
def initCtrl (p : ℚ) (s : St) (c : ℕ) : List Op :=
  if s.inited.contains c then []
  else if s.ctrls.contains c then [.h c, .noise .zErr [c] (2 * p / 3)] else [.noise .xErr [c] (2 * p / 3)]

/-- `initialized[q] = True` (simulation.py:147-149). -/
def setInit (l : List ℕ) (q : ℕ) : List ℕ := if l.contains q then l else q :: l

/-- The instructions emitted for the first use of the target (simulation.py:147-149). -/
def initTarget (p : ℚ) (inited : List ℕ) (t : ℕ) : List Op :=
  if inited.contains t then [] else [.noise .xErr [t] (2 * p / 3)]

/-- One gate (simulation.py:125-176). -/
def gate (p : ℚ) (nq : ℕ) (par : Bool) (s : St) : Gate → St
  | .h q =>
    let s := { s with ctrls := s.ctrls ++ [q] }
    if s.inited.contains q then
      let ops := s.ops ++ [.h q, .noise .dep1 [q] (2 * p / 3)]
      if par then { s with ops := ops, used := s.used ++ [q] }
      else { s with ops := ops ++ idle p nq s.inited [q] }
    else s
  | .cx c t =>
    let i1 := setInit s.inited c
    let i2 := setInit i1 t
    let ops := s.ops ++ initCtrl p s c ++ initTarget p i1 t ++ [.cx c t, .noise .dep2 [c, t] p]
    let s := { s with targets := t :: s.targets, inited := i2 }
    if par then { s with ops := ops, used := s.used ++ [c, t] }
    else { s with ops := ops ++ idle p nq i2 [c, t] }
  | .meas q =>
    let ops := s.ops ++ [.noise .xErr [q] (2 * p / 3), .mr q]
    let ops := if par then ops else ops ++ idle p nq s.inited [q]
    { s with
      ops := ops
      used := if par then s.used ++ [q] else s.used
      xver := if s.targets.contains q then s.xver else s.xver ++ [s.nMeas]
      zver := if s.targets.contains q then s.zver ++ [s.nMeas] else s.zver
      nMeas := s.nMeas + 1
      inited := s.inited.filter (· ≠ q)
      measured := q :: s.measured
      reused := if s.measured.count q = 1 then s.reused + 1 else s.reused }
  | .other => s

/-- The start of a layer: idling errors of the qubits unused in the previous layer (simulation.py:116-120). -/
def layerStart (p : ℚ) (nq : ℕ) (s : St) : St :=
  { s with ops := s.ops ++ (if s.used.isEmpty then [] else idle p nq s.inited s.used), used := [] }

/-- One layer (simulation.py:112-176). -/
def layer (p : ℚ) (nq : ℕ) (par : Bool) (s : St) (l : List Gate) : St := l.foldl (gate p nq par) (layerStart p nq s)

/-- The attributes of the simulator (simulation.py:47-63, 71-91) that change after construction. -/
structure Sim where
  p : ℚ
  xver : List ℕ
  zver : List ℕ
  xmeas : List ℕ
  zmeas : List ℕ
  data : List ℕ
  nMeas : ℕ
  reused : ℕ
  numQubits : ℤ
  ops : List Op

/-- `to_stim_circ` (simulation.py:93-177): it appends to the attributes it finds. -/
def toStim (s : Sim) (nq : ℕ) (par : Bool) (layers : List (List Gate)) : St :=
  layers.foldl (layer s.p nq par) ⟨[], [], [], [], [], [], s.xver, s.zver, s.nMeas, s.reused⟩

/-- `_support(check)`: the indices of the non-zero entries (simulation.py:186-203). -/
def support {n : ℕ} (r : Vec n) : List ℕ := ((List.finRange n).filter fun i => decide (r i ≠ 0)).map (·.val)

/-- The measurement of one X check (simulation.py:186-194). -/
def measX {n : ℕ} (s : Sim) (r : Vec n) : Sim :=
  let anc := numQubits s.ops
  { s with
    ops := s.ops ++ [.h anc] ++ (support r).map (fun q => .cx anc q) ++ [.mrx anc]
    xmeas := s.xmeas ++ [s.nMeas]
    nMeas := s.nMeas + 1 }

/-- The measurement of one Z check (simulation.py:196-203). -/
def measZ {n : ℕ} (s : Sim) (r : Vec n) : Sim :=
  let anc := numQubits s.ops
  { s with
    ops := s.ops ++ (support r).map (fun q => .cx q anc) ++ [.mrz anc]
    zmeas := s.zmeas ++ [s.nMeas]
    nMeas := s.nMeas + 1 }

/-- `measure_stabilizers` (simulation.py:179-203). -/
def measureStabilizers {n : ℕ} (hx hz : List (Vec n)) (s : Sim) : Sim := hz.foldl measZ (hx.foldl measX s)

/-- `measure_z` and `measure_x` (simulation.py:205-216). -/
def measureData (zero : Bool) (s : Sim) : Sim :=
  let m := s.numQubits.toNat
  { s with
    data := (List.range m).map (s.nMeas + ·)
    nMeas := s.nMeas + m
    ops := s.ops ++ (List.range m).map fun q => if zero then .mrz q else .mrx q }

/-- `set_p` (simulation.py:65-91). -/
def setP {n : ℕ} (nq : ℕ) (par zero : Bool) (layers : List (List Gate)) (hx hz : List (Vec n)) (s : Sim) (p : ℚ) : Sim :=
  let s := { s with xver := [], zver := [], xmeas := [], zmeas := [], data := [], nMeas := 0, p := p, reused := 0 }
  let t := toStim s nq par layers
  let s := { s with
    xver := t.xver, zver := t.zver, nMeas := t.nMeas, reused := t.reused, ops := t.ops
    numQubits := (Stim.numQubits t.ops : ℤ) - (t.xver.length + t.zver.length) + t.reused }
  measureData zero (measureStabilizers hx hz s)

/-- The attributes before the first `set_p` (simulation.py:47-62). -/
def initial (nq : ℕ) (p : ℚ) : Sim := ⟨p, [], [], [], [], [], 0, 0, nq, []⟩

/-- `__init__` (simulation.py:25-63). -/
def construct {n : ℕ} (nq : ℕ) (par zero : Bool) (layers : List (List Gate)) (hx hz : List (Vec n)) (p : ℚ) : Sim :=
  setP nq par zero layers hx hz (initial nq p) p

/-! ## Sampling -/

/-- The entries of a record at the given indices (`detection_events[:, idx]`); an index beyond the record reads 0
(numpy would raise; the indices are in range by `C74_records`) (simulation.py:271-274). -/
def pick (r : List (ZMod 2)) (idx : List ℕ) : List (ZMod 2) := idx.map fun i => r.getD i 0

/-- The kept records (simulation.py:271-274). -/
def kept (s : Sim) (records : List (List (ZMod 2))) : List (List (ZMod 2)) :=
  records.filter fun r => (pick r (s.xver ++ s.zver)).all (· == 0)

/-- Whether `corrected @ observables.T % 2` has a non-zero entry (simulation.py:289-295). -/
def flagged {n : ℕ} (obs : List (Vec n)) (corrected : Vec n) : Bool := obs.any fun l => decide (dot corrected l ≠ 0)

/-- `_simulate_batch` (simulation.py:267-296) on the sampled records for a code with `n` qubits: number of
logical errors and of discarded shots; `none` is the `KeyError` of the decoder.  `dec` is the decoding of one
syndrome. -/
def simulateBatch {n : ℕ} (s : Sim) (zero : Bool) (lx lz : List (Vec n)) (dec : List (ZMod 2) → Option (Vec n))
    (records : List (List (ZMod 2))) : Option (ℕ × ℕ) :=
  let k := kept s records
  if k.isEmpty then some (0, records.length)
  else do
    let est ← (k.map fun r => pick r (if zero then s.zmeas else s.xmeas)).mapM dec
    let states := k.map fun r => (fun i : Fin n => (pick r s.data).getD i.val 0 : Vec n)
    let corrected := List.zipWith (· + ·) states est
    some (corrected.countP (flagged (if zero then lz else lx)), records.length - k.length)

/-! ## The running statistics -/

/-- Loop variables of `logical_error_rate` (simulation.py:233-243). -/
structure Acc where
  i : ℕ
  pl : ℚ
  ra : ℚ
  errs : ℕ

/-- One batch (simulation.py:244-258): `o` is the result of `_simulate_batch`. -/
def addBatch (batch : ℕ) (o : ℕ × ℕ) (a : Acc) : Acc :=
  { a with
    pl := (((a.i : ℚ) - 1) * a.pl + (if o.2 ≠ batch then (o.1 : ℚ) / ((batch : ℚ) - o.2) else 0)) / a.i
    ra := (((a.i : ℚ) - 1) * a.ra + (1 - (o.2 : ℚ) / batch)) / a.i
    errs := a.errs + o.1 }

/-- The loop (simulation.py:243-262); `o j` is the result of batch `j`; `none` when the fuel is used up. -/
def statLoop (shots batch : ℕ) (atLeast : Bool) (minErr : ℕ) (o : ℕ → ℕ × ℕ) : ℕ → Acc → Option Acc
  | 0, _ => none
  | f + 1, a =>
    if a.i ≤ (shots + batch - 1) / batch ∨ atLeast then
      let b := addBatch batch (o a.i) a
      if atLeast ∧ minErr ≤ b.errs then some b else statLoop shots batch atLeast minErr o f { b with i := b.i + 1 }
    else some a

/-- `logical_error_rate` (simulation.py:218-265) for a code with `k` logical qubits.  `none` when the
loop needs more than `fuel` iterations. -/
def logicalErrorRate (k shots perBatch : ℕ) (atLeast : Bool) (minErr : ℕ) (o : ℕ → ℕ × ℕ) (fuel : ℕ) : Option (ℚ × ℚ × ℕ × ℕ) :=
  let batch := min perBatch shots
  (statLoop shots batch atLeast minErr o fuel ⟨1, 0, 0, 0⟩).map fun a => (a.pl / k, a.ra, a.errs, a.i * batch)

end Verif.Stim
