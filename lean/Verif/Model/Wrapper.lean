import Verif.Model.Ecc
import Verif.Model.Names

/-!
# Model of the command line of the ECC wrapper (`src/mqt/qecc/ecc_qiskit_wrapper.py`, `main`)

The parsed OpenQASM file is an input, and so are the numbers; a probability above one, which qiskit rejects, is outside the model.  The
circuit has no idle qubits (`stripIdleQubits`, see `Model/Ecc`).  Printing and the simulator itself are not modelled: the result is what
is handed to the simulator or to the output file.
-/

namespace Verif.Wrapper
open Verif Ecc Names

/-- Exceptions: of the names (`Names`) and of the encoder (`Ecc`) (raised in ecc_qiskit_wrapper.py:90-210). -/
inductive WErr where
  | name (e : NameErr)
  | ecc (e : EccErr)
  deriving DecidableEq

/-- The command line (ecc_qiskit_wrapper.py:93-143), with its defaults. -/
structure Args where
  m : String := "D"
  p : ℚ := 1 / 1000
  n : ℕ := 2000
  s : ℕ := 0
  e : Option String := none
  fs : String := "stabilizer"
  ecc : String := "Q7Steane"
  fq : ℕ := 100

/-- A circuit: numbers of qubits and classical bits, operations (ecc_qiskit_wrapper.py:153-174). -/
structure Circ where
  n : ℕ
  m : ℕ
  gates : List Gate

/-- `circ.measure_all()` of qiskit (ecc_qiskit_wrapper.py:172-174): a new register, a barrier and a measurement of every qubit. -/
def measureAll (c : Circ) : Circ :=
  ⟨c.n, c.m + c.n, c.gates ++ ⟨.barrier, [], List.range c.n, []⟩ :: (List.range c.n).map fun i => ⟨.measure, [], [i], [c.m + i]⟩⟩

/-- The circuit that is encoded (ecc_qiskit_wrapper.py:170-174). -/
def prepared (c : Circ) : Circ := if c.gates.any fun g => g.op = .measure then c else measureAll c

/-- The scheme of a name (src/python/bindings.cpp:47-60). -/
def scheme (name : EccName) (n m : ℕ) : Scheme :=
  match name with
  | .id => idScheme
  | .q3Shor => q3Shor n m
  | .q5Laflamme => q5Laflamme n m
  | .q7Steane => q7Steane n m
  | .q9Shor => q9Shor n m
  | .q9Surface => q9Surface n m
  | .q18Surface => q18Surface n m

/-- `apply_ecc` (src/python/bindings.cpp:35-89) on a circuit. -/
def applyEcc (c : Circ) (name : String) (freq : ℕ) : Except WErr (List Instr) :=
  match eccFromString name with
  | .error e => .error (.name e)
  | .ok k =>
    match (scheme k c.n c.m).apply freq c.gates with
    | .error e => .error (.ecc e)
    | .ok l => .ok l

/-- `None if s.lower() == "none" else s` (ecc_qiskit_wrapper.py:153, 155). -/
def notNone (s : String) : Option String := if s.toList.map Char.toLower = ['n', 'o', 'n', 'e'] then none else some s

/-- What `main` does with the circuit (ecc_qiskit_wrapper.py:164-210). -/
inductive Outcome where
  | exported (path : String) (circ : List Instr)
  | simulated (circ : List Instr) (noise : NoiseModel ℚ) (method : Option String) (shots seed : ℕ)

/-- The noise model (ecc_qiskit_wrapper.py:164-168). -/
def noiseOf (a : Args) : Except WErr (NoiseModel ℚ) :=
  if 0 < a.p then
    match createNoiseModel a.m a.p with
    | .error e => .error (.name e)
    | .ok nm => .ok nm
  else .ok []

/-- The circuit after the choice of the error correction (ecc_qiskit_wrapper.py:176-180). -/
def encoded (a : Args) (c : Circ) : Except WErr (List Instr) :=
  match notNone a.ecc with
  | none => .ok (c.gates.map .clone)
  | some name => applyEcc c name a.fq

/-- `main` (ecc_qiskit_wrapper.py:90-210). -/
def main (a : Args) (c : Circ) : Except WErr Outcome :=
  match noiseOf a with
  | .error e => .error e
  | .ok nm =>
    match encoded a (prepared c) with
    | .error e => .error e
    | .ok l =>
      match a.e with
      | some path => .ok (.exported path l)
      | none => .ok (.simulated l nm (notNone a.fs) a.n a.s)

/-- The name of a gate without controls in OpenQASM 2 (mqt-core); `none`: not a unitary gate (the gate names looked up in ecc_qiskit_wrapper.py:93-143). -/
def opName : Op → Option String
  | .I => some "id"
  | .X => some "x"
  | .Y => some "y"
  | .Z => some "z"
  | .H => some "h"
  | .S => some "s"
  | .Sdg => some "sdg"
  | .T => some "t"
  | .Tdg => some "tdg"
  | .barrier => none
  | .measure => none
  | .other => none

/-- The instruction name by which the noise model looks up a gate: a letter c for every control (negative controls are written as
positive ones between X gates, which are left out here) (ecc_qiskit_wrapper.py:93-143). -/
def gateName (op : Op) (controls : ℕ) : Option String := (opName op).map fun s => String.ofList (List.replicate controls 'c' ++ s.toList)

/-- The name of an instruction, if it is a unitary gate with a known name (ecc_qiskit_wrapper.py:93-143). -/
def instrName : Instr → Option String
  | .reset _ => none
  | .gate op c _ => gateName op c.length
  | .swap _ _ => some "swap"
  | .measure _ _ => none
  | .cc op _ _ _ _ => gateName op 0
  | .clone g => gateName g.op g.controls.length

end Verif.Wrapper
