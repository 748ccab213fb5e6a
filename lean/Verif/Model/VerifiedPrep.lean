import Verif.Model.Synthesis
import Verif.Model.VerifCircuit

/-!
# The verified preparation circuit as instructions

`_measure_ft_stabs` (state_prep.py:963-981) appends the measurements to a copy of the preparation circuit.
-/

namespace Verif.SP
open Verif Verif.Spec
variable {n : ℕ}

/-- The circuit built by `_build_circuit_from_list_and_checks` (state_prep.py:485-507) as instructions on the data
register: Hadamards, then CNOTs. -/
def prepInstrs (c : PrepCircuit n) : List (Instr VQ VC) :=
  c.hadamards.map (fun q : Fin n => .h (.data q)) ++ c.cnots.map fun g => .cx (.data g.1) (.data g.2)

/-- A verified preparation circuit (state_prep.py:695-715, 963-981): `sp_circ.circ` with the registers of the
measurements added, then the measurements. -/
def verifiedPrep (c : PrepCircuit n) (stabsFun : Bool → Option (List (Vec n)) → List (List (Vec n))) (zeroState : Bool) (t : ℕ)
    (full : Bool) : Except GadgetError (List (Instr VQ VC)) :=
  (verificationCircuit stabsFun zeroState t full).map fun l => prepInstrs c ++ l

/-- The qubits of a verified preparation circuit with `k` measurements of the first round: the data register
(state_prep.py:968-970) and the ancilla register (state_prep.py:927, 947). -/
def qubitsOf (n : ℕ) (z : Bool) (k : ℕ) : List VQ :=
  (List.finRange n).map (fun i : Fin n => .data i) ++ (List.range k).map fun i => if z then .zanc i else .xanc i

end Verif.SP
