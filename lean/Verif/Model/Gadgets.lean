import Verif.Common
import Verif.Spec.Quantum

/-!
# Stabilizer measurement circuits (`state_prep.py:923-981, 1248-1612`)

Every function returns the list of instructions it appends to the circuit.  Qubits and classical
bits are elements of arbitrary types; `flag j` / `fbit j` are the qubits / bits of the fresh flag
register created by the gadget (`AncillaRegister`, `ClassicalRegister`), `anc`/`mbit` the ancilla
and its bit.
-/

namespace Verif.SP
open Verif Verif.Spec

/-- Models the exceptions of state_prep.py:1299-1470. -/
inductive GadgetError
  | indexError
  | assertionError
  | notImplemented
deriving DecidableEq, Repr

variable {Q C : Type}

/-- `_ancilla_cnot` (state_prep.py:1275-1279). -/
def ancillaCnot (z : Bool) (anc q : Q) : List (Instr Q C) := if z then [.cx q anc] else [.cx anc q]

/-- `_flag_init` (state_prep.py:1294-1296). -/
def flagInit (z : Bool) (flag : Q) : List (Instr Q C) := if z then [.h flag] else []

/-- `_flag_measure` (state_prep.py:1282-1285). -/
def flagMeasure (z : Bool) (flag : Q) (c : C) : List (Instr Q C) :=
  (if z then [.h flag] else []) ++ [.measure flag c]

/-- `if not z_measurement: qc.h(ancilla)`. -/
def ancH (z : Bool) (anc : Q) : List (Instr Q C) := if z then [] else [.h anc]

/-- `_measure_stab_unflagged` (state_prep.py:1299-1312); `qc.cx` broadcasts over the lists. -/
def measureUnflagged (z : Bool) (stab : List Q) (anc : Q) (mbit : C) : List (Instr Q C) :=
  (if z then stab.map fun q => .cx q anc
   else [.h anc] ++ (stab.map fun q => .cx anc q) ++ [.h anc]) ++ [.measure anc mbit]

/-- `_measure_stab_one_flagged` (state_prep.py:1364-1396).  `stab[1:-1]` is `rest.dropLast`. -/
def measureOneFlagged (z : Bool) (stab : List Q) (anc : Q) (mbit : C) (flag : ℕ → Q) (fbit : ℕ → C) :
    Except GadgetError (List (Instr Q C)) :=
  match stab with
  | [] => .error .indexError
  | s0 :: rest => .ok
    (ancH z anc ++ ancillaCnot z anc s0 ++ flagInit z (flag 0) ++ ancillaCnot z anc (flag 0) ++
      rest.dropLast.flatMap (ancillaCnot z anc) ++
      ancillaCnot z anc (flag 0) ++ flagMeasure z (flag 0) (fbit 0) ++
      ancillaCnot z anc (rest.getLastD s0) ++ ancH z anc ++ [.measure anc mbit])

/-- Access to element `j` of a register of size `k` (`flag_reg[j]`, state_prep.py:1420-1448). -/
def reg {α : Type} (k : ℕ) (f : ℕ → α) (j : ℕ) : Except GadgetError α :=
  if j < k then .ok (f j) else .error .indexError

/-- Opening of flag `flags` after the CNOT number `cnots` (state_prep.py:1434-1436). -/
def twoFlagOpen (z : Bool) (anc : Q) (flag : ℕ → Q) (k w cnots flags : ℕ) : Except GadgetError (List (Instr Q C)) :=
  if cnots % 2 = 0 ∧ cnots < w - 2 then
    (reg k flag flags).map fun f => flagInit z f ++ ancillaCnot z anc f
  else .ok []

/-- Closing of flag `flags - 1` after the CNOT number `cnots` (state_prep.py:1437-1439, 1447-1449,
1457-1459). -/
def twoFlagClose (z : Bool) (anc : Q) (flag : ℕ → Q) (fbit : ℕ → C) (k cnots flags : ℕ) :
    Except GadgetError (List (Instr Q C)) :=
  if 7 ≤ cnots ∧ cnots % 2 = 1 then
    (reg k flag (flags - 1)).map fun f => ancillaCnot z anc f ++ flagMeasure z f (fbit (flags - 1))
  else .ok []

/-- Body of the loop over `stab[2:-2]` (state_prep.py:1431-1440): state `(cnots, flags, emitted)`. -/
def twoFlagStep (z : Bool) (anc : Q) (flag : ℕ → Q) (fbit : ℕ → C) (k w : ℕ)
    (st : ℕ × ℕ × List (Instr Q C)) (q : Q) : Except GadgetError (ℕ × ℕ × List (Instr Q C)) := do
  let o ← twoFlagOpen z anc flag k w (st.1 + 1) st.2.1
  let c ← twoFlagClose z anc flag fbit k (st.1 + 1) st.2.1
  .ok (st.1 + 1, st.2.1 + 1, st.2.2 ++ ancillaCnot z anc q ++ o ++ c)

/-- `measure_stab_two_flagged` (state_prep.py:1399-1462). -/
def measureTwoFlagged (z : Bool) (stab : List Q) (anc : Q) (mbit : C) (flag : ℕ → Q) (fbit : ℕ → C) :
    Except GadgetError (List (Instr Q C)) := do
  let w := stab.length
  require (4 < w) .assertionError
  let k := (w + 1) / 2 - 1
  match stab, stab[w - 2]?, stab[w - 1]? with
  | s0 :: s1 :: _, some sb, some sl =>
    let f0 ← reg k flag 0
    let f1 ← reg k flag 1
    let l := ancH z anc ++ ancillaCnot z anc s0 ++ flagInit z f0 ++ ancillaCnot z anc f0 ++
      ancillaCnot z anc s1 ++ flagInit z f1 ++ ancillaCnot z anc f1
    let st ← ((stab.drop 2).take (w - 4)).foldlM (twoFlagStep z anc flag fbit k w) (2, 2, l)
    let c1 ← twoFlagClose z anc flag fbit k (st.1 + 1) st.2.1
    let c2 ← twoFlagClose z anc flag fbit k (st.1 + 2) st.2.1
    .ok (st.2.2 ++ ancillaCnot z anc f0 ++ flagMeasure z f0 (fbit 0) ++ ancillaCnot z anc sb ++ c1 ++
      ancillaCnot z anc f1 ++ flagMeasure z f1 (fbit 1) ++ ancillaCnot z anc sl ++ c2 ++
      ancH z anc ++ [.measure anc mbit])
  | _, _, _ => .error .indexError

/-- `measure_flagged_4` (state_prep.py:1465-1499). -/
def measureFlagged4 (z : Bool) (stab : List Q) (anc : Q) (mbit : C) (flag : ℕ → Q) (fbit : ℕ → C) :
    Except GadgetError (List (Instr Q C)) :=
  match stab with
  | [s0, s1, s2, s3] => .ok
    (ancH z anc ++ ancillaCnot z anc s0 ++ flagInit z (flag 0) ++ ancillaCnot z anc (flag 0) ++
      ancillaCnot z anc s1 ++ ancillaCnot z anc s2 ++
      ancillaCnot z anc (flag 0) ++ flagMeasure z (flag 0) (fbit 0) ++
      ancillaCnot z anc s3 ++ ancH z anc ++ [.measure anc mbit])
  | _ => .error .assertionError

/-- `measure_flagged_6` (state_prep.py:1502-1544). -/
def measureFlagged6 (z : Bool) (stab : List Q) (anc : Q) (mbit : C) (flag : ℕ → Q) (fbit : ℕ → C) :
    Except GadgetError (List (Instr Q C)) :=
  match stab with
  | [s0, s1, s2, s3, s4, s5] => .ok
    (ancH z anc ++ ancillaCnot z anc s0 ++ flagInit z (flag 0) ++ ancillaCnot z anc (flag 0) ++
      ancillaCnot z anc s1 ++ flagInit z (flag 1) ++ ancillaCnot z anc (flag 1) ++
      ancillaCnot z anc s2 ++ ancillaCnot z anc s3 ++
      ancillaCnot z anc (flag 0) ++ flagMeasure z (flag 0) (fbit 0) ++
      ancillaCnot z anc s4 ++
      ancillaCnot z anc (flag 1) ++ flagMeasure z (flag 1) (fbit 1) ++
      ancillaCnot z anc s5 ++ ancH z anc ++ [.measure anc mbit])
  | _ => .error .assertionError

/-- `measure_flagged_8` (state_prep.py:1547-1599). -/
def measureFlagged8 (z : Bool) (stab : List Q) (anc : Q) (mbit : C) (flag : ℕ → Q) (fbit : ℕ → C) :
    Except GadgetError (List (Instr Q C)) :=
  match stab with
  | [s0, s1, s2, s3, s4, s5, s6, s7] => .ok
    (ancH z anc ++ ancillaCnot z anc s0 ++ flagInit z (flag 0) ++ ancillaCnot z anc (flag 0) ++
      ancillaCnot z anc s1 ++ flagInit z (flag 1) ++ ancillaCnot z anc (flag 1) ++
      ancillaCnot z anc s2 ++ ancillaCnot z anc s3 ++
      flagInit z (flag 2) ++ ancillaCnot z anc (flag 2) ++
      ancillaCnot z anc s4 ++ ancillaCnot z anc s5 ++
      ancillaCnot z anc (flag 0) ++ flagMeasure z (flag 0) (fbit 0) ++
      ancillaCnot z anc s6 ++
      ancillaCnot z anc (flag 2) ++ flagMeasure z (flag 2) (fbit 2) ++
      ancillaCnot z anc (flag 1) ++ flagMeasure z (flag 1) (fbit 1) ++
      ancillaCnot z anc s7 ++ ancH z anc ++ [.measure anc mbit])
  | _ => .error .assertionError

/-- `measure_flagged` (state_prep.py:1315-1361). -/
def measureFlagged (t : ℕ) (z : Bool) (stab : List Q) (anc : Q) (mbit : C) (flag : ℕ → Q) (fbit : ℕ → C) :
    Except GadgetError (List (Instr Q C)) :=
  let w := stab.length
  if t = 1 then measureOneFlagged z stab anc mbit flag fbit
  else if w < 3 ∧ t = 2 then .ok (measureUnflagged z stab anc mbit)
  else if w = 4 ∧ t = 2 then measureFlagged4 z stab anc mbit flag fbit
  else if w = 6 ∧ t = 2 then measureFlagged6 z stab anc mbit flag fbit
  else if w = 8 ∧ t = 2 then measureFlagged8 z stab anc mbit flag fbit
  else if t = 2 then measureTwoFlagged z stab anc mbit flag fbit
  else .error .notImplemented

/-- `w_flag_pattern` (state_prep.py:1260-1272) for `w ≥ 0`; Python's floor division makes the ranges
empty for `w < 4`, and for `w < 3` some entries are negative, hence integers. -/
def wFlagPattern (w : ℕ) : List ℤ :=
  ((List.range ((w - 4) / 2)).reverse.map fun j : ℕ => (2 * (j : ℤ) + 2)) ++ [(w : ℤ) - 3, 0] ++
  ((List.range ((w - 4) / 2)).reverse.map fun j : ℕ => (2 * (j : ℤ) + 1)) ++ [(w : ℤ) - 2]

end Verif.SP
