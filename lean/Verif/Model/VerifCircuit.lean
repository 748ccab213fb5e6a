import Verif.Model.Gadgets
import Verif.Linalg

/-!
# Verification circuits (`state_prep.py:695-715, 923-981, 1248-1257, 1602-1612`)

The functions return the instructions appended after the state preparation circuit.
-/

namespace Verif.SP
open Verif Verif.Spec
variable {n : ℕ}

/-- Qubits: the register `q`, the registers `x_anc`/`z_anc`, and the fresh flag register created for
the `i`-th measurement (state_prep.py:695-715, 944-960). -/
inductive VQ
  | data (i : ℕ)
  | xanc (i : ℕ)
  | zanc (i : ℕ)
  | xflag (i j : ℕ)
  | zflag (i j : ℕ)
deriving DecidableEq, Repr

/-- Classical bits: `x_c`, `z_c` and the flag bits (state_prep.py:695-715, 944-960). -/
inductive VC
  | xc (i : ℕ)
  | zc (i : ℕ)
  | xf (i j : ℕ)
  | zf (i j : ℕ)
deriving DecidableEq, Repr

/-- `np.where(m != 0)[0]` as qubits of the data register (state_prep.py:963-981). -/
def supp (m : Vec n) : List VQ := ((List.finRange n).filter fun i => decide (m i ≠ 0)).map fun i => .data i.val

/-- `_measure_ft_x` (state_prep.py:923-941). -/
def measureFtX (t : ℕ) (flags : Bool) (ms : List (Vec n)) : Except GadgetError (List (Instr VQ VC)) :=
  (ms.zipIdx.mapM fun p =>
    if flags then measureFlagged t false (supp p.1) (.xanc p.2) (.xc p.2) (.xflag p.2) (.xf p.2)
    else .ok (measureUnflagged false (supp p.1) (.xanc p.2) (.xc p.2))).map List.flatten

/-- `_measure_ft_z` (state_prep.py:944-960); the final `qc.measure(z_anc, z_c)` measures all
ancillas, in the flagged case a second time. -/
def measureFtZ (t : ℕ) (flags : Bool) (ms : List (Vec n)) : Except GadgetError (List (Instr VQ VC)) :=
  (ms.zipIdx.mapM fun p =>
    if flags then measureFlagged t true (supp p.1) (.zanc p.2) (.zc p.2) (.zflag p.2) (.zf p.2)
    else .ok ((supp p.1).map fun q => .cx q (.zanc p.2))).map fun ls =>
  ls.flatten ++ (List.range ms.length).map fun i => .measure (.zanc i) (.zc i)

/-- The part of `_measure_ft_stabs` guarded by `full_ft` (state_prep.py:972-974, 978-980). -/
def whenFull (full : Bool) (r : Except GadgetError (List (Instr VQ VC))) : Except GadgetError (List (Instr VQ VC)) :=
  if full then r else .ok []

/-- `_measure_ft_stabs` (state_prep.py:963-981); `t` is `max_x_errors` or `max_z_errors`. -/
def measureFtStabs (zeroState : Bool) (t : ℕ) (full : Bool) (xms zms : List (Vec n)) :
    Except GadgetError (List (Instr VQ VC)) :=
  if zeroState then do
    let a ← measureFtZ t false zms
    let b ← whenFull full (measureFtX t true xms)
    .ok (a ++ b)
  else do
    let a ← measureFtX t false xms
    let b ← whenFull full (measureFtZ t true zms)
    .ok (a ++ b)

/-- `naive_verification_circuit` (state_prep.py:1248-1257): the local names `z_measurements` and
`x_measurements` are swapped twice, once in the assignment and once in the call. -/
def naiveCircuit (zeroState : Bool) (t reps : ℕ) (Hx Hz : List (Vec n)) : Except GadgetError (List (Instr VQ VC)) :=
  measureFtStabs zeroState t true (List.replicate reps Hx).flatten (List.replicate reps Hz).flatten

/-- `_hook_errors` (state_prep.py:1602-1612). -/
def hookErrors (stabs : List (Vec n)) : List (Vec n) :=
  stabs.flatMap fun s => ((List.finRange n).filter fun i => decide (s i = 1)).map fun i => Function.update s i 0

/-- `_verification_circuit` (state_prep.py:695-715): `stabsFun x_errors additional_errors` is the
search function passed in, returning the layers; the additional errors are a parameter of the second
call only. -/
def verificationCircuit (stabsFun : Bool → Option (List (Vec n)) → List (List (Vec n))) (zeroState : Bool) (t : ℕ)
    (full : Bool) : Except GadgetError (List (Instr VQ VC)) :=
  let m1 := (stabsFun zeroState none).flatten
  let m2 := if full then (stabsFun (!zeroState) (some (hookErrors m1))).flatten else []
  if zeroState then measureFtStabs zeroState t full m2 m1 else measureFtStabs zeroState t full m1 m2

end Verif.SP
