import Verif.Spec.Quantum
import Mathlib.Data.Finsupp.Single
import Mathlib.Data.Finsupp.Basic
import Mathlib.Algebra.BigOperators.Finsupp.Basic

/-!
# Circuits with Pauli faults

A Pauli operator (up to its phase) is a pair of finitely supported functions: X acts on the qubits where the first is 1, Z
where the second is.  A noisy circuit has a Pauli operator before and after every instruction; an operator that is not the
identity is a fault.
-/

namespace Verif.Spec

variable {Q C R : Type}

/-- A Pauli operator: its X part and its Z part. -/
abbrev PauliErr (Q : Type) := (Q →₀ ZMod 2) × (Q →₀ ZMod 2)

/-- The exponent of the sign of a Z part on a basis state. -/
noncomputable def zdot (z : Q →₀ ZMod 2) (y : Q → ZMod 2) : ZMod 2 := z.sum fun q b => b * y q

/-- A Pauli operator on a state. -/
noncomputable def applyOp [CommRing R] (P : PauliErr Q) (ψ : State Q R) : State Q R :=
  fun y => sgn (zdot P.2 y) * ψ fun q => y q + P.1 q

/-- The operator acts on qubit `q`. -/
def PauliErr.ActsOn (P : PauliErr Q) (q : Q) : Prop := P.1 q ≠ 0 ∨ P.2 q ≠ 0

/-- The number of qubits acted on is at most `k`. -/
def PauliErr.WeightLe (P : PauliErr Q) (k : ℕ) : Prop := ∃ T : List Q, T.length ≤ k ∧ ∀ q, P.ActsOn q → q ∈ T

/-- The qubits of an instruction. -/
def Instr.qubits : Instr Q C → List Q
  | .h q => [q]
  | .cx c t => [c, t]
  | .measure q _ => [q]

/-- An instruction with the Pauli operators before and after it. -/
structure NoisyInstr (Q C : Type) where
  before : PauliErr Q
  instr : Instr Q C
  after : PauliErr Q

/-- A fault beside an instruction: any Pauli operator on one qubit, or any on the qubits of the instruction. -/
def FaultAt (i : Instr Q C) (P : PauliErr Q) : Prop :=
  (∃ q, ∀ p, P.ActsOn p → p = q) ∨ ∀ p, P.ActsOn p → p ∈ i.qubits

/-- All operators are faults in this sense. -/
def AllFaults (N : List (NoisyInstr Q C)) : Prop := ∀ L ∈ N, FaultAt L.instr L.before ∧ FaultAt L.instr L.after

/-- The number of faults: operators that are not the identity. -/
noncomputable def faultCount (N : List (NoisyInstr Q C)) : ℕ := by
  classical exact (N.map fun L => (if L.before = 0 then 0 else 1) + if L.after = 0 then 0 else 1).sum

/-- Run a noisy circuit with prescribed outcomes. -/
noncomputable def runNoisy [DecidableEq Q] [CommRing R] (s : R) (out : C → ZMod 2) (N : List (NoisyInstr Q C)) (ψ : State Q R) :
    State Q R :=
  N.foldl (fun φ L => applyOp L.after (step s out (applyOp L.before φ) L.instr)) ψ

end Verif.Spec
