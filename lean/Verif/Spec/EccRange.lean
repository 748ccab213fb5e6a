import Verif.Model.Ecc

/-! # Well-formed circuits -/

namespace Verif.Ecc

/-- An operation on `n` qubits and `m` classical bits: indices in range, no target among the controls, as many bits as measured
qubits. -/
def Gate.WF (n m : ℕ) (g : Gate) : Prop :=
  (∀ t ∈ g.targets, t < n) ∧ (∀ c ∈ g.controls, c.1 < n ∧ c.1 ∉ g.targets) ∧ (∀ c ∈ g.classics, c < m) ∧
    (g.op = .measure → g.classics.length = g.targets.length)

/-- An instruction on `nq` qubits and `nb` classical bits. -/
def Instr.WF (nq nb : ℕ) : Instr → Prop
  | .reset q => q < nq
  | .gate _ cs t => t < nq ∧ ∀ c ∈ cs, c.1 < nq ∧ c.1 ≠ t
  | .swap a b => a < nq ∧ b < nq ∧ a ≠ b
  | .measure q c => q < nq ∧ c < nb
  | .cc _ q start len _ => q < nq ∧ start + len ≤ nb
  | .clone g => g.WF nq nb

/-- A measurement, or an operation of the scheme: `plain` without and `controlled` with controls. -/
def Available (plain controlled : List Op) (g : Gate) : Prop :=
  g.op = .measure ∨ (g.controls = [] ∧ g.op ∈ plain) ∨ (g.controls ≠ [] ∧ g.op ∈ controlled)

end Verif.Ecc
