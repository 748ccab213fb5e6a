import Verif.Spec.Faults

/-!
# What it means for a circuit to prepare a CSS state

The circuit starts in |+⟩ on the Hadamard qubits (stabilized by X there) and |0⟩ on the others
(stabilized by Z there).  Its CNOTs conjugate X operators by `cnotX` and Z operators by `cnotZ`.
-/

namespace Verif.Spec
open Verif
variable {n : ℕ}

/-- X stabilizers of the output state. -/
def finalX (hadamards : List (Fin n)) (cnots : List (Fin n × Fin n)) : Submodule (ZMod 2) (Vec n) :=
  Submodule.span (ZMod 2) {v | ∃ q ∈ hadamards, v = cnots.foldl cnotX (Pi.single q 1)}

/-- Z stabilizers of the output state. -/
def finalZ (hadamards : List (Fin n)) (cnots : List (Fin n × Fin n)) : Submodule (ZMod 2) (Vec n) :=
  Submodule.span (ZMod 2) {v | ∃ q, q ∉ hadamards ∧ v = cnots.foldl cnotZ (Pi.single q 1)}

/-- The output is the logical zero state of a code with X checks `Hx`: its X stabilizers are exactly
the sums of rows of `Hx` and its Z stabilizers are exactly the Z operators commuting with `Hx`
(Z stabilizers and Z logicals). -/
def PreparesZero (hadamards : List (Fin n)) (cnots : List (Fin n × Fin n)) (Hx : List (Vec n)) : Prop :=
  (∀ v, v ∈ finalX hadamards cnots ↔ v ∈ rowSpan Hx) ∧
  (∀ v, v ∈ finalZ hadamards cnots ↔ ∀ r ∈ Hx, dot r v = 0)

/-- The output is the logical plus state of a code with Z checks `Hz`. -/
def PreparesPlus (hadamards : List (Fin n)) (cnots : List (Fin n × Fin n)) (Hz : List (Vec n)) : Prop :=
  (∀ v, v ∈ finalZ hadamards cnots ↔ v ∈ rowSpan Hz) ∧
  (∀ v, v ∈ finalX hadamards cnots ↔ ∀ r ∈ Hz, dot r v = 0)

end Verif.Spec
