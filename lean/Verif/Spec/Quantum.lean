import Mathlib.Data.ZMod.Basic
import Mathlib.Algebra.BigOperators.Group.List.Basic
import Mathlib.Algebra.Ring.Basic
import Mathlib.Tactic.Ring

/-!
# Quantum circuits with measurements: state-vector semantics

A state assigns an amplitude in a commutative ring `R` to every assignment of 0/1 to the qubits `Q`.
`s` stands for `1/√2`; the theorems ask only for `2 * s * s = 1`, which holds in the real or complex
numbers.  Running a circuit with prescribed measurement outcomes gives the unnormalised
post-measurement state, whose squared norm is the probability of these outcomes (so the zero state
means that the outcomes cannot occur).
-/

namespace Verif.Spec

/-- Circuit instructions on qubits `Q` and classical bits `C`. -/
inductive Instr (Q C : Type)
  | h (q : Q)
  | cx (control target : Q)
  | measure (q : Q) (c : C)
deriving DecidableEq, Repr

abbrev State (Q R : Type) := (Q → ZMod 2) → R

variable {Q C R : Type} [DecidableEq Q] [CommRing R]

/-- `1` for 0 and `-1` for 1. -/
def sgn (b : ZMod 2) : R := if b = 0 then 1 else -1

/-- One instruction, with prescribed outcomes `out` of the measurements. -/
def step (s : R) (out : C → ZMod 2) (ψ : State Q R) : Instr Q C → State Q R
  | .h q => fun x => s * (ψ (Function.update x q 0) + sgn (x q) * ψ (Function.update x q 1))
  | .cx c t => fun x => ψ (Function.update x t (x t + x c))
  | .measure q c => fun x => if x q = out c then ψ x else 0

/-- A whole circuit. -/
def run (s : R) (out : C → ZMod 2) (l : List (Instr Q C)) (ψ : State Q R) : State Q R :=
  l.foldl (step s out) ψ

/-- `ψ` does not involve qubit `q`: it is a state of the other qubits. -/
def Free (ψ : State Q R) (q : Q) : Prop := ∀ x v, ψ (Function.update x q v) = ψ x

/-- The state `ψ ⊗ |b⟩` with the listed qubits in the given basis states. -/
def withBits (l : List (Q × ZMod 2)) (ψ : State Q R) : State Q R :=
  fun x => if ∀ p ∈ l, x p.1 = p.2 then ψ x else 0

/-- Projection onto the `(-1)^m` eigenspace of the product of `Z` over the qubits of `S`. -/
def projZ (S : List Q) (m : ZMod 2) (ψ : State Q R) : State Q R :=
  fun x => if (S.map x).sum = m then ψ x else 0

/-- The product of `X` over the qubits of `S` (a qubit listed twice cancels). -/
def applyX (S : List Q) (ψ : State Q R) : State Q R := fun x => ψ fun q => x q + (S.count q : ZMod 2)

/-- Projection onto the `(-1)^m` eigenspace of the product of `X` over the qubits of `S`:
`(ψ + (-1)^m X_S ψ) / 2`, with `half = 1/2`. -/
def projX (half : R) (S : List Q) (m : ZMod 2) (ψ : State Q R) : State Q R :=
  fun x => half * (ψ x + sgn m * applyX S ψ x)

/-- Projection for a Z (`z = true`) or X stabilizer. -/
def proj (half : R) (z : Bool) (S : List Q) (m : ZMod 2) (ψ : State Q R) : State Q R :=
  if z then projZ S m ψ else projX half S m ψ

end Verif.Spec
