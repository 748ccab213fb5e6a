import Verif.Spec.EccState

/-! # Code states, errors and successful correction -/

namespace Verif.Ecc
variable {R : Type} [CommRing R]

/-- The Pauli string `g` on the qubits `d 0, d 1, …`. -/
def stringAct (k : Consts R) (d : ℕ → ℕ) (g : List Op) (ψ : State R) : State R :=
  g.zipIdx.foldr (fun p φ => opAct k p.1 (d p.2) φ) ψ

/-- A joint state of the `n` logical qubits (possibly entangled) fixed by the strings `gens` on every block; letter `j` of a
string acts on the physical qubit `pos j` of the block. -/
def CodeState (k : Consts R) (n : ℕ) (pos : ℕ → ℕ) (gens : List (List Op)) (ψ : State R) : Prop :=
  ∀ i < n, ∀ g ∈ gens, stringAct k (fun j => dat n i (pos j)) g ψ = ψ

/-- The qubits of `A` have the values `v`, the others are in state `ψ`. -/
def withAnc (A : List ℕ) (v : Bits) (ψ : State R) : State R := fun x => if A.all fun q => x q == v q then ψ x else 0

/-- At most one operation for every logical qubit, on the given physical qubit of its block. -/
def corrupt (k : Consts R) (n : ℕ) (err : ℕ → Option (Op × ℕ)) (ψ : State R) : State R :=
  (List.range n).foldr (fun i φ => match err i with | none => φ | some (op, q) => opAct k op (dat n i q) φ) ψ

/-- The state `ψ` up to a phase, with some values in the ancillas. -/
def Restored (A : List ℕ) (ψ ψ' : State R) : Prop := ∃ (v : Bits) (u : R), u ^ 4 = 1 ∧ ψ' = withAnc A v (u • ψ)

/-- From `ψ₀`, whatever the values of the ancillas and the classical bits: all branches of the circuit restore `ψ` or have
probability zero, there is one that restores it, and the classical bits below `m` are not changed. -/
def Corrects (k : Consts R) (A : List ℕ) (m : ℕ) (l : List Instr) (ψ₀ ψ : State R) : Prop :=
  ∀ v cl : Bits, (∃ c', Branch k l (withAnc A v ψ₀, cl) c' ∧ Restored A ψ c'.1) ∧
    ∀ c', Branch k l (withAnc A v ψ₀, cl) c' → (Restored A ψ c'.1 ∨ c'.1 = 0) ∧ ∀ b < m, c'.2 b = cl b

end Verif.Ecc
