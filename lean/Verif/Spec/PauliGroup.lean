import Verif.Spec.Pauli
import Mathlib.Data.ZMod.Basic

/-!
# Specification vocabulary: the group generated by signed Pauli strings
-/

namespace Verif.Spec

/-- The power of `i` in the product of two single-qubit Paulis: `XY = iZ`, `YZ = iX`, `ZX = iY`,
and `-i` in the opposite order. -/
def mulPhase (a b : Char) : ZMod 4 :=
  if (a, b) ∈ [('X', 'Y'), ('Y', 'Z'), ('Z', 'X')] then 1
  else if (b, a) ∈ [('X', 'Y'), ('Y', 'Z'), ('Z', 'X')] then 3 else 0

/-- The operator `i^phase * P₁ ⊗ … ⊗ Pₙ`. -/
structure PauliOp where
  phase : ZMod 4
  ls : List Char
  deriving DecidableEq

/-- Operator product. -/
def PauliOp.mul (p q : PauliOp) : PauliOp :=
  ⟨p.phase + q.phase + (List.zipWith mulPhase p.ls q.ls).sum, List.zipWith mulLetter p.ls q.ls⟩

/-- The operator written as a signed string. -/
def opOf (s : List Char) : PauliOp := ⟨if s.head? = some '-' then 2 else 0, body s⟩

/-- The group generated by the signed strings `l` on `n` qubits (all generators are involutions,
so products suffice). -/
inductive Generated (n : ℕ) (l : List (List Char)) : PauliOp → Prop
  | one : Generated n l ⟨0, List.replicate n 'I'⟩
  | mul (g : List Char) (p : PauliOp) : g ∈ l → Generated n l p → Generated n l ((opOf g).mul p)

/-- The operators generated, up to phase. -/
inductive GeneratedUpToPhase (n : ℕ) (l : List (List Char)) : List Char → Prop
  | one : GeneratedUpToPhase n l (List.replicate n 'I')
  | mul (g p : List Char) : g ∈ l → GeneratedUpToPhase n l p →
      GeneratedUpToPhase n l (List.zipWith mulLetter (body g) p)

end Verif.Spec
