import Mathlib.Data.List.Basic

/-!
# Specification vocabulary: Pauli strings

Independent of the model; this is what the theorems about stabilizer codes are stated with.
A string is a list of characters.
-/

namespace Verif.Spec


/-- The four Pauli letters. -/
def letters : List Char := ['I', 'X', 'Y', 'Z']

/-- A valid (optionally signed) Pauli string: not empty, an optional sign, then letters. -/
def ValidStr (s : List Char) : Prop :=
  s ≠ [] ∧ ∃ sgn body, s = sgn ++ body ∧ (sgn = [] ∨ sgn = ['+'] ∨ sgn = ['-']) ∧
    ∀ c ∈ body, c ∈ letters

/-- The string without its sign. -/
def body : List Char → List Char
  | '+' :: s => s
  | '-' :: s => s
  | s => s

/-- The string with a leading '+' dropped. -/
def dropPlus : List Char → List Char
  | '+' :: s => s
  | s => s

/-- Number of qubits on which two Pauli letters strings act non-trivially and differently. -/
def clashes : List Char → List Char → ℕ
  | a :: as, b :: bs => (if a ≠ 'I' ∧ b ≠ 'I' ∧ a ≠ b then 1 else 0) + clashes as bs
  | _, _ => 0

/-- Product of two Pauli letters, ignoring the phase. -/
def mulLetter (a b : Char) : Char :=
  if a = 'I' then b else if b = 'I' then a else if a = b then 'I'
  else if a ≠ 'X' ∧ b ≠ 'X' then 'X' else if a ≠ 'Y' ∧ b ≠ 'Y' then 'Y' else 'Z'

end Verif.Spec
