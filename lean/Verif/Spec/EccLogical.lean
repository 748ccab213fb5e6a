import Verif.Spec.EccCode
import Verif.Spec.EccRange
import Mathlib.Algebra.BigOperators.Group.Finset.Basic
import Mathlib.Data.Fintype.Pi
import Mathlib.Data.Fin.VecNotation

/-!
# Encoded states and logical gates

A code is given by its two code words: the amplitudes of the logical states 0 and 1 of one block (not normalised).  The
encoding of a joint state `φ` of `n` logical qubits is linear and sends the basis state `b` to the product of the code words of
its bits.  A list of instructions acts as a logical gate if it maps the encoding of every state to the encoding of the state
after the gate, up to a global phase that is the same for all states.
-/

namespace Verif.Ecc
variable {R : Type} [CommRing R]

/-- The amplitudes of the logical states of one block. -/
abbrev CodeWords := Bool → Bits → ℤ

/-- The values of `n` logical qubits as an assignment. -/
def ext {n : ℕ} (b : Fin n → Bool) : Bits := fun q => if h : q < n then b ⟨q, h⟩ else false

/-- The encoding of the state `φ` of `n` logical qubits: `∑ b, φ b • ⨂ i, W (b i)`. -/
def encoded (W : CodeWords) (n : ℕ) (φ : State R) : State R := fun x =>
  ∑ b : Fin n → Bool, (∏ i : Fin n, ((W (b i) fun j => x (dat n i j) : ℤ) : R)) * φ (ext b)

/-- The instructions act on the encoding of every state as the gate, up to a global phase. -/
def ActsAs (k : Consts R) (W : CodeWords) (n : ℕ) (l : List Instr) (g : Gate) : Prop :=
  ∃ u : R, u ^ 4 = 1 ∧ ∀ (φ φ' : State R) (cl cl' : Bits), Branch k g.instrs (φ, cl) (φ', cl') →
    ∀ c', Branch k l (encoded W n φ, cl) c' ↔ c' = (u • encoded W n φ', cl')

/-- What a scheme writes for gate `g` while the qubits are encoded acts as `g`. -/
def MapsGate (k : Consts R) (sch : ℕ → ℕ → Scheme) (W : CodeWords) (n m : ℕ) (g : Gate) : Prop :=
  ∀ s s' : St, s.isDecoded = false → (sch n m).mapGate g s = .ok s' → ∃ l, s'.out = s.out ++ l ∧ ActsAs k W n l g

/-- The parity of the bits at the positions `l`. -/
def parity (l : List ℕ) (y : Bits) : Bool := l.foldr (fun j p => y j ^^ p) false

/-- The code words of a CSS code: all words that satisfy the Z checks, with the value `b` of the logical Z operator. -/
def cssWords (checks : List (List ℕ)) (logicalZ : List ℕ) : CodeWords := fun b y =>
  if (checks.all fun c => !parity c y) && parity logicalZ y == b then 1 else 0

/-- The bit-flip code: 000 and 111. -/
def q3Words : CodeWords := cssWords [[0, 1], [1, 2]] [0]

/-- Steane's code: the words of the Hamming code of even and of odd weight. -/
def q7Words : CodeWords := cssWords [[0, 2, 4, 6], [1, 2, 5, 6], [3, 4, 5, 6]] [0, 1, 2, 3, 4, 5, 6]

/-- The rotated surface code of distance three. -/
def s9Words : CodeWords := cssWords [[0, 3], [1, 2, 4, 5], [3, 4, 6, 7], [5, 8]] [0, 4, 8]

/-- Shor's code: `(000 + 111)(000 + 111)(000 + 111)` and `(000 - 111)(000 - 111)(000 - 111)`. -/
def q9Words : CodeWords := fun b y =>
  if (y 0 == y 1) && (y 1 == y 2) && (y 3 == y 4) && (y 4 == y 5) && (y 6 == y 7) && (y 7 == y 8) then
    (if b && parity [0, 3, 6] y then -1 else 1) else 0

/-- The five-qubit code: the words of even or odd weight, with a sign for every pair of neighbours on the ring. -/
def q5Words : CodeWords := fun b y =>
  if parity [0, 1, 2, 3, 4] y == b then
    (if (b ^^ (y 0 && y 1) ^^ (y 1 && y 2) ^^ (y 2 && y 3) ^^ (y 3 && y 4) ^^ (y 4 && y 0)) then -1 else 1) else 0

end Verif.Ecc
