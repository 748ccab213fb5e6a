import Verif.Spec.EccState
import Verif.Spec.EccRange

/-! # Running a circuit and its encoding, with and without noise -/

namespace Verif.Ecc
variable {R : Type} [CommRing R]

/-- The original circuit, run from the state `|0…0⟩` of `n` qubits and classical bits `cl`, can end with the bits `r`. -/
def OriginalResult (R : Type) [CommRing R] (k : Consts R) (n : ℕ) (gates : List Gate) (cl r : Bits) : Prop :=
  ∃ c : Config R, Branch k (gates.flatMap Gate.instrs) (ket n fun _ => false, cl) c ∧ c.1 ≠ 0 ∧ c.2 = r

/-- A list of instructions, run from the state `|0…0⟩` of `N` qubits and classical bits `cl`, can end with the bits `r`. -/
def MappedResult (R : Type) [CommRing R] (k : Consts R) (N : ℕ) (l : List Instr) (cl r : Bits) : Prop :=
  ∃ c : Config R, Branch k (expand l) (ket N fun _ => false, cl) c ∧ c.1 ≠ 0 ∧ c.2 = r

/-- The bits below `m` are the same for all results of both circuits, and both have a result. -/
def SameResults (R : Type) [CommRing R] (k : Consts R) (n m : ℕ) (gates : List Gate) (N : ℕ) (l : List Instr) : Prop :=
  ∀ cl : Bits, (∃ r, OriginalResult R k n gates cl r) ∧ (∃ r, MappedResult R k N l cl r) ∧
    ∀ r r', OriginalResult R k n gates cl r → MappedResult R k N l cl r' → ∀ b < m, r b = r' b

/-- The bits below `m` are equal. -/
def SameBits (m : ℕ) (r r' : Bits) : Prop := ∀ b < m, r b = r' b

/-- Both circuits can give the same values for the bits below `m` (with random outcomes there may be several results). -/
def SameResultSets (R : Type) [CommRing R] (k : Consts R) (n m : ℕ) (gates : List Gate) (N : ℕ) (l : List Instr) : Prop :=
  ∀ cl : Bits, (∀ r, OriginalResult R k n gates cl r → ∃ r', MappedResult R k N l cl r' ∧ SameBits m r r') ∧
    ∀ r', MappedResult R k N l cl r' → ∃ r, OriginalResult R k n gates cl r ∧ SameBits m r r'

/-- `Ecc::apply` with noise: after the instructions written for gate number `g` (counted from 0), and before the correction
that may follow, the instructions `noise g` are inserted, unless the qubits are decoded at this point. -/
def Scheme.applyNoisy (s : Scheme) (freq : ℕ) (noise : ℕ → List Instr) (gates : List Gate) : Except EccErr (List Instr) :=
  (loop (σ := ℕ × St)
    (fun g p => (s.mapGate g p.2).map fun st => (p.1 + 1, if st.isDecoded then st else st.emit (noise p.1)))
    (fun p => (p.1, s.measureAndCorrect p.2)) freq 0 gates (0, (s.writeEncoding {}).decoded false)).map
      fun p => (s.finish p.2).out

/-- Pauli errors on qubits for which `P` holds. -/
def ErrorsOn (P : ℕ → Prop) (l : List Instr) : Prop := ∀ i ∈ l, ∃ op q, i = .gate op [] q ∧ (op = .X ∨ op = .Y ∨ op = .Z) ∧ P q

end Verif.Ecc
