import Verif.Model.Ecc
import Mathlib.Algebra.Ring.Basic
import Mathlib.Algebra.Module.Pi
import Mathlib.Tactic.Ring
import Mathlib.Tactic.LinearCombination

/-!
# State-vector semantics of encoded circuits

A state gives an amplitude in a commutative ring `R` to every assignment of bits to the qubits.  `s` stands for `1/√2` and
`ω` for `e^{iπ/4}`; only `2 s² = 1` and `ω⁴ = -1` are used, so the complex numbers are one instance.  A measurement has a
branch for either outcome; a branch ends in the unnormalised state, whose squared norm is the probability of the branch: the
zero state is a branch that cannot occur.
-/

namespace Verif.Ecc

/-- The constants. -/
structure Consts (R : Type) [CommRing R] where
  s : R
  ω : R
  hs : 2 * s * s = 1
  hω : ω ^ 4 = -1

abbrev Bits := ℕ → Bool
abbrev State (R : Type) := Bits → R

variable {R : Type} [CommRing R]

/-- `1` for 0 and `-1` for 1. -/
def sgn (b : Bool) : R := if b then -1 else 1

def flip (x : Bits) (q : ℕ) : Bits := Function.update x q (!x q)

/-- The imaginary unit. -/
def Consts.im (k : Consts R) : R := k.ω ^ 2

/-- A single-qubit operation. -/
def opAct (k : Consts R) (op : Op) (t : ℕ) (ψ : State R) : State R :=
  match op with
  | .X => fun x => ψ (flip x t)
  | .Z => fun x => sgn (x t) * ψ x
  | .Y => fun x => -k.im * sgn (x t) * ψ (flip x t)
  | .H => fun x => k.s * (ψ (Function.update x t false) + sgn (x t) * ψ (Function.update x t true))
  | .S => fun x => (if x t then k.im else 1) * ψ x
  | .Sdg => fun x => (if x t then -k.im else 1) * ψ x
  | .T => fun x => (if x t then k.ω else 1) * ψ x
  | .Tdg => fun x => (if x t then k.ω ^ 7 else 1) * ψ x
  | _ => ψ

/-- All controls are satisfied. -/
def holds (controls : List (ℕ × Bool)) (x : Bits) : Bool := controls.all fun c => x c.1 == c.2

/-- A controlled operation (the target is not among the controls). -/
def gateAct (k : Consts R) (op : Op) (controls : List (ℕ × Bool)) (t : ℕ) (ψ : State R) : State R :=
  fun x => if holds controls x then opAct k op t ψ x else ψ x

def swapAct (a b : ℕ) (ψ : State R) : State R := fun x => ψ (Function.update (Function.update x a (x b)) b (x a))

/-- Projection on outcome `o`. -/
def project (q : ℕ) (o : Bool) (ψ : State R) : State R := fun x => if x q = o then ψ x else 0

/-- Outcome `o` of a reset: the qubit is measured and flipped back to 0. -/
def resetAct (q : ℕ) (o : Bool) (ψ : State R) : State R := fun x => if x q then 0 else ψ (Function.update x q o)

/-- The value of `len` classical bits from `start`. -/
def regValue (cl : Bits) (start : ℕ) : ℕ → ℕ
  | 0 => 0
  | len + 1 => regValue cl start len + (if cl (start + len) then 2 ^ len else 0)

/-- The effect of an operation of the original circuit as instructions. -/
def Gate.instrs (g : Gate) : List Instr :=
  match g.op with
  | .I | .barrier => []
  | .measure => List.zipWith Instr.measure g.targets g.classics
  | op => g.targets.map fun t => .gate op g.controls t

/-- State and classical bits. -/
abbrev Config (R : Type) := State R × Bits

/-- One instruction: the possible branches.  (`clone` is replaced by `expand` before.) -/
def Step (k : Consts R) (i : Instr) (c c' : Config R) : Prop :=
  match i with
  | .reset q => ∃ o, c' = (resetAct q o c.1, c.2)
  | .gate op cs t => c' = (gateAct k op cs t c.1, c.2)
  | .swap a b => c' = (swapAct a b c.1, c.2)
  | .measure q b => ∃ o, c' = (project q o c.1, Function.update c.2 b o)
  | .cc op q start len v => c' = (if regValue c.2 start len = v then opAct k op q c.1 else c.1, c.2)
  | .clone _ => False

/-- Copied operations replaced by their effect. -/
def expand (l : List Instr) : List Instr := l.flatMap fun i => match i with | .clone g => g.instrs | i => [i]

/-- The branches of a circuit. -/
def Branch (k : Consts R) : List Instr → Config R → Config R → Prop
  | [], c, c' => c' = c
  | i :: l, c, c' => ∃ d, Step k i c d ∧ Branch k l d c'

/-- The state does not involve qubit `q`. -/
def Free (ψ : State R) (q : ℕ) : Prop := ∀ x b, ψ (Function.update x q b) = ψ x

/-- The computational basis state `b`, restricted to the qubits below `n` (the others are not constrained). -/
def ket (n : ℕ) (b : Bits) : State R := fun x => if ∀ q < n, x q = b q then 1 else 0

end Verif.Ecc
