import Verif.Linalg

/-!
# Specification vocabulary for fault sets

Two X (or Z) errors are *equivalent* with respect to stabilizers if their sum is a sum of
stabilizers.  A fault is an error on one qubit at one place of a CNOT circuit; its effect is the
error it becomes at the end of the circuit: CNOT copies X from control to target and Z from target
to control.
-/

namespace Verif.Spec
open Verif
variable {n : ℕ}

/-- Equal up to stabilizers. -/
def Equivalent (stabs : List (Vec n)) (e f : Vec n) : Prop := e + f ∈ rowSpan stabs

/-- No equivalent error has weight at most `w`. -/
def Dangerous (stabs : List (Vec n)) (w : ℤ) (e : Vec n) : Prop :=
  ∀ f, Equivalent stabs e f → w < wt f

/-- Minimum-weight representative of its class. -/
def IsLeader (stabs : List (Vec n)) (r : Vec n) : Prop := ∀ f, Equivalent stabs r f → wt r ≤ wt f

/-- Conjugation of an X error by a CNOT (control, target). -/
def cnotX (e : Vec n) (g : Fin n × Fin n) : Vec n := e + e g.1 • Pi.single g.2 1

/-- Conjugation of a Z error by a CNOT (control, target). -/
def cnotZ (e : Vec n) (g : Fin n × Fin n) : Vec n := e + e g.2 • Pi.single g.1 1

/-- Conjugation of an X error (`xErrors`) or a Z error. -/
def conj (xErrors : Bool) (e : Vec n) (g : Fin n × Fin n) : Vec n :=
  if xErrors then cnotX e g else cnotZ e g

/-- Effect at the end of the circuit of a single-qubit error on qubit `q` after the first `i`
gates. -/
def faultEffect (xErrors : Bool) (gates : List (Fin n × Fin n)) (i : ℕ) (q : Fin n) : Vec n :=
  (gates.drop i).foldl (conj xErrors) (Pi.single q 1)

/-- `v` is a sum of `k` elements satisfying `F`. -/
def SumOf (F : Vec n → Prop) (k : ℕ) (v : Vec n) : Prop :=
  ∃ l : List (Vec n), l.length = k ∧ (∀ x ∈ l, F x) ∧ l.sum = v

end Verif.Spec
