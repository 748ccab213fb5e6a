import Verif.Spec.FaultTolerance
import Verif.Linalg
import Mathlib.Algebra.BigOperators.Fin

/-! # Preparation of a logical state followed by error correction -/

namespace Verif.Spec

variable {n : ℕ} {Q C R : Type} [DecidableEq Q] [CommRing R]

/-- The operator with X (`x = true`) or Z on the data qubits where `v` is 1. -/
noncomputable def pauliOn (x : Bool) (data : Fin n → Q) (v : Vec n) : PauliErr Q :=
  if x then (∑ i, Finsupp.single (data i) (v i), 0) else (0, ∑ i, Finsupp.single (data i) (v i))

/-- The measurements of the checks `H` for X errors (`x = true`, products of Z) or Z errors (products of X) have definite outcomes in the
state `φ`: check `g` with outcome `b` acts as the sign of `b`. -/
def HasSyndrome (x : Bool) (data : Fin n → Q) (H : List (Vec n)) (σ : List (ZMod 2)) (φ : State Q R) : Prop :=
  List.Forall₂ (fun g b => applyOp (pauliOn (!x) data g) φ = fun y => sgn b * φ y) H σ

/-- The circuit `l`, started with the qubits `qs` in |0⟩ and accepted when all its measurements give 0, prepares its state correctly up to
errors of the other kind: with at most `t` faults anywhere, an accepted run ends in a state that has a syndrome, the decoder returns a
correction for it, and the corrected state is (up to a sign) the state of the accepted fault-free run changed by a Pauli operator that has
no errors of this kind on `data`. -/
def PreparesCorrected (s : R) (x : Bool) (data : Fin n → Q) (t : ℕ) (H : List (Vec n)) (decode : List (ZMod 2) → Option (Vec n))
    (l : List (Instr Q C)) (qs : List Q) : Prop :=
  ∀ N : List (NoisyInstr Q C), N.map NoisyInstr.instr = l → AllFaults N → faultCount N ≤ t →
    runNoisy s (fun _ => 0) N (zeros qs) = (fun _ => 0) ∨
    (∃ σ, HasSyndrome x data H σ (runNoisy s (fun _ => 0) N (zeros qs))) ∧
    ∀ σ, HasSyndrome x data H σ (runNoisy s (fun _ => 0) N (zeros qs)) →
      ∃ (v : Vec n) (b : ZMod 2) (e : PauliErr Q), decode σ = some v ∧
        (∀ i, (if x then e.1 else e.2) (data i) = 0) ∧
        applyOp (pauliOn x data v) (runNoisy s (fun _ => 0) N (zeros qs)) =
          fun y => sgn b * applyOp e (run s (fun _ => 0) l (zeros qs)) y

end Verif.Spec
