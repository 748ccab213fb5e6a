import Verif.Spec.FaultTolerance

/-! # Tolerance of several faults -/

namespace Verif.Spec

variable {n : ℕ} {Q C R : Type} [DecidableEq Q] [CommRing R]

/-- The circuit `l`, started with the qubits `qs` in |0⟩ and accepted when all its measurements give 0, tolerates `t` faults
with respect to X errors (`x = true`) or Z errors of the qubits `data`: with at most `t` faults anywhere, an accepted run ends
(up to a sign) in the state of the accepted fault-free run changed by a Pauli operator with at most `w f` errors of this kind
on `data`, where `f` is the number of faults. -/
def ToleratesFaults (s : R) (x : Bool) (data : Fin n → Q) (t : ℕ) (w : ℕ → ℤ) (l : List (Instr Q C)) (qs : List Q) : Prop :=
  ∀ N : List (NoisyInstr Q C), N.map NoisyInstr.instr = l → AllFaults N → faultCount N ≤ t →
    runNoisy s (fun _ => 0) N (zeros qs) = (fun _ => 0) ∨
    ∃ (b : ZMod 2) (e : PauliErr Q),
      ((Finset.univ.filter fun i => (if x then e.1 else e.2) (data i) ≠ 0).card : ℤ) ≤ w (faultCount N) ∧
      runNoisy s (fun _ => 0) N (zeros qs) = fun y => sgn b * applyOp e (run s (fun _ => 0) l (zeros qs)) y

end Verif.Spec
