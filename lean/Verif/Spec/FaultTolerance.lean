import Verif.Spec.PauliFaults

/-! # Fault tolerance of preparation circuits with postselection -/

namespace Verif.Spec

variable {n : ℕ} {Q C R : Type} [DecidableEq Q] [CommRing R]

/-- The listed qubits in |0⟩. -/
def zeros (qs : List Q) : State Q R := withBits (qs.map fun q => (q, 0)) fun _ => 1

/-- The circuit `l`, started with the qubits `qs` in |0⟩ and accepted when all its measurements give 0, tolerates one fault
with respect to X errors (`x = true`) or Z errors of the qubits `data`: with at most one fault anywhere, an accepted run ends
(up to a sign) in the state of the accepted fault-free run changed by a Pauli operator with at most `w` errors of this kind on
`data`. -/
def ToleratesOneFault (s : R) (x : Bool) (data : Fin n → Q) (w : ℤ) (l : List (Instr Q C)) (qs : List Q) : Prop :=
  ∀ N : List (NoisyInstr Q C), N.map NoisyInstr.instr = l → AllFaults N → faultCount N ≤ 1 →
    runNoisy s (fun _ => 0) N (zeros qs) = (fun _ => 0) ∨
    ∃ (b : ZMod 2) (e : PauliErr Q),
      ((Finset.univ.filter fun i => (if x then e.1 else e.2) (data i) ≠ 0).card : ℤ) ≤ w ∧
      runNoisy s (fun _ => 0) N (zeros qs) = fun y => sgn b * applyOp e (run s (fun _ => 0) l (zeros qs)) y

end Verif.Spec
