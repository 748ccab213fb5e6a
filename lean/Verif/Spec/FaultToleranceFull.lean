import Verif.Spec.FaultTolerance

/-! # Fault tolerance with respect to X and Z errors together -/

namespace Verif.Spec

variable {n : ℕ} {Q C R : Type} [DecidableEq Q] [CommRing R]

/-- The qubits of a circuit on the register `data`: the register and every qubit an instruction acts on. -/
def usedQubits (data : Fin n → Q) (l : List (Instr Q C)) : List Q := (List.finRange n).map data ++ l.flatMap Instr.qubits

/-- The circuit `l`, started with the qubits `qs` in |0⟩ and accepted when all its measurements (flags included) give 0,
tolerates one fault: with at most one fault anywhere, an accepted run ends (up to a sign) in the state of the accepted
fault-free run changed by a Pauli operator with at most `wx` X errors and at most `wz` Z errors on `data`. -/
def ToleratesOneFaultBoth (s : R) (data : Fin n → Q) (wx wz : ℤ) (l : List (Instr Q C)) (qs : List Q) : Prop :=
  ∀ N : List (NoisyInstr Q C), N.map NoisyInstr.instr = l → AllFaults N → faultCount N ≤ 1 →
    runNoisy s (fun _ => 0) N (zeros qs) = (fun _ => 0) ∨
    ∃ (b : ZMod 2) (e : PauliErr Q),
      ((Finset.univ.filter fun i => e.1 (data i) ≠ 0).card : ℤ) ≤ wx ∧
      ((Finset.univ.filter fun i => e.2 (data i) ≠ 0).card : ℤ) ≤ wz ∧
      runNoisy s (fun _ => 0) N (zeros qs) = fun y => sgn b * applyOp e (run s (fun _ => 0) l (zeros qs)) y

end Verif.Spec
