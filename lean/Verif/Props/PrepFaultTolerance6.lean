import Verif.Props.PrepFaultTolerance5

/-! # C104 is violated on the rotated surface code of distance 3 -/

namespace Verif.SP
open Verif Verif.Spec
variable {R : Type} [CommRing R]

/-- `StatePrepCircuit(heuristic_prep_circuit(code, zero_state=False))` for the rotated surface code [[9,1,3]], with some
numbering of the qubits: the stabilizers are X₀X₂X₅X₆, X₅X₇, X₄X₈, X₀X₁X₃X₄ and Z₂Z₆, Z₀Z₁Z₅Z₇, Z₀Z₄Z₆Z₈, Z₁Z₃. -/
def spSurface : StatePrep 9 where
  circ := ⟨[1, 5, 6, 7, 8], [(8, 4), (5, 0), (6, 4), (1, 0), (7, 5), (0, 4), (1, 3), (6, 2)]⟩
  hx := [![1,0,1,0,0,1,1,0,0], ![0,0,0,0,0,1,0,1,0], ![0,0,0,0,1,0,0,0,1], ![1,1,0,1,1,0,0,0,0]]
  hz := [![0,0,1,0,0,0,1,0,0], ![1,1,0,0,0,1,0,1,0], ![1,0,0,0,1,0,1,0,1], ![0,1,0,1,0,0,0,0,0]]
  lx := [![0,1,0,1,0,1,0,0,0]]
  lz := [![1,1,1,0,0,0,0,0,0]]
  dist := 3
  xDist := 3
  zDist := 3
  zeroState := false
  errorDetection := false

theorem prep_surface : (heuristicPrep (someRref 9) spSurface.hz true false 60).map (fun c => (c.hadamards, c.cnots)) =
    some (spSurface.circ.hadamards, spSurface.circ.cnots) := by decide +kernel

theorem run_surface : okOf (heuristicVerification id bruteLeader true 1000 100 spSurface true (cachesAfter spSurface bruteLeader [] [])) =
    some (prepInstrs spSurface.circ ++ (bothRounds false 1 [![1,0,1,0,0,1,1,0,0]] [] ++ againZ false 0)) := by decide +kernel

theorem dual_surface : ∀ v, v ∈ rowSpan (spSurface.checks true) ↔ ∀ r ∈ spSurface.checks false, dot r v = 0 := by
  have : ∀ v : Vec 9, inSpan (spSurface.checks true) v = true ↔ ∀ r ∈ spSurface.checks false, dot r v = 0 := by decide +kernel
  intro v
  rw [← this v, inSpan_iff]

/-- The claim for the circuits of `heuristic_prep_circuit` and `heuristic_verification_circuit`, under all the hypotheses of
`C104_heuristic_partial`, without the condition on the hook errors. -/
def C104_claim (s : R) : Prop :=
  ∀ (n : ℕ) (rref : List (Vec n) → List (Vec n)) (optimizeDepth : Bool) (fuel : ℕ) (sp : StatePrep n)
    (ord : List CSet → List CSet) (leader : Vec n → List (Vec n) → Vec n) (findLeaders : Bool) (limit fuel' : ℕ)
    (l : List (Instr VQ VC)),
    RrefOk rref → OrdOk ord → (∀ e gens, CosetLeader e gens (leader e gens)) →
    (∀ v, v ∈ rowSpan (sp.checks (!sp.zeroState)) ↔ ∀ r ∈ sp.checks sp.zeroState, dot r v = 0) →
    1 ≤ sp.maxErrors → sp.dist ≤ sp.xDist ∧ sp.dist ≤ sp.zDist →
    (∀ v ∈ rowSpan (sp.checks sp.zeroState), wt v ≠ 1) →
    (∀ x, EarlyCovered (sp.side leader x)) →
    heuristicPrep rref (if sp.zeroState then sp.hx else sp.hz) optimizeDepth sp.zeroState fuel = some sp.circ →
    heuristicVerification ord leader findLeaders limit fuel' sp true (cachesAfter sp leader [] []) = .ok l →
    ToleratesOneFaultBoth s (fun i : Fin n => VQ.data i) (weightBound sp.dist sp.xDist 1) (weightBound sp.dist sp.zDist 1) l
      (usedQubits (fun i : Fin n => VQ.data i) l)

theorem early_surface (x : Bool) : EarlyCovered (spSurface.side bruteLeader x) := by
  cases x
  · exact earlyCovered_of _ (by decide +kernel)
  · exact earlyCovered_of _ (by decide +kernel)

theorem wt_surface : ∀ v ∈ rowSpan (spSurface.checks false), wt v ≠ 1 := by
  have : ∀ v ∈ allCombos (spSurface.checks false), wt v ≠ 1 := by decide +kernel
  exact fun v hv => this v ((mem_allCombos _ _).2 hv)

theorem hook_surface : Dangerous (spSurface.checks true) 1 (![0,0,0,0,0,1,1,0,0] : Vec 9) := dangerous_of (by decide +kernel)

/-- **C104 is violated** on the rotated surface code of distance 3: for the plus state the first round measures X₀X₂X₅X₆ without a
flag, an X fault on its ancilla before the last two CNOTs leaves X₅X₆ on the data, which is not equivalent to a single error, and
no measurement is added in the second round: the run is accepted with two X errors. -/
theorem C104_violated_hook (s : R) (hs : 2 * s * s = 1) [Nontrivial R] : ¬ C104_claim s := by
  intro hclaim
  have hp := circ_of_pair prep_surface
  have hft := hclaim 9 (someRref 9) true 60 spSurface id bruteLeader true 1000 100 _ (someRref_ok 9) (fun _ => List.Perm.refl _)
    bruteLeader_spec dual_surface (by decide) (by decide) wt_surface early_surface hp (okOf_some run_surface)
  have hS : PreparesPlus spSurface.circ.hadamards spSurface.circ.cnots spSurface.hz :=
    (C28_heuristic (someRref 9) (someRref_ok 9) _ true 60 _).2 hp
  have hT : Prepares true spSurface.circ (spSurface.checks true) :=
    prepares_other false spSurface.circ (spSurface.checks false) _ (by decide) (by decide) hS dual_surface
  exact hook_breaks false spSurface.circ 1 [![1,0,1,0,0,1,1,0,0]] [] (spSurface.checks false) (spSurface.checks true)
    (by decide) (by decide) hS (by decide +kernel) (by simp) (fun _ => 1) s hs (by intro m hm; simp at hm) _ rfl hT le_rfl
    ![1,0,1,0,0,1,1,0,0] ![0,0,0,0,0,1,1,0,0] (by simp) ⟨5, by decide⟩ hook_surface (by simp) hft

end Verif.SP
