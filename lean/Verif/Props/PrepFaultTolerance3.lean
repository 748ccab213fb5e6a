import Verif.Props.PrepFaultTolerance2
import Verif.Props.Synthesis
import Verif.Lemmas.BruteLeader

/-!
# C102 on concrete codes: the Steane code (met) and the Shor code (violated)
-/

namespace Verif.SP
open Verif Verif.Spec
variable {R : Type} [CommRing R]

/-- `StatePrepCircuit(heuristic_prep_circuit(steane), …)` for the logical zero state. -/
def spSteane : StatePrep 7 where
  circ := ⟨[0, 1, 3], [(3, 5), (1, 2), (5, 6), (3, 4), (0, 2), (1, 5), (0, 4), (2, 6)]⟩
  hx := [![0,0,0,1,1,1,1], ![0,1,1,0,0,1,1], ![1,0,1,0,1,0,1]]
  hz := [![0,0,0,1,1,1,1], ![0,1,1,0,0,1,1], ![1,0,1,0,1,0,1]]
  lx := [![1,1,1,0,0,0,0]]
  lz := [![1,1,1,0,0,0,0]]
  dist := 3
  xDist := 3
  zDist := 3
  zeroState := true
  errorDetection := false

/-- The circuit `heuristic_prep_circuit` builds for the Shor code of the repository (`codes/shor`). -/
def spShor : StatePrep 9 where
  circ := ⟨[0, 2], [(2, 6), (0, 3), (6, 8), (3, 4), (2, 0), (6, 7), (4, 5), (3, 2), (0, 1)]⟩
  hx := [![1,1,1,1,1,1,0,0,0], ![1,1,1,0,0,0,1,1,1]]
  hz := [![1,1,0,0,0,0,0,0,0], ![1,0,1,0,0,0,0,0,0], ![0,0,0,1,1,0,0,0,0], ![0,0,0,1,0,1,0,0,0],
    ![0,0,0,0,0,0,1,1,0], ![0,0,0,0,0,0,1,0,1]]
  lx := [![1,1,1,0,0,0,0,0,0]]
  lz := [![1,0,0,1,0,0,1,0,0]]
  dist := 3
  xDist := 3
  zDist := 3
  zeroState := true
  errorDetection := false

/-- Some row reduction with the contract of the library. -/
noncomputable def someRref (n : ℕ) : List (Vec n) → List (Vec n) := (exists_rref n).choose

theorem someRref_ok (n : ℕ) : RrefOk (someRref n) := (exists_rref n).choose_spec

theorem prep_steane : (heuristicPrep (someRref 7) spSteane.hx true true 30).map (fun c => (c.hadamards, c.cnots)) =
    some (spSteane.circ.hadamards, spSteane.circ.cnots) := by decide +kernel

theorem prep_shor : (heuristicPrep (someRref 9) spShor.hx true true 60).map (fun c => (c.hadamards, c.cnots)) =
    some (spShor.circ.hadamards, spShor.circ.cnots) := by decide +kernel

theorem circ_of_pair {n : ℕ} {o : Option (PrepCircuit n)} {c : PrepCircuit n}
    (h : o.map (fun c => (c.hadamards, c.cnots)) = some (c.hadamards, c.cnots)) : o = some c := by
  cases o with
  | none => cases h
  | some d =>
    obtain ⟨dh, dc⟩ := d
    obtain ⟨ch, cc⟩ := c
    simp only [Option.map_some, Option.some.injEq, Prod.mk.injEq] at h
    rw [h.1, h.2]

/-- The result of a run as an option. -/
def okOf {ε α : Type} : Except ε α → Option α
  | .ok a => some a
  | .error _ => none

theorem okOf_some {ε α : Type} {r : Except ε α} {a : α} (h : okOf r = some a) : r = .ok a := by
  cases r with
  | ok b => cases h; rfl
  | error e => cases h

theorem run_steane : okOf (heuristicVerification id bruteLeader true 10 20 spSteane false (cachesAfter spSteane bruteLeader [] [])) =
    some (prepInstrs spSteane.circ ++ firstRound true [![0,1,0,0,1,0,1]]) := by decide +kernel

theorem run_shor : okOf (heuristicVerification id bruteLeader true 1000 100 spShor false (cachesAfter spShor bruteLeader [] [])) =
    some (prepInstrs spShor.circ ++ firstRound true [![1,0,0,1,0,0,1,0,0]]) := by decide +kernel

theorem not_dangerous {n : ℕ} {S : List (Vec n)} {w : ℤ} {e : Vec n} (h : ∃ v ∈ allCombos S, (wt (e + v) : ℤ) ≤ w) :
    ¬ Dangerous S w e := by
  obtain ⟨v, hv, hw⟩ := h
  intro hd
  have := hd (e + v) (by
    show e + (e + v) ∈ rowSpan S
    rw [← add_assoc, add_self_eq_zero', zero_add]
    exact (mem_allCombos _ _).1 hv)
  omega

theorem dangerous_of {n : ℕ} {S : List (Vec n)} {w : ℤ} {e : Vec n} (h : ∀ v ∈ allCombos S, w < (wt (e + v) : ℤ)) :
    Dangerous S w e := by
  intro f hf
  have := h (e + f) ((mem_allCombos _ _).2 hf)
  rwa [← add_assoc, add_self_eq_zero', zero_add] at this

/-- A computable sufficient condition for `EarlyCovered`. -/
theorem earlyCovered_of {n : ℕ} (sd : Side n) (h : ∀ q : Fin n,
    (∃ v ∈ allCombos sd.stabs, (wt (faultEffect sd.xErrors sd.cnots 0 q + v) : ℤ) ≤ weightBound sd.d sd.dError 1) ∨
    ∃ i ∈ List.range sd.cnots.length, ∃ g ∈ sd.cnots[i]?, inSpan sd.stabs (faultEffect sd.xErrors sd.cnots 0 q +
      faultEffect sd.xErrors sd.cnots (i + 1) (if sd.xErrors then g.1 else g.2)) = true) : EarlyCovered sd := by
  intro q hd
  rcases h q with h | ⟨i, -, g, hg, h⟩
  · exact absurd hd (not_dangerous h)
  · exact ⟨i, g, hg, inSpan_iff.1 h⟩

/-- The hypotheses of `C102_heuristic_partial` are met by the Steane code with the circuit of `heuristic_prep_circuit`; the
search adds one measurement of weight 3. -/
example (s : R) (hs : 2 * s * s = 1) : ∃ l,
    heuristicVerification id bruteLeader true 10 20 spSteane false (cachesAfter spSteane bruteLeader [] []) = .ok l ∧
    ToleratesOneFault s true (fun i : Fin 7 => VQ.data i) 1 l (qubitsOf 7 true 1) := by
  refine ⟨_, okOf_some run_steane, ?_⟩
  have hS : PreparesZero spSteane.circ.hadamards spSteane.circ.cnots spSteane.hx :=
    (C28_heuristic (someRref 7) (someRref_ok 7) _ true 30 _).1 (circ_of_pair prep_steane)
  have := C102_heuristic_partial s hs id (fun _ => List.Perm.refl _) bruteLeader bruteLeader_spec true 10 20 spSteane
    (by decide) (by decide) hS (by decide +kernel) (by decide) (by decide) (by decide)
    (earlyCovered_of _ (by decide +kernel)) [] [] _ (okOf_some run_steane)
  rw [bitsOf_verified] at this
  exact this

/-- The solver answers the first question of the search for the Steane code (one ancilla, three CNOTs) and nothing else. -/
def runSteane (_ : Bool) (_ : ℕ) (faults : List (Vec 7)) (_ c _ : ℕ) : Outcome (List (Vec 7)) :=
  if c = 3 ∧ faults = [![0,0,0,1,1,0,0], ![0,1,0,0,0,1,0]] then
    .value (some (verifExtract (spSteane.checks false) 1 fun _ i => i = 0 || i = 3))
  else .timeout

theorem run_steane_optimal : okOf (optimalVerification runSteane (fun _ _ _ _ _ _ => .timeout) (fun _ _ _ _ _ _ => .timeout) 1 1 20
    bruteLeader spSteane false (cachesAfter spSteane bruteLeader [] [])) =
    some (prepInstrs spSteane.circ ++ firstRound true [![0,1,0,0,1,0,1]]) := by decide +kernel

theorem runSteane_ok (k : ℕ) (faults : List (Vec 7)) (i c t : ℕ) :
    VerifOutcome (spSteane.checks (!spSteane.zeroState)) faults 1 c (runSteane spSteane.zeroState k faults i c t) := by
  unfold runSteane
  by_cases h : c = 3 ∧ faults = [![0,0,0,1,1,0,0], ![0,1,0,0,0,1,0]]
  · rw [if_pos h]
    obtain ⟨rfl, rfl⟩ := h
    right
    have : ∃ c, verifConstraint (spSteane.checks false) [![0,0,0,1,1,0,0], ![0,1,0,0,0,1,0]] 1 3 = some c ∧
        c (fun _ i => i = 0 || i = 3) = true := ⟨_, rfl, by decide +kernel⟩
    obtain ⟨c, hc, ha⟩ := this
    have hc' : verifConstraint (spSteane.checks (!spSteane.zeroState)) [![0,0,0,1,1,0,0], ![0,1,0,0,0,1,0]] 1 3 = some c := hc
    rw [hc']
    exact .inl ⟨_, ha, rfl⟩
  · rw [if_neg h]; exact .inl rfl

/-- The hypotheses of `C102_optimal_partial` are met by the same circuit. -/
example (s : R) (hs : 2 * s * s = 1) : ToleratesOneFault s true (fun i : Fin 7 => VQ.data i) 1
    (prepInstrs spSteane.circ ++ firstRound true [![0,1,0,0,1,0,1]]) (qubitsOf 7 true 1) := by
  have hS : PreparesZero spSteane.circ.hadamards spSteane.circ.cnots spSteane.hx :=
    (C28_heuristic (someRref 7) (someRref_ok 7) _ true 30 _).1 (circ_of_pair prep_steane)
  have := C102_optimal_partial s hs runSteane (fun _ _ _ _ _ _ => .timeout) (fun _ _ _ _ _ _ => .timeout) 1 1 20
    bruteLeader bruteLeader_spec spSteane 1 runSteane_ok (fun _ _ _ _ _ => .inl rfl) (fun _ _ _ _ _ => .inl rfl)
    (by decide) (by decide) hS (by decide +kernel) (by decide) (by decide) (by decide)
    (earlyCovered_of _ (by decide +kernel)) [] [] _ (by rw [bits_verified]; simp) (okOf_some run_steane_optimal)
  rw [bitsOf_verified] at this
  exact this

/-- The hypotheses of `C102_fault_free` and `C102_tolerates_iff` are met by the same circuit. -/
example (s : R) (hs : 2 * s * s = 1) [Nontrivial R] : ∃ l, verifiedPrep spSteane.circ (fun _ _ => [[![0,1,0,0,1,0,1]]]) true 1 false = .ok l ∧
    (run s (fun _ => 0) l (zeros (qubitsOf 7 true 1)) = run s (fun _ => 0) (prepInstrs spSteane.circ) (zeros (qubitsOf 7 true 1))) ∧
    (∀ k q, k ≤ 8 → Dangerous spSteane.hx 1 (faultEffect true spSteane.circ.cnots k q) →
        dot ![0,1,0,0,1,0,1] (faultEffect true spSteane.circ.cnots k q) = 1) := by
  have hS : PreparesZero spSteane.circ.hadamards spSteane.circ.cnots spSteane.hx :=
    (C28_heuristic (someRref 7) (someRref_ok 7) _ true 30 _).1 (circ_of_pair prep_steane)
  have hv : verifiedPrep spSteane.circ (fun _ _ => [[![0,1,0,0,1,0,1]]]) true 1 false =
      .ok (prepInstrs spSteane.circ ++ firstRound true [![0,1,0,0,1,0,1]]) := by
    rw [verifiedPrep, verificationCircuit_first]; rfl
  have hms : ∀ m ∈ [[(![0,1,0,0,1,0,1] : Vec 7)]].flatten, ∀ r ∈ spSteane.hx, dot r m = 0 := by decide +kernel
  refine ⟨_, hv, ?_, ?_⟩
  · have := C102_fault_free s hs true spSteane.circ spSteane.hx (by decide) (by decide) hS _ 1 _ hms hv (fun _ => 0)
    rw [bitsOf_verified, if_pos (fun _ _ => rfl)] at this
    exact this
  · have := (C102_tolerates_iff s hs true spSteane.circ spSteane.hx (by decide) (by decide) hS _ 1 _ hms hv 1 le_rfl).1 (by
      rw [bitsOf_verified]
      have := C102_heuristic_partial s hs id (fun _ => List.Perm.refl _) bruteLeader bruteLeader_spec true 10 20 spSteane
        (by decide) (by decide) hS (by decide +kernel) (by decide) (by decide) (by decide)
        (earlyCovered_of _ (by decide +kernel)) [] [] _ (okOf_some run_steane)
      rw [bitsOf_verified] at this
      exact this)
    intro k q hk hd
    obtain ⟨m, hm, h⟩ := this k q hk hd
    simp only [List.flatten_cons, List.flatten_nil, List.append_nil, List.mem_singleton] at hm
    rw [← hm]; exact h

/-- The claim for the circuits of `heuristic_prep_circuit` and `heuristic_verification_circuit` without further conditions. -/
def C102_claim (s : R) : Prop :=
  ∀ (n : ℕ) (rref : List (Vec n) → List (Vec n)) (optimizeDepth : Bool) (fuel : ℕ) (sp : StatePrep n)
    (ord : List CSet → List CSet) (leader : Vec n → List (Vec n) → Vec n) (findLeaders : Bool) (limit fuel' : ℕ)
    (l : List (Instr VQ VC)),
    RrefOk rref → OrdOk ord → (∀ e gens, CosetLeader e gens (leader e gens)) →
    (∀ a ∈ sp.checks sp.zeroState, ∀ b ∈ sp.checks (!sp.zeroState), dot a b = 0) →
    1 ≤ sp.maxErrors → sp.dist ≤ (if sp.zeroState then sp.xDist else sp.zDist) →
    heuristicPrep rref (if sp.zeroState then sp.hx else sp.hz) optimizeDepth sp.zeroState fuel = some sp.circ →
    heuristicVerification ord leader findLeaders limit fuel' sp false (cachesAfter sp leader [] []) = .ok l →
    ToleratesOneFault s sp.zeroState (fun i : Fin n => VQ.data i)
      (weightBound sp.dist (if sp.zeroState then sp.xDist else sp.zDist : ℕ) 1) l (qubitsOf n sp.zeroState (bitsOf l).length)

/-- **C102 is violated** on the Shor code of the repository: the circuit of `heuristic_prep_circuit` contains CX(3,4) and
CX(4,5), an X fault on qubit 4 between them becomes X₄X₅, the set of single faults has no equivalent of it, and the only
verification measurement of `heuristic_verification_circuit`, Z₀Z₃Z₆, commutes with it: the run is accepted with two X errors. -/
theorem C102_violated (s : R) (hs : 2 * s * s = 1) [Nontrivial R] : ¬ C102_claim s := by
  intro hclaim
  have hp := circ_of_pair prep_shor
  have hft := hclaim 9 (someRref 9) true 60 spShor id bruteLeader true 1000 100 _ (someRref_ok 9) (fun _ => List.Perm.refl _)
    bruteLeader_spec (by decide +kernel) (by decide) (by decide) hp (okOf_some run_shor)
  have hS : PreparesZero spShor.circ.hadamards spShor.circ.cnots spShor.hx :=
    (C28_heuristic (someRref 9) (someRref_ok 9) _ true 60 _).1 hp
  rw [bitsOf_verified] at hft
  refine verified_not_tolerates true spShor.circ spShor.hx [![1,0,0,1,0,0,1,0,0]] (by decide) (by decide) hS (by decide +kernel)
    s hs 1 le_rfl 4 4 (by decide) (dangerous_of (by decide +kernel)) (by decide +kernel) ?_
  exact hft

/-- The Shor circuit does not satisfy the condition of C63. -/
theorem C63_violated_shor : ¬ EarlyCovered (spShor.side bruteLeader true) := by
  intro h
  obtain ⟨i, g, hg, he⟩ := h 4 (dangerous_of (by decide +kernel))
  have hi : i < spShor.circ.cnots.length := by
    have := List.getElem?_eq_some_iff.1 hg
    exact this.1
  have hall : ∀ i ∈ List.range spShor.circ.cnots.length, ∀ g ∈ spShor.circ.cnots[i]?,
      inSpan spShor.hx (faultEffect true spShor.circ.cnots 0 4 + faultEffect true spShor.circ.cnots (i + 1) g.1) = false := by
    decide +kernel
  have h1 := hall i (List.mem_range.2 hi) g hg
  have h2 := inSpan_iff.2 he
  have e : inSpan (spShor.side bruteLeader true).stabs (faultEffect (spShor.side bruteLeader true).xErrors
      (spShor.side bruteLeader true).cnots 0 4 + faultEffect (spShor.side bruteLeader true).xErrors
      (spShor.side bruteLeader true).cnots (i + 1)
      (if (spShor.side bruteLeader true).xErrors then g.1 else g.2)) =
    inSpan spShor.hx (faultEffect true spShor.circ.cnots 0 4 + faultEffect true spShor.circ.cnots (i + 1) g.1) := rfl
  rw [e, h1] at h2
  cases h2

end Verif.SP
