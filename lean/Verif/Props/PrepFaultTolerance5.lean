import Verif.Props.PrepFaultTolerance4
import Verif.Props.PrepFaultTolerance3

/-!
# C104 on concrete codes
-/

set_option maxRecDepth 100000

namespace Verif.SP
open Verif Verif.Spec
variable {R : Type} [CommRing R]

theorem run_steane_full : okOf (heuristicVerification id bruteLeader true 10 20 spSteane true (cachesAfter spSteane bruteLeader [] [])) =
    some (prepInstrs spSteane.circ ++ (bothRounds true 1 [![0,1,0,0,1,0,1]] [] ++ againZ true 0)) := by decide +kernel

theorem dual_steane : ∀ v, v ∈ rowSpan (spSteane.checks false) ↔ ∀ r ∈ spSteane.checks true, dot r v = 0 := by
  have : ∀ v : Vec 7, inSpan (spSteane.checks false) v = true ↔ ∀ r ∈ spSteane.checks true, dot r v = 0 := by decide +kernel
  intro v
  rw [← this v, inSpan_iff]

/-- The CNOTs of the first round are instructions of the circuit. -/
theorem first_cx_mem {n : ℕ} {c : PrepCircuit n} {m1 m2 : List (Vec n)} {z : Bool} {t : ℕ} {l : List (Instr VQ VC)}
    (h : verifiedPrep c (fun _ a => match a with | none => [m1] | some _ => [m2]) z t true = .ok l)
    (m : Vec n) (hm : m ∈ m1) : ∃ i, ∀ q, m q = 1 → ancCx z (ranc z i) (.data q) ∈ l := by
  unfold verifiedPrep verificationCircuit at h
  simp only [List.flatten_cons, List.flatten_nil, List.append_nil, if_true] at h
  cases hv : (if z then measureFtStabs z t true m2 m1 else measureFtStabs z t true m1 m2) with
  | error e => rw [hv] at h; cases h
  | ok l' =>
    rw [hv] at h
    cases h
    obtain ⟨rfl, -⟩ := measureFtStabs_shape z t _ m2 l' hv
    obtain ⟨i, hi, rfl⟩ := List.getElem_of_mem hm
    obtain ⟨p, hp, hpi, hpm⟩ := exists_zipIdx hi
    refine ⟨i, fun q hq => ?_⟩
    rw [bothRounds]
    refine List.mem_append_right _ (List.mem_append_left _ (List.mem_append_left _ ?_))
    have hsq : VQ.data q ∈ supp p.1 := by
      rw [hpm]
      exact List.mem_map.2 ⟨q, by simp [hq], rfl⟩
    cases z
    · rw [← firstGads_x, gadsInstrs, firstGads, List.flatMap_map]
      refine List.mem_flatMap.2 ⟨p, hp, ?_⟩
      rw [← hpi]
      simp only [mkGad, Gad.instrs, gadget]
      simp only [List.mem_append, List.mem_flatMap]
      refine .inl (.inl (.inr ⟨.data (.data q), List.mem_map.2 ⟨_, hsq, rfl⟩, ?_⟩))
      simp [emit, ancillaCnot, ancCx]
    · rw [firstRound_z]
      refine List.mem_append_left _ (List.mem_flatten.2 ⟨_, List.mem_map.2 ⟨p, hp, rfl⟩, List.mem_map.2 ⟨_, hsq, ?_⟩⟩)
      rw [← hpi]; rfl

/-- The hypotheses of `C104_heuristic_partial` are met by the Steane code with the circuit of `heuristic_prep_circuit`. -/
theorem steane_full (s : R) (hs : 2 * s * s = 1) [Nontrivial R] : ToleratesOneFaultBoth s (fun i : Fin 7 => VQ.data i) 1 1
    (prepInstrs spSteane.circ ++ (bothRounds true 1 [![0,1,0,0,1,0,1]] [] ++ againZ true 0))
    (usedQubits (fun i : Fin 7 => VQ.data i)
      (prepInstrs spSteane.circ ++ (bothRounds true 1 [![0,1,0,0,1,0,1]] ([] : List (Vec 7)) ++ againZ true 0))) := by
  have hS : PreparesZero spSteane.circ.hadamards spSteane.circ.cnots spSteane.hx :=
    (C28_heuristic (someRref 7) (someRref_ok 7) _ true 30 _).1 (circ_of_pair prep_steane)
  have hone : ∀ v ∈ rowSpan (spSteane.checks spSteane.zeroState), wt v ≠ 1 := by
    have : ∀ v ∈ allCombos (spSteane.checks spSteane.zeroState), wt v ≠ 1 := by decide +kernel
    exact fun v hv => this v ((mem_allCombos _ _).2 hv)
  obtain ⟨m1, m2, hv, -, -, -, h4⟩ := C104_heuristic_partial s hs id (fun _ => List.Perm.refl _) bruteLeader bruteLeader_spec true 10 20
    spSteane (by decide) (by decide) hS dual_steane (by decide) (by decide) (by decide) hone (by decide)
    (fun x => by cases x; exacts [earlyCovered_of _ (by decide +kernel), earlyCovered_of _ (by decide +kernel)]) [] [] _
    (okOf_some run_steane_full)
  refine h4 fun m hm => ?_
  obtain ⟨i, hi⟩ := first_cx_mem hv m hm
  have hl : ∀ j ∈ prepInstrs spSteane.circ ++ (bothRounds true 1 [![0,1,0,0,1,0,1]] ([] : List (Vec 7)) ++ againZ true 0),
      ∀ q : Fin 7, ∀ i, j = ancCx true (ranc true i) (.data q) → q ∈ ({1, 4, 6} : Finset (Fin 7)) := by
    intro j hj q i hji
    subst hji
    have : ∀ j ∈ prepInstrs spSteane.circ ++ (bothRounds true 1 [![0,1,0,0,1,0,1]] ([] : List (Vec 7)) ++ againZ true 0),
        (match j with | .cx (.data q) (.zanc _) => decide (q = 1 ∨ q = 4 ∨ q = 6) | _ => true) = true := by
      decide +kernel
    have h1 := this _ hj
    simp only [ancCx, ranc, if_true, decide_eq_true_eq] at h1
    simp only [Finset.mem_insert, Finset.mem_singleton, Fin.ext_iff]
    exact h1
  have hsub : (Finset.univ.filter fun q => m q ≠ 0) ⊆ ({1, 4, 6} : Finset (Fin 7)) := by
    intro q hq
    have hq0 : m q ≠ 0 := by simpa using hq
    have h1 : m q = 1 := by
      rcases zmod2_cases (m q) with h | h
      · exact absurd h hq0
      · exact h
    exact hl _ (hi q h1) q i rfl
  have := Finset.card_le_card hsub
  unfold wt
  exact this.trans (by decide)

example (s : R) (hs : 2 * s * s = 1) [Nontrivial R] : ∃ l,
    heuristicVerification id bruteLeader true 10 20 spSteane true (cachesAfter spSteane bruteLeader [] []) = .ok l ∧
    ToleratesOneFaultBoth s (fun i : Fin 7 => VQ.data i) 1 1 l (usedQubits (fun i : Fin 7 => VQ.data i) l) :=
  ⟨_, okOf_some run_steane_full, steane_full s hs⟩

/-- The solver of the Steane example: it answers the question for X errors and nothing else. -/
def runSteane' (x : Bool) (k : ℕ) (faults : List (Vec 7)) (i c t : ℕ) : Outcome (List (Vec 7)) :=
  if x then runSteane x k faults i c t else .timeout

theorem run_steane_full_optimal : okOf (optimalVerification runSteane' (fun _ _ _ _ _ _ => .timeout) (fun _ _ _ _ _ _ => .timeout) 1 1 20
    bruteLeader spSteane true (cachesAfter spSteane bruteLeader [] [])) =
    some (prepInstrs spSteane.circ ++ (bothRounds true 1 [![0,1,0,0,1,0,1]] [] ++ againZ true 0)) := by decide +kernel

/-- The hypotheses of `C104_optimal_partial` are met by the same circuit. -/
example (s : R) (hs : 2 * s * s = 1) [Nontrivial R] : ∃ m1 m2 : List (Vec 7),
    verifiedPrep spSteane.circ (fun _ a => match a with | none => [m1] | some _ => [m2]) true 1 true =
      .ok (prepInstrs spSteane.circ ++ (bothRounds true 1 [![0,1,0,0,1,0,1]] [] ++ againZ true 0)) ∧
    (∀ m ∈ m1, m ∈ rowSpan (spSteane.checks false)) := by
  have hS : PreparesZero spSteane.circ.hadamards spSteane.circ.cnots spSteane.hx :=
    (C28_heuristic (someRref 7) (someRref_ok 7) _ true 30 _).1 (circ_of_pair prep_steane)
  have hone : ∀ v ∈ rowSpan (spSteane.checks spSteane.zeroState), wt v ≠ 1 := by
    have : ∀ v ∈ allCombos (spSteane.checks spSteane.zeroState), wt v ≠ 1 := by decide +kernel
    exact fun v hv => this v ((mem_allCombos _ _).2 hv)
  obtain ⟨m1, m2, hv, h1, -⟩ := C104_optimal_partial s hs runSteane' (fun _ _ _ _ _ _ => .timeout) (fun _ _ _ _ _ _ => .timeout) 1 1 20
    bruteLeader bruteLeader_spec spSteane 1 (by
      intro x k faults i c t
      cases x
      · exact .inl rfl
      · exact runSteane_ok k faults i c t) (fun _ _ _ _ _ _ => .inl rfl) (fun _ _ _ _ _ _ => .inl rfl)
    (by decide) (by decide) hS dual_steane (by decide) (by decide) (by decide) hone (by decide)
    (fun x => by cases x; exacts [earlyCovered_of _ (by decide +kernel), earlyCovered_of _ (by decide +kernel)]) [] [] _
    (okOf_some run_steane_full_optimal)
  exact ⟨m1, m2, hv, h1⟩

/-- The measurements of the next example: Z₁Z₄Z₆ and, with a flag, X₃X₄X₅X₆. -/
def steaneStabs (_ : Bool) (a : Option (List (Vec 7))) : List (List (Vec 7)) :=
  match a with | none => [[![0,1,0,0,1,0,1]]] | some _ => [[![0,0,0,1,1,1,1]]]

theorem steane_both : okOf (verifiedPrep spSteane.circ steaneStabs true 1 true) =
    some (prepInstrs spSteane.circ ++ (bothRounds true 1 [![0,1,0,0,1,0,1]] [![0,0,0,1,1,1,1]] ++ againZ true 1)) := by decide +kernel

/-- The hypotheses of `C104_fault_free` and `C104_tolerates_iff` are met by the Steane code with a flagged measurement in the
second round. -/
example (s : R) (hs : 2 * s * s = 1) [Nontrivial R] : ∃ l, verifiedPrep spSteane.circ steaneStabs true 1 true = .ok l ∧
    run s (fun _ => 0) l (zeros (usedQubits (fun i : Fin 7 => VQ.data i) l)) =
      run s (fun _ => 0) (prepInstrs spSteane.circ) (zeros (usedQubits (fun i : Fin 7 => VQ.data i) l)) ∧
    ToleratesOneFaultBoth s (fun i : Fin 7 => VQ.data i) 1 1 l (usedQubits (fun i : Fin 7 => VQ.data i) l) := by
  have hS : PreparesZero spSteane.circ.hadamards spSteane.circ.cnots spSteane.hx :=
    (C28_heuristic (someRref 7) (someRref_ok 7) _ true 30 _).1 (circ_of_pair prep_steane)
  have h1 : ∀ m ∈ [(![0,1,0,0,1,0,1] : Vec 7)], m ∈ rowSpan (spSteane.checks false) := by
    have : ∀ m ∈ [(![0,1,0,0,1,0,1] : Vec 7)], inSpan (spSteane.checks false) m = true := by decide +kernel
    exact fun m hm => inSpan_iff.1 (this m hm)
  have h2 : ∀ m ∈ [(![0,0,0,1,1,1,1] : Vec 7)], m ∈ rowSpan spSteane.hx := by
    intro m hm
    rw [List.mem_singleton] at hm
    rw [hm]
    exact mem_rowSpan_of_mem (by simp [spSteane])
  refine ⟨_, okOf_some steane_both, ?_, ?_⟩
  · have := C104_fault_free s hs true spSteane.circ spSteane.hx (by decide) (by decide) hS steaneStabs 1 _ _ _ rfl rfl
      (fun m hm => (dual_steane m).1 (h1 m hm)) h2 (fun _ => by decide) (okOf_some steane_both) (fun _ => 0)
    rwa [if_pos (fun _ _ => rfl)] at this
  · refine (C104_tolerates_iff s hs true spSteane.circ spSteane.hx (spSteane.checks false) (by decide) (by decide) hS dual_steane
      steaneStabs 1 le_rfl _ _ _ rfl rfl h1 h2 (fun _ => by decide) (okOf_some steane_both) 1 1 le_rfl le_rfl).2 ⟨?_, ?_, ?_⟩
    · have hall : ∀ k ∈ List.range 9, ∀ q : Fin 7, dot ![0,1,0,0,1,0,1] (faultEffect true spSteane.circ.cnots k q) = 1 ∨
          ∃ v ∈ allCombos spSteane.hx, (wt (faultEffect true spSteane.circ.cnots k q + v) : ℤ) ≤ 1 := by decide +kernel
      intro k q hk hd
      rcases hall k (List.mem_range.2 (Nat.lt_succ_of_le hk)) q with h | h
      · exact ⟨_, List.mem_singleton.2 rfl, h⟩
      · exact absurd hd (not_dangerous h)
    · have hall : ∀ k ∈ List.range 9, ∀ q : Fin 7,
          ∃ v ∈ allCombos (spSteane.checks false), (wt (faultEffect false spSteane.circ.cnots k q + v) : ℤ) ≤ 1 := by decide +kernel
      intro k q hk hd
      exact absurd hd (not_dangerous (hall k (List.mem_range.2 (Nat.lt_succ_of_le hk)) q))
    · intro m hm e he hd
      exact absurd hd (hook_light le_rfl (h1 m hm) (by rw [List.mem_singleton.1 hm]; decide) he)

end Verif.SP
