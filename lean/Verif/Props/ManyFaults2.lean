import Verif.Props.ManyFaults
import Verif.Props.PrepFaultTolerance3

/-!
# C112: tolerance of several faults in verified state preparation (results)
-/

namespace Verif.SP
open Verif Verif.Spec
variable {n : ℕ} {R : Type} [CommRing R]

/-- **C112, for any layers of measurements**: if, for every `j`, the `j`-th layer (numbered from 1) detects every sum of at
most `j` effects of single faults of the preparation that is not equivalent to an error of weight at most `w j`, the verified
circuit tolerates as many faults as there are layers, wherever they happen: in the preparation, on the data during the
verification, in the verification gates or in the measurements. -/
theorem C112_layered (s : R) (hs : 2 * s * s = 1) (z : Bool) (c : PrepCircuit n) (S : List (Vec n))
    (hnd : c.hadamards.Nodup) (hne : ∀ g ∈ c.cnots, g.1 ≠ g.2)
    (hS : if z then PreparesZero c.hadamards c.cnots S else PreparesPlus c.hadamards c.cnots S)
    (stabsFun : Bool → Option (List (Vec n)) → List (List (Vec n))) (t : ℕ) (l : List (Instr VQ VC))
    (hms : ∀ m ∈ (stabsFun z none).flatten, ∀ r ∈ S, dot r m = 0)
    (h : verifiedPrep c stabsFun z t false = .ok l) (w : ℕ → ℤ) (hw : ∀ i r : ℕ, w i + r ≤ w (i + r)) (hw0 : 0 ≤ w 0)
    (hlay : ∀ (j k : ℕ) (L : List (Vec n)) (v : Vec n), (stabsFun z none)[j]? = some L → k ≤ j + 1 →
      SumOf (fun u => ∃ i q, i ≤ c.cnots.length ∧ u = faultEffect z c.cnots i q) k v → Dangerous S (w (j + 1)) v →
      ∃ m ∈ L, dot m v = 1) :
    ToleratesFaults s z (fun i : Fin n => VQ.data i) (stabsFun z none).length w l (qubitsOf n z (bitsOf l).length) := by
  rw [verifiedPrep, verificationCircuit_first] at h
  cases h
  rw [bitsOf_verified, qubitsOf_eq]
  refine layered_tolerates z c S _ hnd hne hS hms s hs w hw hw0 fun j hj k v hk hv hund => ?_
  by_contra hcon
  push Not at hcon
  -- drop the trivial effects
  have hdrop : ∃ k' ≤ k, SumOf (fun u => ∃ i q, i ≤ c.cnots.length ∧ u = faultEffect z c.cnots i q) k' v := by
    obtain ⟨us, rfl, hus, rfl⟩ := hv
    clear hk hund hcon
    induction us with
    | nil => exact ⟨0, le_rfl, [], rfl, by simp, rfl⟩
    | cons u us ih =>
      obtain ⟨k', hk', vs, hvs, hall, hsum⟩ := ih fun x hx => hus x (by simp [hx])
      rcases hus u (by simp) with rfl | hu
      · exact ⟨k', by rw [List.length_cons]; omega, vs, hvs, hall, by rw [hsum]; simp⟩
      · refine ⟨k' + 1, by rw [List.length_cons]; omega, u :: vs, by simp [hvs], ?_, by simp [hsum]⟩
        intro x hx
        rcases List.mem_cons.1 hx with rfl | hx
        · exact hu
        · exact hall x hx
  obtain ⟨k', hk', hv'⟩ := hdrop
  obtain ⟨m, hm, h1⟩ := hlay j k' _ v (List.getElem?_eq_getElem hj) (by omega) hv' fun f hf => hcon f hf
  rw [hund m hm] at h1
  exact absurd h1 (by decide)

/-- When the bound for one fault is 1, the condition on early errors is that of C63. -/
theorem earlyEnumerated_of_covered (sd : Side n) (hw : weightBound sd.d sd.dError 1 = 1) (h : EarlyCovered sd) : EarlyEnumerated sd := by
  intro q
  by_cases hd : Dangerous sd.stabs (weightBound sd.d sd.dError 1) (faultEffect sd.xErrors sd.cnots 0 q)
  · obtain ⟨i, g, hg, he⟩ := h q hd
    exact .inr ⟨_, .inl ⟨i, g, hg, rfl⟩, he⟩
  · rw [Dangerous] at hd
    push Not at hd
    obtain ⟨f, hf, hwf⟩ := hd
    rw [hw] at hwf
    have hwf' : wt f ≤ 1 := by exact_mod_cast hwf
    unfold wt at hwf'
    haveI : Nonempty (Fin n) := ⟨q⟩
    rw [Finset.card_le_one_iff_subset_singleton] at hwf'
    by_cases hn : ∃ i, f i ≠ 0
    · obtain ⟨i, hi⟩ := hn
      obtain ⟨a, ha⟩ := hwf'
      have hfa : f = Pi.single i 1 := by
        have hia : i ∈ ({a} : Finset (Fin n)) := ha (by simpa using hi)
        rw [Finset.mem_singleton] at hia
        subst hia
        funext b
        by_cases hb : b = i
        · subst hb
          rcases zmod2_cases (f b) with h | h
          · exact absurd h hi
          · simp [h]
        · have : f b = 0 := by
            by_contra hfb
            have := ha (by simpa using hfb : b ∈ Finset.univ.filter fun i => f i ≠ 0)
            exact hb (Finset.mem_singleton.1 this)
          simp [this, Pi.single_apply, hb]
      exact .inr ⟨f, .inr ⟨i, hfa⟩, hf⟩
    · push Not at hn
      have : f = 0 := funext hn
      subst this
      exact .inl (equiv_zero.1 hf)

/-- **C112 (partial)**: the circuit returned by `heuristic_verification_circuit(sp, full_fault_tolerance=False)`, after any
history of fault-set computations, tolerates every number `f ≤ max_errors` of faults, wherever they happen.  Missing:
preparation circuits in which an error present before the first gate is not equivalent to an enumerated fault (`hearly`), for
which the claim can be false (`C112_violated`), and the second round of measurements. -/
theorem C112_heuristic_partial (s : R) (hs : 2 * s * s = 1) (ord : List CSet → List CSet) (ho : OrdOk ord)
    (leader : Vec n → List (Vec n) → Vec n) (hlead : ∀ e gens, CosetLeader e gens (leader e gens)) (findLeaders : Bool)
    (limit fuel : ℕ) (sp : StatePrep n)
    (hnd : sp.circ.hadamards.Nodup) (hne : ∀ g ∈ sp.circ.cnots, g.1 ≠ g.2)
    (hS : if sp.zeroState then PreparesZero sp.circ.hadamards sp.circ.cnots sp.hx
      else PreparesPlus sp.circ.hadamards sp.circ.cnots sp.hz)
    (hcss : ∀ a ∈ sp.checks sp.zeroState, ∀ b ∈ sp.checks (!sp.zeroState), dot a b = 0)
    (hd : sp.dist ≤ if sp.zeroState then sp.xDist else sp.zDist)
    (hfl : removeFrontLayer sp.circ.hadamards sp.circ.cnots = sp.circ.cnots)
    (hearly : EarlyEnumerated (sp.side leader sp.zeroState))
    (hx hz : List (Bool × ℕ)) (l : List (Instr VQ VC))
    (h : heuristicVerification ord leader findLeaders limit fuel sp false (cachesAfter sp leader hx hz) = .ok l) :
    ToleratesFaults s sp.zeroState (fun i : Fin n => VQ.data i) sp.maxErrors
      (weightBound sp.dist (if sp.zeroState then sp.xDist else sp.zDist : ℕ)) l (qubitsOf n sp.zeroState (bitsOf l).length) :=
  verifyCircuit_tolerates_many s hs _ sp leader hlead (heuristicLayerFn_sound ord ho leader hlead findLeaders limit fuel _)
    hnd hne hS hcss hd hfl hearly hx hz l (.inl fun k f => by
      unfold heuristicLayerFn
      cases heuristicLayer ord leader f (sp.checks (!sp.zeroState)) findLeaders limit fuel <;> simp) h

/-- **C112 (partial)**: the same for `gate_optimal_verification_circuit`, whatever the solver answers within its time limits,
when the returned circuit contains measurements (a search that fails returns a circuit without any). -/
theorem C112_optimal_partial (s : R) (hs : 2 * s * s = 1)
    (run1 run2 run3 : Bool → ℕ → List (Vec n) → ℕ → ℕ → ℕ → Outcome (List (Vec n))) (minT maxT fuel : ℕ)
    (leader : Vec n → List (Vec n) → Vec n) (hlead : ∀ e gens, CosetLeader e gens (leader e gens)) (sp : StatePrep n) (numAnc : ℕ)
    (h1 : ∀ k faults i c t, VerifOutcome (sp.checks (!sp.zeroState)) faults numAnc c (run1 sp.zeroState k faults i c t))
    (h2 : ∀ k faults j c anc, VerifOutcome (sp.checks (!sp.zeroState)) faults anc c (run2 sp.zeroState k faults j c anc))
    (h3 : ∀ k faults j anc c, VerifOutcome (sp.checks (!sp.zeroState)) faults anc c (run3 sp.zeroState k faults j anc c))
    (hnd : sp.circ.hadamards.Nodup) (hne : ∀ g ∈ sp.circ.cnots, g.1 ≠ g.2)
    (hS : if sp.zeroState then PreparesZero sp.circ.hadamards sp.circ.cnots sp.hx
      else PreparesPlus sp.circ.hadamards sp.circ.cnots sp.hz)
    (hcss : ∀ a ∈ sp.checks sp.zeroState, ∀ b ∈ sp.checks (!sp.zeroState), dot a b = 0)
    (hd : sp.dist ≤ if sp.zeroState then sp.xDist else sp.zDist)
    (hfl : removeFrontLayer sp.circ.hadamards sp.circ.cnots = sp.circ.cnots)
    (hearly : EarlyEnumerated (sp.side leader sp.zeroState))
    (hx hz : List (Bool × ℕ)) (l : List (Instr VQ VC)) (hfound : bitsOf l ≠ [])
    (h : optimalVerification run1 run2 run3 minT maxT fuel leader sp false (cachesAfter sp leader hx hz) = .ok l) :
    ToleratesFaults s sp.zeroState (fun i : Fin n => VQ.data i) sp.maxErrors
      (weightBound sp.dist (if sp.zeroState then sp.xDist else sp.zDist : ℕ)) l (qubitsOf n sp.zeroState (bitsOf l).length) := by
  refine verifyCircuit_tolerates_many s hs _ sp leader hlead ?_ hnd hne hS hcss hd hfl hearly hx hz l (.inr hfound) h
  intro k faults ms _ hr
  unfold optimalLayerFn at hr
  cases hl : optimalLayer (run1 sp.zeroState k faults) (run2 sp.zeroState k faults) (run3 sp.zeroState k faults) faults
      (sp.checks (!sp.zeroState)) minT maxT fuel with
  | none => rw [hl] at hr; cases hr
  | some res =>
    rw [hl] at hr
    cases res with
    | ok ms =>
      cases hr
      obtain ⟨ha, hb, -⟩ := C68_layer_sound faults _ numAnc _ _ _ (h1 k faults) (h2 k faults) (h3 k faults) minT maxT fuel ms hl
      exact ⟨ha, hb⟩
    | notFound => cases hr
    | crash => cases hr

/-! ### A preparation circuit with three tolerated faults -/

/-- The circuit of `heuristic_prep_circuit(optimize_depth=False)` for the state |0…0⟩ + |1…1⟩ of seven qubits, as a code without
logical qubits and with declared distance 7. -/
def spGhz : StatePrep 7 where
  circ := ⟨[0], [(0, 6), (0, 5), (0, 4), (0, 3), (0, 2), (0, 1)]⟩
  hx := [![1,1,1,1,1,1,1]]
  hz := [![1,1,0,0,0,0,0], ![0,1,1,0,0,0,0], ![0,0,1,1,0,0,0], ![0,0,0,1,1,0,0], ![0,0,0,0,1,1,0], ![0,0,0,0,0,1,1]]
  lx := []
  lz := []
  dist := 7
  xDist := 7
  zDist := 7
  zeroState := true
  errorDetection := false

theorem prep_ghz : (heuristicPrep (someRref 7) spGhz.hx false true 30).map (fun c => (c.hadamards, c.cnots)) =
    some (spGhz.circ.hadamards, spGhz.circ.cnots) := by decide +kernel

theorem run_ghz : okOf (heuristicVerification id bruteLeader true 100 100 spGhz false (cachesAfter spGhz bruteLeader [] [])) =
    some (prepInstrs spGhz.circ ++ firstRound true [![0,1,0,0,0,1,0], ![0,1,0,1,0,0,0], ![0,0,0,1,0,1,0]]) := by decide +kernel

theorem early_ghz : EarlyEnumerated (spGhz.side bruteLeader true) :=
  earlyEnumerated_of_covered _ (by decide) (earlyCovered_of _ (by decide +kernel))

/-- The hypotheses of `C112_heuristic_partial` are met by this circuit: the search adds one measurement for one fault and two
for two, and the result tolerates three faults. -/
example (s : R) (hs : 2 * s * s = 1) : ∃ l,
    heuristicVerification id bruteLeader true 100 100 spGhz false (cachesAfter spGhz bruteLeader [] []) = .ok l ∧
    ToleratesFaults s true (fun i : Fin 7 => VQ.data i) 3 (weightBound 7 7) l (qubitsOf 7 true 3) := by
  refine ⟨_, okOf_some run_ghz, ?_⟩
  have hS : PreparesZero spGhz.circ.hadamards spGhz.circ.cnots spGhz.hx :=
    (C28_heuristic (someRref 7) (someRref_ok 7) _ false 30 _).1 (circ_of_pair prep_ghz)
  have := C112_heuristic_partial s hs id (fun _ => List.Perm.refl _) bruteLeader bruteLeader_spec true 100 100 spGhz
    (by decide) (by decide) hS (by decide +kernel) (by decide) (by decide) early_ghz [] [] _ (okOf_some run_ghz)
  rw [bitsOf_verified] at this
  exact this

/-- The hypotheses of `C112_optimal_partial` are met by the Steane code. -/
example (s : R) (hs : 2 * s * s = 1) : ToleratesFaults s true (fun i : Fin 7 => VQ.data i) 1 (weightBound 3 3)
    (prepInstrs spSteane.circ ++ firstRound true [![0,1,0,0,1,0,1]]) (qubitsOf 7 true 1) := by
  have hS : PreparesZero spSteane.circ.hadamards spSteane.circ.cnots spSteane.hx :=
    (C28_heuristic (someRref 7) (someRref_ok 7) _ true 30 _).1 (circ_of_pair prep_steane)
  have := C112_optimal_partial s hs runSteane (fun _ _ _ _ _ _ => .timeout) (fun _ _ _ _ _ _ => .timeout) 1 1 20
    bruteLeader bruteLeader_spec spSteane 1 runSteane_ok (fun _ _ _ _ _ => .inl rfl) (fun _ _ _ _ _ => .inl rfl)
    (by decide) (by decide) hS (by decide +kernel) (by decide) (by decide)
    (earlyEnumerated_of_covered _ (by decide) (earlyCovered_of _ (by decide +kernel))) [] [] _
    (by rw [bits_verified]; simp) (okOf_some run_steane_optimal)
  rw [bitsOf_verified] at this
  exact this

/-- The preparation of |00000⟩ + |11111⟩ by `heuristic_prep_circuit(optimize_depth=False)`. -/
def ghz5 : PrepCircuit 5 := ⟨[0], [(0, 4), (0, 3), (0, 2), (0, 1)]⟩

theorem prep_ghz5 : (heuristicPrep (someRref 5) [![1,1,1,1,1]] false true 30).map (fun c => (c.hadamards, c.cnots)) =
    some (ghz5.hadamards, ghz5.cnots) := by decide +kernel

/-- The hypotheses of `C112_layered` are met: one measurement in the first layer and none in the second make two faults
tolerable. -/
example (s : R) (hs : 2 * s * s = 1) : ∃ l, verifiedPrep ghz5 (fun _ _ => [[![0,1,0,1,0]], []]) true 2 false = .ok l ∧
    ToleratesFaults s true (fun i : Fin 5 => VQ.data i) 2 (fun k => k) l (qubitsOf 5 true 1) := by
  have hS : PreparesZero ghz5.hadamards ghz5.cnots [![1,1,1,1,1]] :=
    (C28_heuristic (someRref 5) (someRref_ok 5) _ false 30 _).1 (circ_of_pair prep_ghz5)
  have hv : verifiedPrep ghz5 (fun _ _ => [[![0,1,0,1,0]], []]) true 2 false =
      .ok (prepInstrs ghz5 ++ firstRound true [![0,1,0,1,0]]) := by
    rw [verifiedPrep, verificationCircuit_first]; rfl
  refine ⟨_, hv, ?_⟩
  have h2 : ∀ v : Vec 5, ¬ Dangerous [![1,1,1,1,1]] 2 v := by
    intro v
    apply not_dangerous
    revert v
    decide +kernel
  have := C112_layered s hs true ghz5 [![1,1,1,1,1]] (by decide) (by decide) hS (fun _ _ => [[![0,1,0,1,0]], []]) 2 _
    (by decide +kernel) hv (fun k => k) (fun i r => by push_cast; rfl) (by simp) (by
      intro j k L v hL hk hv hd
      match j, hL, hk, hd with
      | 0, hL, hk, hd =>
        simp only [List.getElem?_cons_zero, Option.some.injEq] at hL
        subst hL
        obtain ⟨us, rfl, hus, rfl⟩ := hv
        match us, hk, hus, hd with
        | [], _, _, hd =>
          exact absurd (hd 0 (by simpa using Equivalent.refl _ _)) (by simp [wt])
        | [u], _, hus, hd =>
          obtain ⟨i, q, hi, rfl⟩ := hus u (by simp)
          rw [List.sum_singleton] at hd ⊢
          have hdec : ∀ i ∈ List.range 5, ∀ q : Fin 5,
              (∃ v ∈ allCombos [![1,1,1,1,1]], (wt (faultEffect true ghz5.cnots i q + v) : ℤ) ≤ 1) ∨
              dot ![0,1,0,1,0] (faultEffect true ghz5.cnots i q) = 1 := by decide +kernel
          rcases hdec i (by rw [List.mem_range]; exact Nat.lt_succ_of_le hi) q with h | h
          · exact absurd hd (by simpa using not_dangerous h)
          · exact ⟨_, by simp, h⟩
        | _ :: _ :: _, hk, _, _ => simp at hk
      | 1, hL, hk, hd => exact absurd hd (by simpa using h2 v)
      | j + 2, hL, _, _ => simp at hL)
  rw [bitsOf_verified] at this
  exact this

/-! ### The full claim -/

/-- C112 without conditions on the preparation circuit: it comes from `heuristic_prep_circuit`. -/
def C112_claim (s : R) : Prop :=
  ∀ (n : ℕ) (rref : List (Vec n) → List (Vec n)) (optimizeDepth : Bool) (fuel : ℕ) (sp : StatePrep n)
    (ord : List CSet → List CSet) (leader : Vec n → List (Vec n) → Vec n) (findLeaders : Bool) (limit fuel' : ℕ)
    (l : List (Instr VQ VC)),
    RrefOk rref → OrdOk ord → (∀ e gens, CosetLeader e gens (leader e gens)) →
    (∀ a ∈ sp.checks sp.zeroState, ∀ b ∈ sp.checks (!sp.zeroState), dot a b = 0) →
    sp.dist ≤ (if sp.zeroState then sp.xDist else sp.zDist) →
    heuristicPrep rref (if sp.zeroState then sp.hx else sp.hz) optimizeDepth sp.zeroState fuel = some sp.circ →
    heuristicVerification ord leader findLeaders limit fuel' sp false (cachesAfter sp leader [] []) = .ok l →
    ToleratesFaults s sp.zeroState (fun i : Fin n => VQ.data i) sp.maxErrors
      (weightBound sp.dist (if sp.zeroState then sp.xDist else sp.zDist : ℕ)) l (qubitsOf n sp.zeroState (bitsOf l).length)

/-- Tolerance of several faults includes that of one. -/
theorem tolerates_one (s : R) (x : Bool) (data : Fin n → VQ) (t : ℕ) (ht : 1 ≤ t) (w : ℕ → ℤ) (hw : w 0 ≤ w 1)
    (l : List (Instr VQ VC)) (qs : List VQ) (h : ToleratesFaults s x data t w l qs) : ToleratesOneFault s x data (w 1) l qs := by
  intro N hN hf hc
  rcases h N hN hf (by omega) with h | ⟨b, e, h1, h2⟩
  · exact .inl h
  · refine .inr ⟨b, e, h1.trans ?_, h2⟩
    rcases Nat.le_one_iff_eq_zero_or_eq_one.1 hc with hc | hc
    · rw [hc]; exact hw
    · rw [hc]

/-- **C112 is violated** on the Shor code of the repository, already for one fault (see `C102_violated`). -/
theorem C112_violated (s : R) (hs : 2 * s * s = 1) [Nontrivial R] : ¬ C112_claim s := by
  intro h
  refine C102_violated s hs fun n rref od fuel sp ord leader fl limit fuel' l h1 h2 h3 h4 h5 h6 h7 h8 => ?_
  refine tolerates_one s _ _ sp.maxErrors h5 _ ?_ _ _ (h n rref od fuel sp ord leader fl limit fuel' l h1 h2 h3 h4 h6 h7 h8)
  have := weightBound_add (sp.dist : ℤ) ((if sp.zeroState then sp.xDist else sp.zDist : ℕ) : ℤ) (by exact_mod_cast h6) 0 1
  simp only [Nat.cast_one, zero_add] at this
  omega

end Verif.SP
