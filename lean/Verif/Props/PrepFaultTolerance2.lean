import Verif.Props.PrepFaultTolerance
import Verif.Props.Verification3
import Verif.Props.Faults4
import Verif.Model.VerifPipeline

/-!
# C102: the circuits found by the search
-/

namespace Verif.SP
open Verif Verif.Spec
variable {n : ℕ} {R : Type} [CommRing R]

theorem bitsOf_verified (z : Bool) (c : PrepCircuit n) (ms : List (Vec n)) :
    (bitsOf (prepInstrs c ++ firstRound z ms)).length = ms.length := by
  rw [bits_verified]; simp

theorem qubitsOf_eq (z : Bool) (k : ℕ) : qubitsOf n z k = register n z k := rfl

/-- Without faults every verification measurement gives 0 and the circuit ends in the prepared state: for every prescribed
list of outcomes the run is the preparation alone if they are all 0 and impossible otherwise. -/
theorem C102_fault_free (s : R) (hs : 2 * s * s = 1) (z : Bool) (c : PrepCircuit n) (S : List (Vec n))
    (hnd : c.hadamards.Nodup) (hne : ∀ g ∈ c.cnots, g.1 ≠ g.2)
    (hS : if z then PreparesZero c.hadamards c.cnots S else PreparesPlus c.hadamards c.cnots S)
    (stabsFun : Bool → Option (List (Vec n)) → List (List (Vec n))) (t : ℕ) (l : List (Instr VQ VC))
    (hms : ∀ m ∈ (stabsFun z none).flatten, ∀ r ∈ S, dot r m = 0)
    (h : verifiedPrep c stabsFun z t false = .ok l) (out : VC → ZMod 2) :
    run s out l (zeros (qubitsOf n z (bitsOf l).length)) =
      if ∀ b ∈ bitsOf l, out b = 0 then run s out (prepInstrs c) (zeros (qubitsOf n z (bitsOf l).length)) else fun _ => 0 := by
  rw [verifiedPrep, verificationCircuit_first] at h
  cases h
  have hb : ∀ P : VC → Prop, (∀ b ∈ bitsOf (prepInstrs c ++ firstRound z (stabsFun z none).flatten), P b) ↔
      ∀ i < (stabsFun z none).flatten.length, P (rbit z i) := by
    intro P; rw [bits_verified]; simp
  rw [bitsOf_verified, qubitsOf_eq, run_verified z c S _ hnd hne hS hms s hs]
  simp only [hb, run_prep_register]

/-- A verified preparation circuit tolerates one fault exactly when every dangerous effect of a fault of the preparation
circuit (one qubit, any place) anticommutes with a measured stabilizer — for zero states with respect to X errors, for plus
states with respect to Z errors. -/
theorem C102_tolerates_iff (s : R) (hs : 2 * s * s = 1) [Nontrivial R] (z : Bool) (c : PrepCircuit n) (S : List (Vec n))
    (hnd : c.hadamards.Nodup) (hne : ∀ g ∈ c.cnots, g.1 ≠ g.2)
    (hS : if z then PreparesZero c.hadamards c.cnots S else PreparesPlus c.hadamards c.cnots S)
    (stabsFun : Bool → Option (List (Vec n)) → List (List (Vec n))) (t : ℕ) (l : List (Instr VQ VC))
    (hms : ∀ m ∈ (stabsFun z none).flatten, ∀ r ∈ S, dot r m = 0)
    (h : verifiedPrep c stabsFun z t false = .ok l) (w : ℤ) (hw : 1 ≤ w) :
    ToleratesOneFault s z (fun i : Fin n => VQ.data i) w l (qubitsOf n z (bitsOf l).length) ↔
      ∀ k q, k ≤ c.cnots.length → Dangerous S w (faultEffect z c.cnots k q) →
        ∃ m ∈ (stabsFun z none).flatten, dot m (faultEffect z c.cnots k q) = 1 := by
  rw [verifiedPrep, verificationCircuit_first] at h
  cases h
  rw [bitsOf_verified, qubitsOf_eq]
  constructor
  · intro hft k q hk hd
    by_contra hcon
    push Not at hcon
    refine verified_not_tolerates z c S _ hnd hne hS hms s hs w hw k q hk hd (fun m hm => ?_) hft
    rcases zmod2_cases (dot m (faultEffect z c.cnots k q)) with h | h
    · exact h
    · exact absurd h (hcon m hm)
  · exact verified_tolerates z c S _ hnd hne hS hms s hs w hw

/-! ### The search -/

/-- A layer function that returns stabilizers detecting the faults, whenever it returns some. -/
def LayerSound (layer : LayerFn n) (checks : List (Vec n)) : Prop :=
  ∀ k faults ms, faults.length ≠ 0 → layer k faults checks = .ok (some ms) →
    (∀ m ∈ ms, m ∈ rowSpan checks) ∧ Detects ms faults

theorem layersLoop_sound (layer : LayerFn n) (checks : List (Vec n)) (hl : LayerSound layer checks)
    (sets : List (Option (List (Vec n)))) (ks : List ℕ) (acc layers : List (List (Vec n)))
    (hacc : ∀ m ∈ acc.flatten, m ∈ rowSpan checks) (h : layersLoop layer sets checks ks acc = .ok layers) :
    (layers = [] ∧ ∃ k ∈ ks, ∃ f, layer k f checks = .ok none) ∨
    (∀ L ∈ acc, L ∈ layers) ∧ (∀ m ∈ layers.flatten, m ∈ rowSpan checks) ∧
    ∀ k ∈ ks, ∃ f, sets[k]?.join = some f ∧ Detects layers.flatten f := by
  induction ks generalizing acc with
  | nil => simp only [layersLoop] at h; cases h; exact .inr ⟨fun L hL => hL, hacc, by simp⟩
  | cons k ks ih =>
    simp only [layersLoop] at h
    cases hf : sets[k]?.join with
    | none => rw [hf] at h; cases h
    | some f =>
      rw [hf] at h
      simp only at h
      by_cases h0 : f.length = 0
      · rw [if_pos h0] at h
        rcases ih _ (by simpa using hacc) h with ⟨h1, k', hk', h2⟩ | ⟨h1, h2, h3⟩
        · exact .inl ⟨h1, k', by simp [hk'], h2⟩
        refine .inr ⟨fun L hL => h1 L (by simp [hL]), h2, ?_⟩
        intro k' hk'
        rcases List.mem_cons.1 hk' with rfl | hk'
        · refine ⟨f, hf, ?_⟩
          rw [List.length_eq_zero_iff] at h0
          subst h0
          intro g hg; simp at hg
        · exact h3 k' hk'
      · rw [if_neg h0] at h
        cases hr : layer k f checks with
        | error e => rw [hr] at h; cases h
        | ok r =>
          cases r with
          | none =>
            rw [hr] at h
            simp only at h
            cases h
            exact .inl ⟨rfl, k, by simp, f, hr⟩
          | some ms =>
          obtain ⟨hms, hdet⟩ := hl k f ms h0 hr
          rw [hr] at h
          simp only at h
          rcases ih (acc ++ [ms]) (by
            intro m hm
            rw [List.flatten_append, List.mem_append] at hm
            rcases hm with hm | hm
            · exact hacc m hm
            · exact hms m (by simpa using hm)) h with ⟨h1, k', hk', h2⟩ | ⟨h1, h2, h3⟩
          · exact .inl ⟨h1, k', by simp [hk'], h2⟩
          refine .inr ⟨fun L hL => h1 L (by simp [hL]), h2, ?_⟩
          intro k' hk'
          rcases List.mem_cons.1 hk' with rfl | hk'
          · refine ⟨f, hf, ?_⟩
            intro g hg
            obtain ⟨m, hm, hd⟩ := hdet g hg
            exact ⟨m, List.mem_flatten.2 ⟨ms, h1 ms (by simp), hm⟩, hd⟩
          · exact h3 k' hk'

theorem faultHistory_append (sd : Side n) (h h' : List (Bool × ℕ)) (s : Cache n) :
    faultHistory sd (h ++ h') s = faultHistory sd h' (faultHistory sd h s) := by
  induction h generalizing s with
  | nil => rfl
  | cons a h ih =>
    obtain ⟨r, k⟩ := a
    simp only [List.cons_append, faultHistory]
    split <;> exact ih _

/-- The caches of a `StatePrepCircuit` after any history of `compute_fault_set` calls. -/
def cachesAfter (sp : StatePrep n) (leader : Vec n → List (Vec n) → Vec n) (hx hz : List (Bool × ℕ)) : Caches n where
  x := faultHistory (sp.side leader true) hx (freshCache n sp.maxErrors)
  z := faultHistory (sp.side leader false) hz (freshCache n sp.maxErrors)

theorem findStabilizers_sound (layer : LayerFn n) (sp : StatePrep n) (leader : Vec n → List (Vec n) → Vec n) (x : Bool)
    (hl : LayerSound layer (sp.checks (!x))) (hx hz : List (Bool × ℕ)) (layers : List (List (Vec n))) (s' : Caches n)
    (h : findStabilizers layer sp leader x none (cachesAfter sp leader hx hz) = .ok (layers, s')) (hm : 1 ≤ sp.maxErrors) :
    (layers = [] ∧ ∃ k f, layer k f (sp.checks (!x)) = .ok none) ∨
    (∀ m ∈ layers.flatten, m ∈ rowSpan (sp.checks (!x))) ∧
    ∃ (hist : List (Bool × ℕ)) (f : List (Vec n)) (s1 : Cache n),
      computeFaultSet (sp.side leader x) true 1 (faultHistory (sp.side leader x) hist (freshCache n sp.maxErrors)) = .ok (f, s1) ∧
      Detects layers.flatten f := by
  simp only [findStabilizers] at h
  cases hc : computeFaultSets sp leader (cachesAfter sp leader hx hz) with
  | error e => rw [hc] at h; cases h
  | ok s =>
    rw [hc] at h
    simp only at h
    cases hL : layersLoop layer (s.get x).sets (sp.checks (!x)) (List.range' 1 sp.maxErrors) [] with
    | error e => rw [hL] at h; cases h
    | ok L =>
      rw [hL] at h
      have e := Prod.mk.inj (Except.ok.inj h)
      rw [← e.1]
      rcases layersLoop_sound layer _ hl _ _ [] L (by simp) hL with ⟨h1, k, -, f, h2⟩ | ⟨-, h2, h3⟩
      · exact .inl ⟨h1, k, f, h2⟩
      refine .inr ⟨h2, ?_⟩
      obtain ⟨f, hf, hdet⟩ := h3 1 (by rw [List.mem_range'_1]; omega)
      -- the caches are those of a longer history
      have hget : ∃ hist, s.get x = faultHistory (sp.side leader x) hist (freshCache n sp.maxErrors) := by
        simp only [computeFaultSets] at hc
        cases h1 : computeFaultSet (sp.side leader true) true sp.maxErrors (cachesAfter sp leader hx hz).x with
        | error e => rw [h1] at hc; cases hc
        | ok r1 =>
          rw [h1] at hc
          simp only at hc
          cases h4 : computeFaultSet (sp.side leader false) true sp.maxErrors (cachesAfter sp leader hx hz).z with
          | error e => rw [h4] at hc; cases hc
          | ok r2 =>
            rw [h4] at hc
            cases hc
            cases x with
            | true =>
              refine ⟨hx ++ [(true, sp.maxErrors)], ?_⟩
              rw [faultHistory_append]
              have e : faultHistory (sp.side leader true) hx (freshCache n sp.maxErrors) = (cachesAfter sp leader hx hz).x := rfl
              rw [e]
              simp only [faultHistory, h1]
              rfl
            | false =>
              refine ⟨hz ++ [(true, sp.maxErrors)], ?_⟩
              rw [faultHistory_append]
              have e : faultHistory (sp.side leader false) hz (freshCache n sp.maxErrors) = (cachesAfter sp leader hx hz).z := rfl
              rw [e]
              simp only [faultHistory, h4]
              rfl
      obtain ⟨hist, hh⟩ := hget
      refine ⟨hist, f, s.get x, ?_, hdet⟩
      rw [← hh]
      have : (s.get x).sets[1]? = some (some f) := by
        cases h5 : (s.get x).sets[1]? with
        | none => rw [h5] at hf; cases hf
        | some o => rw [h5] at hf; simp only [Option.join_some] at hf; rw [hf]
      unfold computeFaultSet
      rw [this]

theorem verifyCircuit_tolerates (s : R) (hs : 2 * s * s = 1) (layer : Bool → LayerFn n) (sp : StatePrep n)
    (leader : Vec n → List (Vec n) → Vec n) (hlead : ∀ e gens, CosetLeader e gens (leader e gens))
    (hlay : LayerSound (layer sp.zeroState) (sp.checks (!sp.zeroState)))
    (hnd : sp.circ.hadamards.Nodup) (hne : ∀ g ∈ sp.circ.cnots, g.1 ≠ g.2)
    (hS : if sp.zeroState then PreparesZero sp.circ.hadamards sp.circ.cnots sp.hx
      else PreparesPlus sp.circ.hadamards sp.circ.cnots sp.hz)
    (hcss : ∀ a ∈ sp.checks sp.zeroState, ∀ b ∈ sp.checks (!sp.zeroState), dot a b = 0)
    (hm : 1 ≤ sp.maxErrors) (hd : sp.dist ≤ if sp.zeroState then sp.xDist else sp.zDist)
    (hfl : removeFrontLayer sp.circ.hadamards sp.circ.cnots = sp.circ.cnots)
    (hearly : EarlyCovered (sp.side leader sp.zeroState))
    (hx hz : List (Bool × ℕ)) (l : List (Instr VQ VC))
    (hsome : (∀ k f, layer sp.zeroState k f (sp.checks (!sp.zeroState)) ≠ .ok none) ∨ bitsOf l ≠ [])
    (h : verifyCircuit layer sp leader false (cachesAfter sp leader hx hz) = .ok l) :
    ToleratesOneFault s sp.zeroState (fun i : Fin n => VQ.data i)
      (weightBound sp.dist (if sp.zeroState then sp.xDist else sp.zDist : ℕ) 1) l (qubitsOf n sp.zeroState (bitsOf l).length) := by
  simp only [verifyCircuit, Bool.false_eq_true, if_false] at h
  cases hf : findStabilizers (layer sp.zeroState) sp leader sp.zeroState none (cachesAfter sp leader hx hz) with
  | error e => rw [hf] at h; cases h
  | ok r =>
    obtain ⟨layers, s'⟩ := r
    rw [hf] at h
    simp only at h
    have hsound := findStabilizers_sound (layer sp.zeroState) sp leader sp.zeroState hlay hx hz layers s' hf hm
    have hv := verificationCircuit_first (fun _ _ => layers) sp.zeroState (sp.maxErrorsOf sp.zeroState)
    simp only [verificationCircuit, Bool.false_eq_true, if_false] at hv
    rw [hv] at h
    cases h
    rcases hsound with ⟨rfl, k, f, hkf⟩ | ⟨hrow, hist, f, s1, hcf, hdet⟩
    · exfalso
      rcases hsome with hsome | hsome
      · exact hsome k f hkf
      · rw [bits_verified] at hsome
        exact hsome rfl
    have hchk : sp.checks sp.zeroState = if sp.zeroState then sp.hx else sp.hz := by
      cases hz : sp.zeroState <;> simp [StatePrep.checks, StatePrep.xChecks, StatePrep.zChecks, hz]
    have hcov : SingleFaultsCovered (sp.side leader sp.zeroState) f :=
      (C63_covered_iff (sp.side leader sp.zeroState) (fun e => hlead e _) hfl (by
        simp only [StatePrep.side]
        split <;> simp_all) sp.maxErrors hist true f s1 hcf).2 hearly
    have hprep : Prepares sp.zeroState sp.circ (sp.checks sp.zeroState) := by
      rw [hchk]
      unfold Prepares
      cases hz : sp.zeroState <;> simpa [hz] using hS
    have horth : ∀ m ∈ layers.flatten, ∀ r ∈ sp.checks sp.zeroState, dot r m = 0 := by
      intro m hm r hr
      rw [dot_comm]
      exact dot_eq_zero_of_mem_rowSpan (fun b hb => by rw [dot_comm]; exact hcss r hr b hb) (hrow m hm)
    rw [bitsOf_verified, qubitsOf_eq]
    refine verified_tolerates sp.zeroState sp.circ (sp.checks sp.zeroState) layers.flatten hnd hne hprep horth s hs _ ?_ ?_
    · have := C27_bound (sp.dist : ℤ) ((if sp.zeroState then sp.xDist else sp.zDist : ℕ) : ℤ) 1 (by exact_mod_cast hd)
      exact_mod_cast this
    · intro k q hk hdang
      obtain ⟨v, hv, heq⟩ := hcov (faultEffect sp.zeroState sp.circ.cnots k q) ⟨k, q, hk, rfl⟩ (by
        have : (sp.side leader sp.zeroState).dError = ((if sp.zeroState then sp.xDist else sp.zDist : ℕ) : ℤ) := by
          simp only [StatePrep.side]; split <;> simp
        show Dangerous (sp.checks sp.zeroState) (weightBound sp.dist (sp.side leader sp.zeroState).dError 1) _
        rw [this]; exact hdang)
      obtain ⟨m, hm, h1⟩ := hdet v hv
      refine ⟨m, hm, ?_⟩
      have h0 : dot m (faultEffect sp.zeroState sp.circ.cnots k q + v) = 0 := by
        rw [dot_comm]
        exact dot_eq_zero_of_mem_rowSpan (fun r hr => horth m hm r hr) heq
      rw [dot_add_right, h1] at h0
      rcases zmod2_cases (dot m (faultEffect sp.zeroState sp.circ.cnots k q)) with h | h
      · rw [h] at h0; exact absurd h0 (by decide)
      · exact h

theorem heuristicLayerFn_sound (ord : List CSet → List CSet) (ho : OrdOk ord) (leader : Vec n → List (Vec n) → Vec n)
    (hlead : ∀ e gens, CosetLeader e gens (leader e gens)) (findLeaders : Bool) (limit fuel : ℕ) (checks : List (Vec n)) :
    LayerSound (heuristicLayerFn ord leader findLeaders limit fuel) checks := by
  intro k faults ms _ h
  unfold heuristicLayerFn at h
  cases hl : heuristicLayer ord leader faults checks findLeaders limit fuel with
  | ok ms => rw [hl] at h; cases h; exact C32_layer_sound ord ho leader hlead faults checks findLeaders limit fuel ms hl
  | valueError => rw [hl] at h; cases h
  | outOfFuel => rw [hl] at h; cases h

/-- **C102 (partial)**: the circuit returned by `heuristic_verification_circuit(sp, full_fault_tolerance=False)`, after any
history of fault-set computations, tolerates one fault.  Missing: preparation circuits in which a dangerous error present
before the first gate is not equivalent to an error after some CNOT (`hearly`), for which the claim can be false
(`C102_violated`), and the second round of measurements. -/
theorem C102_heuristic_partial (s : R) (hs : 2 * s * s = 1) (ord : List CSet → List CSet) (ho : OrdOk ord)
    (leader : Vec n → List (Vec n) → Vec n) (hlead : ∀ e gens, CosetLeader e gens (leader e gens)) (findLeaders : Bool)
    (limit fuel : ℕ) (sp : StatePrep n)
    (hnd : sp.circ.hadamards.Nodup) (hne : ∀ g ∈ sp.circ.cnots, g.1 ≠ g.2)
    (hS : if sp.zeroState then PreparesZero sp.circ.hadamards sp.circ.cnots sp.hx
      else PreparesPlus sp.circ.hadamards sp.circ.cnots sp.hz)
    (hcss : ∀ a ∈ sp.checks sp.zeroState, ∀ b ∈ sp.checks (!sp.zeroState), dot a b = 0)
    (hm : 1 ≤ sp.maxErrors) (hd : sp.dist ≤ if sp.zeroState then sp.xDist else sp.zDist)
    (hfl : removeFrontLayer sp.circ.hadamards sp.circ.cnots = sp.circ.cnots)
    (hearly : EarlyCovered (sp.side leader sp.zeroState))
    (hx hz : List (Bool × ℕ)) (l : List (Instr VQ VC))
    (h : heuristicVerification ord leader findLeaders limit fuel sp false (cachesAfter sp leader hx hz) = .ok l) :
    ToleratesOneFault s sp.zeroState (fun i : Fin n => VQ.data i)
      (weightBound sp.dist (if sp.zeroState then sp.xDist else sp.zDist : ℕ) 1) l (qubitsOf n sp.zeroState (bitsOf l).length) :=
  verifyCircuit_tolerates s hs _ sp leader hlead (heuristicLayerFn_sound ord ho leader hlead findLeaders limit fuel _)
    hnd hne hS hcss hm hd hfl hearly hx hz l (.inl fun k f => by
      unfold heuristicLayerFn
      split <;> simp) h

/-- **C102 (partial)**: the same for `gate_optimal_verification_circuit`, whatever the solver answers within its time limits,
when the returned circuit contains measurements (a search that fails returns a circuit without any). -/
theorem C102_optimal_partial (s : R) (hs : 2 * s * s = 1)
    (run1 run2 run3 : Bool → ℕ → List (Vec n) → ℕ → ℕ → ℕ → Outcome (List (Vec n))) (minT maxT fuel : ℕ)
    (leader : Vec n → List (Vec n) → Vec n) (hlead : ∀ e gens, CosetLeader e gens (leader e gens)) (sp : StatePrep n) (numAnc : ℕ)
    (h1 : ∀ k faults i c t, VerifOutcome (sp.checks (!sp.zeroState)) faults numAnc c (run1 sp.zeroState k faults i c t))
    (h2 : ∀ k faults j c anc, VerifOutcome (sp.checks (!sp.zeroState)) faults anc c (run2 sp.zeroState k faults j c anc))
    (h3 : ∀ k faults j anc c, VerifOutcome (sp.checks (!sp.zeroState)) faults anc c (run3 sp.zeroState k faults j anc c))
    (hnd : sp.circ.hadamards.Nodup) (hne : ∀ g ∈ sp.circ.cnots, g.1 ≠ g.2)
    (hS : if sp.zeroState then PreparesZero sp.circ.hadamards sp.circ.cnots sp.hx
      else PreparesPlus sp.circ.hadamards sp.circ.cnots sp.hz)
    (hcss : ∀ a ∈ sp.checks sp.zeroState, ∀ b ∈ sp.checks (!sp.zeroState), dot a b = 0)
    (hm : 1 ≤ sp.maxErrors) (hd : sp.dist ≤ if sp.zeroState then sp.xDist else sp.zDist)
    (hfl : removeFrontLayer sp.circ.hadamards sp.circ.cnots = sp.circ.cnots)
    (hearly : EarlyCovered (sp.side leader sp.zeroState))
    (hx hz : List (Bool × ℕ)) (l : List (Instr VQ VC)) (hfound : bitsOf l ≠ [])
    (h : optimalVerification run1 run2 run3 minT maxT fuel leader sp false (cachesAfter sp leader hx hz) = .ok l) :
    ToleratesOneFault s sp.zeroState (fun i : Fin n => VQ.data i)
      (weightBound sp.dist (if sp.zeroState then sp.xDist else sp.zDist : ℕ) 1) l (qubitsOf n sp.zeroState (bitsOf l).length) := by
  refine verifyCircuit_tolerates s hs _ sp leader hlead ?_ hnd hne hS hcss hm hd hfl hearly hx hz l (.inr hfound) h
  intro k faults ms _ hr
  unfold optimalLayerFn at hr
  cases hl : optimalLayer (run1 sp.zeroState k faults) (run2 sp.zeroState k faults) (run3 sp.zeroState k faults) faults
      (sp.checks (!sp.zeroState)) minT maxT fuel with
  | none => rw [hl] at hr; cases hr
  | some res =>
    rw [hl] at hr
    cases res with
    | ok ms =>
      cases hr
      obtain ⟨ha, hb, -⟩ := C68_layer_sound faults _ numAnc _ _ _ (h1 k faults) (h2 k faults) (h3 k faults) minT maxT fuel ms hl
      exact ⟨ha, hb⟩
    | notFound => cases hr
    | crash => cases hr

end Verif.SP
