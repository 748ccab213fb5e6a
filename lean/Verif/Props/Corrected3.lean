import Verif.Props.Corrected2

/-!
# C137: the optimal verification followed by decoding
-/

namespace Verif.SP
open Verif Verif.Spec
variable {n : ℕ} {R : Type} [CommRing R]

/-- The layers of `gate_optimal_verification_circuit` are sound, whatever the solver answers within its time limits. -/
theorem optimalLayerFn_sound (run1 run2 run3 : ℕ → List (Vec n) → ℕ → ℕ → ℕ → Outcome (List (Vec n))) (minT maxT fuel : ℕ)
    (checks : List (Vec n)) (numAnc : ℕ)
    (h1 : ∀ k faults i c t, VerifOutcome checks faults numAnc c (run1 k faults i c t))
    (h2 : ∀ k faults j c anc, VerifOutcome checks faults anc c (run2 k faults j c anc))
    (h3 : ∀ k faults j anc c, VerifOutcome checks faults anc c (run3 k faults j anc c)) :
    LayerSound (optimalLayerFn run1 run2 run3 minT maxT fuel) checks := by
  intro k faults ms _ hr
  unfold optimalLayerFn at hr
  cases hl : optimalLayer (run1 k faults) (run2 k faults) (run3 k faults) faults checks minT maxT fuel with
  | none => rw [hl] at hr; cases hr
  | some res =>
    rw [hl] at hr
    cases res with
    | ok ms =>
      cases hr
      obtain ⟨ha, hb, -⟩ := C68_layer_sound faults _ numAnc _ _ _ (h1 k faults) (h2 k faults) (h3 k faults) minT maxT fuel ms hl
      exact ⟨ha, hb⟩
    | notFound => cases hr
    | crash => cases hr

/-- **C137 (partial)**: the logical zero state verified by `gate_optimal_verification_circuit(sp, full_fault_tolerance=False)`, whatever
the solver answers within its time limits, when the circuit contains measurements.  Missing: as in `C137_zero_partial`. -/
theorem C137_optimal_zero_partial (s : R) (hs : 2 * s * s = 1) (c : CSS.Code)
    (run1 run2 run3 : Bool → ℕ → List (Vec c.n) → ℕ → ℕ → ℕ → Outcome (List (Vec c.n))) (minT maxT fuel : ℕ)
    (leader : Vec c.n → List (Vec c.n) → Vec c.n) (hlead : ∀ e gens, CosetLeader e gens (leader e gens)) (sp : StatePrep c.n) (numAnc : ℕ)
    (hcx : sp.hx = c.hx) (hcz : sp.hz = c.hz) (hzero : sp.zeroState = true)
    (h1 : ∀ k faults i b t, VerifOutcome (sp.checks false) faults numAnc b (run1 true k faults i b t))
    (h2 : ∀ k faults j b anc, VerifOutcome (sp.checks false) faults anc b (run2 true k faults j b anc))
    (h3 : ∀ k faults j anc b, VerifOutcome (sp.checks false) faults anc b (run3 true k faults j anc b))
    (hnd : sp.circ.hadamards.Nodup) (hne : ∀ g ∈ sp.circ.cnots, g.1 ≠ g.2)
    (hS : PreparesZero sp.circ.hadamards sp.circ.cnots sp.hx)
    (hcss : ∀ a ∈ sp.checks true, ∀ b ∈ sp.checks false, dot a b = 0)
    (hd : sp.dist ≤ sp.xDist) (h3d : 3 ≤ sp.dist) (hed : sp.errorDetection = false) (hmin : Named.IsMinWeight c.hx c.hz sp.xDist)
    (hfl : removeFrontLayer sp.circ.hadamards sp.circ.cnots = sp.circ.cnots)
    (hearly : EarlyEnumerated (sp.side leader true))
    (hx hz : List (Bool × ℕ)) (l : List (Instr VQ VC)) (hfound : bitsOf l ≠ [])
    (h : optimalVerification run1 run2 run3 minT maxT fuel leader sp false (cachesAfter sp leader hx hz) = .ok l)
    (initLuts : Bool) (hist : List Lut.Call) :
    PreparesCorrected s true (fun i : Fin c.n => VQ.data i) sp.maxErrors c.hz
      (fun σ => (Lut.decodeX (Lut.after c initLuts hist) σ).1) l (qubitsOf c.n true (bitsOf l).length) := by
  obtain ⟨est, he1, he2, -⟩ := DecodeHalf.C133_decode_x c initLuts hist sp.xDist hmin
  have hso : sp.same = sp.hx ∧ sp.other = sp.hz := by simp [StatePrep.same, StatePrep.other, hzero]
  have hT := C112_optimal_partial s hs run1 run2 run3 minT maxT fuel leader hlead sp numAnc (by rw [hzero]; exact h1) (by rw [hzero]; exact h2)
    (by rw [hzero]; exact h3) hnd hne (by rw [hzero]; exact hS) (by rw [hzero]; exact hcss) (by rw [hzero]; exact hd) hfl
    (by rw [hzero]; exact hearly) hx hz l hfound h
  have := verifyCircuit_corrected s hs (fun x => optimalLayerFn (run1 x) (run2 x) (run3 x) minT maxT fuel) sp leader
    (by rw [hzero]; exact optimalLayerFn_sound _ _ _ minT maxT fuel _ numAnc h1 h2 h3) hnd hne
    (by rw [hzero]; exact hS) (by rw [hzero]; exact hcss) (by rw [hzero]; exact hd) h3d hed hx hz l h hT
    (fun σ => (Lut.decodeX (Lut.after c initLuts hist) σ).1) est (by rw [hso.2, hcz]; exact he1) (by rw [hso.1, hcx, hzero]; exact he2)
  rw [hso.2, hzero, hcz] at this
  exact this

/-- **C137 (partial)**: the same for the logical plus state, for the codes on which the decoder for Z errors is right (C133). -/
theorem C137_optimal_plus_partial (s : R) (hs : 2 * s * s = 1) (c : CSS.Code)
    (run1 run2 run3 : Bool → ℕ → List (Vec c.n) → ℕ → ℕ → ℕ → Outcome (List (Vec c.n))) (minT maxT fuel : ℕ)
    (leader : Vec c.n → List (Vec c.n) → Vec c.n) (hlead : ∀ e gens, CosetLeader e gens (leader e gens)) (sp : StatePrep c.n) (numAnc : ℕ)
    (hcx : sp.hx = c.hx) (hcz : sp.hz = c.hz) (hplus : sp.zeroState = false)
    (h1 : ∀ k faults i b t, VerifOutcome (sp.checks true) faults numAnc b (run1 false k faults i b t))
    (h2 : ∀ k faults j b anc, VerifOutcome (sp.checks true) faults anc b (run2 false k faults j b anc))
    (h3 : ∀ k faults j anc b, VerifOutcome (sp.checks true) faults anc b (run3 false k faults j anc b))
    (hnd : sp.circ.hadamards.Nodup) (hne : ∀ g ∈ sp.circ.cnots, g.1 ≠ g.2)
    (hS : PreparesPlus sp.circ.hadamards sp.circ.cnots sp.hz)
    (hcss : ∀ a ∈ sp.checks false, ∀ b ∈ sp.checks true, dot a b = 0)
    (hd : sp.dist ≤ sp.zDist) (h3d : 3 ≤ sp.dist) (hed : sp.errorDetection = false) (hmin : Named.IsMinWeight c.hz c.hx sp.zDist)
    (hfl : removeFrontLayer sp.circ.hadamards sp.circ.cnots = sp.circ.cnots)
    (hearly : EarlyEnumerated (sp.side leader false))
    (hx hz : List (Bool × ℕ)) (l : List (Instr VQ VC)) (hfound : bitsOf l ≠ [])
    (h : optimalVerification run1 run2 run3 minT maxT fuel leader sp false (cachesAfter sp leader hx hz) = .ok l)
    (initLuts : Bool) (hist : List Lut.Call) (hc : c.isSelfDual = false ∨ (c.hx = c.hz ∧ initLuts = true)) :
    PreparesCorrected s false (fun i : Fin c.n => VQ.data i) sp.maxErrors c.hx
      (fun σ => (Lut.decodeZ (Lut.after c initLuts hist) σ).1) l (qubitsOf c.n false (bitsOf l).length) := by
  obtain ⟨est, he1, he2, -⟩ := DecodeHalf.C133_decode_z_partial c initLuts hist sp.zDist hmin hc
  have hso : sp.same = sp.hz ∧ sp.other = sp.hx := by simp [StatePrep.same, StatePrep.other, hplus]
  have hT := C112_optimal_partial s hs run1 run2 run3 minT maxT fuel leader hlead sp numAnc (by rw [hplus]; exact h1) (by rw [hplus]; exact h2)
    (by rw [hplus]; exact h3) hnd hne (by rw [hplus]; exact hS) (by rw [hplus]; exact hcss) (by rw [hplus]; exact hd) hfl
    (by rw [hplus]; exact hearly) hx hz l hfound h
  have := verifyCircuit_corrected s hs (fun x => optimalLayerFn (run1 x) (run2 x) (run3 x) minT maxT fuel) sp leader
    (by rw [hplus]; exact optimalLayerFn_sound _ _ _ minT maxT fuel _ numAnc h1 h2 h3) hnd hne
    (by rw [hplus]; exact hS) (by rw [hplus]; exact hcss) (by rw [hplus]; exact hd) h3d hed hx hz l h hT
    (fun σ => (Lut.decodeZ (Lut.after c initLuts hist) σ).1) est (by rw [hso.2, hcx]; exact he1) (by rw [hso.1, hcz, hplus]; exact he2)
  rw [hso.2, hplus, hcx] at this
  exact this

/-! ### The hypotheses can be met -/

private theorem d1 : spSteane.circ.hadamards.Nodup := by decide
private theorem d2 : ∀ g ∈ spSteane.circ.cnots, g.1 ≠ g.2 := by decide
private theorem d3 : ∀ a ∈ spSteane.checks true, ∀ b ∈ spSteane.checks false, dot a b = 0 := by decide +kernel
private theorem d4 : spSteane.dist ≤ spSteane.xDist := by decide
private theorem d5 : 3 ≤ spSteane.dist := by decide
private theorem d6 : removeFrontLayer spSteane.circ.hadamards spSteane.circ.cnots = spSteane.circ.cnots := by decide
private theorem d7 : EarlyEnumerated (spSteane.side bruteLeader true) :=
  earlyEnumerated_of_covered _ (by decide) (earlyCovered_of _ (by decide +kernel))
private theorem d8 : spSteane.maxErrors = 1 := by decide

/-- The Steane code with the one measurement that the solver finds. -/
example (s : R) (hs : 2 * s * s = 1) (c : CSS.Code) (hn : c.n = 7) (h1 : HEq c.hx spSteane.hx) (h2 : HEq c.hz spSteane.hz)
    (hmin : Named.IsMinWeight c.hx c.hz 3) : ∃ l : List (Instr VQ VC), (bitsOf l).length = 1 ∧
    PreparesCorrected s true (fun i : Fin c.n => VQ.data i) 1 c.hz (fun σ => (Lut.decodeX (Lut.after c true []) σ).1) l
      (qubitsOf c.n true (bitsOf l).length) := by
  obtain ⟨n, hx', hz', stab, dd, dx, dz, lx, lz⟩ := c
  simp only at hn
  subst hn
  simp only [heq_eq_eq] at h1 h2
  subst h1 h2
  have hS : PreparesZero spSteane.circ.hadamards spSteane.circ.cnots spSteane.hx :=
    (C28_heuristic (someRref 7) (someRref_ok 7) _ true 30 _).1 (circ_of_pair prep_steane)
  have := C137_optimal_zero_partial s hs ⟨7, spSteane.hx, spSteane.hz, stab, dd, dx, dz, lx, lz⟩ runSteane (fun _ _ _ _ _ _ => .timeout)
    (fun _ _ _ _ _ _ => .timeout) 1 1 20 bruteLeader bruteLeader_spec spSteane 1 rfl rfl rfl runSteane_ok (fun _ _ _ _ _ => .inl rfl)
    (fun _ _ _ _ _ => .inl rfl) d1 d2 hS d3 d4 d5 rfl hmin d6 d7 [] [] _ (by rw [bits_verified]; simp) (okOf_some run_steane_optimal) true []
  rw [d8] at this
  exact ⟨_, by rw [bits_verified]; rfl, this⟩

end Verif.SP
