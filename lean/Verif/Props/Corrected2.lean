import Verif.Props.PrepFaultTolerance6
import Verif.Props.Corrected

/-!
# C137: verified preparation followed by decoding (results)
-/

namespace Verif.SP
open Verif Verif.Spec
variable {n : ℕ} {R : Type} [CommRing R]

/-! ## The search -/

/-- A verified preparation consists of the preparation and measurements of stabilizers. -/
theorem verifyCircuit_form (layer : Bool → LayerFn n) (sp : StatePrep n) (leader : Vec n → List (Vec n) → Vec n)
    (hlay : LayerSound (layer sp.zeroState) (sp.checks (!sp.zeroState)))
    (hcss : ∀ a ∈ sp.checks sp.zeroState, ∀ b ∈ sp.checks (!sp.zeroState), dot a b = 0)
    (hx hz : List (Bool × ℕ)) (l : List (Instr VQ VC))
    (h : verifyCircuit layer sp leader false (cachesAfter sp leader hx hz) = .ok l) :
    ∃ ms : List (Vec n), l = prepInstrs sp.circ ++ firstRound sp.zeroState ms ∧ ∀ m ∈ ms, ∀ r ∈ sp.checks sp.zeroState, dot r m = 0 := by
  simp only [verifyCircuit, Bool.false_eq_true, if_false] at h
  cases hf : findStabilizers (layer sp.zeroState) sp leader sp.zeroState none (cachesAfter sp leader hx hz) with
  | error e => rw [hf] at h; cases h
  | ok r =>
    obtain ⟨layers, s'⟩ := r
    rw [hf] at h
    simp only at h
    have hsound := findStabilizers_layers (layer sp.zeroState) sp leader sp.zeroState hlay hx hz layers s' hf
    have hv := verificationCircuit_first (fun _ _ => layers) sp.zeroState (sp.maxErrorsOf sp.zeroState)
    simp only [verificationCircuit, Bool.false_eq_true, if_false] at hv
    rw [hv] at h
    cases h
    refine ⟨layers.flatten, rfl, fun m hm r hr => ?_⟩
    rcases hsound with ⟨rfl, -⟩ | ⟨-, hist, hlayers⟩
    · cases hm
    · obtain ⟨L, hL, hm⟩ := List.mem_flatten.1 hm
      obtain ⟨j, hj, rfl⟩ := List.getElem_of_mem hL
      rw [dot_comm]
      exact dot_eq_zero_of_mem_rowSpan (fun b hb => by rw [dot_comm]; exact hcss r hr b hb) ((hlayers j hj).1 m hm)

/-- Below half the distance. -/
theorem weightBound_half (d dError f : ℕ) (h3 : 3 ≤ d) (h : d ≤ dError) (hf : f ≤ (d - 1) / 2) : 2 * weightBound d dError f < dError := by
  unfold weightBound
  set a : ℤ := max (((dError : ℤ) - 1) / 2) 1 with ha
  set b : ℤ := max (((d : ℤ) - 1) / 2) 1 with hb
  have ha1 : a = ((dError : ℤ) - 1) / 2 := max_eq_left (by omega)
  have hb1 : b = ((d : ℤ) - 1) / 2 := max_eq_left (by omega)
  have hfb : (f : ℤ) ≤ b := by rw [hb1]; omega
  have hq : 0 ≤ a / b := Int.ediv_nonneg (by omega) (by omega)
  have h1 : a / b * (f : ℤ) ≤ a / b * b := mul_le_mul_of_nonneg_left hfb hq
  have h2 : a / b * b ≤ a := Int.ediv_mul_le a (by omega)
  omega

/-- The checks of the kind of the errors and of the other kind. -/
def StatePrep.same (sp : StatePrep n) : List (Vec n) := if sp.zeroState then sp.hx else sp.hz
/-- See `StatePrep.same`. -/
def StatePrep.other (sp : StatePrep n) : List (Vec n) := if sp.zeroState then sp.hz else sp.hx

theorem verifyCircuit_corrected (s : R) (hs : 2 * s * s = 1) (layer : Bool → LayerFn n) (sp : StatePrep n)
    (leader : Vec n → List (Vec n) → Vec n)
    (hlay : LayerSound (layer sp.zeroState) (sp.checks (!sp.zeroState)))
    (hnd : sp.circ.hadamards.Nodup) (hne : ∀ g ∈ sp.circ.cnots, g.1 ≠ g.2)
    (hS : if sp.zeroState then PreparesZero sp.circ.hadamards sp.circ.cnots sp.hx
      else PreparesPlus sp.circ.hadamards sp.circ.cnots sp.hz)
    (hcss : ∀ a ∈ sp.checks sp.zeroState, ∀ b ∈ sp.checks (!sp.zeroState), dot a b = 0)
    (hd : sp.dist ≤ if sp.zeroState then sp.xDist else sp.zDist) (h3 : 3 ≤ sp.dist) (hed : sp.errorDetection = false)
    (hx hz : List (Bool × ℕ)) (l : List (Instr VQ VC))
    (h : verifyCircuit layer sp leader false (cachesAfter sp leader hx hz) = .ok l)
    (hT : ToleratesFaults s sp.zeroState (fun i : Fin n => VQ.data i) sp.maxErrors
      (weightBound sp.dist (if sp.zeroState then sp.xDist else sp.zDist : ℕ)) l (qubitsOf n sp.zeroState (bitsOf l).length))
    (decode : List (ZMod 2) → Option (Vec n)) (est : Vec n → Vec n) (hdec : ∀ e, decode (mulVec sp.other e) = some (est e))
    (hest : DecodeHalf.CorrectsBelowHalf sp.same (if sp.zeroState then sp.xDist else sp.zDist) est) :
    PreparesCorrected s sp.zeroState (fun i : Fin n => VQ.data i) sp.maxErrors sp.other decode l
      (qubitsOf n sp.zeroState (bitsOf l).length) := by
  obtain ⟨ms, rfl, horth⟩ := verifyCircuit_form layer sp leader hlay hcss hx hz l h
  have hchk : sp.checks sp.zeroState = sp.same := by
    cases hz : sp.zeroState <;> simp [StatePrep.same, StatePrep.checks, StatePrep.xChecks, StatePrep.zChecks, hz]
  have hoth : ∀ g ∈ sp.other, g ∈ sp.checks (!sp.zeroState) := by
    intro g hg
    cases hz : sp.zeroState <;> simp_all [StatePrep.other, StatePrep.checks, StatePrep.xChecks, StatePrep.zChecks]
  have hprep : Prepares sp.zeroState sp.circ sp.same := by
    unfold Prepares StatePrep.same
    cases hz : sp.zeroState <;> simpa [hz] using hS
  rw [hchk] at horth hcss
  rw [bitsOf_verified, qubitsOf_eq] at hT ⊢
  obtain ⟨hX, hZ⟩ := verified_stabilized s hs sp.zeroState sp.circ sp.same ms hnd hne hprep horth
  refine corrected_of_tolerates (fun i : Fin n => VQ.data i) data_injective s hs sp.zeroState sp.maxErrors _ _ sp.same sp.other decode est
    _ _ hX (fun g hg => hZ g fun r hr => hcss r hr g (hoth g hg)) hdec hest (fun f hf => ?_) hT
  refine weightBound_half _ _ f h3 hd ?_
  have : sp.maxErrors = (sp.dist - 1) / 2 := by
    unfold StatePrep.maxErrors
    rw [if_neg]
    rw [hed]
    simp
    omega
  omega

/-! ## C137 -/

/-- **C137 (partial)**: the logical zero state.  A verified preparation of `heuristic_verification_circuit(sp, full_fault_tolerance=False)`
followed by the lookup-table decoder for X errors: with at most `max_errors` faults anywhere in the preparation and the verification, every
accepted run ends, after the correction, in the intended state up to Z errors and a sign.  Missing: as in C112, preparation circuits in
which an error present before the first gate is not equivalent to an enumerated fault (`hearly`), for which the claim can be false
(`C137_violated`). -/
theorem C137_zero_partial (s : R) (hs : 2 * s * s = 1) (ord : List CSet → List CSet) (ho : OrdOk ord) (c : CSS.Code)
    (leader : Vec c.n → List (Vec c.n) → Vec c.n) (hlead : ∀ e gens, CosetLeader e gens (leader e gens)) (findLeaders : Bool)
    (limit fuel : ℕ) (sp : StatePrep c.n) (hcx : sp.hx = c.hx) (hcz : sp.hz = c.hz) (hzero : sp.zeroState = true)
    (hnd : sp.circ.hadamards.Nodup) (hne : ∀ g ∈ sp.circ.cnots, g.1 ≠ g.2)
    (hS : PreparesZero sp.circ.hadamards sp.circ.cnots sp.hx)
    (hcss : ∀ a ∈ sp.checks true, ∀ b ∈ sp.checks false, dot a b = 0)
    (hd : sp.dist ≤ sp.xDist) (h3 : 3 ≤ sp.dist) (hed : sp.errorDetection = false) (hmin : Named.IsMinWeight c.hx c.hz sp.xDist)
    (hfl : removeFrontLayer sp.circ.hadamards sp.circ.cnots = sp.circ.cnots)
    (hearly : EarlyEnumerated (sp.side leader true))
    (hx hz : List (Bool × ℕ)) (l : List (Instr VQ VC))
    (h : heuristicVerification ord leader findLeaders limit fuel sp false (cachesAfter sp leader hx hz) = .ok l)
    (initLuts : Bool) (hist : List Lut.Call) :
    PreparesCorrected s true (fun i : Fin c.n => VQ.data i) sp.maxErrors c.hz
      (fun σ => (Lut.decodeX (Lut.after c initLuts hist) σ).1) l (qubitsOf c.n true (bitsOf l).length) := by
  obtain ⟨est, he1, he2, -⟩ := DecodeHalf.C133_decode_x c initLuts hist sp.xDist hmin
  have hso : sp.same = sp.hx ∧ sp.other = sp.hz := by simp [StatePrep.same, StatePrep.other, hzero]
  have hT := C112_heuristic_partial s hs ord ho leader hlead findLeaders limit fuel sp hnd hne (by rw [hzero]; exact hS)
    (by rw [hzero]; exact hcss) (by rw [hzero]; exact hd) hfl (by rw [hzero]; exact hearly) hx hz l h
  have := verifyCircuit_corrected s hs _ sp leader (heuristicLayerFn_sound ord ho leader hlead findLeaders limit fuel _) hnd hne
    (by rw [hzero]; exact hS) (by rw [hzero]; exact hcss) (by rw [hzero]; exact hd) h3 hed hx hz l h hT
    (fun σ => (Lut.decodeX (Lut.after c initLuts hist) σ).1) est (by rw [hso.2, hcz]; exact he1) (by rw [hso.1, hcx, hzero]; exact he2)
  rw [hso.2, hzero, hcz] at this
  exact this

/-- **C137 (partial)**: the logical plus state with the decoder for Z errors, for the codes on which that decoder is right (C133). -/
theorem C137_plus_partial (s : R) (hs : 2 * s * s = 1) (ord : List CSet → List CSet) (ho : OrdOk ord) (c : CSS.Code)
    (leader : Vec c.n → List (Vec c.n) → Vec c.n) (hlead : ∀ e gens, CosetLeader e gens (leader e gens)) (findLeaders : Bool)
    (limit fuel : ℕ) (sp : StatePrep c.n) (hcx : sp.hx = c.hx) (hcz : sp.hz = c.hz) (hplus : sp.zeroState = false)
    (hnd : sp.circ.hadamards.Nodup) (hne : ∀ g ∈ sp.circ.cnots, g.1 ≠ g.2)
    (hS : PreparesPlus sp.circ.hadamards sp.circ.cnots sp.hz)
    (hcss : ∀ a ∈ sp.checks false, ∀ b ∈ sp.checks true, dot a b = 0)
    (hd : sp.dist ≤ sp.zDist) (h3 : 3 ≤ sp.dist) (hed : sp.errorDetection = false) (hmin : Named.IsMinWeight c.hz c.hx sp.zDist)
    (hfl : removeFrontLayer sp.circ.hadamards sp.circ.cnots = sp.circ.cnots)
    (hearly : EarlyEnumerated (sp.side leader false))
    (hx hz : List (Bool × ℕ)) (l : List (Instr VQ VC))
    (h : heuristicVerification ord leader findLeaders limit fuel sp false (cachesAfter sp leader hx hz) = .ok l)
    (initLuts : Bool) (hist : List Lut.Call) (hc : c.isSelfDual = false ∨ (c.hx = c.hz ∧ initLuts = true)) :
    PreparesCorrected s false (fun i : Fin c.n => VQ.data i) sp.maxErrors c.hx
      (fun σ => (Lut.decodeZ (Lut.after c initLuts hist) σ).1) l (qubitsOf c.n false (bitsOf l).length) := by
  obtain ⟨est, he1, he2, -⟩ := DecodeHalf.C133_decode_z_partial c initLuts hist sp.zDist hmin hc
  have hso : sp.same = sp.hz ∧ sp.other = sp.hx := by simp [StatePrep.same, StatePrep.other, hplus]
  have hT := C112_heuristic_partial s hs ord ho leader hlead findLeaders limit fuel sp hnd hne (by rw [hplus]; exact hS)
    (by rw [hplus]; exact hcss) (by rw [hplus]; exact hd) hfl (by rw [hplus]; exact hearly) hx hz l h
  have := verifyCircuit_corrected s hs _ sp leader (heuristicLayerFn_sound ord ho leader hlead findLeaders limit fuel _) hnd hne
    (by rw [hplus]; exact hS) (by rw [hplus]; exact hcss) (by rw [hplus]; exact hd) h3 hed hx hz l h hT
    (fun σ => (Lut.decodeZ (Lut.after c initLuts hist) σ).1) est (by rw [hso.2, hcx]; exact he1) (by rw [hso.1, hcz, hplus]; exact he2)
  rw [hso.2, hplus, hcx] at this
  exact this

/-! ## The claim fails in general -/

section
variable (z : Bool) (c : PrepCircuit n) (S ms : List (Vec n)) (hnd : c.hadamards.Nodup) (hne : ∀ g ∈ c.cnots, g.1 ≠ g.2)
  (hS : Prepares z c S) (hms : ∀ m ∈ ms, ∀ r ∈ S, dot r m = 0)

include hnd hne hS hms in
/-- A fault whose effect no measurement detects. -/
theorem verified_single_fault (s : R) (hs : 2 * s * s = 1) (k : ℕ) (q : Fin n) (hlt : k < c.cnots.length)
    (hund : ∀ m ∈ ms, dot m (faultEffect z c.cnots k q) = 0) :
    ∃ (N : List (NoisyInstr VQ VC)) (b : ZMod 2) (G : PauliErr VQ), N.map NoisyInstr.instr = prepInstrs c ++ firstRound z ms ∧
      AllFaults N ∧ faultCount N ≤ 1 ∧ tp n z (G, 0) = faultEffect z c.cnots k q ∧
      runNoisy s (fun _ => 0) N (zeros (register n z ms.length)) =
        fun y => sgn b * applyOp G (withBits ((List.range ms.length).map fun i => (ranc z i, 0)) (prepared s c)) y := by
  set g := c.cnots[k] with hg
  have hdrop : c.cnots.drop k = g :: c.cnots.drop (k + 1) := List.drop_eq_getElem_cons hlt
  set cxs : List (CX n) → List (Instr VQ VC) := fun l => l.map fun g => .cx (.data g.1) (.data g.2) with hcxs
  set A : List (Instr VQ VC) := c.hadamards.map (fun q : Fin n => .h (.data q)) ++ cxs (c.cnots.take k) with hA
  set i : Instr VQ VC := .cx (.data g.1) (.data g.2) with hi
  set r : List (Instr VQ VC) := cxs (c.cnots.drop (k + 1)) ++ firstRound z ms with hr
  have hl : prepInstrs c ++ firstRound z ms = A ++ i :: r := by
    have : c.cnots = c.cnots.take k ++ g :: c.cnots.drop (k + 1) := by rw [← hdrop, List.take_append_drop]
    rw [prepInstrs, hA, hr, hi]
    conv_lhs => rw [this]
    simp [hcxs]
  set P := errAt z (.data q) with hP
  let N : List (NoisyInstr VQ VC) := A.map clean ++ ⟨P, i, 0⟩ :: r.map clean
  have hfa : FaultAt i P := .inl ⟨.data q, fun p hp => errAt_acts z _ p hp⟩
  have hNi : N.map NoisyInstr.instr = prepInstrs c ++ firstRound z ms := by
    rw [hl]
    simp only [N, List.map_append, List.map_cons, map_clean]
  have hNf : AllFaults N := by
    intro L hL
    rcases List.mem_append.1 hL with hL | hL
    · exact allFaults_clean A L hL
    · rcases List.mem_cons.1 hL with rfl | hL
      · exact ⟨hfa, .inr fun p hp => by simp [PauliErr.ActsOn] at hp⟩
      · exact allFaults_clean r L hL
  have hNc : faultCount N ≤ 1 := by
    have e : N = A.map clean ++ ([⟨P, i, 0⟩] ++ r.map clean) := by simp [N]
    rw [e, faultCount_append, faultCount_append, faultCount_clean, faultCount_clean]
    classical
    simp only [faultCount, List.map_cons, List.map_nil, List.sum_cons, List.sum_nil]
    split <;> simp
  have hFr : noisyFrame N 0 = prop (i :: r) (P, 0) := by
    have : noisyFrame N 0 = noisyFrame (r.map clean) (frameStep (noisyFrame (A.map clean) 0 + (P, 0)) i + (0, 0)) := by
      show noisyFrame (A.map clean ++ ⟨P, i, 0⟩ :: r.map clean) 0 = _
      rw [noisyFrame_append]; rfl
    rw [this, noisyFrame_clean, noisyFrame_clean, prop_zero, zero_add, prop_cons]
    rw [show ((0, 0) : Frame VQ VC) = 0 from rfl, add_zero]
  set D : Frame VQ VC := prop (cxs (c.cnots.drop k)) (P, 0) with hD
  have hFr2 : noisyFrame N 0 = prop (firstRound z ms) D := by
    rw [hFr, hD, ← prop_append, hdrop]
    rfl
  have hDo : DataOnly n D := dataOnly_cxs _ _ ⟨fun p hp => ⟨q, errAt_acts z _ p hp⟩, rfl⟩
  have hDt : tp n z D = faultEffect z c.cnots k q := by
    rw [hD, hcxs, tp_cxs, hP, tp_errAt]; rfl
  have hFt : tp n z (noisyFrame N 0) = faultEffect z c.cnots k q := by
    rw [hFr2, tp_firstRound _ (fun i hi => hi), hDt]
  have hbit : ∀ j < ms.length, (noisyFrame N 0).2 (rbit z j) = 0 := by
    intro j hj
    have := firstRound_bits z ms D hDo (ms[j], j) (by rw [List.mem_zipIdx_iff_getElem?]; simp [hj])
    rw [hFr2, this, hDt]
    exact hund _ (List.getElem_mem _)
  obtain ⟨b, hrun⟩ := noisy_run s (fun _ => 0) N (zeros (register n z ms.length))
    (by
      intro L hL
      refine valid_verified z c ms hne L.instr ?_
      rw [← hNi]; exact List.mem_map_of_mem hL)
    (by rw [hNi, bits_verified]; exact List.nodup_range.map (rbit_inj z))
  rw [hNi, run_verified z c S ms hnd hne hS hms s hs, if_pos (by
    intro j hj; simp only [zero_add]; exact hbit j hj)] at hrun
  refine ⟨N, b, (noisyFrame N 0).1, hNi, hNf, hNc, ?_, hrun⟩
  rw [← hFt]
  funext j; cases z <;> rfl

include hnd hne hS hms in
/-- If one fault has an undetected effect that is not equivalent to an error of weight at most `w`, a decoder that answers the syndrome of
this effect with an error of weight at most `w` leaves a logical error. -/
theorem not_corrected (s : R) (hs : 2 * s * s = 1) [Nontrivial R] (w : ℤ) (k : ℕ) (q : Fin n)
    (hlt : k < c.cnots.length) (hd : Dangerous S w (faultEffect z c.cnots k q))
    (hund : ∀ m ∈ ms, dot m (faultEffect z c.cnots k q) = 0) (H : List (Vec n)) (hH : ∀ g ∈ H, ∀ r ∈ S, dot r g = 0)
    (decode : List (ZMod 2) → Option (Vec n)) (hdec : ∀ v, decode (mulVec H (faultEffect z c.cnots k q)) = some v → (wt v : ℤ) ≤ w) :
    ¬ PreparesCorrected s z (fun i : Fin n => VQ.data i) 1 H decode (prepInstrs c ++ firstRound z ms) (register n z ms.length) := by
  intro hpc
  obtain ⟨N, b, G, hNi, hNf, hNc, hG, hrun⟩ := verified_single_fault z c S ms hnd hne hS hms s hs k q hlt hund
  set u := faultEffect z c.cnots k q with hu
  obtain ⟨hX, hZ⟩ := verified_stabilized s hs z c S ms hnd hne hS hms
  rw [run_verified_zero z c S ms hnd hne hS hms s hs] at hX hZ
  have hpc := hpc N hNi hNf hNc
  rw [run_verified_zero z c S ms hnd hne hS hms s hs] at hpc
  set Φ : State VQ R := withBits ((List.range ms.length).map fun i => (ranc z i, 0)) (prepared s c) with hΦ
  have hinvol : ∀ e : PauliErr VQ, applyOp e (applyOp e Φ) = fun y => (sgn (zdot e.2 e.1) : R) * Φ y := by
    intro e
    rw [applyOp_add, pauli_self, applyOp_zero]
  have hΦ0 : Φ (fun _ => 0) = s ^ c.hadamards.length := by
    rw [hΦ, withBits, if_pos]
    · exact prepared_zero s c hnd _ rfl
    · intro p hp
      obtain ⟨i, -, rfl⟩ := List.mem_map.1 hp
      rfl
  have hΦne : Φ ≠ fun _ => 0 := by
    intro h0
    have hsu : IsUnit (s ^ c.hadamards.length) :=
      IsUnit.pow _ ⟨⟨s, 2 * s, by linear_combination hs, by linear_combination hs⟩, rfl⟩
    rw [h0] at hΦ0
    exact hsu.ne_zero hΦ0.symm
  have hcancel : ∀ (b : ZMod 2) (φ χ : State VQ R), (fun y => (sgn b : R) * φ y) = χ → φ = fun y => (sgn b : R) * χ y := by
    intro b φ χ h
    subst h
    funext y
    linear_combination (-φ y) * sgn_sq (R := R) b
  rcases hpc with h0 | ⟨-, hall⟩
  · apply hΦne
    rw [hrun] at h0
    have h1 := hcancel b _ _ h0
    have h2 := hinvol G
    rw [h1] at h2
    have h3 := hcancel _ _ _ h2.symm
    rw [h3]
    funext y
    simp [applyOp]
  · have hGu : errorOn (fun i : Fin n => VQ.data i) z G = u := by
      rw [← hG]
      funext i; cases z <;> rfl
    have hsyn : HasSyndrome z (fun i : Fin n => VQ.data i) H (mulVec H u) (runNoisy s (fun _ => 0) N (zeros (register n z ms.length))) := by
      unfold HasSyndrome mulVec
      rw [List.forall₂_map_right_iff, List.forall₂_same]
      intro g hg
      rw [hrun, applyOp_smul, applyOp_comm, hZ g (hH g hg), hGu]
      funext y
      ring
    obtain ⟨v, b', e, hv, he, hcor⟩ := hall _ hsyn
    have hwv := hdec v hv
    -- e + v + G acts as a sign
    rw [hrun, applyOp_smul, applyOp_add] at hcor
    have h1 := hcancel _ _ _ (hcancel _ _ _ hcor).symm
    have h2 := hcancel _ _ _ h1.symm
    have h3 : applyOp e (applyOp e Φ) = applyOp e (fun y => (sgn b' : R) * (sgn b * (sgn (zdot G.2 (pauliOn z (fun i : Fin n => VQ.data i) v).1) *
        applyOp (pauliOn z (fun i : Fin n => VQ.data i) v + G) Φ y))) := by
      congr 1
      have := hcancel b' _ _ hcor.symm
      rw [this]
    rw [hinvol, applyOp_smul, applyOp_smul, applyOp_smul, applyOp_add] at h3
    have h5 := stab_of_eigen z c S hnd hne hS s hs ms.length (e + (pauliOn z (fun i : Fin n => VQ.data i) v + G))
      (b' + b + zdot G.2 (pauliOn z (fun i : Fin n => VQ.data i) v).1 +
        zdot (pauliOn z (fun i : Fin n => VQ.data i) v + G).2 e.1 + zdot e.2 e.1) (by
      rw [← hΦ]
      funext y
      have h4 := congrFun h3 y
      simp only at h4
      rw [sgn_add, sgn_add, sgn_add, sgn_add]
      have q1 := sgn_sq (R := R) b'
      have q2 := sgn_sq (R := R) b
      have q3 := sgn_sq (R := R) (zdot G.2 (pauliOn z (fun i : Fin n => VQ.data i) v).1)
      have q4 := sgn_sq (R := R) (zdot (pauliOn z (fun i : Fin n => VQ.data i) v + G).2 e.1)
      generalize (sgn b' : R) = x1 at *
      generalize (sgn b : R) = x2 at *
      generalize (sgn (zdot G.2 (pauliOn z (fun i : Fin n => VQ.data i) v).1) : R) = x3 at *
      generalize (sgn (zdot (pauliOn z (fun i : Fin n => VQ.data i) v + G).2 e.1) : R) = x4 at *
      generalize (sgn (zdot e.2 e.1) : R) = x5 at *
      generalize applyOp (e + (pauliOn z (fun i : Fin n => VQ.data i) v + G)) Φ y = X at *
      generalize Φ y = Y at *
      have e1 : x1 * x2 * x3 * x4 * x5 * Y = (x1 * x1) * (x2 * x2) * (x3 * x3) * (x4 * x4) * X := by
        linear_combination (x1 * x2 * x3 * x4) * h4
      rw [e1, q1, q2, q3, q4]
      ring)
    have h6 : tp n z (e + (pauliOn z (fun i : Fin n => VQ.data i) v + G), 0) = v + u := by
      have h7 := errorOn_add (fun i : Fin n => VQ.data i) z e (pauliOn z (fun i : Fin n => VQ.data i) v + G)
      have h9 := errorOn_add (fun i : Fin n => VQ.data i) z (pauliOn z (fun i : Fin n => VQ.data i) v) G
      have h8 : errorOn (fun i : Fin n => VQ.data i) z e = 0 := funext he
      rw [h9, errorOn_pauliOn _ data_injective, hGu, h8, zero_add] at h7
      rw [← h7]
      funext i; cases z <;> rfl
    rw [h6] at h5
    have := hd v (by rw [Equivalent, add_comm]; exact h5)
    omega

end

/-- The claim for the zero states of all codes, with the circuits of `heuristic_prep_circuit` and `heuristic_verification_circuit`. -/
def C137_claim (s : R) : Prop :=
  ∀ (c : CSS.Code) (rref : List (Vec c.n) → List (Vec c.n)) (optimizeDepth : Bool) (fuel : ℕ) (sp : StatePrep c.n)
    (ord : List CSet → List CSet) (leader : Vec c.n → List (Vec c.n) → Vec c.n) (findLeaders : Bool) (limit fuel' : ℕ)
    (l : List (Instr VQ VC)) (initLuts : Bool) (hist : List Lut.Call),
    CSS.Built c → RrefOk rref → OrdOk ord → (∀ e gens, CosetLeader e gens (leader e gens)) →
    sp.hx = c.hx → sp.hz = c.hz → sp.zeroState = true → (∀ a ∈ sp.checks true, ∀ b ∈ sp.checks false, dot a b = 0) →
    sp.dist ≤ sp.xDist → 3 ≤ sp.dist → sp.errorDetection = false → Named.IsMinWeight c.hx c.hz sp.xDist →
    heuristicPrep rref sp.hx optimizeDepth true fuel = some sp.circ →
    heuristicVerification ord leader findLeaders limit fuel' sp false (cachesAfter sp leader [] []) = .ok l →
    PreparesCorrected s true (fun i : Fin c.n => VQ.data i) sp.maxErrors c.hz
      (fun σ => (Lut.decodeX (Lut.after c initLuts hist) σ).1) l (qubitsOf c.n true (bitsOf l).length)

private theorem shor_comm : ∀ a ∈ spShor.checks true, ∀ b ∈ spShor.checks false, dot a b = 0 := by decide +kernel
private theorem shor_dist : spShor.dist ≤ spShor.xDist := by decide
private theorem shor_dist3 : 3 ≤ spShor.dist := by decide
private theorem shor_max : spShor.maxErrors = 1 := by decide
private theorem shor_syn : mulVec spShor.hz (![0,0,0,1,0,0,0,0,0] : Vec 9) = mulVec spShor.hz (faultEffect true spShor.circ.cnots 4 4) := by
  decide +kernel
private theorem steane_comm : ∀ a ∈ spSteane.checks true, ∀ b ∈ spSteane.checks false, dot a b = 0 := by decide +kernel
private theorem steane_dist : spSteane.dist ≤ spSteane.xDist := by decide
private theorem steane_dist3 : 3 ≤ spSteane.dist := by decide
private theorem steane_max : spSteane.maxErrors = 1 := by decide
private theorem steane_nodup : spSteane.circ.hadamards.Nodup := by decide
private theorem steane_ne : ∀ g ∈ spSteane.circ.cnots, g.1 ≠ g.2 := by decide
private theorem steane_front : removeFrontLayer spSteane.circ.hadamards spSteane.circ.cnots = spSteane.circ.cnots := by decide
private theorem steane_early : EarlyEnumerated (spSteane.side bruteLeader true) :=
  earlyEnumerated_of_covered _ (by decide) (earlyCovered_of _ (by decide +kernel))

/-- **C137 is violated** on the Shor code of the repository: one X fault on qubit 4 between two gates of the preparation becomes X₄X₅, the
run is accepted, the decoder finds X₃, and the corrected state has the logical error X₃X₄X₅. -/
theorem C137_violated (s : R) (hs : 2 * s * s = 1) [Nontrivial R] : ¬ C137_claim s := by
  intro hclaim
  obtain ⟨c, h1, -, -, -, -, -, -, h8, -⟩ := Named.C13_named CSS.refLib "shor" none _ (.shor none)
  have ht : Named.table.lookup (Named.lookupName "shor" none) = some Named.shor := rfl
  rw [Named.fromCodeName, ht] at h1
  have hb : CSS.Built c := ⟨CSS.refLib, CSS.refLib_correct, _, _, _, _, _, h1⟩
  obtain ⟨-, f1, f2, -⟩ := CSS.C08_ctor_sound _ _ _ _ _ _ _ h1
  obtain ⟨f0, f3⟩ := f1 _ rfl
  obtain ⟨-, f4⟩ := f2 _ rfl
  have key : ∀ (c : CSS.Code), CSS.Built c → Named.IsMinWeight c.hx c.hz 3 → (hn : c.n = 9) →
      HEq c.hx (Named.shor.hx.map (Named.toVec 9)) → HEq c.hz (Named.shor.hz.map (Named.toVec 9)) → False := by
    intro c hb hmin hn e1 e2
    obtain ⟨n, hx', hz', stab, dd, dx, dz, lx, lz⟩ := c
    simp only at hn
    subst hn
    simp only [heq_eq_eq] at e1 e2
    have e1' : hx' = spShor.hx := by rw [e1]; decide +kernel
    have e2' : hz' = spShor.hz := by rw [e2]; decide +kernel
    clear e1 e2
    subst e1' e2'
    have hp := circ_of_pair prep_shor
    have hr := okOf_some run_shor
    have hpc := hclaim ⟨9, spShor.hx, spShor.hz, stab, dd, dx, dz, lx, lz⟩ (someRref 9) true 60 spShor id bruteLeader true 1000 100
      (prepInstrs spShor.circ ++ firstRound true [![1,0,0,1,0,0,1,0,0]]) true [] hb (someRref_ok 9) (fun _ => List.Perm.refl _)
      bruteLeader_spec rfl rfl rfl shor_comm shor_dist shor_dist3 rfl hmin hp hr
    have hS : PreparesZero spShor.circ.hadamards spShor.circ.cnots spShor.hx :=
      (C28_heuristic (someRref 9) (someRref_ok 9) _ true 60 _).1 hp
    rw [bitsOf_verified, shor_max] at hpc
    refine not_corrected true spShor.circ spShor.hx [![1,0,0,1,0,0,1,0,0]] (by decide) (by decide) hS (by decide +kernel)
      s hs 1 4 4 (by decide) (dangerous_of (by decide +kernel)) (by decide +kernel) spShor.hz (by decide +kernel) _ ?_ hpc
    intro v hv
    obtain ⟨e, he1, he2⟩ := Lut.C23_decode_x_min_weight
      ⟨9, spShor.hx, spShor.hz, stab, dd, dx, dz, lx, lz⟩ true [] (mulVec spShor.hz (faultEffect true spShor.circ.cnots 4 4)) ⟨_, rfl⟩
    simp only at hv
    rw [he1] at hv
    obtain rfl := Option.some.inj hv
    have := he2.2 (![0,0,0,1,0,0,0,0,0] : Vec 9) shor_syn
    have hw : wt (![0,0,0,1,0,0,0,0,0] : Vec 9) = 1 := by decide +kernel
    rw [hw] at this
    exact_mod_cast this
  exact key c hb h8 f0.symm f3.symm f4.symm

/-- The hypotheses of `C137_zero_partial` are met by the Steane code: any one fault is corrected. -/
example (s : R) (hs : 2 * s * s = 1) (c : CSS.Code) (hn : c.n = 7) (h1 : HEq c.hx spSteane.hx) (h2 : HEq c.hz spSteane.hz)
    (hmin : Named.IsMinWeight c.hx c.hz 3) : ∃ l : List (Instr VQ VC),
    PreparesCorrected s true (fun i : Fin c.n => VQ.data i) 1 c.hz (fun σ => (Lut.decodeX (Lut.after c true []) σ).1) l
      (qubitsOf c.n true (bitsOf l).length) := by
  obtain ⟨n, hx', hz', stab, dd, dx, dz, lx, lz⟩ := c
  simp only at hn
  subst hn
  simp only [heq_eq_eq] at h1 h2
  subst h1 h2
  have hS : PreparesZero spSteane.circ.hadamards spSteane.circ.cnots spSteane.hx :=
    (C28_heuristic (someRref 7) (someRref_ok 7) _ true 30 _).1 (circ_of_pair prep_steane)
  have := C137_zero_partial s hs id (fun _ => List.Perm.refl _) ⟨7, spSteane.hx, spSteane.hz, stab, dd, dx, dz, lx, lz⟩ bruteLeader bruteLeader_spec
    true 10 20 spSteane rfl rfl rfl steane_nodup steane_ne hS steane_comm steane_dist steane_dist3 rfl hmin steane_front
    steane_early [] [] _ (okOf_some run_steane) true []
  rw [steane_max] at this
  exact ⟨_, this⟩

private theorem surface_run : okOf (heuristicVerification id bruteLeader true 1000 100 spSurface false (cachesAfter spSurface bruteLeader [] [])) =
    some (prepInstrs spSurface.circ ++ firstRound false [![1,0,1,0,0,1,1,0,0]]) := by decide +kernel
private theorem surface_comm : ∀ a ∈ spSurface.checks false, ∀ b ∈ spSurface.checks true, dot a b = 0 := by decide +kernel
private theorem surface_dist : spSurface.dist ≤ spSurface.zDist := by decide
private theorem surface_dist3 : 3 ≤ spSurface.dist := by decide
private theorem surface_max : spSurface.maxErrors = 1 := by decide
private theorem surface_nodup : spSurface.circ.hadamards.Nodup := by decide
private theorem surface_ne : ∀ g ∈ spSurface.circ.cnots, g.1 ≠ g.2 := by decide
private theorem surface_early : EarlyEnumerated (spSurface.side bruteLeader false) :=
  earlyEnumerated_of_covered _ (by decide) (early_surface false)
private theorem surface_sd : decide (spSurface.hx.length = spSurface.hz.length ∧ rank spSurface.hx = rank (spSurface.hx ++ spSurface.hz)) = false := by
  decide +kernel
private theorem surface_front : removeFrontLayer spSurface.circ.hadamards spSurface.circ.cnots = spSurface.circ.cnots := by decide

/-- The hypotheses of `C137_plus_partial` are met by the plus state of the rotated surface code of distance 3. -/
example (s : R) (hs : 2 * s * s = 1) (c : CSS.Code) (hn : c.n = 9) (h1 : HEq c.hx spSurface.hx) (h2 : HEq c.hz spSurface.hz)
    (hmin : Named.IsMinWeight c.hz c.hx 3) : ∃ l : List (Instr VQ VC),
    PreparesCorrected s false (fun i : Fin c.n => VQ.data i) 1 c.hx (fun σ => (Lut.decodeZ (Lut.after c true []) σ).1) l
      (qubitsOf c.n false (bitsOf l).length) := by
  obtain ⟨n, hx', hz', stab, dd, dx, dz, lx, lz⟩ := c
  simp only at hn
  subst hn
  simp only [heq_eq_eq] at h1 h2
  subst h1 h2
  have hS : PreparesPlus spSurface.circ.hadamards spSurface.circ.cnots spSurface.hz :=
    (C28_heuristic (someRref 9) (someRref_ok 9) _ true 60 _).2 (circ_of_pair prep_surface)
  have := C137_plus_partial s hs id (fun _ => List.Perm.refl _) ⟨9, spSurface.hx, spSurface.hz, stab, dd, dx, dz, lx, lz⟩ bruteLeader bruteLeader_spec
    true 1000 100 spSurface rfl rfl rfl surface_nodup surface_ne hS surface_comm surface_dist surface_dist3 rfl hmin surface_front
    surface_early [] [] _ (okOf_some surface_run) true [] (.inl surface_sd)
  rw [surface_max] at this
  exact ⟨_, this⟩

end Verif.SP
