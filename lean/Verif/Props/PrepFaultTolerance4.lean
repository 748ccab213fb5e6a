import Verif.Lemmas.PrepFull7
import Verif.Props.PrepFaultTolerance2

/-!
# C104: verification with full fault tolerance (the default)
-/

namespace Verif.SP
open Verif Verif.Spec
variable {n : ℕ} {R : Type} [CommRing R]

theorem length_supp (m : Vec n) : (supp m).length = wt m := by
  unfold supp wt
  rw [List.length_map, ← List.toFinset_card_of_nodup ((List.nodup_finRange n).filter _)]
  congr 1
  ext i
  rcases zmod2_cases (m i) with h | h <;> simp [h]

theorem flagsOk_of {t : ℕ} {m2 : List (Vec n)} (h : ∀ m ∈ m2, (stepsOf t (supp m)).isSome)
    (hw : t = 1 → ∀ m ∈ m2, wt m ≠ 1) : FlagsOk t m2 := by
  intro m hm
  refine ⟨h m hm, fun ht => ?_⟩
  have h1 := hw ht m hm
  rw [← length_supp] at h1
  have h2 : (supp m).length ≠ 0 := by
    intro h0
    have := h m hm
    rw [List.length_eq_zero_iff] at h0
    rw [h0, ht] at this
    simp [stepsOf] at this
  omega

theorem verifiedPrep_full {c : PrepCircuit n} {stabsFun : Bool → Option (List (Vec n)) → List (List (Vec n))} {z : Bool} {t : ℕ}
    {l : List (Instr VQ VC)} {m1 m2 : List (Vec n)} (hm1 : (stabsFun z none).flatten = m1)
    (hm2 : (stabsFun (!z) (some (hookErrors m1))).flatten = m2) (h : verifiedPrep c stabsFun z t true = .ok l)
    (hw : t = 1 → ∀ m ∈ m2, wt m ≠ 1) :
    l = prepInstrs c ++ (bothRounds z t m1 m2 ++ againZ z m2.length) ∧ FlagsOk t m2 := by
  subst hm1
  unfold verifiedPrep verificationCircuit at h
  simp only [if_true] at h
  rw [hm2] at h
  cases hv : (if z then measureFtStabs z t true m2 (stabsFun z none).flatten
      else measureFtStabs z t true (stabsFun z none).flatten m2) with
  | error e => rw [hv] at h; cases h
  | ok l' =>
    rw [hv] at h
    cases h
    obtain ⟨h1, h2⟩ := measureFtStabs_shape z t _ m2 l' hv
    exact ⟨by rw [h1], flagsOk_of h2 hw⟩

/-- Without faults every measurement of both rounds gives 0, flags included, and the circuit ends in the prepared state: for
every prescribed list of outcomes the run is the preparation alone if they are all 0 and impossible otherwise. -/
theorem C104_fault_free (s : R) (hs : 2 * s * s = 1) (z : Bool) (c : PrepCircuit n) (S : List (Vec n))
    (hnd : c.hadamards.Nodup) (hne : ∀ g ∈ c.cnots, g.1 ≠ g.2)
    (hS : if z then PreparesZero c.hadamards c.cnots S else PreparesPlus c.hadamards c.cnots S)
    (stabsFun : Bool → Option (List (Vec n)) → List (List (Vec n))) (t : ℕ) (l : List (Instr VQ VC)) (m1 m2 : List (Vec n))
    (hm1 : (stabsFun z none).flatten = m1) (hm2 : (stabsFun (!z) (some (hookErrors m1))).flatten = m2)
    (h1 : ∀ m ∈ m1, ∀ r ∈ S, dot r m = 0) (h2 : ∀ m ∈ m2, m ∈ rowSpan S) (hone : t = 1 → ∀ m ∈ m2, wt m ≠ 1)
    (h : verifiedPrep c stabsFun z t true = .ok l) (out : VC → ZMod 2) :
    run s out l (zeros (usedQubits (fun i : Fin n => VQ.data i) l)) =
      if ∀ b ∈ bitsOf l, out b = 0 then run s out (prepInstrs c) (zeros (usedQubits (fun i : Fin n => VQ.data i) l))
      else fun _ => 0 := by
  obtain ⟨hl, hf⟩ := verifiedPrep_full hm1 hm2 h hone
  have hown : ∀ p ∈ (bothMeas z t m1 m2).flatMap Meas.start, ∀ i, p.1 ≠ VQ.data i := start_not_data z t m1 m2
  have hprep : run s out (prepInstrs c) (zeros (usedQubits (fun i : Fin n => VQ.data i) l)) =
      withBits ((bothMeas z t m1 m2).flatMap Meas.start) (prepared s c) := by
    rw [zeros_used z c t m1 m2 hf l hl, run_withBits s out _ _ _ (by
      intro i hi q hq p hp
      obtain ⟨j, rfl⟩ := prep_qubits c hi hq
      exact hown p hp j), run_prep_out]
    rfl
  have hbits : (∀ b ∈ bitsOf l, out b = 0) ↔ ∀ b ∈ bitsOf (bothRounds z t m1 m2), out b = 0 := by
    have e0 : bitsOf (prepInstrs c) = [] := by
      rw [prepInstrs, bitsOf_append]
      simp [bitsOf, List.filterMap_map]
    rw [hl, bitsOf_append, bitsOf_append, e0, List.nil_append]
    constructor
    · exact fun h b hb => h b (by simp [hb])
    · intro h b hb
      rcases List.mem_append.1 hb with hb | hb
      · exact h b hb
      · obtain ⟨i, hi, hib⟩ := List.mem_filterMap.1 hb
        cases z
        · simp only [againZ, Bool.false_eq_true, if_false] at hi
          obtain ⟨j, hj, rfl⟩ := List.mem_map.1 hi
          cases hib
          refine h _ ((mem_bits_both false t m1 m2 hf _).2 ?_)
          obtain ⟨p, hp, hpj, -⟩ := exists_zipIdx (List.mem_range.1 hj)
          refine ⟨measK true true t p, by simp only [bothMeas]; exact List.mem_append_right _ (List.mem_map_of_mem hp), .inl ?_⟩
          rw [measK_bit, hpj]; rfl
        · simp [againZ] at hi
  rw [hprep]
  by_cases hb : ∀ b ∈ bitsOf l, out b = 0
  · rw [if_pos hb]
    have hb' := hbits.1 hb
    conv_lhs => rw [zeros_used z c t m1 m2 hf l hl]
    rw [hl, ← List.append_assoc, run_append, run_full z c t m1 m2 S hnd hne hS h1 h2 s hs _ hf, if_pos hb']
    have := measure_again s out (if z then [] else (List.range m2.length).map fun i => (VQ.zanc i, VC.zc i))
      ((bothMeas z t m1 m2).flatMap Meas.start) (prepared s c) (by
        intro p hp
        cases z
        · simp only [Bool.false_eq_true, if_false] at hp
          obtain ⟨i, hi, rfl⟩ := List.mem_map.1 hp
          have hmem : (Instr.measure (.zanc i) (.zc i) : Instr VQ VC) ∈ againZ false m2.length := by
            simp only [againZ, Bool.false_eq_true, if_false]
            exact List.mem_map_of_mem hi
          obtain ⟨q, b, h, hm⟩ := again_start false t m1 m2 hmem
          cases h
          have : out (.zc i) = 0 := hb _ (by
            rw [hl, bitsOf_append, bitsOf_append]
            refine List.mem_append_right _ (List.mem_append_right _ ?_)
            exact List.mem_filterMap.2 ⟨_, hmem, rfl⟩)
          simp only [this]
          exact hm
        · simp at hp)
    cases z
    · simp only [Bool.false_eq_true, if_false, List.map_map] at this
      exact this
    · rfl
  · rw [if_neg hb]
    have hb' : ¬ ∀ b ∈ bitsOf (bothRounds z t m1 m2), out b = 0 := fun h => hb (hbits.2 h)
    rw [zeros_used z c t m1 m2 hf l hl, hl, ← List.append_assoc, run_append,
      run_full z c t m1 m2 S hnd hne hS h1 h2 s hs _ hf, if_neg hb']
    have := runNoisy_null s out ((againZ z m2.length).map clean)
    rwa [runNoisy_clean] at this

/-- A preparation circuit verified with full fault tolerance tolerates one fault with respect to X and Z errors exactly when
(a) every dangerous effect of the first kind (X for zero states) of a fault of the preparation circuit is detected by a
stabilizer of the first round, (b) every dangerous effect of the other kind is detected by one of the second round, and (c)
every dangerous error that a fault on an ancilla of the first round spreads to the data is detected in the second round.
`S` and `T` generate the stabilizers of the prepared state of the first and the other kind. -/
theorem C104_tolerates_iff (s : R) (hs : 2 * s * s = 1) [Nontrivial R] (z : Bool) (c : PrepCircuit n) (S T : List (Vec n))
    (hnd : c.hadamards.Nodup) (hne : ∀ g ∈ c.cnots, g.1 ≠ g.2)
    (hS : if z then PreparesZero c.hadamards c.cnots S else PreparesPlus c.hadamards c.cnots S)
    (hT : ∀ v, v ∈ rowSpan T ↔ ∀ r ∈ S, dot r v = 0)
    (stabsFun : Bool → Option (List (Vec n)) → List (List (Vec n))) (t : ℕ) (ht : 1 ≤ t) (l : List (Instr VQ VC))
    (m1 m2 : List (Vec n)) (hm1 : (stabsFun z none).flatten = m1) (hm2 : (stabsFun (!z) (some (hookErrors m1))).flatten = m2)
    (h1 : ∀ m ∈ m1, m ∈ rowSpan T) (h2 : ∀ m ∈ m2, m ∈ rowSpan S) (hone : t = 1 → ∀ m ∈ m2, wt m ≠ 1)
    (h : verifiedPrep c stabsFun z t true = .ok l) (wx wz : ℤ) (hwx : 1 ≤ wx) (hwz : 1 ≤ wz) :
    ToleratesOneFaultBoth s (fun i : Fin n => VQ.data i) wx wz l (usedQubits (fun i : Fin n => VQ.data i) l) ↔
      (∀ k q, k ≤ c.cnots.length → Dangerous S (if z then wx else wz) (faultEffect z c.cnots k q) →
        ∃ m ∈ m1, dot m (faultEffect z c.cnots k q) = 1) ∧
      (∀ k q, k ≤ c.cnots.length → Dangerous T (if z then wz else wx) (faultEffect (!z) c.cnots k q) →
        ∃ m ∈ m2, dot m (faultEffect (!z) c.cnots k q) = 1) ∧
      ∀ m ∈ m1, ∀ e, isHookError m e → Dangerous T (if z then wz else wx) e → ∃ m' ∈ m2, dot m' e = 1 := by
  obtain ⟨hl, hf⟩ := verifiedPrep_full hm1 hm2 h hone
  set W : Bool → ℤ := fun k => if k then wx else wz with hW
  have hWz : W z = if z then wx else wz := rfl
  have hWy : W (!z) = if z then wz else wx := by cases z <;> rfl
  have hw : ∀ k, 1 ≤ W k := by intro k; cases k <;> assumption
  rw [← hWz, ← hWy]
  have horth : ∀ m ∈ m1, ∀ r ∈ S, dot r m = 0 := fun m hm => (hT m).1 (h1 m hm)
  have hprep : Prepares (!z) c T := prepares_other z c S T hnd hne hS hT
  have hex : ∀ (ms : List (Vec n)) (e : Vec n), (¬ ∃ m ∈ ms, dot m e = 1) → ∀ m ∈ ms, dot m e = 0 := by
    intro ms e hno m hm
    rcases zmod2_cases (dot m e) with h | h
    · exact h
    · exact absurd ⟨m, hm, h⟩ hno
  constructor
  · intro hft
    refine ⟨fun k q hk hd => ?_, fun k q hk hd => ?_, fun m hm e he hd => ?_⟩
    · by_contra hcon
      refine prep_breaks z c t m1 m2 S hnd hne hS horth h2 W s hs hf l hl z S hS (hw z) k q hk hd
        (fun _ => hex _ _ hcon) (fun h => by cases z <;> cases h) hft
    · by_contra hcon
      refine prep_breaks z c t m1 m2 S hnd hne hS horth h2 W s hs hf l hl (!z) T hprep (hw _) k q hk hd
        (fun h => by cases z <;> cases h) (fun _ => hex _ _ hcon) hft
    · by_contra hcon
      exact hook_breaks z c t m1 m2 S T hnd hne hS horth h2 W s hs hf l hl hprep (hw _) m e hm he hd (hex _ _ hcon) hft
  · rintro ⟨ha, hb, hc⟩
    exact full_tolerates z c t m1 m2 S T hnd hne hS horth h2 W s hs
      (fun r hr => (hT r).1 (mem_rowSpan_of_mem hr)) hw ht hf ha hb hc l hl

/-! ### The search -/

theorem computeFaultSets_history (sp : StatePrep n) (leader : Vec n → List (Vec n) → Vec n) (hx hz : List (Bool × ℕ)) (s : Caches n)
    (h : computeFaultSets sp leader (cachesAfter sp leader hx hz) = .ok s) :
    ∃ hx' hz', s = cachesAfter sp leader hx' hz' := by
  simp only [computeFaultSets] at h
  cases h1 : computeFaultSet (sp.side leader true) true sp.maxErrors (cachesAfter sp leader hx hz).x with
  | error e => rw [h1] at h; cases h
  | ok r1 =>
    rw [h1] at h
    simp only at h
    cases h2 : computeFaultSet (sp.side leader false) true sp.maxErrors (cachesAfter sp leader hx hz).z with
    | error e => rw [h2] at h; cases h
    | ok r2 =>
      rw [h2] at h
      cases h
      refine ⟨hx ++ [(true, sp.maxErrors)], hz ++ [(true, sp.maxErrors)], ?_⟩
      unfold cachesAfter
      have ex : faultHistory (sp.side leader true) hx (freshCache n sp.maxErrors) = (cachesAfter sp leader hx hz).x := rfl
      have ez : faultHistory (sp.side leader false) hz (freshCache n sp.maxErrors) = (cachesAfter sp leader hx hz).z := rfl
      rw [faultHistory_append, faultHistory_append, ex, ez]
      simp only [faultHistory, h1, h2]

theorem get_cachesAfter (sp : StatePrep n) (leader : Vec n → List (Vec n) → Vec n) (hx hz : List (Bool × ℕ)) (x : Bool) :
    ∃ h, (cachesAfter sp leader hx hz).get x = faultHistory (sp.side leader x) h (freshCache n sp.maxErrors) := by
  cases x
  · exact ⟨hz, rfl⟩
  · exact ⟨hx, rfl⟩

/-- Every dangerous effect of one fault is equivalent to that of an enumerated one. -/
theorem enumerated_of_early (sd : Side n) (hl : ∀ f, CosetLeader f sd.stabs (sd.leader f))
    (hfl : removeFrontLayer sd.hadamards sd.cnots = sd.cnots) (hd : sd.d ≤ sd.dError) (hcn : sd.cnots ≠ [])
    (he : EarlyCovered sd) (u : Vec n) (hu : SingleFault sd u) (hdang : Dangerous sd.stabs (weightBound sd.d sd.dError 1) u) :
    ∃ x, EnumeratedFault sd x ∧ Equivalent sd.stabs u x := by
  obtain ⟨f, s', hc⟩ := computeFaultSet_succeeds sd 1 true 1 _ (freshCache_inv sd 1) le_rfl le_rfl (by rwa [hfl])
  have hc' : computeFaultSet sd true 1 (faultHistory sd [] (freshCache n 1)) = .ok (f, s') := hc
  obtain ⟨v, hv, hev⟩ := (C63_covered_iff sd hl hfl hd 1 [] true f s' hc').2 he u hu hdang
  obtain ⟨-, r, rfl⟩ := computeFaultSet_value sd 1 [] true 1 f s' hc'
  obtain ⟨w, hw, rfl, -⟩ := (mem_filterFaults hl).1 v hv
  have hw' : w ∈ singleFaults sd := by simpa [idealF] using hw
  rw [singleFaults, mem_npUnique, hfl, mem_faultList] at hw'
  obtain ⟨i, g, hg, rfl⟩ := hw'
  exact ⟨_, .inl ⟨i, g, hg, rfl⟩, hev.trans (C25_coset_leader _ _ _ (hl _)).1.symm⟩

theorem side_dError (sp : StatePrep n) (leader : Vec n → List (Vec n) → Vec n) (x : Bool) :
    (sp.side leader x).dError = ((if x then sp.xDist else sp.zDist : ℕ) : ℤ) := by
  simp only [StatePrep.side]; split <;> simp

theorem dangerous_of_equiv {S : List (Vec n)} {w : ℤ} {u v : Vec n} (h : Equivalent S u v) (hd : Dangerous S w u) : Dangerous S w v :=
  fun f hf => hd f (h.trans hf)

/-- One round of the search, with or without additional faults. -/
theorem findStabilizers_full (layer : LayerFn n) (sp : StatePrep n) (leader : Vec n → List (Vec n) → Vec n)
    (hlead : ∀ e gens, CosetLeader e gens (leader e gens)) (x : Bool)
    (hl : LayerSound layer (sp.checks (!x)))
    (hcss : ∀ a ∈ sp.checks x, ∀ b ∈ sp.checks (!x), dot a b = 0)
    (hm : 1 ≤ sp.maxErrors) (hd : sp.dist ≤ if x then sp.xDist else sp.zDist) (hcn : sp.circ.cnots ≠ [])
    (hfl : removeFrontLayer sp.circ.hadamards sp.circ.cnots = sp.circ.cnots)
    (hearly : EarlyCovered (sp.side leader x)) (A : Option (List (Vec n)))
    (hx hz : List (Bool × ℕ)) (layers : List (List (Vec n))) (s' : Caches n)
    (h : findStabilizers layer sp leader x A (cachesAfter sp leader hx hz) = .ok (layers, s')) :
    (∃ hx' hz', s' = cachesAfter sp leader hx' hz') ∧
    ((layers = [] ∧ ∃ k f, layer k f (sp.checks (!x)) = .ok none) ∨
    (∀ m ∈ layers.flatten, m ∈ rowSpan (sp.checks (!x))) ∧
    ∀ i q, i ≤ sp.circ.cnots.length →
      Dangerous (sp.checks x) (weightBound sp.dist (if x then sp.xDist else sp.zDist : ℕ) 1) (faultEffect x sp.circ.cnots i q) →
      ∃ m ∈ layers.flatten, dot m (faultEffect x sp.circ.cnots i q) = 1) := by
  have hdE := side_dError sp leader x
  have hdE' : (sp.side leader x).d ≤ (sp.side leader x).dError := by
    rw [hdE]
    show (sp.dist : ℤ) ≤ _
    exact_mod_cast hd
  -- detecting the leaders of the enumerated dangerous faults is enough
  have key : ∀ (L : List (List (Vec n))) (f : List (Vec n)), (∀ m ∈ L.flatten, m ∈ rowSpan (sp.checks (!x))) → Detects L.flatten f →
      (∀ u, EnumeratedFault (sp.side leader x) u →
        Dangerous (sp.checks x) (weightBound sp.dist (sp.side leader x).dError 1) u → ∃ v ∈ f, Equivalent (sp.checks x) u v) →
      ∀ i q, i ≤ sp.circ.cnots.length →
        Dangerous (sp.checks x) (weightBound sp.dist (if x then sp.xDist else sp.zDist : ℕ) 1) (faultEffect x sp.circ.cnots i q) →
        ∃ m ∈ L.flatten, dot m (faultEffect x sp.circ.cnots i q) = 1 := by
    intro L f hrow hdet hf i q hi hdang
    rw [← hdE] at hdang
    obtain ⟨u, hu, heu⟩ := enumerated_of_early (sp.side leader x) (fun e => hlead e _) hfl hdE' hcn hearly _ ⟨i, q, hi, rfl⟩ hdang
    obtain ⟨v, hv, hev⟩ := hf u hu (dangerous_of_equiv heu hdang)
    obtain ⟨m, hm, h1⟩ := hdet v hv
    refine ⟨m, hm, ?_⟩
    have h0 : dot m (faultEffect x sp.circ.cnots i q + v) = 0 := by
      rw [dot_comm]
      refine dot_eq_zero_of_mem_rowSpan (fun r hr => ?_) (heu.trans hev)
      rw [dot_comm]
      exact dot_eq_zero_of_mem_rowSpan (fun b hb => by rw [dot_comm]; exact hcss r hr b hb) (hrow m hm)
    rw [dot_add_right, h1] at h0
    rcases zmod2_cases (dot m (faultEffect x sp.circ.cnots i q)) with h | h
    · rw [h] at h0; exact absurd h0 (by decide)
    · exact h
  simp only [findStabilizers] at h
  cases hc : computeFaultSets sp leader (cachesAfter sp leader hx hz) with
  | error e => rw [hc] at h; cases h
  | ok s =>
    rw [hc] at h
    simp only at h
    obtain ⟨hx', hz', rfl⟩ := computeFaultSets_history sp leader hx hz s hc
    obtain ⟨hist, hhist⟩ := get_cachesAfter sp leader hx' hz' x
    -- content of a set of single faults computed after a history
    have hset : ∀ (h0 : List (Bool × ℕ)) (s1 : Cache n) (f : List (Vec n)),
        s1 = faultHistory (sp.side leader x) h0 (freshCache n sp.maxErrors) → s1.sets[1]?.join = some f →
        ∀ u, EnumeratedFault (sp.side leader x) u →
          Dangerous (sp.checks x) (weightBound sp.dist (sp.side leader x).dError 1) u → ∃ v ∈ f, Equivalent (sp.checks x) u v := by
      rintro h0 s1 f rfl hf u hu hdang
      have hf' : (faultHistory (sp.side leader x) h0 (freshCache n sp.maxErrors)).sets[1]? = some (some f) := by
        cases h5 : (faultHistory (sp.side leader x) h0 (freshCache n sp.maxErrors)).sets[1]? with
        | none => rw [h5] at hf; cases hf
        | some o => rw [h5] at hf; simp only [Option.join_some] at hf; rw [hf]
      have hcf : computeFaultSet (sp.side leader x) true 1 (faultHistory (sp.side leader x) h0 (freshCache n sp.maxErrors)) =
          .ok (f, faultHistory (sp.side leader x) h0 (freshCache n sp.maxErrors)) := by
        unfold computeFaultSet
        rw [hf']
      obtain ⟨-, r, rfl⟩ := computeFaultSet_value _ _ _ _ _ _ _ hcf
      rcases hu with ⟨i, g, hg, rfl⟩ | ⟨q, rfl⟩
      · refine (mem_filterFaults fun e => hlead e _).2 _ ?_ hdang
        have : idealF (sp.side leader x) 1 = singleFaults (sp.side leader x) := by simp [idealF]
        rw [this, singleFaults, mem_npUnique]
        have e : removeFrontLayer (sp.side leader x).hadamards (sp.side leader x).cnots = (sp.side leader x).cnots := hfl
        rw [e, mem_faultList]
        exact ⟨i, g, hg, rfl⟩
      · exfalso
        have h1 := hdang _ (.refl _ _)
        rw [wt_single] at h1
        have h2 := C27_bound (sp.dist : ℤ) (sp.side leader x).dError 1 hdE'
        push_cast at h1 h2
        omega
    cases A with
    | none =>
      simp only at h
      cases hL : layersLoop layer ((cachesAfter sp leader hx' hz').get x).sets (sp.checks (!x)) (List.range' 1 sp.maxErrors) [] with
      | error e => rw [hL] at h; cases h
      | ok L =>
        rw [hL] at h
        have e := Prod.mk.inj (Except.ok.inj h)
        rw [← e.1, ← e.2]
        refine ⟨⟨_, _, rfl⟩, ?_⟩
        rcases layersLoop_sound layer _ hl _ _ [] L (by simp) hL with ⟨h1, k, -, f, h2⟩ | ⟨-, h2, h3⟩
        · exact .inl ⟨h1, k, f, h2⟩
        obtain ⟨f, hf, hdet⟩ := h3 1 (by rw [List.mem_range'_1]; omega)
        exact .inr ⟨h2, key L f h2 hdet (hset hist _ f hhist hf)⟩
    | some A =>
      simp only at h
      cases hcb : combineFaults (sp.side leader x) sp.maxErrors A ((cachesAfter sp leader hx' hz').get x) with
      | error e => rw [hcb] at h; cases h
      | ok r =>
        obtain ⟨fs, s2⟩ := r
        rw [hcb] at h
        simp only at h
        cases hL : layersLoop layer fs (sp.checks (!x)) (List.range' 1 sp.maxErrors) [] with
        | error e => rw [hL] at h; cases h
        | ok L =>
          rw [hL] at h
          have e := Prod.mk.inj (Except.ok.inj h)
          rw [← e.1, ← e.2]
          refine ⟨⟨_, _, rfl⟩, ?_⟩
          rcases layersLoop_sound layer _ hl _ _ [] L (by simp) hL with ⟨h1, k, -, f, h2⟩ | ⟨-, h2, h3⟩
          · exact .inl ⟨h1, k, f, h2⟩
          obtain ⟨f, hf, hdet⟩ := h3 1 (by rw [List.mem_range'_1]; omega)
          refine .inr ⟨h2, key L f h2 hdet ?_⟩
          rw [hhist] at hcb
          by_cases hA : A = []
          · subst hA
            simp only [combineFaults] at hcb
            cases h4 : computeFaultSet (sp.side leader x) true sp.maxErrors
                (faultHistory (sp.side leader x) hist (freshCache n sp.maxErrors)) with
            | error e => rw [h4] at hcb; cases hcb
            | ok r4 =>
              obtain ⟨f4, s4⟩ := r4
              rw [h4] at hcb
              simp only [List.length_nil, if_true] at hcb
              have e4 := Prod.mk.inj (Except.ok.inj hcb)
              refine hset (hist ++ [(true, sp.maxErrors)]) s4 f ?_ (by rw [e4.1]; exact hf)
              rw [faultHistory_append]
              simp only [faultHistory, h4]
          · obtain ⟨out, s5, hout, hcont⟩ := C65_combine_faults (sp.side leader x) (fun e => hlead e _) hfl hcn sp.maxErrors hm hist A hA
            rw [hout] at hcb
            have e5 := Prod.mk.inj (Except.ok.inj hcb)
            obtain ⟨f', hf', hmem⟩ := hcont 1 le_rfl hm
            rw [e5.1, hf] at hf'
            cases hf'
            intro u hu hdang
            refine ⟨(sp.side leader x).leader u, (hmem _).2 ⟨u, ⟨[u], rfl, (by intro y hy; rw [List.mem_singleton.1 hy]; exact Or.inl hu), by simp⟩, rfl, hdang⟩, ?_⟩
            exact (C25_coset_leader _ _ _ (hlead u _)).1

/-- A hook error of a stabilizer of weight at most 3 is equivalent to an error of weight at most 1. -/
theorem hook_light {T : List (Vec n)} {w : ℤ} (hw : 1 ≤ w) {m e : Vec n} (hm : m ∈ rowSpan T) (h3 : wt m ≤ 3)
    (he : isHookError m e) : ¬ Dangerous T w e := by
  intro hd
  have h1 := hd e (.refl _ _)
  have h2 := hd (e + m) (by
    show e + (e + m) ∈ rowSpan T
    rw [← add_assoc, add_self_eq_zero', zero_add]; exact hm)
  obtain ⟨k, hk⟩ := he
  have : wt e + wt (e + m) = wt m := by
    unfold wt
    rw [← Finset.card_union_of_disjoint]
    · congr 1
      ext i
      simp only [Finset.mem_union, Finset.mem_filter, Finset.mem_univ, true_and, Pi.add_apply, hk i]
      by_cases hki : k ≤ i.val
      · rw [if_pos hki, add_self_eq_zero' (m i)]; simp
      · rw [if_neg hki]; simp
    · rw [Finset.disjoint_left]
      intro i
      simp only [Finset.mem_filter, Finset.mem_univ, true_and, Pi.add_apply, hk i]
      by_cases hki : k ≤ i.val
      · rw [if_pos hki, add_self_eq_zero' (m i)]; simp
      · rw [if_neg hki]; simp
  omega

/-- What `_verification_circuit` returns with full fault tolerance. -/
theorem verifyCircuit_full (layer : Bool → LayerFn n) (sp : StatePrep n)
    (leader : Vec n → List (Vec n) → Vec n) (hlead : ∀ e gens, CosetLeader e gens (leader e gens))
    (hlay : ∀ x, LayerSound (layer x) (sp.checks (!x)))
    (hcss : ∀ x, ∀ a ∈ sp.checks x, ∀ b ∈ sp.checks (!x), dot a b = 0)
    (hm : 1 ≤ sp.maxErrors) (hd : sp.dist ≤ sp.xDist ∧ sp.dist ≤ sp.zDist) (hcn : sp.circ.cnots ≠ [])
    (hfl : removeFrontLayer sp.circ.hadamards sp.circ.cnots = sp.circ.cnots)
    (hearly : ∀ x, EarlyCovered (sp.side leader x))
    (hx hz : List (Bool × ℕ)) (l : List (Instr VQ VC))
    (h : verifyCircuit layer sp leader true (cachesAfter sp leader hx hz) = .ok l) :
    ∃ m1 m2 : List (Vec n),
      verifiedPrep sp.circ (fun _ a => match a with | none => [m1] | some _ => [m2]) sp.zeroState
        (sp.maxErrorsOf sp.zeroState) true = .ok l ∧
      (∀ m ∈ m1, m ∈ rowSpan (sp.checks (!sp.zeroState))) ∧ (∀ m ∈ m2, m ∈ rowSpan (sp.checks sp.zeroState)) ∧
      (((∀ k f, layer sp.zeroState k f (sp.checks (!sp.zeroState)) ≠ .ok none) ∨ m1 ≠ []) →
        ∀ i q, i ≤ sp.circ.cnots.length → Dangerous (sp.checks sp.zeroState)
          (weightBound sp.dist (if sp.zeroState then sp.xDist else sp.zDist : ℕ) 1) (faultEffect sp.zeroState sp.circ.cnots i q) →
          ∃ m ∈ m1, dot m (faultEffect sp.zeroState sp.circ.cnots i q) = 1) ∧
      (((∀ k f, layer (!sp.zeroState) k f (sp.checks sp.zeroState) ≠ .ok none) ∨ m2 ≠ []) →
        ∀ i q, i ≤ sp.circ.cnots.length → Dangerous (sp.checks (!sp.zeroState))
          (weightBound sp.dist (if sp.zeroState then sp.zDist else sp.xDist : ℕ) 1) (faultEffect (!sp.zeroState) sp.circ.cnots i q) →
          ∃ m ∈ m2, dot m (faultEffect (!sp.zeroState) sp.circ.cnots i q) = 1) := by
  have hdx : ∀ x : Bool, sp.dist ≤ if x then sp.xDist else sp.zDist := by intro x; cases x; exacts [hd.2, hd.1]
  simp only [verifyCircuit, if_true] at h
  cases hf : findStabilizers (layer sp.zeroState) sp leader sp.zeroState none (cachesAfter sp leader hx hz) with
  | error e => rw [hf] at h; cases h
  | ok r =>
    obtain ⟨L1, s1⟩ := r
    rw [hf] at h
    simp only at h
    obtain ⟨⟨hx', hz', rfl⟩, hr1⟩ := findStabilizers_full _ sp leader hlead sp.zeroState (hlay _) (hcss _) hm (hdx _) hcn hfl (hearly _)
      none hx hz L1 s1 hf
    cases hg : findStabilizers (layer (!sp.zeroState)) sp leader (!sp.zeroState) (some (hookErrors L1.flatten))
        (cachesAfter sp leader hx' hz') with
    | error e => rw [hg] at h; cases h
    | ok r =>
      obtain ⟨L2, s2⟩ := r
      rw [hg] at h
      simp only at h
      obtain ⟨-, hr2⟩ := findStabilizers_full _ sp leader hlead (!sp.zeroState) (hlay _) (hcss _) hm (hdx _) hcn hfl (hearly _)
        _ hx' hz' L2 s2 hg
      rw [Bool.not_not] at hr2
      have hdd : (if (!sp.zeroState) = true then sp.xDist else sp.zDist) = if sp.zeroState then sp.zDist else sp.xDist := by
        cases sp.zeroState <;> rfl
      rw [hdd] at hr2
      refine ⟨L1.flatten, L2.flatten, ?_, ?_, ?_, ?_, ?_⟩
      · unfold verifiedPrep verificationCircuit
        simp only [List.flatten_cons, List.flatten_nil, List.append_nil, if_true]
        cases hv : (if sp.zeroState then measureFtStabs sp.zeroState (sp.maxErrorsOf sp.zeroState) true L2.flatten L1.flatten
            else measureFtStabs sp.zeroState (sp.maxErrorsOf sp.zeroState) true L1.flatten L2.flatten) with
        | error e => rw [hv] at h; cases h
        | ok l' => rw [hv] at h; cases h; rfl
      · rcases hr1 with ⟨rfl, -⟩ | ⟨h1, -⟩
        · simp
        · exact h1
      · rcases hr2 with ⟨rfl, -⟩ | ⟨h1, -⟩
        · simp
        · exact h1
      · rintro hs
        rcases hr1 with ⟨rfl, k, f, hkf⟩ | ⟨-, h1⟩
        · rcases hs with hs | hs
          · exact absurd hkf (hs k f)
          · exact absurd rfl hs
        · exact h1
      · rintro hs
        rcases hr2 with ⟨rfl, k, f, hkf⟩ | ⟨-, h1⟩
        · rcases hs with hs | hs
          · exact absurd hkf (hs k f)
          · exact absurd rfl hs
        · exact h1

/-- The condition on the ancilla faults: every dangerous error that a fault on an ancilla of the first round (measuring `m1`)
spreads to the data is detected by the second round (measuring `m2`). -/
def HooksDetected (T : List (Vec n)) (w : ℤ) (m1 m2 : List (Vec n)) : Prop :=
  ∀ m ∈ m1, ∀ e, isHookError m e → Dangerous T w e → ∃ m' ∈ m2, dot m' e = 1

theorem verifyCircuit_full_tolerates (s : R) (hs : 2 * s * s = 1) [Nontrivial R] (layer : Bool → LayerFn n) (sp : StatePrep n)
    (leader : Vec n → List (Vec n) → Vec n) (hlead : ∀ e gens, CosetLeader e gens (leader e gens))
    (hlay : ∀ x, LayerSound (layer x) (sp.checks (!x)))
    (hnd : sp.circ.hadamards.Nodup) (hne : ∀ g ∈ sp.circ.cnots, g.1 ≠ g.2)
    (hS : if sp.zeroState then PreparesZero sp.circ.hadamards sp.circ.cnots sp.hx
      else PreparesPlus sp.circ.hadamards sp.circ.cnots sp.hz)
    (hT : ∀ v, v ∈ rowSpan (sp.checks (!sp.zeroState)) ↔ ∀ r ∈ sp.checks sp.zeroState, dot r v = 0)
    (hm : 1 ≤ sp.maxErrors) (hd : sp.dist ≤ sp.xDist ∧ sp.dist ≤ sp.zDist) (hcn : sp.circ.cnots ≠ [])
    (hone : ∀ v ∈ rowSpan (sp.checks sp.zeroState), wt v ≠ 1)
    (hfl : removeFrontLayer sp.circ.hadamards sp.circ.cnots = sp.circ.cnots)
    (hearly : ∀ x, EarlyCovered (sp.side leader x))
    (hx hz : List (Bool × ℕ)) (l : List (Instr VQ VC))
    (h : verifyCircuit layer sp leader true (cachesAfter sp leader hx hz) = .ok l) :
    ∃ m1 m2 : List (Vec n),
      verifiedPrep sp.circ (fun _ a => match a with | none => [m1] | some _ => [m2]) sp.zeroState
        (sp.maxErrorsOf sp.zeroState) true = .ok l ∧
      (∀ m ∈ m1, m ∈ rowSpan (sp.checks (!sp.zeroState))) ∧ (∀ m ∈ m2, m ∈ rowSpan (sp.checks sp.zeroState)) ∧
      (((∀ k f, layer sp.zeroState k f (sp.checks (!sp.zeroState)) ≠ .ok none) ∨ m1 ≠ [] ∨ ∀ k q, k ≤ sp.circ.cnots.length → ¬ Dangerous (sp.checks sp.zeroState)
          (weightBound sp.dist (if sp.zeroState then sp.xDist else sp.zDist : ℕ) 1) (faultEffect sp.zeroState sp.circ.cnots k q)) →
       ((∀ k f, layer (!sp.zeroState) k f (sp.checks sp.zeroState) ≠ .ok none) ∨ m2 ≠ [] ∨ ∀ k q, k ≤ sp.circ.cnots.length → ¬ Dangerous (sp.checks (!sp.zeroState))
          (weightBound sp.dist (if sp.zeroState then sp.zDist else sp.xDist : ℕ) 1) (faultEffect (!sp.zeroState) sp.circ.cnots k q)) →
        (ToleratesOneFaultBoth s (fun i : Fin n => VQ.data i) (weightBound sp.dist sp.xDist 1) (weightBound sp.dist sp.zDist 1) l
            (usedQubits (fun i : Fin n => VQ.data i) l) ↔
          HooksDetected (sp.checks (!sp.zeroState))
            (weightBound sp.dist (if sp.zeroState then sp.zDist else sp.xDist : ℕ) 1) m1 m2) ∧
        ((∀ m ∈ m1, wt m ≤ 3) →
          ToleratesOneFaultBoth s (fun i : Fin n => VQ.data i) (weightBound sp.dist sp.xDist 1) (weightBound sp.dist sp.zDist 1) l
            (usedQubits (fun i : Fin n => VQ.data i) l))) := by
  have hcss0 : ∀ a ∈ sp.checks sp.zeroState, ∀ b ∈ sp.checks (!sp.zeroState), dot a b = 0 :=
    fun a ha b hb => (hT b).1 (mem_rowSpan_of_mem hb) a ha
  have hcss : ∀ x, ∀ a ∈ sp.checks x, ∀ b ∈ sp.checks (!x), dot a b = 0 := by
    intro x a ha b hb
    by_cases hxz : x = sp.zeroState
    · subst hxz; exact hcss0 a ha b hb
    · have e : (!x) = sp.zeroState := by cases x <;> cases hh : sp.zeroState <;> simp_all
      rw [e] at hb
      have e' : x = (!sp.zeroState) := by rw [← e, Bool.not_not]
      rw [e'] at ha
      rw [dot_comm]
      exact hcss0 b hb a ha
  obtain ⟨m1, m2, hv, h1, h2, ha, hb⟩ := verifyCircuit_full layer sp leader hlead hlay hcss hm hd hcn hfl hearly hx hz l h
  refine ⟨m1, m2, hv, h1, h2, fun hf1 hf2 => ?_⟩
  have hchk : sp.checks sp.zeroState = if sp.zeroState then sp.hx else sp.hz := by
    cases hz : sp.zeroState <;> simp [StatePrep.checks, StatePrep.xChecks, StatePrep.zChecks, hz]
  have hS' : if sp.zeroState then PreparesZero sp.circ.hadamards sp.circ.cnots (sp.checks sp.zeroState)
      else PreparesPlus sp.circ.hadamards sp.circ.cnots (sp.checks sp.zeroState) := by
    rw [hchk]
    cases hz : sp.zeroState <;> simpa [hz] using hS
  have hwx := C27_bound (sp.dist : ℤ) (sp.xDist : ℤ) 1 (by exact_mod_cast hd.1)
  have hwz := C27_bound (sp.dist : ℤ) (sp.zDist : ℤ) 1 (by exact_mod_cast hd.2)
  have ht : 1 ≤ sp.maxErrorsOf sp.zeroState := by
    have hdz : sp.dist ≤ if sp.zeroState then sp.xDist else sp.zDist := by cases sp.zeroState; exacts [hd.2, hd.1]
    unfold StatePrep.maxErrors at hm
    simp only [StatePrep.maxErrorsOf]
    split at hm
    · next hc => rw [if_pos hc]; omega
    · next hc => rw [if_neg hc]; omega
  have hw1 : (if sp.zeroState then weightBound sp.dist sp.xDist 1 else weightBound sp.dist sp.zDist 1) =
      weightBound sp.dist (if sp.zeroState then sp.xDist else sp.zDist : ℕ) 1 := by cases sp.zeroState <;> rfl
  have hw2 : (if sp.zeroState then weightBound sp.dist sp.zDist 1 else weightBound sp.dist sp.xDist 1) =
      weightBound sp.dist (if sp.zeroState then sp.zDist else sp.xDist : ℕ) 1 := by cases sp.zeroState <;> rfl
  have hw2' : 1 ≤ weightBound sp.dist (if sp.zeroState then sp.zDist else sp.xDist : ℕ) 1 := by
    cases sp.zeroState
    · exact_mod_cast hwx
    · exact_mod_cast hwz
  have hiff := C104_tolerates_iff s hs sp.zeroState sp.circ (sp.checks sp.zeroState) (sp.checks (!sp.zeroState)) hnd hne hS' hT
    (fun _ a => match a with | none => [m1] | some _ => [m2]) (sp.maxErrorsOf sp.zeroState) ht l m1 m2 (by simp) (by simp) h1 h2
    (fun _ m hm => hone m (h2 m hm)) hv (weightBound sp.dist sp.xDist 1) (weightBound sp.dist sp.zDist 1)
    (by exact_mod_cast hwx) (by exact_mod_cast hwz)
  rw [hw1, hw2] at hiff
  have hmain : ToleratesOneFaultBoth s (fun i : Fin n => VQ.data i) (weightBound sp.dist sp.xDist 1) (weightBound sp.dist sp.zDist 1) l
            (usedQubits (fun i : Fin n => VQ.data i) l) ↔
          HooksDetected (sp.checks (!sp.zeroState))
            (weightBound sp.dist (if sp.zeroState then sp.zDist else sp.xDist : ℕ) 1) m1 m2 := by
    rw [hiff]
    refine ⟨fun h => h.2.2, fun h => ⟨?_, ?_, h⟩⟩
    · rcases hf1 with hf1 | hf1 | hf1
      · exact ha (.inl hf1)
      · exact ha (.inr hf1)
      · exact fun k q hk hdang => absurd hdang (hf1 k q hk)
    · rcases hf2 with hf2 | hf2 | hf2
      · exact hb (.inl hf2)
      · exact hb (.inr hf2)
      · exact fun k q hk hdang => absurd hdang (hf2 k q hk)
  exact ⟨hmain, fun h3 => hmain.2 fun m hm e he hdang => absurd hdang (hook_light hw2' (h1 m hm) (h3 m hm) he)⟩

/-- **C104 (partial)**: the circuit returned by `heuristic_verification_circuit(sp)` (full fault tolerance is the default), after
any history of fault-set computations, measures stabilizers `m1` of the first kind and `m2` of the other, and tolerates one
fault with respect to X and Z errors exactly when the dangerous hook errors of the first round are detected in the second; in
particular if the stabilizers of the first round have weight at most 3.  Missing: the hook condition itself, which the search
does not ensure (`C104_violated_hook`), and preparation circuits in which a dangerous error present before the first gate is
not equivalent to an error after some CNOT (`hearly`), for which already the first round can fail (`C102_violated`). -/
theorem C104_heuristic_partial (s : R) (hs : 2 * s * s = 1) [Nontrivial R] (ord : List CSet → List CSet) (ho : OrdOk ord)
    (leader : Vec n → List (Vec n) → Vec n) (hlead : ∀ e gens, CosetLeader e gens (leader e gens)) (findLeaders : Bool)
    (limit fuel : ℕ) (sp : StatePrep n)
    (hnd : sp.circ.hadamards.Nodup) (hne : ∀ g ∈ sp.circ.cnots, g.1 ≠ g.2)
    (hS : if sp.zeroState then PreparesZero sp.circ.hadamards sp.circ.cnots sp.hx
      else PreparesPlus sp.circ.hadamards sp.circ.cnots sp.hz)
    (hT : ∀ v, v ∈ rowSpan (sp.checks (!sp.zeroState)) ↔ ∀ r ∈ sp.checks sp.zeroState, dot r v = 0)
    (hm : 1 ≤ sp.maxErrors) (hd : sp.dist ≤ sp.xDist ∧ sp.dist ≤ sp.zDist) (hcn : sp.circ.cnots ≠ [])
    (hone : ∀ v ∈ rowSpan (sp.checks sp.zeroState), wt v ≠ 1)
    (hfl : removeFrontLayer sp.circ.hadamards sp.circ.cnots = sp.circ.cnots)
    (hearly : ∀ x, EarlyCovered (sp.side leader x))
    (hx hz : List (Bool × ℕ)) (l : List (Instr VQ VC))
    (h : heuristicVerification ord leader findLeaders limit fuel sp true (cachesAfter sp leader hx hz) = .ok l) :
    ∃ m1 m2 : List (Vec n),
      verifiedPrep sp.circ (fun _ a => match a with | none => [m1] | some _ => [m2]) sp.zeroState
        (sp.maxErrorsOf sp.zeroState) true = .ok l ∧
      (∀ m ∈ m1, m ∈ rowSpan (sp.checks (!sp.zeroState))) ∧ (∀ m ∈ m2, m ∈ rowSpan (sp.checks sp.zeroState)) ∧
      (ToleratesOneFaultBoth s (fun i : Fin n => VQ.data i) (weightBound sp.dist sp.xDist 1) (weightBound sp.dist sp.zDist 1) l
          (usedQubits (fun i : Fin n => VQ.data i) l) ↔
        HooksDetected (sp.checks (!sp.zeroState))
          (weightBound sp.dist (if sp.zeroState then sp.zDist else sp.xDist : ℕ) 1) m1 m2) ∧
      ((∀ m ∈ m1, wt m ≤ 3) →
        ToleratesOneFaultBoth s (fun i : Fin n => VQ.data i) (weightBound sp.dist sp.xDist 1) (weightBound sp.dist sp.zDist 1) l
          (usedQubits (fun i : Fin n => VQ.data i) l)) := by
  obtain ⟨m1, m2, hv, h1, h2, h3⟩ := verifyCircuit_full_tolerates s hs _ sp leader hlead
    (fun x => heuristicLayerFn_sound ord ho leader hlead findLeaders limit fuel _)
    hnd hne hS hT hm hd hcn hone hfl hearly hx hz l h
  have hsome : ∀ k f c, heuristicLayerFn ord leader findLeaders limit fuel k f c ≠ .ok none := fun k f c => by
    unfold heuristicLayerFn
    split <;> simp
  exact ⟨m1, m2, hv, h1, h2, h3 (.inl fun k f => hsome k f _) (.inl fun k f => hsome k f _)⟩

/-- **C104 (partial)**: the same for `gate_optimal_verification_circuit`, whatever the solver answers within its time limits,
when measurements are found in both rounds (a search that fails returns none). -/
theorem C104_optimal_partial (s : R) (hs : 2 * s * s = 1) [Nontrivial R]
    (run1 run2 run3 : Bool → ℕ → List (Vec n) → ℕ → ℕ → ℕ → Outcome (List (Vec n))) (minT maxT fuel : ℕ)
    (leader : Vec n → List (Vec n) → Vec n) (hlead : ∀ e gens, CosetLeader e gens (leader e gens)) (sp : StatePrep n) (numAnc : ℕ)
    (h1 : ∀ x k faults i c t, VerifOutcome (sp.checks (!x)) faults numAnc c (run1 x k faults i c t))
    (h2 : ∀ x k faults j c anc, VerifOutcome (sp.checks (!x)) faults anc c (run2 x k faults j c anc))
    (h3 : ∀ x k faults j anc c, VerifOutcome (sp.checks (!x)) faults anc c (run3 x k faults j anc c))
    (hnd : sp.circ.hadamards.Nodup) (hne : ∀ g ∈ sp.circ.cnots, g.1 ≠ g.2)
    (hS : if sp.zeroState then PreparesZero sp.circ.hadamards sp.circ.cnots sp.hx
      else PreparesPlus sp.circ.hadamards sp.circ.cnots sp.hz)
    (hT : ∀ v, v ∈ rowSpan (sp.checks (!sp.zeroState)) ↔ ∀ r ∈ sp.checks sp.zeroState, dot r v = 0)
    (hm : 1 ≤ sp.maxErrors) (hd : sp.dist ≤ sp.xDist ∧ sp.dist ≤ sp.zDist) (hcn : sp.circ.cnots ≠ [])
    (hone : ∀ v ∈ rowSpan (sp.checks sp.zeroState), wt v ≠ 1)
    (hfl : removeFrontLayer sp.circ.hadamards sp.circ.cnots = sp.circ.cnots)
    (hearly : ∀ x, EarlyCovered (sp.side leader x))
    (hx hz : List (Bool × ℕ)) (l : List (Instr VQ VC))
    (h : optimalVerification run1 run2 run3 minT maxT fuel leader sp true (cachesAfter sp leader hx hz) = .ok l) :
    ∃ m1 m2 : List (Vec n),
      verifiedPrep sp.circ (fun _ a => match a with | none => [m1] | some _ => [m2]) sp.zeroState
        (sp.maxErrorsOf sp.zeroState) true = .ok l ∧
      (∀ m ∈ m1, m ∈ rowSpan (sp.checks (!sp.zeroState))) ∧ (∀ m ∈ m2, m ∈ rowSpan (sp.checks sp.zeroState)) ∧
      ((m1 ≠ [] ∨ ∀ k q, k ≤ sp.circ.cnots.length → ¬ Dangerous (sp.checks sp.zeroState)
          (weightBound sp.dist (if sp.zeroState then sp.xDist else sp.zDist : ℕ) 1) (faultEffect sp.zeroState sp.circ.cnots k q)) →
       (m2 ≠ [] ∨ ∀ k q, k ≤ sp.circ.cnots.length → ¬ Dangerous (sp.checks (!sp.zeroState))
          (weightBound sp.dist (if sp.zeroState then sp.zDist else sp.xDist : ℕ) 1) (faultEffect (!sp.zeroState) sp.circ.cnots k q)) →
        (ToleratesOneFaultBoth s (fun i : Fin n => VQ.data i) (weightBound sp.dist sp.xDist 1) (weightBound sp.dist sp.zDist 1) l
            (usedQubits (fun i : Fin n => VQ.data i) l) ↔
          HooksDetected (sp.checks (!sp.zeroState))
            (weightBound sp.dist (if sp.zeroState then sp.zDist else sp.xDist : ℕ) 1) m1 m2)) := by
  obtain ⟨m1, m2, hv, h4, h5, h6⟩ := verifyCircuit_full_tolerates s hs _ sp leader hlead (by
    intro x k faults ms _ hr
    unfold optimalLayerFn at hr
    cases hl : optimalLayer (run1 x k faults) (run2 x k faults) (run3 x k faults) faults (sp.checks (!x)) minT maxT fuel with
    | none => rw [hl] at hr; cases hr
    | some res =>
      rw [hl] at hr
      cases res with
      | ok ms =>
        cases hr
        obtain ⟨ha, hb, -⟩ := C68_layer_sound faults _ numAnc _ _ _ (h1 x k faults) (h2 x k faults) (h3 x k faults) minT maxT fuel ms hl
        exact ⟨ha, hb⟩
      | notFound => cases hr
      | crash => cases hr) hnd hne hS hT hm hd hcn hone hfl hearly hx hz l h
  exact ⟨m1, m2, hv, h4, h5, fun hf1 hf2 => (h6 (.inr hf1) (.inr hf2)).1⟩

end Verif.SP
