import Verif.Lemmas.ManyFaults2
import Verif.Spec.ManyFaults
import Verif.Props.PrepFaultTolerance4

/-!
# C112: tolerance of several faults in verified state preparation
-/

namespace Verif.SP
open Verif Verif.Spec
variable {n : ℕ} {R : Type} [CommRing R]

section
variable (z : Bool) (c : PrepCircuit n) (S ms : List (Vec n)) (hnd : c.hadamards.Nodup) (hne : ∀ g ∈ c.cnots, g.1 ≠ g.2)
  (hS : Prepares z c S) (hms : ∀ m ∈ ms, ∀ r ∈ S, dot r m = 0)

/-- The frame of one fault. -/
def EffFrame (e : Eff n) (F : Frame VQ VC) : Prop :=
  tp n z F = e.total ∧ (∀ p ∈ ms.zipIdx, F.2 (rbit z p.2) = dot p.1 (e.seen p.2) + e.flips p.2) ∧
    ∀ u, e = .prep u → Effect z c.cnots u

theorem eff_of_round {u : Vec n} {bits : VC → ZMod 2} (h : RoundEffect z ms.zipIdx u bits) (F : Frame VQ VC) (hu : tp n z F = u)
    (hb : F.2 = bits) : ∃ e, EffFrame z c ms e F := by
  subst hu hb
  rcases h with ⟨h0, k, hk⟩ | ⟨q, k, h1, hk⟩
  · rcases zmod2_cases (F.2 (rbit z k)) with hz | hz
    · refine ⟨.flip ms.length, h0, fun p hp => ?_, by rintro u ⟨⟩⟩
      have hlt : p.2 < ms.length := by simpa using List.snd_lt_of_mem_zipIdx hp
      have : ms.length ≠ p.2 := hlt.ne'
      by_cases hpk : p.2 = k
      · rw [hpk] at this ⊢; rw [hz]; simp [Eff.seen, Eff.flips, dot, this]
      · rw [hk _ hpk]; simp [Eff.seen, Eff.flips, dot, this]
    · refine ⟨.flip k, h0, fun p hp => ?_, by rintro u ⟨⟩⟩
      by_cases hpk : p.2 = k
      · rw [hpk, hz]; simp [Eff.seen, Eff.flips, dot]
      · rw [hk _ hpk]; simp [Eff.seen, Eff.flips, dot, Ne.symm hpk]
  · refine ⟨.data q k, h1, fun p hp => ?_, by rintro u ⟨⟩⟩
    rw [hk p hp]
    by_cases hkp : k ≤ p.2 <;> simp [Eff.seen, Eff.flips, hkp, dot, Pi.single_apply]

include hne in
theorem verified_effects : AllSplits (fun i r => ∀ P : PauliErr VQ, FaultAt i P →
    (∃ e, EffFrame z c ms e (prop (i :: r) (P, 0))) ∧ ∃ e, EffFrame z c ms e (prop r (P, 0))) (prepInstrs c ++ firstRound z ms) := by
  apply AllSplits.append
  · have hstep : ∀ F : Frame VQ VC, (DataOnly n F ∧ Effect z c.cnots (tp n z F)) ∨
        (∃ (q : VQ) (P : PauliErr VQ), (∀ i : Fin n, q ≠ .data i) ∧ (∀ p, P.ActsOn p → p = q) ∧ F = (P, 0)) →
        ∃ e, EffFrame z c ms e (prop (firstRound z ms) F) := by
      rintro F (⟨h1, h2⟩ | ⟨q, P, h1, h2, rfl⟩)
      · refine ⟨.prep (tp n z F), tp_firstRound _ (fun i hi => hi) _, fun p hp => ?_, ?_⟩
        · rw [firstRound_bits z ms F h1 p hp]; simp [Eff.seen, Eff.flips]
        · rintro u ⟨⟩; exact h2
      · exact eff_of_round z c ms (round_other _ (firstRound z ms) (fun i hi => hi) P q h1 h2) _
          (tp_firstRound _ (fun i hi => hi) _) rfl
    have hmono : ∀ l : List (Instr VQ VC), AllSplits (fun i r => ∀ P : PauliErr VQ, FaultAt i P →
      ((DataOnly n (prop (i :: r) (P, 0)) ∧ Effect z c.cnots (tp n z (prop (i :: r) (P, 0)))) ∨
        (∃ q, (∀ i : Fin n, q ≠ .data i) ∧ (∀ p, P.ActsOn p → p = q) ∧ prop (i :: r) (P, 0) = (P, 0))) ∧
      ((DataOnly n (prop r (P, 0)) ∧ Effect z c.cnots (tp n z (prop r (P, 0)))) ∨
        (∃ q, (∀ i : Fin n, q ≠ .data i) ∧ (∀ p, P.ActsOn p → p = q) ∧ prop r (P, 0) = (P, 0)))) l →
      AllSplits (fun i r => ∀ P : PauliErr VQ, FaultAt i P →
        (∃ e, EffFrame z c ms e (prop (i :: (r ++ firstRound z ms)) (P, 0))) ∧
        ∃ e, EffFrame z c ms e (prop (r ++ firstRound z ms) (P, 0))) l := by
      intro l
      induction l with
      | nil => exact fun h => h
      | cons i r ih =>
        rintro ⟨h1, h2⟩
        refine ⟨fun P hP => ?_, ih h2⟩
        obtain ⟨ha, hb⟩ := h1 P hP
        rw [← List.cons_append, prop_append, prop_append]
        refine ⟨hstep _ ?_, hstep _ ?_⟩
        · rcases ha with ha | ⟨q, h3, h4, h5⟩
          · exact .inl ha
          · exact .inr ⟨q, P, h3, h4, h5⟩
        · rcases hb with ha | ⟨q, h3, h4, h5⟩
          · exact .inl ha
          · exact .inr ⟨q, P, h3, h4, h5⟩
    exact hmono _ (prep_fault z c hne)
  · have hmono : ∀ l : List (Instr VQ VC), (∀ i ∈ l, i ∈ firstRound z ms) → AllSplits (fun i r => ∀ P : PauliErr VQ, FaultAt i P →
        RoundEffect z ms.zipIdx (tp n z (P, 0)) (prop (i :: r) (P, 0)).2 ∧
        RoundEffect z ms.zipIdx (tp n z (P, 0)) (prop r (P, 0)).2) l →
        AllSplits (fun i r => ∀ P : PauliErr VQ, FaultAt i P →
          (∃ e, EffFrame z c ms e (prop (i :: r) (P, 0))) ∧ ∃ e, EffFrame z c ms e (prop r (P, 0))) l := by
      intro l
      induction l with
      | nil => exact fun _ h => h
      | cons i r ih =>
        rintro hl ⟨h1, h2⟩
        refine ⟨fun P hP => ?_, ih (fun j hj => hl j (by simp [hj])) h2⟩
        obtain ⟨ha, hb⟩ := h1 P hP
        exact ⟨eff_of_round z c ms ha _ (tp_firstRound _ hl _) rfl,
          eff_of_round z c ms hb _ (tp_firstRound _ (fun j hj => hl j (by simp [hj])) _) rfl⟩
    exact hmono _ (fun i hi => hi) (round_fault z ms)

theorem effs_sum (es : List (Eff n)) (Fs : List (Frame VQ VC)) (h : List.Forall₂ (EffFrame z c ms) es Fs) :
    tp n z Fs.sum = (es.map Eff.total).sum ∧
    (∀ p ∈ ms.zipIdx, Fs.sum.2 (rbit z p.2) = dot p.1 ((es.map (Eff.seen p.2)).sum) + (es.map (Eff.flips p.2)).sum) ∧
    ∀ u, Eff.prep u ∈ es → Effect z c.cnots u := by
  induction h with
  | nil =>
    refine ⟨by funext i; cases z <;> rfl, fun p hp => ?_, by simp⟩
    have : (0 : Frame VQ VC).2 (rbit z p.2) = 0 := rfl
    simpa [dot] using this
  | @cons e F es Fs he _ ih =>
    obtain ⟨i1, i2, i3⟩ := ih
    obtain ⟨h1, h2, h3⟩ := he
    refine ⟨?_, fun p hp => ?_, fun u hu => ?_⟩
    · rw [List.sum_cons, List.map_cons, List.sum_cons, ← i1, ← h1]
      funext i; cases z <;> rfl
    · have := i2 p hp
      have h4 := h2 p hp
      rw [List.sum_cons, List.map_cons, List.sum_cons, List.map_cons, List.sum_cons, dot_add_right]
      show F.2 (rbit z p.2) + Fs.sum.2 (rbit z p.2) = _
      rw [h4, this]; ring
    · rcases List.mem_cons.1 hu with hu | hu
      · exact h3 u hu.symm
      · exact i3 u hu

include hnd hne hS hms in
/-- An accepted run is good when the undetected part of its frame is. -/
theorem verified_run_of_frame (s : R) (hs : 2 * s * s = 1) (w : ℤ) (N : List (NoisyInstr VQ VC))
    (hN : N.map NoisyInstr.instr = prepInstrs c ++ firstRound z ms)
    (hF : (∀ i < ms.length, (noisyFrame N 0).2 (rbit z i) = 0) →
      ∃ f, tp n z (noisyFrame N 0) + f ∈ rowSpan S ∧ (wt f : ℤ) ≤ w) :
    runNoisy s (fun _ => 0) N (zeros (register n z ms.length)) = (fun _ => 0) ∨
    ∃ (b : ZMod 2) (e : PauliErr VQ),
      ((Finset.univ.filter fun i : Fin n => (if z then e.1 else e.2) (.data i) ≠ 0).card : ℤ) ≤ w ∧
      runNoisy s (fun _ => 0) N (zeros (register n z ms.length)) =
        fun y => sgn b * applyOp e (run s (fun _ => 0) (prepInstrs c ++ firstRound z ms) (zeros (register n z ms.length))) y := by
  obtain ⟨b, hrun⟩ := noisy_run s (fun _ => 0) N (zeros (register n z ms.length))
    (by
      intro L hL
      refine valid_verified z c ms hne L.instr ?_
      rw [← hN]; exact List.mem_map_of_mem hL)
    (by rw [hN, bits_verified]; exact List.nodup_range.map (rbit_inj z))
  rw [hN, run_verified z c S ms hnd hne hS hms s hs] at hrun
  set F := noisyFrame N 0 with hFdef
  by_cases hbits : ∀ i < ms.length, (fun c => (fun _ => (0 : ZMod 2)) c + F.2 c) (rbit z i) = 0
  swap
  · left; rw [hrun, if_neg hbits]; funext y; simp [applyOp]
  right
  rw [if_pos hbits] at hrun
  rw [run_verified_zero z c S ms hnd hne hS hms s hs]
  obtain ⟨f, hfS, hfw⟩ := hF fun i hi => by simpa using hbits i hi
  set u := tp n z F with hu
  obtain ⟨b', hsplit⟩ := applyOp_split F.1 (stabOp (!z) (supp (u + f)))
    (withBits ((List.range ms.length).map fun i => (ranc z i, 0)) (prepared s c))
  have hst := stabOp_proj (s * s) (!z) (supp (u + f)) 0 (prepared s c) ((List.range ms.length).map fun i => (ranc z i, 0)) (by
    intro p hp
    obtain ⟨i, -, rfl⟩ := List.mem_map.1 hp
    exact not_mem_supp (ranc_ne_data z i))
  rw [proj_stab z c S hnd hne hS s hs _ hfS] at hst
  have hst' : applyOp (stabOp (!z) (supp (u + f))) (withBits ((List.range ms.length).map fun i => (ranc z i, 0)) (prepared s c)) =
      withBits ((List.range ms.length).map fun i => (ranc z i, 0)) (prepared s c) := by
    rw [hst]; funext y; rw [sgn_zero, one_mul]
  rw [hst'] at hsplit
  refine ⟨b + b', F.1 + stabOp (!z) (supp (u + f)), ?_, ?_⟩
  · rw [card_tp]
    have : tp n z (F.1 + stabOp (!z) (supp (u + f)), 0) = f := by
      have h1 : tp n z (F.1 + stabOp (!z) (supp (u + f)), 0) = tp n z F + tp n z (stabOp (!z) (supp (u + f)), 0) := by
        funext i; cases z <;> rfl
      rw [h1, tp_stabOp, ← hu, ← add_assoc, add_self_eq_zero' u, zero_add]
    rw [this]; exact hfw
  · rw [hrun, hsplit]
    funext y
    rw [sgn_add]
    linear_combination (-(sgn b : R) * applyOp F.1 (withBits ((List.range ms.length).map fun i => (ranc z i, 0)) (prepared s c)) y) * sgn_sq (R := R) b'

end

section
variable (z : Bool) (c : PrepCircuit n) (S : List (Vec n)) (layers : List (List (Vec n))) (hnd : c.hadamards.Nodup)
  (hne : ∀ g ∈ c.cnots, g.1 ≠ g.2) (hS : Prepares z c S) (hms : ∀ m ∈ layers.flatten, ∀ r ∈ S, dot r m = 0)

include hnd hne hS hms in
theorem layered_tolerates (s : R) (hs : 2 * s * s = 1) (w : ℕ → ℤ) (hw : ∀ i r : ℕ, w i + r ≤ w (i + r)) (hw0 : 0 ≤ w 0)
    (hlay : ∀ j (hj : j < layers.length) k v, k ≤ j + 1 → SumOf (Effect z c.cnots) k v → (∀ m ∈ layers[j], dot m v = 0) →
      ∃ f, v + f ∈ rowSpan S ∧ (wt f : ℤ) ≤ w (j + 1)) :
    ToleratesFaults s z (fun i : Fin n => VQ.data i) layers.length w (prepInstrs c ++ firstRound z layers.flatten)
      (register n z layers.flatten.length) := by
  intro N hN hf hc
  refine verified_run_of_frame z c S _ hnd hne hS hms s hs _ N hN fun hbits => ?_
  obtain ⟨es, Fs, hlen, hall, hsum⟩ := noisyFrame_sum (EffFrame z c layers.flatten) N 0 hf (by
    rw [hN]; exact verified_effects z c layers.flatten hne)
  rw [prop_zero, zero_add] at hsum
  obtain ⟨h1, h2, h3⟩ := effs_sum z c layers.flatten es Fs hall
  rw [hsum] at hbits ⊢
  rw [h1]
  obtain ⟨f, hf1, hf2⟩ := undetected_harmless S w hw hw0 (Effect z c.cnots)
    (fun q => .inr ⟨_, q, le_rfl, (faultEffect_end _ _ _).symm⟩) layers hlay es h3 (by omega) (by
      intro p m hp
      have hlt : p < layers.flatten.length := by
        by_contra hcon
        rw [List.getElem?_eq_none (by omega)] at hp
        cases hp
      rw [← h2 (m, p) (by rw [List.mem_zipIdx_iff_getElem?]; exact hp)]
      exact hbits p hlt)
  refine ⟨f, hf1, hf2.trans ?_⟩
  obtain ⟨k, hk⟩ : ∃ k, faultCount N = es.length + k := ⟨faultCount N - es.length, by omega⟩
  have := hw es.length k
  rw [← hk] at this
  have h10 : (0 : ℤ) ≤ k := by positivity
  omega

end

/-! ### The search -/

theorem layersLoop_layers (layer : LayerFn n) (checks : List (Vec n)) (hl : LayerSound layer checks)
    (sets : List (Option (List (Vec n)))) (ks : List ℕ) (acc layers : List (List (Vec n)))
    (h : layersLoop layer sets checks ks acc = .ok layers) :
    (layers = [] ∧ ∃ k ∈ ks, ∃ f, layer k f checks = .ok none) ∨
    ∃ new, layers = acc ++ new ∧ List.Forall₂ (fun k L => ∃ f, sets[k]?.join = some f ∧ Detects L f ∧
      ∀ m ∈ L, m ∈ rowSpan checks) ks new := by
  induction ks generalizing acc with
  | nil => simp only [layersLoop] at h; cases h; exact .inr ⟨[], by simp, .nil⟩
  | cons k ks ih =>
    simp only [layersLoop] at h
    cases hf : sets[k]?.join with
    | none => rw [hf] at h; cases h
    | some f =>
      rw [hf] at h
      simp only at h
      by_cases h0 : f.length = 0
      · rw [if_pos h0] at h
        rcases ih _ h with ⟨h1, k', hk', h2⟩ | ⟨new, h1, h2⟩
        · exact .inl ⟨h1, k', by simp [hk'], h2⟩
        refine .inr ⟨[] :: new, by rw [h1]; simp, .cons ⟨f, hf, ?_, by simp⟩ h2⟩
        rw [List.length_eq_zero_iff] at h0
        subst h0
        intro g hg; simp at hg
      · rw [if_neg h0] at h
        cases hr : layer k f checks with
        | error e => rw [hr] at h; cases h
        | ok r =>
          cases r with
          | none =>
            rw [hr] at h
            simp only at h
            cases h
            exact .inl ⟨rfl, k, by simp, f, hr⟩
          | some ms =>
          obtain ⟨hms, hdet⟩ := hl k f ms h0 hr
          rw [hr] at h
          simp only at h
          rcases ih (acc ++ [ms]) h with ⟨h1, k', hk', h2⟩ | ⟨new, h1, h2⟩
          · exact .inl ⟨h1, k', by simp [hk'], h2⟩
          exact .inr ⟨ms :: new, by rw [h1]; simp, .cons ⟨f, hf, hdet, hms⟩ h2⟩

theorem findStabilizers_layers (layer : LayerFn n) (sp : StatePrep n) (leader : Vec n → List (Vec n) → Vec n) (x : Bool)
    (hl : LayerSound layer (sp.checks (!x))) (hx hz : List (Bool × ℕ)) (layers : List (List (Vec n))) (s' : Caches n)
    (h : findStabilizers layer sp leader x none (cachesAfter sp leader hx hz) = .ok (layers, s')) :
    (layers = [] ∧ ∃ k f, layer k f (sp.checks (!x)) = .ok none) ∨
    (layers.length = sp.maxErrors ∧ ∃ hist : List (Bool × ℕ), ∀ j (hj : j < layers.length),
      (∀ m ∈ layers[j], m ∈ rowSpan (sp.checks (!x))) ∧ ∃ (f : List (Vec n)) (s1 : Cache n),
      computeFaultSet (sp.side leader x) true (j + 1) (faultHistory (sp.side leader x) hist (freshCache n sp.maxErrors)) = .ok (f, s1) ∧
      Detects layers[j] f) := by
  simp only [findStabilizers] at h
  cases hc : computeFaultSets sp leader (cachesAfter sp leader hx hz) with
  | error e => rw [hc] at h; cases h
  | ok s =>
    rw [hc] at h
    simp only at h
    cases hL : layersLoop layer (s.get x).sets (sp.checks (!x)) (List.range' 1 sp.maxErrors) [] with
    | error e => rw [hL] at h; cases h
    | ok L =>
      rw [hL] at h
      have e := Prod.mk.inj (Except.ok.inj h)
      rw [← e.1]
      rcases layersLoop_layers layer _ hl _ _ [] L hL with ⟨h1, k, -, f, h2⟩ | ⟨new, h2, h3⟩
      · exact .inl ⟨h1, k, f, h2⟩
      rw [List.nil_append] at h2
      subst h2
      have hlen := h3.length_eq
      rw [List.length_range'] at hlen
      -- the caches are those of a longer history
      have hget : ∃ hist, s.get x = faultHistory (sp.side leader x) hist (freshCache n sp.maxErrors) := by
        simp only [computeFaultSets] at hc
        cases h1 : computeFaultSet (sp.side leader true) true sp.maxErrors (cachesAfter sp leader hx hz).x with
        | error e => rw [h1] at hc; cases hc
        | ok r1 =>
          rw [h1] at hc
          simp only at hc
          cases h4 : computeFaultSet (sp.side leader false) true sp.maxErrors (cachesAfter sp leader hx hz).z with
          | error e => rw [h4] at hc; cases hc
          | ok r2 =>
            rw [h4] at hc
            cases hc
            cases x with
            | true =>
              refine ⟨hx ++ [(true, sp.maxErrors)], ?_⟩
              rw [faultHistory_append]
              have e : faultHistory (sp.side leader true) hx (freshCache n sp.maxErrors) = (cachesAfter sp leader hx hz).x := rfl
              rw [e]
              simp only [faultHistory, h1]
              rfl
            | false =>
              refine ⟨hz ++ [(true, sp.maxErrors)], ?_⟩
              rw [faultHistory_append]
              have e : faultHistory (sp.side leader false) hz (freshCache n sp.maxErrors) = (cachesAfter sp leader hx hz).z := rfl
              rw [e]
              simp only [faultHistory, h4]
              rfl
      obtain ⟨hist, hh⟩ := hget
      refine .inr ⟨hlen.symm, hist, fun j hj => ?_⟩
      have h4 := List.forall₂_iff_get.1 h3
      have h5 := h4.2 j (by simpa using by omega) hj
      simp only [List.get_eq_getElem, List.getElem_range'] at h5
      obtain ⟨f, hf, hdet, hrow⟩ := h5
      refine ⟨hrow, f, s.get x, ?_, hdet⟩
      rw [← hh]
      rw [show 1 + 1 * j = j + 1 by omega] at hf
      have : (s.get x).sets[j + 1]? = some (some f) := by
        cases h5 : (s.get x).sets[j + 1]? with
        | none => rw [h5] at hf; cases hf
        | some o => rw [h5] at hf; simp only [Option.join_some] at hf; rw [hf]
      unfold computeFaultSet
      rw [this]

theorem weightBound_add (d dError : ℤ) (h : d ≤ dError) (i r : ℕ) :
    weightBound d dError i + r ≤ weightBound d dError (i + r) := by
  have h1 := C27_bound d dError r h
  have h2 : weightBound d dError (i + r) = weightBound d dError i + weightBound d dError r := by
    unfold weightBound; push_cast; ring
  omega

theorem verifyCircuit_tolerates_many (s : R) (hs : 2 * s * s = 1) (layer : Bool → LayerFn n) (sp : StatePrep n)
    (leader : Vec n → List (Vec n) → Vec n) (hlead : ∀ e gens, CosetLeader e gens (leader e gens))
    (hlay : LayerSound (layer sp.zeroState) (sp.checks (!sp.zeroState)))
    (hnd : sp.circ.hadamards.Nodup) (hne : ∀ g ∈ sp.circ.cnots, g.1 ≠ g.2)
    (hS : if sp.zeroState then PreparesZero sp.circ.hadamards sp.circ.cnots sp.hx
      else PreparesPlus sp.circ.hadamards sp.circ.cnots sp.hz)
    (hcss : ∀ a ∈ sp.checks sp.zeroState, ∀ b ∈ sp.checks (!sp.zeroState), dot a b = 0)
    (hd : sp.dist ≤ if sp.zeroState then sp.xDist else sp.zDist)
    (hfl : removeFrontLayer sp.circ.hadamards sp.circ.cnots = sp.circ.cnots)
    (hearly : EarlyEnumerated (sp.side leader sp.zeroState))
    (hx hz : List (Bool × ℕ)) (l : List (Instr VQ VC))
    (hsome : (∀ k f, layer sp.zeroState k f (sp.checks (!sp.zeroState)) ≠ .ok none) ∨ bitsOf l ≠ [])
    (h : verifyCircuit layer sp leader false (cachesAfter sp leader hx hz) = .ok l) :
    ToleratesFaults s sp.zeroState (fun i : Fin n => VQ.data i) sp.maxErrors
      (weightBound sp.dist (if sp.zeroState then sp.xDist else sp.zDist : ℕ)) l (qubitsOf n sp.zeroState (bitsOf l).length) := by
  simp only [verifyCircuit, Bool.false_eq_true, if_false] at h
  cases hf : findStabilizers (layer sp.zeroState) sp leader sp.zeroState none (cachesAfter sp leader hx hz) with
  | error e => rw [hf] at h; cases h
  | ok r =>
    obtain ⟨layers, s'⟩ := r
    rw [hf] at h
    simp only at h
    have hsound := findStabilizers_layers (layer sp.zeroState) sp leader sp.zeroState hlay hx hz layers s' hf
    have hv := verificationCircuit_first (fun _ _ => layers) sp.zeroState (sp.maxErrorsOf sp.zeroState)
    simp only [verificationCircuit, Bool.false_eq_true, if_false] at hv
    rw [hv] at h
    cases h
    rcases hsound with ⟨rfl, k, f, hkf⟩ | ⟨hlen, hist, hlayers⟩
    · exfalso
      rcases hsome with hsome | hsome
      · exact hsome k f hkf
      · rw [bits_verified] at hsome
        exact hsome rfl
    have hchk : sp.checks sp.zeroState = if sp.zeroState then sp.hx else sp.hz := by
      cases hz : sp.zeroState <;> simp [StatePrep.checks, StatePrep.xChecks, StatePrep.zChecks, hz]
    have hprep : Prepares sp.zeroState sp.circ (sp.checks sp.zeroState) := by
      rw [hchk]
      unfold Prepares
      cases hz : sp.zeroState <;> simpa [hz] using hS
    have horth : ∀ m ∈ layers.flatten, ∀ r ∈ sp.checks sp.zeroState, dot r m = 0 := by
      intro m hm r hr
      obtain ⟨L, hL, hm⟩ := List.mem_flatten.1 hm
      obtain ⟨j, hj, rfl⟩ := List.getElem_of_mem hL
      rw [dot_comm]
      exact dot_eq_zero_of_mem_rowSpan (fun b hb => by rw [dot_comm]; exact hcss r hr b hb) ((hlayers j hj).1 m hm)
    have hdE : sp.dist ≤ (if sp.zeroState then sp.xDist else sp.zDist) := hd
    have hdE' : (sp.dist : ℤ) ≤ ((if sp.zeroState then sp.xDist else sp.zDist : ℕ) : ℤ) := by exact_mod_cast hdE
    rw [bitsOf_verified, qubitsOf_eq, ← hlen]
    refine layered_tolerates sp.zeroState sp.circ (sp.checks sp.zeroState) layers hnd hne hprep horth s hs _
      (weightBound_add _ _ hdE') (by simpa using C27_bound _ _ 0 hdE') ?_
    intro j hj k v hk hv hund
    set sd := sp.side leader sp.zeroState with hsd
    have hsdE : sd.dError = ((if sp.zeroState then sp.xDist else sp.zDist : ℕ) : ℤ) := side_dError sp leader _
    obtain ⟨i, hik, hreach⟩ := reach_effects sd hearly k v hv
    rcases reach_le sd hne hearly i (j + 1) (by omega) v hreach with ⟨f, hf1, hf2⟩ | ⟨u, hu, hvu⟩
    · refine ⟨f, hf1, ?_⟩
      have := C27_bound (sp.dist : ℤ) _ (j + 1) hdE'
      have h9 : ((wt f : ℕ) : ℤ) ≤ ((j + 1 : ℕ) : ℤ) := by exact_mod_cast hf2
      omega
    · by_contra hcon
      push Not at hcon
      have hdang : Dangerous sd.stabs (weightBound sd.d sd.dError (j + 1)) u := by
        intro g hg
        rw [hsdE]
        exact hcon g (hvu.trans hg)
      obtain ⟨-, f, s1, hcf, hdet⟩ := hlayers j hj
      obtain ⟨v', hv', heq⟩ := C62_fault_set_complete sd (fun e => hlead e _) hfl (by rw [hsdE]; exact hdE') sp.maxErrors hist true
        (j + 1) f s1 hcf u hu hdang
      obtain ⟨m, hm, h1⟩ := hdet v' hv'
      have h0 : dot m (v + v') = 0 := by
        rw [dot_comm]
        refine dot_eq_zero_of_mem_rowSpan (fun r hr => ?_) (hvu.trans heq)
        exact horth m (List.mem_flatten.2 ⟨_, List.getElem_mem hj, hm⟩) r hr
      rw [dot_add_right, hund m hm, h1] at h0
      exact absurd h0 (by decide)

end Verif.SP
