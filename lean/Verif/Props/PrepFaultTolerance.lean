import Verif.Lemmas.PrepVerified

/-!
# C102: one-fault tolerance of verified state preparation
-/

namespace Verif.SP
open Verif Verif.Spec
variable {n : ℕ} {R : Type} [CommRing R]

variable (z : Bool) (c : PrepCircuit n) (S ms : List (Vec n)) (hnd : c.hadamards.Nodup) (hne : ∀ g ∈ c.cnots, g.1 ≠ g.2)
  (hS : Prepares z c S) (hms : ∀ m ∈ ms, ∀ r ∈ S, dot r m = 0)

theorem bitsOf_firstRound : bitsOf (firstRound z ms) = (List.range ms.length).map (rbit z) := by
  cases z with
  | true =>
    simp only [firstRound, if_true, bitsOf_append]
    have h1 : bitsOf (ms.zipIdx.map fun p => (supp p.1).map fun q => (Instr.cx q (VQ.zanc p.2) : Instr VQ VC)).flatten = [] := by
      rw [bitsOf, List.filterMap_eq_nil_iff]
      intro i hi
      rw [List.mem_flatten] at hi
      obtain ⟨l, hl, hi⟩ := hi
      obtain ⟨p, -, rfl⟩ := List.mem_map.1 hl
      obtain ⟨q, -, rfl⟩ := List.mem_map.1 hi
      rfl
    rw [h1, List.nil_append]
    simp [bitsOf, List.filterMap_map, Function.comp_def, rbit]
  | false =>
    simp only [firstRound, Bool.false_eq_true, if_false]
    have h2 : ∀ (L : List (Vec n × ℕ)), bitsOf (L.map fun p => measureUnflagged false (supp p.1) (VQ.xanc p.2) (VC.xc p.2)).flatten =
        L.map fun p => VC.xc p.2 := by
      intro L
      induction L with
      | nil => rfl
      | cons p L ih =>
        rw [List.map_cons, List.flatten_cons, bitsOf_append, ih, List.map_cons]
        have : bitsOf (measureUnflagged false (supp p.1) (VQ.xanc p.2) (VC.xc p.2)) = [VC.xc p.2] := by
          simp only [measureUnflagged, bitsOf_append, Bool.false_eq_true, if_false]
          simp [bitsOf, List.filterMap_map, Function.comp_def]
        rw [this]; rfl
    rw [h2]
    have : (ms.zipIdx.map fun p => VC.xc p.2) = (ms.zipIdx.map Prod.snd).map VC.xc := by rw [List.map_map]; rfl
    rw [this, List.zipIdx_map_snd, List.range_eq_range']
    rfl

theorem rbit_inj : Function.Injective (rbit z) := by
  intro a b h
  cases z <;> simpa [rbit] using h

theorem bits_verified : bitsOf (prepInstrs c ++ firstRound z ms) = (List.range ms.length).map (rbit z) := by
  rw [bitsOf_append, prepInstrs_bits, bitsOf_firstRound, List.nil_append]

include hne in
theorem valid_verified : ∀ i ∈ prepInstrs c ++ firstRound z ms, i.Valid := by
  intro i hi
  rcases List.mem_append.1 hi with hi | hi
  · simp only [prepInstrs, List.mem_append, List.mem_map] at hi
    rcases hi with ⟨j, -, rfl⟩ | ⟨g, hg, rfl⟩
    · trivial
    · show VQ.data g.1 ≠ VQ.data g.2
      exact fun e => hne g hg (data_inj.1 e)
  · rcases mem_firstRound hi with ⟨k, rfl, -⟩ | ⟨k, j, rfl⟩ | ⟨k, rfl⟩
    · trivial
    · cases z
      · exact ranc_ne_data _ _ _
      · exact (ranc_ne_data _ _ _).symm
    · trivial

/-- What the frame of a circuit with one fault can be. -/
def OneFault (F : Frame VQ VC) : Prop :=
  wt (tp n z F) ≤ 1 ∨ ∃ u, Effect z c.cnots u ∧ tp n z F = u ∧ ∀ p ∈ ms.zipIdx, F.2 (rbit z p.2) = dot p.1 u

theorem wt_zero_le : wt (0 : Vec n) ≤ 1 := by simp [wt]

include hne in
theorem verified_fault : AllSplits (fun i r => ∀ P : PauliErr VQ, FaultAt i P →
    OneFault z c ms (prop (i :: r) (P, 0)) ∧ OneFault z c ms (prop r (P, 0))) (prepInstrs c ++ firstRound z ms) := by
  apply AllSplits.append
  · have hp := prep_fault z c hne
    have hstep : ∀ F : Frame VQ VC, (DataOnly n F ∧ Effect z c.cnots (tp n z F)) ∨
        (∃ (q : VQ) (P : PauliErr VQ), (∀ i : Fin n, q ≠ .data i) ∧ (∀ p, P.ActsOn p → p = q) ∧ F = (P, 0)) →
        OneFault z c ms (prop (firstRound z ms) F) := by
      rintro F (⟨h1, h2⟩ | ⟨q, P, h1, h2, rfl⟩)
      · right
        exact ⟨_, h2, tp_firstRound _ (fun i hi => hi) _, firstRound_bits z ms F h1⟩
      · left
        rw [tp_firstRound _ (fun i hi => hi)]
        have : tp n z (P, (0 : VC → ZMod 2)) = 0 := by
          funext i
          have : ¬ P.ActsOn (.data i) := fun h => h1 i (h2 _ h).symm
          simp only [PauliErr.ActsOn, not_or, not_not] at this
          cases z
          · exact this.2
          · exact this.1
        rw [this]; exact wt_zero_le
    have hmono : ∀ l : List (Instr VQ VC), AllSplits (fun i r => ∀ P : PauliErr VQ, FaultAt i P →
      ((DataOnly n (prop (i :: r) (P, 0)) ∧ Effect z c.cnots (tp n z (prop (i :: r) (P, 0)))) ∨
        (∃ q, (∀ i : Fin n, q ≠ .data i) ∧ (∀ p, P.ActsOn p → p = q) ∧ prop (i :: r) (P, 0) = (P, 0))) ∧
      ((DataOnly n (prop r (P, 0)) ∧ Effect z c.cnots (tp n z (prop r (P, 0)))) ∨
        (∃ q, (∀ i : Fin n, q ≠ .data i) ∧ (∀ p, P.ActsOn p → p = q) ∧ prop r (P, 0) = (P, 0)))) l →
      AllSplits (fun i r => ∀ P : PauliErr VQ, FaultAt i P →
        OneFault z c ms (prop (i :: (r ++ firstRound z ms)) (P, 0)) ∧ OneFault z c ms (prop (r ++ firstRound z ms) (P, 0))) l := by
      intro l
      induction l with
      | nil => exact fun h => h
      | cons i r ih =>
        rintro ⟨h1, h2⟩
        refine ⟨fun P hP => ?_, ih h2⟩
        obtain ⟨ha, hb⟩ := h1 P hP
        rw [← List.cons_append, prop_append, prop_append]
        refine ⟨hstep _ ?_, hstep _ ?_⟩
        · rcases ha with ha | ⟨q, h3, h4, h5⟩
          · exact .inl ha
          · exact .inr ⟨q, P, h3, h4, h5⟩
        · rcases hb with ha | ⟨q, h3, h4, h5⟩
          · exact .inl ha
          · exact .inr ⟨q, P, h3, h4, h5⟩
    exact hmono _ hp
  · apply AllSplits.of
    intro a i r e P hP
    have hmem : ∀ j ∈ i :: r, j ∈ firstRound z ms := by
      intro j hj; rw [e]; simp only [List.mem_append]; exact .inr hj
    constructor
    · left
      rw [tp_firstRound _ hmem]
      exact firstRound_fault (hmem i (by simp)) P hP
    · left
      rw [tp_firstRound _ fun j hj => hmem j (by simp [hj])]
      exact firstRound_fault (hmem i (by simp)) P hP

include hne in
theorem oneFault_frame (N : List (NoisyInstr VQ VC)) (hN : N.map NoisyInstr.instr = prepInstrs c ++ firstRound z ms)
    (hf : AllFaults N) (hc : faultCount N ≤ 1) : OneFault z c ms (noisyFrame N 0) := by
  obtain ⟨us, Fs, hlen, hall, hsum⟩ := noisyFrame_sum (M := Unit) (fun _ F => OneFault z c ms F) N 0 hf (by
    rw [hN]
    have := verified_fault z c ms hne
    have hmono : ∀ l : List (Instr VQ VC), AllSplits (fun i r => ∀ P : PauliErr VQ, FaultAt i P →
      OneFault z c ms (prop (i :: r) (P, 0)) ∧ OneFault z c ms (prop r (P, 0))) l →
      AllSplits (fun i r => ∀ P : PauliErr VQ, FaultAt i P →
      (∃ _ : Unit, OneFault z c ms (prop (i :: r) (P, 0))) ∧ ∃ _ : Unit, OneFault z c ms (prop r (P, 0))) l := by
      intro l
      induction l with
      | nil => exact fun h => h
      | cons i r ih => exact fun h => ⟨fun P hP => ⟨⟨(), (h.1 P hP).1⟩, (), (h.1 P hP).2⟩, ih h.2⟩
    exact hmono _ this)
  rw [prop_zero, zero_add] at hsum
  rw [hsum]
  cases hall with
  | nil =>
    left
    have : tp n z ([] : List (Frame VQ VC)).sum = 0 := by funext i; cases z <;> rfl
    rw [this]; exact wt_zero_le
  | @cons _ F us Fs h1 h2 =>
    have : us = [] := by
      rw [List.length_cons] at hlen
      exact List.eq_nil_of_length_eq_zero (by omega)
    subst this
    cases h2
    rw [List.sum_cons, List.sum_nil, add_zero]
    exact h1

/-- The errors of kind `x` of an operator. -/
theorem card_tp (x : Bool) (e : PauliErr VQ) :
    (Finset.univ.filter fun i : Fin n => (if x then e.1 else e.2) (.data i) ≠ 0).card = wt (tp n x (e, 0)) := by
  cases x <;> rfl

theorem tp_stabOp (v : Vec n) : tp n z (stabOp (!z) (supp v), 0) = v := by
  funext i
  cases z
  · simp only [tp, stabOp, Bool.not_false, if_true, Bool.false_eq_true, if_false]
    rw [sum_single_apply, supp_count]; simp
  · simp only [tp, stabOp, Bool.not_true, if_true, Bool.false_eq_true, if_false]
    rw [sum_single_apply, supp_count]; simp

include hnd hne hS hms in
theorem run_verified_zero (s : R) (hs : 2 * s * s = 1) :
    run s (fun _ => 0) (prepInstrs c ++ firstRound z ms) (zeros (register n z ms.length)) =
      withBits ((List.range ms.length).map fun i => (ranc z i, 0)) (prepared s c) := by
  rw [run_verified z c S ms hnd hne hS hms s hs, if_pos (by simp)]

include hnd hne hS hms in
theorem verified_tolerates (s : R) (hs : 2 * s * s = 1) (w : ℤ) (hw : 1 ≤ w)
    (h : ∀ k q, k ≤ c.cnots.length → Dangerous S w (faultEffect z c.cnots k q) →
      ∃ m ∈ ms, dot m (faultEffect z c.cnots k q) = 1) :
    ToleratesOneFault s z (fun i : Fin n => VQ.data i) w (prepInstrs c ++ firstRound z ms) (register n z ms.length) := by
  intro N hN hf hc
  obtain ⟨b, hrun⟩ := noisy_run s (fun _ => 0) N (zeros (register n z ms.length))
    (by
      intro L hL
      refine valid_verified z c ms hne L.instr ?_
      rw [← hN]; exact List.mem_map_of_mem hL)
    (by rw [hN, bits_verified]; exact List.nodup_range.map (rbit_inj z))
  rw [hN, run_verified z c S ms hnd hne hS hms s hs] at hrun
  have hF := oneFault_frame z c ms hne N hN hf hc
  set F := noisyFrame N 0 with hFdef
  by_cases hbits : ∀ i < ms.length, (fun c => (fun _ => (0 : ZMod 2)) c + F.2 c) (rbit z i) = 0
  swap
  · left; rw [hrun, if_neg hbits]; funext y; simp [applyOp]
  right
  rw [if_pos hbits] at hrun
  rw [run_verified_zero z c S ms hnd hne hS hms s hs]
  rcases hF with hF | ⟨u, hu, htp, hbit⟩
  · refine ⟨b, F.1, ?_, hrun⟩
    rw [card_tp]
    have : wt (tp n z (F.1, 0)) ≤ 1 := hF
    exact le_trans (by exact_mod_cast this) hw
  -- the effect commutes with all measured stabilizers
  have hund : ∀ m ∈ ms, dot m u = 0 := by
    intro m hm
    obtain ⟨i, hi, rfl⟩ := List.getElem_of_mem hm
    have h1 := hbit (ms[i], i) (by rw [List.mem_zipIdx_iff_getElem?]; simp [hi])
    have h2 := hbits i hi
    simp only [zero_add] at h1 h2
    rw [← h1, h2]
  have hnot : ∃ f, u + f ∈ rowSpan S ∧ (wt f : ℤ) ≤ w := by
    rcases hu with rfl | ⟨k, q, hk, rfl⟩
    · exact ⟨0, by simp, by simpa [wt] using le_trans zero_le_one hw⟩
    · by_contra hcon
      push Not at hcon
      obtain ⟨m, hm, h1⟩ := h k q hk fun f hf => hcon f hf
      rw [hund m hm] at h1
      exact absurd h1 (by decide)
  obtain ⟨f, hfS, hfw⟩ := hnot
  obtain ⟨b', hsplit⟩ := applyOp_split F.1 (stabOp (!z) (supp (u + f)))
    (withBits ((List.range ms.length).map fun i => (ranc z i, 0)) (prepared s c))
  have hst := stabOp_proj (s * s) (!z) (supp (u + f)) 0 (prepared s c) ((List.range ms.length).map fun i => (ranc z i, 0)) (by
    intro p hp
    obtain ⟨i, -, rfl⟩ := List.mem_map.1 hp
    exact not_mem_supp (ranc_ne_data z i))
  rw [proj_stab z c S hnd hne hS s hs _ hfS] at hst
  have hst' : applyOp (stabOp (!z) (supp (u + f))) (withBits ((List.range ms.length).map fun i => (ranc z i, 0)) (prepared s c)) =
      withBits ((List.range ms.length).map fun i => (ranc z i, 0)) (prepared s c) := by
    rw [hst]; funext y; rw [sgn_zero, one_mul]
  rw [hst'] at hsplit
  refine ⟨b + b', F.1 + stabOp (!z) (supp (u + f)), ?_, ?_⟩
  · rw [card_tp]
    have : tp n z (F.1 + stabOp (!z) (supp (u + f)), 0) = f := by
      have h1 : tp n z (F.1 + stabOp (!z) (supp (u + f)), 0) = tp n z F + tp n z (stabOp (!z) (supp (u + f)), 0) := by
        funext i; cases z <;> rfl
      rw [h1, htp, tp_stabOp, ← add_assoc, add_self_eq_zero' u, zero_add]
    rw [this]; exact hfw
  · rw [hrun, hsplit]
    funext y
    rw [sgn_add]
    linear_combination (-(sgn b : R) * applyOp F.1 (withBits ((List.range ms.length).map fun i => (ranc z i, 0)) (prepared s c)) y) * sgn_sq (R := R) b'

/-! ### An undetected dangerous fault breaks the tolerance -/

/-- Without faults. -/
def clean (i : Instr VQ VC) : NoisyInstr VQ VC := ⟨0, i, 0⟩

theorem faultCount_clean (l : List (Instr VQ VC)) : faultCount (l.map clean) = 0 := by
  classical
  unfold faultCount
  rw [List.map_map]
  refine List.sum_eq_zero fun x hx => ?_
  obtain ⟨i, -, rfl⟩ := List.mem_map.1 hx
  simp [clean]

theorem faultCount_append (N M : List (NoisyInstr VQ VC)) : faultCount (N ++ M) = faultCount N + faultCount M := by
  classical
  unfold faultCount
  rw [List.map_append, List.sum_append]

theorem allFaults_clean (l : List (Instr VQ VC)) : AllFaults (l.map clean) := by
  intro L hL
  obtain ⟨i, -, rfl⟩ := List.mem_map.1 hL
  have : FaultAt i (0 : PauliErr VQ) := .inr fun p hp => by simp [PauliErr.ActsOn] at hp
  exact ⟨this, this⟩

theorem noisyFrame_clean (l : List (Instr VQ VC)) (F : Frame VQ VC) : noisyFrame (l.map clean) F = prop l F := by
  induction l generalizing F with
  | nil => rfl
  | cons i l ih =>
    rw [List.map_cons, prop_cons, ← ih]
    have : frameStep (F + (0, 0)) i + (0, 0) = frameStep F i := by
      have h0 : ((0, 0) : Frame VQ VC) = 0 := rfl
      rw [h0, add_zero, add_zero]
    show noisyFrame (l.map clean) (frameStep (F + (0, 0)) i + (0, 0)) = _
    rw [this]

theorem map_clean (l : List (Instr VQ VC)) : (l.map clean).map NoisyInstr.instr = l := by
  rw [List.map_map]
  exact (List.map_congr_left fun i _ => rfl).trans (List.map_id l)

/-- X (`z`) or Z on one data qubit. -/
noncomputable def errAt (z : Bool) (q : VQ) : PauliErr VQ := if z then (Finsupp.single q 1, 0) else (0, Finsupp.single q 1)

theorem errAt_acts (q p : VQ) (h : (errAt z q).ActsOn p) : p = q := by
  by_contra hne
  have hne' : q ≠ p := fun e => hne e.symm
  cases z <;> simp [errAt, PauliErr.ActsOn, Finsupp.single_apply, hne'] at h

theorem tp_errAt (q : Fin n) : tp n z (errAt z (.data q), 0) = Pi.single q 1 := by
  funext i
  cases z <;> simp [tp, errAt, Finsupp.single_apply, Pi.single_apply, Fin.ext_iff, eq_comm]

include hnd hne hS in
/-- An operator that only changes the sign of the prepared state is a stabilizer of it. -/
theorem stab_of_eigen_bits (s : R) (hs : 2 * s * s = 1) [Nontrivial R] (B : List (VQ × ZMod 2))
    (hB : ∀ p ∈ B, p.2 = 0 ∧ ∀ i, p.1 ≠ VQ.data i) (e : PauliErr VQ) (b : ZMod 2)
    (h : applyOp e (withBits B (prepared s c)) = fun y => (sgn b : R) * withBits B (prepared s c) y) :
    tp n z (e, 0) ∈ rowSpan S := by
  have hsu : IsUnit (s ^ c.hadamards.length) := by
    refine IsUnit.pow _ ⟨⟨s, 2 * s, by linear_combination hs, by linear_combination hs⟩, rfl⟩
  have hne0 : s ^ c.hadamards.length ≠ 0 := hsu.ne_zero
  have hB0 : ∀ p ∈ B, (fun _ : VQ => (0 : ZMod 2)) p.1 = p.2 := by
    intro p hp
    exact (hB p hp).1.symm
  -- the amplitude at 0
  have h0 := congrFun h fun _ => 0
  have hz0 : zdot e.2 (fun _ => 0) = 0 := by simp [zdot, Finsupp.sum]
  simp only [applyOp, hz0, sgn_zero, one_mul, zero_add] at h0
  have hr : withBits B (prepared s c) (fun _ => 0) = s ^ c.hadamards.length := by
    rw [withBits, if_pos hB0]
    exact prepared_zero s c hnd _ rfl
  rw [hr] at h0
  have hsgn : ∀ b : ZMod 2, IsUnit (sgn b : R) := fun b => ⟨⟨sgn b, sgn b, sgn_sq b, sgn_sq b⟩, rfl⟩
  have hX : withBits B (prepared s c) (fun q => e.1 q) ≠ 0 := by
    rw [h0]; exact ((hsgn b).mul hsu).ne_zero
  have hXB : ∀ p ∈ B, e.1 p.1 = p.2 := by
    by_contra hcon
    apply hX
    rw [withBits, if_neg hcon]
  apply mem_rowSpan_of_orthogonal_kerOf
  intro v hv
  have hvS : ∀ r ∈ S, dot r v = 0 := fun r hr => hv r hr
  cases z with
  | true =>
    have hinv := prepared_invZ s c hnd hne v ((hS.2 v).2 hvS)
    by_contra hd
    apply hX
    rw [withBits, if_pos hXB]
    exact hinv _ hd
  | false =>
    have hinv := prepared_invX s c hnd hne v ((hS.2 v).2 hvS)
    -- compare the amplitudes at 0 and at v
    have hv1 := congrFun h fun q => ((supp v).count q : ZMod 2)
    have hBx : ∀ x : VQ → ZMod 2, withBits B (prepared s c) (fun q => x q + ((supp v).count q : ZMod 2)) =
        withBits B (prepared s c) x := by
      intro x
      have hiff : (∀ p ∈ B, x p.1 + ((supp v).count p.1 : ZMod 2) = p.2) ↔ ∀ p ∈ B, x p.1 = p.2 := by
        apply forall₂_congr
        intro p hp
        rw [List.count_eq_zero_of_not_mem (not_mem_supp (hB p hp).2)]
        simp
      rw [withBits, withBits, hinv x _ (shift_supp v x)]
      simp only [hiff]
    have e1 : withBits B (prepared s c) (fun q => ((supp v).count q : ZMod 2)) = s ^ c.hadamards.length := by
      have := hBx fun _ => 0
      simp only [zero_add] at this
      rw [this, hr]
    have e2 : withBits B (prepared s c) (fun q => ((supp v).count q : ZMod 2) + e.1 q) =
        withBits B (prepared s c) (fun q => e.1 q) := by
      have := hBx fun q => e.1 q
      rw [← this]
      congr 1
      funext q
      rw [add_comm]
    simp only [applyOp] at hv1
    rw [e1, e2, h0] at hv1
    have hzd : zdot e.2 (fun q => ((supp v).count q : ZMod 2)) = dot v (tp n false (e, 0)) := by
      have hgen : ∀ f : VQ →₀ ZMod 2, zdot f (fun q => ((supp v).count q : ZMod 2)) = ((supp v).map f).sum := by
        intro f
        induction f using Finsupp.induction_linear with
        | zero =>
          rw [zdot_zero]
          show 0 = ((supp v).map fun _ => (0 : ZMod 2)).sum
          simp
        | add f g hf hg =>
          rw [zdot_add, hf, hg]
          show _ = ((supp v).map fun q => f q + g q).sum
          rw [List.sum_map_add]
        | single q b =>
          rw [zdot_single]
          induction supp v with
          | nil => simp
          | cons a L ih =>
            rw [List.map_cons, List.sum_cons, ← ih, List.count_cons, Finsupp.single_apply]
            by_cases hqa : q = a
            · subst hqa; simp; ring
            · have : a ≠ q := fun e => hqa e.symm
              simp [hqa, this]
      rw [hgen, supp_sum]
      rfl
    rw [hzd] at hv1
    rcases zmod2_cases (dot v (tp n false (e, 0))) with hd | hd
    · exact hd
    · exfalso
      rw [hd] at hv1
      have hu := (hsgn b).mul hsu
      have hm1 : (sgn (1 : ZMod 2) : R) = -1 := by simp [sgn]
      rw [hm1] at hv1
      have h2 : (2 : R) * (sgn b * s ^ c.hadamards.length) = 0 := by linear_combination -hv1
      have h2u : IsUnit (2 : R) := ⟨⟨2, s * s, by linear_combination hs, by linear_combination hs⟩, rfl⟩
      exact (h2u.mul hu).ne_zero h2

include hnd hne hS in
theorem stab_of_eigen (s : R) (hs : 2 * s * s = 1) [Nontrivial R] (k : ℕ) (e : PauliErr VQ) (b : ZMod 2)
    (h : applyOp e (withBits ((List.range k).map fun i => (ranc z i, 0)) (prepared s c)) =
      fun y => (sgn b : R) * withBits ((List.range k).map fun i => (ranc z i, 0)) (prepared s c) y) :
    tp n z (e, 0) ∈ rowSpan S :=
  stab_of_eigen_bits z c S hnd hne hS s hs _ (by
    intro p hp
    obtain ⟨i, -, rfl⟩ := List.mem_map.1 hp
    exact ⟨rfl, ranc_ne_data z i⟩) e b h

include hnd hne hS hms in
theorem verified_not_tolerates (s : R) (hs : 2 * s * s = 1) [Nontrivial R] (w : ℤ) (hw : 1 ≤ w) (k : ℕ) (q : Fin n)
    (hk : k ≤ c.cnots.length) (hd : Dangerous S w (faultEffect z c.cnots k q))
    (hund : ∀ m ∈ ms, dot m (faultEffect z c.cnots k q) = 0) :
    ¬ ToleratesOneFault s z (fun i : Fin n => VQ.data i) w (prepInstrs c ++ firstRound z ms) (register n z ms.length) := by
  intro hft
  have hlt : k < c.cnots.length := by
    rcases hk.lt_or_eq with h | h
    · exact h
    · exfalso
      have : faultEffect z c.cnots k q = Pi.single q 1 := by rw [h, faultEffect_end]
      rw [this] at hd
      have h1 := hd _ (.refl _ _)
      rw [wt_single] at h1
      push_cast at h1
      omega
  set g := c.cnots[k] with hg
  have hdrop : c.cnots.drop k = g :: c.cnots.drop (k + 1) := List.drop_eq_getElem_cons hlt
  set cxs : List (CX n) → List (Instr VQ VC) := fun l => l.map fun g => .cx (.data g.1) (.data g.2) with hcxs
  set A : List (Instr VQ VC) := c.hadamards.map (fun q : Fin n => .h (.data q)) ++ cxs (c.cnots.take k) with hA
  set i : Instr VQ VC := .cx (.data g.1) (.data g.2) with hi
  set r : List (Instr VQ VC) := cxs (c.cnots.drop (k + 1)) ++ firstRound z ms with hr
  have hl : prepInstrs c ++ firstRound z ms = A ++ i :: r := by
    have : c.cnots = c.cnots.take k ++ g :: c.cnots.drop (k + 1) := by rw [← hdrop, List.take_append_drop]
    rw [prepInstrs, hA, hr, hi]
    conv_lhs => rw [this]
    simp [hcxs]
  set P := errAt z (.data q) with hP
  let N : List (NoisyInstr VQ VC) := A.map clean ++ ⟨P, i, 0⟩ :: r.map clean
  have hfa : FaultAt i P := .inl ⟨.data q, fun p hp => errAt_acts z _ p hp⟩
  have hNi : N.map NoisyInstr.instr = prepInstrs c ++ firstRound z ms := by
    rw [hl]
    simp only [N, List.map_append, List.map_cons, map_clean]
  have hNf : AllFaults N := by
    intro L hL
    rcases List.mem_append.1 hL with hL | hL
    · exact allFaults_clean A L hL
    · rcases List.mem_cons.1 hL with rfl | hL
      · exact ⟨hfa, .inr fun p hp => by simp [PauliErr.ActsOn] at hp⟩
      · exact allFaults_clean r L hL
  have hNc : faultCount N ≤ 1 := by
    have e : N = A.map clean ++ ([⟨P, i, 0⟩] ++ r.map clean) := by simp [N]
    rw [e, faultCount_append, faultCount_append, faultCount_clean, faultCount_clean]
    classical
    simp only [faultCount, List.map_cons, List.map_nil, List.sum_cons, List.sum_nil]
    split <;> simp
  have hFr : noisyFrame N 0 = prop (i :: r) (P, 0) := by
    have : noisyFrame N 0 = noisyFrame (r.map clean) (frameStep (noisyFrame (A.map clean) 0 + (P, 0)) i + (0, 0)) := by
      show noisyFrame (A.map clean ++ ⟨P, i, 0⟩ :: r.map clean) 0 = _
      rw [noisyFrame_append]; rfl
    rw [this, noisyFrame_clean, noisyFrame_clean, prop_zero, zero_add, prop_cons]
    rw [show ((0, 0) : Frame VQ VC) = 0 from rfl, add_zero]
  set D : Frame VQ VC := prop (cxs (c.cnots.drop k)) (P, 0) with hD
  have hFr2 : noisyFrame N 0 = prop (firstRound z ms) D := by
    rw [hFr, hD, ← prop_append, hdrop]
    rfl
  have hDo : DataOnly n D := dataOnly_cxs _ _ ⟨fun p hp => ⟨q, errAt_acts z _ p hp⟩, rfl⟩
  have hDt : tp n z D = faultEffect z c.cnots k q := by
    rw [hD, hcxs, tp_cxs, hP, tp_errAt]; rfl
  have hFt : tp n z (noisyFrame N 0) = faultEffect z c.cnots k q := by
    rw [hFr2, tp_firstRound _ (fun i hi => hi), hDt]
  have hbit : ∀ j < ms.length, (noisyFrame N 0).2 (rbit z j) = 0 := by
    intro j hj
    have := firstRound_bits z ms D hDo (ms[j], j) (by rw [List.mem_zipIdx_iff_getElem?]; simp [hj])
    rw [hFr2, this, hDt]
    exact hund _ (List.getElem_mem _)
  obtain ⟨b, hrun⟩ := noisy_run s (fun _ => 0) N (zeros (register n z ms.length))
    (by
      intro L hL
      refine valid_verified z c ms hne L.instr ?_
      rw [← hNi]; exact List.mem_map_of_mem hL)
    (by rw [hNi, bits_verified]; exact List.nodup_range.map (rbit_inj z))
  rw [hNi, run_verified z c S ms hnd hne hS hms s hs, if_pos (by
    intro j hj; simp only [zero_add]; exact hbit j hj)] at hrun
  set Φ : State VQ R := withBits ((List.range ms.length).map fun i => (ranc z i, 0)) (prepared s c) with hΦ
  have hsgn : ∀ b : ZMod 2, IsUnit (sgn b : R) := fun b => ⟨⟨sgn b, sgn b, sgn_sq b, sgn_sq b⟩, rfl⟩
  have hinvol : ∀ e : PauliErr VQ, applyOp e (applyOp e Φ) = fun y => (sgn (zdot e.2 e.1) : R) * Φ y := by
    intro e
    rw [applyOp_add]
    have : e + e = 0 := by ext q <;> simp [two_self]
    rw [this, applyOp_zero]
  have hΦ0 : Φ (fun _ => 0) = s ^ c.hadamards.length := by
    rw [hΦ, withBits, if_pos]
    · exact prepared_zero s c hnd _ rfl
    · intro p hp
      obtain ⟨i, -, rfl⟩ := List.mem_map.1 hp
      rfl
  have hΦne : Φ ≠ fun _ => 0 := by
    intro h0
    have hsu : IsUnit (s ^ c.hadamards.length) :=
      IsUnit.pow _ ⟨⟨s, 2 * s, by linear_combination hs, by linear_combination hs⟩, rfl⟩
    rw [h0] at hΦ0
    exact hsu.ne_zero hΦ0.symm
  have hcancel : ∀ (b : ZMod 2) (φ χ : State VQ R), (fun y => (sgn b : R) * φ y) = χ → φ = fun y => (sgn b : R) * χ y := by
    intro b φ χ h
    subst h
    funext y
    linear_combination (-φ y) * sgn_sq (R := R) b
  rcases hft N hNi hNf hNc with h0 | ⟨b', e, hwt, hrun'⟩
  · apply hΦne
    rw [hrun] at h0
    have h1 := hcancel b _ _ h0
    have h2 := hinvol (noisyFrame N 0).1
    rw [h1] at h2
    have h3 := hcancel _ _ _ h2.symm
    rw [h3]
    funext y
    simp [applyOp]
  · rw [run_verified_zero z c S ms hnd hne hS hms s hs, ← hΦ, hrun] at hrun'
    rw [card_tp] at hwt
    set G := (noisyFrame N 0).1 with hG
    have h1 := hcancel b _ _ hrun'
    have h2 := hinvol e
    -- e G Φ is Φ up to a sign
    have h3 : applyOp e (applyOp G Φ) = fun y => (sgn b : R) * ((sgn b' : R) * ((sgn (zdot e.2 e.1) : R) * Φ y)) := by
      rw [h1, applyOp_smul, applyOp_smul, h2]
    rw [applyOp_add] at h3
    have h4 := hcancel _ _ _ h3
    have h5 := stab_of_eigen z c S hnd hne hS s hs ms.length (e + G) (zdot G.2 e.1 + b + b' + zdot e.2 e.1) (by
      rw [← hΦ, h4]
      funext y
      rw [sgn_add, sgn_add, sgn_add]; ring)
    have h6 : tp n z (e + G, 0) = tp n z (e, 0) + faultEffect z c.cnots k q := by
      rw [← hFt]
      funext j; cases z <;> rfl
    rw [h6] at h5
    have := hd (tp n z (e, 0)) (by rw [Equivalent, add_comm]; exact h5)
    omega

end Verif.SP
