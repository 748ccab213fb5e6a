import Verif.Lemmas.PrepFull

/-! # What one fault of a fully verified preparation circuit leaves -/

namespace Verif.SP
open Verif Verif.Spec
variable {n : ℕ}

variable (z : Bool) (c : PrepCircuit n) (t : ℕ) (m1 m2 : List (Vec n))

/-- The final frame of a circuit with one fault: an effect of the preparation circuit read by both rounds; at most one error of
the kind read by the first round, with a hook error read by the second; or an error of the second round. -/
inductive FullRes (F : Frame VQ VC) : Prop
  | prep (hz : Effect z c.cnots (tp n z F)) (hy : Effect (!z) c.cnots (tp n (!z) F))
      (b1 : ∀ p ∈ m1.zipIdx, F.2 (rbit z p.2) = dot p.1 (tp n z F)) (b2 : ∀ p ∈ m2.zipIdx, F.2 (rbit (!z) p.2) = dot p.1 (tp n (!z) F))
  | first (hz : wt (tp n z F) ≤ 1) (hy : Hooked (!z) m1 F.1) (b2 : ∀ p ∈ m2.zipIdx, F.2 (rbit (!z) p.2) = dot p.1 (tp n (!z) F))
  | second (h : SeqRes (secondGads (!z) t m2) F)

theorem own_second {q : VQ} (h : OwnL (secondGads (!z) t m2) q) : ∃ k, q = ranc (!z) k ∨ ∃ j, q = rflag (!z) k j := by
  obtain ⟨x, hx, hq⟩ := h
  obtain ⟨p, -, rfl⟩ := List.mem_map.1 hx
  exact ⟨p.2, own_mk hq⟩

theorem bit_second {b : VC} (h : BitL (secondGads (!z) t m2) b) : ∃ k, b = rbit (!z) k ∨ ∃ j, b = rfbit (!z) k j := by
  obtain ⟨x, hx, hq⟩ := h
  obtain ⟨p, -, rfl⟩ := List.mem_map.1 hx
  exact ⟨p.2, bit_mk hq⟩

theorem rbit_not_second (k : ℕ) : ¬ BitL (secondGads (!z) t m2) (rbit z k) := by
  intro h
  obtain ⟨i, h | ⟨j, h⟩⟩ := bit_second z t m2 h <;> cases z <;> simp [rbit, rfbit] at h

theorem prep_qubits {i : Instr VQ VC} (hi : i ∈ prepInstrs c) {q : VQ} (hq : q ∈ i.qubits) : ∃ j : Fin n, q = .data j := by
  simp only [prepInstrs, List.mem_append, List.mem_map] at hi
  rcases hi with ⟨j, -, rfl⟩ | ⟨g, -, rfl⟩
  · simp only [Instr.qubits, List.mem_singleton] at hq; exact ⟨j, hq⟩
  · simp only [Instr.qubits, List.mem_cons, List.not_mem_nil, or_false] at hq
    rcases hq with rfl | rfl
    · exact ⟨_, rfl⟩
    · exact ⟨_, rfl⟩

theorem first_qubits {i : Instr VQ VC} (hi : i ∈ firstRound z m1) {q : VQ} (hq : q ∈ i.qubits) :
    (∃ k, q = ranc z k) ∨ ∃ j : Fin n, q = .data j := by
  rcases mem_firstRound hi with ⟨k, rfl, -⟩ | ⟨k, j, rfl⟩ | ⟨k, rfl⟩
  · simp only [Instr.qubits, List.mem_singleton] at hq; exact .inl ⟨k, hq⟩
  · cases z <;> simp [Instr.qubits] at hq <;> rcases hq with rfl | rfl
    · exact .inl ⟨k, rfl⟩
    · exact .inr ⟨j, rfl⟩
    · exact .inr ⟨j, rfl⟩
    · exact .inl ⟨k, rfl⟩
  · simp only [Instr.qubits, List.mem_singleton] at hq; exact .inl ⟨k, hq⟩

theorem own_not_prep {i : Instr VQ VC} (hi : i ∈ prepInstrs c) {q : VQ} (h : OwnL (secondGads (!z) t m2) q) : q ∉ i.qubits := by
  intro hq
  obtain ⟨j, rfl⟩ := prep_qubits c hi hq
  obtain ⟨k, h | ⟨_, h⟩⟩ := own_second z t m2 h <;> cases z <;> simp [ranc, rflag] at h

theorem own_not_first {i : Instr VQ VC} (hi : i ∈ firstRound z m1) {q : VQ} (h : OwnL (secondGads (!z) t m2) q) : q ∉ i.qubits := by
  intro hq
  obtain ⟨k, h | ⟨_, h⟩⟩ := own_second z t m2 h <;> rcases first_qubits z m1 hi hq with ⟨k', rfl⟩ | ⟨j, rfl⟩ <;> cases z <;>
    simp [ranc, rflag] at h

theorem tp_fst (k : Bool) {F G : Frame VQ VC} (h : F.1 = G.1) : tp n k F = tp n k G := by
  funext i; simp only [tp, h]

/-- A clean frame passes the second round. -/
theorem through_second (hf : FlagsOk t m2) (F : Frame VQ VC) (hc : CleanL (secondGads (!z) t m2) F)
    (hb : ∀ k, F.2 (rbit (!z) k) = 0) :
    (∀ k, tp n k (prop (gadsInstrs (secondGads (!z) t m2)) F) = tp n k F) ∧
    (∀ k, (prop (gadsInstrs (secondGads (!z) t m2)) F).2 (rbit z k) = F.2 (rbit z k)) ∧
    ∀ p ∈ m2.zipIdx, (prop (gadsInstrs (secondGads (!z) t m2)) F).2 (rbit (!z) p.2) = dot p.1 (tp n (!z) F) := by
  have hok := secondGads_ok (!z) t m2 hf
  obtain ⟨b1, -, b3⟩ := clean_list hok F hc
  refine ⟨fun k => ?_, fun k => ?_, fun p hp => ?_⟩
  · funext i
    have := b1 (.data i) (ownL_not_data hok i)
    simp only [tp, this.1, this.2]
  · exact clean_list_bit F _ (rbit_not_second z t m2 k)
  · have := b3 _ (List.mem_map_of_mem hp)
    have h2 : (prop (gadsInstrs (secondGads (!z) t m2)) F).2 (rbit (!z) p.2) = F.2 (rbit (!z) p.2) + dot p.1 (tp n (!z) F) := this
    rw [h2, hb, zero_add]

theorem hooked_fst {y : Bool} {P : PauliErr VQ} {F : Frame VQ VC} (h : ∀ k, tp n k F = tp n k (P, 0)) (hP : Hooked y m1 P) :
    Hooked y m1 F.1 := by
  have e : tp n y (F.1, 0) = tp n y (P, 0) := (tp_fst y rfl).trans (h y)
  unfold Hooked
  rw [e]
  exact hP

theorem first_pass (hf : FlagsOk t m2) (l : List (Instr VQ VC)) (hl : ∀ i ∈ l, i ∈ firstRound z m1) (P : PauliErr VQ)
    (hwt : wt (tp n z (P, 0)) ≤ 1) (hh : Hooked (!z) m1 (prop l (P, 0)).1)
    (hone : ∀ q, OwnL (secondGads (!z) t m2) q → P.ActsOn q → ∀ p, P.ActsOn p → p = q) :
    FullRes z c t m1 m2 (prop (gadsInstrs (secondGads (!z) t m2)) (prop l (P, 0))) := by
  have hok := secondGads_ok (!z) t m2 hf
  by_cases hq : ∃ q, OwnL (secondGads (!z) t m2) q ∧ P.ActsOn q
  · obtain ⟨q, hq, hact⟩ := hq
    have hPq := hone q hq hact
    have : prop l (P, (0 : VC → ZMod 2)) = (P, 0) :=
      prop_other _ _ fun j hj p hp ha => own_not_first z t m1 m2 (hl j hj) hq (by rw [← hPq p ha]; exact hp)
    rw [this]
    exact .second (seq_single hok P q hPq)
  · have hclean : CleanL (secondGads (!z) t m2) (prop l (P, 0)) := by
      intro p hp
      have := prop_qubit l (P, 0) p fun j hj => own_not_first z t m1 m2 (hl j hj) hp
      rw [this.1, this.2]
      exact not_acts fun ha => hq ⟨p, hp, ha⟩
    have hb : ∀ k, (prop l (P, (0 : VC → ZMod 2))).2 (rbit (!z) k) = 0 := by
      intro k
      rw [prop_bit]
      · rfl
      · intro hm
        simp only [bitsOf, List.mem_filterMap] at hm
        obtain ⟨i, hi, hi2⟩ := hm
        rcases mem_firstRound (hl i hi) with ⟨k', rfl, -⟩ | ⟨k', j, rfl⟩ | ⟨k', rfl⟩
        · simp at hi2
        · cases z <;> simp at hi2
        · cases z <;> simp [rbit] at hi2
    obtain ⟨a1, -, a3⟩ := through_second z t m2 hf _ hclean hb
    refine .first ?_ ?_ ?_
    · rw [a1, tp_firstRound _ hl]; exact hwt
    · exact hooked_fst m1 (P := (prop l (P, 0)).1) (fun k => (a1 k).trans (tp_fst k rfl)) hh
    · intro p hp
      rw [a3 p hp, a1]

theorem prep_pass (hf : FlagsOk t m2) (F : Frame VQ VC) (hF : (DataOnly n F ∧ Effect z c.cnots (tp n z F) ∧ Effect (!z) c.cnots (tp n (!z) F)) ∨
    (∃ (q : VQ) (P : PauliErr VQ), (∀ i : Fin n, q ≠ .data i) ∧ (∀ p, P.ActsOn p → p = q) ∧ F = (P, 0))) :
    FullRes z c t m1 m2 (prop (bothRounds z t m1 m2) F) := by
  rw [bothRounds, prop_append]
  rcases hF with ⟨h1, h2, h3⟩ | ⟨q, P, h1, h2, rfl⟩
  · have hclean0 : ∀ q, (∀ i : Fin n, q ≠ .data i) → F.1.1 q = 0 ∧ F.1.2 q = 0 := by
      intro q hq
      apply not_acts
      intro ha
      obtain ⟨i, hi⟩ := h1.1 q ha
      exact hq i hi
    have hcl1 : CleanL (firstGads z m1) F := fun q hq => hclean0 q fun i e => ownL_not_data (firstGads_ok z m1) i (e ▸ hq)
    obtain ⟨d1, -, -⟩ := clean_list (firstGads_ok z m1) F hcl1
    have hfst := firstRound_fst z m1 F
    have htp : ∀ k, tp n k (prop (firstRound z m1) F) = tp n k F := by
      intro k
      rw [tp_fst k hfst]
      funext i
      have := d1 (.data i) (ownL_not_data (firstGads_ok z m1) i)
      simp only [tp, this.1, this.2]
    have hclean : CleanL (secondGads (!z) t m2) (prop (firstRound z m1) F) := by
      intro p hp
      have := prop_qubit (firstRound z m1) F p fun j hj => own_not_first z t m1 m2 hj hp
      rw [this.1, this.2]
      exact hclean0 p fun i e => by
        subst e
        obtain ⟨k, h | ⟨_, h⟩⟩ := own_second z t m2 hp <;> cases z <;> simp [ranc, rflag] at h
    have hb : ∀ k, (prop (firstRound z m1) F).2 (rbit (!z) k) = 0 := by
      intro k
      rw [prop_bit, h1.2]
      · rfl
      · rw [bitsOf_firstRound]
        intro hm
        obtain ⟨j, -, hj⟩ := List.mem_map.1 hm
        cases z <;> simp [rbit] at hj
    obtain ⟨a1, a2, a3⟩ := through_second z t m2 hf _ hclean hb
    refine .prep ?_ ?_ ?_ ?_
    · rw [a1, htp]; exact h2
    · rw [a1, htp]; exact h3
    · intro p hp
      rw [a1, htp, a2, firstRound_bits z m1 F h1 p hp]
    · intro p hp
      rw [a3 p hp, a1]
  · refine first_pass z c t m1 m2 hf (firstRound z m1) (fun _ h => h) P ?_ (firstRound_single z m1 P q h2) ?_
    · exact wt_le_one_of _ q fun i hi => by
        refine h2 _ ?_
        cases z
        · exact .inr hi
        · exact .inl hi
    · intro q' _ hact p hp
      rw [h2 p hp, h2 q' hact]

/-- One fault anywhere in the preparation circuit and the two rounds of verification. -/
theorem full_fault (hne : ∀ g ∈ c.cnots, g.1 ≠ g.2) (hf : FlagsOk t m2) : AllSplits (fun i r => ∀ P : PauliErr VQ, FaultAt i P →
    FullRes z c t m1 m2 (prop (i :: r) (P, 0)) ∧ FullRes z c t m1 m2 (prop r (P, 0))) (prepInstrs c ++ bothRounds z t m1 m2) := by
  apply AllSplits.append
  · have hp := prep_fault z c hne
    have hp' := prep_fault (!z) c hne
    apply AllSplits.of
    intro a i r e P hP
    have h1 := hp.get a i r e P hP
    have h2 := hp'.get a i r e P hP
    rw [← List.cons_append, prop_append, prop_append]
    constructor
    · refine prep_pass z c t m1 m2 hf _ ?_
      rcases h1.1 with h1 | ⟨q, h3, h4, h5⟩
      · rcases h2.1 with h2 | ⟨q, h3, h4, h5⟩
        · exact .inl ⟨h1.1, h1.2, h2.2⟩
        · exact .inr ⟨q, P, h3, h4, h5⟩
      · exact .inr ⟨q, P, h3, h4, h5⟩
    · refine prep_pass z c t m1 m2 hf _ ?_
      rcases h1.2 with h1 | ⟨q, h3, h4, h5⟩
      · rcases h2.2 with h2 | ⟨q, h3, h4, h5⟩
        · exact .inl ⟨h1.1, h1.2, h2.2⟩
        · exact .inr ⟨q, P, h3, h4, h5⟩
      · exact .inr ⟨q, P, h3, h4, h5⟩
  · unfold bothRounds
    apply AllSplits.append
    · have hh := firstRound_hook z m1
      apply AllSplits.of
      intro a i r e P hP
      have hmem : ∀ j ∈ i :: r, j ∈ firstRound z m1 := by
        intro j hj; rw [e]; exact List.mem_append_right _ hj
      have hi := hmem i (by simp)
      obtain ⟨h1, h2⟩ := hh.get a i r e P hP
      have hone : ∀ q, OwnL (secondGads (!z) t m2) q → P.ActsOn q → ∀ p, P.ActsOn p → p = q := by
        intro q hq hact p hp
        rcases hP with ⟨q', hq'⟩ | hP
        · rw [hq' p hp, hq' q hact]
        · exact absurd (hP q hact) (own_not_first z t m1 m2 hi hq)
      rw [← List.cons_append, prop_append, prop_append]
      exact ⟨first_pass z c t m1 m2 hf _ hmem P (firstRound_fault hi P hP) h1 hone,
        first_pass z c t m1 m2 hf _ (fun j hj => hmem j (by simp [hj])) P (firstRound_fault hi P hP) h2 hone⟩
    · have := seq_fault (secondGads_ok (!z) t m2 hf)
      apply AllSplits.of
      intro a i r e P hP
      obtain ⟨h1, h2⟩ := this.get a i r e P hP
      exact ⟨.second h1, .second h2⟩

theorem fullRes_zero (hf : FlagsOk t m2) : FullRes z c t m1 m2 (0 : Frame VQ VC) := by
  have h0 : ∀ k, tp n k (0 : Frame VQ VC) = 0 := by intro k; funext i; cases k <;> rfl
  refine .prep ?_ ?_ ?_ ?_
  · rw [h0]; exact .inl rfl
  · rw [h0]; exact .inl rfl
  · intro p _; rw [h0, dot_zero_right]; rfl
  · intro p _; rw [h0, dot_zero_right]; rfl

theorem fullRes_frame (hne : ∀ g ∈ c.cnots, g.1 ≠ g.2) (hf : FlagsOk t m2) (N : List (NoisyInstr VQ VC))
    (hN : N.map NoisyInstr.instr = prepInstrs c ++ bothRounds z t m1 m2)
    (hfa : AllFaults N) (hc : faultCount N ≤ 1) : FullRes z c t m1 m2 (noisyFrame N 0) := by
  obtain ⟨us, Fs, hlen, hall, hsum⟩ := noisyFrame_sum (M := Unit) (fun _ F => FullRes z c t m1 m2 F) N 0 hfa (by
    rw [hN]
    have := full_fault z c t m1 m2 hne hf
    apply AllSplits.of
    intro a i r e P hP
    obtain ⟨h1, h2⟩ := this.get a i r e P hP
    exact ⟨⟨(), h1⟩, (), h2⟩)
  rw [prop_zero, zero_add] at hsum
  rw [hsum]
  cases hall with
  | nil => exact fullRes_zero z c t m1 m2 hf
  | @cons _ F us Fs h1 h2 =>
    have : us = [] := by
      rw [List.length_cons] at hlen
      exact List.eq_nil_of_length_eq_zero (by omega)
    subst this
    cases h2
    rw [List.sum_cons, List.sum_nil, add_zero]
    exact h1

/-- An undetected error of the second round is small up to a measured stabilizer. -/
theorem second_small (hf : FlagsOk t m2) (ht : 1 ≤ t) (F : Frame VQ VC) (h : SeqRes (secondGads (!z) t m2) F)
    (hflag : ∀ p ∈ m2.zipIdx, ∀ j, F.2 (rfbit (!z) p.2 j) = 0) :
    wt (tp n (!z) F) ≤ 1 ∧ (wt (tp n z F) ≤ 1 ∨ ∃ m ∈ m2, wt (tp n z F + m) ≤ 1) := by
  cases h with
  | one q h1 =>
    refine ⟨wt_le_one_of _ q fun i hi => h1 i ?_, .inl (wt_le_one_of _ q fun i hi => h1 i ?_)⟩
    · cases z
      · exact .inl hi
      · exact .inr hi
    · cases z
      · exact .inr hi
      · exact .inl hi
  | move x hx mv valid hdata flags =>
    obtain ⟨p, hp, rfl⟩ := List.mem_map.1 hx
    have hm : p.1 ∈ m2 := List.fst_mem_of_mem_zipIdx hp
    have hst := flagSteps_some hf hm
    have hnd : (supp p.1).Nodup := by
      unfold supp
      exact List.Nodup.map (fun a b h => data_inj.1 h) ((List.nodup_finRange n).filter _)
    have hgood := stepsOf_good t _ _ hst (hf _ hm).2 hnd
    have hv : mv.Valid (flagSteps t p.1) := valid
    have hfl : ∀ j, mv.flagFlip (flagSteps t p.1) j = 0 := fun j => by
      have h1 : F.2 (rfbit (!z) p.2 j) = mv.flagFlip (flagSteps t p.1) j := flags j
      rw [← h1]; exact hflag p hp j
    obtain ⟨cc, T, hT, hloc, hsm⟩ := hgood [mv] (by simpa using ht) (by simpa using hv) (by simpa using hfl)
    have hdat : dataOf (flagSteps t p.1) = supp p.1 := (stepsOf_spec t _ _ hst (hf _ hm).2).1
    have hT1 : ∃ q, ∀ p ∈ T, p = q := by
      match T, hT with
      | [], _ => exact ⟨.data 0, by simp⟩
      | [q], _ => exact ⟨q, by simp⟩
    obtain ⟨q, hq⟩ := hT1
    have key : ∀ i : Fin n, VQ.data i ≠ q → tp n z F i + cc * p.1 i = 0 ∧ tp n (!z) F i = 0 := by
      intro i hi
      have hiT : VQ.data i ∉ T := fun h => hi (hq _ h)
      have hil : VQ.data i ∉ mv.locals (flagSteps t p.1) := fun h => hiT (hloc mv (by simp) _ h)
      have hd := hdata i hil
      have h1 : hk (!z) F (.data i) = mv.data (flagSteps t p.1) (.data i) := hd.1
      have h2 : oth (!z) F (.data i) = 0 := hd.2
      have h3 : mv.data (flagSteps t p.1) (.data i) + cc * ((supp p.1).count (VQ.data i) : ZMod 2) = 0 := by
        by_contra hcon
        exact hiT (hsm (.data i) (by rw [hdat]; simpa using hcon))
      have h4 : ((supp p.1).count (VQ.data i) : ZMod 2) = p.1 i := by rw [supp_count]; simp
      rw [h4, ← h1] at h3
      constructor
      · rw [← h3]; cases z <;> rfl
      · rw [← h2]; cases z <;> rfl
    refine ⟨wt_le_one_of _ q fun i hi => ?_, ?_⟩
    · by_contra hcon
      exact hi (key i hcon).2
    · rcases zmod2_cases cc with rfl | rfl
      · left
        refine wt_le_one_of _ q fun i hi => ?_
        by_contra hcon
        have := (key i hcon).1
        rw [zero_mul, add_zero] at this
        exact hi this
      · right
        refine ⟨p.1, hm, wt_le_one_of _ q fun i hi => ?_⟩
        by_contra hcon
        have := (key i hcon).1
        rw [one_mul] at this
        exact hi this

end Verif.SP
