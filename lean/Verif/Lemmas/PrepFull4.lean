import Verif.Lemmas.PrepFull3

/-! # One fault of a fully verified preparation circuit -/

namespace Verif.SP
open Verif Verif.Spec
variable {n : ℕ} {R : Type} [CommRing R]

variable (z : Bool) (c : PrepCircuit n) (t : ℕ) (m1 m2 : List (Vec n))

theorem bits_second : bitsOf (gadsInstrs (secondGads (!z) t m2)) =
    m2.zipIdx.flatMap fun p => (closedOf (flagSteps t p.1)).map (rfbit (!z) p.2) ++ [rbit (!z) p.2] := by
  rw [gadsInstrs, secondGads, List.flatMap_map]
  induction m2.zipIdx with
  | nil => rfl
  | cons p L ih => rw [List.flatMap_cons, bitsOf_append, ih, List.flatMap_cons, Gad.instrs, bitsOf_gadget']; rfl

theorem bits_both_nodup (hf : FlagsOk t m2) : (bitsOf (prepInstrs c ++ bothRounds z t m1 m2)).Nodup := by
  rw [bitsOf_append, prepInstrs_bits, List.nil_append, bothRounds, bitsOf_append, bitsOf_firstRound, bits_second, List.nodup_append']
  refine ⟨List.nodup_range.map (rbit_inj z), ?_, ?_⟩
  · rw [List.nodup_flatMap]
    refine ⟨fun p hp => ?_, ?_⟩
    · have hm := (mem_zipIdx_fst hp).1
      rw [List.nodup_append']
      refine ⟨((stepsOf_wfs t _ _ (flagSteps_some hf hm)).2).map (lay_mk (!z) p.2).binj, List.nodup_singleton _, ?_⟩
      intro b hb hb'
      obtain ⟨j, -, rfl⟩ := List.mem_map.1 hb
      exact (lay_mk (!z) p.2).bne j (by simpa using hb')
    · refine (zipIdx_pairwise m2 0).imp ?_
      intro p q hpq b hb hb'
      simp only [List.mem_append, List.mem_map, List.mem_singleton] at hb hb'
      have h1 : (mkGad (!z) [] p).Bit b := by
        rcases hb with ⟨j, -, rfl⟩ | rfl
        · exact .inr ⟨j, rfl⟩
        · exact .inl rfl
      have h2 : (mkGad (!z) [] q).Bit b := by
        rcases hb' with ⟨j, -, rfl⟩ | rfl
        · exact .inr ⟨j, rfl⟩
        · exact .inl rfl
      exact (sep_mk hpq).2 b h1 h2
  · intro b hb hb'
    obtain ⟨i, -, rfl⟩ := List.mem_map.1 hb
    simp only [List.mem_flatMap, List.mem_append, List.mem_map, List.mem_singleton] at hb'
    obtain ⟨p, -, ⟨j, -, h⟩ | h⟩ := hb' <;> cases z <;> simp [rbit, rfbit] at h

theorem valid_both (hne : ∀ g ∈ c.cnots, g.1 ≠ g.2) (hf : FlagsOk t m2) : ∀ i ∈ prepInstrs c ++ bothRounds z t m1 m2, i.Valid := by
  intro i hi
  rw [bothRounds, ← List.append_assoc] at hi
  rcases List.mem_append.1 hi with hi | hi
  · exact valid_verified z c m1 hne i hi
  · obtain ⟨x, hx, hi⟩ := List.mem_flatMap.1 hi
    have hok := (secondGads_ok (!z) t m2 hf).ok x hx
    refine valid_gadget x.kind x.anc x.mbit x.flag x.fbit x.st hok.lay.ne ?_ i hi
    intro h
    exact (hok.isData' _ h).1 rfl

/-- Every flag of the steps is closed. -/
theorem wfs_closed (st : List (GStep VQ)) (hw : wfs st) (g : GStep VQ) (hg : g ∈ st) (j : ℕ) (hj : onFlag j g = true) : j ∈ closedOf st := by
  have hfind : ∀ (l : List (GStep VQ)) (i : ℕ), l.find? (onFlag j) = some (.close i) → j ∈ closedOf l := by
    intro l i h
    have hm := List.mem_of_find?_eq_some h
    have hp := List.find?_some h
    simp only [onFlag, decide_eq_true_eq] at hp
    subst hp
    exact List.mem_filterMap.2 ⟨_, hm, rfl⟩
  induction st with
  | nil => simp at hg
  | cons a st ih =>
    rcases List.mem_cons.1 hg with rfl | hg
    · cases g with
      | data q => simp [onFlag] at hj
      | opn i =>
        simp only [onFlag, decide_eq_true_eq] at hj
        subst hj
        obtain ⟨i', hi'⟩ := hw.1
        rw [closedOf_open]
        exact hfind st i' hi'
      | close i =>
        simp only [onFlag, decide_eq_true_eq] at hj
        subst hj
        rw [closedOf_close]; simp
    · have hw' : wfs st := by
        cases a with
        | data q => exact hw
        | opn i => exact hw.2
        | close i => exact hw.2
      have := ih hw' hg
      cases a with
      | data q => rw [closedOf_data]; exact this
      | opn i => rw [closedOf_open]; exact this
      | close i => rw [closedOf_close]; exact List.mem_cons_of_mem _ this

/-- The qubits of the circuit. -/
theorem zeros_used (hf : FlagsOk t m2) (l : List (Instr VQ VC)) (hl : l = prepInstrs c ++ (bothRounds z t m1 m2 ++ againZ z m2.length)) :
    (zeros (usedQubits (fun i : Fin n => VQ.data i) l) : State VQ R) =
      withBits ((bothMeas z t m1 m2).flatMap Meas.start) (base n R) := by
  rw [base, zeros, zeros, ← withBits_append]
  refine withBits_congr (fun p => ?_) _
  obtain ⟨q, v⟩ := p
  have hA : ∀ i < m1.length, ranc z i ∈ l.flatMap Instr.qubits := by
    intro i hi
    rw [List.mem_flatMap]
    have hm : (.measure (ranc z i) (rbit z i) : Instr VQ VC) ∈ firstRound z m1 := by
      cases z
      · rw [firstRound, if_neg (by decide)]
        obtain ⟨p, hp, rfl, -⟩ := exists_zipIdx hi
        refine List.mem_flatten.2 ⟨_, List.mem_map_of_mem hp, ?_⟩
        simp [measureUnflagged, ranc, rbit]
      · rw [firstRound_z]
        refine List.mem_append_right _ (List.mem_map.2 ⟨i, List.mem_range.2 hi, rfl⟩)
    exact ⟨.measure (ranc z i) (rbit z i), by rw [hl, bothRounds]; simp [hm], by simp [Instr.qubits]⟩
  have hBmem : ∀ p ∈ m2.zipIdx, ∀ i ∈ (mkGad (!z) (flagSteps t p.1) p).instrs, i ∈ l := by
    intro p hp i hi
    have : i ∈ gadsInstrs (secondGads (!z) t m2) := List.mem_flatMap.2 ⟨_, List.mem_map_of_mem hp, hi⟩
    rw [hl, bothRounds]; simp [this]
  have hB : ∀ p ∈ m2.zipIdx, ranc (!z) p.2 ∈ l.flatMap Instr.qubits := by
    intro p hp
    rw [List.mem_flatMap]
    exact ⟨.measure (ranc (!z) p.2) (rbit (!z) p.2), hBmem p hp _ (by simp [Gad.instrs, gadget, mkGad]), by simp [Instr.qubits]⟩
  have hFl : ∀ p ∈ m2.zipIdx, ∀ j < numFlags t (supp p.1).length, rflag (!z) p.2 j ∈ l.flatMap Instr.qubits := by
    intro p hp j hj
    have hm := (mem_zipIdx_fst hp).1
    have hsp := stepsOf_spec t _ _ (flagSteps_some hf hm) (hf _ hm).2
    have hcl := (hsp.2.2 j).2 hj
    rw [List.mem_flatMap]
    refine ⟨.measure (rflag (!z) p.2 j) (rfbit (!z) p.2 j), hBmem p hp _ ?_, by simp [Instr.qubits]⟩
    have : GStep.close j ∈ flagSteps t p.1 := by
      simp only [closedOf, List.mem_filterMap] at hcl
      obtain ⟨g, hg, hg2⟩ := hcl
      cases g with
      | close i => simp at hg2; subst hg2; exact hg
      | data q => simp at hg2
      | opn i => simp at hg2
    have h2 : (.measure (rflag (!z) p.2 j) (rfbit (!z) p.2 j) : Instr VQ VC) ∈
        (flagSteps t p.1).flatMap (emit (!z) (ranc (!z) p.2) (rflag (!z) p.2) (rfbit (!z) p.2)) := by
      refine List.mem_flatMap.2 ⟨_, this, ?_⟩
      cases z <;> simp [emit, flagMeasure]
    simp only [Gad.instrs, gadget, mkGad, List.mem_append]
    exact .inl (.inl (.inr h2))
  constructor
  · intro h
    obtain ⟨q', hq', he⟩ := List.mem_map.1 h
    obtain ⟨rfl, rfl⟩ := Prod.mk.inj he
    rw [List.mem_append]
    by_cases hd : ∃ i : Fin n, q' = .data i
    · right
      obtain ⟨i, rfl⟩ := hd
      exact List.mem_map.2 ⟨.data i, List.mem_map_of_mem (List.mem_finRange i), rfl⟩
    · left
      rw [usedQubits, List.mem_append] at hq'
      rcases hq' with hq' | hq'
      · obtain ⟨i, -, rfl⟩ := List.mem_map.1 hq'
        exact absurd ⟨i, rfl⟩ hd
      · obtain ⟨i, hi, hqi⟩ := List.mem_flatMap.1 hq'
        rw [hl, bothRounds, List.mem_append, List.mem_append, List.mem_append] at hi
        have hanc1 : ∀ k < m1.length, (ranc z k, (0 : ZMod 2)) ∈ (bothMeas z t m1 m2).flatMap Meas.start := by
          intro k hk
          obtain ⟨p, hp, rfl, -⟩ := exists_zipIdx hk
          refine List.mem_flatMap.2 ⟨measK z false t p, List.mem_append_left _ (List.mem_map_of_mem hp), ?_⟩
          rw [Meas.start, measK_anc]; simp
        have hanc2 : ∀ p ∈ m2.zipIdx, (ranc (!z) p.2, (0 : ZMod 2)) ∈ (bothMeas z t m1 m2).flatMap Meas.start := by
          intro p hp
          refine List.mem_flatMap.2 ⟨measK (!z) true t p, List.mem_append_right _ (List.mem_map_of_mem hp), ?_⟩
          rw [Meas.start, measK_anc]; simp
        rcases hi with hi | (hi | hi) | hi
        · obtain ⟨j, rfl⟩ := prep_qubits c hi hqi
          exact absurd ⟨j, rfl⟩ hd
        · -- first round
          have : ∃ k < m1.length, q' = ranc z k := by
            cases z
            · simp only [firstRound, Bool.false_eq_true, if_false, List.mem_flatten, List.mem_map] at hi
              obtain ⟨ll, ⟨p, hp, rfl⟩, hi⟩ := hi
              refine ⟨p.2, (mem_zipIdx_fst hp).2, ?_⟩
              simp only [measureUnflagged, Bool.false_eq_true, if_false, List.mem_append, List.mem_singleton, List.mem_map] at hi
              rcases hi with ((rfl | ⟨q, hq, rfl⟩) | rfl) | rfl
              · simpa [Instr.qubits, ranc] using hqi
              · simp only [Instr.qubits, List.mem_cons, List.not_mem_nil, or_false] at hqi
                rcases hqi with rfl | rfl
                · rfl
                · exact absurd (mem_supp hq) hd
              · simpa [Instr.qubits, ranc] using hqi
              · simpa [Instr.qubits, ranc] using hqi
            · simp only [firstRound, if_true, List.mem_append, List.mem_flatten, List.mem_map] at hi
              rcases hi with ⟨ll, ⟨p, hp, rfl⟩, hi⟩ | ⟨k, hk, rfl⟩
              · obtain ⟨q, hq, rfl⟩ := List.mem_map.1 hi
                refine ⟨p.2, (mem_zipIdx_fst hp).2, ?_⟩
                simp only [Instr.qubits, List.mem_cons, List.not_mem_nil, or_false] at hqi
                rcases hqi with rfl | rfl
                · exact absurd (mem_supp hq) hd
                · rfl
              · exact ⟨k, List.mem_range.1 hk, by simpa [Instr.qubits, ranc] using hqi⟩
          obtain ⟨k, hk, rfl⟩ := this
          exact hanc1 k hk
        · -- second round
          obtain ⟨x, hx, hi⟩ := List.mem_flatMap.1 hi
          obtain ⟨p, hp, rfl⟩ := List.mem_map.1 hx
          have hm := (mem_zipIdx_fst hp).1
          have hok := (secondGads_ok (!z) t m2 hf).ok _ hx
          rcases Gad.instr_qubits hok hi hqi with ho | ho
          · rcases own_mk ho with rfl | ⟨j, rfl⟩
            · exact hanc2 p hp
            · -- a flag of the steps
              have hsp := stepsOf_spec t _ _ (flagSteps_some hf hm) (hf _ hm).2
              have hj : j < numFlags t (supp p.1).length := by
                have hstep : ∀ g ∈ flagSteps t p.1, ∀ j, onFlag j g = true → j < numFlags t (supp p.1).length := by
                  intro g hg j hgj
                  have hw := (stepsOf_wfs t _ _ (flagSteps_some hf hm)).1
                  exact (hsp.2.2 j).1 (wfs_closed _ hw g hg j hgj)
                simp only [Gad.instrs, gadget, mkGad, List.mem_append, List.mem_singleton] at hi
                have hne := (lay_mk (!z) p.2).ne j
                have hancH : i ∈ (ancH (!z) (ranc (!z) p.2) : List (Instr VQ VC)) → False := by
                  intro hi
                  cases z <;> simp [ancH] at hi
                  subst hi
                  simp only [Instr.qubits, List.mem_singleton] at hqi
                  exact hne hqi
                rcases hi with ((hi | hi) | hi) | rfl
                · exact (hancH hi).elim
                · obtain ⟨g, hg, hi⟩ := List.mem_flatMap.1 hi
                  refine hstep g hg j ?_
                  rcases emit_qubits (!z) (ranc (!z) p.2) (rflag (!z) p.2) (rfbit (!z) p.2) g i hi _ hqi with h | h
                  · exact absurd h hne
                  · cases g with
                    | data q =>
                      exfalso
                      have hq : q ∈ dataOf (flagSteps t p.1) := List.mem_filterMap.2 ⟨_, hg, rfl⟩
                      rw [hsp.1] at hq
                      obtain ⟨k, rfl⟩ := mem_supp hq
                      have h' : rflag (!z) p.2 j = VQ.data k := h
                      cases z <;> simp [rflag] at h'
                    | opn k =>
                      have := (lay_mk (!z) p.2).inj h
                      subst this
                      simp [onFlag]
                    | close k =>
                      have := (lay_mk (!z) p.2).inj h
                      subst this
                      simp [onFlag]
                · exact (hancH hi).elim
                · simp only [Instr.qubits, List.mem_singleton] at hqi
                  exact absurd hqi hne
              refine List.mem_flatMap.2 ⟨measK (!z) true t p, List.mem_append_right _ (List.mem_map_of_mem hp), ?_⟩
              rw [Meas.start, measK_flags, List.map_map]
              exact List.mem_cons_of_mem _ (List.mem_map.2 ⟨j, List.mem_range.2 hj, rfl⟩)
          · exact absurd ho hd
        · -- the repeated measurements
          cases z
          · simp only [againZ, Bool.false_eq_true, if_false, List.mem_map, List.mem_range] at hi
            obtain ⟨k, hk, rfl⟩ := hi
            obtain ⟨p, hp, rfl, -⟩ := exists_zipIdx hk
            simp only [Instr.qubits, List.mem_singleton] at hqi
            subst hqi
            exact hanc2 p hp
          · simp [againZ] at hi
  · intro h
    rw [List.mem_append] at h
    have hgoal : q ∈ usedQubits (fun i : Fin n => VQ.data i) l ∧ v = 0 := by
      rcases h with h | h
      · obtain ⟨g, hg, h⟩ := List.mem_flatMap.1 h
        simp only [Meas.start, List.mem_cons, List.mem_map] at h
        simp only [bothMeas, List.mem_append, List.mem_map] at hg
        rcases hg with ⟨p, hp, rfl⟩ | ⟨p, hp, rfl⟩
        · rw [measK_anc, (measK_noflags _ _ _).1] at h
          simp only [List.not_mem_nil, false_and, exists_false, or_false] at h
          obtain ⟨rfl, rfl⟩ := Prod.mk.inj h
          exact ⟨List.mem_append_right _ (hA _ (mem_zipIdx_fst hp).2), rfl⟩
        · rw [measK_anc, measK_flags] at h
          rcases h with h | ⟨f, hfm, h⟩
          · obtain ⟨rfl, rfl⟩ := Prod.mk.inj h
            exact ⟨List.mem_append_right _ (hB p hp), rfl⟩
          · obtain ⟨rfl, rfl⟩ := Prod.mk.inj h
            obtain ⟨j, hj, rfl⟩ := List.mem_map.1 hfm
            exact ⟨List.mem_append_right _ (hFl p hp j (List.mem_range.1 hj)), rfl⟩
      · obtain ⟨q', hq', he⟩ := List.mem_map.1 h
        obtain ⟨rfl, rfl⟩ := Prod.mk.inj he
        exact ⟨List.mem_append_left _ hq', rfl⟩
    obtain ⟨h1, rfl⟩ := hgoal
    exact List.mem_map.2 ⟨q, h1, rfl⟩

end Verif.SP
