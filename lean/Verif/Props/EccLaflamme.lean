import Verif.Props.EccSteane

/-! # Results of circuits on one qubit encoded with Q5Laflamme (C100) -/

namespace Verif.Ecc
open scoped BigOperators
variable {R : Type} [CommRing R] (k : Consts R)

namespace Res

/-! ## Encoding -/

def q5X : List Word := [[(true, 0), (true, 3), (false, 1), (false, 2)], [(true, 1), (true, 4), (false, 2), (false, 3)],
  [(true, 0), (true, 2), (false, 3), (false, 4)], [(true, 1), (true, 3), (false, 0), (false, 4)]]

def q5Z : List Word := [(List.range 5).map fun j => (false, j)]

def q5Cmds : List Cmd :=
  ((Q5.correctBlock id (fun j => 5 + j) 0).take 32).map .run ++ [.mul 4 0, .mul 5 1, .mul 6 2, .mul 7 3] ++
    ((Q5.correctBlock id (fun j => 5 + j) 0).drop 32).map .run ++ [.run (.reset 5)] ++
    ((Q5.encodeBlock id 5 4).take 8).map .run ++ [.mul 1 0] ++ ((Q5.encodeBlock id 5 4).drop 8).map .run

theorem q5_enc : encCheck 5 4 q5X q5Z (ancFacts 5 4 ++ q5Z.map fun w => (w, false)) q5Cmds = true := by decide +kernel
theorem q5_enc' : encCheck 5 4 q5X q5Z (q5Z.map fun w => (w, false)) q5Cmds = true := by decide +kernel
theorem q5_det : determines (q5Words false) 5 q5X q5Z = true := by decide +kernel
theorem q5_loc : ∀ i ∈ q5Cmds.flatMap Cmd.instr, i.Local (5 + 4) := by decide +kernel

theorem q5_out (m : ℕ) : ((Q5.encode 1 m (Q5.correct 1 m) {}).decoded false).out =
    blocks 1 fun i => ((if i = 0 then q5Cmds else q5Cmds).flatMap Cmd.instr).map (Instr.rename (loc 1 5 i) (m + ·)) := rfl

/-! ## Decoding -/

theorem q5_dec (n m i : ℕ) (hi : i < n) : ParityBlock k n (2 * 2 + 1) m i (Q5.decodeBlock (dat n i) m) := by
  set P : List (ℕ × ℕ) := [(dat n i 1, m), (dat n i 2, m + 1), (dat n i 3, m + 2), (dat n i 4, m + 3)] with hP
  have e : Q5.decodeBlock (dat n i) m = seg P (dat n i 0) m 4 Q5.decodingValues := rfl
  have hne : ∀ j, j ≠ 0 → dat n i j ≠ dat n i 0 := fun j hj h => hj (dat_inj hi hi h).2
  have hodd : OddValues P m 4 Q5.decodingValues := by
    refine ⟨by decide, fun x cl => ?_⟩
    have h0 : record P x cl (m + 0) = x (dat n i 1) := by
      simp [record, Function.update, hP]
    have h1 : record P x cl (m + 1) = x (dat n i 2) := by
      simp [record, Function.update, hP]
    have h2 : record P x cl (m + 2) = x (dat n i 3) := by
      simp [record, Function.update, hP]
    have h3 : record P x cl (m + 3) = x (dat n i 4) := by
      simp [record, Function.update, hP]
    simp only [regValue, h0, h1, h2, h3]
    simp only [odd, hP, List.foldr_cons, List.foldr_nil, Q5.decodingValues]
    cases x (dat n i 1) <;> cases x (dat n i 2) <;> cases x (dat n i 3) <;> cases x (dat n i 4) <;> decide
  have ht : ∀ p ∈ P, p.1 ≠ dat n i 0 := fun p hp => by
    simp only [hP, List.mem_cons, List.not_mem_nil, or_false] at hp
    rcases hp with rfl | rfl | rfl | rfl <;> exact hne _ (by decide)
  have hd0 : dat n i 0 = i := by unfold dat; omega
  have hfix : ∀ x, fix P (dat n i 0) x = Function.update x i (parity (List.range (2 * 2 + 1)) (blk n i x)) := fun x => by
    have hpar : parity (List.range (2 * 2 + 1)) (blk n i x) = (x (dat n i 0) ^^ odd P x) := by
      simp only [parity, blk, odd, hP, List.range_succ, List.range_zero, List.nil_append, List.cons_append, List.foldr_cons,
        List.foldr_nil]
    rw [hpar]
    funext q
    by_cases hq : q = i
    · subst hq
      rw [Function.update_self]
      unfold fix
      rw [hd0]
      cases odd P x <;> simp [flip]
    · rw [Function.update_of_ne hq, fix_other (by rw [hd0]; exact hq)]
  constructor
  · intro ψ cl c' h
    constructor
    · have er : Q5.decodeBlock (dat n i) m = (Q5.decodeBlock id 0).map (Instr.rename (dat n i) (m + ·)) := rfl
      rw [er] at h
      exact fun b hb => (block_bits k h hb).symm
    · intro x hx
      rw [e] at h
      have h4 := seg_sound k hodd ht h x hx
      rwa [hfix] at h4
  · intro ψ cl x
    obtain ⟨d, h1, h2⟩ := seg_complete k hodd ht ψ cl x
    exact ⟨d, by rw [e]; exact h1, by rw [h2, hfix]⟩

theorem q5_parity (β : Bool) (y : Bits) (h : q5Words β y ≠ 0) : parity (List.range (2 * 2 + 1)) y = β := by
  unfold q5Words at h
  split at h
  · rename_i hh
    rw [beq_iff_eq] at hh
    exact hh
  · exact absurd rfl h

/-! ## The parts together -/

def q5G (n m : ℕ) (g : Gate) : Prop := g.WF n m ∧ g.op ≠ .measure

theorem q5_off (n m : ℕ) {g : Gate} (hg : g.WF n m) {s s' : St} (hs : s.isDecoded = false) (hm : g.op ≠ .measure)
    (h : (q5Laflamme n m).mapGate g s = .ok s') :
    s'.isDecoded = false ∧ s'.gatesWritten = s.gatesWritten ∧ ∃ l, s'.out = s.out ++ l ∧ ∀ i ∈ l, OffAnc (sharedAnc n 5 4) i := by
  have htr : ∀ i ∈ Q5.transversal n g, OffAnc (sharedAnc n 5 4) i := fun i hi => by
    obtain ⟨t, ht, hi⟩ := List.mem_flatMap.1 hi
    obtain ⟨j, hj, rfl⟩ := List.mem_map.1 hi
    intro hmem
    obtain ⟨a, -, ha⟩ := List.mem_map.1 hmem
    have := dat_lt (hg.1 t ht) (List.mem_range.1 hj)
    omega
  change Q5.mapGate n m _ g s = _ at h
  unfold Q5.mapGate at h
  rw [hs, Bool.false_and, Bool.false_and] at h
  simp only [Bool.false_eq_true, if_false] at h
  have nil : ∃ l, s.out = s.out ++ l ∧ ∀ i ∈ l, OffAnc (sharedAnc n 5 4) i := ⟨[], by simp, fun i hi => by cases hi⟩
  split at h
  · obtain rfl := Except.ok.inj h; exact ⟨hs, rfl, nil⟩
  · obtain rfl := Except.ok.inj h; exact ⟨hs, rfl, nil⟩
  · split at h
    · cases h
    · obtain rfl := Except.ok.inj h; exact ⟨hs, rfl, _, rfl, htr⟩
  · split at h
    · cases h
    · obtain rfl := Except.ok.inj h; exact ⟨hs, rfl, _, rfl, htr⟩
  · split at h
    · cases h
    · obtain rfl := Except.ok.inj h; exact ⟨hs, rfl, _, rfl, htr⟩
  · exact absurd ‹_› hm
  · cases h

theorem q5_encoder [IsDomain R] (m : ℕ) : Encoder k (q5Laflamme 1 m) q5Words 1 m 5 4 (q5G 1 m) (q7M 1 m) where
  size := rfl
  start := ⟨rfl, rfl⟩
  enc_ex := fun cl => by
    show ∃ c, Branch k ((Q5.encode 1 m (Q5.correct 1 m) {}).decoded false).out _ c ∧ _
    rw [q5_out]
    exact enc_exists k q5_loc q5_loc cl
  enc := fun cl c hb hc => by
    change Branch k ((Q5.encode 1 m (Q5.correct 1 m) {}).decoded false).out _ c at hb
    rw [q5_out] at hb
    exact enc_blocks k q5_local (by decide) (by decide) (by decide) q5_det q5_loc q5_loc q5_enc q5_enc' (by decide) hb hc
  gate := fun g s s' hg hs h => by
    obtain ⟨h1, h2, l, hl, hoff⟩ := q5_off 1 m hg.1 hs.1 hg.2 h
    obtain ⟨l', hl', hact⟩ := C103_q5 k 1 m g hg.1 hg.2 s s' hs.1 h
    have : l' = l := List.append_cancel_left (hl'.symm.trans hl)
    subst this
    exact ⟨⟨h1, h2.trans hs.2⟩, l', hl, hoff, hact⟩
  okG_spec := fun g hg => ⟨hg.2, hg.1.1, fun c hc => (hg.1.2.1 c hc).1⟩
  corr := fun s hs => by
    have e : (q5Laflamme 1 m).measureAndCorrect s = s.emit (blocks 1 fun i => Q5.correctBlock (dat 1 i) (fun j => 1 * 5 + j) m) := by
      show Q5.correct 1 m s = _
      unfold Q5.correct
      rw [hs.1]
      rfl
    rw [e]
    refine ⟨⟨hs.1, hs.2⟩, _, rfl, fun φ err he => ?_⟩
    obtain ⟨l', hl', hc⟩ := C56_q5_corrects k 1 m (ψ := encoded q5Words 1 φ) (C103_codes k 1 φ φ).1.2.1 (encoded_free q5_local φ) he s hs.1
    rw [e] at hl'
    rw [show _ = l' from List.append_cancel_left hl']
    exact hc
  corrD := fun s hs => by
    show Q5.correct 1 m s = s
    unfold Q5.correct
    rw [hs]
    rfl
  dec := fun s hs => by
    show (Q5.decode 1 m s).isDecoded = true ∧ ∃ l, (Q5.decode 1 m s).out = s.out ++ l ∧ _
    unfold Q5.decode
    rw [hs.1]
    refine ⟨rfl, _, rfl, parity_decodes (r := 2) (q5_dec k 1 m) q5_local q5_parity fun β => by cases β <;> decide⟩
  meas := fun g s s' hg h => by
    change Q5.mapGate 1 m _ g s = _ at h
    unfold Q5.mapGate at h
    simp only [hg.2.1, ne_eq, not_true, decide_false, Bool.and_false, Bool.false_and, Bool.false_eq_true, if_false] at h
    unfold userMeasureSwapped at h
    rw [if_pos (by rw [hg.2.2]), ← hg.2.2] at h
    rw [← hg.2.2, ← Except.ok.inj h]
    unfold beforeMeasure
    cases s.isDecoded <;> rfl
  okM_spec := fun g hg => ⟨hg.2.1, hg.1.1⟩

end Res

/-- **C100**, Q5Laflamme with noise, for circuits on one qubit: any gates the scheme accepts, followed by measurements of the qubit
to bit 0.  Right before a correction one Pauli error may hit the block.
What is missing: gates after a measurement (`C100_violated_q5`); more than one qubit (`C100_violated_q5_measure`: the encoding of the
second one already fails). -/
theorem C100_q5_noisy_partial [IsDomain R] (m freq : ℕ) (us ms : List Gate) (hw : ∀ g ∈ us ++ ms, g.WF 1 m)
    (hus : ∀ g ∈ us, g.op ≠ .measure) (hms : ∀ g ∈ ms, g.op = .measure ∧ g.targets = g.classics) (err : ℕ → ℕ → Option (Op × ℕ))
    (herr : ErrorsBeforeCorrection 1 5 freq us.length err) (l : List Instr)
    (hl : (q5Laflamme 1 m).applyNoisy freq (fun q => errorInstrs 1 (err q)) (us ++ ms) = .ok l) :
    SameResultSets R k 1 m (us ++ ms) ((q5Laflamme 1 m).outputQubits 1) l :=
  (Res.q5_encoder k m).results freq us ms (fun g hg => ⟨hw g (List.mem_append_left _ hg), hus g hg⟩)
    (fun g hg => ⟨hw g (List.mem_append_right _ hg), hms g hg⟩) herr.1 herr.2 hl

/-- **C100**, Q5Laflamme without noise, for circuits on one qubit. -/
theorem C100_q5_partial [IsDomain R] (m freq : ℕ) (us ms : List Gate) (hw : ∀ g ∈ us ++ ms, g.WF 1 m)
    (hus : ∀ g ∈ us, g.op ≠ .measure) (hms : ∀ g ∈ ms, g.op = .measure ∧ g.targets = g.classics) (l : List Instr)
    (hl : (q5Laflamme 1 m).apply freq (us ++ ms) = .ok l) :
    SameResultSets R k 1 m (us ++ ms) ((q5Laflamme 1 m).outputQubits 1) l := by
  refine C100_q5_noisy_partial k m freq us ms hw hus hms (fun _ _ => none) ⟨fun _ _ _ _ _ h => (by cases h), fun q ⟨i, _, h⟩ => absurd rfl h⟩ l ?_
  rw [show (fun _ : ℕ => errorInstrs 1 fun _ => none) = fun _ => [] from funext fun _ => (Res.corrupt_none k (fun _ _ => rfl) (0 : State R)).2,
    applyNoisy_nil]
  exact hl

/-- X, Z, Y with an error after the second gate. -/
example [IsDomain R] : ∃ l, (q5Laflamme 1 1).applyNoisy 2 (fun q => errorInstrs 1 fun _ => if q = 1 then some (.Y, 3) else none)
      ([{ op := .X, targets := [0] }, { op := .Z, targets := [0] }, { op := .Y, targets := [0] }] ++
        [{ op := .measure, targets := [0], classics := [0] }]) = .ok l ∧
    SameResultSets R k 1 1 ([{ op := .X, targets := [0] }, { op := .Z, targets := [0] }, { op := .Y, targets := [0] }] ++
        [{ op := .measure, targets := [0], classics := [0] }]) ((q5Laflamme 1 1).outputQubits 1) l := by
  refine ⟨_, rfl, C100_q5_noisy_partial k 1 2 _ _ ?_ (by decide) (by decide) (fun q _ => if q = 1 then some (.Y, 3) else none) ⟨?_, ?_⟩ _ rfl⟩
  · intro g hg
    simp only [List.cons_append, List.nil_append, List.mem_cons, List.not_mem_nil, or_false] at hg
    rcases hg with rfl | rfl | rfl | rfl <;> simp [Gate.WF]
  · intro q i _ o j h
    beta_reduce at h
    split at h
    · cases h; decide
    · cases h
  · rintro q ⟨i, -, h⟩
    beta_reduce at h
    split at h
    · rename_i hq; left; rw [hq]; decide
    · exact absurd rfl h

end Verif.Ecc
