import Verif.Lemmas.EccRename
import Verif.Props.EccSizes

/-!
# Encoded circuits stay in their registers (C55)
-/

namespace Verif.Ecc

/-- All circuits on `n` qubits and `m` bits are encoded into well-formed circuits on `outputQubits n` qubits and
`outputBits m` bits. -/
def InRegisters (s : Scheme) (n m : ℕ) : Prop :=
  ∀ freq gates out, (∀ g ∈ gates, g.WF n m) → s.apply freq gates = .ok out →
    ∀ i ∈ out, i.WF (s.outputQubits n) (s.outputBits m)

theorem inRegisters_of {s : Scheme} {n m : ℕ}
    (he : ∀ st, AllWF (s.outputQubits n) (s.outputBits m) st.out → AllWF (s.outputQubits n) (s.outputBits m) (s.writeEncoding st).out)
    (hc : ∀ st, AllWF (s.outputQubits n) (s.outputBits m) st.out → AllWF (s.outputQubits n) (s.outputBits m) (s.measureAndCorrect st).out)
    (hd : ∀ st, AllWF (s.outputQubits n) (s.outputBits m) st.out → AllWF (s.outputQubits n) (s.outputBits m) (s.writeDecoding st).out)
    (hm : ∀ g st st', g.WF n m → AllWF (s.outputQubits n) (s.outputBits m) st.out → s.mapGate g st = .ok st' →
      AllWF (s.outputQubits n) (s.outputBits m) st'.out) : InRegisters s n m := by
  intro freq gates out hg h
  unfold Scheme.apply at h
  cases hl : loop s.mapGate s.measureAndCorrect freq 0 gates ((s.writeEncoding {}).decoded false) with
  | error e => rw [hl] at h; cases h
  | ok st =>
    rw [hl] at h
    cases h
    have := loop_inv (P := fun st => AllWF (s.outputQubits n) (s.outputBits m) st.out)
      (fun g hgm st st' hs he => hm g st st' (hg g hgm) hs he) hc 0 hl (he {} (AllWF.nil _ _))
    show AllWF _ _ (s.finish st).out
    unfold Scheme.finish
    split
    · exact hd _ (hc _ this)
    · exact this

theorem userMeasure_wf {n m nq nb : ℕ} {g : Gate} (h : g.WF n m) (hn : n ≤ nq) (hm : m ≤ nb) {l : List Instr}
    (hl : userMeasure g = .ok l) : AllWF nq nb l := by
  unfold userMeasure at hl
  split at hl
  · cases hl
    intro i hi
    rw [List.mem_iff_getElem] at hi
    obtain ⟨j, hj, rfl⟩ := hi
    rw [List.getElem_zipWith]
    rw [List.length_zipWith] at hj
    have h1 := h.1 _ (List.getElem_mem (show j < g.targets.length by omega))
    have h2 := h.2.2.1 _ (List.getElem_mem (show j < g.classics.length by omega))
    exact ⟨by omega, by omega⟩
  · cases hl

theorem userMeasureSwapped_wf {n m nq nb : ℕ} {g : Gate} (h : g.WF n m) (hn : n ≤ nb) (hm : m ≤ nq) {l : List Instr}
    (hl : userMeasureSwapped g = .ok l) : AllWF nq nb l := by
  unfold userMeasureSwapped at hl
  split at hl
  · cases hl
    intro i hi
    rw [List.mem_iff_getElem] at hi
    obtain ⟨j, hj, rfl⟩ := hi
    rw [List.getElem_zipWith]
    rw [List.length_zipWith] at hj
    have h1 := h.1 _ (List.getElem_mem (show j < g.targets.length by omega))
    have h2 := h.2.2.1 _ (List.getElem_mem (show j < g.classics.length by omega))
    exact ⟨by omega, by omega⟩
  · cases hl

theorem emit_wf {nq nb : ℕ} {st : St} (h : AllWF nq nb st.out) {l : List Instr} (hl : AllWF nq nb l) :
    AllWF nq nb (st.emit l).out := h.append hl

theorem beforeMeasure_wf {nq nb : ℕ} {correct decode : St → St} (hc : ∀ st, AllWF nq nb st.out → AllWF nq nb (correct st).out)
    (hd : ∀ st, AllWF nq nb st.out → AllWF nq nb (decode st).out) (st : St) (h : AllWF nq nb st.out) :
    AllWF nq nb (beforeMeasure correct decode st).out := by
  unfold beforeMeasure
  split
  · exact hd _ (hc _ h)
  · exact h

theorem map_emit_wf {nq nb : ℕ} {x : Except EccErr (List Instr)} {st st' : St} (h : AllWF nq nb st.out)
    (hl : ∀ l, x = .ok l → AllWF nq nb l) (he : x.map (fun l => st.emit l) = .ok st') : AllWF nq nb st'.out := by
  cases x with
  | error e => cases he
  | ok l => cases he; exact h.append (hl l rfl)

theorem le_out (n r K : ℕ) (hr : 0 < r) : n ≤ n * r + K := by
  have := Nat.le_mul_of_pos_right n hr
  omega

/-- A gate on copy `j`. -/
theorem copy_wf {n m r K nb j : ℕ} {g : Gate} (h : g.WF n m) (hj : j < r) {t : ℕ} (ht : t ∈ g.targets) (op : Op) :
    (Instr.gate op (Q3.copyControls n j g.controls) (dat n t j)).WF (n * r + K) nb := by
  refine ⟨by have := dat_lt (h.1 t ht) hj; omega, fun c hc => ?_⟩
  obtain ⟨c', hc', rfl⟩ := List.mem_map.1 hc
  obtain ⟨h1, h2⟩ := h.2.1 c' hc'
  refine ⟨by have := dat_lt h1 hj; show dat n c'.1 j < _; omega, fun e => ?_⟩
  exact h2 ((dat_inj h1 (h.1 t ht) e).1 ▸ ht)

theorem single_wf {n r K nb i j : ℕ} (hi : i < n) (hj : j < r) (op : Op) : (Instr.gate op [] (dat n i j)).WF (n * r + K) nb :=
  ⟨by have := dat_lt hi hj; omega, fun c hc => by cases hc⟩

/-! ## Id -/

/-- `Id` copies the circuit. -/
theorem C55_id_copies (freq : ℕ) (gates : List Gate) : idScheme.apply freq gates = .ok (gates.map .clone) := by
  have : ∀ k st, loop idScheme.mapGate idScheme.measureAndCorrect freq k gates st = .ok (st.emit (gates.map .clone)) := by
    induction gates with
    | nil => intro k st; show Except.ok st = Except.ok _; simp [St.emit]
    | cons g gs ih =>
      intro k st
      show loop idScheme.mapGate idScheme.measureAndCorrect freq (k + 1) gs _ = _
      rw [ih]
      have : periodic idScheme.measureAndCorrect freq (k + 1) (st.emit [.clone g]) = st.emit [.clone g] := by
        unfold periodic; split <;> rfl
      show Except.ok ((periodic idScheme.measureAndCorrect freq (k + 1) (st.emit [.clone g])).emit _) = _
      rw [this]
      simp [St.emit]
  unfold Scheme.apply
  rw [this]
  rfl

example : idScheme.apply 3 [{ op := .H, targets := [0] }] = .ok [.clone { op := .H, targets := [0] }] := by decide

/-! ## Q3Shor -/

theorem q3_correct_wf (n m : ℕ) (st : St) (h : AllWF (n * 3 + 2) (m + 2) st.out) : AllWF (n * 3 + 2) (m + 2) (Q3.correct n m st).out := by
  unfold Q3.correct
  split
  · exact h
  · refine emit_wf h (AllWF.blocks fun i hi => ?_)
    have e : Q3.correctBlock (dat n i) (fun j => n * 3 + j) m = (Q3.correctBlock id (100 + ·) 0).map (Instr.rename (code (dat n i) (fun j => n * 3 + j)) (m + ·)) := rfl
    rw [e]
    exact rename_wf (C := 2) (shared_place (K := 2) hi (by omega)) (by omega) (by decide +kernel)


theorem q3_decode_wf (n m : ℕ) (st : St) (h : AllWF (n * 3 + 2) (m + 2) st.out) : AllWF (n * 3 + 2) (m + 2) (Q3.decode n st).out := by
  unfold Q3.decode
  split
  · exact h
  · refine emit_wf h (AllWF.blocks fun i hi => ?_)
    have e : Q3.decodeBlock (dat n i) = (Q3.decodeBlock id).map (Instr.rename (code (dat n i) (fun j => n * 3 + j)) (m + ·)) := rfl
    rw [e]
    exact rename_wf (C := 2) (shared_place (K := 2) hi (by omega)) (by omega) (by decide +kernel)


theorem q3_encode_wf (n m : ℕ) (st : St) (h : AllWF (n * 3 + 2) (m + 2) st.out) : AllWF (n * 3 + 2) (m + 2) (Q3.encode n st).out := by
  unfold Q3.encode
  split
  · exact h
  · refine emit_wf h (AllWF.blocks fun i hi => ?_)
    have e : [cx (dat n i 0) (dat n i 1), cx (dat n i 0) (dat n i 2)] = ([cx 0 1, cx 0 2]).map (Instr.rename (code (dat n i) (fun j => n * 3 + j)) (m + ·)) := rfl
    rw [e]
    exact rename_wf (C := 2) (shared_place (K := 2) hi (by omega)) (by omega) (by decide +kernel)


theorem C55_registers_q3 (n m : ℕ) : InRegisters (q3Shor n m) n m := by
  refine inRegisters_of (q3_encode_wf n m) (q3_correct_wf n m) (q3_decode_wf n m) fun g st st' hg hst h => ?_
  change Q3.mapGate n (Q3.correct n m) g st = .ok st' at h
  change AllWF (n * 3 + 2) (m + 2) st'.out
  have hst' : AllWF (n * 3 + 2) (m + 2) (if (st.isDecoded && decide (g.op ≠ .measure) && decide (g.op ≠ .H)) = true then Q3.encode n st else st).out := by
    split
    · exact q3_encode_wf n m st hst
    · exact hst
  have hop : AllWF (n * 3 + 2) (m + 2) (Q3.addOperation n g) := AllWF.flatMap fun t ht i hi => by
    obtain ⟨j, hj, rfl⟩ := List.mem_map.1 hi
    exact copy_wf hg (List.mem_range.1 hj) ht _
  simp only [Q3.mapGate] at h
  split at h
  all_goals first
    | (cases h; exact hst')
    | (cases h; exact emit_wf hst' hop)
    | exact map_emit_wf (beforeMeasure_wf (q3_correct_wf n m) (q3_decode_wf n m) _ hst')
        (fun l hl => userMeasure_wf hg (le_out n 3 2 (by omega)) (by omega) hl) h
    | cases h


/-! ## Q9Shor -/

theorem q9_correct_wf (n m : ℕ) (st : St) (h : AllWF (n * 9 + 8) (m + 8) st.out) : AllWF (n * 9 + 8) (m + 8) (Q9.correct n m st).out := by
  unfold Q9.correct
  split
  · exact h
  · refine emit_wf h (AllWF.blocks fun i hi => ?_)
    have e : Q9.correctBlock (dat n i) (fun j => n * 9 + j) m = (Q9.correctBlock id (100 + ·) 0).map (Instr.rename (code (dat n i) (fun j => n * 9 + j)) (m + ·)) := rfl
    rw [e]
    exact rename_wf (C := 8) (shared_place (K := 8) hi (by omega)) (by omega) (by decide +kernel)


theorem q9_decode_wf (n m : ℕ) (st : St) (h : AllWF (n * 9 + 8) (m + 8) st.out) : AllWF (n * 9 + 8) (m + 8) (Q9.decode n st).out := by
  unfold Q9.decode
  split
  · exact h
  · refine emit_wf h (AllWF.blocks fun i hi => ?_)
    have e : Q9.decodeBlock (dat n i) = (Q9.decodeBlock id).map (Instr.rename (code (dat n i) (fun j => n * 9 + j)) (m + ·)) := rfl
    rw [e]
    exact rename_wf (C := 8) (shared_place (K := 8) hi (by omega)) (by omega) (by decide +kernel)


theorem q9_encode_wf (n m : ℕ) (st : St) (h : AllWF (n * 9 + 8) (m + 8) st.out) : AllWF (n * 9 + 8) (m + 8) (Q9.encode n st).out := by
  unfold Q9.encode
  split
  · exact h
  · refine emit_wf h (AllWF.blocks fun i hi => ?_)
    have e : Q9.encodeBlock (dat n i) = (Q9.encodeBlock id).map (Instr.rename (code (dat n i) (fun j => n * 9 + j)) (m + ·)) := rfl
    rw [e]
    exact rename_wf (C := 8) (shared_place (K := 8) hi (by omega)) (by omega) (by decide +kernel)


theorem C55_registers_q9 (n m : ℕ) : InRegisters (q9Shor n m) n m := by
  refine inRegisters_of (q9_encode_wf n m) (q9_correct_wf n m) (q9_decode_wf n m) fun g st st' hg hst h => ?_
  change Q9.mapGate n (Q9.correct n m) g st = .ok st' at h
  change AllWF (n * 9 + 8) (m + 8) st'.out
  have hst' : AllWF (n * 9 + 8) (m + 8) (if (st.isDecoded && decide (g.op ≠ .measure) && decide (g.op ≠ .H)) = true then Q9.encode n st else st).out := by
    split
    · exact q9_encode_wf n m st hst
    · exact hst
  have hop : AllWF (n * 9 + 8) (m + 8) (Q9.transversal n g) := AllWF.flatMap fun t ht => AllWF.flatMap fun j hj => by
    have hj := List.mem_range.1 hj
    have hh : AllWF (n * 9 + 8) (m + 8) (g.controls.map fun c => Ecc.h (dat n c.1 j)) := fun i hi => by
      obtain ⟨c, hc, rfl⟩ := List.mem_map.1 hi
      exact single_wf (hg.2.1 c hc).1 hj _
    refine (hh.append fun i hi => ?_).append hh
    rw [List.mem_singleton] at hi
    subst hi
    exact copy_wf hg hj ht _
  simp only [Q9.mapGate] at h
  split at h
  all_goals first
    | (cases h; exact hst')
    | (cases h; exact emit_wf hst' hop)
    | exact map_emit_wf (beforeMeasure_wf (q9_correct_wf n m) (q9_decode_wf n m) _ hst')
        (fun l hl => userMeasure_wf hg (le_out n 9 8 (by omega)) (by omega) hl) h
    | cases h


/-! ## Q5Laflamme -/

theorem q5_correct_wf (n m : ℕ) (st : St) (h : AllWF (n * 5 + 4) (m + 5) st.out) : AllWF (n * 5 + 4) (m + 5) (Q5.correct n m st).out := by
  unfold Q5.correct
  split
  · exact h
  · refine emit_wf h (AllWF.blocks fun i hi => ?_)
    have e : Q5.correctBlock (dat n i) (fun j => n * 5 + j) m = (Q5.correctBlock id (100 + ·) 0).map (Instr.rename (code (dat n i) (fun j => n * 5 + j)) (m + ·)) := rfl
    rw [e]
    exact rename_wf (C := 5) (shared_place (K := 4) hi (by omega)) (by omega) (by decide +kernel)


theorem q5_decode_wf (n m : ℕ) (st : St) (h : AllWF (n * 5 + 4) (m + 5) st.out) : AllWF (n * 5 + 4) (m + 5) (Q5.decode n m st).out := by
  unfold Q5.decode
  split
  · exact h
  · refine emit_wf h (AllWF.blocks fun i hi => ?_)
    have e : Q5.decodeBlock (dat n i) m = (Q5.decodeBlock id 0).map (Instr.rename (code (dat n i) (fun j => n * 5 + j)) (m + ·)) := rfl
    rw [e]
    exact rename_wf (C := 5) (shared_place (K := 4) hi (by omega)) (by omega) (by decide +kernel)


theorem q5_encode_wf (n m : ℕ) (st : St) (h : AllWF (n * 5 + 4) (m + 5) st.out) :
    AllWF (n * 5 + 4) (m + 5) (Q5.encode n m (Q5.correct n m) st).out := by
  have hb : AllWF (n * 5 + 4) (m + 5) (Q5.baseEncode (Q5.correct n m) st).out := by
    unfold Q5.baseEncode
    split
    · exact h
    · exact q5_correct_wf n m _ h
  refine hb.append (AllWF.append (fun i hi => ?_) (AllWF.blocks fun i hi => ?_))
  · obtain ⟨j, hj, rfl⟩ := List.mem_map.1 hi
    show n * 5 < n * 5 + 4
    omega
  · have e : Q5.encodeBlock (dat n i) (n * 5) (m + 4) =
        (Q5.encodeBlock id 100 0).map (Instr.rename (code (dat n i) fun j => n * 5 + j) (m + 4 + ·)) := rfl
    rw [e]
    exact rename_wf (C := 1) (shared_place (K := 4) hi (by omega)) (by omega) (by decide +kernel)

/-- As the arguments of the user's measurements are exchanged (C94), only if there are not many more qubits than classical bits or
classical bits than physical qubits. -/
theorem C55_registers_q5_partial (n m : ℕ) (hn : n ≤ m + 5 ∧ m ≤ n * 5 + 4) : InRegisters (q5Laflamme n m) n m := by
  refine inRegisters_of (q5_encode_wf n m) (q5_correct_wf n m) (q5_decode_wf n m) fun g st st' hg hst h => ?_
  change Q5.mapGate n m (Q5.correct n m) g st = .ok st' at h
  change AllWF (n * 5 + 4) (m + 5) st'.out
  have hst' : AllWF (n * 5 + 4) (m + 5) (if (st.isDecoded && decide (g.op ≠ .measure) && decide (g.op ≠ .H)) = true then Q5.encode n m (Q5.correct n m) st else st).out := by
    split
    · exact q5_encode_wf n m st hst
    · exact hst
  have hop : AllWF (n * 5 + 4) (m + 5) (Q5.transversal n g) := AllWF.flatMap fun t ht i hi => by
    obtain ⟨j, hj, rfl⟩ := List.mem_map.1 hi
    exact single_wf (hg.1 t ht) (List.mem_range.1 hj) _
  simp only [Q5.mapGate] at h
  split at h
  all_goals first
    | (cases h; exact hst')
    | (cases h; exact emit_wf hst' hop)
    | exact map_emit_wf (beforeMeasure_wf (q5_correct_wf n m) (q5_decode_wf n m) _ hst')
        (fun l hl => userMeasureSwapped_wf hg (hn.1) (hn.2) hl) h
    | (split at h; (cases h); (cases h; exact emit_wf hst' hop))
    | cases h


/-! ## Q7Steane -/

theorem q7_single_wf (n m : ℕ) (x : Bool) (st : St) (h : AllWF (n * 7 + 3) (m + 3) st.out) :
    AllWF (n * 7 + 3) (m + 3) (Q7.single n m x st).out := by
  refine emit_wf h (AllWF.blocks fun i hi => AllWF.append ?_ ?_)
  · split
    · have e : (Q7.resets fun j => n * 7 + j) =
          (Q7.resets (100 + ·)).map (Instr.rename (code (dat n i) fun j => n * 7 + j) (m + ·)) := rfl
      rw [e]
      exact rename_wf (C := 3) (shared_place (K := 3) hi (by omega)) (by omega) (by decide)
    · exact AllWF.nil _ _
  · have e : Q7.singleBlock x (dat n i) (fun j => n * 7 + j) m =
        (Q7.singleBlock x id (100 + ·) 0).map (Instr.rename (code (dat n i) fun j => n * 7 + j) (m + ·)) := by
      cases x <;> rfl
    rw [e]
    exact rename_wf (C := 3) (shared_place (K := 3) hi (by omega)) (by omega) (by cases x <;> decide +kernel)

theorem q7_correct_wf (n m : ℕ) (st : St) (h : AllWF (n * 7 + 3) (m + 3) st.out) : AllWF (n * 7 + 3) (m + 3) (Q7.correct n m st).out := by
  unfold Q7.correct
  split
  · exact h
  · exact q7_single_wf n m _ _ (q7_single_wf n m _ _ h)

theorem q7_encode_wf (n m : ℕ) (st : St) (h : AllWF (n * 7 + 3) (m + 3) st.out) : AllWF (n * 7 + 3) (m + 3) (Q7.encode n m st).out := by
  unfold Q7.encode
  split
  · exact h
  · refine q7_single_wf n m _ _ (emit_wf (st := st.decoded false) h ?_)
    split
    · refine AllWF.flatMap fun i hi x hx => ?_
      obtain ⟨j, hj, rfl⟩ := List.mem_map.1 hx
      have := dat_lt (List.mem_range.1 hi) (show j + 1 < 7 by have := List.mem_range.1 hj; omega)
      show dat n i (j + 1) < n * 7 + 3
      omega
    · exact AllWF.nil _ _

theorem q7_decode_wf (n m : ℕ) (st : St) (h : AllWF (n * 7 + 3) (m + 3) st.out) : AllWF (n * 7 + 3) (m + 3) (Q7.decode n m st).out := by
  unfold Q7.decode
  split
  · exact h
  · refine emit_wf h (AllWF.blocks fun i hi => ?_)
    have e : Q7.decodeBlock (dat n i) m = (Q7.decodeBlock id 0).map (Instr.rename (code (dat n i) (fun j => n * 7 + j)) (m + ·)) := rfl
    rw [e]
    exact rename_wf (C := 3) (shared_place (K := 3) hi (by omega)) (by omega) (by decide +kernel)


/-- For the same reason only under the same kind of condition. -/
theorem C55_registers_q7_partial (n m : ℕ) (hn : n ≤ m + 3 ∧ m ≤ n * 7 + 3) : InRegisters (q7Steane n m) n m := by
  refine inRegisters_of (q7_encode_wf n m) (q7_correct_wf n m) (q7_decode_wf n m) fun g st st' hg hst h => ?_
  change Q7.mapGate n m (Q7.correct n m) g st = .ok st' at h
  change AllWF (n * 7 + 3) (m + 3) st'.out
  have hst' : AllWF (n * 7 + 3) (m + 3) (if (st.isDecoded && decide (g.op ≠ .measure)) = true then Q7.encode n m st else st).out := by
    split
    · exact q7_encode_wf n m st hst
    · exact hst
  have hop : ∀ r, AllWF (n * 7 + 3) (m + 3) (Q7.transversal r n g) := fun r => AllWF.flatMap fun t ht =>
    AllWF.flatMap fun j hj i hi => by
      rw [List.eq_of_mem_replicate hi]
      exact copy_wf hg (List.mem_range.1 hj) ht _
  have hT : AllWF (n * 7 + 3) (m + 3) (g.targets.flatMap fun t => Q7.tBlock g.op (dat n t)) := AllWF.flatMap fun t ht => by
    have e : Q7.tBlock g.op (dat n t) = (Q7.tBlock g.op id).map (Instr.rename (code (dat n t) fun j => n * 7 + j) (m + ·)) := rfl
    rw [e]
    refine rename_wf (C := 3) (shared_place (K := 3) (hg.1 t ht) (by omega)) (by omega) ?_
    cases g.op <;> decide
  simp only [Q7.mapGate] at h
  split at h
  all_goals first
    | (cases h; exact hst')
    | (cases h; exact emit_wf hst' (hop _))
    | exact map_emit_wf (beforeMeasure_wf (q7_correct_wf n m) (q7_decode_wf n m) _ hst')
        (fun l hl => userMeasureSwapped_wf hg (hn.1) (hn.2) hl) h
    | (split at h; (cases h); (cases h; exact emit_wf hst' hT))
    | cases h


/-! ## Q9Surface -/

theorem s9_correct_wf (n m : ℕ) (st : St) (h : AllWF (n * 9 + 8) (m + 8) st.out) : AllWF (n * 9 + 8) (m + 8) (S9.correct n m st).out := by
  unfold S9.correct
  split
  · exact h
  · refine emit_wf h (AllWF.blocks fun i hi => AllWF.append ?_ ?_)
    · split
      · have e : (S9.resets fun j => n * 9 + j) =
            (S9.resets (100 + ·)).map (Instr.rename (code (dat n i) fun j => n * 9 + j) (m + ·)) := rfl
        rw [e]
        exact rename_wf (C := 8) (shared_place (K := 8) hi (by omega)) (by omega) (by decide)
      · exact AllWF.nil _ _
    · have e : S9.correctBlock (dat n i) (fun j => n * 9 + j) m =
          (S9.correctBlock id (100 + ·) 0).map (Instr.rename (code (dat n i) fun j => n * 9 + j) (m + ·)) := rfl
      rw [e]
      exact rename_wf (C := 8) (shared_place (K := 8) hi (by omega)) (by omega) (by decide +kernel)

theorem s9_encode_wf (n m : ℕ) (st : St) (h : AllWF (n * 9 + 8) (m + 8) st.out) :
    AllWF (n * 9 + 8) (m + 8) (Q5.baseEncode (S9.correct n m) st).out := by
  unfold Q5.baseEncode
  split
  · exact h
  · exact s9_correct_wf n m _ h

theorem s9_decode_wf (n m : ℕ) (hn : n ≤ m + 8) (st : St) (h : AllWF (n * 9 + 8) (m + 8) st.out) :
    AllWF (n * 9 + 8) (m + 8) (S9.decode n st).out := by
  unfold S9.decode
  split
  · exact h
  · refine emit_wf h (AllWF.blocks fun i hi => ?_)
    have e : S9.decodeBlock (dat n i) i = (S9.decodeBlock id 0).map (Instr.rename (code (dat n i) (fun j => n * 9 + j)) (i + ·)) := rfl
    rw [e]
    exact rename_wf (C := 1) (shared_place (K := 8) hi (by omega)) (by omega) (by decide +kernel)

/-- Decoding measures logical qubit `i` into bit `i`, so only if there are enough classical bits. -/
theorem C55_registers_surface9_partial (n m : ℕ) (hn : n ≤ m + 8) : InRegisters (q9Surface n m) n m := by
  refine inRegisters_of (s9_encode_wf n m) (s9_correct_wf n m) (s9_decode_wf n m hn) fun g st st' hg hst h => ?_
  change S9.mapGate n (S9.correct n m) g st = .ok st' at h
  change AllWF (n * 9 + 8) (m + 8) st'.out
  have hst' : AllWF (n * 9 + 8) (m + 8) (if (st.isDecoded && decide (g.op ≠ .measure)) = true then Q5.baseEncode (S9.correct n m) st else st).out := by
    split
    · exact s9_encode_wf n m st hst
    · exact hst
  have hop : AllWF (n * 9 + 8) (m + 8) (g.targets.flatMap fun t => S9.pauli S9.logicalX S9.logicalZ g.op (dat n t)) := AllWF.flatMap fun t ht => by
    have e : S9.pauli S9.logicalX S9.logicalZ g.op (dat n t) =
        (S9.pauli S9.logicalX S9.logicalZ g.op id).map (Instr.rename (code (dat n t) (fun j => n * 9 + j)) (m + ·)) := by
      cases g.op <;> rfl
    rw [e]
    refine rename_wf (C := 8) (shared_place (K := 8) (hg.1 t ht) (by omega)) (by omega) ?_
    cases g.op <;> decide
  have hH : AllWF (n * 9 + 8) (m + 8) (g.targets.flatMap fun t => S9.hadamard (List.range 9) S9.swaps (dat n t)) := AllWF.flatMap fun t ht => by
    have e : S9.hadamard (List.range 9) S9.swaps (dat n t) =
        (S9.hadamard (List.range 9) S9.swaps id).map (Instr.rename (code (dat n t) (fun j => n * 9 + j)) (m + ·)) := rfl
    rw [e]
    exact rename_wf (C := 8) (shared_place (K := 8) (hg.1 t ht) (by omega)) (by omega) (by decide)
  simp only [S9.mapGate] at h
  split at h
  · cases h
  split at h
  all_goals first
    | (cases h; exact hst')
    | (cases h; exact emit_wf hst' hop)
    | (cases h; exact emit_wf hst' hH)
    | exact map_emit_wf (beforeMeasure_wf (s9_correct_wf n m) (s9_decode_wf n m hn) _ hst')
        (fun l hl => userMeasure_wf hg (le_out n 9 8 (by omega)) (by omega) hl) h
    | cases h


/-! ## Q18Surface -/

theorem s18_place {n i : ℕ} (hi : i < n) : Place (n * 36 + 0) 36 0 (dat n i) (fun j => j) where
  hd := fun j hj => by have := dat_lt hi hj; omega
  ha := fun j hj => by omega
  id := fun j _ j' _ h => (dat_inj hi hi h).2
  ia := fun j hj => by omega
  da := fun j _ j' hj' => by omega
  hr := by omega

theorem s18_correct_wf (n m : ℕ) (st : St) (h : AllWF (n * 36 + 0) (m + 8) st.out) : AllWF (n * 36 + 0) (m + 8) (S18.correct n m st).out := by
  unfold S18.correct
  split
  · exact h
  · refine emit_wf h (AllWF.blocks fun i hi => AllWF.append ?_ ?_)
    · split
      · have e : S18.resets (dat n i) = (S18.resets id).map (Instr.rename (code (dat n i) fun j => j) (m + ·)) := rfl
        rw [e]
        exact rename_wf (C := 8) (s18_place hi) (by omega) (by decide)
      · exact AllWF.nil _ _
    · have e : S18.correctBlock (dat n i) m =
          (S18.correctBlock id 0).map (Instr.rename (code (dat n i) fun j => j) (m + ·)) := rfl
      rw [e]
      exact rename_wf (C := 8) (s18_place hi) (by omega) (by decide +kernel)

theorem s18_encode_wf (n m : ℕ) (st : St) (h : AllWF (n * 36 + 0) (m + 8) st.out) :
    AllWF (n * 36 + 0) (m + 8) (Q5.baseEncode (S18.correct n m) st).out := by
  unfold Q5.baseEncode
  split
  · exact h
  · exact s18_correct_wf n m _ h

theorem s18_decode_wf (n m : ℕ) (hn : n ≤ m + 8) (st : St) (h : AllWF (n * 36 + 0) (m + 8) st.out) :
    AllWF (n * 36 + 0) (m + 8) (S18.decode n st).out := by
  unfold S18.decode
  split
  · exact h
  · refine emit_wf h (AllWF.blocks fun i hi => ?_)
    have e : S18.decodeBlock (dat n i) i = (S18.decodeBlock id 0).map (Instr.rename (code (dat n i) fun j => j) (i + ·)) := rfl
    rw [e]
    exact rename_wf (C := 1) (s18_place hi) (by omega) (by decide +kernel)

/-- The same. -/
theorem C55_registers_surface18_partial (n m : ℕ) (hn : n ≤ m + 8) : InRegisters (q18Surface n m) n m := by
  refine inRegisters_of (s18_encode_wf n m) (s18_correct_wf n m) (s18_decode_wf n m hn) fun g st st' hg hst h => ?_
  change S18.mapGate n (S18.correct n m) g st = .ok st' at h
  change AllWF (n * 36 + 0) (m + 8) st'.out
  have hst' : AllWF (n * 36 + 0) (m + 8) (if (st.isDecoded && decide (g.op ≠ .measure)) = true then Q5.baseEncode (S18.correct n m) st else st).out := by
    split
    · exact s18_encode_wf n m st hst
    · exact hst
  have hop : AllWF (n * 36 + 0) (m + 8) (g.targets.flatMap fun t => S9.pauli S18.logicalX S18.logicalZ g.op (dat n t)) := AllWF.flatMap fun t ht => by
    have e : S9.pauli S18.logicalX S18.logicalZ g.op (dat n t) =
        (S9.pauli S18.logicalX S18.logicalZ g.op id).map (Instr.rename (code (dat n t) (fun j => j)) (m + ·)) := by
      cases g.op <;> rfl
    rw [e]
    refine rename_wf (C := 8) (s18_place (hg.1 t ht)) (by omega) ?_
    cases g.op <;> decide
  have hH : AllWF (n * 36 + 0) (m + 8) (g.targets.flatMap fun t => S9.hadamard S18.data S18.swaps (dat n t)) := AllWF.flatMap fun t ht => by
    have e : S9.hadamard S18.data S18.swaps (dat n t) =
        (S9.hadamard S18.data S18.swaps id).map (Instr.rename (code (dat n t) (fun j => j)) (m + ·)) := rfl
    rw [e]
    exact rename_wf (C := 8) (s18_place (hg.1 t ht)) (by omega) (by decide)
  simp only [S18.mapGate] at h
  split at h
  · cases h
  split at h
  all_goals first
    | (cases h; exact hst')
    | (cases h; exact emit_wf hst' hop)
    | (cases h; exact emit_wf hst' hH)
    | exact map_emit_wf (beforeMeasure_wf (s18_correct_wf n m) (s18_decode_wf n m hn) _ hst')
        (fun l hl => userMeasure_wf hg (le_out n 36 0 (by omega)) (by omega) hl) h
    | cases h


/-! ## Outside the registers -/

/-- The full claim. -/
def C55_registers_claim (scheme : ℕ → ℕ → Scheme) : Prop := ∀ n m, InRegisters (scheme n m) n m

theorem not_wf_of {s : Scheme} {n m : ℕ} {freq : ℕ} {gates : List Gate} {out : List Instr} {q c : ℕ} (hg : ∀ g ∈ gates, g.WF n m)
    (h : s.apply freq gates = .ok out) (hi : Instr.measure q c ∈ out) (hbad : s.outputQubits n ≤ q ∨ s.outputBits m ≤ c) :
    ¬ InRegisters s n m := fun hr => by
  have := hr freq gates out hg h _ hi
  change q < _ ∧ c < _ at this
  omega

/-- Ten qubits and one classical bit: decoding writes bit 9, the mapped circuit has the bits 0 to 8. -/
theorem C55_violated_surface9 : ¬ C55_registers_claim q9Surface := fun h =>
  not_wf_of (gates := []) (freq := 0) (q := dat 10 9 0) (c := 9) (fun g hg => by cases hg) rfl (by decide +kernel) (by decide)
    (h 10 1)

theorem C55_violated_surface18 : ¬ C55_registers_claim q18Surface := fun h =>
  not_wf_of (gates := []) (freq := 0) (q := dat 10 9 14) (c := 9) (fun g hg => by cases hg) rfl (by decide +kernel) (by decide)
    (h 10 1)

/-- One qubit measured into bit 9: the mapped circuit measures qubit 9, but it has the qubits 0 to 8. -/
theorem C55_violated_q5 : ¬ C55_registers_claim q5Laflamme := fun h =>
  not_wf_of (gates := [{ op := .measure, targets := [0], classics := [9] }]) (freq := 0) (q := 9) (c := 0)
    (fun g hg => by rw [List.mem_singleton] at hg; subst hg; simp [Gate.WF]) rfl (by decide +kernel) (by decide) (h 1 10)

/-- The same with bit 10. -/
theorem C55_violated_q7 : ¬ C55_registers_claim q7Steane := fun h =>
  not_wf_of (gates := [{ op := .measure, targets := [0], classics := [10] }]) (freq := 0) (q := 10) (c := 0)
    (fun g hg => by rw [List.mem_singleton] at hg; subst hg; simp [Gate.WF]) rfl (by decide +kernel) (by decide) (h 1 11)

/-- A circuit of two qubits and bits that meets the hypotheses of all the theorems. -/
example : (∀ g ∈ [({ op := .X, targets := [0] } : Gate), { op := .measure, targets := [0, 1], classics := [0, 1] }], g.WF 2 2) ∧
    2 ≤ 2 + 5 ∧ 2 ≤ 2 * 5 + 4 ∧ ∃ out, (q9Surface 2 2).apply 1
      [{ op := .X, targets := [0] }, { op := .measure, targets := [0, 1], classics := [0, 1] }] = .ok out := by
  refine ⟨fun g hg => ?_, by decide, by decide, _, rfl⟩
  rcases List.mem_cons.1 hg with rfl | hg
  · simp [Gate.WF]
  · rw [List.mem_singleton] at hg; subst hg; simp [Gate.WF]

end Verif.Ecc
