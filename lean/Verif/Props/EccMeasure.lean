import Verif.Props.EccRange

/-!
# The user's measurements in encoded circuits (C94)
-/

namespace Verif.Ecc

/-- A measurement of the circuit appears, after decoding if necessary, as the measurement of the first physical qubit of the same
logical qubits into the same classical bits (physical qubit `t` is `dat n t 0`), and the encoder is in its decoded state then. -/
def Measures (s : Scheme) (n m : ℕ) : Prop :=
  ∀ g st st', g.WF n m → g.op = .measure → s.mapGate g st = .ok st' →
    ∃ mid, st'.out = st.out ++ mid ++ List.zipWith Instr.measure g.targets g.classics ∧ st'.isDecoded = true ∧
      (st.isDecoded = true → mid = [])

theorem beforeMeasure_spec {correct decode : St → St} (hc : ∀ st, ∃ l, (correct st).out = st.out ++ l)
    (hd : ∀ st, (∃ l, (decode st).out = st.out ++ l) ∧ (decode st).isDecoded = true) (st : St) :
    ∃ mid, (beforeMeasure correct decode st).out = st.out ++ mid ∧ (beforeMeasure correct decode st).isDecoded = true ∧
      (st.isDecoded = true → mid = []) := by
  unfold beforeMeasure
  cases h : st.isDecoded
  · obtain ⟨l, hl⟩ := hc st
    obtain ⟨⟨l', hl'⟩, h2⟩ := hd (correct st)
    exact ⟨l ++ l', by simp [hl, hl'], by simpa using h2, fun h => by cases h⟩
  · exact ⟨[], by simp, by simpa using h, fun _ => rfl⟩

theorem measures_of {s : Scheme} {n m : ℕ} {correct decode : St → St} (hc : ∀ st, ∃ l, (correct st).out = st.out ++ l)
    (hd : ∀ st, (∃ l, (decode st).out = st.out ++ l) ∧ (decode st).isDecoded = true)
    (hm : ∀ g st, g.WF n m → g.op = .measure →
      s.mapGate g st = (userMeasure g).map fun l => (beforeMeasure correct decode st).emit l) : Measures s n m := by
  intro g st st' hg ho h
  rw [hm g st hg ho, userMeasure_ok hg ho] at h
  cases h
  obtain ⟨mid, h1, h2, h3⟩ := beforeMeasure_spec hc hd st
  exact ⟨mid, by show _ ++ _ = _; rw [h1], h2, h3⟩

theorem C94_measures_q3 (n m : ℕ) : Measures (q3Shor n m) n m := by
  refine measures_of (correct := Q3.correct n m) (decode := Q3.decode n) (fun st => ?_) (fun st => ?_) fun g st _ ho => ?_
  · unfold Q3.correct; split
    · exact ⟨[], by simp⟩
    · exact ⟨_, rfl⟩
  · unfold Q3.decode; split
    · exact ⟨⟨[], by simp⟩, by assumption⟩
    · exact ⟨⟨_, rfl⟩, rfl⟩
  · show Q3.mapGate n (Q3.correct n m) g st = _
    simp only [Q3.mapGate, ho]
    simp

theorem C94_measures_q9 (n m : ℕ) : Measures (q9Shor n m) n m := by
  refine measures_of (correct := Q9.correct n m) (decode := Q9.decode n) (fun st => ?_) (fun st => ?_) fun g st _ ho => ?_
  · unfold Q9.correct; split
    · exact ⟨[], by simp⟩
    · exact ⟨_, rfl⟩
  · unfold Q9.decode; split
    · exact ⟨⟨[], by simp⟩, by assumption⟩
    · exact ⟨⟨_, rfl⟩, rfl⟩
  · show Q9.mapGate n (Q9.correct n m) g st = _
    simp only [Q9.mapGate, ho]
    simp

theorem C94_measures_surface9 (n m : ℕ) : Measures (q9Surface n m) n m := by
  refine measures_of (correct := S9.correct n m) (decode := S9.decode n) (fun st => ?_) (fun st => ?_) fun g st _ ho => ?_
  · unfold S9.correct; split
    · exact ⟨[], by simp⟩
    · exact ⟨_, rfl⟩
  · unfold S9.decode; split
    · exact ⟨⟨[], by simp⟩, by assumption⟩
    · exact ⟨⟨_, rfl⟩, rfl⟩
  · show S9.mapGate n (S9.correct n m) g st = _
    simp only [S9.mapGate, ho]
    simp

theorem C94_measures_surface18 (n m : ℕ) : Measures (q18Surface n m) n m := by
  refine measures_of (correct := S18.correct n m) (decode := S18.decode n) (fun st => ?_) (fun st => ?_) fun g st _ ho => ?_
  · unfold S18.correct; split
    · exact ⟨[], by simp⟩
    · exact ⟨_, rfl⟩
  · unfold S18.decode; split
    · exact ⟨⟨[], by simp⟩, by assumption⟩
    · exact ⟨⟨_, rfl⟩, rfl⟩
  · show S18.mapGate n (S18.correct n m) g st = _
    simp only [S18.mapGate, ho]
    simp

/-- The full claim for a scheme. -/
def C94_claim (scheme : ℕ → ℕ → Scheme) : Prop := ∀ n m, Measures (scheme n m) n m

/-- The five-qubit code measures qubit `c` into bit `t` instead of `t` into `c`. -/
theorem C94_violated_q5 : ¬ C94_claim q5Laflamme := fun h => by
  obtain ⟨mid, h1, _, h3⟩ := h 2 2 { op := .measure, targets := [1], classics := [0] } {}
    { out := [.measure 0 1] } (by simp [Gate.WF]) rfl rfl
  rw [h3 rfl] at h1
  cases h1

/-- So does Steane's code. -/
theorem C94_violated_q7 : ¬ C94_claim q7Steane := fun h => by
  obtain ⟨mid, h1, _, h3⟩ := h 2 2 { op := .measure, targets := [1], classics := [0] } {}
    { out := [.measure 0 1] } (by simp [Gate.WF]) rfl rfl
  rw [h3 rfl] at h1
  cases h1

/-- They are right for qubits measured into the bits with the same numbers. -/
def SameNumbers (s : Scheme) (n m : ℕ) : Prop :=
  ∀ g st st', g.WF n m → g.op = .measure → g.targets = g.classics → s.mapGate g st = .ok st' →
    ∃ mid, st'.out = st.out ++ mid ++ List.zipWith Instr.measure g.targets g.classics ∧ st'.isDecoded = true ∧
      (st.isDecoded = true → mid = [])

theorem C94_measures_q5_partial (n m : ℕ) : SameNumbers (q5Laflamme n m) n m := by
  intro g st st' hg ho he h
  have hm : (q5Laflamme n m).mapGate g st = (userMeasureSwapped g).map fun l =>
      (beforeMeasure (Q5.correct n m) (Q5.decode n m) st).emit l := by
    show Q5.mapGate n m (Q5.correct n m) g st = _
    simp only [Q5.mapGate, ho]
    simp
  rw [hm, userMeasureSwapped_ok hg ho] at h
  cases h
  obtain ⟨mid, h1, h2, h3⟩ := beforeMeasure_spec (correct := Q5.correct n m) (decode := Q5.decode n m)
    (fun st => by
      unfold Q5.correct; split
      · exact ⟨[], by simp⟩
      · exact ⟨_, rfl⟩)
    (fun st => by
      unfold Q5.decode; split
      · exact ⟨⟨[], by simp⟩, by assumption⟩
      · exact ⟨⟨_, rfl⟩, rfl⟩) st
  exact ⟨mid, by show _ ++ _ = _; rw [h1, he], h2, h3⟩

theorem C94_measures_q7_partial (n m : ℕ) : SameNumbers (q7Steane n m) n m := by
  intro g st st' hg ho he h
  have hm : (q7Steane n m).mapGate g st = (userMeasureSwapped g).map fun l =>
      (beforeMeasure (Q7.correct n m) (Q7.decode n m) st).emit l := by
    show Q7.mapGate n m (Q7.correct n m) g st = _
    simp only [Q7.mapGate, ho]
    simp
  rw [hm, userMeasureSwapped_ok hg ho] at h
  cases h
  obtain ⟨mid, h1, h2, h3⟩ := beforeMeasure_spec (correct := Q7.correct n m) (decode := Q7.decode n m)
    (fun st => by
      unfold Q7.correct; split
      · exact ⟨[], by simp⟩
      · exact ⟨_, by simp [Q7.single, St.emit, List.append_assoc]; rfl⟩)
    (fun st => by
      unfold Q7.decode; split
      · exact ⟨⟨[], by simp⟩, by assumption⟩
      · exact ⟨⟨_, rfl⟩, rfl⟩) st
  exact ⟨mid, by show _ ++ _ = _; rw [h1, he], h2, h3⟩

/-- A well-formed measurement of two qubits. -/
example : ({ op := .measure, targets := [0, 1], classics := [1, 0] } : Gate).WF 2 2 ∧
    ∃ st', (q3Shor 2 2).mapGate { op := .measure, targets := [0, 1], classics := [1, 0] } { isDecoded := false, gatesWritten := true } = .ok st' :=
  ⟨by simp [Gate.WF], _, rfl⟩

/-- Bits of the original circuit a scheme writes although the circuit does not: none. -/
def OwnBits (s : Scheme) (m : ℕ) : Prop :=
  ∀ freq gates out, s.apply freq gates = .ok out → ∀ q b, Instr.measure q b ∈ out → b < m → ∃ g ∈ gates, g.op = .measure ∧ b ∈ g.classics

theorem ownBits_of {s : Scheme} {m : ℕ} (he : ∀ st q b, Instr.measure q b ∈ (s.writeEncoding st).out → b < m → Instr.measure q b ∈ st.out)
    (hc : ∀ st q b, Instr.measure q b ∈ (s.measureAndCorrect st).out → b < m → Instr.measure q b ∈ st.out)
    (hd : ∀ st q b, Instr.measure q b ∈ (s.writeDecoding st).out → b < m → Instr.measure q b ∈ st.out)
    (hm : ∀ g st st' q b, s.mapGate g st = .ok st' → Instr.measure q b ∈ st'.out → b < m →
      Instr.measure q b ∈ st.out ∨ (g.op = .measure ∧ b ∈ g.classics)) : OwnBits s m := by
  intro freq gates out h q b hq hb
  unfold Scheme.apply at h
  cases hl : loop s.mapGate s.measureAndCorrect freq 0 gates ((s.writeEncoding {}).decoded false) with
  | error e => rw [hl] at h; cases h
  | ok st =>
    rw [hl] at h
    cases h
    have := loop_inv (P := fun st => ∀ q b, Instr.measure q b ∈ st.out → b < m → ∃ g ∈ gates, g.op = .measure ∧ b ∈ g.classics)
      (fun g hgm st st' hs he q b hq hb => by
        rcases hm g st st' q b he hq hb with h1 | h1
        · exact hs q b h1 hb
        · exact ⟨g, hgm, h1⟩) (fun st hs q b hq hb => hs q b (hc st q b hq hb) hb) 0 hl
      (fun q b hq hb => by cases he {} q b hq hb)
    refine this q b ?_ hb
    change Instr.measure q b ∈ (s.finish st).out at hq
    unfold Scheme.finish at hq
    split at hq
    · exact hc st q b (hd _ q b hq hb) hb
    · exact hq

theorem emit_measure {st : St} {l : List Instr} {m q b : ℕ} (hl : ∀ q b, Instr.measure q b ∈ l → m ≤ b)
    (h : Instr.measure q b ∈ (st.emit l).out) (hb : b < m) : Instr.measure q b ∈ st.out := by
  rcases List.mem_append.1 h with h | h
  · exact h
  · have := hl q b h
    omega

theorem blocks_measure {n m : ℕ} {f : ℕ → List Instr} (h : ∀ i q b, Instr.measure q b ∈ f i → m ≤ b) :
    ∀ q b, Instr.measure q b ∈ blocks n f → m ≤ b := by
  intro q b hq
  simp only [blocks, List.mem_flatMap] at hq
  obtain ⟨i, -, hi⟩ := hq
  exact h i q b hi

theorem userMeasure_measure {g : Gate} {l : List Instr} {q b : ℕ} (h : userMeasure g = .ok l) (hq : Instr.measure q b ∈ l) :
    b ∈ g.classics := by
  unfold userMeasure at h
  split at h
  · cases h
    obtain ⟨i, hi, he⟩ := List.getElem_of_mem hq
    rw [List.getElem_zipWith] at he
    cases he
    exact List.getElem_mem _
  · cases h

theorem q3_encode_bits {n m : ℕ} (st : St) (q b : ℕ) (h : Instr.measure q b ∈ (Q3.encode n st).out) (hb : b < m) :
    Instr.measure q b ∈ st.out := by
  unfold Q3.encode at h
  split at h
  · exact h
  · exact emit_measure (blocks_measure (fun i q b hq => by simp [cx] at hq)) h hb

theorem q3_correct_bits {n m : ℕ} (st : St) (q b : ℕ) (h : Instr.measure q b ∈ (Q3.correct n m st).out) (hb : b < m) :
    Instr.measure q b ∈ st.out := by
  unfold Q3.correct at h
  split at h
  · exact h
  · exact emit_measure (blocks_measure (fun i q b hq => by simp [Q3.correctBlock, cx] at hq; omega)) h hb

theorem q3_decode_bits {n m : ℕ} (st : St) (q b : ℕ) (h : Instr.measure q b ∈ (Q3.decode n st).out) (hb : b < m) :
    Instr.measure q b ∈ st.out := by
  unfold Q3.decode at h
  split at h
  · exact h
  · exact emit_measure (blocks_measure (fun i q b hq => by simp [Q3.decodeBlock, cx, ccx] at hq)) h hb

theorem q9_encode_bits {n m : ℕ} (st : St) (q b : ℕ) (h : Instr.measure q b ∈ (Q9.encode n st).out) (hb : b < m) :
    Instr.measure q b ∈ st.out := by
  unfold Q9.encode at h
  split at h
  · exact h
  · exact emit_measure (st := st.decoded false)
      (blocks_measure (fun i q b hq => by simp [Q9.encodeBlock, cx, Ecc.h] at hq)) h hb

theorem q9_correct_bits {n m : ℕ} (st : St) (q b : ℕ) (h : Instr.measure q b ∈ (Q9.correct n m st).out) (hb : b < m) :
    Instr.measure q b ∈ st.out := by
  unfold Q9.correct at h
  split at h
  · exact h
  · exact emit_measure (blocks_measure (fun i q b hq => by
      simp [Q9.correctBlock, cx, cz, Ecc.h] at hq
      omega)) h hb

theorem q9_decode_bits {n m : ℕ} (st : St) (q b : ℕ) (h : Instr.measure q b ∈ (Q9.decode n st).out) (hb : b < m) :
    Instr.measure q b ∈ st.out := by
  unfold Q9.decode at h
  split at h
  · exact h
  · exact emit_measure (blocks_measure (fun i q b hq => by simp [Q9.decodeBlock, cx, ccx, Ecc.h] at hq)) h hb

theorem beforeMeasure_bits {correct decode : St → St} {m : ℕ}
    (hc : ∀ st q b, Instr.measure q b ∈ (correct st).out → b < m → Instr.measure q b ∈ st.out)
    (hd : ∀ st q b, Instr.measure q b ∈ (decode st).out → b < m → Instr.measure q b ∈ st.out)
    (st : St) (q b : ℕ) (h : Instr.measure q b ∈ (beforeMeasure correct decode st).out) (hb : b < m) :
    Instr.measure q b ∈ st.out := by
  unfold beforeMeasure at h
  split at h
  · exact hc _ _ _ (hd _ _ _ h hb) hb
  · exact h

/-- **C95.** Q3Shor writes a bit of the original circuit only where the original circuit measures into it. -/
theorem C95_own_bits_q3 (n m : ℕ) : OwnBits (q3Shor n m) m := by
  refine ownBits_of (fun st q b => q3_encode_bits st q b) (fun st q b => q3_correct_bits st q b) (fun st q b => q3_decode_bits st q b) ?_
  intro g st st' q b hm hq hb
  change Q3.mapGate n (Q3.correct n m) g st = .ok st' at hm
  unfold Q3.mapGate at hm
  set s := (if (st.isDecoded && decide (g.op ≠ .measure) && decide (g.op ≠ .H)) = true then Q3.encode n st else st) with hs
  have hsb : Instr.measure q b ∈ s.out → Instr.measure q b ∈ st.out := by
    rw [hs]
    split
    · exact fun h => q3_encode_bits st q b h hb
    · exact id
  clear_value s
  have hadd : ∀ q b, Instr.measure q b ∈ Q3.addOperation n g → m ≤ b := by
    intro q b hq
    simp [Q3.addOperation] at hq
  dsimp only at hm
  split at hm
  all_goals first
    | (cases hm; exact .inl (hsb hq))
    | (cases hm; exact .inl (hsb (emit_measure hadd hq hb)))
    | skip
  · rename_i hop
    cases hu : userMeasure g with
    | error e => rw [hu] at hm; cases hm
    | ok l =>
      rw [hu] at hm
      cases hm
      rcases List.mem_append.1 hq with h | h
      · exact .inl (hsb (beforeMeasure_bits (fun st q b => q3_correct_bits st q b) (fun st q b => q3_decode_bits st q b) s q b h hb))
      · exact .inr ⟨hop, userMeasure_measure hu h⟩
  all_goals cases hm

/-- **C95.** The same for Q9Shor. -/
theorem C95_own_bits_q9 (n m : ℕ) : OwnBits (q9Shor n m) m := by
  refine ownBits_of (fun st q b => q9_encode_bits st q b) (fun st q b => q9_correct_bits st q b) (fun st q b => q9_decode_bits st q b) ?_
  intro g st st' q b hm hq hb
  change Q9.mapGate n (Q9.correct n m) g st = .ok st' at hm
  unfold Q9.mapGate at hm
  set s := (if (st.isDecoded && decide (g.op ≠ .measure) && decide (g.op ≠ .H)) = true then Q9.encode n st else st) with hs
  have hsb : Instr.measure q b ∈ s.out → Instr.measure q b ∈ st.out := by
    rw [hs]
    split
    · exact fun h => q9_encode_bits st q b h hb
    · exact id
  clear_value s
  have hadd : ∀ q b, Instr.measure q b ∈ Q9.transversal n g → m ≤ b := by
    intro q b hq
    simp [Q9.transversal, Q9.copyGate, Ecc.h] at hq
  dsimp only at hm
  split at hm
  all_goals first
    | (cases hm; exact .inl (hsb hq))
    | (cases hm; exact .inl (hsb (emit_measure hadd hq hb)))
    | skip
  · rename_i hop
    cases hu : userMeasure g with
    | error e => rw [hu] at hm; cases hm
    | ok l =>
      rw [hu] at hm
      cases hm
      rcases List.mem_append.1 hq with h | h
      · exact .inl (hsb (beforeMeasure_bits (fun st q b => q9_correct_bits st q b) (fun st q b => q9_decode_bits st q b) s q b h hb))
      · exact .inr ⟨hop, userMeasure_measure hu h⟩
  all_goals cases hm

/-- The full claim of C95: no scheme writes bits of the original circuit by itself. -/
def C95_claim : Prop := ∀ n m, OwnBits (q9Surface n m) m ∧ OwnBits (q18Surface n m) m

/-- **C95.** Q9Surface violates it: with two qubits and two bits, a circuit that measures only qubit 0 into bit 0, and ends,
gets bit 1 overwritten by the decoding of qubit 1. -/
theorem C95_violated_surface9 : ¬ OwnBits (q9Surface 2 2) 2 := by
  intro h
  obtain ⟨g, hg, -, hb⟩ := h 0 [{ op := .measure, targets := [0], classics := [0] }] _ rfl 1 1 (by decide +kernel) (by decide)
  simp at hg
  subst hg
  simp at hb

/-- **C95.** Q18Surface violates it in the same way. -/
theorem C95_violated_surface18 : ¬ OwnBits (q18Surface 2 2) 2 := by
  intro h
  obtain ⟨g, hg, -, hb⟩ := h 0 [{ op := .measure, targets := [0], classics := [0] }] _ rfl 29 1 (by decide +kernel) (by decide)
  simp at hg
  subst hg
  simp at hb

/-- Hence the claim for all schemes fails. -/
theorem C95_violated : ¬ C95_claim := fun h => C95_violated_surface9 (h 2 2).1

/-- A circuit that Q3Shor accepts and that measures into a bit. -/
example : ∃ out, (q3Shor 2 2).apply 1 [{ op := .X, targets := [0] }, { op := .measure, targets := [0], classics := [1] }] = .ok out ∧
    Instr.measure 0 1 ∈ out := ⟨_, rfl, by decide +kernel⟩

end Verif.Ecc
