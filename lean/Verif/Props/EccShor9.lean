import Verif.Lemmas.EccFrame
import Verif.Props.EccResults

/-!
# C100: a circuit encoded with Q9Shor gives the results of the original circuit

For operations X and Y with at most one control; with two controls the claim fails (`Props/EccToffoli`).  A logical qubit with value `v` is a state on which the three operators XXX
on the three groups of three qubits have the sign of `v`; the other checks do not matter for the results.
-/

namespace Verif.Ecc
variable {R : Type} [CommRing R] (k : Consts R)

namespace Q9

/-- XXX on group `b`. -/
def xxx (b : ℕ) : Word := [(true, 3 * b), (true, 3 * b + 1), (true, 3 * b + 2)]

/-- Data qubits and ancillas of one logical qubit. -/
def loc (n i j : ℕ) : ℕ := if j < 9 then dat n i j else n * 9 + (j - 9)

theorem loc_inj {n i : ℕ} (hi : i < n) : Inj 17 (loc n i) := by
  intro a ha b hb h
  unfold loc at h
  split at h <;> split at h
  · exact (dat_inj hi hi h).2
  · have := dat_lt (r := 9) hi (by assumption : a < 9); omega
  · have := dat_lt (r := 9) hi (by assumption : b < 9); omega
  · omega

theorem dat_inj9 {n i : ℕ} (hi : i < n) : Inj 9 (dat n i) := fun _ _ _ _ h => (dat_inj hi hi h).2

/-! ## One logical qubit -/

def correctCmds : List Cmd :=
  let l := correctBlock id (fun j => 9 + j) 0
  (l.take 40).map .run ++ [.mul 1 8, .mul 1 9, .mul 0 9, .mul 0 10] ++ (l.drop 40).map .run

theorem correctCmds_instr : correctCmds.flatMap Cmd.instr = correctBlock id (fun j => 9 + j) 0 := by decide

theorem correctBlock_eq (n i m : ℕ) :
    correctBlock (dat n i) (fun j => n * 9 + j) m = (correctBlock id (fun j => 9 + j) 0).map (Instr.rename (loc n i) (m + ·)) := rfl

def startFacts (s0 s1 s2 : Bool) : TS := ⟨[(xxx 0, s0), (xxx 1, s1), (xxx 2, s2)], []⟩

def majority (s0 s1 s2 : Bool) : Bool := (s0 && s1) || (s0 && s2) || (s1 && s2)

theorem correct_track : ∀ s0 s1 s2 : Bool, ∃ s', track 17 correctCmds (startFacts s0 s1 s2) = some s' ∧
    (∀ b < 3, (xxx b, majority s0 s1 s2) ∈ s'.facts) ∧ (6, s0 ^^ s1) ∈ s'.bits ∧ (7, s1 ^^ s2) ∈ s'.bits := by
  have key : ∀ s0 s1 s2 : Bool, (match track 17 correctCmds (startFacts s0 s1 s2) with
      | some s' => ((List.range 3).all fun b => s'.facts.contains (xxx b, majority s0 s1 s2)) &&
          s'.bits.contains (6, s0 ^^ s1) && s'.bits.contains (7, s1 ^^ s2)
      | none => false) = true := by decide +kernel
  intro s0 s1 s2
  have := key s0 s1 s2
  split at this
  · rename_i s' h
    simp only [Bool.and_eq_true, List.contains_iff_mem] at this
    refine ⟨s', h, fun b hb => ?_, this.1.2, this.2⟩
    simpa using List.all_eq_true.1 this.1.1 b (List.mem_range.2 hb)
  · cases this

def decodeCmds : List Cmd :=
  let l := decodeBlock id
  (l.take 13).map .run ++ [.mul 1 0] ++ ((l.drop 13).take 1).map .run ++ [.mul 2 0] ++ (l.drop 14).map .run

theorem decodeCmds_instr : decodeCmds.flatMap Cmd.instr = decodeBlock id := by decide

theorem decodeBlock_eq (n i m : ℕ) : decodeBlock (dat n i) = (decodeBlock id).map (Instr.rename (dat n i) (m + ·)) := rfl

theorem decode_track : ∀ s0 s1 s2 : Bool, ∃ s', track 9 decodeCmds (startFacts s0 s1 s2) = some s' ∧
    ([(false, 0)], majority s0 s1 s2) ∈ s'.facts ∧ ([(false, 3)], s0 ^^ s1) ∈ s'.facts ∧ ([(false, 6)], s0 ^^ s2) ∈ s'.facts := by
  have key : ∀ s0 s1 s2 : Bool, (match track 9 decodeCmds (startFacts s0 s1 s2) with
      | some s' => s'.facts.contains ([(false, 0)], majority s0 s1 s2) && s'.facts.contains ([(false, 3)], s0 ^^ s1) &&
          s'.facts.contains ([(false, 6)], s0 ^^ s2)
      | none => false) = true := by decide +kernel
  intro s0 s1 s2
  have := key s0 s1 s2
  split at this
  · rename_i s' h
    simp only [Bool.and_eq_true, List.contains_iff_mem] at this
    exact ⟨s', h, this.1.1, this.1.2, this.2⟩
  · cases this

def encodeCmds : List Cmd :=
  let l := encodeBlock id
  (l.take 1).map .run ++ [.mul 1 0] ++ ((l.drop 1).take 1).map .run ++ [.mul 2 0] ++ (l.drop 2).map .run

theorem encodeCmds_instr : encodeCmds.flatMap Cmd.instr = encodeBlock id := by decide

theorem encodeBlock_eq (n i m : ℕ) : encodeBlock (dat n i) = (encodeBlock id).map (Instr.rename (dat n i) (m + ·)) := rfl

def decodedFacts (v : Bool) : TS := ⟨[([(false, 0)], v), ([(false, 3)], false), ([(false, 6)], false)], []⟩

theorem encode_track : ∀ v : Bool, ∃ s', track 9 encodeCmds (decodedFacts v) = some s' ∧ ∀ b < 3, (xxx b, v) ∈ s'.facts := by
  have key : ∀ v : Bool, (match track 9 encodeCmds (decodedFacts v) with
      | some s' => (List.range 3).all fun b => s'.facts.contains (xxx b, v)
      | none => false) = true := by decide +kernel
  intro v
  have := key v
  split at this
  · rename_i s' h
    refine ⟨s', h, fun b hb => ?_⟩
    simpa using List.all_eq_true.1 this b (List.mem_range.2 hb)
  · cases this

/-! ## All logical qubits -/

/-- The values of the three groups of every logical qubit. -/
def Sec (n : ℕ) (s : ℕ → ℕ → Bool) (ψ : State R) : Prop := ∀ i < n, ∀ b < 3, Eig (dat n i) (xxx b, s i b) ψ

/-- Decoded. -/
def Dec (n : ℕ) (o : Bits) (ψ : State R) : Prop := ∀ i < n, Eig (dat n i) ([(false, 0)], o i) ψ ∧
  Eig (dat n i) ([(false, 3)], false) ψ ∧ Eig (dat n i) ([(false, 6)], false) ψ

theorem xxx_within {b : ℕ} (hb : b < 3) : Within 9 (xxx b) := by
  intro l hl
  simp only [xxx, List.mem_cons, List.not_mem_nil, or_false] at hl
  rcases hl with rfl | rfl | rfl <;> simp only <;> omega

theorem eig_congr {e d : ℕ → ℕ} {f : Word × Bool} {ψ : State R} (h : ∀ l ∈ f.1, e l.2 = d l.2) (hE : Eig e f ψ) : Eig d f ψ := by
  unfold Eig at *
  rw [← place_congr h]
  exact hE

theorem loc_dat {n i j : ℕ} (hj : j < 9) : loc n i j = dat n i j := if_pos hj

theorem other_loc {n i i' : ℕ} (hi : i < n) (hi' : i' < n) (h : i' ≠ i) {w : Word} (hw : Within 9 w) :
    ∀ l ∈ place (dat n i') w, ∀ j < 17, l.2 ≠ loc n i j := by
  intro l hl j _
  obtain ⟨l', hl', rfl⟩ := List.mem_map.1 hl
  have h1 := hw l' hl'
  have h2 := dat_lt (r := 9) hi' h1
  unfold loc
  split
  · exact fun e => h (dat_inj hi' hi e).1
  · simp only
    omega

theorem other_dat {n i i' : ℕ} (hi : i < n) (hi' : i' < n) (h : i' ≠ i) {w : Word} :
    ∀ l ∈ place (dat n i') w, ∀ j < 9, l.2 ≠ dat n i j := by
  intro l hl j _
  obtain ⟨l', hl', rfl⟩ := List.mem_map.1 hl
  exact fun e => h (dat_inj hi' hi e).1

theorem correct_local : ∀ i ∈ correctBlock id (fun j => 9 + j) 0, i.Local 17 := by decide
theorem decode_local : ∀ i ∈ decodeBlock id, i.Local 9 := by decide
theorem encode_local : ∀ i ∈ encodeBlock id, i.Local 9 := by decide

theorem correct_run {n m : ℕ} {s : ℕ → ℕ → Bool} {c c' : Config R} (h : Sec n s c.1)
    (hb : Branch k (blocks n fun i => correctBlock (dat n i) (fun j => n * 9 + j) m) c c') :
    (c'.1 = 0 ∨ (Sec n (fun i _ => majority (s i 0) (s i 1) (s i 2)) c'.1 ∧
      ∀ i, n = i + 1 → c'.2 (m + 6) = (s i 0 ^^ s i 1) ∧ c'.2 (m + 7) = (s i 1 ^^ s i 2))) ∧ ∀ b < m, c'.2 b = c.2 b := by
  have key := branch_blocks k (n := n) (b := fun i => correctBlock (dat n i) (fun j => n * 9 + j) m)
    (fun K c₁ => (c₁.1 = 0 ∨ (Sec n (fun i b => if i < K then majority (s i 0) (s i 1) (s i 2) else s i b) c₁.1 ∧
        ∀ i, K = i + 1 → c₁.2 (m + 6) = (s i 0 ^^ s i 1) ∧ c₁.2 (m + 7) = (s i 1 ^^ s i 2))) ∧
      ∀ b < m, c₁.2 b = c.2 b)
    ⟨.inr ⟨fun i hi b hb => by simpa using h i hi b hb, fun i hi => by omega⟩, fun _ _ => rfl⟩ ?_ hb
  · refine ⟨key.1.imp id fun h => ⟨fun i hi b hb => ?_, h.2⟩, key.2⟩
    have := h.1 i hi b hb
    simpa [hi] using this
  · rintro K hK c₁ c₂ ⟨h1, h2⟩ hbr
    rw [correctBlock_eq] at hbr
    refine ⟨?_, fun b hb => (block_bits k hbr hb).trans (h2 b hb)⟩
    rcases h1 with h1 | ⟨h1, -⟩
    · exact .inl (branch_zero k hbr h1)
    · obtain ⟨s', ht, hf, hb6, hb7⟩ := correct_track (s K 0) (s K 1) (s K 2)
      have hs : (startFacts (s K 0) (s K 1) (s K 2)).Sat (loc n K) 17 m c₁ := by
        refine ⟨fun f hf => ?_, fun f hf => ?_, fun p hp => by cases hp⟩
        · simp only [startFacts, List.mem_cons, List.not_mem_nil, or_false] at hf
          rcases hf with rfl | rfl | rfl <;> exact fun l hl => lt_trans (xxx_within (by decide) l hl) (by decide)
        · simp only [startFacts, List.mem_cons, List.not_mem_nil, or_false] at hf
          rcases hf with rfl | rfl | rfl
          · have := h1 K hK 0 (by decide)
            simp only [lt_irrefl, if_false] at this
            exact eig_congr (fun l hl => (loc_dat (xxx_within (by decide) l hl)).symm) this
          · have := h1 K hK 1 (by decide)
            simp only [lt_irrefl, if_false] at this
            exact eig_congr (fun l hl => (loc_dat (xxx_within (by decide) l hl)).symm) this
          · have := h1 K hK 2 (by decide)
            simp only [lt_irrefl, if_false] at this
            exact eig_congr (fun l hl => (loc_dat (xxx_within (by decide) l hl)).symm) this
      rw [← correctCmds_instr] at hbr
      rcases track_sound k (loc_inj hK) ht hs hbr with h0 | hs'
      · exact .inl h0
      · refine .inr ⟨fun i hi b hb => ?_, fun i hi => ?_⟩
        on_goal 2 =>
          have : i = K := by omega
          subst this
          exact ⟨hs'.bits _ hb6, hs'.bits _ hb7⟩
        by_cases hiK : i = K
        · subst hiK
          simp only [show i < i + 1 by omega, if_true]
          exact eig_congr (fun l hl => loc_dat (xxx_within hb l hl)) (hs'.eig _ (hf b hb))
        · have e : (i < K + 1) = (i < K) := by simp only [eq_iff_iff]; omega
          simp only [e]
          rw [correctCmds_instr] at hbr
          exact block_frame k (loc_inj hK) correct_local (other_loc hK hi hiK (xxx_within hb)) hbr (h1 i hi b hb)

theorem decode_run {n m : ℕ} {s : ℕ → ℕ → Bool} {o : Bits} (hso : ∀ i < n, ∀ b < 3, s i b = o i) {c c' : Config R} (h : Sec n s c.1)
    (hb : Branch k (blocks n fun i => decodeBlock (dat n i)) c c') : (c'.1 = 0 ∨ Dec n o c'.1) ∧ ∀ b < m, c'.2 b = c.2 b := by
  have key := branch_blocks k (n := n) (b := fun i => decodeBlock (dat n i))
    (fun K c₁ => (c₁.1 = 0 ∨ ∀ i < n, (K ≤ i → ∀ b < 3, Eig (dat n i) (xxx b, s i b) c₁.1) ∧
      (i < K → Eig (dat n i) ([(false, 0)], o i) c₁.1 ∧
        Eig (dat n i) ([(false, 3)], false) c₁.1 ∧ Eig (dat n i) ([(false, 6)], false) c₁.1)) ∧
      ∀ b < m, c₁.2 b = c.2 b)
    ⟨.inr fun i hi => ⟨fun _ b hb => h i hi b hb, fun hh => absurd hh (by omega)⟩, fun _ _ => rfl⟩ ?_ hb
  · exact ⟨key.1.imp id fun h i hi => (h i hi).2 hi, key.2⟩
  · rintro K hK c₁ c₂ ⟨h1, h2⟩ hbr
    rw [decodeBlock_eq n K m] at hbr
    refine ⟨?_, fun b hb => (block_bits k hbr hb).trans (h2 b hb)⟩
    rcases h1 with h1 | h1
    · exact .inl (branch_zero k hbr h1)
    · obtain ⟨s', ht, hf⟩ := decode_track (s K 0) (s K 1) (s K 2)
      have hs : (startFacts (s K 0) (s K 1) (s K 2)).Sat (dat n K) 9 m c₁ := by
        refine ⟨fun f hf => ?_, fun f hf => ?_, fun p hp => by cases hp⟩
        · simp only [startFacts, List.mem_cons, List.not_mem_nil, or_false] at hf
          rcases hf with rfl | rfl | rfl <;> exact xxx_within (by decide)
        · simp only [startFacts, List.mem_cons, List.not_mem_nil, or_false] at hf
          rcases hf with rfl | rfl | rfl
          · exact (h1 K hK).1 le_rfl 0 (by decide)
          · exact (h1 K hK).1 le_rfl 1 (by decide)
          · exact (h1 K hK).1 le_rfl 2 (by decide)
      rw [hso K hK 0 (by decide), hso K hK 1 (by decide), hso K hK 2 (by decide)] at hf
      rw [← decodeCmds_instr] at hbr
      rcases track_sound k (dat_inj9 hK) ht hs hbr with h0 | hs'
      · exact .inl h0
      · rw [decodeCmds_instr] at hbr
        refine .inr fun i hi => ?_
        by_cases hiK : i = K
        · subst hiK
          refine ⟨fun hh => absurd hh (by omega), fun _ => ⟨?_, ?_, ?_⟩⟩
          · have := hs'.eig _ hf.1
            rwa [show majority (o i) (o i) (o i) = o i by cases o i <;> rfl] at this
          · have := hs'.eig _ hf.2.1
            rwa [show (o i ^^ o i) = false by cases o i <;> rfl] at this
          · have := hs'.eig _ hf.2.2
            rwa [show (o i ^^ o i) = false by cases o i <;> rfl] at this
        · have fr : ∀ f, Eig (dat n i) f c₁.1 → Eig (dat n i) f c₂.1 := fun f hf =>
            block_frame k (dat_inj9 hK) decode_local (other_dat hK hi hiK) hbr hf
          obtain ⟨g1, g2⟩ := h1 i hi
          exact ⟨fun hh b hb => fr _ (g1 (by omega) b hb),
            fun hh => ⟨fr _ (g2 (by omega)).1, fr _ (g2 (by omega)).2.1, fr _ (g2 (by omega)).2.2⟩⟩

theorem encode_run {n m : ℕ} {o : Bits} {c c' : Config R} (h : Dec n o c.1)
    (hb : Branch k (blocks n fun i => encodeBlock (dat n i)) c c') :
    (c'.1 = 0 ∨ Sec n (fun i _ => o i) c'.1) ∧ ∀ b < m, c'.2 b = c.2 b := by
  have key := branch_blocks k (n := n) (b := fun i => encodeBlock (dat n i))
    (fun K c₁ => (c₁.1 = 0 ∨ ∀ i < n, (i < K → ∀ b < 3, Eig (dat n i) (xxx b, o i) c₁.1) ∧
      (K ≤ i → Eig (dat n i) ([(false, 0)], o i) c₁.1 ∧
        Eig (dat n i) ([(false, 3)], false) c₁.1 ∧ Eig (dat n i) ([(false, 6)], false) c₁.1)) ∧
      ∀ b < m, c₁.2 b = c.2 b)
    ⟨.inr fun i hi => ⟨fun hh => absurd hh (by omega), fun _ => h i hi⟩, fun _ _ => rfl⟩ ?_ hb
  · exact ⟨key.1.imp id fun h i hi => (h i hi).1 hi, key.2⟩
  · rintro K hK c₁ c₂ ⟨h1, h2⟩ hbr
    rw [encodeBlock_eq n K m] at hbr
    refine ⟨?_, fun b hb => (block_bits k hbr hb).trans (h2 b hb)⟩
    rcases h1 with h1 | h1
    · exact .inl (branch_zero k hbr h1)
    · obtain ⟨s', ht, hf⟩ := encode_track (o K)
      obtain ⟨g1, g2, g3⟩ := (h1 K hK).2 le_rfl
      have hs : (decodedFacts (o K)).Sat (dat n K) 9 m c₁ := by
        refine ⟨fun f hf => ?_, fun f hf => ?_, fun p hp => by cases hp⟩
        · simp only [decodedFacts, List.mem_cons, List.not_mem_nil, or_false] at hf
          rcases hf with rfl | rfl | rfl <;> (intro l hl; simp at hl; subst hl; decide)
        · simp only [decodedFacts, List.mem_cons, List.not_mem_nil, or_false] at hf
          rcases hf with rfl | rfl | rfl
          exacts [g1, g2, g3]
      rw [← encodeCmds_instr] at hbr
      rcases track_sound k (dat_inj9 hK) ht hs hbr with h0 | hs'
      · exact .inl h0
      · rw [encodeCmds_instr] at hbr
        refine .inr fun i hi => ?_
        by_cases hiK : i = K
        · subst hiK
          exact ⟨fun _ b hb => hs'.eig _ (hf b hb), fun hh => absurd hh (by omega)⟩
        · have fr : ∀ f, Eig (dat n i) f c₁.1 → Eig (dat n i) f c₂.1 := fun f hf =>
            block_frame k (dat_inj9 hK) encode_local (other_dat hK hi hiK) hbr hf
          obtain ⟨g1, g2⟩ := h1 i hi
          exact ⟨fun hh b hb => fr _ (g1 (by omega) b hb),
            fun hh => ⟨fr _ (g2 (by omega)).1, fr _ (g2 (by omega)).2.1, fr _ (g2 (by omega)).2.2⟩⟩

/-! ## Gates -/

/-- The operation `p` on all nine qubits. -/
def plainBlock (p : Op) : List Instr := (List.range 9).map fun j => .gate p [] j

/-- The operation `p` on qubits 9 to 17, controlled by qubits 0 to 8. -/
def ctrlBlock (p : Op) (pol : Bool) : List Instr := (List.range 9).flatMap fun j => [h j, .gate p [(j, pol)] (9 + j), h j]

/-- The nine qubits of the control and of the target. -/
def loc2 (n i t j : ℕ) : ℕ := if j < 9 then dat n i j else dat n t (j - 9)

theorem loc2_inj {n i t : ℕ} (hi : i < n) (ht : t < n) (h : i ≠ t) : Inj 18 (loc2 n i t) := by
  intro a _ b _ e
  unfold loc2 at e
  split at e <;> split at e
  · exact (dat_inj hi hi e).2
  · exact absurd (dat_inj hi ht e).1 h
  · exact absurd (dat_inj ht hi e).1 h.symm
  · have := (dat_inj ht ht e).2; omega

/-- XXX on group `b` of the target. -/
def xxxT (b : ℕ) : Word := place (9 + ·) (xxx b)

theorem plain_track (p : Op) (hp : p = .Z ∨ p = .Y ∨ p = .X ∨ p = .I) : ∀ s : Bool, ∀ b < 3, ∃ s', track 9 ((plainBlock p).map .run) ⟨[(xxx b, s)], []⟩ = some s' ∧
    (xxx b, s ^^ decide (p = .Z ∨ p = .Y)) ∈ s'.facts := by
  have key : ∀ p ∈ [Op.Z, .Y, .X, .I], ∀ s : Bool, ∀ b < 3, (match track 9 ((plainBlock p).map .run) ⟨[(xxx b, s)], []⟩ with
      | some s' => s'.facts.contains (xxx b, s ^^ decide (p = .Z ∨ p = .Y))
      | none => false) = true := by decide +kernel
  intro s b hb
  have := key p (by simpa using hp) s b hb
  split at this
  · rename_i s' h
    exact ⟨s', h, by simpa using this⟩
  · cases this

theorem ctrl_track (p : Op) (hp : p = .Z ∨ p = .Y) : ∀ sc st pol : Bool, ∀ b < 3, ∃ s',
    track 18 ((ctrlBlock p pol).map .run ++ [.mul 1 0]) ⟨[(xxx b, sc), (xxxT b, st)], []⟩ = some s' ∧
    (xxx b, sc) ∈ s'.facts ∧ (xxxT b, st ^^ (sc == pol)) ∈ s'.facts := by
  have key : ∀ p ∈ [Op.Z, .Y], ∀ sc st pol : Bool, ∀ b < 3,
      (match track 18 ((ctrlBlock p pol).map .run ++ [.mul 1 0]) ⟨[(xxx b, sc), (xxxT b, st)], []⟩ with
      | some s' => s'.facts.contains (xxx b, sc) && s'.facts.contains (xxxT b, st ^^ (sc == pol))
      | none => false) = true := by decide +kernel
  intro sc st pol b hb
  have := key p (by simpa using hp) sc st pol b hb
  split at this
  · rename_i s' h
    simp only [Bool.and_eq_true, List.contains_iff_mem] at this
    exact ⟨s', h, this.1, this.2⟩
  · cases this

theorem run_instr (l : List Instr) : (l.map Cmd.run).flatMap Cmd.instr = l := by
  rw [List.flatMap_map]
  exact List.flatMap_singleton' l

theorem plainBlock_eq (n : ℕ) {g : Gate} (hg : g.controls = []) (t : ℕ) :
    (List.range 9).flatMap (copyGate n g t) = (plainBlock (physical g.op)).map (Instr.rename (dat n t) (0 + ·)) := by
  obtain ⟨op, cs, ts, cls⟩ := g
  subst hg
  rfl

theorem ctrlBlock_eq (n : ℕ) {g : Gate} {i : ℕ} {pol : Bool} (hg : g.controls = [(i, pol)]) (t : ℕ) :
    (List.range 9).flatMap (copyGate n g t) = (ctrlBlock (physical g.op) pol).map (Instr.rename (loc2 n i t) (0 + ·)) := by
  obtain ⟨op, cs, ts, cls⟩ := g
  subst hg
  rfl

theorem plain_local (p : Op) : ∀ i ∈ plainBlock p, i.Local 9 := fun i hi => by
  obtain ⟨j, hj, rfl⟩ := List.mem_map.1 hi
  exact ⟨List.mem_range.1 hj, by simp⟩

theorem ctrl_local (p : Op) (pol : Bool) : ∀ i ∈ ctrlBlock p pol, i.Local 18 := fun i hi => by
  obtain ⟨j, hj, hi⟩ := List.mem_flatMap.1 hi
  have hj := List.mem_range.1 hj
  simp only [List.mem_cons, List.not_mem_nil, or_false] at hi
  rcases hi with rfl | rfl | rfl
  · exact ⟨by omega, by simp⟩
  · exact ⟨by omega, by simp; omega⟩
  · exact ⟨by omega, by simp⟩

theorem flips_physical {op : Op} (h : op = .I ∨ op = .barrier ∨ op = .X ∨ op = .Y ∨ op = .Z) :
    (physical op = .Z ∨ physical op = .Y ∨ physical op = .X ∨ physical op = .I) ∧
    decide (physical op = .Z ∨ physical op = .Y) = flips? op := by
  rcases h with rfl | rfl | rfl | rfl | rfl <;> decide

/-- The values of group `b` after one target. -/
def after (g : Gate) (t : ℕ) (s : ℕ → ℕ → Bool) (i b : ℕ) : Bool := s i b ^^ (decide (i = t) && (flips? g.op && holds g.controls (s · b)))

theorem plain_run {n t : ℕ} (ht : t < n) {g : Gate} (hop : g.op = .I ∨ g.op = .barrier ∨ g.op = .X ∨ g.op = .Y ∨ g.op = .Z) (hg : g.controls = [])
    {s : ℕ → ℕ → Bool} {c c' : Config R} (h : Sec n s c.1) (hb : Branch k ((List.range 9).flatMap (copyGate n g t)) c c') :
    c'.1 = 0 ∨ Sec n (after g t s) c'.1 := by
  rw [plainBlock_eq n hg] at hb
  obtain ⟨hp, hf⟩ := flips_physical hop
  by_cases h0 : c'.1 = 0
  · exact .inl h0
  right
  intro i hi b hb3
  unfold after
  by_cases hit : i = t
  · subst hit
    obtain ⟨s', h1, h2⟩ := plain_track _ hp (s i b) b hb3
    rw [← run_instr (plainBlock _)] at hb
    have hS : (⟨[(xxx b, s i b)], []⟩ : TS).Sat (dat n i) 9 0 c := by
      refine ⟨?_, ?_, fun p hp => by cases hp⟩
      · intro f hf
        simp only [List.mem_cons, List.not_mem_nil, or_false] at hf
        subst hf
        exact xxx_within hb3
      · intro f hf
        simp only [List.mem_cons, List.not_mem_nil, or_false] at hf
        subst hf
        exact h i hi b hb3
    rcases track_sound k (dat_inj9 hi) h1 hS hb with h3 | h3
    · exact absurd h3 h0
    · have := h3.eig _ h2
      rw [hf] at this
      simpa [hg, holds] using this
  · simp only [hit, decide_false, Bool.false_and, Bool.xor_false]
    exact block_frame k (dat_inj9 ht) (plain_local _) (other_dat ht hi hit) hb (h i hi b hb3)

theorem loc2_control {n i t j : ℕ} (h : j < 9) : loc2 n i t j = dat n i j := if_pos h
theorem loc2_target {n i t j : ℕ} : loc2 n i t (9 + j) = dat n t j := by unfold loc2; rw [if_neg (by omega)]; congr 1; omega

theorem place_place (e d : ℕ → ℕ) (w : Word) : place e (place d w) = place (fun j => e (d j)) w := by
  unfold place
  rw [List.map_map]
  rfl

theorem eig_target {n i t b : ℕ} {v : Bool} {ψ : State R} : Eig (loc2 n i t) (xxxT b, v) ψ ↔ Eig (dat n t) (xxx b, v) ψ := by
  unfold Eig xxxT
  simp only
  rw [place_place]
  simp only [loc2_target]

theorem eig_control {n i t b : ℕ} (hb : b < 3) {v : Bool} {ψ : State R} : Eig (loc2 n i t) (xxx b, v) ψ ↔ Eig (dat n i) (xxx b, v) ψ :=
  ⟨eig_congr fun l hl => loc2_control (xxx_within hb l hl), eig_congr fun l hl => (loc2_control (xxx_within hb l hl)).symm⟩

theorem ctrl_run {n t i₀ : ℕ} {pol : Bool} (ht : t < n) (hi₀ : i₀ < n) (hne : i₀ ≠ t) {g : Gate} (hop : g.op = .X ∨ g.op = .Y)
    (hg : g.controls = [(i₀, pol)])
    {s : ℕ → ℕ → Bool} {c c' : Config R} (h : Sec n s c.1) (hb : Branch k ((List.range 9).flatMap (copyGate n g t)) c c') :
    c'.1 = 0 ∨ Sec n (after g t s) c'.1 := by
  rw [ctrlBlock_eq n hg] at hb
  have hp : physical g.op = .Z ∨ physical g.op = .Y := by rcases hop with h | h <;> simp [h, physical]
  have hf : flips? g.op = true := by rcases hop with h | h <;> simp [h, flips?]
  by_cases h0 : c'.1 = 0
  · exact .inl h0
  right
  have hb' := hb
  rw [show ctrlBlock (physical g.op) pol = ((ctrlBlock (physical g.op) pol).map Cmd.run ++ [Cmd.mul 1 0]).flatMap Cmd.instr by
    rw [List.flatMap_append, run_instr]; simp [Cmd.instr]] at hb'
  have key : ∀ b < 3, Eig (dat n i₀) (xxx b, s i₀ b) c'.1 ∧ Eig (dat n t) (xxx b, s t b ^^ (s i₀ b == pol)) c'.1 := by
    intro b hb3
    obtain ⟨s', h1, h2, h3⟩ := ctrl_track _ hp (s i₀ b) (s t b) pol b hb3
    have hS : (⟨[(xxx b, s i₀ b), (xxxT b, s t b)], []⟩ : TS).Sat (loc2 n i₀ t) 18 0 c := by
      refine ⟨?_, ?_, fun p hp => by cases hp⟩
      · intro f hf
        simp only [List.mem_cons, List.not_mem_nil, or_false] at hf
        rcases hf with rfl | rfl
        · exact fun l hl => lt_trans (xxx_within hb3 l hl) (by decide)
        · intro l hl
          obtain ⟨l', hl', rfl⟩ := List.mem_map.1 hl
          have := xxx_within hb3 l' hl'
          simp only
          omega
      · intro f hf
        simp only [List.mem_cons, List.not_mem_nil, or_false] at hf
        rcases hf with rfl | rfl
        · exact (eig_control hb3).2 (h i₀ hi₀ b hb3)
        · exact eig_target.2 (h t ht b hb3)
    rcases track_sound k (loc2_inj hi₀ ht hne) h1 hS hb' with h4 | h4
    · exact absurd h4 h0
    · exact ⟨(eig_control hb3).1 (h4.eig _ h2), eig_target.1 (h4.eig _ h3)⟩
  intro i hi b hb3
  unfold after
  by_cases hit : i = t
  · subst hit
    have := (key b hb3).2
    rw [hf, hg]
    simpa [holds] using this
  · simp only [hit, decide_false, Bool.false_and, Bool.xor_false]
    by_cases hic : i = i₀
    · subst hic
      exact (key b hb3).1
    · refine block_frame k (loc2_inj hi₀ ht hne) (ctrl_local _ _) ?_ hb (h i hi b hb3)
      intro l hl j _
      obtain ⟨l', hl', rfl⟩ := List.mem_map.1 hl
      unfold loc2
      split
      · exact fun e => hic (dat_inj hi hi₀ e).1
      · exact fun e => hit (dat_inj hi ht e).1

/-! ### Z and identity with any number of controls -/

/-- Hadamard gates on a list of qubits. -/
def hAll (k : Consts R) : List ℕ → State R → State R
  | [], ψ => ψ
  | q :: qs, ψ => hAll k qs (gateAct k .H [] q ψ)

theorem hAll_smul (qs : List ℕ) (u : R) (ψ : State R) : hAll k qs (u • ψ) = u • hAll k qs ψ := by
  induction qs generalizing ψ with
  | nil => rfl
  | cons q qs ih => unfold hAll; rw [gateAct_smul, ih]

theorem hAll_letter {qs : List ℕ} (hq : qs.Nodup) (b : Bool) (q : ℕ) (ψ : State R) :
    hAll k qs (actL (b, q) ψ) = actL (b ^^ decide (q ∈ qs), q) (hAll k qs ψ) := by
  induction qs generalizing ψ b with
  | nil => simp [hAll]
  | cons p qs ih =>
    obtain ⟨h1, h2⟩ := List.nodup_cons.1 hq
    unfold hAll
    rw [gateAct_nil, gateAct_nil]
    by_cases e : q = p
    · subst e
      rw [opAct_letter_H, ih h2]
      congr 2
      simp [h1]
    · rw [opAct_letter_other k .H e, ih h2]
      congr 2
      simp [e]

theorem branch_hAll {qs : List ℕ} {c c' : Config R} (hb : Branch k (qs.map h) c c') : c' = (hAll k qs c.1, c.2) := by
  induction qs generalizing c with
  | nil => exact hb
  | cons q qs ih =>
    obtain ⟨c₁, h1, h2⟩ := hb
    have h1 : c₁ = _ := h1
    subst h1
    exact ih h2

/-- The effect of the gates of one copy. -/
def copyFun (k : Consts R) (n : ℕ) (g : Gate) (t j : ℕ) (ψ : State R) : State R :=
  let qs := g.controls.map fun c => dat n c.1 j
  hAll k qs (gateAct k (physical g.op) (Q3.copyControls n j g.controls) (dat n t j) (hAll k qs ψ))

theorem branch_copy {n t j : ℕ} {g : Gate} {c c' : Config R} (hb : Branch k (copyGate n g t j) c c') : c' = (copyFun k n g t j c.1, c.2) := by
  have e1 : (g.controls.map fun c => h (dat n c.1 j)) = (g.controls.map fun c => dat n c.1 j).map h := by simp
  unfold copyGate at hb
  rw [e1, branch_append] at hb
  obtain ⟨c₂, h12, h3⟩ := hb
  rw [branch_append] at h12
  obtain ⟨c₁, h1, c₂', h2, h2'⟩ := h12
  have h2' : c₂ = c₂' := h2'
  subst h2'
  have h2 : c₂ = _ := h2
  have h1 := branch_hAll k h1
  have h3 := branch_hAll k h3
  subst h1 h2 h3
  rfl

theorem copyFun_smul (n : ℕ) (g : Gate) (t j : ℕ) (u : R) (ψ : State R) : copyFun k n g t j (u • ψ) = u • copyFun k n g t j ψ := by
  unfold copyFun
  simp only
  rw [hAll_smul, gateAct_smul, hAll_smul]

theorem copyFun_letter {n t j : ℕ} {g : Gate} (ht : t < n) (hg : ∀ c ∈ g.controls, c.1 < n ∧ c.1 ≠ t)
    (hnd : (g.controls.map Prod.fst).Nodup) (q : ℕ) (ψ : State R) (hop : q ≠ dat n t j ∨ physical g.op = .X ∨ physical g.op = .I) :
    copyFun k n g t j (actL (true, q) ψ) = actL (true, q) (copyFun k n g t j ψ) := by
  let qs := g.controls.map fun c => dat n c.1 j
  have hqs : qs.Nodup := by
    have : qs = (g.controls.map Prod.fst).map fun c => dat n c j := by simp [qs]
    rw [this]
    refine List.Nodup.map_on ?_ hnd
    intro a ha b hb e
    obtain ⟨a', ha', rfl⟩ := List.mem_map.1 ha
    obtain ⟨b', hb', rfl⟩ := List.mem_map.1 hb
    exact (dat_inj (hg a' ha').1 (hg b' hb').1 e).1
  have hmem : (Q3.copyControls n j g.controls).map Prod.fst = qs := by simp [Q3.copyControls, qs]
  have htq : dat n t j ∉ qs := fun hm => by
    obtain ⟨a, ha, e⟩ := List.mem_map.1 hm
    exact (hg a ha).2 (dat_inj (hg a ha).1 ht e).1
  show hAll k qs (gateAct k (physical g.op) (Q3.copyControls n j g.controls) (dat n t j) (hAll k qs (actL (true, q) ψ))) =
    actL (true, q) (hAll k qs (gateAct k (physical g.op) (Q3.copyControls n j g.controls) (dat n t j) (hAll k qs ψ)))
  rw [hAll_letter k hqs]
  have hc : conjL (physical g.op) (Q3.copyControls n j g.controls) (dat n t j) (true ^^ decide (q ∈ qs), q) =
      some (false, [(true ^^ decide (q ∈ qs), q)]) := by
    unfold conjL
    simp only [hmem]
    split
    · rename_i e
      have : q ∉ qs := by rw [e]; exact htq
      rw [if_pos (by rcases hop with e' | e' | e' <;> [exact absurd e e'; simp [e', commutes, this]; simp [e', commutes]])]
    · split
      · rename_i hq
        rw [if_neg (by simp [hq])]
      · rfl
  rw [conjL_sound k (by rw [hmem]; exact htq) hc, sgn_false, one_smul]
  show hAll k qs (actL _ _) = _
  rw [hAll_letter k hqs]
  cases decide (q ∈ qs) <;> rfl

theorem copies_letter {n t : ℕ} {g : Gate} (ht : t < n) (hg : ∀ c ∈ g.controls, c.1 < n ∧ c.1 ≠ t)
    (hnd : (g.controls.map Prod.fst).Nodup) (l : List ℕ) {c c' : Config R}
    (hb : Branch k (l.flatMap (copyGate n g t)) c c') {w : Word}
    (hw : ∀ l ∈ w, l.1 = true ∧ ((∀ j, l.2 ≠ dat n t j) ∨ physical g.op = .X ∨ physical g.op = .I)) {v : Bool} (h : act w c.1 = (sgn v : R) • c.1) :
    act w c'.1 = (sgn v : R) • c'.1 := by
  induction l generalizing c with
  | nil => cases hb; exact h
  | cons j l ih =>
    rw [List.flatMap_cons, branch_append] at hb
    obtain ⟨c₁, h1, h2⟩ := hb
    refine ih h2 ?_
    have h1 := branch_copy k h1
    subst h1
    have : ∀ w : Word, (∀ l ∈ w, l.1 = true ∧ ((∀ j, l.2 ≠ dat n t j) ∨ physical g.op = .X ∨ physical g.op = .I)) →
        ∀ ψ : State R, copyFun k n g t j (act w ψ) = act w (copyFun k n g t j ψ) := by
      intro w hw ψ
      induction w with
      | nil => rfl
      | cons a w ihw =>
        obtain ⟨a1, a2⟩ := a
        have h := hw (a1, a2) (by simp)
        have : a1 = true := h.1
        subst this
        show copyFun k n g t j (actL (true, a2) (act w ψ)) = actL (true, a2) (act w (copyFun k n g t j ψ))
        rw [copyFun_letter k ht hg hnd _ _ (h.2.imp (fun h => h j) id), ihw fun l hl => hw l (by simp [hl])]
    simp only
    rw [← this w hw, h, copyFun_smul]

/-- What is needed of a gate: X and Y have at most one control, the other operations distinct controls. -/
def Supported (g : Gate) : Prop :=
  g.controls.length ≤ 1 ∨ (g.op ≠ .X ∧ g.op ≠ .Y ∧ (g.controls.map Prod.fst).Nodup)

theorem gate_run {n t : ℕ} (ht : t < n) {g : Gate} (hop : g.op = .I ∨ g.op = .barrier ∨ g.op = .X ∨ g.op = .Y ∨ g.op = .Z)
    (hs : Supported g) (hg : ∀ c ∈ g.controls, c.1 < n ∧ c.1 ≠ t) {s : ℕ → ℕ → Bool} {c c' : Config R} (h : Sec n s c.1)
    (hb : Branch k ((List.range 9).flatMap (copyGate n g t)) c c') :
    c'.1 = 0 ∨ Sec n (after g t s) c'.1 := by
  have free : g.op ≠ .X → g.op ≠ .Y → (g.controls.map Prod.fst).Nodup → c'.1 = 0 ∨ Sec n (after g t s) c'.1 := by
    intro h1 h2 h3
    have hp : physical g.op = .X ∨ physical g.op = .I := by
      rcases hop with h | h | h | h | h
      · simp [h, physical]
      · simp [h, physical]
      · exact absurd h h1
      · exact absurd h h2
      · simp [h, physical]
    refine .inr fun i hi b hb3 => ?_
    have hf : flips? g.op = false := by simp [flips?, h1, h2]
    unfold after
    simp only [hf, Bool.false_and, Bool.and_false, Bool.xor_false]
    refine copies_letter k ht hg h3 _ hb ?_ (h i hi b hb3)
    intro l hl
    refine ⟨?_, .inr hp⟩
    obtain ⟨l', hl', rfl⟩ := List.mem_map.1 hl
    simp only [xxx, List.mem_cons, List.not_mem_nil, or_false] at hl'
    rcases hl' with rfl | rfl | rfl <;> rfl
  rcases hs with hs | ⟨h1, h2, h3⟩
  · rcases hcs : g.controls with _ | ⟨⟨i, pol⟩, _ | ⟨a, l⟩⟩
    · exact plain_run k ht hop hcs h hb
    · by_cases hXY : g.op = .X ∨ g.op = .Y
      · have := hg (i, pol) (by rw [hcs]; simp)
        exact ctrl_run k ht this.1 this.2 hXY hcs h hb
      · push Not at hXY
        exact free hXY.1 hXY.2 (by rw [hcs]; simp)
    · rw [hcs] at hs; simp at hs
  · exact free h1 h2 h3

theorem after_eq (g : Gate) (t : ℕ) (s : ℕ → Bits) (cl : Bits) :
    after g t (fun i b => s b i) = fun i b => (cstep (.gate g.op g.controls t) (s b, cl)).1 i := by
  funext i b
  unfold after
  simp only [cstep]
  have e : holds g.controls (fun i => s b i) = holds g.controls (s b) := rfl
  rw [e]
  cases hf : (flips? g.op && holds g.controls (s b))
  · simp
  · simp only [Bool.and_true, if_true]
    rw [flip_apply]

theorem op_run {n : ℕ} {g : Gate} (hop : g.op = .I ∨ g.op = .barrier ∨ g.op = .X ∨ g.op = .Y ∨ g.op = .Z)
    (hs : Supported g) (ts : List ℕ) (hts : ∀ t ∈ ts, t < n) (hg : ∀ c ∈ g.controls, c.1 < n ∧ c.1 ∉ ts) (cl : Bits)
    {s : ℕ → Bits} {c c' : Config R} (h : Sec n (fun i b => s b i) c.1)
    (hb : Branch k (ts.flatMap fun t => (List.range 9).flatMap (copyGate n g t)) c c') :
    c'.1 = 0 ∨ Sec n (fun i b => (crun (ts.map fun t => .gate g.op g.controls t) (s b, cl)).1 i) c'.1 := by
  induction ts generalizing s c with
  | nil => cases hb; exact .inr h
  | cons t ts ih =>
    rw [List.flatMap_cons, branch_append] at hb
    obtain ⟨c₁, h1, h2⟩ := hb
    rcases gate_run k (hts t (by simp)) hop hs (fun c hc => ⟨(hg c hc).1, fun e => (hg c hc).2 (by simp [e])⟩) h h1 with h3 | h3
    · exact .inl (branch_zero k h2 h3)
    · rw [after_eq g t s cl] at h3
      exact ih (fun t h => hts t (by simp [h])) (fun c hc => ⟨(hg c hc).1, fun e => (hg c hc).2 (by simp [e])⟩) h3 h2

theorem gates_bits {l : List Instr} (hl : ∀ i ∈ l, ∃ op cs t, i = Instr.gate op cs t) {c c' : Config R} (hb : Branch k l c c') : c'.2 = c.2 := by
  induction l generalizing c with
  | nil => cases hb; rfl
  | cons i l ih =>
    obtain ⟨c₁, h1, h2⟩ := hb
    obtain ⟨op, cs, t, rfl⟩ := hl i (by simp)
    have h1 : c₁ = _ := h1
    rw [ih (fun i hi => hl i (by simp [hi])) h2, h1]

theorem transversal_gates (n : ℕ) (g : Gate) : ∀ i ∈ transversal n g, ∃ op cs t, i = Instr.gate op cs t := fun i hi => by
  obtain ⟨t, -, hi⟩ := List.mem_flatMap.1 hi
  obtain ⟨j, -, hi⟩ := List.mem_flatMap.1 hi
  unfold copyGate at hi
  simp only [List.mem_append, List.mem_map, List.mem_cons, List.not_mem_nil, or_false] at hi
  rcases hi with (⟨c, -, rfl⟩ | rfl) | ⟨c, -, rfl⟩ <;> exact ⟨_, _, _, rfl⟩

theorem transversal_fine {n : ℕ} {g : Gate} (hts : ∀ t ∈ g.targets, t < n) (hg : ∀ c ∈ g.controls, c.1 < n ∧ c.1 ∉ g.targets) :
    ∀ i ∈ transversal n g, i.Fine := fun i hi => by
  obtain ⟨t, ht, hi⟩ := List.mem_flatMap.1 hi
  obtain ⟨j, -, hi⟩ := List.mem_flatMap.1 hi
  unfold copyGate at hi
  simp only [List.mem_append, List.mem_map, List.mem_cons, List.not_mem_nil, or_false] at hi
  rcases hi with (⟨c, -, rfl⟩ | rfl) | ⟨c, -, rfl⟩
  · simp [h, Instr.Fine]
  · intro hm
    simp only [Q3.copyControls, List.map_map, List.mem_map, Function.comp] at hm
    obtain ⟨c, hc, e⟩ := hm
    exact (hg c hc).2 (by rw [(dat_inj (hg c hc).1 (hts t ht) e).1]; exact ht)
  · simp [h, Instr.Fine]

/-! ## Noise -/

/-- An error that this scheme corrects in a period whose faulty group is `c`: X anywhere on the data qubits, Y and Z on group `c`. -/
def Correctable (n c : ℕ) (i : Instr) : Prop := ∃ op q j, i = .gate op [] (dat n q j) ∧ q < n ∧ j < 9 ∧
  (op = .X ∨ ((op = .Y ∨ op = .Z) ∧ j / 3 = c))

theorem error_track : ∀ op ∈ [Op.X, .Y, .Z], ∀ j < 9, ∀ b < 3, ∀ v : Bool,
    (match track 9 [.run (.gate op [] j)] ⟨[(xxx b, v)], []⟩ with
      | some s' => s'.facts.contains (xxx b, v ^^ decide (op ≠ .X ∧ j / 3 = b))
      | none => false) = true := by decide +kernel

theorem error_run {n c : ℕ} {i : Instr} (hi : Correctable n c i) {o : Bits} {s : ℕ → Bits} (hs : ∀ b < 3, b ≠ c → s b = o)
    {d d' : Config R} (h : Sec n (fun i b => s b i) d.1) (hb : Step k i d d') :
    d'.1 = 0 ∨ ∃ s' : ℕ → Bits, (∀ b < 3, b ≠ c → s' b = o) ∧ Sec n (fun i b => s' b i) d'.1 := by
  obtain ⟨op, q, j, rfl, hq, hj, hop⟩ := hi
  by_cases h0 : d'.1 = 0
  · exact .inl h0
  right
  refine ⟨fun b => if op ≠ .X ∧ j / 3 = b then flip (s b) q else s b, fun b hb hbc => ?_, fun i hi b hb3 => ?_⟩
  · show (if op ≠ .X ∧ j / 3 = b then flip (s b) q else s b) = o
    rw [if_neg]
    · exact hs b hb hbc
    · rintro ⟨h1, h2⟩
      rcases hop with hop | hop
      · exact h1 hop
      · exact hbc (h2 ▸ hop.2)
  · have hbr : Branch k ([Instr.gate op [] j].map (Instr.rename (dat n q) (0 + ·))) d d' := ⟨d', hb, rfl⟩
    by_cases hiq : i = q
    · subst hiq
      have key := error_track op (by rcases hop with rfl | ⟨rfl | rfl, -⟩ <;> simp) j hj b hb3 (s b i)
      split at key
      · rename_i s' h1
        have hS : (⟨[(xxx b, s b i)], []⟩ : TS).Sat (dat n i) 9 0 d := by
          refine ⟨?_, ?_, fun p hp => by cases hp⟩
          · intro f hf
            simp only [List.mem_cons, List.not_mem_nil, or_false] at hf
            subst hf
            exact xxx_within hb3
          · intro f hf
            simp only [List.mem_cons, List.not_mem_nil, or_false] at hf
            subst hf
            exact h i hi b hb3
        rcases track_sound k (dat_inj9 hi) h1 hS hbr with h3 | h3
        · exact absurd h3 h0
        · have := h3.eig _ (by simpa only [List.contains_iff_mem] using key)
          simp only
          by_cases hc : op ≠ .X ∧ j / 3 = b
          · rw [if_pos hc, flip_apply]
            simpa [hc] using this
          · rw [if_neg hc]
            rwa [decide_eq_false hc, Bool.xor_false] at this
      · cases key
    · have := block_frame k (dat_inj9 hq) (l := [.gate op [] j]) (by simp [Instr.Local, hj]) (other_dat hq hi hiq) hbr (h i hi b hb3)
      simp only
      split
      · rw [flip_other hiq]; exact this
      · exact this

theorem noise_run {n c : ℕ} {l : List Instr} (hl : ∀ i ∈ l, Correctable n c i) {o : Bits} {s : ℕ → Bits} (hs : ∀ b < 3, b ≠ c → s b = o)
    {d d' : Config R} (h : Sec n (fun i b => s b i) d.1) (hb : Branch k l d d') :
    d'.1 = 0 ∨ ∃ s' : ℕ → Bits, (∀ b < 3, b ≠ c → s' b = o) ∧ Sec n (fun i b => s' b i) d'.1 := by
  induction l generalizing d s with
  | nil => cases hb; exact .inr ⟨s, hs, h⟩
  | cons i l ih =>
    obtain ⟨d₁, h1, h2⟩ := hb
    rcases error_run k (hl i (by simp)) hs h h1 with h3 | ⟨s', h3, h4⟩
    · exact .inl (branch_zero k h2 h3)
    · exact ih (fun i hi => hl i (by simp [hi])) h3 h4 h2

/-! ## Measurement by the user -/

theorem measure_run {n m : ℕ} (ts cs : List ℕ) (hts : ∀ t ∈ ts, t < n) {o cl' : Bits} {c c' : Config R} (h : Dec n o c.1)
    (hb : ∀ b < m, c.2 b = cl' b) (hbr : Branch k (List.zipWith Instr.measure ts cs) c c') :
    c'.1 = 0 ∨ (Dec n o c'.1 ∧ ∀ b < m, c'.2 b = (crun (List.zipWith Instr.measure ts cs) (o, cl')).2 b) := by
  induction ts generalizing cs c cl' with
  | nil => cases hbr; exact .inr ⟨h, hb⟩
  | cons t ts ih =>
    cases cs with
    | nil => cases hbr; exact .inr ⟨h, hb⟩
    | cons b cs =>
      obtain ⟨c₁, ⟨v, rfl⟩, h2⟩ := hbr
      have ht := hts t (by simp)
      by_cases hv : v = o t
      · subst hv
        refine ih cs (fun t h => hts t (by simp [h])) (c := (project t (o t) c.1, Function.update c.2 b (o t))) ?_ (fun b' hb' => ?_) h2
        · intro i hi
          have fr : ∀ (q : ℕ) (v : Bool), Eig (dat n i) ([(false, q)], v) c.1 → Eig (dat n i) ([(false, q)], v) (project t (o t) c.1) := by
            intro q v hE
            unfold Eig at hE ⊢
            rw [← project_act k (by rfl), hE, project_smul]
          exact ⟨fr _ _ (h i hi).1, fr _ _ (h i hi).2.1, fr _ _ (h i hi).2.2⟩
        · show Function.update c.2 b (o t) b' = (cstep (.measure t b) (o, cl')).2 b'
          simp only [cstep]
          by_cases e : b' = b
          · subst e; simp
          · rw [Function.update_of_ne e, Function.update_of_ne e]; exact hb b' hb'
      · refine .inl (branch_zero k h2 ?_)
        funext x
        show (if x t = v then c.1 x else 0) = 0
        split
        · rename_i hx
          refine value_sound k (e := dat n t) (q := 0) (F := [([(false, 0)], o t)]) (v := o t) rfl ?_ x (by rw [show dat n t 0 = t by simp [dat], hx]; exact hv)
          intro f hf
          simp only [List.mem_cons, List.not_mem_nil, or_false] at hf
          subst hf
          exact (h t ht).1
        · rfl

/-! ## The invariant -/

/-- Encoded, with the value `o` on all groups but possibly group `c`. -/
def Enc (n c : ℕ) (o : Bits) (ψ : State R) : Prop := ∃ s : ℕ → Bits, (∀ b < 3, b ≠ c → s b = o) ∧ Sec n (fun i b => s b i) ψ

/-- The encoder `s`, after the original circuit has reached the classical state `o` from bits `cl₀`. -/
structure Inv (n m c : ℕ) (cl₀ : Bits) (s : St) (o : Bits × Bits) : Prop where
  fine : ∀ i ∈ s.out, i.Fine
  run : ∀ c' : Config R, Branch k s.out (ket (n * 9 + 8) fun _ => false, cl₀) c' → c'.1 = 0 ∨
    ((∀ b < m, c'.2 b = o.2 b) ∧ (s.isDecoded = false → Enc n c o.1 c'.1) ∧ (s.isDecoded = true → Dec n o.1 c'.1))

theorem fine_append {l l' : List Instr} (h : ∀ i ∈ l, i.Fine) (h' : ∀ i ∈ l', i.Fine) : ∀ i ∈ l ++ l', i.Fine := fun i hi =>
  (List.mem_append.1 hi).elim (h i) (h' i)

theorem fine_blocks {n : ℕ} {b : ℕ → List Instr} (h : ∀ i < n, ∀ x ∈ b i, x.Fine) : ∀ x ∈ blocks n b, x.Fine := fun x hx => by
  obtain ⟨i, hi, h'⟩ := List.mem_flatMap.1 hx
  exact h i (List.mem_range.1 hi) x h'

variable {k}

/-- Instructions appended. -/
theorem Inv.emit {n m c c₂ : ℕ} {cl₀ : Bits} {s s' : St} {o o' : Bits × Bits} (h : Inv k n m c cl₀ s o) {l : List Instr}
    (hs : s'.out = s.out ++ l) (hl : ∀ i ∈ l, i.Fine)
    (hr : ∀ d d' : Config R, (∀ b < m, d.2 b = o.2 b) → (s.isDecoded = false → Enc n c o.1 d.1) → (s.isDecoded = true → Dec n o.1 d.1) →
      Branch k l d d' → d'.1 = 0 ∨ ((∀ b < m, d'.2 b = o'.2 b) ∧ (s'.isDecoded = false → Enc n c₂ o'.1 d'.1) ∧
        (s'.isDecoded = true → Dec n o'.1 d'.1))) : Inv k n m c₂ cl₀ s' o' := by
  refine ⟨by rw [hs]; exact fine_append h.fine hl, fun c' hb => ?_⟩
  rw [hs, branch_append] at hb
  obtain ⟨d, h1, h2⟩ := hb
  rcases h.run d h1 with h3 | ⟨h3, h4, h5⟩
  · exact .inl (branch_zero k h2 h3)
  · exact hr d c' h3 h4 h5 h2

theorem majority_eq {n c : ℕ} {s : ℕ → Bits} {o : Bits} (hc : c < 3 ∨ 3 ≤ c) (hs : ∀ b < 3, b ≠ c → s b = o) (i : ℕ) :
    majority (s 0 i) (s 1 i) (s 2 i) = o i := by
  have g0 := hs 0 (by decide)
  have g1 := hs 1 (by decide)
  have g2 := hs 2 (by decide)
  rcases hc with hc | hc
  · have : c = 0 ∨ c = 1 ∨ c = 2 := by omega
    rcases this with rfl | rfl | rfl
    · rw [g1 (by decide), g2 (by decide)]; cases o i <;> simp [majority]
    · rw [g0 (by decide), g2 (by decide)]; cases o i <;> simp [majority]
    · rw [g0 (by decide), g1 (by decide)]; cases o i <;> simp [majority]
  · rw [g0 (by omega), g1 (by omega), g2 (by omega)]; cases o i <;> simp [majority]

theorem Inv.correct {n m c : ℕ} {cl₀ : Bits} {s : St} {o : Bits × Bits} (h : Inv k n m c cl₀ s o) (c' : ℕ) :
    Inv k n m c' cl₀ (Q9.correct n m s) o := by
  unfold Q9.correct
  cases hd : s.isDecoded with
  | true =>
    refine ⟨h.fine, fun d hb => (h.run d hb).imp id fun h => ⟨h.1, fun e => ?_, h.2.2⟩⟩
    simp [hd] at e
  | false =>
    refine h.emit (l := blocks n fun i => correctBlock (dat n i) (fun j => n * 9 + j) m) rfl (fine_blocks fun i hi => ?_) ?_
    · rw [correctBlock_eq]
      exact block_fine (loc_inj hi) correct_local
    · intro d d' h1 h2 _ hb
      obtain ⟨sv, hs, hS⟩ := h2 hd
      obtain ⟨r1, r2⟩ := correct_run k hS hb
      refine r1.imp id fun r1 => ⟨fun b hb => (r2 b hb).trans (h1 b hb), fun _ => ⟨fun _ => o.1, fun _ _ _ => rfl, ?_⟩, fun e => ?_⟩
      · simpa only [majority_eq (n := n) (Nat.lt_or_ge c 3) hs] using r1.1
      · have : s.isDecoded = true := e
        simp [hd] at this

theorem Inv.decode {n m : ℕ} {cl₀ : Bits} {s : St} {o : Bits × Bits} (h : Inv k n m 3 cl₀ s o) (c' : ℕ) :
    Inv k n m c' cl₀ (Q9.decode n s) o ∧ (Q9.decode n s).isDecoded = true := by
  unfold Q9.decode
  cases hd : s.isDecoded with
  | true =>
    refine ⟨⟨h.fine, fun d hb => (h.run d hb).imp id fun h => ⟨h.1, fun e => ?_, h.2.2⟩⟩, hd⟩
    simp [hd] at e
  | false =>
    refine ⟨h.emit (l := blocks n fun i => decodeBlock (dat n i)) rfl (fine_blocks fun i hi => ?_) ?_, rfl⟩
    · rw [decodeBlock_eq n i 0]
      exact block_fine (dat_inj9 hi) decode_local
    · intro d d' h1 h2 _ hb
      obtain ⟨sv, hs, hS⟩ := h2 hd
      obtain ⟨r1, r2⟩ := decode_run k (m := m) (o := o.1) (fun i _ b hb => by rw [hs b hb (by omega)]) hS hb
      exact r1.imp id fun r1 => ⟨fun b hb => (r2 b hb).trans (h1 b hb), fun e => (by simp [St.decoded] at e), fun _ => r1⟩

theorem Inv.encode {n m : ℕ} {cl₀ : Bits} {s : St} {o : Bits × Bits} {c : ℕ} (h : Inv k n m c cl₀ s o) :
    Inv k n m c cl₀ (Q9.encode n s) o ∧ (Q9.encode n s).isDecoded = false := by
  unfold Q9.encode
  cases hd : s.isDecoded with
  | false => exact ⟨h, hd⟩
  | true =>
    refine ⟨h.emit (l := blocks n fun i => encodeBlock (dat n i)) rfl (fine_blocks fun i hi => ?_) ?_, rfl⟩
    · rw [encodeBlock_eq n i 0]
      exact block_fine (dat_inj9 hi) encode_local
    · intro d d' h1 _ h2 hb
      obtain ⟨r1, r2⟩ := encode_run k (m := m) (h2 hd) hb
      exact r1.imp id fun r1 => ⟨fun b hb => (r2 b hb).trans (h1 b hb), fun _ => ⟨fun _ => o.1, fun _ _ _ => rfl, r1⟩, fun e => by cases e⟩

theorem crun_gates_bits (op : Op) (cs : List (ℕ × Bool)) (ts : List ℕ) (c : Bits × Bits) :
    (crun (ts.map fun t => Instr.gate op cs t) c).2 = c.2 := by
  induction ts generalizing c with
  | nil => rfl
  | cons t ts ih => rw [List.map_cons, crun_cons, ih]; rfl

theorem Inv.op {n m c : ℕ} {cl₀ : Bits} {s : St} {o : Bits × Bits} (h : Inv k n m c cl₀ s o) (hd : s.isDecoded = false)
    {g : Gate} (hg : g.WF n m) (hop : g.op = .I ∨ g.op = .barrier ∨ g.op = .X ∨ g.op = .Y ∨ g.op = .Z) (hs : Supported g) :
    Inv k n m c cl₀ (s.emit (transversal n g)) (crun (g.targets.map fun t => .gate g.op g.controls t) o) := by
  refine h.emit (l := transversal n g) rfl (transversal_fine hg.1 hg.2.1) ?_
  intro d d' h1 h2 _ hb
  obtain ⟨sv, hsv, hS⟩ := h2 hd
  have r1 := op_run k hop hs g.targets hg.1 hg.2.1 o.2 hS hb
  have r2 := gates_bits k (transversal_gates n g) hb
  refine r1.imp id fun r1 => ⟨fun b hb => ?_, fun _ => ⟨fun b => (crun (g.targets.map fun t => .gate g.op g.controls t) (sv b, o.2)).1, fun b hb hbc => ?_, r1⟩, fun e => ?_⟩
  · rw [r2, crun_gates_bits]; exact h1 b hb
  · simp only
    rw [hsv b hb hbc]
  · have : s.isDecoded = true := e
    simp [hd] at this

theorem Inv.noise {n m c : ℕ} {cl₀ : Bits} {s : St} {o : Bits × Bits} (h : Inv k n m c cl₀ s o) (hd : s.isDecoded = false)
    {l : List Instr} (hl : ∀ i ∈ l, Correctable n c i) : Inv k n m c cl₀ (s.emit l) o := by
  have hgates : ∀ i ∈ l, ∃ op cs t, i = Instr.gate op cs t := fun i hi => by
    obtain ⟨op, q, j, rfl, -⟩ := hl i hi
    exact ⟨_, _, _, rfl⟩
  refine h.emit (l := l) rfl (fun i hi => ?_) ?_
  · obtain ⟨op, q, j, rfl, -⟩ := hl i hi
    simp [Instr.Fine]
  · intro d d' h1 h2 _ hb
    obtain ⟨sv, hsv, hS⟩ := h2 hd
    refine (noise_run k hl hsv hS hb).imp id fun r1 => ⟨fun b hb' => ?_, fun _ => r1, fun e => ?_⟩
    · rw [gates_bits k hgates hb]; exact h1 b hb'
    · have : s.isDecoded = true := e
      simp [hd] at this

theorem Inv.measure {n m c : ℕ} {cl₀ : Bits} {s : St} {o : Bits × Bits} (h : Inv k n m c cl₀ s o) (hd : s.isDecoded = true)
    {ts cs : List ℕ} (hts : ∀ t ∈ ts, t < n) :
    Inv k n m c cl₀ (s.emit (List.zipWith Instr.measure ts cs)) (crun (List.zipWith Instr.measure ts cs) o) := by
  have ho : (crun (List.zipWith Instr.measure ts cs) o).1 = o.1 :=
    (Q3.measure_run (n := n) (m := m) ts cs hts (o := o.1) (p := o.1) (cl := o.2) (cl' := o.2) (fun _ _ => rfl) fun _ _ => rfl).1
  refine h.emit (l := List.zipWith Instr.measure ts cs) rfl (fun i hi => ?_) ?_
  · obtain ⟨a, b, rfl⟩ : ∃ a b, i = Instr.measure a b := by
      clear h hts ho
      induction ts generalizing cs with
      | nil => cases hi
      | cons t ts ih =>
        cases cs with
        | nil => cases hi
        | cons b cs =>
          rcases List.mem_cons.1 hi with rfl | hi
          · exact ⟨_, _, rfl⟩
          · exact ih hi
    trivial
  · intro d d' h1 _ h2 hb
    refine (measure_run k ts cs hts (h2 hd) h1 hb).imp id fun r => ⟨r.2, fun e => ?_, fun _ => ?_⟩
    · have : s.isDecoded = false := e
      simp [hd] at this
    · rw [ho]; exact r.1

theorem Inv.mapGate {n m c : ℕ} {cl₀ : Bits} {s s' : St} {o : Bits × Bits} (h : Inv k n m c cl₀ s o) {g : Gate} (hg : g.WF n m)
    (hs : Supported g) (he : mapGate n (Q9.correct n m) g s = .ok s') :
    Inv k n m c cl₀ s' (crun g.instrs o) ∧ (∀ i ∈ g.instrs, i.WF n m ∧ i.Classical) := by
  have hplain : g.op ≠ .measure → g.op ≠ .H → Inv k n m c cl₀ (if s.isDecoded && g.op ≠ .measure && g.op ≠ .H then Q9.encode n s else s) o ∧
      (if s.isDecoded && g.op ≠ .measure && g.op ≠ .H then Q9.encode n s else s).isDecoded = false := by
    intro h1 h2
    cases hd : s.isDecoded with
    | true => rw [if_pos (by simp [h1, h2])]; exact h.encode
    | false => exact ⟨h, hd⟩
  have gateWF : g.op ≠ .H → ∀ i ∈ g.targets.map fun t => Instr.gate g.op g.controls t, i.WF n m ∧ i.Classical := by
    intro hop i hi
    obtain ⟨t, ht, rfl⟩ := List.mem_map.1 hi
    exact ⟨⟨hg.1 t ht, fun c hc => ⟨(hg.2.1 c hc).1, fun e => (hg.2.1 c hc).2 (e ▸ ht)⟩⟩, hop⟩
  unfold Q9.mapGate at he
  cases hop : g.op with
  | I | barrier =>
    have := hplain (by simp [hop]) (by simp [hop])
    have key := this.1.op this.2 hg (by simp [hop]) hs
    have e : g.instrs = [] := by simp [Gate.instrs, hop]
    have e2 : ∀ (ts : List ℕ) (o : Bits × Bits), crun (ts.map fun t => Instr.gate g.op g.controls t) o = o := by
      intro ts
      induction ts with
      | nil => intro o; rfl
      | cons t ts ih => intro o; rw [List.map_cons, crun_cons, ih]; simp [cstep, hop, flips?]
    rw [e2] at key
    rw [hop] at he key
    simp only at he
    cases he
    rw [e]
    exact ⟨key, fun i hi => by cases hi⟩
  | X | Y | Z =>
    have e : g.instrs = g.targets.map fun t => Instr.gate g.op g.controls t := by simp [Gate.instrs, hop]
    have hH : g.op ≠ .H := by simp [hop]
    have := hplain (by simp [hop]) hH
    rw [e]
    refine ⟨?_, gateWF hH⟩
    have key := this.1.op this.2 hg (by simp [hop]) hs
    rw [hop] at he key
    simp only at he
    cases he
    rw [hop]
    exact key
  | measure =>
    rw [hop] at he
    simp only [ne_eq, not_true_eq_false, decide_false, Bool.and_false, Bool.false_and] at he
    have e : g.instrs = List.zipWith Instr.measure g.targets g.classics := by simp [Gate.instrs, hop]
    rw [e]
    have hl : g.classics.length ≤ g.targets.length := le_of_eq (hg.2.2.2 hop)
    unfold userMeasure at he
    rw [if_pos hl] at he
    have he := Except.ok.inj he
    have hm : Inv k n m c cl₀ (beforeMeasure (Q9.correct n m) (Q9.decode n) s) o ∧
        (beforeMeasure (Q9.correct n m) (Q9.decode n) s).isDecoded = true := by
      unfold beforeMeasure
      cases hd : s.isDecoded with
      | true => exact ⟨h, hd⟩
      | false => exact (h.correct 3).decode c
    rw [← he]
    refine ⟨hm.1.measure hm.2 hg.1, fun i hi => ?_⟩
    have : ∀ (ts cs : List ℕ), (∀ t ∈ ts, t < n) → (∀ c ∈ cs, c < m) → ∀ i ∈ List.zipWith Instr.measure ts cs, i.WF n m ∧ i.Classical := by
      intro ts
      induction ts with
      | nil => intro cs _ _ i hi; cases hi
      | cons t ts ih =>
        intro cs h1 h2 i hi
        cases cs with
        | nil => cases hi
        | cons c cs =>
          rcases List.mem_cons.1 hi with rfl | hi
          · exact ⟨⟨h1 t (by simp), h2 c (by simp)⟩, trivial⟩
          · exact ih cs (fun t h => h1 t (by simp [h])) (fun c h => h2 c (by simp [h])) i hi
    exact this _ _ hg.1 hg.2.2.1 i hi
  | H | S | Sdg | T | Tdg | other => rw [hop] at he; cases he

end Q9

/-! ## The whole circuit -/

theorem q9_loop {n m freq : ℕ} {c : ℕ → ℕ} {noise : ℕ → List Instr}
    (hn : ∀ g, ∀ i ∈ noise g, Q9.Correctable n (c (g / freq)) i) {cl₀ : Bits} :
    ∀ (gates : List Gate) (j : ℕ) (s : St) (p' : ℕ × St) (o : Bits × Bits), (∀ g ∈ gates, g.WF n m ∧ Q9.Supported g) →
      Q9.Inv k n m (c (j / freq)) cl₀ s o →
      loop (σ := ℕ × St)
        (fun g p => ((q9Shor n m).mapGate g p.2).map fun st => (p.1 + 1, if st.isDecoded then st else st.emit (noise p.1)))
        (fun p => (p.1, (q9Shor n m).measureAndCorrect p.2)) freq j gates (j, s) = .ok p' →
      (∃ c', Q9.Inv k n m c' cl₀ p'.2 (crun (gates.flatMap Gate.instrs) o)) ∧
        ∀ i ∈ gates.flatMap Gate.instrs, i.WF n m ∧ i.Classical
  | [], j, s, p', o, _, h, he => by
    cases he
    exact ⟨⟨_, h⟩, fun i hi => by cases hi⟩
  | g :: gates, j, s, p', o, hg, h, he => by
    unfold loop at he
    simp only at he
    cases hm : (q9Shor n m).mapGate g s with
    | error e => rw [hm] at he; cases he
    | ok s' =>
      rw [hm] at he
      simp only [Except.map] at he
      obtain ⟨h1, h2⟩ := h.mapGate (hg g (by simp)).1 (hg g (by simp)).2 hm
      have h3 : Q9.Inv k n m (c (j / freq)) cl₀ (if s'.isDecoded then s' else s'.emit (noise j)) (crun g.instrs o) := by
        cases hd : s'.isDecoded with
        | true => exact h1
        | false => exact h1.noise hd (hn j)
      have h4 : ∃ s'', periodic (fun p : ℕ × St => (p.1, (q9Shor n m).measureAndCorrect p.2)) freq (j + 1)
          (j + 1, if s'.isDecoded then s' else s'.emit (noise j)) = (j + 1, s'') ∧
          Q9.Inv k n m (c ((j + 1) / freq)) cl₀ s'' (crun g.instrs o) := by
        unfold periodic
        split
        · exact ⟨_, rfl, h3.correct _⟩
        · rename_i hp
          rw [period_step hp]
          exact ⟨_, rfl, h3⟩
      obtain ⟨s'', e, h5⟩ := h4
      rw [e] at he
      obtain ⟨h6, h7⟩ := q9_loop hn gates (j + 1) s'' p' _ (fun g h => hg g (by simp [h])) h5 he
      rw [List.flatMap_cons, crun_append]
      exact ⟨h6, fun i hi => (List.mem_append.1 hi).elim (h2 i) (h7 i)⟩

theorem fine_expand {l : List Instr} (h : ∀ i ∈ l, i.Fine) : expand l = l := expand_id fun g hg => h _ hg

/-- **C100**, Q9Shor with noise: for circuits whose X and Y operations have at most one control.  Between two corrections bit
flips (X) may hit any data qubits any number of times, and phase flips (Y, Z) any qubits of one of the three groups of every
logical qubit; every outcome of the syndrome measurements is covered.  The results are those of the original circuit, for
every circuit the encoder accepts, every number of qubits and bits, every correction frequency.
What is missing: X or Y with two or more controls (the claim fails there: `C100_violated_q9`). -/
theorem C100_q9_noisy_partial [Nontrivial R] (n m freq : ℕ) (gates : List Gate) (hg : ∀ g ∈ gates, g.WF n m)
    (hc : ∀ g ∈ gates, g.controls.length ≤ 1 ∨ (g.op ≠ .X ∧ g.op ≠ .Y ∧ (g.controls.map Prod.fst).Nodup)) (noise : ℕ → List Instr)
    (group : ℕ → ℕ) (hnoise : ∀ g, ∀ i ∈ noise g, ∃ op q j, i = .gate op [] (dat n q j) ∧ q < n ∧ j < 9 ∧
      (op = .X ∨ ((op = .Y ∨ op = .Z) ∧ j / 3 = group (g / freq)))) (l : List Instr)
    (hl : (q9Shor n m).applyNoisy freq noise gates = .ok l) :
    SameResults R k n m gates ((q9Shor n m).outputQubits n) l := by
  intro cl
  unfold Scheme.applyNoisy at hl
  cases hlo : loop (σ := ℕ × St)
    (fun g p => ((q9Shor n m).mapGate g p.2).map fun st => (p.1 + 1, if st.isDecoded then st else st.emit (noise p.1)))
    (fun p => (p.1, (q9Shor n m).measureAndCorrect p.2)) freq 0 gates (0, ((q9Shor n m).writeEncoding {}).decoded false) with
  | error e => rw [hlo] at hl; cases hl
  | ok p' =>
    rw [hlo] at hl
    have hl := Except.ok.inj hl
    have hstart : Q9.Inv k n m (group (0 / freq)) cl {} (fun _ => false, cl) := by
      refine ⟨fun i hi => (by cases hi), fun c' hb => ?_⟩
      cases hb
      refine .inr ⟨fun _ _ => rfl, fun e => (by cases e), fun _ i hi => ?_⟩
      have key : ∀ j < 9, Eig (dat n i) ([(false, j)], false) (ket (n * 9 + 8) fun _ => false : State R) := by
        intro j hj
        unfold Eig
        rw [sgn_false, one_smul]
        funext x
        show sgn (x (dat n i j)) * ket _ _ x = ket _ _ x
        by_cases hx : Agree (n * 9 + 8) x fun _ => false
        · rw [hx _ (by have := dat_lt (r := 9) hi hj; omega), sgn_false, one_mul]
        · rw [ket_not hx, mul_zero]
      exact ⟨key 0 (by decide), key 3 (by decide), key 6 (by decide)⟩
    have h0 : Q9.Inv k n m (group (0 / freq)) cl (((q9Shor n m).writeEncoding {}).decoded false) (fun _ => false, cl) := hstart.encode.1
    obtain ⟨⟨c', hi⟩, hw⟩ := q9_loop k hnoise (cl₀ := cl) gates 0 _ p' (fun _ => false, cl) (fun g h => ⟨hg g h, hc g h⟩) h0 hlo
    have hfin : ∃ c'' o', Q9.Inv k n m c'' cl ((q9Shor n m).finish p'.2) (o', (crun (gates.flatMap Gate.instrs) (fun _ => false, cl)).2) := by
      unfold Scheme.finish
      cases hd : p'.2.isDecoded with
      | true => exact ⟨c', _, hi⟩
      | false =>
        have h2 := ((hi.correct 3).decode 3)
        refine ⟨3, _, ⟨h2.1.fine, fun d hb => (h2.1.run d hb).imp id fun h => ⟨h.1, fun e => (by simp [St.decoded] at e), fun _ => h.2.2 h2.2⟩⟩⟩
    obtain ⟨c'', o', hf⟩ := hfin
    have hl : ((q9Shor n m).finish p'.2).out = l := hl
    have hN : (q9Shor n m).outputQubits n = n * 9 + 8 := rfl
    obtain ⟨o1, o2⟩ := classical_result k hw cl
    have hor := fun r => mapped_original k (n := n) (expand_id fun g hg => (hw _ hg).2) cl r
    rw [hor] at o1
    simp only [hor] at o2
    have hfine : ∀ i ∈ l, i.Fine := hl ▸ hf.fine
    refine ⟨⟨_, o1⟩, ?_, fun r r' hr hr' b hb => ?_⟩
    · obtain ⟨d, h1, h2⟩ := branch_exists k hfine (c := (ket (n * 9 + 8) fun _ => false, cl)) (by
        have := ket_ne_zero (R := R) (n * 9 + 8) (fun _ => false) 1 (one_pow 8)
        rwa [one_smul] at this)
      exact ⟨d.2, d, by rw [fine_expand hfine]; exact h1, h2, rfl⟩
    · obtain ⟨d, h1, h2, rfl⟩ := hr'
      rw [fine_expand hfine, ← hl] at h1
      rcases hf.run d h1 with h3 | h3
      · exact absurd h3 h2
      · rw [o2 r hr, h3.1 b hb]

/-- **C100**, Q9Shor without noise. -/
theorem C100_q9_partial [Nontrivial R] (n m freq : ℕ) (gates : List Gate) (hg : ∀ g ∈ gates, g.WF n m)
    (hc : ∀ g ∈ gates, g.controls.length ≤ 1 ∨ (g.op ≠ .X ∧ g.op ≠ .Y ∧ (g.controls.map Prod.fst).Nodup)) (l : List Instr)
    (hl : (q9Shor n m).apply freq gates = .ok l) : SameResults R k n m gates ((q9Shor n m).outputQubits n) l :=
  C100_q9_noisy_partial k n m freq gates hg hc (fun _ => []) (fun _ => 0)
    (fun _ i hi => by cases hi) l (by rw [applyNoisy_nil]; exact hl)

/-- A circuit with a controlled operation, a measurement in the middle and gates after it; one correction after every two gates
and noise on changing groups. -/
def c100Gates9 : List Gate :=
  [{ op := .X, targets := [0] }, { op := .X, controls := [(0, true)], targets := [1, 2] },
   { op := .Z, controls := [(0, true), (1, false)], targets := [2] },
   { op := .measure, targets := [2], classics := [0] },
   { op := .Y, controls := [(2, false)], targets := [1] }, { op := .Y, controls := [(2, true)], targets := [0] },
   { op := .measure, targets := [0, 1], classics := [1, 2] }]

def c100Noise9 (g : ℕ) : List Instr := if g = 1 then [.gate .X [] 1, .gate .Y [] 2, .gate .X [] 20] else if g = 4 then [.gate .Z [] 24] else []

example [Nontrivial R] : ∃ l, (q9Shor 3 3).applyNoisy 2 c100Noise9 c100Gates9 = .ok l ∧
    SameResults R k 3 3 c100Gates9 ((q9Shor 3 3).outputQubits 3) l := by
  refine ⟨_, rfl, C100_q9_noisy_partial k 3 3 2 c100Gates9 ?_ ?_ c100Noise9 (fun p => if p = 2 then 2 else 0) ?_ _ rfl⟩
  · intro g hg
    simp only [c100Gates9, List.mem_cons, List.not_mem_nil, or_false] at hg
    rcases hg with rfl | rfl | rfl | rfl | rfl | rfl | rfl <;> simp [Gate.WF]
  · unfold c100Gates9
    decide
  · intro g
    unfold c100Noise9
    split
    · rename_i h
      subst h
      intro i hi
      simp only [List.mem_cons, List.not_mem_nil, or_false] at hi
      rcases hi with rfl | rfl | rfl
      · exact ⟨_, 1, 0, rfl, by decide⟩
      · exact ⟨_, 2, 0, rfl, by decide⟩
      · exact ⟨_, 2, 6, rfl, by decide⟩
    · split
      · rename_i h
        subst h
        intro i hi
        simp only [List.mem_cons, List.not_mem_nil, or_false] at hi
        subst hi
        exact ⟨_, 0, 8, rfl, by decide⟩
      · simp

/-- The result of that circuit. -/
example : ∀ b < 3, (crun (c100Gates9.flatMap Gate.instrs) (fun _ => false, fun _ => false)).2 b = ([true, false, true].getD b false) := by
  decide

end Verif.Ecc
