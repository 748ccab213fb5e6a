import Verif.Props.Analog

/-! # C77, C78: quasi-single-shot samples and the decoder object -/

namespace Verif.Analog
open Verif

variable {m n : ℕ}

theorem calls_measure {R : ℕ} (H : Mat m n) (q : QState m n R) (r : Round m n) (b : Bool) : (measure H q r b).calls = q.calls := rfl
theorem cnt_measure {R : ℕ} (H : Mat m n) (q : QState m n R) (r : Round m n) (b : Bool) : (measure H q r b).cnt = q.cnt + 1 := rfl

/-- A step of the loop that fills the window in the middle of the sample. -/
theorem fullWindow_mid (T : ℕ) (H : Mat m n) (dec : Bool → Vec (2 * T * m) → Vec (2 * T * n + 2 * T * m))
    (q : QState m n (2 * T)) :
    ∃ q', fullWindow H dec q false = .ok q' ∧ q'.cnt = T ∧ q'.calls = q.calls ++ [false] ∧
      (∀ i (r : Fin (2 * T)), T ≤ r.val → q'.mat i r = 0) := by
  obtain ⟨S', h1, -, h3⟩ := C40_move T (decodeMultiround H (dec false) q.mat false).2
  refine ⟨⟨q.err + (decodeMultiround H (dec false) q.mat false).1, S', 2 * T / 2, q.calls ++ [false]⟩, ?_, ?_, rfl, h3⟩
  · unfold fullWindow
    rw [if_neg (by simp), h1]
    rfl
  · simp

theorem loop_calls (T : ℕ) (hT : 0 < T) (H : Mat m n) (dec : Bool → Vec (2 * T * m) → Vec (2 * T * n + 2 * T * m)) :
    ∀ (rs : List (Round m n)) (q : QState m n (2 * T)), q.cnt < 2 * T →
      ∃ q', qssLoop H true dec rs q = .ok q' ∧
        ((∃ k, q.cnt + rs.length = (k + 2) * T ∧ rs ≠ [] ∧ q'.calls = q.calls ++ List.replicate k false ++ [true]) ∨
         (∃ k, (rs = [] ∨ ¬ (2 * T ≤ q.cnt + rs.length ∧ T ∣ q.cnt + rs.length)) ∧ q'.calls = q.calls ++ List.replicate k false)) := by
  intro rs
  induction rs with
  | nil => intro q _; exact ⟨q, rfl, .inr ⟨0, .inl rfl, by simp⟩⟩
  | cons r rs ih =>
    intro q hq
    rw [qssLoop, if_neg (by omega)]
    by_cases hc : (measure H q r rs.isEmpty).cnt = 2 * T
    · rw [if_pos hc, if_pos rfl]
      rw [cnt_measure] at hc
      cases rs with
      | nil =>
        refine ⟨_, rfl, .inl ⟨0, by simp; omega, by simp, ?_⟩⟩
        simp [calls_measure]
      | cons r2 rs2 =>
        obtain ⟨q1, h1, h2, h3, -⟩ := fullWindow_mid T H dec (measure H q r false)
        obtain ⟨q', h4, h5⟩ := ih q1 (by omega)
        refine ⟨q', ?_, ?_⟩
        · change ((fullWindow H dec (measure H q r false) false).bind _) = _
          rw [h1]; exact h4
        · rw [h2, h3, calls_measure] at h5
          rcases h5 with ⟨k, e1, -, e2⟩ | ⟨k, e1, e2⟩
          · refine .inl ⟨k + 1, ?_, by simp, ?_⟩
            · simp only [List.length_cons] at e1 ⊢
              have : (k + 1 + 2) * T = (k + 2) * T + T := by ring
              omega
            · rw [e2]; simp [List.replicate_succ]
          · refine .inr ⟨k + 1, .inr ?_, ?_⟩
            · rintro ⟨h6, h7⟩
              rcases e1 with e1 | e1
              · simp at e1
              · apply e1
                have hd : T ∣ T + (r2 :: rs2).length := by
                  have e : q.cnt + (r :: r2 :: rs2).length = T + (T + (r2 :: rs2).length) := by
                    simp only [List.length_cons]; omega
                  rw [e] at h7
                  exact (Nat.dvd_add_right (Nat.dvd_refl T)).1 h7
                refine ⟨?_, hd⟩
                have h8 : T ∣ (r2 :: rs2).length := (Nat.dvd_add_right (Nat.dvd_refl T)).1 hd
                have := Nat.le_of_dvd (by simp) h8
                omega
            · rw [e2]; simp [List.replicate_succ]
    · rw [if_neg hc]
      rw [cnt_measure] at hc
      obtain ⟨q', h4, h5⟩ := ih (measure H q r rs.isEmpty) (by rw [cnt_measure]; omega)
      refine ⟨q', h4, ?_⟩
      rw [cnt_measure, calls_measure] at h5
      rcases h5 with ⟨k, e1, e3, e2⟩ | ⟨k, e1, e2⟩
      · exact .inl ⟨k, by simp only [List.length_cons]; omega, by simp, e2⟩
      · refine .inr ⟨k, .inr ?_, e2⟩
        rintro ⟨h6, h7⟩
        rcases e1 with e1 | e1
        · subst e1; simp at h6; omega
        · apply e1
          have e : q.cnt + (r :: rs).length = q.cnt + 1 + rs.length := by simp only [List.length_cons]; omega
          rw [e] at h6 h7
          exact ⟨h6, h7⟩

/-- The full claim: every sample with at least one round ends with a decoding that includes the perfect last round. -/
def C77_claim : Prop :=
  ∀ (m n T : ℕ) (H : Mat m n) (analog : Bool) (dec : Bool → Vec (2 * T * m) → Vec (2 * T * n + 2 * T * m))
    (rounds : List (Round m n)), 0 < T → rounds ≠ [] →
    ∃ q, qssSample (R := 2 * T) H analog dec rounds = .ok q ∧ true ∈ q.calls

/-- **C77**, exact: with analog decoding a sample of a window of `2 * T` rounds ends with the final decoding exactly
when the number of rounds is a multiple of `T` and at least `2 * T`; then there are `rounds / T - 2` commits before. -/
theorem C77_final_decoding_partial (T : ℕ) (hT : 0 < T) (H : Mat m n)
    (dec : Bool → Vec (2 * T * m) → Vec (2 * T * n + 2 * T * m)) (rounds : List (Round m n)) :
    ∃ q, qssSample (R := 2 * T) H true dec rounds = .ok q ∧
      (true ∈ q.calls ↔ 2 * T ≤ rounds.length ∧ T ∣ rounds.length) ∧
      ∀ k, rounds.length = (k + 2) * T → q.calls = List.replicate k false ++ [true] := by
  obtain ⟨q, h1, h2⟩ := loop_calls T hT H dec rounds ⟨0, 0, 0, []⟩ (by simp only; omega)
  refine ⟨q, by unfold qssSample; rw [if_neg (by omega)]; exact h1, ?_, ?_⟩
  · rcases h2 with ⟨k, e1, -, e2⟩ | ⟨k, e1, e2⟩
    · simp only [Nat.zero_add, List.nil_append] at e1 e2
      rw [e2]
      refine ⟨fun _ => ⟨?_, ?_⟩, fun _ => by simp⟩
      · rw [e1]; exact Nat.mul_le_mul_right T (by omega)
      · rw [e1]; exact Nat.dvd_mul_left T _
    · simp only [Nat.zero_add, List.nil_append] at e1 e2
      rw [e2]
      constructor
      · intro h; simp at h
      · intro h
        rcases e1 with e1 | e1
        · subst e1; simp at h; omega
        · exact absurd h e1
  · intro k hk
    rcases h2 with ⟨j, e1, -, e2⟩ | ⟨j, e1, e2⟩
    · simp only [Nat.zero_add, List.nil_append] at e1 e2
      rw [e1] at hk
      have : j = k := by have := Nat.eq_of_mul_eq_mul_right hT hk; omega
      rw [e2, this]
    · exfalso
      simp only [Nat.zero_add] at e1
      rcases e1 with e1 | e1
      · subst e1
        simp only [List.length_nil] at hk
        have : 0 < (k + 2) * T := Nat.mul_pos (by omega) hT
        omega
      · apply e1
        rw [hk]
        exact ⟨Nat.mul_le_mul_right T (by omega), Nat.dvd_mul_left T _⟩

/-- Without analog information the sample raises as soon as the first window is full. -/
theorem C77_not_analog (T : ℕ) (hT : 0 < T) (H : Mat m n) (dec : Bool → Vec (2 * T * m) → Vec (2 * T * n + 2 * T * m))
    (rounds : List (Round m n)) (h : 2 * T ≤ rounds.length) :
    qssSample (R := 2 * T) H false dec rounds = .error .unbound := by
  have key : ∀ (rs : List (Round m n)) (q : QState m n (2 * T)), q.cnt < 2 * T → 2 * T ≤ q.cnt + rs.length →
      qssLoop H false dec rs q = .error .unbound := by
    intro rs
    induction rs with
    | nil => intro q h1 h2; simp at h2; omega
    | cons r rs ih =>
      intro q h1 h2
      rw [qssLoop, if_neg (by omega)]
      by_cases hc : (measure H q r rs.isEmpty).cnt = 2 * T
      · rw [if_pos hc]; rfl
      · rw [if_neg hc]
        rw [cnt_measure] at hc
        apply ih
        · rw [cnt_measure]; omega
        · rw [cnt_measure]; simp only [List.length_cons] at h2; omega
  unfold qssSample
  rw [if_neg (by omega)]
  exact key rounds _ (by simp only; omega) (by simp only; omega)

/-- **C77 is violated**: five rounds in windows of four: the last round is measured but never decoded. -/
theorem C77_violated : ¬ C77_claim := by
  intro h
  obtain ⟨q, h1, h2⟩ := h 1 1 2 (fun _ _ => 1) true (fun _ => blameMeasurements 1 1 4)
    (List.replicate 5 ⟨0, 0⟩) (by omega) (by simp)
  obtain ⟨q', h3, h4, -⟩ := C77_final_decoding_partial 2 (by omega) (fun _ _ => 1 : Mat 1 1)
    (fun _ => blameMeasurements 1 1 4) (List.replicate 5 ⟨0, 0⟩)
  have e : q = q' := by
    have := h1.symm.trans h3
    simpa using this
  subst e
  have := (h4.1 h2).2
  simp at this

/-- and, in the same way, with the default `analog_tg = False` no sample with a full window returns. -/
theorem C77_violated_not_analog : ∃ (rounds : List (Round 1 1)), rounds ≠ [] ∧
    qssSample (R := 2) (fun _ _ => 1 : Mat 1 1) false (fun _ => blameMeasurements 1 1 2) rounds = .error .unbound :=
  ⟨List.replicate 2 ⟨0, 0⟩, by simp, C77_not_analog 1 (by omega) _ _ _ (by simp)⟩

/-! ## The final error has trivial syndrome -/

theorem addColumn_self {R : ℕ} (M : Mat m R) (c : ℕ) (s : Vec m) (i : Fin m) (r : Fin R) (h : r.val = c) (h0 : M i r = 0) :
    addColumn M c s i r = s i := by
  unfold addColumn; rw [if_pos h, h0, zero_add]

/-- The decoder used for the final window explains any window whose last column is the syndrome of some error, without
flips in the last round. -/
def FinalOk (H : Mat m n) (k : ℕ) (dec : Vec ((k + 1) * m) → Vec ((k + 1) * n + (k + 1) * m)) : Prop :=
  ∀ S : Mat m (k + 1), (∃ v, ∀ i, S i (Fin.last k) = apply H v i) →
    apply (buildMultiroundPcm H k) (dec (flattenF (diffSyndrome S))) = flattenF (diffSyndrome S) ∧
    ∀ i, timeCorrection (n := n) (dec (flattenF (diffSyndrome S))) i (Fin.last k) = 0

theorem final_window (H : Mat m n) (k : ℕ) (dec : Vec ((k + 1) * m) → Vec ((k + 1) * n + (k + 1) * m))
    (hd : FinalOk H k dec) (S : Mat m (k + 1)) (v : Vec n) (hv : ∀ i, S i (Fin.last k) = apply H v i) :
    apply H (v + (decodeMultiround H dec S true).1) = 0 := by
  obtain ⟨h1, h2⟩ := hd S ⟨v, hv⟩
  funext i
  have h3 := (C39_multiround H k S (fun r q => spaceCorrection (m := m) (dec (flattenF (diffSyndrome S))) q r)
    (fun r i => timeCorrection (n := n) (dec (flattenF (diffSyndrome S))) i r)).1 (by rw [pack_corrections]; exact h1)
    (Fin.last k) i
  simp only [h2 i, add_zero] at h3
  rw [apply_add, ← hv i, ← h3]
  simp only [decodeMultiround, if_pos, Pi.zero_apply]
  exact add_self_eq_zero' _

theorem loop_final (T : ℕ) (H : Mat m n) (k : ℕ) (hk : 2 * T = k + 1)
    (dec : Bool → Vec (2 * T * m) → Vec (2 * T * n + 2 * T * m))
    (hd : ∀ (S : Mat m (2 * T)) (v : Vec n), (∀ i (r : Fin (2 * T)), r.val = k → S i r = apply H v i) →
      apply H (v + (decodeMultiround H (dec true) S true).1) = 0) :
    ∀ (rs : List (Round m n)) (q q' : QState m n (2 * T)), (∀ i (r : Fin (2 * T)), q.cnt ≤ r.val → q.mat i r = 0) →
      true ∉ q.calls → qssLoop H true dec rs q = .ok q' → true ∈ q'.calls → apply H q'.err = 0 := by
  intro rs
  induction rs with
  | nil => intro q q' _ h2 h3 h4; cases h3; exact absurd h4 h2
  | cons r rs ih =>
    intro q q' h1 h2 h3 h4
    rw [qssLoop] at h3
    by_cases hle : 2 * T ≤ q.cnt
    · rw [if_pos hle] at h3; cases h3
    · rw [if_neg hle] at h3
      by_cases hc : (measure H q r rs.isEmpty).cnt = 2 * T
      · rw [if_pos hc, if_pos rfl] at h3
        rw [cnt_measure] at hc
        cases rs with
        | nil =>
          change Except.ok _ = _ at h3
          cases h3
          refine hd _ _ fun i c hcv => ?_
          change addColumn q.mat q.cnt (roundSyndrome H (q.err + r.dataErr) r true) i c = apply H (q.err + r.dataErr) i
          rw [addColumn_self _ _ _ _ _ (by omega) (h1 i c (by omega))]
          rfl
        | cons r2 rs2 =>
          obtain ⟨q1, e1, e2, e3, e4⟩ := fullWindow_mid T H dec (measure H q r false)
          change (fullWindow H dec (measure H q r false) false).bind _ = _ at h3
          rw [e1] at h3
          refine ih q1 q' ?_ ?_ h3 h4
          · rw [e2]; exact e4
          · rw [e3]; simpa [calls_measure] using h2
      · rw [if_neg hc] at h3
        refine ih _ q' ?_ (by rw [calls_measure]; exact h2) h3 h4
        intro i c hcv
        rw [cnt_measure] at hcv
        change addColumn q.mat q.cnt _ i c = 0
        unfold addColumn
        rw [if_neg (by omega)]
        exact h1 i c (by omega)

/-- **C77**: whenever the final decoding takes place, the error at the end of the sample has trivial syndrome (so that the
logical test is meaningful), whatever the data errors, the measurement flips and the earlier decodings were. -/
theorem C77_trivial_syndrome (T : ℕ) (H : Mat m n)
    (dec : Bool → Vec ((2 * T + 1 + 1) * m) → Vec ((2 * T + 1 + 1) * n + (2 * T + 1 + 1) * m))
    (hd : FinalOk H (2 * T + 1) (dec true)) (rounds : List (Round m n)) (q : QState m n (2 * T + 1 + 1))
    (h : qssSample H true dec rounds = .ok q) (hc : true ∈ q.calls) : apply H q.err = 0 := by
  unfold qssSample at h
  rw [if_neg (by omega)] at h
  refine loop_final (T + 1) H (2 * T + 1) (by omega) dec ?_ rounds _ q ?_ (by simp) h hc
  · intro S v hv
    exact final_window H (2 * T + 1) (dec true) hd S v fun i => hv i _ rfl
  · intro i r _; rfl

/-- A decoder for two rounds of the three-bit repetition code that meets the hypotheses: it blames the measurements of
round 0 and a data error in round 1. -/
def repDecoder : Vec (2 * 2) → Vec (2 * 3 + 2 * 2) := fun d =>
  pack ![0, ![d 0 + d 2, 0, d 1 + d 3]] ![![d 0, d 1], 0]

theorem repDecoder_ok : FinalOk (![![1, 1, 0], ![0, 1, 1]] : Mat 2 3) 1 repDecoder := by
  intro S _
  constructor
  · unfold repDecoder
    rw [C39_multiround]
    have key : ∀ a b c d : ZMod 2, ∀ r : Fin 2, ∀ i : Fin 2,
        apply (![![1, 1, 0], ![0, 1, 1]] : Mat 2 3) (accumulated (![0, ![a + (b - a), 0, c + (d - c)]] : Fin 2 → Vec 3) r.val) i +
          (![![a, c], 0] : Fin 2 → Vec 2) r i = (![![a, b], ![c, d]] : Mat 2 2) i r := by
      decide +kernel
    intro r i
    have := key (S 0 0) (S 0 1) (S 1 0) (S 1 1) r i
    refine Eq.trans ?_ (this.trans ?_)
    · rfl
    · fin_cases r <;> fin_cases i <;> rfl
  · intro i
    unfold repDecoder timeCorrection pack
    rw [Fin.append_right, divNat_pair, modNat_pair]
    rfl

section
attribute [local irreducible] qssSample apply repDecoder

example : ∃ q : QState 2 3 (2 * 0 + 1 + 1),
    qssSample (R := 2 * 0 + 1 + 1) (![![1, 1, 0], ![0, 1, 1]] : Mat 2 3) true (fun _ => repDecoder)
      [⟨![1, 0, 0], ![1, 1]⟩, ⟨![0, 1, 0], ![0, 1]⟩, ⟨![0, 0, 1], 0⟩] = .ok q ∧ true ∈ q.calls ∧
      apply (![![1, 1, 0], ![0, 1, 1]] : Mat 2 3) q.err = 0 := by
  obtain ⟨q, h1, h2, -⟩ := C77_final_decoding_partial 1 (by omega) (![![1, 1, 0], ![0, 1, 1]] : Mat 2 3)
    (fun _ => repDecoder) [⟨![1, 0, 0], ![1, 1]⟩, ⟨![0, 1, 0], ![0, 1]⟩, ⟨![0, 0, 1], 0⟩]
  have h3 : true ∈ q.calls := h2.2 (by simp)
  exact ⟨q, h1, h3, C77_trivial_syndrome 0 _ _ repDecoder_ok _ q h1 h3⟩

end

/-! ## C78: the decoder object remembers -/

/-- The full claim: the answer of `decode_multiround` is determined by its arguments and the decoder as it was set up,
whatever calls were made before. -/
def C78_claim : Prop :=
  ∀ (m n R : ℕ) (H : Mat m n) (ch : Fin (R * n + R * m) → ℚ) (b : Bposd (R * m) (R * n + R * m)) (S0 S : Mat m R)
    (l0 l : Bool), b.channel = ch →
    (decodeMultiroundObj H ch (decodeMultiroundObj H ch b S0 l0).2 S l).1 = (decodeMultiroundObj H ch b S l).1

/-- **C78**, what holds: a call for the last round never depends on earlier calls, and earlier calls which were not for the
last round have no effect. -/
theorem C78_history_partial {R : ℕ} (H : Mat m n) (ch : Fin (R * n + R * m) → ℚ) (b : Bposd (R * m) (R * n + R * m))
    (S0 S : Mat m R) (l0 l : Bool) (h : l0 = false ∨ l = true) :
    (decodeMultiroundObj H ch (decodeMultiroundObj H ch b S0 l0).2 S l).1 = (decodeMultiroundObj H ch b S l).1 := by
  rcases h with h | h
  · subst h; rfl
  · subst h; cases l0 <;> rfl

/-- A decoder for one bit and two rounds that prefers measurement flips unless the last round is said to be perfect. -/
def channelDecoder : (Fin 4 → ℚ) → Vec 2 → Vec 4 := fun ch s =>
  if ch 3 < 1 / 1000 then ![s 0, s 1, 0, 0] else ![0, 0, s 0, s 0 + s 1]

/-- Both answers explain the syndrome. -/
theorem channelDecoder_consistent (ch : Fin 4 → ℚ) : Consistent (fun _ _ => 1 : Mat 1 1) 1 (channelDecoder ch) := by
  have key : ∀ v : Vec 2, apply (buildMultiroundPcm (fun _ _ => 1 : Mat 1 1) 1) ![v 0, v 1, 0, 0] = v ∧
      apply (buildMultiroundPcm (fun _ _ => 1 : Mat 1 1) 1) ![0, 0, v 0, v 0 + v 1] = v := by decide +kernel
  intro S
  unfold channelDecoder
  split
  · exact (key _).1
  · exact (key _).2

/-- **C78 is violated**: after a call for a last round the object keeps the channel with a perfect last round, and the next
call commits another correction. -/
theorem C78_violated : ¬ C78_claim := by
  intro h
  have h1 := h 1 1 2 (fun _ _ => 1) (fun _ => 1 / 10) ⟨fun _ => 1 / 10, channelDecoder⟩ 0 (fun _ _ => 1) true false rfl
  have h2 := congrFun (congrArg Prod.fst h1) 0
  have e1 : channelDecoder (perfectLast 1 fun _ => 1 / 10) = fun s => ![s 0, s 1, 0, 0] := by
    funext s; unfold channelDecoder; rw [if_pos]; norm_num [perfectLast]
  have e2 : channelDecoder (fun _ => 1 / 10) = fun s => ![0, 0, s 0, s 0 + s 1] := by
    funext s; unfold channelDecoder; rw [if_neg]; norm_num
  simp only [decodeMultiroundObj, if_pos, Bool.false_eq_true, if_false] at h2
  erw [e1, e2] at h2
  revert h2
  decide +kernel

end Verif.Analog
