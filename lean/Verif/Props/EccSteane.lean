import Verif.Lemmas.EccResults4
import Verif.Props.EccLogical2
import Verif.Props.EccShor3

/-! # Results of circuits encoded with Q7Steane (C100) -/

namespace Verif.Ecc
open scoped BigOperators
variable {R : Type} [CommRing R] (k : Consts R)

namespace Res

/-! ## Encoding -/

def q7X : List Word := [[(true, 0), (true, 2), (true, 4), (true, 6)], [(true, 1), (true, 2), (true, 5), (true, 6)],
  [(true, 3), (true, 4), (true, 5), (true, 6)]]

def q7Z : List Word := [[(false, 0), (false, 2), (false, 4), (false, 6)], [(false, 1), (false, 2), (false, 5), (false, 6)],
  [(false, 3), (false, 4), (false, 5), (false, 6)], (List.range 7).map fun j => (false, j)]

def q7Cmds : List Cmd :=
  ((Q7.singleBlock true id (fun j => 7 + j) 0).take 21).map .run ++ [.mul 3 0, .mul 4 1, .mul 5 2] ++
    ((Q7.singleBlock true id (fun j => 7 + j) 0).drop 21).map .run

def q7Cmds' : List Cmd := ((Q7.resets fun j => 7 + j).map .run) ++ q7Cmds

theorem q7_enc₀ : encCheck 7 3 q7X q7Z (ancFacts 7 3 ++ q7Z.map fun w => (w, false)) q7Cmds = true := by decide +kernel
theorem q7_enc₁ : encCheck 7 3 q7X q7Z (q7Z.map fun w => (w, false)) q7Cmds' = true := by decide +kernel
theorem q7_det : determines (q7Words false) 7 q7X q7Z = true := by decide +kernel
theorem q7_loc₀ : ∀ i ∈ q7Cmds.flatMap Cmd.instr, i.Local (7 + 3) := by decide +kernel
theorem q7_loc₁ : ∀ i ∈ q7Cmds'.flatMap Cmd.instr, i.Local (7 + 3) := by decide +kernel

theorem q7_out (n m : ℕ) : ((Q7.encode n m {}).decoded false).out =
    blocks n fun i => ((if i = 0 then q7Cmds else q7Cmds').flatMap Cmd.instr).map (Instr.rename (loc n 7 i) (m + ·)) := by
  show [] ++ [] ++ blocks n _ = _
  rw [List.nil_append, List.nil_append]
  unfold blocks
  refine congrArg (fun f => (List.range n).flatMap f) ?_
  funext i
  by_cases hi : i = 0
  · subst hi; rfl
  · simp only [hi, ne_eq, not_false_eq_true, decide_true, Bool.or_true, if_true, if_false, St.emit, St.decoded]
    rfl

/-! ## Decoding -/

theorem q7_block (n m i : ℕ) (hi : i < n) : ParityBlock k n (2 * 3 + 1) m i (Q7.decodeBlock (dat n i) m) := by
  set P : List (ℕ × ℕ) := [(dat n i 1, m), (dat n i 2, m + 1), (dat n i 3, m + 2)] with hP
  set P' : List (ℕ × ℕ) := [(dat n i 4, m), (dat n i 5, m + 1), (dat n i 6, m + 2)] with hP'
  have e : Q7.decodeBlock (dat n i) m = seg P (dat n i 0) m 3 Q7.decodingValues ++ seg P' (dat n i 0) m 3 Q7.decodingValues := rfl
  have hne : ∀ j, j ≠ 0 → dat n i j ≠ dat n i 0 := fun j hj h => hj (dat_inj hi hi h).2
  have hodd : ∀ a b c, OddValues [(a, m), (b, m + 1), (c, m + 2)] m 3 Q7.decodingValues := fun a b c => by
    refine ⟨by decide, fun x cl => ?_⟩
    have h0 : record [(a, m), (b, m + 1), (c, m + 2)] x cl (m + 0) = x a := by
      simp [record, Function.update]
    have h1 : record [(a, m), (b, m + 1), (c, m + 2)] x cl (m + 1) = x b := by
      simp [record, Function.update]
    have h2 : record [(a, m), (b, m + 1), (c, m + 2)] x cl (m + 2) = x c := by
      simp [record, Function.update]
    simp only [regValue, h0, h1, h2, odd, List.foldr_cons, List.foldr_nil, Q7.decodingValues]
    cases x a <;> cases x b <;> cases x c <;> decide
  have ht : ∀ p ∈ P, p.1 ≠ dat n i 0 := fun p hp => by
    simp only [hP, List.mem_cons, List.not_mem_nil, or_false] at hp
    rcases hp with rfl | rfl | rfl <;> exact hne _ (by decide)
  have ht' : ∀ p ∈ P', p.1 ≠ dat n i 0 := fun p hp => by
    simp only [hP', List.mem_cons, List.not_mem_nil, or_false] at hp
    rcases hp with rfl | rfl | rfl <;> exact hne _ (by decide)
  have hd0 : dat n i 0 = i := by unfold dat; omega
  have hfix : ∀ x, fix P (dat n i 0) (fix P' (dat n i 0) x) = Function.update x i (parity (List.range (2 * 3 + 1)) (blk n i x)) := fun x => by
    have ho : odd P (fix P' (dat n i 0) x) = odd P x := odd_congr P fun p hp => fix_other (ht p hp) x
    have hpar : parity (List.range (2 * 3 + 1)) (blk n i x) = (x (dat n i 0) ^^ odd P x ^^ odd P' x) := by
      simp only [parity, blk, odd, hP, hP', List.range_succ, List.range_zero, List.nil_append, List.cons_append, List.foldr_cons,
        List.foldr_nil]
      cases x (dat n i 0) <;> cases x (dat n i 1) <;> cases x (dat n i 2) <;> cases x (dat n i 3) <;> cases x (dat n i 4) <;>
        cases x (dat n i 5) <;> cases x (dat n i 6) <;> rfl
    rw [hpar]
    funext q
    by_cases hq : q = i
    · subst hq
      rw [Function.update_self]
      unfold fix
      unfold fix at ho
      rw [ho, hd0]
      cases odd P x <;> cases odd P' x <;> simp [flip]
    · rw [Function.update_of_ne hq, fix_other (by rw [hd0]; exact hq), fix_other (by rw [hd0]; exact hq)]
  constructor
  · intro ψ cl c' h
    constructor
    · have er : Q7.decodeBlock (dat n i) m = (Q7.decodeBlock id 0).map (Instr.rename (dat n i) (m + ·)) := rfl
      rw [er] at h
      exact fun b hb => (block_bits k h hb).symm
    · intro x hx
      rw [e, branch_append] at h
      obtain ⟨d, h1, h2⟩ := h
      have h3 := seg_sound k (hodd _ _ _) ht' (ψ := d.1) (cl := d.2) h2 x hx
      have h4 := seg_sound k (hodd _ _ _) ht h1 _ h3
      rwa [hfix] at h4
  · intro ψ cl x
    obtain ⟨d, h1, h2⟩ := seg_complete k (hodd _ _ _) ht ψ cl (fix P' (dat n i 0) x)
    obtain ⟨c', h3, h4⟩ := seg_complete k (hodd _ _ _) ht' d.1 d.2 x
    refine ⟨c', ?_, by rw [h4, h2, hfix]⟩
    rw [e, branch_append]
    exact ⟨d, h1, h3⟩

theorem q7_parity (β : Bool) (y : Bits) (h : q7Words β y ≠ 0) : parity (List.range (2 * 3 + 1)) y = β := by
  unfold q7Words cssWords at h
  split at h
  · rename_i hh
    rw [Bool.and_eq_true, beq_iff_eq] at hh
    exact hh.2
  · exact absurd rfl h

/-! ## The parts together -/

theorem encoded_free {W : CodeWords} {n r K : ℕ} (hW : W.Local r) (φ : State R) : ∀ q ∈ sharedAnc n r K, Free (encoded W n φ) q := by
  intro q hq x b
  obtain ⟨j, -, rfl⟩ := List.mem_map.1 hq
  rw [encoded_apply, encoded_apply]
  refine Finset.sum_congr rfl fun β _ => ?_
  congr 1
  unfold prodW
  refine Finset.prod_congr rfl fun i _ => ?_
  rw [hW (β i) (blk n i (Function.update x (n * r + j) b)) (blk n i x) fun l hl => ?_]
  unfold blk
  exact Function.update_of_ne (by have := dat_lt i.2 hl; omega) _ _

/-- The gates considered. -/
def q7G (n m : ℕ) (g : Gate) : Prop :=
  g.WF n m ∧ g.op ≠ .measure ∧ (g.controls = [] ∨ ((g.op = .X ∨ g.op = .Z) ∧ g.controls.length = 1))

/-- The measurements considered: every qubit to the bit of the same number. -/
def q7M (n m : ℕ) (g : Gate) : Prop := g.WF n m ∧ g.op = .measure ∧ g.targets = g.classics

theorem q7_off (n m : ℕ) {g : Gate} (hg : g.WF n m) {s s' : St} (hs : s.isDecoded = false) (hm : g.op ≠ .measure)
    (h : (q7Steane n m).mapGate g s = .ok s') :
    s'.isDecoded = false ∧ s'.gatesWritten = s.gatesWritten ∧ ∃ l, s'.out = s.out ++ l ∧ ∀ i ∈ l, OffAnc (sharedAnc n 7 3) i := by
  have hdat : ∀ t ∈ g.targets, ∀ j < 7, dat n t j ∉ sharedAnc n 7 3 := fun t ht j hj hmem => by
    obtain ⟨a, -, ha⟩ := List.mem_map.1 hmem
    have := dat_lt (hg.1 t ht) hj
    omega
  have htr : ∀ r, ∀ i ∈ Q7.transversal r n g, OffAnc (sharedAnc n 7 3) i := fun r i hi => by
    obtain ⟨t, ht, hi⟩ := List.mem_flatMap.1 hi
    obtain ⟨j, hj, hi⟩ := List.mem_flatMap.1 hi
    rw [List.eq_of_mem_replicate hi]
    exact hdat t ht j (List.mem_range.1 hj)
  have htb : ∀ op, ∀ i ∈ g.targets.flatMap fun t => Q7.tBlock op (dat n t), OffAnc (sharedAnc n 7 3) i := fun op i hi => by
    obtain ⟨t, ht, hi⟩ := List.mem_flatMap.1 hi
    simp only [Q7.tBlock, List.mem_cons, List.not_mem_nil, or_false] at hi
    rcases hi with rfl | rfl | rfl | rfl | rfl <;> exact hdat t ht _ (by decide)
  change Q7.mapGate n m _ g s = _ at h
  unfold Q7.mapGate at h
  rw [hs, Bool.false_and] at h
  simp only [Bool.false_eq_true, if_false] at h
  have nil : ∃ l, s.out = s.out ++ l ∧ ∀ i ∈ l, OffAnc (sharedAnc n 7 3) i := ⟨[], by simp, fun i hi => by cases hi⟩
  split at h
  · obtain rfl := Except.ok.inj h; exact ⟨hs, rfl, nil⟩
  · obtain rfl := Except.ok.inj h; exact ⟨hs, rfl, nil⟩
  · obtain rfl := Except.ok.inj h; exact ⟨hs, rfl, _, rfl, htr 1⟩
  · obtain rfl := Except.ok.inj h; exact ⟨hs, rfl, _, rfl, htr 1⟩
  · obtain rfl := Except.ok.inj h; exact ⟨hs, rfl, _, rfl, htr 1⟩
  · obtain rfl := Except.ok.inj h; exact ⟨hs, rfl, _, rfl, htr 1⟩
  · obtain rfl := Except.ok.inj h; exact ⟨hs, rfl, _, rfl, htr 3⟩
  · obtain rfl := Except.ok.inj h; exact ⟨hs, rfl, _, rfl, htr 3⟩
  · exact absurd ‹_› hm
  · split at h
    · cases h
    · obtain rfl := Except.ok.inj h; exact ⟨hs, rfl, _, rfl, htb _⟩
  · split at h
    · cases h
    · obtain rfl := Except.ok.inj h; exact ⟨hs, rfl, _, rfl, htb _⟩
  · cases h

theorem q7_encoder [IsDomain R] (n m : ℕ) (hn : 0 < n) : Encoder k (q7Steane n m) q7Words n m 7 3 (q7G n m) (q7M n m) where
  size := rfl
  start := ⟨rfl, by show (false || decide (n ≠ 0)) = true; simp; omega⟩
  enc_ex := fun cl => by
    show ∃ c, Branch k ((Q7.encode n m {}).decoded false).out _ c ∧ _
    rw [q7_out]
    exact enc_exists k q7_loc₀ q7_loc₁ cl
  enc := fun cl c hb hc => by
    change Branch k ((Q7.encode n m {}).decoded false).out _ c at hb
    rw [q7_out] at hb
    exact enc_blocks k q7_local (by decide) (by decide) (by decide) q7_det q7_loc₀ q7_loc₁ q7_enc₀ q7_enc₁ hn hb hc
  gate := fun g s s' hg hs h => by
    obtain ⟨h1, h2, l, hl, hoff⟩ := q7_off n m hg.1 hs.1 hg.2.1 h
    obtain ⟨l', hl', hact⟩ := C103_q7_partial k n m g hg.1 hg.2.1 hg.2.2 s s' hs.1 h
    have : l' = l := List.append_cancel_left (hl'.symm.trans hl)
    subst this
    exact ⟨⟨h1, h2.trans hs.2⟩, l', hl, hoff, hact⟩
  okG_spec := fun g hg => ⟨hg.2.1, hg.1.1, fun c hc => (hg.1.2.1 c hc).1⟩
  corr := fun s hs => by
    refine ⟨⟨?_, ?_⟩, ?_⟩
    · show (Q7.correct n m s).isDecoded = false
      unfold Q7.correct
      rw [hs.1]
      exact hs.1
    · show (Q7.correct n m s).gatesWritten = true
      unfold Q7.correct
      rw [hs.1]
      show (s.gatesWritten || _ || _) = true
      rw [hs.2]
      rfl
    · obtain ⟨l, hl, -⟩ := C56_q7_corrects k n m (ψ := encoded q7Words n 0) (C103_codes k n 0 0).1.2.2.1 (encoded_free q7_local 0) (err := fun _ => none)
        (fun i _ o q h => by cases h) s hs.1 hs.2
      refine ⟨l, hl, fun φ err he => ?_⟩
      obtain ⟨l', hl', hc⟩ := C56_q7_corrects k n m (ψ := encoded q7Words n φ) (C103_codes k n φ φ).1.2.2.1 (encoded_free q7_local φ) he s hs.1 hs.2
      have : l' = l := List.append_cancel_left (hl'.symm.trans hl)
      subst this
      exact hc
  corrD := fun s hs => by
    show Q7.correct n m s = s
    unfold Q7.correct
    rw [hs]
    rfl
  dec := fun s hs => by
    show (Q7.decode n m s).isDecoded = true ∧ ∃ l, (Q7.decode n m s).out = s.out ++ l ∧ _
    unfold Q7.decode
    rw [hs.1]
    refine ⟨rfl, _, rfl, parity_decodes (r := 3) (q7_block k n m) q7_local q7_parity fun β => by cases β <;> decide⟩
  meas := fun g s s' hg h => by
    change Q7.mapGate n m _ g s = _ at h
    unfold Q7.mapGate at h
    simp only [hg.2.1, ne_eq, not_true, decide_false, Bool.and_false, Bool.false_eq_true, if_false] at h
    unfold userMeasureSwapped at h
    rw [if_pos (by rw [hg.2.2]), ← hg.2.2] at h
    rw [← hg.2.2, ← Except.ok.inj h]
    unfold beforeMeasure
    cases s.isDecoded <;> rfl
  okM_spec := fun g hg => ⟨hg.2.1, hg.1.1⟩

end Res

/-- At most one Pauli error per logical qubit after a gate, only where a correction follows at once: after the last gate before the
measurements, or where a periodic correction is due. -/
def ErrorsBeforeCorrection (n r freq L : ℕ) (err : ℕ → ℕ → Option (Op × ℕ)) : Prop :=
  (∀ q, SingleErrors n [.X, .Y, .Z] (List.range r) (err q)) ∧
  ∀ q, (∃ i < n, err q i ≠ none) → (0 < freq ∧ (q + 1) % freq = 0) ∨ q + 1 = L

/-- **C100**, Q7Steane with noise: circuits of any gates the scheme accepts (with controls only on X and Z, one each) followed by
measurements of qubits to the bits of the same numbers.  Right before a correction one Pauli error may hit every logical qubit.  The
possible results are those of the original circuit, for every number of qubits and bits and every correction frequency.
What is missing: gates after measurements (`C100_violated_q7`), measurements to other bits (the scheme exchanges qubit and bit, C94),
gates with more controls (`C103_violated_q7`), errors that pass through gates before the next correction. -/
theorem C100_q7_noisy_partial [IsDomain R] (n m freq : ℕ) (hn : 0 < n) (us ms : List Gate) (hw : ∀ g ∈ us ++ ms, g.WF n m)
    (hus : ∀ g ∈ us, g.op ≠ .measure ∧ (g.controls = [] ∨ ((g.op = .X ∨ g.op = .Z) ∧ g.controls.length = 1)))
    (hms : ∀ g ∈ ms, g.op = .measure ∧ g.targets = g.classics) (err : ℕ → ℕ → Option (Op × ℕ))
    (herr : ErrorsBeforeCorrection n 7 freq us.length err) (l : List Instr)
    (hl : (q7Steane n m).applyNoisy freq (fun q => errorInstrs n (err q)) (us ++ ms) = .ok l) :
    SameResultSets R k n m (us ++ ms) ((q7Steane n m).outputQubits n) l :=
  (Res.q7_encoder k n m hn).results freq us ms (fun g hg => ⟨hw g (List.mem_append_left _ hg), hus g hg⟩)
    (fun g hg => ⟨hw g (List.mem_append_right _ hg), hms g hg⟩) herr.1 herr.2 hl

/-- **C100**, Q7Steane without noise. -/
theorem C100_q7_partial [IsDomain R] (n m freq : ℕ) (hn : 0 < n) (us ms : List Gate) (hw : ∀ g ∈ us ++ ms, g.WF n m)
    (hus : ∀ g ∈ us, g.op ≠ .measure ∧ (g.controls = [] ∨ ((g.op = .X ∨ g.op = .Z) ∧ g.controls.length = 1)))
    (hms : ∀ g ∈ ms, g.op = .measure ∧ g.targets = g.classics) (l : List Instr)
    (hl : (q7Steane n m).apply freq (us ++ ms) = .ok l) :
    SameResultSets R k n m (us ++ ms) ((q7Steane n m).outputQubits n) l := by
  refine C100_q7_noisy_partial k n m freq hn us ms hw hus hms (fun _ _ => none) ⟨fun _ _ _ _ _ h => (by cases h), fun q ⟨i, _, h⟩ => absurd rfl h⟩ l ?_
  rw [show (fun _ : ℕ => errorInstrs n fun _ => none) = fun _ => [] from funext fun _ => (Res.corrupt_none k (fun _ _ => rfl) (0 : State R)).2,
    applyNoisy_nil]
  exact hl

/-- A T gate between Hadamard gates, then a controlled NOT. -/
def c100Gates7 : List Gate :=
  [{ op := .H, targets := [0, 1] }, { op := .T, targets := [0] }, { op := .H, targets := [0] },
   { op := .X, controls := [(0, true)], targets := [2] }]

def c100Meas7 : List Gate := [{ op := .measure, targets := [0, 2], classics := [0, 2] }, { op := .measure, targets := [1], classics := [1] }]

/-- Errors after the second and the fourth gate. -/
def c100Err7 (q i : ℕ) : Option (Op × ℕ) := if q = 1 ∧ i < 3 then some (.Y, 2 * i) else if q = 3 ∧ i = 2 then some (.X, 6) else none

theorem c100_err7 : ErrorsBeforeCorrection 3 7 2 4 c100Err7 := by
  refine ⟨fun q i hi o j h => ?_, fun q ⟨i, hi, h⟩ => ?_⟩
  · unfold c100Err7 at h
    split at h
    · cases h
      refine ⟨by decide, List.mem_range.2 (by omega)⟩
    · split at h
      · cases h; decide
      · cases h
  · unfold c100Err7 at h
    split at h
    · rename_i hq; left; rw [hq.1]; decide
    · split at h
      · rename_i hq; left; rw [hq.1]; decide
      · exact absurd rfl h

example [IsDomain R] : ∃ l, (q7Steane 3 3).applyNoisy 2 (fun q => errorInstrs 3 (c100Err7 q)) (c100Gates7 ++ c100Meas7) = .ok l ∧
    SameResultSets R k 3 3 (c100Gates7 ++ c100Meas7) ((q7Steane 3 3).outputQubits 3) l := by
  refine ⟨_, rfl, C100_q7_noisy_partial k 3 3 2 (by decide) c100Gates7 c100Meas7 ?_ ?_ ?_ c100Err7 c100_err7 _ rfl⟩
  · intro g hg
    simp only [c100Gates7, c100Meas7, List.cons_append, List.nil_append, List.mem_cons, List.not_mem_nil, or_false] at hg
    rcases hg with rfl | rfl | rfl | rfl | rfl | rfl <;> simp [Gate.WF]
  · unfold c100Gates7; decide
  · unfold c100Meas7; decide

end Verif.Ecc
