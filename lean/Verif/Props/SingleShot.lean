import Verif.Model.SingleShot
import Verif.Props.Analog3
import Verif.Props.CSS
import Mathlib.Tactic.Linarith

/-!
# C79, C80, C81: the single-shot simulator and the `run` loops
-/

namespace Verif.Analog
open Verif
variable {m n l : ℕ}

/-! ## C79: logical flags -/

/-- The checks of both types commute. -/
def Commute (Hx : List (Vec n)) (Hz : Mat m n) : Prop := ∀ r ∈ Hx, apply Hz r = 0

/-- The full claim for a sample without given logical operators: a residual without syndrome is flagged exactly when
it is not a stabilizer. -/
def C79_claim : Prop :=
  ∀ (m n : ℕ) (Hx : List (Vec n)) (Hz : Mat m n), Commute Hx Hz → ∀ err est : Vec n, apply Hz (err + est) = 0 →
    (ssFlag Hz none err (err + est) = true ↔ err + est ∉ rowSpan Hx)

/-- **C79**: with the logical operators of a CSS code (constructed by the package) given, a residual without syndrome
is flagged exactly when it is not a stabilizer. -/
theorem C79_with_logicals_partial (c : CSS.Code) (h : CSS.Built c) (H : Mat m c.n) (err residual : Vec c.n)
    (hs : ∀ r ∈ c.hz, dot r residual = 0) :
    ssFlag H (some c.lz) err residual = true ↔ residual ∉ rowSpan c.hx := by
  have h1 := CSS.C10_x_dichotomy c h residual (mulVec_eq_zero_iff.2 hs)
  rw [(CSS.C10_stabilizer_test c residual).1] at h1
  have h2 : ssFlag H (some c.lz) err residual = c.checkIfLogicalXError residual := by
    rw [Bool.eq_iff_iff]
    show isLogicalErr c.lz residual = true ↔ _
    rw [C44_is_logical, CSS.Code.checkIfLogicalXError, CSS.any_eq_one_iff]
    refine exists_congr fun v => and_congr_right fun _ => ?_
    show dot v residual ≠ 0 ↔ _
    rcases zmod2_cases (dot v residual) with h | h <;> rw [h] <;> simp
  rw [h2, ← h1, Bool.not_eq_false]

/-- **C79**: without logical operators the flag is raised exactly when the *estimate* is not a sum of the checks that
see this error type, whatever the error was. -/
theorem C79_without_logicals (H : Mat m n) (err est : Vec n) :
    ssFlag H none err (err + est) = true ↔ ¬ ∃ c : Fin m → ZMod 2, ∀ q, est q = ∑ i, c i * H i q := by
  show checkLogicalErrH H err (err + est) = true ↔ _
  rw [C44_rank_test]
  refine not_congr (exists_congr fun c => forall_congr' fun q => ?_)
  have : err q + (err + est) q = est q := by
    show err q + (err q + est q) = est q
    rw [← add_assoc, add_self_eq_zero', zero_add]
  rw [this]

/-- **C79** is violated: a logical error is missed (three-qubit repetition code, error XXX, estimate 0). -/
theorem C79_violated : ¬ C79_claim := by
  intro h
  have h1 := (h 2 3 [] (![![1, 1, 0], ![0, 1, 1]] : Mat 2 3) (by simp [Commute]) ![1, 1, 1] ![0, 0, 0]
    (by decide +kernel)).2 (by
      rw [show rowSpan ([] : List (Vec 3)) = ⊥ from Submodule.span_eq_bot.2 (by simp)]
      rw [Submodule.mem_bot]
      decide +kernel)
  have h2 : ssFlag (![![1, 1, 0], ![0, 1, 1]] : Mat 2 3) none ![1, 1, 1] (![1, 1, 1] + ![0, 0, 0]) = false := by decide +kernel
  rw [h2] at h1
  exact absurd h1 (by decide)

/-- **C79** is violated the other way too: a perfectly corrected error is flagged. -/
theorem C79_violated_false_alarm :
    ssFlag (![![1, 1, 0], ![0, 1, 1]] : Mat 2 3) none ![1, 0, 0] (![1, 0, 0] + ![1, 0, 0]) = true := by decide +kernel

/-- **C79**: whatever happened in the noisy rounds, a final decoder whose estimates reproduce the syndrome leaves a
residual without syndrome. -/
theorem C79_final_syndrome (u : SSSetup m n l) (L : Option (List (Vec n))) (rounds : List (SSRound m n)) (last : Vec n)
    (hdec : ∀ e : Vec n, apply u.H (u.answer (.plain (toRat (apply u.H e)))) = apply u.H e) (out : Vec n × Bool)
    (h : ssSample u L rounds last = .ok out) : apply u.H out.1 = 0 := by
  unfold ssSample at h
  cases hr : ssRounds u 0 rounds with
  | error e => rw [hr] at h; exact absurd h (by simp [Except.map])
  | ok r =>
    rw [hr] at h
    obtain rfl := Except.ok.inj h
    funext i
    show apply u.H (r + last + _) i = 0
    rw [apply_add, hdec, add_self_eq_zero']

/-- A setup that meets the hypotheses: three-qubit repetition code, lookup decoder, hard-decision two-stage decoding. -/
def repSetup : SSSetup 2 3 0 :=
  { cfg := ⟨false, false, false⟩, H := ![![1, 1, 0], ![0, 1, 1]], M := none, mdec := fun _ => 0
    answer := fun
      | .plain s => if s 0 = 1 then (if s 1 = 1 then ![0, 1, 0] else ![1, 0, 0]) else if s 1 = 1 then ![0, 0, 1] else 0
      | _ => 0
    ser := 1 / 10, sigma := 0, own := 1 / 10, other := 1 / 10 }

set_option maxRecDepth 4000 in
example : ∀ e : Vec 3, apply repSetup.H (repSetup.answer (.plain (toRat (apply repSetup.H e)))) = apply repSetup.H e := by
  decide +kernel

example : ∃ out, ssSample repSetup (some [![1, 0, 0]]) [⟨![1, 0, 0], ![0, 1], 0⟩, ⟨0, 0, 0⟩] ![0, 0, 0] = .ok out ∧
    out = (![1, 1, 1], true) := ⟨_, rfl, by decide +kernel⟩

/-! ## C80: the decoder is asked the right question -/

/-- The question is the true syndrome `s` (with satisfied meta checks). -/
def Asks (s : Vec m) : Question m l → Prop
  | .plain a => a = toRat s
  | .analog a _ => a = toRat s
  | .stage a _ => a = Fin.append (toRat s) (toRat (0 : Vec l))

/-- The full claim: in a round without syndrome noise, every accepted configuration asks its decoder the true
syndrome. -/
def C80_claim : Prop :=
  ∀ (c : SSConfig), c.check = .ok () → ∀ (m n l : ℕ) (H : Mat m n) (M : Option (Mat l m)) (mdec : Vec l → Vec m),
    (∀ A ∈ M, ∀ e, apply A (apply H e) = 0) → mdec 0 = 0 → ∀ (ser sigma own other : ℚ) (e : Vec n),
      ∃ q, question c M mdec own other (noisySyndrome c ser sigma 0 0 (apply H e)) = .ok q ∧ Asks (apply H e) q

theorem truncate_toRat (s : Vec m) (i : Fin m) : (truncate (toRat s i) : ℚ) = toRat s i := by
  unfold truncate toRat
  rcases zmod2_cases (s i) with h | h <;> simp [h]

theorem bitsOf_toRat (s : Vec m) : bitsOf (toRat s) = s := by
  funext i
  unfold bitsOf truncate toRat
  rcases zmod2_cases (s i) with h | h <;> simp [h]

theorem noisySyndrome_hard (c : SSConfig) (hc : c.analog = false) (ser sigma : ℚ) (g : Fin m → ℚ) (s : Vec m) :
    noisySyndrome c ser sigma g 0 s = toRat s := by
  unfold noisySyndrome
  rw [hc, add_zero]
  simp

theorem binary_noisy (c : SSConfig) (hc : c.analog = true) (ser sigma : ℚ) (hs : ser ≠ 0) (s : Vec m) :
    binaryFromAnalog (noisySyndrome c ser sigma 0 0 s) = s := by
  unfold noisySyndrome
  rw [if_pos hs, if_pos hc]
  funext i
  unfold binaryFromAnalog noisyAnalog
  rcases zmod2_cases (s i) with h | h <;> simp [h]

/-- **C80**: hard-decision two-stage decoding asks the true syndrome, with and without meta checks. -/
theorem C80_hard_partial (c : SSConfig) (h1 : c.singleStage = false) (h2 : c.analog = false) (H : Mat m n)
    (M : Option (Mat l m)) (mdec : Vec l → Vec m) (hM : ∀ A ∈ M, ∀ e, apply A (apply H e) = 0) (hd : mdec 0 = 0)
    (ser sigma own other : ℚ) (e : Vec n) :
    question c M mdec own other (noisySyndrome c ser sigma 0 0 (apply H e)) = .ok (.plain (toRat (apply H e))) := by
  have h3 : c.analogTg = false := by
    unfold SSConfig.analog at h2
    simp at h2
    exact h2.2
  unfold question twoStageQuestion
  rw [h1, h3, noisySyndrome_hard c h2]
  simp only [Bool.false_eq_true, if_false]
  congr 2
  unfold repaired
  cases M with
  | none => funext i; exact truncate_toRat _ i
  | some A =>
    simp only
    unfold metaRepair metaOf
    rw [h2, bitsOf_toRat]
    simp only [Bool.false_eq_true, if_false]
    rw [hM A rfl, hd, add_zero]

/-- **C80**: analog Tanner graph decoding with a non-zero syndrome error rate asks the true syndrome in the
single-stage mode, and in the two-stage mode with meta checks. -/
theorem C80_analog_partial (c : SSConfig) (h2 : c.analogTg = true) (H : Mat m n)
    (M : Option (Mat l m)) (mdec : Vec l → Vec m) (hM : ∀ A ∈ M, ∀ e, apply A (apply H e) = 0) (hd : mdec 0 = 0)
    (hmode : c.singleStage = true ∨ M ≠ none) (ser sigma own other : ℚ) (hs : ser ≠ 0) (e : Vec n) :
    ∃ q, question c M mdec own other (noisySyndrome c ser sigma 0 0 (apply H e)) = .ok q ∧ Asks (apply H e) q := by
  have h3 : c.analog = true := by unfold SSConfig.analog; rw [h2, Bool.or_true]
  unfold question
  by_cases h1 : c.singleStage = true
  · rw [if_pos h1]
    unfold singleStageQuestion
    rw [if_pos h3, binary_noisy c h3 ser sigma hs]
    cases M with
    | none => simp only [h2, if_true]; exact ⟨_, rfl, rfl⟩
    | some A =>
      simp only [h2, if_true]
      refine ⟨_, rfl, ?_⟩
      show Fin.append _ _ = Fin.append _ _
      rw [show metaOf A (apply H e) = 0 from hM A rfl e]
  · rw [if_neg h1]
    obtain ⟨A, rfl⟩ := Option.ne_none_iff_exists'.1 (hmode.resolve_left h1)
    refine ⟨_, rfl, ?_⟩
    unfold twoStageQuestion
    rw [if_pos h2]
    show repaired _ _ _ _ = _
    unfold repaired metaRepair metaOf
    simp only [h3, if_true]
    rw [binary_noisy c h3 ser sigma hs, hM A rfl, hd, add_zero]

/-- **C80**: a consistent meta decoder repairs the syndrome to one that satisfies the meta checks, for every noise. -/
theorem C80_repaired (c : SSConfig) (M : Mat l m) (mdec : Vec l → Vec m) (hd : ∀ v, apply M (mdec (apply M v)) = apply M v)
    (s : Fin m → ℚ) : apply M (metaRepair c M mdec s) = 0 := by
  funext i
  unfold metaRepair metaOf
  split <;> rw [apply_add, hd, add_self_eq_zero'] <;> rfl

example : ∀ v, apply (![![1, 1, 1]] : Mat 1 3) ((fun t => ![t 0, 0, 0]) (apply (![![1, 1, 1]] : Mat 1 3) v)) =
    apply (![![1, 1, 1]] : Mat 1 3) v := by decide +kernel

/-- **C80** is violated by two-stage analog decoding without meta checks: the analog values are truncated, so that
*every* check is passed wrongly, for every error. -/
theorem C80_violated_truncation (H : Mat m n) (mdec : Vec l → Vec m) (own other ser sigma : ℚ) (hs : ser ≠ 0) (e : Vec n) (i : Fin m) :
    ∃ a r, question ⟨false, false, true⟩ (none : Option (Mat l m)) mdec own other
        (noisySyndrome ⟨false, false, true⟩ ser sigma 0 0 (apply H e)) = .ok (.analog a r) ∧ a i ≠ toRat (apply H e) i := by
  refine ⟨_, _, rfl, ?_⟩
  unfold repaired noisySyndrome noisyAnalog SSConfig.analog truncate toRat
  rw [if_pos hs]
  rcases zmod2_cases (apply H e i) with h | h
  · simp [h]
  · simp [h]
    norm_num

/-- **C80** is violated for syndrome error rate 0: the binary syndrome is thresholded as if it were analog, so that
every check is inverted. -/
theorem C80_violated_zero_rate (H : Mat m n) (mdec : Vec l → Vec m) (own other sigma : ℚ) (e : Vec n) (i : Fin m) :
    ∃ a r, question ⟨true, false, true⟩ (none : Option (Mat l m)) mdec own other
        (noisySyndrome ⟨true, false, true⟩ 0 sigma 0 0 (apply H e)) = .ok (.analog a r) ∧ a i ≠ toRat (apply H e) i := by
  refine ⟨_, _, rfl, ?_⟩
  unfold noisySyndrome binaryFromAnalog toRat
  rcases zmod2_cases (apply H e i) with h | h <;> simp [h]

/-- **C80** is violated by hard-decision single-stage decoding, which raises in its first noisy round. -/
theorem C80_violated_single_stage_hard (M : Option (Mat l m)) (mdec : Vec l → Vec m) (own other : ℚ) (s : Fin m → ℚ) :
    question ⟨true, false, false⟩ M mdec own other s = .error .attributeError := rfl

/-- **C80** is violated. -/
theorem C80_violated : ¬ C80_claim := by
  intro h
  obtain ⟨q, h1, -⟩ := h ⟨true, false, false⟩ rfl 1 1 1 (fun _ _ => 1) none (fun _ => 0) (by simp) rfl 0 0 0 0 0
  rw [C80_violated_single_stage_hard] at h1
  cases h1

/-- **C80**: two-stage analog decoding gives the data bits the error rate of the other error type. -/
theorem C80_violated_rate (M : Option (Mat l m)) (mdec : Vec l → Vec m) (own other : ℚ) (hne : own ≠ other) (s : Fin m → ℚ) :
    ∃ a r, question ⟨false, false, true⟩ M mdec own other s = .ok (.analog a r) ∧ r ≠ own :=
  ⟨_, other, rfl, hne.symm⟩

/-- **C80**: single-stage analog decoding gives the data bits the right rate. -/
theorem C80_rate (M : Option (Mat l m)) (mdec : Vec l → Vec m) (own other : ℚ) (s : Fin m → ℚ) :
    (∃ a, question ⟨true, false, true⟩ M mdec own other s = .ok (.analog a own)) ∨
      ∃ a, question ⟨true, false, true⟩ M mdec own other s = .ok (.stage a (some own)) := by
  cases M with
  | none => exact .inl ⟨_, rfl⟩
  | some A => exact .inr ⟨_, rfl⟩

/-! ## C81: `run` -/

/-- The counters of the first `j` outcomes. -/
def countsOf (os : List (Bool × Bool)) : Counts := ⟨os.length, os.countP (·.1), os.countP (·.2)⟩

/-- The full claim for a simulator's `run`: for every non-empty list of outcomes it returns the counters of a prefix,
which is everything unless convergence was reported for that prefix. -/
def C81_claim (run : ℕ → (Counts → Bool) → List (Bool × Bool) → Except SErr Counts) : Prop :=
  ∀ interval conv (os : List (Bool × Bool)), 1 ≤ interval → os ≠ [] →
    ∃ j, 1 ≤ j ∧ j ≤ os.length ∧ run interval conv os = .ok (countsOf (os.take j)) ∧
      (j = os.length ∨ conv (countsOf (os.take j)) = true)

theorem countsOf_snoc (os : List (Bool × Bool)) (o : Bool × Bool) : (countsOf os).add o = countsOf (os ++ [o]) := by
  unfold countsOf Counts.add
  rcases o with ⟨a, b⟩
  cases a <;> cases b <;> simp

theorem runLoop_prefix (interval residue : ℕ) (conv : Counts → Bool) (os : List (Bool × Bool)) :
    ∀ done, ∃ j, (os ≠ [] → 1 ≤ j) ∧ j ≤ os.length ∧
      runLoop interval residue (.ok ()) conv (countsOf done) os = .ok (countsOf (done ++ os.take j)) ∧
      (j = os.length ∨ conv (countsOf (done ++ os.take j)) = true) := by
  induction os with
  | nil => intro done; exact ⟨0, by simp, by simp, by simp [runLoop], .inl rfl⟩
  | cons o os ih =>
    intro done
    have hrec : ∃ j, (o :: os ≠ [] → 1 ≤ j) ∧ j ≤ (o :: os).length ∧
        runLoop interval residue (.ok ()) conv (countsOf (done ++ [o])) os = .ok (countsOf (done ++ (o :: os).take j)) ∧
        (j = (o :: os).length ∨ conv (countsOf (done ++ (o :: os).take j)) = true) := by
      obtain ⟨j, -, h2, h3, h4⟩ := ih (done ++ [o])
      refine ⟨j + 1, fun _ => by omega, by simpa using h2, ?_, ?_⟩
      · rw [h3]; simp
      · rcases h4 with h4 | h4
        · left; simp [h4]
        · right; simpa using h4
    unfold runLoop
    rw [countsOf_snoc]
    by_cases h1 : (countsOf (done ++ [o])).runs % interval = residue
    · rw [if_pos h1]
      by_cases h2 : conv (countsOf (done ++ [o])) = true
      · refine ⟨1, fun _ => le_refl _, by simp, ?_, .inr (by simpa using h2)⟩
        simp [h2]
      · simp only [if_neg h2]
        exact hrec
    · rw [if_neg h1]
      exact hrec

/-- **C81** for the quasi-single-shot simulator. -/
theorem C81_run_partial : C81_claim qssRun := by
  intro interval conv os _ hne
  obtain ⟨j, h1, h2, h3, h4⟩ := runLoop_prefix interval 1 conv os []
  refine ⟨j, h1 hne, h2, ?_, by simpa using h4⟩
  unfold qssRun runAll
  rw [if_neg hne]
  rw [show (⟨0, 0, 0⟩ : Counts) = countsOf [] from rfl, h3]
  simp

/-- **C81** for the analog Tanner graph simulator with a list as bias. -/
theorem C81_run_atd_partial : C81_claim (atdRun false) := C81_run_partial

/-- **C81** is violated by the analog Tanner graph simulator with an array as bias (the default): `run` never returns a result. -/
theorem C81_violated_atd (interval : ℕ) (conv : Counts → Bool) (os : List (Bool × Bool)) (k : Counts) :
    atdRun true interval conv os ≠ .ok k := by
  unfold atdRun runAll
  split
  · simp
  · split <;> simp

/-- **C81**: with `save_interval = 1` convergence is never tested and all samples are run. -/
theorem C81_interval_one (conv : Counts → Bool) (os : List (Bool × Bool)) (hne : os ≠ []) :
    qssRun 1 conv os = .ok (countsOf os) := by
  have key : ∀ (os done : List (Bool × Bool)), runLoop 1 1 (.ok ()) conv (countsOf done) os = .ok (countsOf (done ++ os)) := by
    intro os
    induction os with
    | nil => intro done; simp [runLoop]
    | cons o os ih =>
      intro done
      unfold runLoop
      rw [countsOf_snoc, if_neg (by omega), ih]
      simp
  unfold qssRun runAll
  rw [if_neg hne, show (⟨0, 0, 0⟩ : Counts) = countsOf [] from rfl, key]
  simp

example : qssRun 2 (fun k => k.x == 2) [(true, false), (false, true), (true, true), (true, true)] = .ok ⟨3, 2, 2⟩ := by decide +kernel

/-- **C81** is violated by `SingleShotSimulator.run`: it never returns a result, for any input. -/
theorem C81_violated_never_returns (interval : ℕ) (conv : Counts → Bool) (os : List (Bool × Bool)) (k : Counts) :
    singleShotRun interval conv os ≠ .ok k := by
  unfold singleShotRun runAll
  split
  · simp
  · split <;> simp

theorem C81_violated : ¬ C81_claim singleShotRun := by
  intro h
  obtain ⟨j, -, -, h1, -⟩ := h 1 (fun _ => false) [(true, true)] (le_refl _) (by simp)
  exact C81_violated_never_returns _ _ _ _ h1

end Verif.Analog
