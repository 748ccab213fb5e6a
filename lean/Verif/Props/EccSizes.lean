import Verif.Spec.EccRange
import Verif.Lemmas.EccCodes

/-!
# Encoding a circuit: which circuits are accepted, sizes, corrections (C55)
-/

namespace Verif.Ecc

/-! ## The loop -/

theorem loop_ok {σ : Type} {mapGate : Gate → σ → Except EccErr σ} {correct : σ → σ} {freq : ℕ} {A : Gate → Prop}
    {gates : List Gate} (h : ∀ g ∈ gates, ∀ s, (∃ s', mapGate g s = .ok s') ↔ A g) (j : ℕ) (s : σ) :
    (∃ s', loop mapGate correct freq j gates s = .ok s') ↔ ∀ g ∈ gates, A g := by
  induction gates generalizing j s with
  | nil => exact ⟨fun _ g hg => (by cases hg), fun _ => ⟨s, rfl⟩⟩
  | cons g gs ih =>
    have hg := h g List.mem_cons_self s
    have ih := fun j s => ih (fun x hx => h x (List.mem_cons_of_mem _ hx)) j s
    simp only [loop]
    cases hm : mapGate g s with
    | error e =>
      refine ⟨fun ⟨s', hs⟩ => (by cases hs), fun ha => ?_⟩
      obtain ⟨s', hs⟩ := hg.2 (ha g List.mem_cons_self)
      rw [hm] at hs; cases hs
    | ok s₁ =>
      show (∃ s', loop mapGate correct freq (j + 1) gs (periodic correct freq (j + 1) s₁) = .ok s') ↔ _
      rw [ih]
      refine ⟨fun ha x hx => ?_, fun ha x hx => ha x (List.mem_cons_of_mem _ hx)⟩
      rcases List.mem_cons.1 hx with rfl | hx
      · exact hg.1 ⟨s₁, hm⟩
      · exact ha x hx

theorem loop_error {σ : Type} {mapGate : Gate → σ → Except EccErr σ} {correct : σ → σ} {freq : ℕ}
    {gates : List Gate} {e : EccErr} (h : ∀ g ∈ gates, ∀ s e', mapGate g s = .error e' → e' = e) (j : ℕ) (s : σ) {e' : EccErr}
    (he : loop mapGate correct freq j gates s = .error e') : e' = e := by
  induction gates generalizing j s with
  | nil => cases he
  | cons g gs ih =>
    simp only [loop] at he
    cases hm : mapGate g s with
    | error x => rw [hm] at he; cases he; exact h g List.mem_cons_self s _ hm
    | ok s₁ => rw [hm] at he; exact ih (fun x hx => h x (List.mem_cons_of_mem _ hx)) _ _ he

theorem loop_inv {σ : Type} {mapGate : Gate → σ → Except EccErr σ} {correct : σ → σ} {freq : ℕ} {P : σ → Prop}
    {gates : List Gate} (hm : ∀ g ∈ gates, ∀ s s', P s → mapGate g s = .ok s' → P s') (hc : ∀ s, P s → P (correct s)) (j : ℕ)
    {s s' : σ} (h : loop mapGate correct freq j gates s = .ok s') (hs : P s) : P s' := by
  induction gates generalizing j s with
  | nil => cases h; exact hs
  | cons g gs ih =>
    simp only [loop] at h
    cases hg : mapGate g s with
    | error e => rw [hg] at h; cases h
    | ok s₁ =>
      rw [hg] at h
      refine ih (fun x hx => hm x (List.mem_cons_of_mem _ hx)) _ h ?_
      have := hm g List.mem_cons_self s s₁ hs hg
      unfold periodic
      split
      · exact hc _ this
      · exact this

/-- The loop with a counter of the corrections it starts. -/
def counted {σ : Type} (mapGate : Gate → σ → Except EccErr σ) (g : Gate) (s : σ × ℕ) : Except EccErr (σ × ℕ) :=
  (mapGate g s.1).map fun s' => (s', s.2)

theorem loop_counted {σ : Type} (mapGate : Gate → σ → Except EccErr σ) (correct : σ → σ) (freq : ℕ) (gates : List Gate) (j c : ℕ)
    (s : σ) :
    loop (counted mapGate) (fun p => (correct p.1, p.2 + 1)) freq j gates (s, c) =
      (loop mapGate correct freq j gates s).map fun s' => (s', c + ((j + gates.length) / freq - j / freq)) := by
  induction gates generalizing j c s with
  | nil => simp [loop, Except.map]
  | cons g gs ih =>
    simp only [loop, counted]
    cases hm : mapGate g s with
    | error e => rfl
    | ok s₁ =>
      show loop (counted mapGate) _ freq (j + 1) gs (periodic _ freq (j + 1) (s₁, c)) = _
      show _ = Except.map _ (loop mapGate correct freq (j + 1) gs (periodic correct freq (j + 1) s₁))
      have hlen : j + (g :: gs).length = j + 1 + gs.length := by simp; omega
      rw [hlen]
      have hmono : (j + 1) / freq ≤ (j + 1 + gs.length) / freq := Nat.div_le_div_right (by omega)
      by_cases hf : 0 < freq ∧ (j + 1) % freq = 0
      · simp only [periodic, if_pos hf]
        rw [ih]
        have : (j + 1) / freq = j / freq + 1 := by
          rw [Nat.succ_div, if_pos (Nat.dvd_of_mod_eq_zero hf.2)]
        congr 1
        funext s'
        congr 1
        omega
      · simp only [periodic, if_neg hf]
        rw [ih]
        have : (j + 1) / freq = j / freq := by
          by_cases h0 : 0 < freq
          · rw [Nat.succ_div, if_neg fun hd => hf ⟨h0, Nat.mod_eq_zero_of_dvd hd⟩]; rfl
          · obtain rfl : freq = 0 := by omega
            rw [Nat.div_zero, Nat.div_zero]
        rw [this]

/-- With frequency `freq` a correction is started after every `freq`-th gate, and never with frequency 0: a loop that also
counts the corrections it starts computes the same state and the count `gates.length / freq`. -/
theorem C55_corrections (s : Scheme) (freq : ℕ) (gates : List Gate) (st : St) :
    loop (counted s.mapGate) (fun p => (s.measureAndCorrect p.1, p.2 + 1)) freq 0 gates (st, 0) =
      (loop s.mapGate s.measureAndCorrect freq 0 gates st).map fun st' => (st', gates.length / freq) := by
  rw [loop_counted]
  simp

example : (10 : ℕ) / 3 = 3 ∧ (10 : ℕ) / 0 = 0 := by decide

/-! ## Accepted circuits -/

/-- The circuit can be encoded iff all its operations are available; otherwise the error is `gateNotAvailable`. -/
def Accepts (s : Scheme) (plain controlled : List Op) : Prop :=
  ∀ n m freq gates, (∀ g ∈ gates, g.WF n m ∧ g.targets ≠ []) →
    ((∃ out, s.apply freq gates = .ok out) ↔ ∀ g ∈ gates, Available plain controlled g) ∧
      ∀ e, s.apply freq gates = .error e → e = .gateNotAvailable

theorem accepts_of {s : Scheme} {plain controlled : List Op}
    (h : ∀ n m g st, g.WF n m → g.targets ≠ [] → ((∃ st', s.mapGate g st = .ok st') ↔ Available plain controlled g) ∧
      ∀ e, s.mapGate g st = .error e → e = .gateNotAvailable) :
    Accepts s plain controlled := by
  intro n m freq gates hg
  rw [← loop_ok (mapGate := s.mapGate) (correct := s.measureAndCorrect) (freq := freq)
    (fun g hgm st => (h n m g st (hg g hgm).1 (hg g hgm).2).1) 0 ((s.writeEncoding {}).decoded false)]
  unfold Scheme.apply
  cases hl : loop s.mapGate s.measureAndCorrect freq 0 gates ((s.writeEncoding {}).decoded false) with
  | error e =>
    refine ⟨⟨fun ⟨_, h⟩ => (by cases h), fun ⟨_, h⟩ => (by cases h)⟩, fun e' he => ?_⟩
    cases he
    exact loop_error (fun g hgm st e' h' => (h n m g st (hg g hgm).1 (hg g hgm).2).2 e' h') _ _ hl
  | ok st => exact ⟨⟨fun _ => ⟨st, rfl⟩, fun _ => ⟨_, rfl⟩⟩, fun e he => (by cases he)⟩

theorem userMeasure_ok {n m : ℕ} {g : Gate} (h : g.WF n m) (ho : g.op = .measure) :
    userMeasure g = .ok (List.zipWith Instr.measure g.targets g.classics) := if_pos (h.2.2.2 ho).le
theorem userMeasureSwapped_ok {n m : ℕ} {g : Gate} (h : g.WF n m) (ho : g.op = .measure) :
    userMeasureSwapped g = .ok (List.zipWith Instr.measure g.classics g.targets) := if_pos (h.2.2.2 ho).le

theorem C55_accepts_q3 (n m : ℕ) :
    Accepts (q3Shor n m) [.I, .barrier, .X, .Y, .Z, .S, .Sdg, .T, .Tdg] [.I, .barrier, .X, .Y, .Z, .S, .Sdg, .T, .Tdg] := by
  refine accepts_of fun n' m' g st hwf ht => ?_
  show ((∃ st', Q3.mapGate n _ g st = .ok st') ↔ _) ∧ ∀ e, Q3.mapGate n _ g st = .error e → _
  unfold Q3.mapGate Available
  by_cases hc : g.controls = [] <;> cases ho : g.op <;> simp [hc, userMeasure_ok hwf, ho, Except.map]

theorem C55_accepts_q5 (n m : ℕ) : Accepts (q5Laflamme n m) [.I, .barrier, .X, .Y, .Z] [.I, .barrier] := by
  refine accepts_of fun n' m' g st hwf ht => ?_
  show ((∃ st', Q5.mapGate n m _ g st = .ok st') ↔ _) ∧ ∀ e, Q5.mapGate n m _ g st = .error e → _
  unfold Q5.mapGate Available
  by_cases hc : g.controls = [] <;> cases ho : g.op <;> simp [hc, ht, userMeasureSwapped_ok hwf, ho, Except.map]

theorem C55_accepts_q7 (n m : ℕ) :
    Accepts (q7Steane n m) [.I, .barrier, .X, .Y, .Z, .H, .S, .Sdg, .T, .Tdg] [.I, .barrier, .X, .Y, .Z, .H, .S, .Sdg] := by
  refine accepts_of fun n' m' g st hwf ht => ?_
  show ((∃ st', Q7.mapGate n m _ g st = .ok st') ↔ _) ∧ ∀ e, Q7.mapGate n m _ g st = .error e → _
  unfold Q7.mapGate Available
  by_cases hc : g.controls = [] <;> cases ho : g.op <;> simp [hc, ht, userMeasureSwapped_ok hwf, ho, Except.map]

theorem C55_accepts_q9 (n m : ℕ) : Accepts (q9Shor n m) [.I, .barrier, .X, .Y, .Z] [.I, .barrier, .X, .Y, .Z] := by
  refine accepts_of fun n' m' g st hwf ht => ?_
  show ((∃ st', Q9.mapGate n _ g st = .ok st') ↔ _) ∧ ∀ e, Q9.mapGate n _ g st = .error e → _
  unfold Q9.mapGate Available
  by_cases hc : g.controls = [] <;> cases ho : g.op <;> simp [hc, userMeasure_ok hwf, ho, Except.map]

theorem C55_accepts_surface9 (n m : ℕ) : Accepts (q9Surface n m) [.I, .barrier, .X, .Y, .Z, .H] [] := by
  refine accepts_of fun n' m' g st hwf ht => ?_
  show ((∃ st', S9.mapGate n _ g st = .ok st') ↔ _) ∧ ∀ e, S9.mapGate n _ g st = .error e → _
  unfold S9.mapGate Available
  by_cases hc : g.controls = [] <;> cases ho : g.op <;> simp [hc, userMeasure_ok hwf, ho, Except.map]

theorem C55_accepts_surface18 (n m : ℕ) : Accepts (q18Surface n m) [.I, .barrier, .X, .Y, .Z, .H] [] := by
  refine accepts_of fun n' m' g st hwf ht => ?_
  show ((∃ st', S18.mapGate n _ g st = .ok st') ↔ _) ∧ ∀ e, S18.mapGate n _ g st = .error e → _
  unfold S18.mapGate Available
  by_cases hc : g.controls = [] <;> cases ho : g.op <;> simp [hc, userMeasure_ok hwf, ho, Except.map]

/-- A circuit all of whose operations are well-formed and available, and one with an operation that is not. -/
example : (∀ g ∈ [({ op := .X, controls := [(0, true)], targets := [1] } : Gate), { op := .measure, targets := [1], classics := [0] }],
      g.WF 2 1 ∧ g.targets ≠ [] ∧ Available [.X] [.X] g) ∧ ¬ Available [.X] [.X] { op := .H, targets := [1] } := by
  refine ⟨fun g hg => ?_, by simp [Available]⟩
  rcases List.mem_cons.1 hg with rfl | hg
  · simp [Gate.WF, Available]
  · rw [List.mem_singleton] at hg; subst hg; simp [Gate.WF, Available]

end Verif.Ecc
