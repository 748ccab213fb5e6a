import Verif.Lemmas.Gadgets
import Verif.Lemmas.PauliFrame
import Mathlib.Data.List.Forall2
import Mathlib.Tactic.Abel

/-! # Faults in flag gadgets -/

namespace Verif.SP
open Verif Verif.Spec

variable {Q C : Type} [DecidableEq Q] [DecidableEq C]

/-- Propagate a frame through a circuit. -/
noncomputable def prop (l : List (Instr Q C)) (F : Frame Q C) : Frame Q C := l.foldl frameStep F

theorem prop_append (l l' : List (Instr Q C)) (F : Frame Q C) : prop (l ++ l') F = prop l' (prop l F) := by
  simp [prop]
theorem prop_cons (i : Instr Q C) (l : List (Instr Q C)) (F : Frame Q C) : prop (i :: l) F = prop l (frameStep F i) := rfl
theorem prop_nil (F : Frame Q C) : prop ([] : List (Instr Q C)) F = F := rfl

theorem prop_add (l : List (Instr Q C)) (F G : Frame Q C) : prop l (F + G) = prop l F + prop l G := by
  induction l generalizing F G with
  | nil => rfl
  | cons i l ih => rw [prop_cons, prop_cons, prop_cons, frameStep_add, ih]

theorem prop_zero (l : List (Instr Q C)) : prop l (0 : Frame Q C) = 0 := by
  have := prop_add l (0 : Frame Q C) 0
  rw [add_zero] at this
  exact left_eq_add.mp this

/-- A property of every instruction together with what follows it. -/
def AllSplits (p : Instr Q C → List (Instr Q C) → Prop) : List (Instr Q C) → Prop
  | [] => True
  | i :: l => p i l ∧ AllSplits p l

theorem AllSplits.append {p : Instr Q C → List (Instr Q C) → Prop} {l₁ l₂ : List (Instr Q C)}
    (h₁ : AllSplits (fun i r => p i (r ++ l₂)) l₁) (h₂ : AllSplits p l₂) : AllSplits p (l₁ ++ l₂) := by
  induction l₁ with
  | nil => exact h₂
  | cons i l ih => exact ⟨h₁.1, ih h₁.2⟩

/-- A property of all suffixes of a short list, with the instruction before them or at their head. -/
theorem AllSplits.of {p : Instr Q C → List (Instr Q C) → Prop} {l : List (Instr Q C)}
    (h : ∀ a i r, l = a ++ i :: r → p i r) : AllSplits p l := by
  induction l with
  | nil => trivial
  | cons i l ih => exact ⟨h [] i l rfl, ih fun a j r e => h (i :: a) j r (by rw [e]; rfl)⟩

/-- A noisy circuit's frame is the sum of what its faults become. -/
theorem noisyFrame_sum {M : Type} (E : M → Frame Q C → Prop) (N : List (NoisyInstr Q C)) (F : Frame Q C)
    (hf : AllFaults N)
    (h : AllSplits (fun i r => ∀ P : PauliErr Q, FaultAt i P →
      (∃ m, E m (prop (i :: r) (P, 0))) ∧ ∃ m, E m (prop r (P, 0))) (N.map NoisyInstr.instr)) :
    ∃ (ms : List M) (Fs : List (Frame Q C)), ms.length ≤ faultCount N ∧ List.Forall₂ E ms Fs ∧
      noisyFrame N F = prop (N.map NoisyInstr.instr) F + Fs.sum := by
  classical
  induction N generalizing F with
  | nil => exact ⟨[], [], by simp, .nil, by simp [noisyFrame, prop]⟩
  | cons L N ih =>
    obtain ⟨h1, h2⟩ := h
    obtain ⟨hfb, hfa⟩ := hf L (by simp)
    obtain ⟨ms, Fs, hlen, hE, hF⟩ := ih (frameStep (F + (L.before, 0)) L.instr + (L.after, 0))
      (fun L' hL' => hf L' (List.mem_cons_of_mem _ hL')) h2
    have hcount : faultCount (L :: N) = (if L.before = 0 then 0 else 1) + (if L.after = 0 then 0 else 1) + faultCount N := by
      unfold faultCount
      rw [List.map_cons, List.sum_cons]
      congr!
    have hexp : noisyFrame (L :: N) F = prop (List.map NoisyInstr.instr (L :: N)) F +
        (prop (L.instr :: N.map NoisyInstr.instr) (L.before, 0) + (prop (N.map NoisyInstr.instr) (L.after, 0) + Fs.sum)) := by
      show noisyFrame N (frameStep (F + (L.before, 0)) L.instr + (L.after, 0)) = _
      rw [hF, prop_add, List.map_cons, prop_cons, prop_cons, frameStep_add, prop_add]
      abel
    have hb : ∃ (ms' : List M) (Fs' : List (Frame Q C)), ms'.length ≤ (if L.before = 0 then 0 else 1) ∧
        List.Forall₂ E ms' Fs' ∧ Fs'.sum = prop (L.instr :: N.map NoisyInstr.instr) (L.before, 0) := by
      by_cases hz : L.before = 0
      · exact ⟨[], [], by simp, .nil, by rw [hz]; exact (prop_zero _).symm⟩
      · obtain ⟨m, hm⟩ := (h1 L.before hfb).1
        exact ⟨[m], [_], by simp [hz], .cons hm .nil, by simp⟩
    have ha : ∃ (ms' : List M) (Fs' : List (Frame Q C)), ms'.length ≤ (if L.after = 0 then 0 else 1) ∧
        List.Forall₂ E ms' Fs' ∧ Fs'.sum = prop (N.map NoisyInstr.instr) (L.after, 0) := by
      by_cases hz : L.after = 0
      · exact ⟨[], [], by simp, .nil, by rw [hz]; exact (prop_zero _).symm⟩
      · obtain ⟨m, hm⟩ := (h1 L.after hfa).2
        exact ⟨[m], [_], by simp [hz], .cons hm .nil, by simp⟩
    obtain ⟨m1, F1, l1, e1, s1⟩ := hb
    obtain ⟨m2, F2, l2, e2, s2⟩ := ha
    refine ⟨m1 ++ (m2 ++ ms), F1 ++ (F2 ++ Fs), ?_, List.rel_append e1 (List.rel_append e2 hE), ?_⟩
    · rw [hcount]; simp only [List.length_append]; omega
    · rw [hexp, List.sum_append, List.sum_append, s1, s2]

/-! ## Steps -/

/-- The flag a step acts on. -/
def onFlag (j : ℕ) : GStep Q → Bool
  | .data _ => false
  | .opn i => i = j
  | .close i => i = j

/-- The part of an operator that spreads from the ancilla. -/
def hk (z : Bool) (F : Frame Q C) (q : Q) : ZMod 2 := if z then F.1.2 q else F.1.1 q
/-- The other part. -/
def oth (z : Bool) (F : Frame Q C) (q : Q) : ZMod 2 := if z then F.1.1 q else F.1.2 q

/-- Hypotheses on qubits and bits. -/
structure Lay (anc : Q) (mbit : C) (flag : ℕ → Q) (fbit : ℕ → C) : Prop where
  inj : Function.Injective flag
  ne : ∀ j, flag j ≠ anc
  binj : Function.Injective fbit
  bne : ∀ j, fbit j ≠ mbit

/-- A data qubit. -/
def IsData (anc : Q) (flag : ℕ → Q) (q : Q) : Prop := q ≠ anc ∧ ∀ j, flag j ≠ q

variable (z : Bool) (anc : Q) (mbit : C) (flag : ℕ → Q) (fbit : ℕ → C)

/-- What the future of a flag reads: X before it is opened, the spreading part while it is open. -/
def phi (st : List (GStep Q)) (F : Frame Q C) (j : ℕ) : ZMod 2 :=
  F.2 (fbit j) + match st.find? (onFlag j) with
    | some (.opn _) => F.1.1 (flag j)
    | some (.close _) => hk z F (flag j)
    | _ => 0

/-- Flags are opened, closed and not used again. -/
def wfs : List (GStep Q) → Prop
  | [] => True
  | .data _ :: l => wfs l
  | .opn j :: l => (∃ i, l.find? (onFlag j) = some (.close i)) ∧ wfs l
  | .close j :: l => l.find? (onFlag j) = none ∧ wfs l

theorem zadd (a : ZMod 2) : a + a = 0 := by revert a; decide

theorem prop_step (hL : Lay anc mbit flag fbit) (g : GStep Q) (st : List (GStep Q)) (hw : wfs (g :: st)) (F : Frame Q C)
    (hd : ∀ q, g = .data q → IsData anc flag q) :
    hk z (prop (emit z anc flag fbit g) F) anc = hk z F anc ∧
    (∀ p, IsData anc flag p →
      hk z (prop (emit z anc flag fbit g) F) p = hk z F p + hk z F anc * ((dataOf [g]).count p : ZMod 2) ∧
      oth z (prop (emit z anc flag fbit g) F) p = oth z F p) ∧
    ∀ j, phi z flag fbit st (prop (emit z anc flag fbit g) F) j =
      phi z flag fbit (g :: st) F j + if onFlag j g then hk z F anc else 0 := by
  obtain ⟨⟨x, y⟩, fl⟩ := F
  cases g with
  | data q =>
    obtain ⟨h1, h2⟩ := hd q rfl
    have e : dataOf [GStep.data q] = [q] := rfl
    have hf : ∀ j, ((GStep.data q :: st).find? (onFlag j)) = st.find? (onFlag j) := fun j => by
      rw [List.find?_cons]; rfl
    cases z
    · refine ⟨?_, ?_, ?_⟩
      · simp [prop, emit, ancillaCnot, frameStep, hk, Finsupp.single_apply, h1]
      · intro p hp
        simp only [prop, emit, ancillaCnot, frameStep, hk, oth, e, Bool.false_eq_true, if_false, List.foldl_cons, List.foldl_nil,
          Finsupp.add_apply, Finsupp.single_apply, List.count_singleton]
        refine ⟨?_, ?_⟩
        · by_cases h : q = p <;> simp [h]
        · simp [hp.1.symm]
      · intro j
        simp only [phi, hf]
        simp only [prop, emit, ancillaCnot, frameStep, hk, Bool.false_eq_true, if_false, List.foldl_cons, List.foldl_nil,
          Finsupp.add_apply, Finsupp.single_apply, onFlag, (h2 j).symm, add_zero]
    · refine ⟨?_, ?_, ?_⟩
      · simp [prop, emit, ancillaCnot, frameStep, hk, Finsupp.single_apply, h1]
      · intro p hp
        simp only [prop, emit, ancillaCnot, frameStep, hk, oth, e, if_true, List.foldl_cons, List.foldl_nil,
          Finsupp.add_apply, Finsupp.single_apply, List.count_singleton]
        refine ⟨?_, ?_⟩
        · by_cases h : q = p <;> simp [h]
        · simp [hp.1.symm]
      · intro j
        simp only [phi, hf]
        simp only [prop, emit, ancillaCnot, frameStep, hk, Bool.false_eq_true, if_true, if_false, List.foldl_cons, List.foldl_nil,
          Finsupp.add_apply, Finsupp.single_apply, onFlag, (h2 j).symm, (hL.ne j).symm, add_zero]
  | opn i =>
    have e : dataOf [GStep.opn (Q := Q) i] = [] := rfl
    obtain ⟨⟨i', hi⟩, -⟩ := hw
    have hna := hL.ne i
    have hself : ∀ j, onFlag j (GStep.opn (Q := Q) i) = decide (i = j) := fun _ => rfl
    cases z
    · refine ⟨?_, ?_, ?_⟩
      · simp [prop, emit, ancillaCnot, flagInit, frameStep, hk, Finsupp.single_apply, hna]
      · intro p hp
        simp [prop, emit, ancillaCnot, flagInit, frameStep, hk, oth, e, Finsupp.single_apply, hp.1.symm, hp.2 i]
      · intro j
        by_cases hj : i = j
        · subst hj
          simp only [phi, hi, List.find?_cons, hself, decide_true]
          simp [prop, emit, ancillaCnot, flagInit, frameStep, hk, Finsupp.single_apply]
          ring
        · have hne : flag i ≠ flag j := fun h => hj (hL.inj h)
          simp only [phi, List.find?_cons, hself, hj, decide_false]
          simp [prop, emit, ancillaCnot, flagInit, frameStep, hk, Finsupp.single_apply, hne]
    · refine ⟨?_, ?_, ?_⟩
      · simp [prop, emit, ancillaCnot, flagInit, frameStep, hk, Finsupp.single_apply, hna]
      · intro p hp
        simp [prop, emit, ancillaCnot, flagInit, frameStep, hk, oth, e, Finsupp.single_apply, hp.1.symm, hp.2 i]
      · intro j
        by_cases hj : i = j
        · subst hj
          simp only [phi, hi, List.find?_cons, hself, decide_true]
          simp [prop, emit, ancillaCnot, flagInit, frameStep, hk, Finsupp.single_apply, hna]
          have := zadd (y (flag i))
          linear_combination this
        · have hne : flag i ≠ flag j := fun h => hj (hL.inj h)
          simp only [phi, List.find?_cons, hself, hj, decide_false]
          simp [prop, emit, ancillaCnot, flagInit, frameStep, hk, Finsupp.single_apply, hne, hna, (hL.ne j).symm]
  | close i =>
    have e : dataOf [GStep.close (Q := Q) i] = [] := rfl
    obtain ⟨hi, -⟩ := hw
    have hna := hL.ne i
    have hself : ∀ j, onFlag j (GStep.close (Q := Q) i) = decide (i = j) := fun _ => rfl
    cases z
    · refine ⟨?_, ?_, ?_⟩
      · simp [prop, emit, ancillaCnot, flagMeasure, frameStep, hk, Finsupp.single_apply, hna]
      · intro p hp
        simp [prop, emit, ancillaCnot, flagMeasure, frameStep, hk, oth, e, Finsupp.single_apply, hp.1.symm, hp.2 i]
      · intro j
        by_cases hj : i = j
        · subst hj
          simp only [phi, hi, List.find?_cons, hself, decide_true]
          simp [prop, emit, ancillaCnot, flagMeasure, frameStep, hk, Finsupp.single_apply]
          ring
        · have hne : flag i ≠ flag j := fun h => hj (hL.inj h)
          have hnb : fbit j ≠ fbit i := fun h => hj (hL.binj h.symm)
          simp only [phi, List.find?_cons, hself, hj, decide_false]
          simp [prop, emit, ancillaCnot, flagMeasure, frameStep, hk, Finsupp.single_apply, hne, Pi.single_apply, hnb]
    · refine ⟨?_, ?_, ?_⟩
      · simp [prop, emit, ancillaCnot, flagMeasure, frameStep, hk, Finsupp.single_apply, hna]
      · intro p hp
        simp [prop, emit, ancillaCnot, flagMeasure, frameStep, hk, oth, e, Finsupp.single_apply, hp.1.symm, hp.2 i]
      · intro j
        by_cases hj : i = j
        · subst hj
          simp only [phi, hi, List.find?_cons, hself, decide_true]
          simp [prop, emit, ancillaCnot, flagMeasure, frameStep, hk, Finsupp.single_apply, hna, hna.symm]
          have := zadd (x (flag i))
          linear_combination this
        · have hne : flag i ≠ flag j := fun h => hj (hL.inj h)
          have hnb : fbit j ≠ fbit i := fun h => hj (hL.binj h.symm)
          simp only [phi, List.find?_cons, hself, hj, decide_false]
          simp [prop, emit, ancillaCnot, flagMeasure, frameStep, hk, Finsupp.single_apply, hne, hna, (hL.ne j).symm,
            Pi.single_apply, hnb]

/-- What ends the gadget. -/
def tail : List (Instr Q C) := ancH z anc ++ [.measure anc mbit]

theorem prop_tail (hL : Lay anc mbit flag fbit) (F : Frame Q C) :
    (∀ p, IsData anc flag p → hk z (prop (tail z anc mbit) F) p = hk z F p ∧ oth z (prop (tail z anc mbit) F) p = oth z F p) ∧
    ∀ j, (prop (tail z anc mbit) F).2 (fbit j) = F.2 (fbit j) := by
  obtain ⟨⟨x, y⟩, fl⟩ := F
  cases z
  · refine ⟨fun p hp => ?_, fun j => ?_⟩
    · simp [tail, prop, ancH, frameStep, hk, oth, Finsupp.single_apply, hp.1.symm]
    · simp [tail, prop, ancH, frameStep, Pi.single_apply, hL.bne j]
  · refine ⟨fun p hp => ?_, fun j => ?_⟩
    · simp [tail, prop, ancH, frameStep, hk, oth]
    · simp [tail, prop, ancH, frameStep, Pi.single_apply, hL.bne j]

/-- Propagation to the end of the gadget. -/
theorem prop_rest (hL : Lay anc mbit flag fbit) (st : List (GStep Q)) (hw : wfs st) (F : Frame Q C)
    (hd : ∀ q ∈ dataOf st, IsData anc flag q) :
    (∀ p, IsData anc flag p →
      hk z (prop (st.flatMap (emit z anc flag fbit) ++ tail z anc mbit) F) p =
        hk z F p + hk z F anc * ((dataOf st).count p : ZMod 2) ∧
      oth z (prop (st.flatMap (emit z anc flag fbit) ++ tail z anc mbit) F) p = oth z F p) ∧
    ∀ j, (prop (st.flatMap (emit z anc flag fbit) ++ tail z anc mbit) F).2 (fbit j) =
      phi z flag fbit st F j + hk z F anc * (st.countP (onFlag j) : ZMod 2) := by
  induction st generalizing F with
  | nil =>
    obtain ⟨h1, h2⟩ := prop_tail z anc mbit flag fbit hL F
    refine ⟨fun p hp => ?_, fun j => ?_⟩
    · simpa [dataOf] using h1 p hp
    · simpa [phi] using h2 j
  | cons g st ih =>
    have e : dataOf (g :: st) = dataOf [g] ++ dataOf st := by
      simp only [dataOf]; rw [← List.filterMap_append]; rfl
    obtain ⟨a1, a2, a3⟩ := prop_step z anc mbit flag fbit hL g st hw F fun q hq => hd q (by rw [hq]; simp [dataOf])
    have hw' : wfs st := by cases g <;> simp only [wfs] at hw <;> first | exact hw | exact hw.2
    obtain ⟨b1, b2⟩ := ih hw' (prop (emit z anc flag fbit g) F) fun q hq => hd q (by rw [e]; exact List.mem_append_right _ hq)
    rw [List.flatMap_cons, List.append_assoc, prop_append]
    refine ⟨fun p hp => ?_, fun j => ?_⟩
    · rw [(b1 p hp).1, (b1 p hp).2, (a2 p hp).1, (a2 p hp).2, a1, e, List.count_append]
      push_cast
      exact ⟨by ring, rfl⟩
    · rw [b2, a3, a1, List.countP_cons]
      split <;> simp <;> ring

/-! ## Faults inside a step -/

/-- The step concerns the data qubit `p`. -/
def onData (p : Q) : GStep Q → Prop
  | .data q => q = p
  | _ => False

/-- What instructions of a step cannot change. -/
structure Pres (g : GStep Q) (F F' : Frame Q C) : Prop where
  hook : hk z F' anc = hk z F anc
  data : ∀ p, IsData anc flag p → (¬ onData p g ∨ hk z F anc = 0) → F'.1.1 p = F.1.1 p ∧ F'.1.2 p = F.1.2 p
  flgs : ∀ j, onFlag j g = false → F'.1.1 (flag j) = F.1.1 (flag j) ∧ F'.1.2 (flag j) = F.1.2 (flag j) ∧
    F'.2 (fbit j) = F.2 (fbit j)
  null : ∀ j, hk z F anc = 0 → F.1.1 (flag j) = 0 → F.1.2 (flag j) = 0 → F.2 (fbit j) = 0 →
    F'.1.1 (flag j) = 0 ∧ F'.1.2 (flag j) = 0 ∧ F'.2 (fbit j) = 0

theorem Pres.rfl' (g : GStep Q) (F : Frame Q C) : Pres z anc flag fbit g F F :=
  ⟨rfl, fun _ _ _ => ⟨rfl, rfl⟩, fun _ _ => ⟨rfl, rfl, rfl⟩, fun _ _ a b c => ⟨a, b, c⟩⟩

theorem Pres.trans {g : GStep Q} {F F' F'' : Frame Q C} (h : Pres z anc flag fbit g F F')
    (h' : Pres z anc flag fbit g F' F'') : Pres z anc flag fbit g F F'' where
  hook := h'.hook.trans h.hook
  data p hp hq := by
    obtain ⟨a, b⟩ := h.data p hp hq
    obtain ⟨a', b'⟩ := h'.data p hp (by rw [h.hook]; exact hq)
    exact ⟨a'.trans a, b'.trans b⟩
  flgs j hj := by
    obtain ⟨a, b, c⟩ := h.flgs j hj
    obtain ⟨a', b', c'⟩ := h'.flgs j hj
    exact ⟨a'.trans a, b'.trans b, c'.trans c⟩
  null j h0 a b c := by
    obtain ⟨a', b', c'⟩ := h.null j h0 a b c
    exact h'.null j (by rw [h.hook]; exact h0) a' b' c'

theorem pres_instr (hL : Lay anc mbit flag fbit) (g : GStep Q) (hd : ∀ q, g = .data q → IsData anc flag q) (F : Frame Q C)
    (i : Instr Q C) (hi : i ∈ emit z anc flag fbit g) : Pres z anc flag fbit g F (frameStep F i) := by
  obtain ⟨⟨x, y⟩, fl⟩ := F
  have key : ∀ q, (∀ j, flag j ≠ q) ∨ (∃ j, q = flag j ∧ onFlag j g = true) → q ≠ anc → (IsData anc flag q → onData q g) →
      i ∈ ancillaCnot z anc q → Pres z anc flag fbit g ((x, y), fl) (frameStep ((x, y), fl) i) := by
    intro q hq hqa hqd hi
    cases z
    · simp only [ancillaCnot, Bool.false_eq_true, if_false, List.mem_singleton] at hi
      subst hi
      refine ⟨?_, ?_, ?_, ?_⟩
      · simp [frameStep, hk, Finsupp.single_apply, hqa]
      · intro p hp hor
        simp only [frameStep, hk, Bool.false_eq_true, if_false, Finsupp.add_apply, Finsupp.single_apply, hp.1.symm, add_zero,
          and_true] at hor ⊢
        by_cases hpq : q = p
        · subst hpq
          rcases hor with hor | hor
          · exact absurd (hqd hp) hor
          · simp [hor]
        · simp [hpq]
      · intro j hj
        have : q ≠ flag j := by
          rcases hq with hq | ⟨j', rfl, h'⟩
          · exact (hq j).symm
          · intro h
            have := hL.inj h
            subst this
            rw [hj] at h'; cases h'
        simp [frameStep, Finsupp.single_apply, this, (hL.ne j).symm]
      · intro j h0 a b c
        simp only [hk, Bool.false_eq_true, if_false] at h0 a b c
        simp [frameStep, Finsupp.single_apply, a, b, c, h0, (hL.ne j).symm]
    · simp only [ancillaCnot, if_true, List.mem_singleton] at hi
      subst hi
      refine ⟨?_, ?_, ?_, ?_⟩
      · simp [frameStep, hk, Finsupp.single_apply, hqa]
      · intro p hp hor
        simp only [frameStep, hk, if_true, Finsupp.add_apply, Finsupp.single_apply, hp.1.symm, if_false, add_zero,
          true_and] at hor ⊢
        by_cases hpq : q = p
        · subst hpq
          rcases hor with hor | hor
          · exact absurd (hqd hp) hor
          · simp [hor]
        · simp [hpq]
      · intro j hj
        have : q ≠ flag j := by
          rcases hq with hq | ⟨j', rfl, h'⟩
          · exact (hq j).symm
          · intro h
            have := hL.inj h
            subst this
            rw [hj] at h'; cases h'
        simp [frameStep, Finsupp.single_apply, this, (hL.ne j).symm]
      · intro j h0 a b c
        simp only [hk, if_true] at h0 a b c
        simp [frameStep, Finsupp.single_apply, a, b, c, h0, (hL.ne j).symm]
  have keyH : ∀ k, onFlag k g = true → i = .h (flag k) → Pres z anc flag fbit g ((x, y), fl) (frameStep ((x, y), fl) i) := by
    rintro k hk' rfl
    refine ⟨?_, ?_, ?_, ?_⟩
    · cases z <;> simp [frameStep, hk, Finsupp.single_apply, hL.ne k]
    · intro p hp _
      simp [frameStep, Finsupp.single_apply, hp.2 k]
    · intro j hj
      have : flag k ≠ flag j := by
        intro h
        have := hL.inj h
        subst this
        rw [hj] at hk'; cases hk'
      simp [frameStep, Finsupp.single_apply, this]
    · intro j h0 a b c
      simp only at a b c
      by_cases hkj : flag k = flag j
      · simp [frameStep, hkj, a, b, c]
      · simp [frameStep, Finsupp.single_apply, hkj, a, b, c]
  have keyM : ∀ k, onFlag k g = true → i = .measure (flag k) (fbit k) →
      Pres z anc flag fbit g ((x, y), fl) (frameStep ((x, y), fl) i) := by
    rintro k hk' rfl
    refine ⟨rfl, fun _ _ _ => ⟨rfl, rfl⟩, ?_, ?_⟩
    · intro j hj
      have : fbit j ≠ fbit k := by
        intro h
        have := hL.binj h
        subst this
        rw [hj] at hk'; cases hk'
      simp [frameStep, Pi.single_apply, this]
    · intro j h0 a b c
      simp only at a b c
      by_cases hkj : j = k
      · subst hkj; simp [frameStep, a, b, c]
      · have : fbit j ≠ fbit k := fun h => hkj (hL.binj h)
        simp [frameStep, a, b, c, Pi.single_apply, this]
  cases g with
  | data q =>
    obtain ⟨h1, h2⟩ := hd q rfl
    exact key q (.inl h2) h1 (fun _ => rfl) hi
  | opn k =>
    simp only [emit, List.mem_append] at hi
    have hk' : onFlag k (GStep.opn (Q := Q) k) = true := by simp [onFlag]
    rcases hi with hi | hi
    · refine keyH k hk' ?_
      cases z <;> simp [flagInit] at hi
      exact hi
    · exact key (flag k) (.inr ⟨k, rfl, hk'⟩) (hL.ne k) (fun h => absurd rfl (h.2 k)) hi
  | close k =>
    simp only [emit, List.mem_append] at hi
    have hk' : onFlag k (GStep.close (Q := Q) k) = true := by simp [onFlag]
    rcases hi with hi | hi
    · exact key (flag k) (.inr ⟨k, rfl, hk'⟩) (hL.ne k) (fun h => absurd rfl (h.2 k)) hi
    · cases z
      · simp only [flagMeasure, Bool.false_eq_true, if_false, List.nil_append, List.mem_singleton] at hi
        exact keyM k hk' hi
      · simp only [flagMeasure, if_true, List.cons_append, List.nil_append, List.mem_cons, List.not_mem_nil, or_false] at hi
        rcases hi with hi | hi
        · exact keyH k hk' hi
        · exact keyM k hk' hi

theorem pres_list (hL : Lay anc mbit flag fbit) (g : GStep Q) (hd : ∀ q, g = .data q → IsData anc flag q) (r : List (Instr Q C))
    (hr : ∀ i ∈ r, i ∈ emit z anc flag fbit g) (F : Frame Q C) : Pres z anc flag fbit g F (prop r F) := by
  induction r generalizing F with
  | nil => exact Pres.rfl' z anc flag fbit g F
  | cons i r ih =>
    exact (pres_instr z anc mbit flag fbit hL g hd F i (hr i (by simp))).trans z anc flag fbit
      (ih (fun i' hi' => hr i' (List.mem_cons_of_mem _ hi')) (frameStep F i))

/-! ## Moves -/

/-- What one fault amounts to: an error spreading from the ancilla after `k` steps (with or without the flag of the last step
flipped), a flipped flag, or an error on one qubit. -/
inductive Move (Q : Type)
  | hook (k : ℕ) (b : Bool)
  | flip (j : ℕ)
  | loc (q : Q)

/-- The step before position `k`. -/
def lastStep (st : List (GStep Q)) (k : ℕ) : Option (GStep Q) := if k = 0 then none else st[k - 1]?

/-- The part of a move that spread to the data qubit `p`. -/
def Move.data (st : List (GStep Q)) (p : Q) : Move Q → ZMod 2
  | .hook k _ => ((dataOf (st.drop k)).count p : ZMod 2)
  | _ => 0

/-- Whether a move flips flag `j`. -/
def Move.flagFlip (st : List (GStep Q)) (j : ℕ) : Move Q → ZMod 2
  | .hook k b => ((st.drop k).countP (onFlag j) : ZMod 2) + if b && (lastStep st k).any (onFlag j) then 1 else 0
  | .flip i => if i = j then 1 else 0
  | .loc _ => 0

/-- The data qubits a move may hit directly. -/
def Move.locals (st : List (GStep Q)) : Move Q → List Q
  | .hook k _ => match lastStep st k with
    | some (.data q) => [q]
    | _ => []
  | .flip _ => []
  | .loc q => [q]

/-- The position exists. -/
def Move.Valid (st : List (GStep Q)) : Move Q → Prop
  | .hook k _ => k ≤ st.length
  | _ => True

/-- A move explains a final frame. -/
structure Expl (st : List (GStep Q)) (m : Move Q) (F : Frame Q C) : Prop where
  valid : m.Valid st
  data : ∀ p, IsData anc flag p → p ∉ m.locals st → hk z F p = m.data st p ∧ oth z F p = 0
  flags : ∀ j, F.2 (fbit j) = m.flagFlip st j

theorem phi_zero (st : List (GStep Q)) (F : Frame Q C) (j : ℕ) (h1 : F.1.1 (flag j) = 0) (h2 : F.1.2 (flag j) = 0)
    (h3 : F.2 (fbit j) = 0) : phi z flag fbit st F j = 0 := by
  unfold phi
  rw [h3, zero_add]
  split
  · exact h1
  · cases z <;> simp [hk, h1, h2]
  · rfl

theorem hk_zero (F : Frame Q C) (p : Q) (h1 : F.1.1 p = 0) (h2 : F.1.2 p = 0) : hk z F p = 0 ∧ oth z F p = 0 := by
  cases z <;> simp [hk, oth, h1, h2]

theorem cls_loc (hL : Lay anc mbit flag fbit) (st st2 : List (GStep Q)) (hw : wfs st2) (hd : ∀ q ∈ dataOf st2, IsData anc flag q)
    (F : Frame Q C) (q : Q) (h0 : hk z F anc = 0)
    (hdat : ∀ p, IsData anc flag p → p ≠ q → F.1.1 p = 0 ∧ F.1.2 p = 0)
    (hfl : ∀ j, F.1.1 (flag j) = 0 ∧ F.1.2 (flag j) = 0 ∧ F.2 (fbit j) = 0) :
    Expl z anc flag fbit st (.loc q) (prop (st2.flatMap (emit z anc flag fbit) ++ tail z anc mbit) F) := by
  obtain ⟨a, b⟩ := prop_rest z anc mbit flag fbit hL st2 hw F hd
  refine ⟨trivial, fun p hp hq => ?_, fun j => ?_⟩
  · have hpq : p ≠ q := by simpa [Move.locals] using hq
    obtain ⟨h1, h2⟩ := hdat p hp hpq
    obtain ⟨e1, e2⟩ := hk_zero z F p h1 h2
    rw [(a p hp).1, (a p hp).2, h0, e1, e2]
    simp [Move.data]
  · obtain ⟨h1, h2, h3⟩ := hfl j
    rw [b, h0, phi_zero z flag fbit st2 F j h1 h2 h3]
    simp [Move.flagFlip]

theorem cls_flip (hL : Lay anc mbit flag fbit) (st st2 : List (GStep Q)) (hw : wfs st2) (hd : ∀ q ∈ dataOf st2, IsData anc flag q)
    (F : Frame Q C) (i : ℕ) (h0 : hk z F anc = 0)
    (hdat : ∀ p, IsData anc flag p → F.1.1 p = 0 ∧ F.1.2 p = 0)
    (hfl : ∀ j, j ≠ i → F.1.1 (flag j) = 0 ∧ F.1.2 (flag j) = 0 ∧ F.2 (fbit j) = 0) :
    ∃ m, Expl z anc flag fbit st m (prop (st2.flatMap (emit z anc flag fbit) ++ tail z anc mbit) F) := by
  obtain ⟨a, b⟩ := prop_rest z anc mbit flag fbit hL st2 hw F hd
  have hb : ∀ c : ZMod 2, c = 0 ∨ c = 1 := by decide
  rcases hb (phi z flag fbit st2 F i) with hphi | hphi
  · refine ⟨.loc anc, trivial, fun p hp hq => ?_, fun j => ?_⟩
    · obtain ⟨h1, h2⟩ := hdat p hp
      obtain ⟨e1, e2⟩ := hk_zero z F p h1 h2
      rw [(a p hp).1, (a p hp).2, h0, e1, e2]
      simp [Move.data]
    · rw [b, h0]
      by_cases hj : j = i
      · subst hj; rw [hphi]; simp [Move.flagFlip]
      · obtain ⟨h1, h2, h3⟩ := hfl j hj
        rw [phi_zero z flag fbit st2 F j h1 h2 h3]
        simp [Move.flagFlip]
  · refine ⟨.flip i, trivial, fun p hp hq => ?_, fun j => ?_⟩
    · obtain ⟨h1, h2⟩ := hdat p hp
      obtain ⟨e1, e2⟩ := hk_zero z F p h1 h2
      rw [(a p hp).1, (a p hp).2, h0, e1, e2]
      simp [Move.data]
    · rw [b, h0]
      by_cases hj : j = i
      · subst hj; rw [hphi]; simp [Move.flagFlip]
      · obtain ⟨h1, h2, h3⟩ := hfl j hj
        rw [phi_zero z flag fbit st2 F j h1 h2 h3]
        simp [Move.flagFlip, Ne.symm hj]

theorem cls_hook (hL : Lay anc mbit flag fbit) (st1 : List (GStep Q)) (g : GStep Q) (st2 : List (GStep Q)) (hw : wfs st2)
    (hd : ∀ q ∈ dataOf st2, IsData anc flag q) (F : Frame Q C)
    (hdat : ∀ p, IsData anc flag p → ¬ onData p g → F.1.1 p = 0 ∧ F.1.2 p = 0)
    (hfl : ∀ j, onFlag j g = false → F.1.1 (flag j) = 0 ∧ F.1.2 (flag j) = 0 ∧ F.2 (fbit j) = 0) :
    ∃ m, Expl z anc flag fbit (st1 ++ g :: st2) m (prop (st2.flatMap (emit z anc flag fbit) ++ tail z anc mbit) F) := by
  have hb : ∀ c : ZMod 2, c = 0 ∨ c = 1 := by decide
  have hlast : lastStep (st1 ++ g :: st2) (st1.length + 1) = some g := by simp [lastStep]
  have hdrop : (st1 ++ g :: st2).drop (st1.length + 1) = st2 := by
    rw [← List.drop_drop, List.drop_left]; rfl
  rcases hb (hk z F anc) with h0 | h1
  · cases g with
    | data q =>
      exact ⟨_, cls_loc z anc mbit flag fbit hL _ st2 hw hd F q h0 (fun p hp hpq => hdat p hp fun h => hpq (Eq.symm h))
        fun j => hfl j rfl⟩
    | opn i =>
      exact cls_flip z anc mbit flag fbit hL _ st2 hw hd F i h0 (fun p hp => hdat p hp fun h => h)
        fun j hj => hfl j (by simp [onFlag, Ne.symm hj])
    | close i =>
      exact cls_flip z anc mbit flag fbit hL _ st2 hw hd F i h0 (fun p hp => hdat p hp fun h => h)
        fun j hj => hfl j (by simp [onFlag, Ne.symm hj])
  · obtain ⟨a, b⟩ := prop_rest z anc mbit flag fbit hL st2 hw F hd
    have hdata : ∀ (bb : Bool), ∀ p, IsData anc flag p → p ∉ (Move.hook (st1.length + 1) bb).locals (st1 ++ g :: st2) →
        hk z (prop (st2.flatMap (emit z anc flag fbit) ++ tail z anc mbit) F) p =
          (Move.hook (st1.length + 1) bb).data (st1 ++ g :: st2) p ∧
        oth z (prop (st2.flatMap (emit z anc flag fbit) ++ tail z anc mbit) F) p = 0 := by
      intro bb p hp hq
      have hng : ¬ onData p g := by
        simp only [Move.locals, hlast] at hq
        cases g with
        | data q => simp only [List.mem_singleton] at hq; exact fun h => hq (Eq.symm h)
        | opn i => exact fun h => h
        | close i => exact fun h => h
      obtain ⟨e1, e2⟩ := hdat p hp hng
      obtain ⟨e1, e2⟩ := hk_zero z F p e1 e2
      rw [(a p hp).1, (a p hp).2, h1, e1, e2]
      simp [Move.data, hdrop]
    have hval : ∀ bb, (Move.hook (Q := Q) (st1.length + 1) bb).Valid (st1 ++ g :: st2) := by
      intro bb; simp [Move.Valid]
    by_cases hgf : ∃ i, onFlag i g = true
    · obtain ⟨i, hi⟩ := hgf
      have huniq : ∀ j, onFlag j g = true → j = i := by
        intro j hj
        cases g with
        | data q => cases hi
        | opn k => simp only [onFlag, decide_eq_true_eq] at hi hj; omega
        | close k => simp only [onFlag, decide_eq_true_eq] at hi hj; omega
      refine ⟨.hook (st1.length + 1) (decide (phi z flag fbit st2 F i = 1)), hval _, hdata _, fun j => ?_⟩
      rw [b, h1]
      simp only [Move.flagFlip, hlast, hdrop, Option.any_some]
      cases hj : onFlag j g with
      | true =>
        have := huniq j hj
        subst this
        rcases hb (phi z flag fbit st2 F j) with hp | hp <;> simp [hp] <;> ring
      | false =>
        obtain ⟨h1, h2, h3⟩ := hfl j hj
        rw [phi_zero z flag fbit st2 F j h1 h2 h3]
        simp
    · refine ⟨.hook (st1.length + 1) false, hval _, hdata _, fun j => ?_⟩
      have hj : onFlag j g = false := by
        cases h : onFlag j g with
        | true => exact absurd ⟨j, h⟩ hgf
        | false => rfl
      obtain ⟨e1, e2, e3⟩ := hfl j hj
      rw [b, h1, phi_zero z flag fbit st2 F j e1 e2 e3]
      simp [Move.flagFlip, hdrop]

theorem cls_start (hL : Lay anc mbit flag fbit) (st : List (GStep Q)) (hw : wfs st)
    (hd : ∀ q ∈ dataOf st, IsData anc flag q) (F : Frame Q C)
    (hdat : ∀ p, IsData anc flag p → F.1.1 p = 0 ∧ F.1.2 p = 0)
    (hfl : ∀ j, F.1.1 (flag j) = 0 ∧ F.1.2 (flag j) = 0 ∧ F.2 (fbit j) = 0) :
    ∃ m, Expl z anc flag fbit st m (prop (st.flatMap (emit z anc flag fbit) ++ tail z anc mbit) F) := by
  have hb : ∀ c : ZMod 2, c = 0 ∨ c = 1 := by decide
  rcases hb (hk z F anc) with h0 | h1
  · exact ⟨_, cls_loc z anc mbit flag fbit hL _ st hw hd F anc h0 (fun p hp _ => hdat p hp) hfl⟩
  · obtain ⟨a, b⟩ := prop_rest z anc mbit flag fbit hL st hw F hd
    refine ⟨.hook 0 false, Nat.zero_le _, fun p hp _ => ?_, fun j => ?_⟩
    · obtain ⟨e1, e2⟩ := hdat p hp
      obtain ⟨e1, e2⟩ := hk_zero z F p e1 e2
      rw [(a p hp).1, (a p hp).2, h1, e1, e2]
      simp [Move.data]
    · obtain ⟨e1, e2, e3⟩ := hfl j
      rw [b, h1, phi_zero z flag fbit st F j e1 e2 e3]
      simp [Move.flagFlip]

/-- The qubit of a step. -/
def stepQubit : GStep Q → Q
  | .data q => q
  | .opn j => flag j
  | .close j => flag j

theorem not_acts {P : PauliErr Q} {p : Q} (h : ¬ P.ActsOn p) : P.1 p = 0 ∧ P.2 p = 0 := by
  unfold PauliErr.ActsOn at h
  push Not at h
  exact h

omit [DecidableEq Q] [DecidableEq C] in
theorem emit_qubits (g : GStep Q) (i : Instr Q C) (hi : i ∈ emit z anc flag fbit g) :
    ∀ q ∈ i.qubits, q = anc ∨ q = stepQubit flag g := by
  have hc : ∀ p, i ∈ ancillaCnot z anc p → ∀ q ∈ i.qubits, q = anc ∨ q = p := by
    intro p hp q hq
    cases z <;> simp only [ancillaCnot, if_true, if_false, Bool.false_eq_true, List.mem_singleton] at hp <;> subst hp <;>
      simp only [Instr.qubits, List.mem_cons, List.not_mem_nil, or_false] at hq <;> tauto
  cases g with
  | data q => exact hc q hi
  | opn j =>
    simp only [emit, List.mem_append] at hi
    rcases hi with hi | hi
    · cases z <;> simp [flagInit] at hi
      subst hi
      intro q hq
      simp only [Instr.qubits, List.mem_singleton] at hq
      exact .inr hq
    · exact hc (flag j) hi
  | close j =>
    simp only [emit, List.mem_append] at hi
    rcases hi with hi | hi
    · exact hc (flag j) hi
    · simp only [flagMeasure, List.mem_append, List.mem_singleton] at hi
      intro q hq
      rcases hi with hi | hi
      · cases z <;> simp at hi
        subst hi
        simp only [Instr.qubits, List.mem_singleton] at hq
        exact .inr hq
      · subst hi
        simp only [Instr.qubits, List.mem_singleton] at hq
        exact .inr hq

/-- A fault during a step. -/
theorem fault_in_step (hL : Lay anc mbit flag fbit) (st1 : List (GStep Q)) (g : GStep Q) (st2 : List (GStep Q)) (hw : wfs st2)
    (hd : ∀ q ∈ dataOf st2, IsData anc flag q) (hg : ∀ q, g = .data q → IsData anc flag q)
    (i : Instr Q C) (hi : i ∈ emit z anc flag fbit g) (r : List (Instr Q C)) (hr : ∀ i ∈ r, i ∈ emit z anc flag fbit g)
    (P : PauliErr Q) (hP : FaultAt i P) :
    ∃ m, Expl z anc flag fbit (st1 ++ g :: st2) m
      (prop (r ++ (st2.flatMap (emit z anc flag fbit) ++ tail z anc mbit)) (P, 0)) := by
  have hpres := pres_list z anc mbit flag fbit hL g hg r hr (P, 0)
  rw [prop_append]
  set F := prop r (P, (0 : C → ZMod 2)) with hF
  have hB : (∀ p, P.ActsOn p → p = anc ∨ p = stepQubit flag g) →
      ∃ m, Expl z anc flag fbit (st1 ++ g :: st2) m (prop (st2.flatMap (emit z anc flag fbit) ++ tail z anc mbit) F) := by
    intro hs
    refine cls_hook z anc mbit flag fbit hL st1 g st2 hw hd F (fun p hp hng => ?_) fun j hj => ?_
    · obtain ⟨e1, e2⟩ := hpres.data p hp (.inl hng)
      have : ¬ P.ActsOn p := by
        intro h
        rcases hs p h with h | h
        · exact hp.1 h
        · cases g with
          | data q => exact hng h.symm
          | opn k => exact hp.2 k h.symm
          | close k => exact hp.2 k h.symm
      rw [e1, e2]
      exact not_acts this
    · obtain ⟨e1, e2, e3⟩ := hpres.flgs j hj
      have : ¬ P.ActsOn (flag j) := by
        intro h
        rcases hs _ h with h | h
        · exact hL.ne j h
        · cases g with
          | data q => exact (hg q rfl).2 j h
          | opn k =>
            have := hL.inj h
            simp [onFlag, this] at hj
          | close k =>
            have := hL.inj h
            simp [onFlag, this] at hj
      rw [e1, e2, e3]
      exact ⟨(not_acts this).1, (not_acts this).2, rfl⟩
  rcases hP with ⟨q, hq⟩ | hq
  · by_cases hB' : q = anc ∨ q = stepQubit flag g
    · exact hB fun p hp => by rw [hq p hp]; exact hB'
    · push Not at hB'
      have h0 : hk z ((P, 0) : Frame Q C) anc = 0 := by
        obtain ⟨e1, e2⟩ := not_acts (P := P) (p := anc) fun h => hB'.1 (hq anc h).symm
        exact (hk_zero z ((P, 0) : Frame Q C) anc e1 e2).1
      have h0' : hk z F anc = 0 := hpres.hook.trans h0
      by_cases hqd : IsData anc flag q
      · refine ⟨_, cls_loc z anc mbit flag fbit hL _ st2 hw hd F q h0' (fun p hp hpq => ?_) fun j => ?_⟩
        · obtain ⟨e1, e2⟩ := hpres.data p hp (.inr h0)
          rw [e1, e2]
          exact not_acts fun h => hpq (hq p h)
        · obtain ⟨e1, e2⟩ := not_acts (P := P) (p := flag j) fun h => hqd.2 j (hq _ h)
          exact hpres.null j h0 e1 e2 rfl
      · have : ∃ j, flag j = q := by
          by_contra hcon
          push Not at hcon
          exact hqd ⟨hB'.1, hcon⟩
        obtain ⟨k, hk'⟩ := this
        refine cls_flip z anc mbit flag fbit hL _ st2 hw hd F k h0' (fun p hp => ?_) fun j hj => ?_
        · obtain ⟨e1, e2⟩ := hpres.data p hp (.inr h0)
          rw [e1, e2]
          exact not_acts fun h => hp.2 k (hk'.trans (hq p h).symm)
        · obtain ⟨e1, e2⟩ := not_acts (P := P) (p := flag j) fun h => hj (hL.inj ((hq _ h).trans hk'.symm))
          exact hpres.null j h0 e1 e2 rfl
  · exact hB fun p hp => emit_qubits z anc flag fbit g i hi p (hq p hp)

/-- A fault at the end. -/
theorem fault_in_tail (hL : Lay anc mbit flag fbit) (st : List (GStep Q)) (i : Instr Q C) (hi : i ∈ tail z anc mbit)
    (r : List (Instr Q C)) (hr : ∀ i ∈ r, i ∈ tail z anc mbit) (P : PauliErr Q) (hP : FaultAt i P) :
    ∃ m, Expl z anc flag fbit st m (prop r (P, 0)) := by
  have hmem : ∀ i' : Instr Q C, i' ∈ tail z anc mbit → i' = .h anc ∨ i' = .measure anc mbit := by
    intro i' hi'
    cases z <;> simp [tail, ancH] at hi' <;> tauto
  have hpres : ∀ F : Frame Q C, (∀ p, IsData anc flag p → (prop r F).1.1 p = F.1.1 p ∧ (prop r F).1.2 p = F.1.2 p) ∧
      ∀ j, (prop r F).2 (fbit j) = F.2 (fbit j) := by
    clear hP hi
    induction r with
    | nil => exact fun F => ⟨fun _ _ => ⟨rfl, rfl⟩, fun _ => rfl⟩
    | cons i' r ih =>
      intro F
      obtain ⟨a, b⟩ := ih (fun i'' h => hr i'' (List.mem_cons_of_mem _ h)) (frameStep F i')
      rcases hmem i' (hr i' (by simp)) with rfl | rfl
      · refine ⟨fun p hp => ?_, fun j => ?_⟩
        · rw [prop_cons, (a p hp).1, (a p hp).2]
          simp [frameStep, Finsupp.single_apply, hp.1.symm]
        · rw [prop_cons, b]; rfl
      · refine ⟨fun p hp => ?_, fun j => ?_⟩
        · rw [prop_cons, (a p hp).1, (a p hp).2]
          exact ⟨rfl, rfl⟩
        · rw [prop_cons, b]; simp [frameStep, Pi.single_apply, hL.bne j]
  have hq : ∃ q, ∀ p, P.ActsOn p → p = q := by
    rcases hP with hP | hP
    · exact hP
    · refine ⟨anc, fun p hp => ?_⟩
      have := hP p hp
      rcases hmem i hi with rfl | rfl <;> simpa [Instr.qubits] using this
  obtain ⟨q, hq⟩ := hq
  obtain ⟨a, b⟩ := hpres (P, 0)
  refine ⟨.loc q, trivial, fun p hp hpq => ?_, fun j => by rw [b]; rfl⟩
  have hpq : p ≠ q := by simpa [Move.locals] using hpq
  obtain ⟨e1, e2⟩ := not_acts (P := P) (p := p) fun h => hpq (hq p h)
  obtain ⟨a1, a2⟩ := a p hp
  exact hk_zero z _ p (a1.trans e1) (a2.trans e2)

/-- Every fault of a gadget amounts to a move. -/
theorem fault_moves (hL : Lay anc mbit flag fbit) (st : List (GStep Q)) (hw : wfs st)
    (hd : ∀ q ∈ dataOf st, IsData anc flag q) :
    AllSplits (fun i r => ∀ P : PauliErr Q, FaultAt i P →
      (∃ m, Expl z anc flag fbit st m (prop (i :: r) (P, 0))) ∧ ∃ m, Expl z anc flag fbit st m (prop r (P, 0)))
      (gadget z anc mbit flag fbit st) := by
  have hmain : ∀ st2 st1, st = st1 ++ st2 → wfs st2 → AllSplits (fun i r => ∀ P : PauliErr Q, FaultAt i P →
      (∃ m, Expl z anc flag fbit st m (prop (i :: r) (P, 0))) ∧ ∃ m, Expl z anc flag fbit st m (prop r (P, 0)))
      (st2.flatMap (emit z anc flag fbit) ++ tail z anc mbit) := by
    intro st2
    induction st2 with
    | nil =>
      intro st1 _ _
      refine AllSplits.of fun a i r e P hP => ?_
      rw [List.flatMap_nil, List.nil_append] at e
      refine ⟨fault_in_tail z anc mbit flag fbit hL st i ?_ (i :: r) ?_ P hP, fault_in_tail z anc mbit flag fbit hL st i ?_ r ?_ P hP⟩
      · rw [e]; simp
      · rw [e]; intro i' hi'; exact List.mem_append_right _ hi'
      · rw [e]; simp
      · rw [e]; intro i' hi'; exact List.mem_append_right _ (List.mem_cons_of_mem _ hi')
    | cons g st2 ih =>
      intro st1 he hw2
      have hw' : wfs st2 := by cases g <;> simp only [wfs] at hw2 <;> first | exact hw2 | exact hw2.2
      have hds : ∀ q ∈ dataOf (g :: st2), IsData anc flag q := fun q hq => hd q (by
        rw [he]; simp only [dataOf, List.filterMap_append, List.mem_append]; exact .inr hq)
      have hd2 : ∀ q ∈ dataOf st2, IsData anc flag q := fun q hq => hds q (by
        cases g <;> simp only [dataOf, List.filterMap_cons] at hq ⊢ <;> first | exact hq | exact List.mem_cons_of_mem _ hq)
      have hg : ∀ q, g = .data q → IsData anc flag q := by
        rintro q rfl
        exact hds q (by simp [dataOf])
      rw [List.flatMap_cons, List.append_assoc]
      refine AllSplits.append ?_ (ih (st1 ++ [g]) (by rw [he]; simp) hw')
      refine AllSplits.of fun a i r e P hP => ?_
      have hi : i ∈ emit z anc flag fbit g := by rw [e]; simp
      have h1 := fault_in_step z anc mbit flag fbit hL st1 g st2 hw' hd2 hg i hi (i :: r)
        (by rw [e]; intro i' hi'; exact List.mem_append_right _ hi') P hP
      have h2 := fault_in_step z anc mbit flag fbit hL st1 g st2 hw' hd2 hg i hi r
        (by rw [e]; intro i' hi'; exact List.mem_append_right _ (List.mem_cons_of_mem _ hi')) P hP
      rw [← he] at h1 h2
      exact ⟨h1, h2⟩
  have hg : gadget z anc mbit flag fbit st = ancH z anc ++ (st.flatMap (emit z anc flag fbit) ++ tail z anc mbit) := by
    simp [gadget, tail]
  rw [hg]
  refine AllSplits.append ?_ (hmain st [] rfl hw)
  cases z with
  | true => trivial
  | false =>
    have hst : ∀ (P : PauliErr Q) (r : List (Instr Q C)), (r = [] ∨ r = [.h anc]) →
        ((∃ q, ∀ p, P.ActsOn p → p = q) ∨ ∀ p, P.ActsOn p → p ∈ (Instr.h (C := C) anc).qubits) →
        ∃ m, Expl false anc flag fbit st m
          (prop (r ++ (st.flatMap (emit false anc flag fbit) ++ tail false anc mbit)) (P, 0)) := by
      intro P r hr hP
      have hP : ∃ q, ∀ p, P.ActsOn p → p = q := by
        rcases hP with hP | hP
        · exact hP
        · exact ⟨anc, fun p hp => by simpa [Instr.qubits] using hP p hp⟩
      obtain ⟨q, hq⟩ := hP
      rw [prop_append]
      set F := prop r (P, (0 : C → ZMod 2)) with hF
      have hsame : ∀ p, p ≠ anc → F.1.1 p = P.1 p ∧ F.1.2 p = P.2 p := by
        intro p hp
        rcases hr with rfl | rfl
        · exact ⟨rfl, rfl⟩
        · simp [hF, prop, frameStep, Finsupp.single_apply, Ne.symm hp]
      have hbit : F.2 = 0 := by rcases hr with rfl | rfl <;> rfl
      have hanc : q ≠ anc → hk false F anc = 0 := by
        intro hne
        obtain ⟨e1, e2⟩ := not_acts (P := P) (p := anc) fun h => hne (hq anc h).symm
        rcases hr with rfl | rfl
        · exact e1
        · simp [hF, prop, frameStep, hk, e1, e2]
      by_cases hqa : q = anc
      · subst hqa
        refine cls_start false q mbit flag fbit hL st hw hd F (fun p hp => ?_) fun j => ?_
        · rw [(hsame p hp.1).1, (hsame p hp.1).2]
          exact not_acts fun h => hp.1 (hq p h)
        · rw [(hsame _ (hL.ne j)).1, (hsame _ (hL.ne j)).2, hbit]
          obtain ⟨e1, e2⟩ := not_acts (P := P) (p := flag j) fun h => hL.ne j (hq _ h)
          exact ⟨e1, e2, rfl⟩
      · by_cases hqd : IsData anc flag q
        · refine ⟨_, cls_loc false anc mbit flag fbit hL st st hw hd F q (hanc hqa) (fun p hp hpq => ?_) fun j => ?_⟩
          · rw [(hsame p hp.1).1, (hsame p hp.1).2]
            exact not_acts fun h => hpq (hq p h)
          · rw [(hsame _ (hL.ne j)).1, (hsame _ (hL.ne j)).2, hbit]
            obtain ⟨e1, e2⟩ := not_acts (P := P) (p := flag j) fun h => hqd.2 j (hq _ h)
            exact ⟨e1, e2, rfl⟩
        · have : ∃ j, flag j = q := by
            by_contra hcon
            push Not at hcon
            exact hqd ⟨hqa, hcon⟩
          obtain ⟨k, hk'⟩ := this
          refine cls_flip false anc mbit flag fbit hL st st hw hd F k (hanc hqa) (fun p hp => ?_) fun j hj => ?_
          · rw [(hsame p hp.1).1, (hsame p hp.1).2]
            exact not_acts fun h => hp.2 k (hk'.trans (hq p h).symm)
          · rw [(hsame _ (hL.ne j)).1, (hsame _ (hL.ne j)).2, hbit]
            obtain ⟨e1, e2⟩ := not_acts (P := P) (p := flag j) fun h => hj (hL.inj ((hq _ h).trans hk'.symm))
            exact ⟨e1, e2, rfl⟩
    refine ⟨fun P hP => ⟨?_, ?_⟩, trivial⟩
    · exact hst P [.h anc] (.inr rfl) hP
    · exact hst P [] (.inl rfl) hP

end Verif.SP
