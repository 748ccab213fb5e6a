import Verif.Props.StimCirc

/-!
# C38: the noisy circuit contains the gates of the input
-/

namespace Verif.Stim
open Verif

/-! ## Specification -/

/-- The qubits of a gate. -/
def Gate.qubits : Gate → List ℕ
  | .h q | .meas q => [q]
  | .cx c t => [c, t]
  | .other => []

/-- The gates on qubit `q`, in order. -/
def onG (q : ℕ) (gs : List Gate) : List Gate := gs.filter fun g => g.qubits.contains q

/-- The gate a noiseless instruction performs. -/
def Op.toGate : Op → Option Gate
  | .h q => some (.h q)
  | .cx c t => some (.cx c t)
  | .mr q => some (.meas q)
  | _ => none

/-- The qubit has not been used since the start or its last measurement. -/
def IdleAt (q : ℕ) (pre : List Gate) : Prop := pre = [] ∨ ∃ l, pre = l ++ [.meas q]

/-- How the circuits of this package use a qubit: a Hadamard on an unused qubit is followed by a CNOT it
controls, and an unused qubit is the control of its first CNOT only after such a Hadamard, or if it never had a
Hadamard before. -/
structure WellUsed (q : ℕ) (L : List Gate) : Prop where
  hadamard : ∀ pre post, L = pre ++ .h q :: post → IdleAt q pre → ∃ t post', post = .cx q t :: post'
  control : ∀ pre t post, L = pre ++ .cx q t :: post → IdleAt q pre → .h q ∉ pre
  distinct : .cx q q ∉ L

/-! ## Invariant -/

/-- The gates on `q` performed by the instructions. -/
def done (q : ℕ) (ops : List Op) : List Gate := onG q (ops.filterMap Op.toGate)

theorem onG_append (q : ℕ) (a b : List Gate) : onG q (a ++ b) = onG q a ++ onG q b := List.filter_append ..

theorem done_append (q : ℕ) (a b : List Op) : done q (a ++ b) = done q a ++ done q b := by
  rw [done, List.filterMap_append, onG_append]; rfl

theorem done_idle (q : ℕ) (p : ℚ) (nq : ℕ) (i u : List ℕ) : done q (idle p nq i u) = [] := by
  have : (idle p nq i u).filterMap Op.toGate = [] := by
    rw [List.filterMap_eq_nil_iff]
    intro o ho
    obtain ⟨x, -, rfl⟩ := List.mem_map.1 ho
    rfl
  rw [done, this]; rfl

/-- Where qubit `q` stands after its gates `pre`. -/
inductive Where (q : ℕ) (s : St) (pre : List Gate) : Prop
  | live (h1 : q ∈ s.inited) (h2 : done q s.ops = pre) (h3 : q ∈ s.ctrls ↔ .h q ∈ pre)
  | idle (h1 : q ∉ s.inited) (h2 : done q s.ops = pre) (h3 : q ∈ s.ctrls ↔ .h q ∈ pre) (h4 : IdleAt q pre)
  | pend (h1 : q ∉ s.inited) (h2 : pre = done q s.ops ++ [.h q]) (h3 : q ∈ s.ctrls) (h4 : IdleAt q (done q s.ops))

theorem Where.congr {q : ℕ} {s s' : St} {pre : List Gate} (h : Where q s pre) (h1 : q ∈ s'.inited ↔ q ∈ s.inited)
    (h2 : done q s'.ops = done q s.ops) (h3 : q ∈ s'.ctrls ↔ q ∈ s.ctrls) : Where q s' pre := by
  cases h with
  | live a b c => exact .live (h1.2 a) (h2.trans b) (h3.trans c)
  | idle a b c d => exact .idle (fun h => a (h1.1 h)) (h2.trans b) (h3.trans c) d
  | pend a b c d => exact .pend (fun h => a (h1.1 h)) (by rw [h2]; exact b) (h3.2 c) (by rw [h2]; exact d)

theorem done_initCtrl (q : ℕ) (p : ℚ) (s : St) (c : ℕ) :
    done q (initCtrl p s c) = if q = c ∧ c ∉ s.inited ∧ c ∈ s.ctrls then [.h q] else [] := by
  by_cases h1 : c ∈ s.inited
  · simp [initCtrl, h1, done, onG]
  · by_cases h2 : c ∈ s.ctrls
    · by_cases hq : q = c
      · subst hq; simp [initCtrl, h1, h2, done, onG, Op.toGate, Gate.qubits]
      · simp [initCtrl, h1, h2, done, onG, Op.toGate, Gate.qubits, hq]
    · simp [initCtrl, h1, h2, done, onG, Op.toGate]

theorem done_initTarget (q : ℕ) (p : ℚ) (i : List ℕ) (t : ℕ) : done q (initTarget p i t) = [] := by
  unfold initTarget
  split <;> simp [done, onG, Op.toGate]

theorem where_gate {p : ℚ} {q nq : ℕ} {par : Bool} {s : St} (pre post : List Gate) (g : Gate)
    (hw : WellUsed q (pre ++ onG q [g] ++ post)) (h : Where q s pre) :
    Where q (gate p nq par s g) (pre ++ onG q [g]) := by
  cases g with
  | h a =>
    have hdone : a ∈ s.inited → done q (gate p nq par s (.h a)).ops = done q s.ops ++ onG q [.h a] := by
      intro ha
      have e1 : done q [.h a, .noise .dep1 [a] (2 * p / 3)] = onG q [.h a] := rfl
      cases par
      · simp only [gate, contains_true ha, Bool.false_eq_true, if_false, if_true]
        rw [done_append, done_idle, List.append_nil, done_append, e1]
      · simp only [gate, contains_true ha, if_true]
        rw [done_append, e1]
    by_cases hq : q = a
    · subst hq
      have e : onG q [.h q] = [.h q] := by simp [onG, Gate.qubits]
      rw [e] at hw ⊢
      cases h with
      | live h1 h2 h3 =>
        refine .live ?_ ?_ ?_
        · cases par <;> simpa [gate, h1] using h1
        · rw [hdone h1, h2, e]
        · cases par <;> simp [gate, h1]
      | idle h1 h2 h3 h4 =>
        refine .pend ?_ ?_ ?_ ?_
        · simpa [gate, h1] using h1
        · simp [gate, h1, h2]
        · simp [gate, h1]
        · simpa [gate, h1, h2] using h4
      | pend h1 h2 h3 h4 =>
        exfalso
        obtain ⟨t, r, hr⟩ := hw.hadamard (done q s.ops) (.h q :: post) (by rw [h2]; simp) h4
        simp at hr
    · have e : onG q [.h a] = [] := by simp [onG, Gate.qubits, hq]
      rw [e, List.append_nil]
      refine h.congr ?_ ?_ ?_
      · cases par <;> by_cases ha : a ∈ s.inited <;> simp [gate, ha]
      · by_cases ha : a ∈ s.inited
        · rw [hdone ha, e, List.append_nil]
        · simp [gate, ha]
      · cases par <;> by_cases ha : a ∈ s.inited <;> simp [gate, ha, hq]
  | cx c t =>
    have hin : q ∈ (gate p nq par s (.cx c t)).inited ↔ (q = t ∨ q = c ∨ q ∈ s.inited) := by
      cases par <;> simp [gate, mem_setInit]
    have hct : q ∈ (gate p nq par s (.cx c t)).ctrls ↔ q ∈ s.ctrls := by cases par <;> simp [gate]
    have hdone : done q (gate p nq par s (.cx c t)).ops =
        done q s.ops ++ (if q = c ∧ c ∉ s.inited ∧ c ∈ s.ctrls then [.h q] else []) ++ onG q [.cx c t] := by
      have e1 : done q [.cx c t, .noise .dep2 [c, t] p] = onG q [.cx c t] := rfl
      have : done q (gate p nq par s (.cx c t)).ops = done q (s.ops ++ initCtrl p s c ++ initTarget p (setInit s.inited c) t ++
          [.cx c t, .noise .dep2 [c, t] p]) := by
        cases par
        · simp only [gate, Bool.false_eq_true, if_false]
          rw [done_append, done_idle, List.append_nil]
        · simp only [gate, if_true]
      rw [this, done_append, done_append, done_append, done_initCtrl, done_initTarget, e1, List.append_nil]
    by_cases hq : q = c ∨ q = t
    · have e : onG q [.cx c t] = [.cx c t] := by simp [onG, Gate.qubits, hq]
      have hct' : c ≠ t := by
        rintro rfl
        have : q = c := by tauto
        subst this
        exact hw.distinct (by rw [e]; simp)
      rw [e] at hw hdone ⊢
      have hin' : q ∈ (gate p nq par s (.cx c t)).inited := hin.2 (by tauto)
      cases h with
      | live h1 h2 h3 =>
        refine .live hin' ?_ ?_
        · rw [hdone, if_neg (by rintro ⟨rfl, h, _⟩; exact h h1), List.append_nil, h2]
        · rw [hct, h3]; simp
      | idle h1 h2 h3 h4 =>
        refine .live hin' ?_ ?_
        · rw [hdone, if_neg, List.append_nil, h2]
          rintro ⟨rfl, -, h⟩
          exact hw.control pre t post (by simp) h4 (h3.1 h)
        · rw [hct, h3]; simp
      | pend h1 h2 h3 h4 =>
        obtain ⟨t', r, hr⟩ := hw.hadamard (done q s.ops) (.cx c t :: post) (by rw [h2]; simp) h4
        simp only [List.cons.injEq, Gate.cx.injEq] at hr
        obtain ⟨⟨rfl, -⟩, -⟩ := hr
        refine .live hin' ?_ ?_
        · rw [hdone, if_pos ⟨rfl, h1, h3⟩, h2]
        · rw [hct, h2]; simp [h3]
    · push Not at hq
      have e : onG q [.cx c t] = [] := by simp [onG, Gate.qubits, hq.1, hq.2]
      rw [e] at hdone ⊢
      rw [List.append_nil]
      refine h.congr (by rw [hin]; simp [hq.1, hq.2]) ?_ hct
      rw [hdone, if_neg (by rintro ⟨rfl, _⟩; exact hq.1 rfl), List.append_nil, List.append_nil]
  | meas a =>
    have hin : q ∈ (gate p nq par s (.meas a)).inited ↔ q ∈ s.inited ∧ q ≠ a := by simp [gate]
    have hct : q ∈ (gate p nq par s (.meas a)).ctrls ↔ q ∈ s.ctrls := by simp [gate]
    have hdone : done q (gate p nq par s (.meas a)).ops = done q s.ops ++ onG q [.meas a] := by
      have e1 : done q [.noise .xErr [a] (2 * p / 3), .mr a] = onG q [.meas a] := rfl
      cases par
      · simp only [gate, Bool.false_eq_true, if_false]
        rw [done_append, done_idle, List.append_nil, done_append, e1]
      · simp only [gate, if_true]
        rw [done_append, e1]
    by_cases hq : q = a
    · subst hq
      have e : onG q [.meas q] = [.meas q] := by simp [onG, Gate.qubits]
      rw [e] at hw hdone ⊢
      cases h with
      | live h1 h2 h3 =>
        refine .idle (by rw [hin]; simp) (by rw [hdone, h2]) (by rw [hct, h3]; simp) (.inr ⟨pre, rfl⟩)
      | idle h1 h2 h3 h4 =>
        refine .idle (by rw [hin]; simp) (by rw [hdone, h2]) (by rw [hct, h3]; simp) (.inr ⟨pre, rfl⟩)
      | pend h1 h2 h3 h4 =>
        exfalso
        obtain ⟨t, r, hr⟩ := hw.hadamard (done q s.ops) (.meas q :: post) (by rw [h2]; simp) h4
        simp at hr
    · have e : onG q [.meas a] = [] := by simp [onG, Gate.qubits, hq]
      rw [e, List.append_nil] at hdone ⊢
      exact h.congr (by rw [hin]; simp [hq]) hdone hct
  | other =>
    have e : onG q [.other] = [] := rfl
    rw [e, List.append_nil]
    exact h

/-- Every gate of the input is performed, in the same order on every qubit. -/
def C38_claim : Prop := ∀ (s : Sim) (nq : ℕ) (par : Bool) (layers : List (List Gate)) (q : ℕ),
  onG q ((toStim s nq par layers).ops.filterMap Op.toGate) = onG q layers.flatten

/-- C38: on every qubit that is used as the circuits of this package use qubits, the noiseless part of the stim
circuit performs exactly the gates of the input circuit, in the same order.  Missing: other uses, for which the claim
is false (`C38_violated`). -/
theorem C38_gates_partial (s : Sim) (nq : ℕ) (par : Bool) (layers : List (List Gate)) (q : ℕ)
    (hw : WellUsed q (onG q layers.flatten)) :
    onG q ((toStim s nq par layers).ops.filterMap Op.toGate) = onG q layers.flatten := by
  have key := toStim_induct s.p nq par (fun pre t => (∃ post, WellUsed q (onG q (pre ++ post))) → Where q t (onG q pre))
    (fun pre t g ih => ?_) (fun pre t ih => ?_) layers [] ⟨[], [], [], [], [], [], s.xver, s.zver, s.nMeas, s.reused⟩ ?_
  · have := key ⟨[], by simpa using hw⟩
    rw [List.nil_append] at this
    cases this with
    | live _ h2 _ => exact h2
    | idle _ h2 _ _ => exact h2
    | pend _ h2 _ h4 =>
      obtain ⟨t, r, hr⟩ := hw.hadamard _ [] h2 h4
      simp at hr
  · rintro ⟨post, hp⟩
    rw [onG_append]
    refine where_gate _ (onG q post) g ?_ (ih ⟨g :: post, by simpa using hp⟩)
    rwa [onG_append, onG_append] at hp
  · intro hp
    refine (ih hp).congr Iff.rfl ?_ Iff.rfl
    simp only [layerStart, done_append]
    split
    · simp [done, onG]
    · rw [done_idle, List.append_nil]
  · intro _
    exact .idle (by simp) rfl (by simp [onG]) (.inl rfl)

/-- Hypotheses met: a Bell pair, and an ancilla used for an X and then for a Z measurement. -/
example : WellUsed 0 (onG 0 [[Gate.h 0], [.cx 0 1], [.h 2], [.cx 2 0], [.h 2], [.meas 2], [.cx 0 2], [.meas 2]].flatten) ∧
    WellUsed 2 (onG 2 [[Gate.h 0], [.cx 0 1], [.h 2], [.cx 2 0], [.h 2], [.meas 2], [.cx 0 2], [.meas 2]].flatten) := by
  have e0 : onG 0 [[Gate.h 0], [.cx 0 1], [.h 2], [.cx 2 0], [.h 2], [.meas 2], [.cx 0 2], [.meas 2]].flatten =
      [.h 0, .cx 0 1, .cx 2 0, .cx 0 2] := by decide
  have e2 : onG 2 [[Gate.h 0], [.cx 0 1], [.h 2], [.cx 2 0], [.h 2], [.meas 2], [.cx 0 2], [.meas 2]].flatten =
      [.h 2, .cx 2 0, .h 2, .meas 2, .cx 0 2, .meas 2] := by decide
  rw [e0, e2]
  have split : ∀ (L pre post : List Gate) (g : Gate), L = pre ++ g :: post →
      ∃ i < L.length, pre = L.take i ∧ g :: post = L.drop i := by
    rintro L pre post g rfl
    exact ⟨pre.length, by simp, by simp, by simp⟩
  have idle : ∀ (q : ℕ) (pre : List Gate), IdleAt q pre → pre = [] ∨ pre.getLast? = some (.meas q) := by
    rintro q pre (h | ⟨l, rfl⟩)
    · exact .inl h
    · exact .inr (by simp)
  refine ⟨⟨?_, ?_, by decide⟩, ⟨?_, ?_, by decide⟩⟩
  all_goals
    first
    | intro pre post h hi
      obtain ⟨i, hi', h1, h2⟩ := split _ _ _ _ h
      have hi := idle _ _ hi
      subst h1
      simp at hi'
      interval_cases i <;> simp at h2 hi ⊢
      all_goals exact ⟨_, _, by simpa using h2⟩
    | intro pre t post h hi
      obtain ⟨i, hi', h1, h2⟩ := split _ _ _ _ h
      have hi := idle _ _ hi
      subst h1
      simp at hi'
      interval_cases i <;> simp at h2 hi ⊢

/-- C38 fails otherwise: a lone Hadamard disappears; so do a Hadamard on a qubit that is a CNOT target next and the
second of two Hadamards; and a measured qubit which had a Hadamard before gets one more when it is a control again. -/
theorem C38_violated : ¬ C38_claim ∧
    (∀ s nq par, (toStim s nq par [[.h 0]]).ops = []) ∧
    (∀ s nq, onG 0 ((toStim s nq true [[.h 0], [.cx 1 0]]).ops.filterMap Op.toGate) = [.cx 1 0]) ∧
    (∀ s nq, onG 0 ((toStim s nq true [[.h 0], [.h 0], [.cx 0 1]]).ops.filterMap Op.toGate) = [.h 0, .cx 0 1]) ∧
    (∀ s, onG 0 ((toStim s 2 true [[.h 0], [.cx 0 1], [.meas 0], [.cx 0 1]]).ops.filterMap Op.toGate) =
      [.h 0, .cx 0 1, .meas 0, .h 0, .cx 0 1]) := by
  have h1 : ∀ s nq par, (toStim s nq par [[.h 0]]).ops = [] := fun s nq par => rfl
  refine ⟨fun h => ?_, h1, fun s nq => rfl, fun s nq => rfl, fun s => ?_⟩
  swap
  · simp [toStim, layer, layerStart, gate, initCtrl, initTarget, setInit, idle, Op.toGate, onG, Gate.qubits, List.range_succ]
    rfl
  have := h (initial 1 0) 1 true [[.h 0]] 0
  rw [h1] at this
  revert this
  decide

end Verif.Stim
