import Verif.Lemmas.Gadgets
import Mathlib.Analysis.Real.Sqrt
import Mathlib.Data.List.Perm.Basic
import Mathlib.Algebra.Group.Even

/-! # C34, C35: stabilizer measurement gadgets -/

namespace Verif.SP
open Verif Verif.Spec

variable {Q C R : Type} [DecidableEq Q] [CommRing R]

/-- Size of the flag register created by `measure_flagged` for a weight-`w` stabilizer. -/
def numFlags (t w : ℕ) : ℕ :=
  if t = 1 then 1 else if w < 3 then 0 else if w = 4 then 1 else if w = 8 then 3 else 2

/-- The circuit `l` measures the stabilizer `S` (of type Z if `z`) into `mbit` using an ancilla and
`nF` flags that start in |0⟩: for every data state `ψ`, the outcomes with all flags 0 leave the data
in the projection of `ψ` onto the eigenspace named by the outcome, ancilla and flags in the
corresponding basis states; outcomes with a flag at 1 never occur. -/
def Measures (s : R) (l : List (Instr Q C)) (z : Bool) (S : List Q) (anc : Q) (mbit : C) (flag : ℕ → Q)
    (fbit : ℕ → C) (nF : ℕ) : Prop :=
  ∀ (ψ : State Q R) (out : C → ZMod 2), Free ψ anc → (∀ j < nF, Free ψ (flag j)) →
    run s out l (withBits ((anc, 0) :: flagBits flag nF) ψ) =
      if ∀ j < nF, out (fbit j) = 0 then
        withBits ((anc, out mbit) :: flagBits flag nF) (proj (s * s) z S (out mbit) ψ)
      else fun _ => 0

omit [DecidableEq Q] in
theorem emit_data_flatMap (z : Bool) (anc : Q) (flag : ℕ → Q) (fbit : ℕ → C) (l : List Q) :
    (l.map GStep.data).flatMap (emit z anc flag fbit) = l.flatMap (ancillaCnot z anc) := by
  rw [List.flatMap_map]; rfl

omit [DecidableEq Q] in
theorem dataOf_append (l₁ l₂ : List (GStep Q)) : dataOf (l₁ ++ l₂) = dataOf l₁ ++ dataOf l₂ := by
  simp [dataOf, List.filterMap_append]

omit [DecidableEq Q] in
theorem closedOf_append (l₁ l₂ : List (GStep Q)) : closedOf (l₁ ++ l₂) = closedOf l₁ ++ closedOf l₂ := by
  simp [closedOf, List.filterMap_append]

omit [DecidableEq Q] in
theorem dataOf_map_data (l : List Q) : dataOf (l.map GStep.data) = l := by
  induction l with
  | nil => rfl
  | cons a l ih => rw [List.map_cons, dataOf_data, ih]

omit [DecidableEq Q] in
theorem closedOf_map_data (l : List Q) : closedOf (l.map GStep.data) = [] := by
  induction l with
  | nil => rfl
  | cons a l ih => rw [List.map_cons, closedOf_data, ih]

omit [DecidableEq Q] in
theorem wf_map_data (nF : ℕ) (O : Finset ℕ) (l : List Q) (l' : List (GStep Q)) :
    wf nF O (l.map GStep.data ++ l') = wf nF O l' := by
  induction l with
  | nil => rfl
  | cons a l ih => rw [List.map_cons, List.cons_append]; exact ih

/-- Steps of the one-flag gadget. -/
def oneSteps (s0 : Q) (rest : List Q) : List (GStep Q) :=
  [.data s0, .opn 0] ++ (rest.dropLast.map .data ++ [.close 0, .data (rest.getLastD s0)])

omit [DecidableEq Q] in
theorem measureOneFlagged_eq (z : Bool) (s0 : Q) (rest : List Q) (anc : Q) (mbit : C) (flag : ℕ → Q) (fbit : ℕ → C) :
    measureOneFlagged z (s0 :: rest) anc mbit flag fbit = .ok (gadget z anc mbit flag fbit (oneSteps s0 rest)) := by
  simp only [measureOneFlagged, gadget, oneSteps, List.flatMap_append, emit_data_flatMap, List.flatMap_cons,
    List.flatMap_nil, emit, List.append_assoc, List.append_nil]

/-- Errors of the general two-flag scheme. -/
theorem twoFlag_loop_error (z : Bool) (anc : Q) (flag : ℕ → Q) (fbit : ℕ → C) (k w c' : ℕ) (hc : c' % 2 = 0)
    (hcw : c' < w - 2) (hk : k ≤ c' - 1) : ∀ (l : List Q) (c : ℕ) (acc : List (Instr Q C)), 2 ≤ c → c < c' →
    c' ≤ c + l.length →
    ∃ e, l.foldlM (twoFlagStep z anc flag fbit k w) (c, c, acc) = .error e := by
  intro l
  induction l with
  | nil => intro c acc h2 h3 h4; simp at h4; omega
  | cons q l ih =>
    intro c acc h2 h3 h4
    rw [List.foldlM_cons]
    cases hst : twoFlagStep z anc flag fbit k w (c, c, acc) q with
    | error e => exact ⟨e, rfl⟩
    | ok st =>
      simp only [twoFlagStep, bind_eq_ok] at hst
      obtain ⟨o, ho, c1, -, h⟩ := hst
      by_cases hcc : c + 1 = c'
      · exfalso
        rw [twoFlagOpen, if_pos ⟨by omega, by omega⟩, reg, if_neg (by omega)] at ho
        simp [Except.map] at ho
      · cases h
        exact ih (c + 1) _ (by omega) (by omega) (by simp at h4; omega)

theorem measureTwoFlagged_error (z : Bool) (stab : List Q) (anc : Q) (mbit : C) (flag : ℕ → Q) (fbit : ℕ → C)
    (h : 7 ≤ stab.length) : ∃ e, measureTwoFlagged z stab anc mbit flag fbit = .error e := by
  cases hm : measureTwoFlagged z stab anc mbit flag fbit with
  | error e => exact ⟨e, rfl⟩
  | ok l =>
    exfalso
    simp only [measureTwoFlagged, bind_eq_ok] at hm
    obtain ⟨-, -, hm⟩ := hm
    split at hm
    · next s0 s1 rest sb sl _ _ =>
      simp only [bind_eq_ok] at hm
      obtain ⟨f0, -, f1, -, st, hst, -⟩ := hm
      generalize hS : s0 :: s1 :: rest = S at *
      obtain ⟨e, he⟩ := twoFlag_loop_error z anc flag fbit ((S.length + 1) / 2 - 1) S.length
        (2 * ((S.length - 3) / 2)) (by omega) (by omega) (by omega) ((S.drop 2).take (S.length - 4)) 2
        (ancH z anc ++ ancillaCnot z anc s0 ++ flagInit z f0 ++ ancillaCnot z anc f0 ++
          ancillaCnot z anc s1 ++ flagInit z f1 ++ ancillaCnot z anc f1) le_rfl (by omega)
        (by simp only [List.length_take, List.length_drop]; omega)
      rw [hst] at he
      simp at he
    · simp at hm

/-- Steps of the special gadgets. -/
def steps4 (s0 s1 s2 s3 : Q) : List (GStep Q) :=
  [.data s0, .opn 0, .data s1, .data s2, .close 0, .data s3]
def steps5 (s0 s1 s2 s3 s4 : Q) : List (GStep Q) :=
  [.data s0, .opn 0, .data s1, .opn 1, .data s2, .close 0, .data s3, .close 1, .data s4]
def steps6 (s0 s1 s2 s3 s4 s5 : Q) : List (GStep Q) :=
  [.data s0, .opn 0, .data s1, .opn 1, .data s2, .data s3, .close 0, .data s4, .close 1, .data s5]
def steps8 (s0 s1 s2 s3 s4 s5 s6 s7 : Q) : List (GStep Q) :=
  [.data s0, .opn 0, .data s1, .opn 1, .data s2, .data s3, .opn 2, .data s4, .data s5, .close 0, .data s6,
    .close 2, .close 1, .data s7]

/-- The steps of the gadget emitted for a stabilizer. -/
def stepsOf (t : ℕ) (stab : List Q) : Option (List (GStep Q)) :=
  if t = 1 then match stab with
    | [] => none
    | s0 :: rest => some (oneSteps s0 rest)
  else if t = 2 then match stab with
    | [] => some []
    | [s0] => some [.data s0]
    | [s0, s1] => some [.data s0, .data s1]
    | [s0, s1, s2, s3] => some (steps4 s0 s1 s2 s3)
    | [s0, s1, s2, s3, s4] => some (steps5 s0 s1 s2 s3 s4)
    | [s0, s1, s2, s3, s4, s5] => some (steps6 s0 s1 s2 s3 s4 s5)
    | [s0, s1, s2, s3, s4, s5, s6, s7] => some (steps8 s0 s1 s2 s3 s4 s5 s6 s7)
    | _ => none
  else none

omit [DecidableEq Q] in
theorem measureFlagged4_eq (z : Bool) (s0 s1 s2 s3 : Q) (anc : Q) (mbit : C) (flag : ℕ → Q) (fbit : ℕ → C) :
    measureFlagged4 z [s0, s1, s2, s3] anc mbit flag fbit =
      .ok (gadget z anc mbit flag fbit (steps4 s0 s1 s2 s3)) := by
  simp only [measureFlagged4, gadget, steps4, List.flatMap_cons, List.flatMap_nil, emit, List.append_assoc,
    List.append_nil]

omit [DecidableEq Q] in
theorem measureFlagged6_eq (z : Bool) (s0 s1 s2 s3 s4 s5 : Q) (anc : Q) (mbit : C) (flag : ℕ → Q) (fbit : ℕ → C) :
    measureFlagged6 z [s0, s1, s2, s3, s4, s5] anc mbit flag fbit =
      .ok (gadget z anc mbit flag fbit (steps6 s0 s1 s2 s3 s4 s5)) := by
  simp only [measureFlagged6, gadget, steps6, List.flatMap_cons, List.flatMap_nil, emit, List.append_assoc,
    List.append_nil]

omit [DecidableEq Q] in
theorem measureFlagged8_eq (z : Bool) (s0 s1 s2 s3 s4 s5 s6 s7 : Q) (anc : Q) (mbit : C) (flag : ℕ → Q) (fbit : ℕ → C) :
    measureFlagged8 z [s0, s1, s2, s3, s4, s5, s6, s7] anc mbit flag fbit =
      .ok (gadget z anc mbit flag fbit (steps8 s0 s1 s2 s3 s4 s5 s6 s7)) := by
  simp only [measureFlagged8, gadget, steps8, List.flatMap_cons, List.flatMap_nil, emit, List.append_assoc,
    List.append_nil]

theorem measureTwoFlagged_five (z : Bool) (s0 s1 s2 s3 s4 : Q) (anc : Q) (mbit : C) (flag : ℕ → Q) (fbit : ℕ → C) :
    measureTwoFlagged z [s0, s1, s2, s3, s4] anc mbit flag fbit =
      .ok (gadget z anc mbit flag fbit (steps5 s0 s1 s2 s3 s4)) := by
  simp [measureTwoFlagged, require, reg, twoFlagStep, twoFlagOpen, twoFlagClose, gadget, steps5, emit, bind,
    Except.bind, pure, Except.pure]

theorem measureTwoFlagged_six (z : Bool) (s0 s1 s2 s3 s4 s5 : Q) (anc : Q) (mbit : C) (flag : ℕ → Q) (fbit : ℕ → C) :
    measureTwoFlagged z [s0, s1, s2, s3, s4, s5] anc mbit flag fbit =
      .ok (gadget z anc mbit flag fbit (steps6 s0 s1 s2 s3 s4 s5)) := by
  simp [measureTwoFlagged, require, reg, twoFlagStep, twoFlagOpen, twoFlagClose, gadget, steps6, emit, bind,
    Except.bind, pure, Except.pure]

/-- The general scheme for two faults. -/
theorem measureTwoFlagged_ok (z : Bool) (stab : List Q) (anc : Q) (mbit : C) (flag : ℕ → Q) (fbit : ℕ → C) (l : List (Instr Q C))
    (h : measureTwoFlagged z stab anc mbit flag fbit = .ok l) :
    (stab.length = 5 ∨ stab.length = 6) ∧ ∃ st, stepsOf 2 stab = some st ∧ l = gadget z anc mbit flag fbit st := by
  rcases stab with _ | ⟨s0, _ | ⟨s1, _ | ⟨s2, _ | ⟨s3, _ | ⟨s4, _ | ⟨s5, _ | ⟨s6, rest⟩⟩⟩⟩⟩⟩⟩
  · cases h
  · cases h
  · cases h
  · cases h
  · cases h
  · rw [measureTwoFlagged_five] at h; cases h; exact ⟨.inl rfl, _, rfl, rfl⟩
  · rw [measureTwoFlagged_six] at h; cases h; exact ⟨.inr rfl, _, rfl, rfl⟩
  · obtain ⟨e, he⟩ := measureTwoFlagged_error z (s0 :: s1 :: s2 :: s3 :: s4 :: s5 :: s6 :: rest) anc mbit flag fbit (by simp)
    rw [he] at h; cases h

theorem measureFlagged_steps (t : ℕ) (z : Bool) (stab : List Q) (anc : Q) (mbit : C) (flag : ℕ → Q) (fbit : ℕ → C) :
    match stepsOf t stab with
    | some st => measureFlagged t z stab anc mbit flag fbit = .ok (gadget z anc mbit flag fbit st)
    | none => ∃ e, measureFlagged t z stab anc mbit flag fbit = .error e := by
  unfold stepsOf measureFlagged
  by_cases h1 : t = 1
  · simp only [h1, if_true]
    cases stab with
    | nil => exact ⟨_, rfl⟩
    | cons s0 rest => exact measureOneFlagged_eq z s0 rest anc mbit flag fbit
  · simp only [h1, if_false]
    by_cases h2 : t = 2
    · simp only [h2, if_true, and_true]
      rcases stab with _ | ⟨s0, _ | ⟨s1, _ | ⟨s2, _ | ⟨s3, _ | ⟨s4, _ | ⟨s5, _ | ⟨s6, _ | ⟨s7, _ | ⟨s8, rest⟩⟩⟩⟩⟩⟩⟩⟩⟩
      · cases z <;> rfl
      · cases z <;> rfl
      · cases z <;> rfl
      · exact ⟨_, rfl⟩
      · exact measureFlagged4_eq z s0 s1 s2 s3 anc mbit flag fbit
      · exact measureTwoFlagged_five z s0 s1 s2 s3 s4 anc mbit flag fbit
      · exact measureFlagged6_eq z s0 s1 s2 s3 s4 s5 anc mbit flag fbit
      · obtain ⟨e, he⟩ := measureTwoFlagged_error z [s0, s1, s2, s3, s4, s5, s6] anc mbit flag fbit (by simp)
        exact ⟨e, he⟩
      · exact measureFlagged8_eq z s0 s1 s2 s3 s4 s5 s6 s7 anc mbit flag fbit
      · obtain ⟨e, he⟩ := measureTwoFlagged_error z (s0 :: s1 :: s2 :: s3 :: s4 :: s5 :: s6 :: s7 :: s8 :: rest)
          anc mbit flag fbit (by simp)
        refine ⟨e, ?_⟩
        rw [if_neg (by simp), if_neg (by simp), if_neg (by simp), if_neg (by simp)]
        exact he
    · simp only [h2, if_false, and_false]
      exact ⟨_, rfl⟩

/-- Which stabilizer weights `measure_flagged` handles. -/
theorem C34_accepts (t : ℕ) (z : Bool) (stab : List Q) (anc : Q) (mbit : C) (flag : ℕ → Q) (fbit : ℕ → C) :
    (∃ l, measureFlagged t z stab anc mbit flag fbit = .ok l) ↔
      (t = 1 ∧ 1 ≤ stab.length) ∨ (t = 2 ∧ stab.length ∈ [0, 1, 2, 4, 5, 6, 8]) := by
  have hm := measureFlagged_steps t z stab anc mbit flag fbit
  have key : (∃ l, measureFlagged t z stab anc mbit flag fbit = .ok l) ↔ (stepsOf t stab).isSome := by
    cases hs : stepsOf t stab with
    | none =>
      rw [hs] at hm
      obtain ⟨e, he⟩ := hm
      simp [he]
    | some st =>
      rw [hs] at hm
      simp only at hm
      simp [hm]
  rw [key]
  unfold stepsOf
  by_cases h1 : t = 1
  · subst h1
    cases stab <;> simp
  · by_cases h2 : t = 2
    · subst h2
      simp only [h1, if_false, if_true, false_and, false_or, true_and]
      rcases stab with _ | ⟨s0, _ | ⟨s1, _ | ⟨s2, _ | ⟨s3, _ | ⟨s4, _ | ⟨s5, _ | ⟨s6, _ | ⟨s7, _ | ⟨s8, rest⟩⟩⟩⟩⟩⟩⟩⟩⟩ <;>
        simp
    · simp [h1, h2]

/-- In terms of the steps everything is as required. -/
theorem stepsOf_spec (t : ℕ) (stab : List Q) (st : List (GStep Q)) (h : stepsOf t stab = some st)
    (hw : t = 1 → 2 ≤ stab.length) :
    dataOf st = stab ∧ wf (numFlags t stab.length) ∅ st = true ∧
    ∀ j, j ∈ closedOf st ↔ j < numFlags t stab.length := by
  unfold stepsOf at h
  by_cases h1 : t = 1
  · subst h1
    simp only [if_true] at h
    cases stab with
    | nil => simp at h
    | cons s0 rest =>
      simp only [Option.some.injEq] at h
      subst h
      have hr : rest ≠ [] := by
        rintro rfl
        have := hw rfl
        simp at this
      have hlast : rest.getLastD s0 = rest.getLast hr := by
        cases rest with
        | nil => exact absurd rfl hr
        | cons a l => rw [List.getLastD_cons, List.getLast_eq_getLastD]
      refine ⟨?_, ?_, ?_⟩
      · rw [oneSteps, dataOf_append, dataOf_append, dataOf_map_data, hlast]
        show s0 :: (rest.dropLast ++ [rest.getLast hr]) = _
        rw [List.dropLast_append_getLast]
      · rw [oneSteps]
        simp only [List.cons_append, List.nil_append, wf, numFlags, if_true]
        rw [wf_map_data]
        simp [wf]
      · intro j
        rw [oneSteps, closedOf_append, closedOf_append, closedOf_map_data]
        simp only [numFlags, if_true]
        show j ∈ [] ++ ([] ++ [0]) ↔ _
        simp
  · by_cases h2 : t = 2
    · subst h2
      simp only [h1, if_false, if_true] at h
      split at h <;> simp only [Option.some.injEq, reduceCtorEq] at h <;> subst h <;>
        refine ⟨rfl, rfl, ?_⟩ <;> intro j <;> simp only [List.length_cons, List.length_nil, numFlags, closedOf,
          steps4, steps5, steps6, steps8, List.filterMap_cons, List.filterMap_nil, List.mem_cons, List.not_mem_nil] <;>
        norm_num <;> omega
    · simp [h1, h2] at h

/-- Measurement circuits are correct whenever the function returns one, for every stabilizer of
weight at least two when `t = 1` and for every handled weight when `t = 2`.  Missing: weight one
with `t = 1` (`C34_violated_weight_one`) and the weights for which no circuit is produced
(`C34_accepts`). -/
theorem C34_gadget_partial (s : R) (hs : 2 * s * s = 1) (t : ℕ) (z : Bool) (stab : List Q) (anc : Q) (mbit : C)
    (flag : ℕ → Q) (fbit : ℕ → C) (hinj : Function.Injective flag) (hne : ∀ j, flag j ≠ anc)
    (hd : anc ∉ stab) (hdf : ∀ j, flag j ∉ stab) (hw : t = 1 → 2 ≤ stab.length) (l : List (Instr Q C))
    (h : measureFlagged t z stab anc mbit flag fbit = .ok l) :
    Measures s l z stab anc mbit flag fbit (numFlags t stab.length) := by
  have hm := measureFlagged_steps t z stab anc mbit flag fbit
  cases hst : stepsOf t stab with
  | none =>
    rw [hst] at hm
    obtain ⟨e, he⟩ := hm
    rw [h] at he
    simp at he
  | some st =>
    rw [hst] at hm
    simp only at hm
    rw [h] at hm
    simp only [Except.ok.injEq] at hm
    subst hm
    obtain ⟨h1, h2, h3⟩ := stepsOf_spec t stab st hst hw
    intro ψ out hA hF
    have := gadget_correct s hs out z anc mbit flag fbit _ ψ ⟨hinj, hne, hA, hF⟩ st (by rw [h1]; exact hd)
      (fun j _ => by rw [h1]; exact hdf j) h2
    rw [this, h1]
    simp only [h3]

/-- The unflagged circuit. -/
theorem C34_unflagged (s : R) (hs : 2 * s * s = 1) (z : Bool) (stab : List Q) (anc : Q) (mbit : C)
    (flag : ℕ → Q) (fbit : ℕ → C) (hinj : Function.Injective flag) (hne : ∀ j, flag j ≠ anc) (hd : anc ∉ stab) :
    Measures s (measureUnflagged z stab anc mbit) z stab anc mbit flag fbit 0 := by
  intro ψ out hA hF
  have e : measureUnflagged z stab anc mbit = gadget z anc mbit flag fbit (stab.map .data) := by
    rw [gadget, emit_data_flatMap, measureUnflagged]
    have : ∀ f : Q → Instr Q C, stab.flatMap (fun q => [f q]) = stab.map f := by
      intro f; exact List.flatMap_pure_eq_map f stab
    cases z
    · simp only [ancH, Bool.false_eq_true, if_false, List.append_assoc]
      have := this fun q => Instr.cx anc q
      rw [← this]
      rfl
    · simp only [ancH, if_true, List.append_nil, List.nil_append]
      have := this fun q => Instr.cx q anc
      rw [← this]
      rfl
  rw [e]
  have := gadget_correct s hs out z anc mbit flag fbit 0 ψ ⟨hinj, hne, hA, hF⟩ (stab.map .data)
    (by rw [dataOf_map_data]; exact hd) (by simp) (by
      have := wf_map_data 0 ∅ stab []
      rw [List.append_nil] at this
      rw [this]; rfl)
  rw [this, dataOf_map_data, closedOf_map_data]
  simp

/-- The amplitudes exist: in the real numbers `s = 1/√2`. -/
example : ∃ s : ℝ, 2 * s * s = 1 := ⟨(Real.sqrt 2)⁻¹, by
  have : Real.sqrt 2 * Real.sqrt 2 = 2 := Real.mul_self_sqrt (by norm_num)
  have h0 : Real.sqrt 2 ≠ 0 := by
    intro h; rw [h] at this; norm_num at this
  field_simp
  nlinarith⟩

/-- Hypotheses met: four data qubits, ancilla 10 and flags from 11, data in a GHZ-like state. -/
example : ∃ l : List (Instr ℕ ℕ), measureFlagged 2 true [0, 1, 2, 3] 10 0 (11 + ·) (1 + ·) = .ok l :=
  ⟨_, rfl⟩
example : Free (fun x : ℕ → ZMod 2 => if x 0 = x 1 then (1 : ℝ) else 0) 10 := by
  intro x v; simp

/-- The full claim: for one or two errors to protect against, every non-empty stabilizer on distinct
qubits gets a circuit that measures it. -/
def C34_claim : Prop := ∀ (t : ℕ) (z : Bool) (stab : List ℕ) (anc mbit : ℕ) (flag fbit : ℕ → ℕ),
  t = 1 ∨ t = 2 → Function.Injective flag → (∀ j, flag j ≠ anc) → anc ∉ stab → (∀ j, flag j ∉ stab) →
  stab.Nodup → stab ≠ [] → ∃ l : List (Instr ℕ ℕ), measureFlagged t z stab anc mbit flag fbit = .ok l ∧
    ∃ nF, Measures ((Real.sqrt 2)⁻¹) l z stab anc mbit flag fbit nF

/-- For weight one the one-flag circuit applies its only CNOT twice: whatever the data state, the
outcome is 0 and nothing is measured. -/
theorem C34_violated_weight_one (s : R) (hs : 2 * s * s = 1) (z : Bool) (q anc : Q) (mbit : C)
    (flag : ℕ → Q) (fbit : ℕ → C) (hinj : Function.Injective flag) (hne : ∀ j, flag j ≠ anc)
    (hd : anc ≠ q) (hdf : ∀ j, flag j ≠ q) (l : List (Instr Q C))
    (h : measureFlagged 1 z [q] anc mbit flag fbit = .ok l) (ψ : State Q R) (hA : Free ψ anc) (hF : Free ψ (flag 0))
    (out : C → ZMod 2) :
    run s out l (withBits ((anc, 0) :: flagBits flag 1) ψ) =
      if out (fbit 0) = 0 ∧ out mbit = 0 then withBits ((anc, 0) :: flagBits flag 1) ψ else fun _ => 0 := by
  have hm := measureOneFlagged_eq z q [] anc mbit flag fbit
  have : measureFlagged 1 z [q] anc mbit flag fbit = measureOneFlagged z [q] anc mbit flag fbit := rfl
  rw [this, hm] at h
  simp only [Except.ok.injEq] at h
  subst h
  have hg := gadget_correct s hs out z anc mbit flag fbit 1 ψ ⟨hinj, hne, hA, by
    intro j hj; obtain rfl : j = 0 := by omega
    exact hF⟩ (oneSteps q []) (by simp [oneSteps, dataOf, hd]) (by intro j _; simp [oneSteps, dataOf, hdf j]) rfl
  rw [hg]
  have hc : closedOf (oneSteps q []) = [0] := rfl
  have hdat : dataOf (oneSteps q []) = [q, q] := rfl
  rw [hc, hdat]
  by_cases h0 : out (fbit 0) = 0
  · rw [if_pos (by simpa using h0)]
    have hp : proj (s * s) z [q, q] (out mbit) ψ = if out mbit = 0 then ψ else fun _ => 0 := by
      rw [ite_fun]
      funext x
      have hq : x q + (x q + 0) = 0 := by linear_combination x q * two_zmod2
      cases z
      · simp only [proj, Bool.false_eq_true, if_false, projX, applyX]
        have : (fun p => x p + (([q, q].count p : ℕ) : ZMod 2)) = x := by
          funext p
          by_cases hp : p = q
          · subst hp
            simp only [List.count_cons_self, List.count_nil]
            show x p + 2 = x p
            rw [two_zmod2, add_zero]
          · simp [Ne.symm hp]
        rw [this]
        by_cases hm0 : out mbit = 0
        · simp only [hm0, sgn, if_true]; linear_combination ψ x * hs
        · simp only [hm0, sgn, if_false]; ring
      · simp only [proj, if_true, projZ, List.map_cons, List.map_nil, List.sum_cons, List.sum_nil, hq]
        simp only [eq_comm]
    rw [hp]
    by_cases hm0 : out mbit = 0
    · simp [h0, hm0]
    · simp only [h0, hm0, if_false, and_false]
      funext x
      simp [withBits]
  · rw [if_neg (by simpa using h0), if_neg (fun h => h0 h.1)]

theorem C34_violated : ¬ C34_claim := by
  intro h
  obtain ⟨l, hl, -⟩ := h 2 true [0, 1, 2] 10 0 (11 + ·) (1 + ·) (.inr rfl) (fun a b h => by simpa using h)
    (by intro j; omega) (by decide) (by intro j; simp; omega) (by decide) (by decide)
  have := (C34_accepts 2 true [0, 1, 2] 10 0 (11 + ·) (1 + ·)).1 ⟨l, hl⟩
  simp at this

/-! ### The w-flag pattern -/

/-- `w_flag_pattern` lists each of `0 .. w-2` once exactly for even weights from four on. -/
theorem C35_even (w : ℕ) :
    (wFlagPattern w).Perm ((List.range (w - 1)).map Int.ofNat) ↔ w % 2 = 0 ∧ 4 ≤ w := by
  constructor
  · intro h
    have := h.length_eq
    simp [wFlagPattern] at this
    omega
  · rintro ⟨h1, h2⟩
    apply (List.perm_ext_iff_of_nodup ?_ ?_).2
    · intro a
      simp only [wFlagPattern, List.mem_append, List.mem_map, List.mem_reverse, List.mem_range, List.mem_cons,
        List.not_mem_nil, or_false]
      constructor
      · rintro (((⟨j, hj, rfl⟩ | (rfl | rfl)) | ⟨j, hj, rfl⟩) | rfl)
        · exact ⟨2 * j + 2, by omega, by simp⟩
        · exact ⟨w - 3, by omega, by simp; omega⟩
        · exact ⟨0, by omega, rfl⟩
        · exact ⟨2 * j + 1, by omega, by simp⟩
        · exact ⟨w - 2, by omega, by simp; omega⟩
      · rintro ⟨b, hb, rfl⟩
        simp only [Int.ofNat_eq_natCast]
        by_cases e0 : b = 0
        · left; left; right; right; simp [e0]
        · by_cases e1 : b = w - 2
          · right; omega
          · by_cases e2 : b = w - 3
            · left; left; right; left; omega
            · by_cases e3 : b % 2 = 0
              · left; left; left; exact ⟨(b - 2) / 2, by omega, by omega⟩
              · left; right; exact ⟨(b - 1) / 2, by omega, by omega⟩
    · have hn1 : ((List.range ((w - 4) / 2)).reverse.map fun j : ℕ => (2 * (j : ℤ) + 2)).Nodup := by
        apply List.Nodup.map
        · intro a b h; simp at h; omega
        · exact List.nodup_reverse.2 List.nodup_range
      have hn2 : ((List.range ((w - 4) / 2)).reverse.map fun j : ℕ => (2 * (j : ℤ) + 1)).Nodup := by
        apply List.Nodup.map
        · intro a b h; simp at h; omega
        · exact List.nodup_reverse.2 List.nodup_range
      unfold wFlagPattern
      rw [List.nodup_append, List.nodup_append, List.nodup_append]
      refine ⟨⟨⟨hn1, by simp; omega, ?_⟩, hn2, ?_⟩, by simp, ?_⟩
      · intro a ha b hb
        simp at ha hb
        omega
      · intro a ha b hb
        simp at ha hb
        omega
      · intro a ha b hb
        simp at ha hb
        omega
    · apply List.Nodup.map
      · intro a b h; exact Int.ofNat.inj h
      · exact List.nodup_range

/-- The claim for every weight, and its failure for odd weights: for `w = 5` one position is missing. -/
def C35_claim : Prop := ∀ w, 4 ≤ w → (wFlagPattern w).Perm ((List.range (w - 1)).map Int.ofNat)

theorem C35_violated : ¬ C35_claim := by
  intro h
  have := (C35_even 5).1 (h 5 (by norm_num))
  omega

example : wFlagPattern 8 = [4, 2, 5, 0, 3, 1, 6] := by decide
example : wFlagPattern 5 = [2, 0, 3] := by decide

end Verif.SP
