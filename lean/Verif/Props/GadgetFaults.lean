import Verif.Lemmas.GadgetGood
import Verif.Props.Gadgets

/-! # C101: the flagged measurement circuits are fault tolerant -/

namespace Verif.SP
open Verif Verif.Spec

variable {Q C R : Type} [DecidableEq Q] [DecidableEq C] [CommRing R]

omit [DecidableEq Q] in
theorem wfs_data (l : List Q) (st : List (GStep Q)) (h : wfs st) : wfs (l.map GStep.data ++ st) := by
  induction l with
  | nil => exact h
  | cons a l ih => exact ih

/-- The step sequences open and close every flag once. -/
theorem stepsOf_wfs (t : ℕ) (stab : List Q) (st : List (GStep Q)) (h : stepsOf t stab = some st) :
    wfs st ∧ (closedOf st).Nodup := by
  unfold stepsOf at h
  by_cases h1 : t = 1
  · subst h1
    simp only [if_true] at h
    cases stab with
    | nil => simp at h
    | cons s0 rest =>
      simp only [Option.some.injEq] at h
      subst h
      refine ⟨?_, ?_⟩
      · unfold oneSteps
        simp only [List.cons_append, List.nil_append, wfs]
        refine ⟨⟨0, ?_⟩, wfs_data _ _ (by simp [wfs, onFlag])⟩
        have : ∀ l : List Q, (l.map GStep.data ++ [GStep.close 0, GStep.data (rest.getLastD s0)]).find? (onFlag 0) =
            some (GStep.close 0 : GStep Q) := by
          intro l
          induction l with
          | nil => rfl
          | cons a l ih => rw [List.map_cons, List.cons_append, List.find?_cons]; exact ih
        exact this _
      · rw [oneSteps, closedOf_append, closedOf_append, closedOf_map_data]
        show ([] ++ ([] ++ [0]) : List ℕ).Nodup
        simp
  · by_cases h2 : t = 2
    · subst h2
      simp only [h1, if_false, if_true] at h
      split at h <;> simp only [Option.some.injEq, reduceCtorEq] at h <;> subst h <;>
        simp [steps4, steps5, steps6, steps8, wfs, onFlag, closedOf]
    · simp [h1, h2] at h

omit [DecidableEq Q] [DecidableEq C] in
theorem bitsOf_append (l l' : List (Instr Q C)) : bitsOf (l ++ l') = bitsOf l ++ bitsOf l' := by
  simp [bitsOf, List.filterMap_append]

omit [DecidableEq Q] [DecidableEq C] in
theorem bitsOf_gadget (z : Bool) (anc : Q) (mbit : C) (flag : ℕ → Q) (fbit : ℕ → C) (st : List (GStep Q)) :
    bitsOf (gadget z anc mbit flag fbit st) = (closedOf st).map fbit ++ [mbit] := by
  have hA : bitsOf (ancH z anc : List (Instr Q C)) = [] := by cases z <;> rfl
  have hc : ∀ q, bitsOf (ancillaCnot z anc q : List (Instr Q C)) = [] := by intro q; cases z <;> rfl
  have hm : bitsOf (st.flatMap (emit z anc flag fbit)) = (closedOf st).map fbit := by
    induction st with
    | nil => rfl
    | cons g st ih =>
      rw [List.flatMap_cons, bitsOf_append, ih]
      cases g with
      | data q => simp only [emit, hc, closedOf_data, List.nil_append]
      | opn j =>
        have : bitsOf (flagInit z (flag j) : List (Instr Q C)) = [] := by cases z <;> rfl
        simp only [emit, bitsOf_append, hc, this, closedOf_open, List.nil_append]
      | close j =>
        have : bitsOf (flagMeasure z (flag j) (fbit j)) = [fbit j] := by cases z <;> rfl
        simp only [emit, bitsOf_append, hc, this, closedOf_close, List.nil_append, List.map_cons, List.cons_append]
  rw [gadget, bitsOf_append, bitsOf_append, bitsOf_append, hA, hm]
  simp [bitsOf]

omit [DecidableEq Q] [DecidableEq C] in
theorem valid_gadget (z : Bool) (anc : Q) (mbit : C) (flag : ℕ → Q) (fbit : ℕ → C) (st : List (GStep Q))
    (hne : ∀ j, flag j ≠ anc) (hd : anc ∉ dataOf st) : ∀ i ∈ gadget z anc mbit flag fbit st, i.Valid := by
  have hA : ∀ i ∈ (ancH z anc : List (Instr Q C)), i.Valid := by
    intro i hi; cases z <;> simp [ancH] at hi; subst hi; trivial
  have hc : ∀ q, q ≠ anc → ∀ i ∈ (ancillaCnot z anc q : List (Instr Q C)), i.Valid := by
    intro q hq i hi
    cases z <;> simp [ancillaCnot] at hi <;> subst hi
    · exact hq.symm
    · exact hq
  have hm : ∀ i ∈ st.flatMap (emit z anc flag fbit), i.Valid := by
    intro i hi
    obtain ⟨g, hg, hi⟩ := List.mem_flatMap.mp hi
    cases g with
    | data q =>
      refine hc q ?_ i hi
      rintro rfl
      exact hd (List.mem_filterMap.mpr ⟨_, hg, rfl⟩)
    | opn j =>
      rcases List.mem_append.mp hi with hi | hi
      · cases z <;> simp [flagInit] at hi; subst hi; trivial
      · exact hc _ (hne j) i hi
    | close j =>
      rcases List.mem_append.mp hi with hi | hi
      · exact hc _ (hne j) i hi
      · cases z <;> simp [flagMeasure] at hi
        · subst hi; trivial
        · rcases hi with rfl | rfl <;> trivial
  intro i hi
  simp only [gadget, List.mem_append, List.mem_singleton] at hi
  rcases hi with ((hi | hi) | hi) | rfl
  · exact hA i hi
  · exact hm i hi
  · exact hA i hi
  · trivial

/-! ### The measured operator -/

/-- The stabilizer as an operator. -/
noncomputable def stabOp (z : Bool) (S : List Q) : PauliErr Q :=
  if z then (0, (S.map fun q => Finsupp.single q 1).sum) else ((S.map fun q => Finsupp.single q 1).sum, 0)

theorem sum_single_apply (S : List Q) (p : Q) :
    ((S.map fun q => Finsupp.single q (1 : ZMod 2)).sum) p = (S.count p : ZMod 2) := by
  induction S with
  | nil => simp
  | cons a S ih =>
    rw [List.map_cons, List.sum_cons, Finsupp.add_apply, ih, List.count_cons, Finsupp.single_apply]
    by_cases h : a = p
    · simp [h, add_comm]
    · simp [h]

omit [DecidableEq Q] in
theorem zdot_sum_single (S : List Q) (y : Q → ZMod 2) :
    zdot ((S.map fun q => Finsupp.single q (1 : ZMod 2)).sum) y = (S.map y).sum := by
  induction S with
  | nil => simp [zdot_zero]
  | cons a S ih => simp [zdot_add, zdot_single, ih]

/-- The measured operator acts as the outcome's sign on the projected state. -/
theorem stabOp_proj (half : R) (z : Bool) (S : List Q) (m : ZMod 2) (ψ : State Q R) (l : List (Q × ZMod 2))
    (hl : ∀ p ∈ l, p.1 ∉ S) :
    applyOp (stabOp z S) (withBits l (proj half z S m ψ)) = fun y => (sgn m : R) * withBits l (proj half z S m ψ) y := by
  have hm : ∀ a : ZMod 2, (sgn a : R) * sgn a = 1 := by
    intro a; rw [← sgn_add, zadd, sgn_zero]
  funext y
  cases z
  · have e : ∀ x : Q → ZMod 2, (fun q => x q + (stabOp false S).1 q) = fun q => x q + (S.count q : ZMod 2) := by
      intro x; funext q; simp [stabOp, sum_single_apply]
    have e2 : (stabOp false S : PauliErr Q).2 = 0 := by simp [stabOp]
    unfold applyOp
    rw [e y, e2, zdot_zero, sgn_zero, one_mul]
    simp only [withBits, proj, Bool.false_eq_true, if_false, projX, applyX]
    have hc : (∀ p ∈ l, y p.1 + (S.count p.1 : ZMod 2) = p.2) ↔ ∀ p ∈ l, y p.1 = p.2 := by
      refine forall₂_congr fun p hp => ?_
      rw [List.count_eq_zero.mpr (hl p hp)]
      simp
    have hz : (fun q => y q + (S.count q : ZMod 2) + (S.count q : ZMod 2)) = y := by
      funext q; rw [add_assoc, zadd, add_zero]
    simp only [hc, hz]
    split
    · linear_combination (-half * ψ fun q => y q + (S.count q : ZMod 2)) * hm m
    · simp
  · have e : (fun q => y q + (stabOp true S).1 q) = y := by
      funext q; simp [stabOp]
    have : zdot (stabOp true S).2 y = (S.map y).sum := by
      simp only [stabOp, if_true]; exact zdot_sum_single S y
    unfold applyOp
    rw [e, this]
    simp only [withBits, proj, if_true, projZ]
    split
    · split
      · next h => rw [h]
      · simp
    · simp

theorem stabOp_hk (z : Bool) (S : List Q) (p : Q) :
    hk z (((stabOp z S), 0) : Frame Q C) p = (S.count p : ZMod 2) ∧ oth z (((stabOp z S), 0) : Frame Q C) p = 0 := by
  cases z <;> simp [hk, oth, stabOp, sum_single_apply]

theorem acts_iff (z : Bool) (P : PauliErr Q) (p : Q) :
    P.ActsOn p ↔ hk z ((P, 0) : Frame Q C) p ≠ 0 ∨ oth z ((P, 0) : Frame Q C) p ≠ 0 := by
  cases z <;> simp [hk, oth, PauliErr.ActsOn, or_comm]

theorem sgn_sq (a : ZMod 2) : (sgn a : R) * sgn a = 1 := by rw [← sgn_add, zadd, sgn_zero]

omit [DecidableEq Q] in
theorem applyOp_split (P P' : PauliErr Q) (φ : State Q R) :
    ∃ b : ZMod 2, applyOp (P + P') φ = fun y => (sgn b : R) * applyOp P (applyOp P' φ) y := by
  refine ⟨zdot P'.2 P.1, ?_⟩
  rw [applyOp_add]
  funext y
  linear_combination (-applyOp (P + P') φ y) * sgn_sq (R := R) (zdot P'.2 P.1)

/-- Two frames with the same parts. -/
theorem hk_add (z : Bool) (F G : Frame Q C) (p : Q) :
    hk z (F + G) p = hk z F p + hk z G p ∧ oth z (F + G) p = oth z F p + oth z G p := by
  cases z <;> simp [hk, oth]

theorem sums_of_moves (z : Bool) (anc : Q) (flag : ℕ → Q) (fbit : ℕ → C) (st : List (GStep Q)) (ms : List (Move Q))
    (Fs : List (Frame Q C)) (h : List.Forall₂ (Expl z anc flag fbit st) ms Fs) :
    (∀ m ∈ ms, m.Valid st) ∧
    (∀ p, IsData anc flag p → (∀ m ∈ ms, p ∉ m.locals st) →
      hk z Fs.sum p = (ms.map (Move.data st p)).sum ∧ oth z Fs.sum p = 0) ∧
    ∀ j, Fs.sum.2 (fbit j) = (ms.map (Move.flagFlip st j)).sum := by
  induction h with
  | nil => refine ⟨by simp, fun p _ _ => ?_, fun j => by simp⟩; cases z <;> simp [hk, oth]
  | @cons m F ms Fs hm hms ih =>
    obtain ⟨h1, h2, h3⟩ := ih
    refine ⟨fun m' hm' => ?_, fun p hp hl => ?_, fun j => ?_⟩
    · rcases List.mem_cons.mp hm' with rfl | hm'
      · exact hm.valid
      · exact h1 m' hm'
    · obtain ⟨a, b⟩ := h2 p hp fun m' hm' => hl m' (List.mem_cons_of_mem _ hm')
      obtain ⟨a', b'⟩ := hm.data p hp (hl m (by simp))
      rw [List.sum_cons, (hk_add z F _ p).1, (hk_add z F _ p).2, a, b, a', b', List.map_cons, List.sum_cons]
      exact ⟨rfl, by simp⟩
    · rw [List.sum_cons, List.map_cons, List.sum_cons, ← h3, ← hm.flags]
      rfl

/-- The circuit `l` measures the stabilizer `S` and tolerates `t` faults: whichever at most `t` Pauli faults strike (before or
after any instruction, on one qubit anywhere or on the qubits of the instruction), outcomes with all flags 0 either cannot
occur or leave the data in the state projected onto an eigenspace of the stabilizer, up to a sign, an error `e` on no more
data qubits than there were faults, and an error `e'` on the ancilla and the flags. -/
def FaultTolerant (s : R) (t : ℕ) (l : List (Instr Q C)) (z : Bool) (S : List Q) (anc : Q) (flag : ℕ → Q)
    (fbit : ℕ → C) (nF : ℕ) : Prop :=
  ∀ N : List (NoisyInstr Q C), N.map NoisyInstr.instr = l → AllFaults N → faultCount N ≤ t →
  ∀ (ψ : State Q R) (out : C → ZMod 2), Free ψ anc → (∀ j < nF, Free ψ (flag j)) → (∀ j < nF, out (fbit j) = 0) →
    runNoisy s out N (withBits ((anc, 0) :: flagBits flag nF) ψ) = (fun _ => 0) ∨
    ∃ (m b : ZMod 2) (e e' : PauliErr Q), e.WeightLe (faultCount N) ∧
      (∀ q, e.ActsOn q → q ≠ anc ∧ ∀ j, q ≠ flag j) ∧ (∀ q, e'.ActsOn q → q = anc ∨ ∃ j, q = flag j) ∧
      runNoisy s out N (withBits ((anc, 0) :: flagBits flag nF) ψ) = fun y => (sgn b : R) *
        applyOp e' (applyOp e (withBits ((anc, m) :: flagBits flag nF) (proj (s * s) z S m ψ))) y

/-- Whenever `measure_flagged` returns a circuit for `t` faults, that circuit tolerates `t` faults. -/
theorem C101_fault_tolerant (s : R) (hs : 2 * s * s = 1) (t : ℕ) (z : Bool) (stab : List Q) (anc : Q) (mbit : C)
    (flag : ℕ → Q) (fbit : ℕ → C) (hinj : Function.Injective flag) (hne : ∀ j, flag j ≠ anc)
    (hbinj : Function.Injective fbit) (hbne : ∀ j, fbit j ≠ mbit) (hnd : stab.Nodup)
    (hd : anc ∉ stab) (hdf : ∀ j, flag j ∉ stab) (hw : t = 1 → 2 ≤ stab.length) (l : List (Instr Q C))
    (h : measureFlagged t z stab anc mbit flag fbit = .ok l) :
    FaultTolerant s t l z stab anc flag fbit (numFlags t stab.length) := by
  intro N hN hf hc ψ out hA hF hout
  classical
  have hL : Lay anc mbit flag fbit := ⟨hinj, hne, hbinj, hbne⟩
  have hmeas := C34_gadget_partial s hs t z stab anc mbit flag fbit hinj hne hd hdf hw l h
  have hm := measureFlagged_steps t z stab anc mbit flag fbit
  cases hst : stepsOf t stab with
  | none =>
    rw [hst] at hm
    obtain ⟨e, he⟩ := hm
    rw [h] at he
    simp at he
  | some st =>
    rw [hst] at hm
    simp only at hm
    rw [h] at hm
    simp only [Except.ok.injEq] at hm
    obtain ⟨hdat, -, hclosed⟩ := stepsOf_spec t stab st hst hw
    obtain ⟨hwfs, hcn⟩ := stepsOf_wfs t stab st hst
    have hisd : ∀ q ∈ dataOf st, IsData anc flag q := by
      rw [hdat]
      exact fun q hq => ⟨fun e => hd (e ▸ hq), fun j e => hdf j (e ▸ hq)⟩
    have hbits : bitsOf (N.map NoisyInstr.instr) = (closedOf st).map fbit ++ [mbit] := by
      rw [hN, hm, bitsOf_gadget]
    have hbn : (bitsOf (N.map NoisyInstr.instr)).Nodup := by
      rw [hbits, List.nodup_append]
      refine ⟨hcn.map hbinj, by simp, ?_⟩
      intro a ha b hb
      obtain ⟨j, -, rfl⟩ := List.mem_map.mp ha
      rw [List.mem_singleton] at hb
      subst hb
      exact hbne j
    have hval : ∀ L ∈ N, L.instr.Valid := by
      intro L hLN
      have := valid_gadget z anc mbit flag fbit st hne (by rw [hdat]; exact hd) L.instr
      rw [← hm, ← hN] at this
      exact this (List.mem_map_of_mem hLN)
    obtain ⟨b, hrun⟩ := noisy_run s out N (withBits ((anc, 0) :: flagBits flag (numFlags t stab.length)) ψ) hval hbn
    rw [hN, hmeas ψ _ hA hF] at hrun
    by_cases hfl : ∀ j < numFlags t stab.length, out (fbit j) + (noisyFrame N 0).2 (fbit j) = 0
    swap
    · left
      rw [hrun, if_neg hfl]
      funext y
      simp [applyOp]
    right
    rw [if_pos hfl] at hrun
    set m : ZMod 2 := out mbit + (noisyFrame N 0).2 mbit with hmdef
    obtain ⟨ms, Fs, hlen, hall, hsum⟩ := noisyFrame_sum (Expl z anc flag fbit st) N 0 hf (by
      rw [hN, hm]; exact fault_moves z anc mbit flag fbit hL st hwfs hisd)
    rw [prop_zero, zero_add] at hsum
    obtain ⟨hmv, hmd, hmf⟩ := sums_of_moves z anc flag fbit st ms Fs hall
    have hgood := stepsOf_good t stab st hst hw hnd ms (hlen.trans hc) hmv (by
      intro j
      rw [← hmf j, ← hsum]
      by_cases hj : j < numFlags t stab.length
      · have := hfl j hj
        rwa [hout j hj, zero_add] at this
      · rw [noisyFrame_bit]
        · rfl
        · rw [hbits]
          intro hmem
          rcases List.mem_append.mp hmem with hmem | hmem
          · obtain ⟨i, hi, e⟩ := List.mem_map.mp hmem
            rw [hbinj e] at hi
            exact hj ((hclosed j).mp hi)
          · rw [List.mem_singleton] at hmem
            exact hbne j hmem)
    obtain ⟨c, T, hT, hloc, hsm⟩ := hgood
    set P : PauliErr Q := (noisyFrame N 0).1 with hP
    let D : PauliErr Q := (P.1.filter (IsData anc flag), P.2.filter (IsData anc flag))
    let E : PauliErr Q := (P.1.filter (fun q => ¬ IsData anc flag q), P.2.filter (fun q => ¬ IsData anc flag q))
    have hDE : P = E + D := by
      refine Prod.ext ?_ ?_
      · show P.1 = _ + _
        rw [add_comm]; exact (Finsupp.filter_pos_add_filter_neg _ _).symm
      · show P.2 = _ + _
        rw [add_comm]; exact (Finsupp.filter_pos_add_filter_neg _ _).symm
    have hEact : ∀ q, E.ActsOn q → q = anc ∨ ∃ j, q = flag j := by
      intro q hq
      by_contra hcon
      push Not at hcon
      have : IsData anc flag q := ⟨hcon.1, fun j e => hcon.2 j e.symm⟩
      rcases hq with hq | hq <;> exact hq (Finsupp.filter_apply_neg _ _ (fun hn => hn this))
    have hDact : ∀ q, D.ActsOn q → IsData anc flag q := by
      intro q hq
      by_contra hcon
      rcases hq with hq | hq <;> exact hq (Finsupp.filter_apply_neg _ _ hcon)
    have hDq : ∀ q, IsData anc flag q → D.1 q = P.1 q ∧ D.2 q = P.2 q := fun q hq =>
      ⟨Finsupp.filter_apply_pos _ _ hq, Finsupp.filter_apply_pos _ _ hq⟩
    have hDw : ∀ q, IsData anc flag q → q ∉ T →
        hk z ((D, 0) : Frame Q C) q + c * (stab.count q : ZMod 2) = 0 ∧ oth z ((D, 0) : Frame Q C) q = 0 := by
      intro q hq hqT
      have hno : ∀ m ∈ ms, q ∉ m.locals st := fun m hm hq' => hqT (hloc m hm q hq')
      obtain ⟨a, b'⟩ := hmd q hq hno
      rw [← hsum] at a b'
      have e1 : hk z ((D, 0) : Frame Q C) q = hk z (noisyFrame N 0) q := by
        cases z
        · exact (hDq q hq).1
        · exact (hDq q hq).2
      have e2 : oth z ((D, 0) : Frame Q C) q = oth z (noisyFrame N 0) q := by
        cases z
        · exact (hDq q hq).2
        · exact (hDq q hq).1
      refine ⟨?_, e2.trans b'⟩
      by_contra hcon
      apply hqT
      apply hsm
      rwa [hdat, ← a, ← e1]
    set φ := withBits ((anc, m) :: flagBits flag (numFlags t stab.length)) (proj (s * s) z stab m ψ) with hφ
    have hstab : applyOp (stabOp z stab) φ = fun y => (sgn m : R) * φ y := by
      refine stabOp_proj (s * s) z stab m ψ _ ?_
      intro p hp
      rcases List.mem_cons.mp hp with rfl | hp
      · exact hd
      · obtain ⟨j, -, rfl⟩ := List.mem_map.mp hp
        exact hdf j
    obtain ⟨b1, h1⟩ := applyOp_split E D φ
    have hb : ∀ c : ZMod 2, c = 0 ∨ c = 1 := by decide
    rcases hb c with hc0 | hc1
    · refine ⟨m, b + b1, D, E, ⟨T, hT.trans hlen, ?_⟩, ?_, hEact, ?_⟩
      · intro q hq
        by_contra hqT
        obtain ⟨a, b'⟩ := hDw q (hDact q hq) hqT
        rw [hc0, zero_mul, add_zero] at a
        rcases (acts_iff (C := C) z D q).mp hq with hq | hq
        · exact hq a
        · exact hq b'
      · exact fun q hq => ⟨(hDact q hq).1, fun j e => (hDact q hq).2 j e.symm⟩
      · rw [hrun, hDE, h1]
        funext y
        rw [sgn_add]; ring
    · have hS : ∀ q, (stabOp z stab).ActsOn q → IsData anc flag q := by
        intro q hq
        rcases (acts_iff (C := C) z _ q).mp hq with hq | hq
        · rw [(stabOp_hk z stab q).1] at hq
          refine hisd q ?_
          rw [hdat]
          by_contra hcon
          rw [List.count_eq_zero.mpr hcon] at hq
          exact hq rfl
        · exact absurd (stabOp_hk z stab q).2 hq
      have hsplit : (((D + stabOp z stab, 0) : Frame Q C)) = ((D, 0) : Frame Q C) + ((stabOp z stab, 0) : Frame Q C) := by
        simp
      have hself : stabOp z stab + stabOp z stab = 0 := by
        refine Prod.ext ?_ ?_ <;> ext q <;> exact zadd _
      obtain ⟨b2, h2⟩ := applyOp_split (D + stabOp z stab) (stabOp z stab) φ
      rw [add_assoc, hself, add_zero, hstab, applyOp_smul] at h2
      have hact : ∀ q, (D + stabOp z stab).ActsOn q → IsData anc flag q := by
        intro q hq
        by_contra hcon
        have n1 := not_acts (fun h => hcon (hDact q h))
        have n2 := not_acts (fun h => hcon (hS q h))
        rcases hq with hq | hq
        · exact hq (by show D.1 q + (stabOp z stab).1 q = 0; rw [n1.1, n2.1, add_zero])
        · exact hq (by show D.2 q + (stabOp z stab).2 q = 0; rw [n1.2, n2.2, add_zero])
      refine ⟨m, b + b1 + b2 + m, D + stabOp z stab, E, ⟨T, hT.trans hlen, ?_⟩, ?_, hEact, ?_⟩
      · intro q hq
        by_contra hqT
        obtain ⟨a, b'⟩ := hDw q (hact q hq) hqT
        rw [hc1, one_mul] at a
        rcases (acts_iff (C := C) z _ q).mp hq with hq | hq
        · rw [hsplit, (hk_add z _ _ q).1, (stabOp_hk z stab q).1] at hq
          exact hq a
        · rw [hsplit, (hk_add z _ _ q).2, (stabOp_hk z stab q).2, b'] at hq
          exact hq (add_zero 0)
      · exact fun q hq => ⟨(hact q hq).1, fun j e => (hact q hq).2 j e.symm⟩
      · rw [hrun, hDE, h1, h2]
        funext y
        rw [applyOp_smul, applyOp_smul]
        simp only [sgn_add]
        ring

/-- Hypotheses met: a weight-8 stabilizer, two faults (an error of the ancilla and a data qubit in the fifth instruction, a
flipped flag measurement). -/
example : ∃ l : List (Instr ℕ ℕ), measureFlagged 2 false [0, 1, 2, 3, 4, 5, 6, 7] 10 0 (11 + ·) (1 + ·) = .ok l ∧
    ∃ N : List (NoisyInstr ℕ ℕ), N.map NoisyInstr.instr = l ∧ AllFaults N ∧ faultCount N = 2 := by
  refine ⟨_, rfl, ?_⟩
  let l : List (Instr ℕ ℕ) := [.h 10, .cx 10 0, .cx 10 11, .cx 10 1, .cx 10 12, .cx 10 2, .cx 10 3, .cx 10 13, .cx 10 4,
    .cx 10 5, .cx 10 11, .measure 11 1, .cx 10 6, .cx 10 13, .measure 13 3, .cx 10 12, .measure 12 2, .cx 10 7, .h 10,
    .measure 10 0]
  have hx : Finsupp.single 10 (1 : ZMod 2) ≠ (0 : ℕ →₀ ZMod 2) := by simp
  have hy : Finsupp.single 11 (1 : ZMod 2) ≠ (0 : ℕ →₀ ZMod 2) := by simp
  refine ⟨(l.take 6).map (fun i => ⟨0, i, 0⟩) ++ [⟨0, .cx 10 3, (Finsupp.single 10 1, Finsupp.single 3 1)⟩] ++
    ((l.drop 7).take 4).map (fun i => ⟨0, i, 0⟩) ++ [⟨(Finsupp.single 11 1, 0), .measure 11 1, 0⟩] ++
    (l.drop 12).map (fun i => ⟨0, i, 0⟩), rfl, ?_, ?_⟩
  · have h0 : ∀ i : Instr ℕ ℕ, FaultAt i 0 := fun i => .inr fun p hp => by simp [PauliErr.ActsOn] at hp
    intro L hL
    simp only [List.mem_append, List.mem_map, List.mem_singleton] at hL
    rcases hL with (((⟨i, -, rfl⟩ | rfl) | ⟨i, -, rfl⟩) | rfl) | ⟨i, -, rfl⟩
    · exact ⟨h0 _, h0 _⟩
    · refine ⟨h0 _, .inr fun p hp => ?_⟩
      by_contra hcon
      simp only [Instr.qubits, List.mem_cons, List.not_mem_nil, or_false, not_or] at hcon
      simp [PauliErr.ActsOn, Ne.symm hcon.1, Ne.symm hcon.2] at hp
    · exact ⟨h0 _, h0 _⟩
    · refine ⟨.inl ⟨11, fun p hp => ?_⟩, h0 _⟩
      by_contra hcon
      simp [PauliErr.ActsOn, Ne.symm hcon] at hp
    · exact ⟨h0 _, h0 _⟩
  · simp [faultCount, l, hx, hy]

/-- `measure_stab_two_flagged` called directly: it returns a circuit exactly for stabilizers of weight 5 and 6 (it asks for
flags outside its register from weight 7 on), and that circuit tolerates two faults. -/
theorem C101_two_flagged (s : R) (hs : 2 * s * s = 1) (z : Bool) (stab : List Q) (anc : Q) (mbit : C)
    (flag : ℕ → Q) (fbit : ℕ → C) (hinj : Function.Injective flag) (hne : ∀ j, flag j ≠ anc)
    (hbinj : Function.Injective fbit) (hbne : ∀ j, fbit j ≠ mbit) (hnd : stab.Nodup)
    (hd : anc ∉ stab) (hdf : ∀ j, flag j ∉ stab) :
    ((∃ l, measureTwoFlagged z stab anc mbit flag fbit = .ok l) ↔ stab.length = 5 ∨ stab.length = 6) ∧
    ∀ l, measureTwoFlagged z stab anc mbit flag fbit = .ok l → FaultTolerant s 2 l z stab anc flag fbit 2 := by
  refine ⟨⟨fun ⟨l, h⟩ => (measureTwoFlagged_ok z stab anc mbit flag fbit l h).1, ?_⟩, fun l h => ?_⟩
  · intro h
    rcases stab with _ | ⟨s0, _ | ⟨s1, _ | ⟨s2, _ | ⟨s3, _ | ⟨s4, _ | ⟨s5, _ | ⟨s6, rest⟩⟩⟩⟩⟩⟩⟩
    · simp at h
    · simp at h
    · simp at h
    · simp at h
    · simp at h
    · exact ⟨_, measureTwoFlagged_five z s0 s1 s2 s3 s4 anc mbit flag fbit⟩
    · exact ⟨_, measureTwoFlagged_six z s0 s1 s2 s3 s4 s5 anc mbit flag fbit⟩
    · simp only [List.length_cons] at h; omega
  · obtain ⟨hlen, st, hst, rfl⟩ := measureTwoFlagged_ok z stab anc mbit flag fbit l h
    have hm := measureFlagged_steps 2 z stab anc mbit flag fbit
    rw [hst] at hm
    have := C101_fault_tolerant s hs 2 z stab anc mbit flag fbit hinj hne hbinj hbne hnd hd hdf (by simp) _ hm
    have e : numFlags 2 stab.length = 2 := by rcases hlen with h | h <;> rw [h] <;> rfl
    rwa [e] at this

example : ∃ l : List (Instr ℕ ℕ), measureTwoFlagged true [0, 1, 2, 3, 4, 5] 10 0 (11 + ·) (1 + ·) = .ok l ∧
    FaultTolerant ((Real.sqrt 2)⁻¹) 2 l true [0, 1, 2, 3, 4, 5] 10 (11 + ·) (1 + ·) 2 := by
  obtain ⟨h1, h2⟩ := C101_two_flagged ((Real.sqrt 2)⁻¹) (by
    have : Real.sqrt 2 ≠ 0 := by positivity
    field_simp
    rw [Real.sq_sqrt (by norm_num)]) true [0, 1, 2, 3, 4, 5] (10 : ℕ) (0 : ℕ) (11 + ·) (1 + ·) (add_right_injective 11)
    (fun j => by simp; omega) (add_right_injective 1) (fun j => by simp) (by decide) (by decide) (fun j => by simp; omega)
  obtain ⟨l, hl⟩ := h1.2 (.inr rfl)
  exact ⟨l, hl, h2 l hl⟩

/-- Flags are needed: the plain measurement of a weight-4 stabilizer does not tolerate one fault. -/
theorem C101_unflagged_not : ¬ FaultTolerant ((Real.sqrt 2)⁻¹) 1
    (measureUnflagged true [0, 1, 2, 3] 4 0 : List (Instr ℕ ℕ)) true [0, 1, 2, 3] 4 (5 + ·) (1 + ·) 0 := by
  intro hft
  have hb : ∀ c : ZMod 2, c = 0 ∨ c = 1 := by decide
  have hz : ∀ i : Instr ℕ ℕ, FaultAt i 0 := fun i => .inr fun p hp => by simp [PauliErr.ActsOn] at hp
  let N : List (NoisyInstr ℕ ℕ) := [⟨0, .cx 0 4, 0⟩, ⟨0, .cx 1 4, (0, Finsupp.single 4 1)⟩, ⟨0, .cx 2 4, 0⟩, ⟨0, .cx 3 4, 0⟩,
    ⟨0, .measure 4 0, 0⟩]
  have hx : Finsupp.single 4 (1 : ZMod 2) ≠ (0 : ℕ →₀ ZMod 2) := by simp
  have hcount : faultCount N = 1 := by simp [faultCount, N, hx]
  have hN : AllFaults N := by
    intro L hL
    simp only [N, List.mem_cons, List.not_mem_nil, or_false] at hL
    rcases hL with rfl | rfl | rfl | rfl | rfl
    · exact ⟨hz _, hz _⟩
    · refine ⟨hz _, .inl ⟨4, fun p hp => ?_⟩⟩
      by_contra hcon
      simp [PauliErr.ActsOn, Ne.symm hcon] at hp
    · exact ⟨hz _, hz _⟩
    · exact ⟨hz _, hz _⟩
    · exact ⟨hz _, hz _⟩
  have hrun : ∀ y : ℕ → ZMod 2, runNoisy (R := ℝ) ((Real.sqrt 2)⁻¹) (fun _ => 0) N
      (withBits ((4, 0) :: flagBits (5 + ·) 0) (fun _ => 1)) y =
      if y 4 = 0 then sgn (y 4 + y 3 + y 2) * (if y 4 + y 3 + y 2 + y 1 + y 0 = 0 then 1 else 0) else 0 := by
    intro y
    simp [runNoisy, N, applyOp_zero, step, applyOp, zdot_single, withBits, flagBits, zdot_zero, sgn_zero]
  have hev : ∀ y : ℕ → ZMod 2, y 4 = 0 → y 3 + y 2 + y 1 + y 0 = 0 → runNoisy (R := ℝ) ((Real.sqrt 2)⁻¹) (fun _ => 0) N
      (withBits ((4, 0) :: flagBits (5 + ·) 0) (fun _ => 1)) y = sgn (y 3 + y 2) := by
    intro y h4 h
    rw [hrun y, if_pos h4, h4, if_pos (by rw [zero_add]; exact h), mul_one, zero_add]
  rcases hft N rfl hN hcount.le (fun _ => 1) (fun _ => 0) (fun _ _ => rfl) (by simp) (by simp) with h0 | h1
  · have := hev (fun _ => 0) rfl (by decide)
    rw [h0] at this
    simp [sgn] at this
  · obtain ⟨m, b, e, e', hw, hd, he', heq⟩ := h1
    rw [hcount] at hw
    obtain ⟨T, hT, hTq⟩ := hw
    have hnul : ∀ (w : ℕ →₀ ZMod 2) (y : ℕ → ZMod 2), (∀ q, w q = 0 ∨ y q = 0) → zdot w y = 0 := by
      intro w y h
      unfold zdot Finsupp.sum
      refine Finset.sum_eq_zero fun q _ => ?_
      show w q * y q = 0
      rcases h q with h | h <;> rw [h] <;> simp
    have hval : ∀ x : ℕ → ZMod 2, withBits ((4, m) :: flagBits (5 + ·) 0)
        (proj (((Real.sqrt 2)⁻¹ : ℝ) * (Real.sqrt 2)⁻¹) true [0, 1, 2, 3] m (fun _ => 1)) x = 0 ∨
        withBits ((4, m) :: flagBits (5 + ·) 0)
        (proj (((Real.sqrt 2)⁻¹ : ℝ) * (Real.sqrt 2)⁻¹) true [0, 1, 2, 3] m (fun _ => 1)) x = 1 := by
      intro x
      simp only [withBits, proj, if_true, projZ]
      split
      · split
        · exact .inr rfl
        · exact .inl rfl
      · exact .inl rfl
    have hsg : ∀ c : ZMod 2, (sgn c : ℝ) = 1 ∧ c = 0 ∨ (sgn c : ℝ) = -1 ∧ c = 1 := by
      intro c
      rcases hb c with rfl | rfl <;> simp [sgn]
    have key : ∀ y : ℕ → ZMod 2, (∀ q, q ≠ 0 → q ≠ 1 → q ≠ 2 → q ≠ 3 → y q = 0) → y 3 + y 2 + y 1 + y 0 = 0 →
        ∃ A : ℝ, (A = 0 ∨ A = 1) ∧ (sgn (y 3 + y 2) : ℝ) = sgn (b + zdot e.2 e'.1) * sgn (zdot e.2 y) * A := by
      intro y hy hpar
      refine ⟨_, hval (fun q => y q + e'.1 q + e.1 q), ?_⟩
      rw [← hev y (hy 4 (by decide) (by decide) (by decide) (by decide)) hpar, heq]
      simp only [applyOp]
      rw [hnul e'.2 y, zdot_add_right, sgn_zero, sgn_add, sgn_add]
      · ring
      · intro q
        by_contra hcon
        push Not at hcon
        rcases he' q (.inr hcon.1) with rfl | ⟨j, rfl⟩
        · exact hcon.2 (hy 4 (by decide) (by decide) (by decide) (by decide))
        · exact hcon.2 (hy (5 + j) (by omega) (by omega) (by omega) (by omega))
    have hb0 : (sgn (b + zdot e.2 e'.1) : ℝ) = 1 := by
      obtain ⟨A, hA, hk⟩ := key (fun _ => 0) (fun _ _ _ _ _ => rfl) (by decide)
      rw [hnul e.2 (fun _ => 0) fun q => .inr rfl] at hk
      simp only [add_zero, sgn_zero, mul_one] at hk
      rcases hA with rfl | rfl
      · simp at hk
      · rw [mul_one] at hk; exact hk.symm
    have hsgn : ∀ y : ℕ → ZMod 2, (∀ q, q ≠ 0 → q ≠ 1 → q ≠ 2 → q ≠ 3 → y q = 0) → y 3 + y 2 + y 1 + y 0 = 0 →
        y 3 + y 2 = zdot e.2 y := by
      intro y hy hpar
      obtain ⟨A, hA, hk⟩ := key y hy hpar
      rw [hb0, one_mul] at hk
      rcases hsg (y 3 + y 2) with ⟨h1, h2⟩ | ⟨h1, h2⟩ <;> rcases hsg (zdot e.2 y) with ⟨h3, h4⟩ | ⟨h3, h4⟩ <;>
        rw [h1, h3] at hk <;> rcases hA with rfl | rfl <;> first | (rw [h2, h4]; done) | (exfalso; norm_num at hk; done)
    have hpair : ∀ i j : ℕ, zdot e.2 (fun q => (Finsupp.single i (1 : ZMod 2)) q + (Finsupp.single j (1 : ZMod 2)) q) =
        e.2 i + e.2 j := by
      have h1 : ∀ i : ℕ, zdot e.2 (fun q => (Finsupp.single i (1 : ZMod 2)) q) = e.2 i := by
        intro i
        have := zdot_update e.2 (fun _ => 0) i 1
        rw [hnul e.2 (fun _ => 0) fun q => .inr rfl, zero_add, add_zero, mul_one] at this
        rw [← this]
        congr 1
        funext q
        simp [Finsupp.single_apply, Function.update_apply, eq_comm]
      intro i j
      rw [zdot_add_right, h1, h1]
    have h02 := hsgn (fun q => (Finsupp.single 0 (1 : ZMod 2)) q + (Finsupp.single 2 (1 : ZMod 2)) q)
      (by intro q a b c d; simp [Ne.symm a, Ne.symm c]) (by simp; decide)
    have h12 := hsgn (fun q => (Finsupp.single 1 (1 : ZMod 2)) q + (Finsupp.single 2 (1 : ZMod 2)) q)
      (by intro q a b c d; simp [Ne.symm b, Ne.symm c]) (by simp; decide)
    have h03 := hsgn (fun q => (Finsupp.single 0 (1 : ZMod 2)) q + (Finsupp.single 3 (1 : ZMod 2)) q)
      (by intro q a b c d; simp [Ne.symm a, Ne.symm d]) (by simp; decide)
    rw [hpair] at h02 h12 h03
    simp at h02 h12 h03
    have hmem : ∀ q, e.2 q = 1 → q ∈ T := fun q hq => hTq q (.inr (by rw [hq]; decide))
    have htwo : ∀ p q, p ≠ q → e.2 p = 1 → e.2 q = 1 → False := by
      intro p q hpq hp hq
      have hp := hmem p hp
      have hq := hmem q hq
      match T, hT with
      | [], _ => simp at hp
      | [r], _ =>
        simp only [List.mem_singleton] at hp hq
        exact hpq (hp.trans hq.symm)
    rcases hb (e.2 0) with a0 | a0 <;> rcases hb (e.2 2) with a2 | a2
    · rw [a0, a2] at h02; revert h02; decide
    · rw [a0, zero_add] at h03
      exact htwo 2 3 (by decide) a2 h03.symm
    · rw [a2, add_zero] at h12
      exact htwo 0 1 (by decide) a0 h12.symm
    · rw [a0, a2] at h02; revert h02; decide

end Verif.SP
