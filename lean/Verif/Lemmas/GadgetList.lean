import Verif.Lemmas.GadgetGood
import Verif.Lemmas.VerifFaults

/-! # Faults in a list of gadgets on the same data register -/

namespace Verif.SP
open Verif Verif.Spec
variable {n : ℕ}

/-! ### Qubits and bits that are not touched -/

theorem frameStep_qubit (i : Instr VQ VC) (F : Frame VQ VC) (q : VQ) (h : q ∉ i.qubits) :
    (frameStep F i).1.1 q = F.1.1 q ∧ (frameStep F i).1.2 q = F.1.2 q := by
  cases i with
  | h p =>
    have : p ≠ q := fun e => h (by simp [Instr.qubits, e])
    simp [frameStep, Finsupp.single_apply, this]
  | cx a b =>
    have h1 : a ≠ q := fun e => h (by simp [Instr.qubits, e])
    have h2 : b ≠ q := fun e => h (by simp [Instr.qubits, e])
    simp [frameStep, Finsupp.single_apply, h1, h2]
  | measure p c => exact ⟨rfl, rfl⟩

theorem prop_qubit (l : List (Instr VQ VC)) (F : Frame VQ VC) (q : VQ) (h : ∀ i ∈ l, q ∉ i.qubits) :
    (prop l F).1.1 q = F.1.1 q ∧ (prop l F).1.2 q = F.1.2 q := by
  induction l generalizing F with
  | nil => exact ⟨rfl, rfl⟩
  | cons i l ih =>
    rw [prop_cons]
    obtain ⟨h1, h2⟩ := ih (frameStep F i) fun j hj => h j (by simp [hj])
    obtain ⟨h3, h4⟩ := frameStep_qubit i F q (h i (by simp))
    exact ⟨h1.trans h3, h2.trans h4⟩

theorem prop_bit (l : List (Instr VQ VC)) (F : Frame VQ VC) (c : VC) (h : c ∉ bitsOf l) : (prop l F).2 c = F.2 c := by
  induction l generalizing F with
  | nil => rfl
  | cons i l ih =>
    have e : bitsOf (i :: l) = bitsOf [i] ++ bitsOf l := by simp only [bitsOf]; rw [← List.filterMap_append]; rfl
    rw [e, List.mem_append, not_or] at h
    rw [prop_cons, ih _ h.2, frameStep_bit _ _ _ h.1]

/-! ### Gadgets -/

/-- A gadget measuring Z (`kind = true`) or X on the support of `m`, with its own qubits and bits. -/
structure Gad (n : ℕ) where
  kind : Bool
  anc : VQ
  mbit : VC
  flag : ℕ → VQ
  fbit : ℕ → VC
  m : Vec n
  st : List (GStep VQ)

def Gad.instrs (x : Gad n) : List (Instr VQ VC) := gadget x.kind x.anc x.mbit x.flag x.fbit x.st
/-- The qubits of the gadget itself. -/
def Gad.Own (x : Gad n) (q : VQ) : Prop := q = x.anc ∨ ∃ j, q = x.flag j
/-- The bits of the gadget itself. -/
def Gad.Bit (x : Gad n) (c : VC) : Prop := c = x.mbit ∨ ∃ j, c = x.fbit j

structure Gad.Ok (x : Gad n) : Prop where
  lay : Lay x.anc x.mbit x.flag x.fbit
  data : dataOf x.st = supp x.m
  wf : wfs x.st
  notData : ∀ q, x.Own q → ∀ i : ℕ, q ≠ .data i

theorem Gad.Ok.isData {x : Gad n} (h : x.Ok) (i : ℕ) : IsData x.anc x.flag (.data i) :=
  ⟨fun e => h.notData _ (.inl rfl) i e.symm, fun j e => h.notData _ (.inr ⟨j, rfl⟩) i e⟩

theorem mem_supp {m : Vec n} {q : VQ} (h : q ∈ supp m) : ∃ i : Fin n, q = .data i := by
  simp only [supp, List.mem_map] at h
  obtain ⟨i, -, rfl⟩ := h
  exact ⟨i, rfl⟩

theorem Gad.Ok.isData' {x : Gad n} (h : x.Ok) : ∀ q ∈ dataOf x.st, IsData x.anc x.flag q := by
  intro q hq
  rw [h.data] at hq
  obtain ⟨i, rfl⟩ := mem_supp hq
  exact h.isData i

theorem Gad.instr_qubits {x : Gad n} (h : x.Ok) {i : Instr VQ VC} (hi : i ∈ x.instrs) {q : VQ} (hq : q ∈ i.qubits) :
    x.Own q ∨ ∃ j : Fin n, q = .data j := by
  simp only [Gad.instrs, gadget, List.mem_append, List.mem_singleton] at hi
  have hA : i ∈ (ancH x.kind x.anc : List (Instr VQ VC)) → x.Own q ∨ ∃ j : Fin n, q = .data j := by
    intro hi
    cases hk : x.kind <;> simp [ancH, hk] at hi
    subst hi
    simp only [Instr.qubits, List.mem_singleton] at hq
    exact .inl (.inl hq)
  rcases hi with ((hi | hi) | hi) | rfl
  · exact hA hi
  · obtain ⟨g, hg, hi⟩ := List.mem_flatMap.1 hi
    rcases emit_qubits x.kind x.anc x.flag x.fbit g i hi q hq with rfl | rfl
    · exact .inl (.inl rfl)
    · cases g with
      | data p =>
        right
        have : p ∈ dataOf x.st := List.mem_filterMap.2 ⟨_, hg, rfl⟩
        rw [h.data] at this
        exact mem_supp this
      | opn j => exact .inl (.inr ⟨j, rfl⟩)
      | close j => exact .inl (.inr ⟨j, rfl⟩)
  · exact hA hi
  · simp only [Instr.qubits, List.mem_singleton] at hq
    exact .inl (.inl hq)

theorem bitsOf_gadget' (z : Bool) (anc : VQ) (mbit : VC) (flag : ℕ → VQ) (fbit : ℕ → VC) (st : List (GStep VQ)) :
    bitsOf (gadget z anc mbit flag fbit st) = (closedOf st).map fbit ++ [mbit] := by
  have happ : ∀ l l' : List (Instr VQ VC), bitsOf (l ++ l') = bitsOf l ++ bitsOf l' := fun l l' => by
    simp [bitsOf, List.filterMap_append]
  have hA : bitsOf (ancH z anc : List (Instr VQ VC)) = [] := by cases z <;> rfl
  have hc : ∀ q, bitsOf (ancillaCnot z anc q : List (Instr VQ VC)) = [] := by intro q; cases z <;> rfl
  have hm : bitsOf (st.flatMap (emit z anc flag fbit)) = (closedOf st).map fbit := by
    induction st with
    | nil => rfl
    | cons g st ih =>
      rw [List.flatMap_cons, happ, ih]
      cases g with
      | data q => simp only [emit, hc, closedOf_data, List.nil_append]
      | opn j =>
        have : bitsOf (flagInit z (flag j) : List (Instr VQ VC)) = [] := by cases z <;> rfl
        simp only [emit, happ, hc, this, closedOf_open, List.nil_append]
      | close j =>
        have : bitsOf (flagMeasure z (flag j) (fbit j)) = [fbit j] := by cases z <;> rfl
        simp only [emit, happ, hc, this, closedOf_close, List.nil_append, List.map_cons, List.cons_append]
  rw [gadget, happ, happ, happ, hA, hm]
  simp [bitsOf]

theorem Gad.bits {x : Gad n} {c : VC} (hc : c ∈ bitsOf x.instrs) : x.Bit c := by
  rw [Gad.instrs, bitsOf_gadget'] at hc
  simp only [List.mem_append, List.mem_map, List.mem_singleton] at hc
  rcases hc with ⟨j, -, rfl⟩ | rfl
  · exact .inr ⟨j, rfl⟩
  · exact .inl rfl

/-- No error on the qubits of the gadget. -/
def Gad.Clean (x : Gad n) (F : Frame VQ VC) : Prop := ∀ q, x.Own q → F.1.1 q = 0 ∧ F.1.2 q = 0

section Pass
variable (x : Gad n) (hx : x.Ok)

include hx in
/-- One step without errors on the gadget's flags and without an error that spreads from the ancilla. -/
theorem clean_step (g : GStep VQ) (hd : ∀ q, g = .data q → ∃ i : Fin n, q = .data i) (F : Frame VQ VC) (h0 : hk x.kind F x.anc = 0)
    (hf : ∀ j, F.1.1 (x.flag j) = 0 ∧ F.1.2 (x.flag j) = 0) :
    hk x.kind (prop (emit x.kind x.anc x.flag x.fbit g) F) x.anc = 0 ∧
    (∀ j, (prop (emit x.kind x.anc x.flag x.fbit g) F).1.1 (x.flag j) = 0 ∧
      (prop (emit x.kind x.anc x.flag x.fbit g) F).1.2 (x.flag j) = 0) ∧
    oth x.kind (prop (emit x.kind x.anc x.flag x.fbit g) F) x.anc =
      oth x.kind F x.anc + ((dataOf [g]).map (oth x.kind F)).sum ∧
    (∀ p, p ≠ x.anc → (prop (emit x.kind x.anc x.flag x.fbit g) F).1.1 p = F.1.1 p ∧
      (prop (emit x.kind x.anc x.flag x.fbit g) F).1.2 p = F.1.2 p) ∧
    (prop (emit x.kind x.anc x.flag x.fbit g) F).2 = F.2 := by
  obtain ⟨⟨a, b⟩, fl⟩ := F
  have hne := hx.lay.ne
  cases g with
  | data q =>
    obtain ⟨i, rfl⟩ := hd q rfl
    have h1 : VQ.data i.val ≠ x.anc := fun e => hx.notData _ (.inl rfl) i e.symm
    have h2 : ∀ j, VQ.data i.val ≠ x.flag j := fun j e => hx.notData _ (.inr ⟨j, rfl⟩) i e.symm
    have e : dataOf [GStep.data (VQ.data i.val)] = [VQ.data i.val] := rfl
    cases hk' : x.kind <;> simp only [hk', hk, Bool.false_eq_true, if_true, if_false] at h0 <;>
      simp [prop, emit, ancillaCnot, frameStep, hk, oth, e, Finsupp.single_apply, h1, h1.symm, h2, h0, hf, (hne _).symm]
    · intro p hp hpa; exact absurd hpa.symm hp
    · intro p hp hpa; exact absurd hpa.symm hp
  | opn j =>
    have hja := hne j
    obtain ⟨f1, f2⟩ := hf j
    simp only at f1 f2
    have e : dataOf [GStep.opn (Q := VQ) j] = [] := rfl
    cases hk' : x.kind <;> simp only [hk', hk, Bool.false_eq_true, if_true, if_false] at h0 <;>
      simp [prop, emit, ancillaCnot, flagInit, frameStep, hk, oth, e, Finsupp.single_apply, hja, hja.symm, h0, f1, f2]
    · exact hf
    · exact hf
  | close j =>
    have hja := hne j
    obtain ⟨f1, f2⟩ := hf j
    simp only at f1 f2
    have e : dataOf [GStep.close (Q := VQ) j] = [] := rfl
    cases hk' : x.kind <;> simp only [hk', hk, Bool.false_eq_true, if_true, if_false] at h0 <;>
      simp [prop, emit, ancillaCnot, flagMeasure, frameStep, hk, oth, e, Finsupp.single_apply, hja, hja.symm, h0, f1, f2]
    · exact hf
    · exact hf

include hx in
theorem clean_steps (st : List (GStep VQ)) (hd : ∀ q ∈ dataOf st, ∃ i : Fin n, q = .data i) (F : Frame VQ VC)
    (h0 : hk x.kind F x.anc = 0) (hf : ∀ j, F.1.1 (x.flag j) = 0 ∧ F.1.2 (x.flag j) = 0) :
    oth x.kind (prop (st.flatMap (emit x.kind x.anc x.flag x.fbit)) F) x.anc =
      oth x.kind F x.anc + ((dataOf st).map (oth x.kind F)).sum ∧
    (∀ p, p ≠ x.anc → (prop (st.flatMap (emit x.kind x.anc x.flag x.fbit)) F).1.1 p = F.1.1 p ∧
      (prop (st.flatMap (emit x.kind x.anc x.flag x.fbit)) F).1.2 p = F.1.2 p) ∧
    (prop (st.flatMap (emit x.kind x.anc x.flag x.fbit)) F).2 = F.2 := by
  induction st generalizing F with
  | nil => simp [prop, dataOf]
  | cons g st ih =>
    have e : dataOf (g :: st) = dataOf [g] ++ dataOf st := by
      simp only [dataOf]; rw [← List.filterMap_append]; rfl
    have hdg : ∀ q, g = .data q → ∃ i : Fin n, q = .data i := by
      rintro q rfl
      exact hd q (by rw [e]; simp [dataOf])
    obtain ⟨a1, a2, a3, a4, a5⟩ := clean_step x hx g hdg F h0 hf
    obtain ⟨b1, b2, b3⟩ := ih (fun q hq => hd q (by rw [e]; simp [hq])) (prop (emit x.kind x.anc x.flag x.fbit g) F) a1 a2
    rw [List.flatMap_cons, prop_append]
    refine ⟨?_, ?_, b3.trans a5⟩
    · rw [b1, a3, e, List.map_append, List.sum_append, add_assoc]
      congr 2
      refine congrArg List.sum (List.map_congr_left fun q hq => ?_)
      obtain ⟨i, rfl⟩ := hd q (by rw [e]; simp [hq])
      have := a4 (.data i) fun e => hx.notData _ (.inl rfl) i e.symm
      rw [oth, oth, this.1, this.2]
    · intro p hp
      exact ⟨((b2 p hp).1).trans (a4 p hp).1, ((b2 p hp).2).trans (a4 p hp).2⟩

include hx in
/-- Errors on other qubits pass a gadget and flip its result if they anticommute with what it measures. -/
theorem clean_pass (F : Frame VQ VC) (hc : x.Clean F) :
    (∀ p, ¬ x.Own p → (prop x.instrs F).1.1 p = F.1.1 p ∧ (prop x.instrs F).1.2 p = F.1.2 p) ∧
    (∀ j, (prop x.instrs F).2 (x.fbit j) = F.2 (x.fbit j)) ∧
    (prop x.instrs F).2 x.mbit = F.2 x.mbit + dot x.m (tp n x.kind F) := by
  obtain ⟨ha1, ha2⟩ := hc x.anc (.inl rfl)
  have hd : ∀ q ∈ dataOf x.st, ∃ i : Fin n, q = .data i := fun q hq => mem_supp (by rw [hx.data] at hq; exact hq)
  -- the first Hadamard
  set F0 := prop (ancH x.kind x.anc) F with hF0
  have hF0' : (∀ p, F0.1.1 p = F.1.1 p ∧ F0.1.2 p = F.1.2 p) ∧ F0.2 = F.2 := by
    rw [hF0]
    cases x.kind <;> simp [prop, ancH, frameStep, ha1, ha2]
  have h0 : hk x.kind F0 x.anc = 0 := by
    rw [hk, (hF0'.1 _).1, (hF0'.1 _).2, ha1, ha2]; simp
  have ho : oth x.kind F0 x.anc = 0 := by
    rw [oth, (hF0'.1 _).1, (hF0'.1 _).2, ha1, ha2]; simp
  have hf : ∀ j, F0.1.1 (x.flag j) = 0 ∧ F0.1.2 (x.flag j) = 0 := by
    intro j
    rw [(hF0'.1 _).1, (hF0'.1 _).2]
    exact hc _ (.inr ⟨j, rfl⟩)
  obtain ⟨b1, b2, b3⟩ := clean_steps x hx x.st hd F0 h0 hf
  set F1 := prop (x.st.flatMap (emit x.kind x.anc x.flag x.fbit)) F0 with hF1
  have hrun : prop x.instrs F = prop (ancH x.kind x.anc ++ [.measure x.anc x.mbit]) F1 := by
    rw [hF1, hF0, ← prop_append, ← prop_append, Gad.instrs, gadget]
    simp
  have htail : (∀ p, p ≠ x.anc → (prop (ancH x.kind x.anc ++ [.measure x.anc x.mbit]) F1).1.1 p = F1.1.1 p ∧
      (prop (ancH x.kind x.anc ++ [.measure x.anc x.mbit]) F1).1.2 p = F1.1.2 p) ∧
      (∀ c, c ≠ x.mbit → (prop (ancH x.kind x.anc ++ [.measure x.anc x.mbit]) F1).2 c = F1.2 c) ∧
      (prop (ancH x.kind x.anc ++ [.measure x.anc x.mbit]) F1).2 x.mbit = F1.2 x.mbit + oth x.kind F1 x.anc := by
    cases x.kind
    · refine ⟨fun p hp => ?_, fun c hc => ?_, ?_⟩
      · simp [prop, ancH, frameStep, Finsupp.single_apply, hp.symm]
      · simp [prop, ancH, frameStep, Pi.single_apply, hc]
      · simp only [prop, ancH, frameStep, oth, Bool.false_eq_true, if_false, List.cons_append, List.nil_append, List.foldl_cons,
          List.foldl_nil, Pi.add_apply, Pi.single_eq_same, Finsupp.add_apply, Finsupp.single_eq_same]
        rw [← add_assoc (F1.1.1 x.anc), zadd, zero_add]
    · refine ⟨fun p hp => ?_, fun c hc => ?_, ?_⟩
      · simp [prop, ancH, frameStep]
      · simp [prop, ancH, frameStep, Pi.single_apply, hc]
      · simp [prop, ancH, frameStep, oth]
  rw [hrun]
  refine ⟨fun p hp => ?_, fun j => ?_, ?_⟩
  · have hpa : p ≠ x.anc := fun e => hp (.inl e)
    rw [(htail.1 p hpa).1, (htail.1 p hpa).2, (b2 p hpa).1, (b2 p hpa).2]
    exact hF0'.1 p
  · rw [htail.2.1 _ (hx.lay.bne j), b3, hF0'.2]
  · rw [htail.2.2, b3, hF0'.2, b1, ho, zero_add, hx.data, supp_sum]
    congr 2
    funext i
    cases hk' : x.kind
    · exact (hF0'.1 _).2
    · exact (hF0'.1 _).1

end Pass

/-! ### Lists of gadgets -/

/-- Gadgets with different qubits and bits. -/
def Sep (x y : Gad n) : Prop := (∀ q, x.Own q → ¬ y.Own q) ∧ ∀ c, x.Bit c → ¬ y.Bit c

theorem Sep.symm {x y : Gad n} (h : Sep x y) : Sep y x := ⟨fun q h1 h2 => h.1 q h2 h1, fun c h1 h2 => h.2 c h2 h1⟩

structure GadsOk (gs : List (Gad n)) : Prop where
  ok : ∀ x ∈ gs, x.Ok
  sep : gs.Pairwise Sep

theorem GadsOk.tail {x : Gad n} {gs : List (Gad n)} (h : GadsOk (x :: gs)) : GadsOk gs :=
  ⟨fun y hy => h.ok y (by simp [hy]), (List.pairwise_cons.1 h.sep).2⟩

theorem GadsOk.head {x : Gad n} {gs : List (Gad n)} (h : GadsOk (x :: gs)) : ∀ y ∈ gs, Sep x y := (List.pairwise_cons.1 h.sep).1

/-- The circuit of a list of gadgets. -/
def gadsInstrs (gs : List (Gad n)) : List (Instr VQ VC) := gs.flatMap Gad.instrs

/-- A qubit of some gadget. -/
def OwnL (gs : List (Gad n)) (q : VQ) : Prop := ∃ x ∈ gs, x.Own q
def BitL (gs : List (Gad n)) (c : VC) : Prop := ∃ x ∈ gs, x.Bit c
def CleanL (gs : List (Gad n)) (F : Frame VQ VC) : Prop := ∀ q, OwnL gs q → F.1.1 q = 0 ∧ F.1.2 q = 0

theorem gads_qubits {gs : List (Gad n)} (h : GadsOk gs) {i : Instr VQ VC} (hi : i ∈ gadsInstrs gs) {q : VQ} (hq : q ∈ i.qubits) :
    OwnL gs q ∨ ∃ j : Fin n, q = .data j := by
  obtain ⟨x, hx, hi⟩ := List.mem_flatMap.1 hi
  rcases Gad.instr_qubits (h.ok x hx) hi hq with h1 | h1
  · exact .inl ⟨x, hx, h1⟩
  · exact .inr h1

theorem gads_bits {gs : List (Gad n)} {c : VC} (hc : c ∈ bitsOf (gadsInstrs gs)) : BitL gs c := by
  induction gs with
  | nil => cases hc
  | cons x gs ih =>
    have : bitsOf (gadsInstrs (x :: gs)) = bitsOf x.instrs ++ bitsOf (gadsInstrs gs) := by
      simp only [gadsInstrs, List.flatMap_cons, bitsOf, List.filterMap_append]
    rw [this, List.mem_append] at hc
    rcases hc with hc | hc
    · exact ⟨x, by simp, Gad.bits hc⟩
    · obtain ⟨y, hy, h⟩ := ih hc
      exact ⟨y, by simp [hy], h⟩

theorem ownL_not_data {gs : List (Gad n)} (h : GadsOk gs) (i : ℕ) : ¬ OwnL gs (.data i) := fun ⟨x, hx, hq⟩ =>
  (h.ok x hx).notData _ hq i rfl

/-- Errors on other qubits pass. -/
theorem clean_list {gs : List (Gad n)} (h : GadsOk gs) (F : Frame VQ VC) (hc : CleanL gs F) :
    (∀ p, ¬ OwnL gs p → (prop (gadsInstrs gs) F).1.1 p = F.1.1 p ∧ (prop (gadsInstrs gs) F).1.2 p = F.1.2 p) ∧
    (∀ x ∈ gs, ∀ j, (prop (gadsInstrs gs) F).2 (x.fbit j) = F.2 (x.fbit j)) ∧
    (∀ x ∈ gs, (prop (gadsInstrs gs) F).2 x.mbit = F.2 x.mbit + dot x.m (tp n x.kind F)) := by
  induction gs generalizing F with
  | nil => simp [gadsInstrs, prop]
  | cons x gs ih =>
    have hx := h.ok x (by simp)
    obtain ⟨a1, a2, a3⟩ := clean_pass x hx F fun q hq => hc q ⟨x, by simp, hq⟩
    have hsep := h.head
    obtain ⟨b1, b2, b3⟩ := ih h.tail (prop x.instrs F) (by
      rintro q ⟨y, hy, hq⟩
      have hno : ¬ x.Own q := fun e => (hsep y hy).1 q e hq
      rw [(a1 q hno).1, (a1 q hno).2]
      exact hc q ⟨y, by simp [hy], hq⟩)
    have e : gadsInstrs (x :: gs) = x.instrs ++ gadsInstrs gs := by simp [gadsInstrs]
    have htp : ∀ k : Bool, tp n k (prop x.instrs F) = tp n k F := by
      intro k
      funext i
      have := a1 (.data i) fun e => hx.notData _ e i rfl
      simp only [tp, this.1, this.2]
    have hbx : ∀ c, x.Bit c → (prop (gadsInstrs gs) (prop x.instrs F)).2 c = (prop x.instrs F).2 c := by
      intro c hc
      apply prop_bit
      intro hm
      obtain ⟨y, hy, hb⟩ := gads_bits hm
      exact (hsep y hy).2 c hc hb
    have hby : ∀ y ∈ gs, ∀ c, y.Bit c → (prop x.instrs F).2 c = F.2 c := by
      intro y hy c hc
      apply prop_bit
      intro hm
      exact (hsep y hy).2 c (Gad.bits hm) hc
    rw [e, prop_append]
    refine ⟨fun p hp => ?_, fun y hy j => ?_, fun y hy => ?_⟩
    · have h1 : ¬ x.Own p := fun e => hp ⟨x, by simp, e⟩
      have h2 : ¬ OwnL gs p := fun ⟨y, hy, e⟩ => hp ⟨y, by simp [hy], e⟩
      exact ⟨(b1 p h2).1.trans (a1 p h1).1, (b1 p h2).2.trans (a1 p h1).2⟩
    · rcases List.mem_cons.1 hy with rfl | hy
      · rw [hbx _ (.inr ⟨j, rfl⟩), a2]
      · rw [b2 y hy, hby y hy _ (.inr ⟨j, rfl⟩)]
    · rcases List.mem_cons.1 hy with rfl | hy
      · rw [hbx _ (.inl rfl), a3]
      · rw [b3 y hy, hby y hy _ (.inl rfl), htp]

theorem clean_list_bit {gs : List (Gad n)} (F : Frame VQ VC) (c : VC) (hc : ¬ BitL gs c) :
    (prop (gadsInstrs gs) F).2 c = F.2 c := prop_bit _ _ _ fun h => hc (gads_bits h)

/-! ### One fault -/

/-- What one fault leaves on the data and the flag bits: an operator on one qubit, or what a move of one gadget explains. -/
inductive SeqRes (gs : List (Gad n)) (F : Frame VQ VC) : Prop
  | one (q : VQ) (h : ∀ i : Fin n, F.1.ActsOn (.data i) → VQ.data i = q)
  | move (x : Gad n) (hx : x ∈ gs) (mv : Move VQ) (valid : mv.Valid x.st)
      (data : ∀ i : Fin n, VQ.data i ∉ mv.locals x.st → hk x.kind F (.data i) = mv.data x.st (.data i) ∧ oth x.kind F (.data i) = 0)
      (flags : ∀ j, F.2 (x.fbit j) = mv.flagFlip x.st j)

theorem SeqRes.mono {gs gs' : List (Gad n)} (h : ∀ x ∈ gs, x ∈ gs') {F : Frame VQ VC} (hF : SeqRes gs F) : SeqRes gs' F := by
  cases hF with
  | one q h1 => exact .one q h1
  | move x hx mv h1 h2 h3 => exact .move x (h x hx) mv h1 h2 h3

/-- A move passes the gadgets that follow. -/
theorem move_pass {x : Gad n} {gs : List (Gad n)} (h : GadsOk (x :: gs)) {F : Frame VQ VC} (mv : Move VQ)
    (hF : Expl x.kind x.anc x.flag x.fbit x.st mv F) (hc : CleanL gs F) : SeqRes (x :: gs) (prop (gadsInstrs gs) F) := by
  obtain ⟨b1, -, -⟩ := clean_list h.tail F hc
  have hx := h.ok x (by simp)
  refine .move x (by simp) mv hF.valid (fun i hi => ?_) fun j => ?_
  · have hd := b1 (.data i) (ownL_not_data h.tail i)
    have := hF.data (.data i) (hx.isData i) hi
    simp only [hk, oth, hd.1, hd.2] at this ⊢
    exact this
  · rw [prop_bit _ _ _ fun hm => ?_, hF.flags]
    obtain ⟨y, hy, hb⟩ := gads_bits hm
    exact (h.head y hy).2 _ (.inr ⟨j, rfl⟩) hb

/-- An operator on one qubit before the gadgets. -/
theorem seq_single {gs : List (Gad n)} (h : GadsOk gs) (P : PauliErr VQ) (q : VQ) (hP : ∀ p, P.ActsOn p → p = q) :
    SeqRes gs (prop (gadsInstrs gs) (P, 0)) := by
  induction gs with
  | nil => exact .one q fun i hi => hP _ hi
  | cons x gs ih =>
    have e : gadsInstrs (x :: gs) = x.instrs ++ gadsInstrs gs := by simp [gadsInstrs]
    have hx := h.ok x (by simp)
    rw [e, prop_append]
    by_cases hq : OwnL gs q
    · have : prop x.instrs (P, (0 : VC → ZMod 2)) = (P, 0) := by
        refine prop_other _ _ fun i hi p hp hact => ?_
        rw [hP p hact] at hp
        obtain ⟨y, hy, ho⟩ := hq
        rcases Gad.instr_qubits hx hi hp with h1 | ⟨j, rfl⟩
        · exact (h.head y hy).1 q h1 ho
        · exact (h.tail.ok y hy).notData _ ho j rfl
      rw [this]
      exact (ih h.tail).mono fun y hy => by simp [hy]
    · have hfm := fault_moves x.kind x.anc x.mbit x.flag x.fbit hx.lay x.st hx.wf hx.isData'
      have hne : ∃ i r, x.instrs = i :: r := by
        cases hi : x.instrs with
        | nil => simp [Gad.instrs, gadget] at hi
        | cons i r => exact ⟨i, r, rfl⟩
      obtain ⟨i, r, hir⟩ := hne
      have e2 : gadget x.kind x.anc x.mbit x.flag x.fbit x.st = i :: r := hir
      rw [e2] at hfm
      obtain ⟨mv, hmv⟩ := (hfm.1 P (.inl ⟨q, hP⟩)).1
      rw [← hir] at hmv
      refine move_pass h mv hmv fun p hp => ?_
      have hpq : p ≠ q := fun e => hq (e ▸ hp)
      have := prop_qubit x.instrs (P, 0) p (by
        intro i hi hpi
        obtain ⟨y, hy, ho⟩ := hp
        rcases Gad.instr_qubits hx hi hpi with h1 | ⟨j, rfl⟩
        · exact (h.head y hy).1 p h1 ho
        · exact (h.tail.ok y hy).notData _ ho j rfl)
      rw [this.1, this.2]
      exact not_acts fun ha => hpq (hP p ha)

/-- One fault anywhere in the gadgets. -/
theorem seq_fault {gs : List (Gad n)} (h : GadsOk gs) :
    AllSplits (fun i r => ∀ P : PauliErr VQ, FaultAt i P →
      SeqRes gs (prop (i :: r) (P, 0)) ∧ SeqRes gs (prop r (P, 0))) (gadsInstrs gs) := by
  induction gs with
  | nil => trivial
  | cons x gs ih =>
    have e : gadsInstrs (x :: gs) = x.instrs ++ gadsInstrs gs := by simp [gadsInstrs]
    have hx := h.ok x (by simp)
    rw [e]
    apply AllSplits.append
    · have hfm := fault_moves x.kind x.anc x.mbit x.flag x.fbit hx.lay x.st hx.wf hx.isData'
      have key : ∀ (l : List (Instr VQ VC)) (i : Instr VQ VC) (P : PauliErr VQ), (∀ j ∈ l, j ∈ x.instrs) → i ∈ x.instrs →
          FaultAt i P → (∃ mv, Expl x.kind x.anc x.flag x.fbit x.st mv (prop l (P, 0))) →
          SeqRes (x :: gs) (prop (gadsInstrs gs) (prop l (P, 0))) := by
        rintro l i P hl hi hP ⟨mv, hmv⟩
        have hno : ∀ j ∈ x.instrs, ∀ p, OwnL gs p → p ∉ j.qubits := by
          rintro j hj p ⟨y, hy, ho⟩ hp
          rcases Gad.instr_qubits hx hj hp with h1 | ⟨k, rfl⟩
          · exact (h.head y hy).1 p h1 ho
          · exact (h.tail.ok y hy).notData _ ho k rfl
        by_cases hq : ∃ q, OwnL gs q ∧ P.ActsOn q
        · obtain ⟨q, hq, hact⟩ := hq
          have hPq : ∀ p, P.ActsOn p → p = q := by
            rcases hP with ⟨q', hq'⟩ | hP
            · intro p hp; rw [hq' p hp, hq' q hact]
            · exact absurd (hP q hact) (hno i hi q hq)
          have : prop l (P, (0 : VC → ZMod 2)) = (P, 0) :=
            prop_other _ _ fun j hj p hp ha => hno j (hl j hj) q hq (by rw [← hPq p ha]; exact hp)
          rw [this]
          exact (seq_single h.tail P q hPq).mono fun y hy => by simp [hy]
        · refine move_pass h mv hmv fun p hp => ?_
          have := prop_qubit l (P, 0) p fun j hj => hno j (hl j hj) p hp
          rw [this.1, this.2]
          exact not_acts fun ha => hq ⟨p, hp, ha⟩
      have hmono : ∀ l : List (Instr VQ VC), (∀ j ∈ l, j ∈ x.instrs) → AllSplits (fun i r => ∀ P : PauliErr VQ, FaultAt i P →
          (∃ m, Expl x.kind x.anc x.flag x.fbit x.st m (prop (i :: r) (P, 0))) ∧
          ∃ m, Expl x.kind x.anc x.flag x.fbit x.st m (prop r (P, 0))) l →
          AllSplits (fun i r => ∀ P : PauliErr VQ, FaultAt i P →
            SeqRes (x :: gs) (prop (i :: (r ++ gadsInstrs gs)) (P, 0)) ∧ SeqRes (x :: gs) (prop (r ++ gadsInstrs gs) (P, 0))) l := by
        intro l
        induction l with
        | nil => exact fun _ h => h
        | cons i r ih =>
          rintro hl ⟨h1, h2⟩
          refine ⟨fun P hP => ?_, ih (fun j hj => hl j (by simp [hj])) h2⟩
          obtain ⟨ha, hb⟩ := h1 P hP
          rw [← List.cons_append, prop_append, prop_append]
          exact ⟨key _ i P hl (hl i (by simp)) hP ha, key _ i P (fun j hj => hl j (by simp [hj])) (hl i (by simp)) hP hb⟩
      exact hmono _ (fun j hj => hj) hfm
    · have hmono : ∀ l : List (Instr VQ VC), AllSplits (fun i r => ∀ P : PauliErr VQ, FaultAt i P →
          SeqRes gs (prop (i :: r) (P, 0)) ∧ SeqRes gs (prop r (P, 0))) l →
          AllSplits (fun i r => ∀ P : PauliErr VQ, FaultAt i P →
          SeqRes (x :: gs) (prop (i :: r) (P, 0)) ∧ SeqRes (x :: gs) (prop r (P, 0))) l := by
        intro l
        induction l with
        | nil => exact fun h => h
        | cons i r ih =>
          rintro ⟨h1, h2⟩
          exact ⟨fun P hP => ⟨(h1 P hP).1.mono fun y hy => by simp [hy], (h1 P hP).2.mono fun y hy => by simp [hy]⟩, ih h2⟩
      exact hmono _ (ih h.tail)

end Verif.SP
