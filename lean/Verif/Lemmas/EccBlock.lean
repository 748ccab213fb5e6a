import Verif.Lemmas.EccPauli
import Mathlib.Algebra.BigOperators.Group.Finset.Basic

/-! # Running syndrome extraction and correction on a state -/

namespace Verif.Ecc
open scoped BigOperators
variable {R : Type} [CommRing R] (k : Consts R)

/-! ## Branches -/

theorem branch_cons (i : Instr) (l : List Instr) (c c' : Config R) :
    Branch k (i :: l) c c' ↔ ∃ d, Step k i c d ∧ Branch k l d c' := Iff.rfl

theorem branch_append (l₁ l₂ : List Instr) (c c' : Config R) :
    Branch k (l₁ ++ l₂) c c' ↔ ∃ d, Branch k l₁ c d ∧ Branch k l₂ d c' := by
  induction l₁ generalizing c with
  | nil => exact ⟨fun h => ⟨c, rfl, h⟩, fun ⟨d, hd, h⟩ => by cases hd; exact h⟩
  | cons i l ih =>
    rw [List.cons_append, branch_cons]
    constructor
    · rintro ⟨d, h1, h2⟩
      obtain ⟨e, h3, h4⟩ := (ih d).1 h2
      exact ⟨e, ⟨d, h1, h3⟩, h4⟩
    · rintro ⟨e, ⟨d, h1, h3⟩, h4⟩
      exact ⟨d, h1, (ih d).2 ⟨e, h3, h4⟩⟩

theorem opAct_zero (op : Op) (t : ℕ) : opAct k op t (0 : State R) = 0 := by
  cases op <;> funext x <;> simp [opAct]

theorem step_zero {i : Instr} {c c' : Config R} (h : Step k i c c') (h0 : c.1 = 0) : c'.1 = 0 := by
  cases i with
  | reset q => obtain ⟨o, rfl⟩ := h; funext x; simp [resetAct, h0]
  | gate op cs t =>
    obtain rfl : c' = _ := h
    show gateAct k op cs t c.1 = 0
    funext x
    simp [gateAct, h0, opAct_zero]
  | swap a b => obtain rfl : c' = _ := h; funext x; simp [swapAct, h0]
  | measure q b => obtain ⟨o, rfl⟩ := h; funext x; simp [project, h0]
  | cc op q st len v =>
    obtain rfl : c' = _ := h
    show (if _ then opAct k op q c.1 else c.1) = 0
    rw [h0, opAct_zero]
    split <;> rfl
  | clone g => exact h.elim

theorem branch_zero {l : List Instr} {c c' : Config R} (h : Branch k l c c') (h0 : c.1 = 0) : c'.1 = 0 := by
  induction l generalizing c with
  | nil => cases h; exact h0
  | cons i l ih =>
    obtain ⟨d, h1, h2⟩ := h
    exact ih h2 (step_zero k h1 h0)

/-- All branches but one have probability zero. -/
def Det (l : List Instr) (c c₁ : Config R) : Prop := Branch k l c c₁ ∧ ∀ c', Branch k l c c' → c' = c₁ ∨ c'.1 = 0

theorem Det.nil (c : Config R) : Det k [] c c := ⟨rfl, fun _ h => .inl h⟩

theorem Det.append {l₁ l₂ : List Instr} {c c₁ c₂ : Config R} (h₁ : Det k l₁ c c₁) (h₂ : Det k l₂ c₁ c₂) :
    Det k (l₁ ++ l₂) c c₂ := by
  refine ⟨(branch_append k _ _ _ _).2 ⟨c₁, h₁.1, h₂.1⟩, fun c' h => ?_⟩
  obtain ⟨d, g1, g2⟩ := (branch_append k _ _ _ _).1 h
  rcases h₁.2 d g1 with rfl | h0
  · exact h₂.2 c' g2
  · exact .inr (branch_zero k g2 h0)

theorem det_one {i : Instr} {c c₁ : Config R} (h : Step k i c c₁) (h' : ∀ c', Step k i c c' → c' = c₁ ∨ c'.1 = 0) :
    Det k [i] c c₁ :=
  ⟨⟨c₁, h, rfl⟩, fun c' ⟨d, hd, e⟩ => by cases e; exact h' _ hd⟩

theorem det_gate (op : Op) (cs : List (ℕ × Bool)) (t : ℕ) (c : Config R) :
    Det k [.gate op cs t] c (gateAct k op cs t c.1, c.2) := det_one k rfl fun _ h => .inl h

theorem det_measure {q b : ℕ} {o : Bool} {ψ : State R} {cl : Bits} (h : ∀ x, x q ≠ o → ψ x = 0) :
    Det k [.measure q b] (ψ, cl) (ψ, Function.update cl b o) := by
  have e : project q o ψ = ψ := by
    funext x
    unfold project
    split
    · rfl
    · rename_i hx; exact (h x hx).symm
  refine det_one k ⟨o, by rw [e]⟩ ?_
  rintro _ ⟨o', rfl⟩
  by_cases ho : o' = o
  · subst ho; exact .inl (by rw [e])
  · refine .inr ?_
    funext x
    show (if x q = o' then ψ x else 0) = 0
    split
    · rename_i hx; exact h x (by rw [hx]; exact ho)
    · rfl

theorem det_reset {q : ℕ} {o : Bool} {ψ : State R} {cl : Bits} (h : ∀ x, x q ≠ o → ψ x = 0) :
    Det k [.reset q] (ψ, cl) (resetAct q o ψ, cl) := by
  refine det_one k ⟨o, rfl⟩ ?_
  rintro _ ⟨o', rfl⟩
  by_cases ho : o' = o
  · subst ho; exact .inl rfl
  · refine .inr ?_
    funext x
    show (if x q then 0 else ψ (Function.update x q o')) = 0
    split
    · rfl
    · exact h _ (by simp [ho])

/-! ## Ancillas next to the data -/

/-- A state of one ancilla: `(false, b)` is `|b⟩`, `(true, b)` is `(|0⟩ ± |1⟩)/√2`. -/
abbrev AncSt := Bool × Bool

def amp (a : AncSt) (v : Bool) : R := if a.1 then k.s * sgn (a.2 && v) else if v = a.2 then 1 else 0

/-- Data state `χ` with ancilla `j` in state `st j`, for `j < K`; ancilla `j` is qubit `a j`. -/
def tens (a : ℕ → ℕ) (K : ℕ) (st : ℕ → AncSt) (χ : State R) : State R :=
  fun x => (∏ j ∈ Finset.range K, amp k (st j) (x (a j))) * χ x

/-- The qubits of the ancillas are different. -/
def Inj (K : ℕ) (a : ℕ → ℕ) : Prop := ∀ i < K, ∀ j < K, a i = a j → i = j

theorem tens_split {a : ℕ → ℕ} {K : ℕ} (st : ℕ → AncSt) (χ : State R) (x : Bits) {i : ℕ} (hi : i < K) :
    tens k a K st χ x = amp k (st i) (x (a i)) * ((∏ j ∈ (Finset.range K).erase i, amp k (st j) (x (a j))) * χ x) := by
  unfold tens
  rw [← Finset.mul_prod_erase _ _ (Finset.mem_range.2 hi), mul_assoc]

theorem prod_erase_update {a : ℕ → ℕ} {K : ℕ} (ha : Inj K a) (st : ℕ → AncSt) (x : Bits) {i : ℕ} (hi : i < K) (b : Bool) :
    (∏ j ∈ (Finset.range K).erase i, amp k (st j) (Function.update x (a i) b (a j))) =
      ∏ j ∈ (Finset.range K).erase i, amp k (st j) (x (a j)) := by
  refine Finset.prod_congr rfl fun j hj => ?_
  rw [Finset.mem_erase, Finset.mem_range] at hj
  rw [Function.update_of_ne]
  exact fun h => hj.1 (ha j hj.2 i hi h)

theorem prod_erase_set {a : ℕ → ℕ} {K : ℕ} (st : ℕ → AncSt) (x : Bits) (i : ℕ) (v : AncSt) :
    (∏ j ∈ (Finset.range K).erase i, amp k (Function.update st i v j) (x (a j))) =
      ∏ j ∈ (Finset.range K).erase i, amp k (st j) (x (a j)) := by
  refine Finset.prod_congr rfl fun j hj => ?_
  rw [Function.update_of_ne (Finset.mem_erase.1 hj).1]

theorem holds_nil (x : Bits) : holds [] x = true := rfl

theorem gateAct_nil (op : Op) (t : ℕ) (ψ : State R) : gateAct k op [] t ψ = opAct k op t ψ := by
  funext x; simp [gateAct, holds_nil]

theorem tens_h {a : ℕ → ℕ} {K : ℕ} (ha : Inj K a) (st : ℕ → AncSt) {χ : State R} {i : ℕ} (hi : i < K) (hf : Free χ (a i)) :
    opAct k .H (a i) (tens k a K st χ) = tens k a K (Function.update st i (!(st i).1, (st i).2)) χ := by
  funext x
  show k.s * (tens k a K st χ (Function.update x (a i) false) +
    sgn (x (a i)) * tens k a K st χ (Function.update x (a i) true)) = _
  rw [tens_split k st χ _ hi, tens_split k st χ _ hi, tens_split k _ χ _ hi, prod_erase_update k ha st x hi,
    prod_erase_update k ha st x hi, prod_erase_set, hf, hf]
  simp only [Function.update_self]
  generalize (∏ j ∈ (Finset.range K).erase i, amp k (st j) (x (a j))) * χ x = P
  obtain ⟨p, b⟩ := st i
  have hs := k.hs
  cases p <;> cases b <;> cases x (a i) <;>
    simp only [amp, sgn_false, sgn_true, Bool.not_true, Bool.not_false, Bool.and_true, Bool.and_false, Bool.true_and, Bool.false_and,
      Bool.false_eq_true, Bool.true_eq_false, if_true, if_false, reduceCtorEq, ite_true, ite_false] <;>
    first | ring1 | linear_combination P * hs

theorem tens_support {a : ℕ → ℕ} {K : ℕ} {st : ℕ → AncSt} {χ : State R} {i : ℕ} (hi : i < K) (hb : (st i).1 = false)
    (x : Bits) (hx : x (a i) ≠ (st i).2) : tens k a K st χ x = 0 := by
  rw [tens_split k st χ x hi]
  simp [amp, hb, hx]

theorem tens_reset {a : ℕ → ℕ} {K : ℕ} (ha : Inj K a) (st : ℕ → AncSt) {χ : State R} {i : ℕ} (hi : i < K)
    (hb : (st i).1 = false) (hf : Free χ (a i)) :
    resetAct (a i) (st i).2 (tens k a K st χ) = tens k a K (Function.update st i (false, false)) χ := by
  funext x
  show (if x (a i) then 0 else tens k a K st χ (Function.update x (a i) (st i).2)) = _
  rw [tens_split k st χ _ hi, tens_split k _ χ _ hi, prod_erase_update k ha st x hi, prod_erase_set, hf]
  simp only [Function.update_self]
  cases x (a i) <;> simp [amp, hb]

/-! ## Controlled letters -/

/-- A letter on data qubit `d j` controlled by ancilla `a i`: `(i, isX, j)`. -/
abbrev CLetter := ℕ × Bool × ℕ

def CLetter.instr (d a : ℕ → ℕ) (l : CLetter) : Instr := if l.2.1 then cx (a l.1) (d l.2.2) else cz (a l.1) (d l.2.2)

/-- The letters whose control is set, in the order in which they multiply. -/
def select : List CLetter → (ℕ → Bool) → Word
  | [], _ => []
  | l :: L, v => select L v ++ (if v l.1 then [l.2] else [])

theorem det_list_gates {l : List Instr} {ψ ψ' : State R} {cl : Bits}
    (h : ∀ i ∈ l, ∃ op cs t, i = .gate op cs t)
    (e : l.foldl (fun φ i => match i with | .gate op cs t => gateAct k op cs t φ | _ => φ) ψ = ψ') :
    Det k l (ψ, cl) (ψ', cl) := by
  induction l generalizing ψ with
  | nil => cases e; exact Det.nil k _
  | cons i l ih =>
    obtain ⟨op, cs, t, rfl⟩ := h i List.mem_cons_self
    exact Det.append k (l₁ := [_]) (det_gate k op cs t (ψ, cl)) (ih (fun j hj => h j (List.mem_cons_of_mem _ hj)) e)

/-- Data and ancilla qubits are different. -/
def Apart (r K : ℕ) (d a : ℕ → ℕ) : Prop := ∀ j < r, ∀ i < K, d j ≠ a i

theorem actL_apart {r K : ℕ} {d a : ℕ → ℕ} (hda : Apart r K d a) (l : Bool × ℕ) (hl : l.2 < r) (A : (ℕ → Bool) → R)
    (hA : ∀ v w : ℕ → Bool, (∀ j < K, v j = w j) → A v = A w) (φ : State R) :
    actL (l.1, d l.2) (fun x => A (fun j => x (a j)) * φ x) = fun x => A (fun j => x (a j)) * actL (l.1, d l.2) φ x := by
  funext x
  unfold actL
  split
  · show A _ * _ = A _ * _
    rw [hA (fun j => flip x (d l.2) (a j)) (fun j => x (a j)) fun j hj => flip_other (hda _ hl j hj).symm]
  · show sgn _ * (A _ * _) = A _ * (sgn _ * _)
    ring

theorem gateAct_letter (d a : ℕ → ℕ) (l : CLetter) (ψ : State R) (x : Bits) :
    (match l.instr d a with | .gate op cs t => gateAct k op cs t ψ | _ => ψ) x =
      if x (a l.1) then actL (l.2.1, d l.2.2) ψ x else ψ x := by
  obtain ⟨i, b, j⟩ := l
  cases b
  · simp only [CLetter.instr, Bool.false_eq_true, if_false, cz, gateAct, holds, List.all_cons, List.all_nil, Bool.and_true, actL, opAct]
    cases x (a i) <;> simp
  · simp only [CLetter.instr, if_true, cx, gateAct, holds, List.all_cons, List.all_nil, Bool.and_true, actL, opAct]
    cases x (a i) <;> simp

theorem select_congr {L : List CLetter} {v w : ℕ → Bool} (h : ∀ l ∈ L, v l.1 = w l.1) : select L v = select L w := by
  induction L with
  | nil => rfl
  | cons l L ih =>
    show select L v ++ _ = select L w ++ _
    rw [ih fun x hx => h x (List.mem_cons_of_mem _ hx), h l List.mem_cons_self]

/-- Bounds of the indices of a list of controlled letters. -/
def LWithin (r K : ℕ) (L : List CLetter) : Prop := ∀ l ∈ L, l.1 < K ∧ l.2.2 < r

instance (r K : ℕ) (L : List CLetter) : Decidable (LWithin r K L) := by unfold LWithin; infer_instance

theorem within_select {r K : ℕ} {L : List CLetter} (h : LWithin r K L) (v : ℕ → Bool) : Within r (select L v) := by
  induction L with
  | nil => intro l hl; cases hl
  | cons l L ih =>
    refine (ih fun x hx => h x (List.mem_cons_of_mem _ hx)).append ?_
    intro m hm
    split at hm
    · rw [List.mem_singleton] at hm; subst hm; exact (h l List.mem_cons_self).2
    · cases hm

/-- The controlled letters act on every term of the superposition by the letters whose control is set. -/
theorem run_ctrl {r K : ℕ} {d a : ℕ → ℕ} (hda : Apart r K d a) (L : List CLetter) (hL : LWithin r K L)
    (A : (ℕ → Bool) → R) (hA : ∀ v w : ℕ → Bool, (∀ j < K, v j = w j) → A v = A w) (Φ : (ℕ → Bool) → State R)
    (hΦ : ∀ v w : ℕ → Bool, (∀ j < K, v j = w j) → Φ v = Φ w) :
    (L.map (CLetter.instr d a)).foldl (fun φ i => match i with | .gate op cs t => gateAct k op cs t φ | _ => φ)
        (fun x => A (fun j => x (a j)) * Φ (fun j => x (a j)) x) =
      fun x => A (fun j => x (a j)) * act (place d (select L fun j => x (a j))) (Φ fun j => x (a j)) x := by
  induction L generalizing Φ with
  | nil => rfl
  | cons l L ih =>
    rw [List.map_cons, List.foldl_cons]
    have hl := hL l List.mem_cons_self
    have e : (match l.instr d a with
        | .gate op cs t => gateAct k op cs t fun x => A (fun j => x (a j)) * Φ (fun j => x (a j)) x
        | _ => fun x => A (fun j => x (a j)) * Φ (fun j => x (a j)) x) =
        fun x => A (fun j => x (a j)) * (if x (a l.1) then actL (l.2.1, d l.2.2) (Φ fun j => x (a j)) else Φ fun j => x (a j)) x := by
      funext x
      rw [gateAct_letter]
      split
      · obtain ⟨i, b, j⟩ := l
        cases b
        · show sgn _ * (A _ * _) = A _ * (sgn _ * _)
          ring
        · show A (fun j' => flip x (d j) (a j')) * Φ (fun j' => flip x (d j) (a j')) (flip x (d j)) = A _ * Φ _ (flip x (d j))
          have : ∀ j' < K, (fun j' => flip x (d j) (a j')) j' = (fun j' => x (a j')) j' := fun j' hj' =>
            flip_other (hda _ hl.2 j' hj').symm
          rw [hA _ _ this, hΦ _ _ this]
      · rfl
    rw [e, ih (fun x hx => hL x (List.mem_cons_of_mem _ hx)) (fun v => if v l.1 then actL (l.2.1, d l.2.2) (Φ v) else Φ v)
      (fun v w h => by show (if v l.1 then _ else _) = if w l.1 then _ else _; rw [h _ hl.1, hΦ v w h])]
    funext x
    show _ * act _ (if x (a l.1) then _ else _) x = _ * act (place d (select L _ ++ _)) _ x
    rw [place_append, act_append]
    congr 2
    by_cases hx : x (a l.1) = true
    · simp [hx, place, act]
    · simp [hx, place, act]

/-- The product of the generators selected by a mask. -/
def genProd (gens : List Word) (m : ℕ) : ℕ → Word
  | 0 => []
  | K + 1 => genProd gens m K ++ (if m.testBit K then gens.getD K [] else [])

theorem act_genProd {d : ℕ → ℕ} {gens : List Word} {χ : State R} {σ : ℕ → Bool} (m K : ℕ)
    (h : ∀ i < K, act (place d (gens.getD i [])) χ = (sgn (σ i) : R) • χ) :
    act (place d (genProd gens m K)) χ = (∏ i ∈ Finset.range K, (sgn (σ i && m.testBit i) : R)) • χ := by
  induction K with
  | zero => simp [genProd]
  | succ K ih =>
    show act (place d (genProd gens m K ++ _)) χ = _
    rw [place_append, act_append, Finset.prod_range_succ]
    by_cases hm : m.testBit K = true
    · rw [if_pos hm, h K (by omega), act_smul, ih fun i hi => h i (by omega), smul_smul, hm, Bool.and_true, mul_comm]
    · rw [if_neg hm, place_nil, act_nil, ih fun i hi => h i (by omega)]
      simp [hm]

/-- A mask with given bits. -/
def maskOf (v : ℕ → Bool) : ℕ → ℕ
  | 0 => 0
  | K + 1 => maskOf v K ||| (if v K then 1 <<< K else 0)

theorem maskOf_lt (v : ℕ → Bool) (K : ℕ) : maskOf v K < 2 ^ K := by
  induction K with
  | zero => simp [maskOf]
  | succ K ih =>
    refine Nat.or_lt_two_pow (Nat.lt_of_lt_of_le ih (Nat.pow_le_pow_right (by omega) (by omega))) ?_
    split
    · rw [Nat.one_shiftLeft]; exact Nat.pow_lt_pow_right (by omega) (by omega)
    · exact Nat.two_pow_pos _

theorem testBit_maskOf (v : ℕ → Bool) (K j : ℕ) : (maskOf v K).testBit j = (decide (j < K) && v j) := by
  induction K with
  | zero => simp [maskOf]
  | succ K ih =>
    show (maskOf v K ||| _).testBit j = _
    rw [Nat.testBit_or, ih]
    by_cases hj : j = K
    · subst hj
      cases hv : v j <;> simp [Nat.one_shiftLeft, Nat.testBit_two_pow]
    · have h2 : (if v K = true then 1 <<< K else 0).testBit j = false := by
        split
        · rw [Nat.one_shiftLeft, Nat.testBit_two_pow]; simp; omega
        · simp
      rw [h2, Bool.or_false]
      congr 1
      exact decide_eq_decide.2 (by omega)

/-- The list of controlled letters measures the generators. -/
def ctrlOK (K : ℕ) (L : List CLetter) (gens : List Word) : Prop :=
  ∀ m < 2 ^ K, nf (select L m.testBit) = nf (genProd gens m K)

instance (K : ℕ) (L : List CLetter) (gens : List Word) : Decidable (ctrlOK K L gens) := by unfold ctrlOK; infer_instance

theorem within_genProd {r : ℕ} {gens : List Word} (h : ∀ g ∈ gens, Within r g) (m K : ℕ) : Within r (genProd gens m K) := by
  induction K with
  | zero => intro l hl; cases hl
  | succ K ih =>
    refine ih.append ?_
    split
    · by_cases hK : K < gens.length
      · rw [List.getD_eq_getElem?_getD, List.getElem?_eq_getElem hK]; exact h _ (List.getElem_mem hK)
      · rw [List.getD_eq_getElem?_getD, List.getElem?_eq_none (by omega)]; intro l hl; cases hl
    · intro l hl; cases hl

/-- Measuring an eigenstate: the phases of the ancillas become the eigenvalues. -/
theorem det_ctrl {r K : ℕ} {d a : ℕ → ℕ} (hd : Inj r d) (hda : Apart r K d a) {L : List CLetter} {gens : List Word}
    (hL : LWithin r K L) (hg : ∀ g ∈ gens, Within r g) (hok : ctrlOK K L gens) {st : ℕ → AncSt} {χ : State R} {σ : ℕ → Bool}
    (hσ : ∀ i < K, act (place d (gens.getD i [])) χ = (sgn (σ i) : R) • χ)
    (hp : ∀ i < K, (st i).1 = false → σ i = false) (cl : Bits) :
    Det k (L.map (CLetter.instr d a)) (tens k a K st χ, cl)
      (tens k a K (fun i => ((st i).1, (st i).2 ^^ σ i)) χ, cl) := by
  refine det_list_gates k (fun i hi => ?_) ?_
  · obtain ⟨l, _, rfl⟩ := List.mem_map.1 hi
    unfold CLetter.instr
    split
    · exact ⟨_, _, _, rfl⟩
    · exact ⟨_, _, _, rfl⟩
  · have h := run_ctrl k (d := d) (a := a) hda L hL (fun v => ∏ j ∈ Finset.range K, amp k (st j) (v j))
      (fun v w hvw => Finset.prod_congr rfl fun j hj => by rw [hvw j (Finset.mem_range.1 hj)]) (fun _ => χ) (fun _ _ _ => rfl)
    refine Eq.trans h ?_
    funext x
    have hm : ∀ j < K, (maskOf (fun j => x (a j)) K).testBit j = x (a j) := fun j hj => by
      rw [testBit_maskOf, decide_eq_true hj, Bool.true_and]
    have hsel : select L (fun j => x (a j)) = select L (maskOf (fun j => x (a j)) K).testBit :=
      select_congr fun l hl => (hm _ (hL l hl).1).symm
    have hn := hok _ (maskOf_lt (fun j => x (a j)) K)
    rw [hsel, act_eq_of_nf hd (within_select hL _) (within_genProd hg (maskOf (fun j => x (a j)) K) K)
      (by rw [hn]) (by rw [hn]), act_genProd _ _ hσ, hn]
    simp only [bne_self_eq_false, sgn_false, one_smul, Pi.smul_apply, smul_eq_mul, tens, ← mul_assoc, Bool.false_bne, Bool.xor_self, mul_one, one_mul]
    rw [← Finset.prod_mul_distrib]
    congr 1
    refine Finset.prod_congr rfl fun j hj => ?_
    have hj := Finset.mem_range.1 hj
    rw [hm j hj]
    have := hp j hj
    rcases hst : st j with ⟨p, b⟩
    rw [hst] at this
    cases p
    · simp [amp, this rfl]
    · simp only [amp, if_true]
      cases b <;> cases σ j <;> cases x (a j) <;> simp

end Verif.Ecc
