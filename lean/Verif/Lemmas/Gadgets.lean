import Verif.Model.Gadgets
import Mathlib.Data.Finset.Basic
import Mathlib.Algebra.BigOperators.Group.Finset.Basic
import Mathlib.Algebra.BigOperators.Group.Finset.Piecewise
import Mathlib.Tactic.LinearCombination

/-! # Flag gadgets as sequences of abstract steps -/

namespace Verif.SP
open Verif Verif.Spec

variable {Q C R : Type}

/-- What a gadget does between preparing and measuring its ancilla. -/
inductive GStep (Q : Type)
  | data (q : Q)
  | opn (j : ℕ)
  | close (j : ℕ)
deriving DecidableEq, Repr

/-- The instructions of a step. -/
def emit (z : Bool) (anc : Q) (flag : ℕ → Q) (fbit : ℕ → C) : GStep Q → List (Instr Q C)
  | .data q => ancillaCnot z anc q
  | .opn j => flagInit z (flag j) ++ ancillaCnot z anc (flag j)
  | .close j => ancillaCnot z anc (flag j) ++ flagMeasure z (flag j) (fbit j)

/-- A whole gadget. -/
def gadget (z : Bool) (anc : Q) (mbit : C) (flag : ℕ → Q) (fbit : ℕ → C) (l : List (GStep Q)) : List (Instr Q C) :=
  ancH z anc ++ l.flatMap (emit z anc flag fbit) ++ ancH z anc ++ [.measure anc mbit]

/-- Flags are opened before they are closed, none is open at the end; `O` are the open flags, `nF`
the size of the register. -/
def wf (nF : ℕ) : Finset ℕ → List (GStep Q) → Bool
  | O, [] => decide (O = ∅)
  | O, .data _ :: l => wf nF O l
  | O, .opn j :: l => decide (j < nF ∧ j ∉ O) && wf nF (insert j O) l
  | O, .close j :: l => decide (j ∈ O) && wf nF (O.erase j) l

/-- Data qubits in order. -/
def dataOf (l : List (GStep Q)) : List Q := l.filterMap fun | .data q => some q | _ => none

/-- Flags measured. -/
def closedOf (l : List (GStep Q)) : List ℕ := l.filterMap fun | .close j => some j | _ => none

theorem dataOf_data (q : Q) (l : List (GStep Q)) : dataOf (.data q :: l) = q :: dataOf l := rfl
theorem dataOf_open (j : ℕ) (l : List (GStep Q)) : dataOf (.opn j :: l) = dataOf l := rfl
theorem dataOf_close (j : ℕ) (l : List (GStep Q)) : dataOf (.close j :: l) = dataOf l := rfl
theorem closedOf_data (q : Q) (l : List (GStep Q)) : closedOf (.data q :: l) = closedOf l := rfl
theorem closedOf_open (j : ℕ) (l : List (GStep Q)) : closedOf (.opn j :: l) = closedOf l := rfl
theorem closedOf_close (j : ℕ) (l : List (GStep Q)) : closedOf (.close j :: l) = j :: closedOf l := rfl

variable [DecidableEq Q] [CommRing R]

theorem run_append (s : R) (out : C → ZMod 2) (l₁ l₂ : List (Instr Q C)) (ψ : State Q R) :
    run s out (l₁ ++ l₂) ψ = run s out l₂ (run s out l₁ ψ) := by simp [run]

theorem run_cons (s : R) (out : C → ZMod 2) (i : Instr Q C) (l : List (Instr Q C)) (ψ : State Q R) :
    run s out (i :: l) ψ = run s out l (step s out ψ i) := by simp [run]

theorem run_nil (s : R) (out : C → ZMod 2) (ψ : State Q R) : run s out ([] : List (Instr Q C)) ψ = ψ := rfl

theorem run_zero (s : R) (out : C → ZMod 2) (l : List (Instr Q C)) : run s out l (fun _ => 0) = fun _ : Q → ZMod 2 => (0 : R) := by
  induction l with
  | nil => rfl
  | cons i l ih =>
    rw [run_cons]
    have : step s out (fun _ : Q → ZMod 2 => (0 : R)) i = fun _ => 0 := by cases i <;> funext x <;> simp [step]
    rw [this, ih]

/-- Hypotheses on the qubits of a gadget. -/
structure Layout (anc : Q) (flag : ℕ → Q) (nF : ℕ) (ψ : State Q R) : Prop where
  inj : Function.Injective flag
  ne : ∀ j, flag j ≠ anc
  freeA : Free ψ anc
  freeF : ∀ j < nF, Free ψ (flag j)

theorem ite_fun {α β : Type} (p : Prop) [Decidable p] (f g : α → β) :
    (if p then f else g) = fun x => if p then f x else g x := by split <;> rfl

theorem two_zmod2 : (2 : ZMod 2) = 0 := rfl

section Z
variable (s : R) (out : C → ZMod 2) (anc : Q) (flag : ℕ → Q) (fbit : ℕ → C) (nF : ℕ) (ψ : State Q R)

/-- State inside a Z gadget. -/
def zForm (S : List Q) (O : Finset ℕ) : State Q R := fun x =>
  if x anc = (S.map x).sum + ∑ j ∈ O, x (flag j) ∧ ∀ j < nF, j ∉ O → x (flag j) = 0 then s ^ O.card * ψ x else 0

theorem sum_map_update (S : List Q) (x : Q → ZMod 2) (q : Q) (v : ZMod 2) (h : q ∉ S) :
    (S.map (Function.update x q v)).sum = (S.map x).sum := by
  congr 1
  apply List.map_congr_left
  intro p hp
  rw [Function.update_of_ne]
  rintro rfl
  exact h hp

theorem z_data (S : List Q) (O : Finset ℕ) (q : Q) (hL : Layout anc flag nF ψ) (hS : anc ∉ S) :
    run s out (emit true anc flag fbit (.data q)) (zForm s anc flag nF ψ S O) =
      zForm s anc flag nF ψ (S ++ [q]) O := by
  simp only [emit, ancillaCnot, if_true, run_cons, run_nil, step]
  funext x
  unfold zForm
  rw [hL.freeA, sum_map_update S x anc _ hS]
  simp only [Function.update_self, Function.update_of_ne (hL.ne _), List.map_append, List.map_cons, List.map_nil,
    List.sum_append, List.sum_cons, List.sum_nil, add_zero]
  congr 1
  apply propext
  apply and_congr_left
  intro _
  constructor
  · intro h; linear_combination h - x q * two_zmod2
  · intro h; linear_combination h + x q * two_zmod2

theorem sum_flag_update (O : Finset ℕ) (x : Q → ZMod 2) (hinj : Function.Injective flag) (j : ℕ) (v : ZMod 2)
    (h : j ∉ O) : ∑ i ∈ O, Function.update x (flag j) v (flag i) = ∑ i ∈ O, x (flag i) := by
  apply Finset.sum_congr rfl
  intro i hi
  rw [Function.update_of_ne]
  intro he
  have := hinj he
  subst this
  exact h hi

theorem z_open (S : List Q) (O : Finset ℕ) (j : ℕ) (hL : Layout anc flag nF ψ) (hS : anc ∉ S)
    (hSf : ∀ j < nF, flag j ∉ S) (hj : j < nF) (hO : j ∉ O) :
    run s out (emit true anc flag fbit (.opn j)) (zForm s anc flag nF ψ S O) =
      zForm s anc flag nF ψ S (insert j O) := by
  simp only [emit, ancillaCnot, flagInit, if_true, List.singleton_append, run_cons, run_nil, step]
  funext x
  have hne : flag j ≠ anc := hL.ne j
  set y := Function.update x anc (x anc + x (flag j)) with hy
  have hyf : ∀ i, y (flag i) = x (flag i) := fun i => by rw [hy, Function.update_of_ne (hL.ne i)]
  have h1 : zForm s anc flag nF ψ S O (Function.update y (flag j) 1) = 0 := by
    unfold zForm
    rw [if_neg]
    rintro ⟨-, h⟩
    have := h j hj hO
    rw [Function.update_self] at this
    exact absurd this (by decide)
  rw [h1, mul_zero, add_zero]
  unfold zForm
  rw [hL.freeF j hj, sum_map_update S _ _ _ (hSf j hj), sum_flag_update flag O _ hL.inj j _ hO,
    Function.update_of_ne hne.symm, mul_ite, mul_zero]
  have e1 : y anc = x anc + x (flag j) := by rw [hy, Function.update_self]
  have e2 : (S.map y).sum = (S.map x).sum := sum_map_update S _ _ _ hS
  have e3 : ψ y = ψ x := hL.freeA _ _
  rw [e1, e2, e3, Finset.sum_insert hO, Finset.card_insert_of_notMem hO]
  simp only [hyf]
  have : (x anc + x (flag j) = (S.map x).sum + ∑ i ∈ O, x (flag i) ∧
      ∀ i < nF, i ∉ O → Function.update y (flag j) 0 (flag i) = 0) ↔
      (x anc = (S.map x).sum + (x (flag j) + ∑ i ∈ O, x (flag i)) ∧ ∀ i < nF, i ∉ insert j O → x (flag i) = 0) := by
    apply and_congr
    · constructor
      · intro h; linear_combination h - x (flag j) * two_zmod2
      · intro h; linear_combination h + x (flag j) * two_zmod2
    · apply forall₂_congr
      intro i hi
      by_cases hij : i = j
      · subst hij; simp
      · rw [Function.update_of_ne (fun h => hij (hL.inj h)), hyf]
        simp [hij]
  simp only [this]
  split
  · ring
  · rfl

theorem z_close (S : List Q) (O : Finset ℕ) (j : ℕ) (hs : 2 * s * s = 1) (hL : Layout anc flag nF ψ) (hS : anc ∉ S)
    (hSf : ∀ j < nF, flag j ∉ S) (hj : j < nF) (hO : j ∈ O) :
    run s out (emit true anc flag fbit (.close j)) (zForm s anc flag nF ψ S O) =
      if out (fbit j) = 0 then zForm s anc flag nF ψ S (O.erase j) else fun _ => 0 := by
  rw [ite_fun]
  simp only [emit, ancillaCnot, flagMeasure, if_true, run_cons, run_nil, step,
    List.cons_append, List.nil_append]
  have hne : flag j ≠ anc := hL.ne j
  -- the state after the CNOT
  have key : ∀ y : Q → ZMod 2, zForm s anc flag nF ψ S O (Function.update y anc (y anc + y (flag j))) =
      if y anc = (S.map y).sum + ∑ i ∈ O.erase j, y (flag i) ∧ ∀ i < nF, i ∉ O → y (flag i) = 0 then
        s ^ O.card * ψ y else 0 := by
    intro y
    unfold zForm
    rw [hL.freeA, sum_map_update S _ _ _ hS]
    simp only [Function.update_self, Function.update_of_ne (hL.ne _)]
    rw [← Finset.add_sum_erase O (fun i => y (flag i)) hO]
    congr 1
    apply propext
    apply and_congr_left
    intro _
    constructor
    · intro h; linear_combination h
    · intro h; linear_combination h
  have key2 : ∀ (x : Q → ZMod 2) (v : ZMod 2),
      (if (Function.update x (flag j) v) anc = (S.map (Function.update x (flag j) v)).sum +
          ∑ i ∈ O.erase j, (Function.update x (flag j) v) (flag i) ∧
          ∀ i < nF, i ∉ O → (Function.update x (flag j) v) (flag i) = 0 then
        s ^ O.card * ψ (Function.update x (flag j) v) else 0) =
      if x anc = (S.map x).sum + ∑ i ∈ O.erase j, x (flag i) ∧ ∀ i < nF, i ∉ O → x (flag i) = 0 then
        s ^ O.card * ψ x else 0 := by
    intro x v
    rw [hL.freeF j hj, sum_map_update S _ _ _ (hSf j hj), sum_flag_update flag _ _ hL.inj j _ (by simp),
      Function.update_of_ne hne.symm]
    congr 1
    apply propext
    apply and_congr_right
    intro _
    apply forall₂_congr
    intro i hi
    apply imp_congr_right
    intro hiO
    rw [Function.update_of_ne]
    intro h
    exact hiO (hL.inj h ▸ hO)
  funext x
  simp only [key, key2]
  have hcard : s ^ O.card = s * s ^ (O.erase j).card := by
    rw [Finset.card_erase_of_mem hO, ← pow_succ']
    congr 1
    have := Finset.card_pos.2 ⟨j, hO⟩
    omega
  by_cases hx : x (flag j) = 0
  · by_cases ho : out (fbit j) = 0
    · rw [if_pos (by rw [hx, ho]), if_pos ho]
      unfold zForm
      have hiff : (x anc = (S.map x).sum + ∑ i ∈ O.erase j, x (flag i) ∧ ∀ i < nF, i ∉ O → x (flag i) = 0) ↔
          (x anc = (S.map x).sum + ∑ i ∈ O.erase j, x (flag i) ∧ ∀ i < nF, i ∉ O.erase j → x (flag i) = 0) := by
        apply and_congr_right
        intro _
        apply forall₂_congr
        intro i hi
        by_cases hij : i = j
        · subst hij; simp [hx]
        · simp [hij]
      simp only [hiff, hx, sgn, if_true, one_mul]
      split
      · rw [hcard]; linear_combination (s ^ (O.erase j).card * ψ x) * hs
      · simp
    · rw [if_neg (by rw [hx]; exact fun h => ho h.symm), if_neg ho]
  · have hr : s * ((if x anc = (S.map x).sum + ∑ i ∈ O.erase j, x (flag i) ∧ ∀ i < nF, i ∉ O → x (flag i) = 0 then
        s ^ O.card * ψ x else 0) + sgn (x (flag j)) *
        if x anc = (S.map x).sum + ∑ i ∈ O.erase j, x (flag i) ∧ ∀ i < nF, i ∉ O → x (flag i) = 0 then
        s ^ O.card * ψ x else 0) = 0 := by
      simp only [sgn, if_neg hx]; ring
    rw [hr]
    split
    · split
      · unfold zForm
        rw [if_neg]
        rintro ⟨-, h⟩
        exact hx (h j hj (by simp))
      · rfl
    · split
      · unfold zForm
        rw [if_neg]
        rintro ⟨-, h⟩
        exact hx (h j hj (by simp))
      · rfl

theorem z_steps (hs : 2 * s * s = 1) (hL : Layout anc flag nF ψ) :
    ∀ (l : List (GStep Q)) (S : List Q) (O : Finset ℕ), anc ∉ S → (∀ j < nF, flag j ∉ S) →
    anc ∉ dataOf l → (∀ j < nF, flag j ∉ dataOf l) → (∀ j ∈ O, j < nF) → wf nF O l = true →
    run s out (l.flatMap (emit true anc flag fbit)) (zForm s anc flag nF ψ S O) =
      if ∀ j ∈ closedOf l, out (fbit j) = 0 then zForm s anc flag nF ψ (S ++ dataOf l) ∅ else fun _ => 0 := by
  intro l
  induction l with
  | nil =>
    intro S O _ _ _ _ _ h
    simp only [wf, decide_eq_true_eq] at h
    subst h
    simp [closedOf, dataOf, run_nil]
  | cons g l ih =>
    intro S O hS hSf hd hdf hO hw
    rw [List.flatMap_cons, run_append]
    cases g with
    | data q =>
      simp only [dataOf_data, List.mem_cons, not_or] at hd hdf
      rw [z_data s out anc flag fbit nF ψ S O q hL hS]
      rw [ih (S ++ [q]) O (by simp [hS, hd.1]) (by
        intro j hj; simp only [List.mem_append, List.mem_singleton, not_or]; exact ⟨hSf j hj, (hdf j hj).1⟩)
        hd.2 (fun j hj => (hdf j hj).2) hO (by simpa [wf] using hw)]
      simp only [closedOf_data, dataOf_data, List.append_assoc, List.singleton_append]
      congr
    | opn j =>
      simp only [wf, Bool.and_eq_true, decide_eq_true_eq] at hw
      rw [z_open s out anc flag fbit nF ψ S O j hL hS hSf hw.1.1 hw.1.2]
      rw [ih S (insert j O) hS hSf hd hdf (by
        intro i hi
        rcases Finset.mem_insert.1 hi with rfl | hi
        · exact hw.1.1
        · exact hO i hi) hw.2]
      rfl
    | close j =>
      simp only [wf, Bool.and_eq_true, decide_eq_true_eq] at hw
      rw [z_close s out anc flag fbit nF ψ S O j hs hL hS hSf (hO j hw.1) hw.1]
      by_cases ho : out (fbit j) = 0
      · rw [if_pos ho, ih S (O.erase j) hS hSf hd hdf (fun i hi => hO i (Finset.mem_of_mem_erase hi)) hw.2]
        simp [dataOf_close, closedOf_close, ho]
      · rw [if_neg ho, run_zero, if_neg]
        intro h
        exact ho (h j (by simp [closedOf_close]))

end Z

omit [CommRing R] in
theorem free_eq {ψ : State Q R} {q : Q} (h : Free ψ q) {x y : Q → ZMod 2} (hxy : ∀ p, p ≠ q → x p = y p) :
    ψ x = ψ y := by
  have : x = Function.update y q (x q) := by
    funext p
    by_cases hp : p = q
    · subst hp; simp
    · rw [Function.update_of_ne hp, hxy p hp]
  rw [this, h]

section X
variable (s : R) (out : C → ZMod 2) (anc : Q) (flag : ℕ → Q) (fbit : ℕ → C) (nF : ℕ) (ψ : State Q R)

/-- State inside an X gadget. -/
def xForm (S : List Q) (O : Finset ℕ) : State Q R := fun x =>
  if (∀ j ∈ O, x (flag j) = x anc) ∧ ∀ j < nF, j ∉ O → x (flag j) = 0 then
    s * ψ (fun q => x q + (S.count q : ZMod 2) * x anc) else 0

theorem x_data (S : List Q) (O : Finset ℕ) (q : Q) (hO : ∀ j ∈ O, j < nF) (hq : q ≠ anc) (hqf : ∀ j < nF, flag j ≠ q) :
    run s out (emit false anc flag fbit (.data q)) (xForm s anc flag nF ψ S O) =
      xForm s anc flag nF ψ (S ++ [q]) O := by
  simp only [emit, ancillaCnot, Bool.false_eq_true, if_false, run_cons, run_nil, step]
  funext x
  unfold xForm
  have e1 : (∀ j ∈ O, Function.update x q (x q + x anc) (flag j) = Function.update x q (x q + x anc) anc) ↔
      ∀ j ∈ O, x (flag j) = x anc := by
    apply forall₂_congr
    intro j hj
    rw [Function.update_of_ne (hqf j (hO j hj)), Function.update_of_ne hq.symm]
  have e2 : (∀ j < nF, j ∉ O → Function.update x q (x q + x anc) (flag j) = 0) ↔ ∀ j < nF, j ∉ O → x (flag j) = 0 := by
    apply forall₂_congr
    intro j hj
    rw [Function.update_of_ne (hqf j hj)]
  simp only [e1, e2]
  split
  · congr 2
    funext p
    rw [Function.update_of_ne hq.symm]
    by_cases hp : p = q
    · subst hp
      rw [Function.update_self, List.count_append]
      simp only [List.count_singleton_self]
      push_cast
      ring
    · rw [Function.update_of_ne hp, List.count_append, List.count_singleton]
      simp [Ne.symm hp]
  · rfl

theorem x_flag_arg (S : List Q) (x : Q → ZMod 2) (j : ℕ) (v : ZMod 2) (hL : Layout anc flag nF ψ) (hj : j < nF) :
    ψ (fun q => Function.update x (flag j) v q + (S.count q : ZMod 2) * Function.update x (flag j) v anc) =
      ψ (fun q => x q + (S.count q : ZMod 2) * x anc) := by
  apply free_eq (hL.freeF j hj)
  intro p hp
  rw [Function.update_of_ne hp, Function.update_of_ne (hL.ne j).symm]

theorem x_open (S : List Q) (O : Finset ℕ) (j : ℕ) (hL : Layout anc flag nF ψ) (hj : j < nF) (hO : j ∉ O) :
    run s out (emit false anc flag fbit (.opn j)) (xForm s anc flag nF ψ S O) =
      xForm s anc flag nF ψ S (insert j O) := by
  simp only [emit, ancillaCnot, flagInit, Bool.false_eq_true, if_false, List.nil_append, run_cons, run_nil, step]
  funext x
  unfold xForm
  rw [x_flag_arg anc flag nF ψ S x j _ hL hj, Function.update_of_ne (hL.ne j).symm]
  congr 1
  apply propext
  have hne : ∀ i, i ≠ j → Function.update x (flag j) (x (flag j) + x anc) (flag i) = x (flag i) :=
    fun i hi => Function.update_of_ne (fun h => hi (hL.inj h)) _ _
  constructor
  · rintro ⟨h1, h2⟩
    constructor
    · intro i hi
      rcases Finset.mem_insert.1 hi with rfl | hi
      · have := h2 i hj hO
        rw [Function.update_self] at this
        linear_combination this - x anc * two_zmod2
      · rw [← h1 i hi, hne i (fun h => hO (h ▸ hi))]
    · intro i hi hni
      simp only [Finset.mem_insert, not_or] at hni
      rw [← h2 i hi hni.2, hne i hni.1]
  · rintro ⟨h1, h2⟩
    constructor
    · intro i hi
      rw [hne i (fun h => hO (h ▸ hi)), h1 i (Finset.mem_insert_of_mem hi)]
    · intro i hi hni
      by_cases hij : i = j
      · subst hij
        rw [Function.update_self, h1 i (Finset.mem_insert_self _ _)]
        linear_combination x anc * two_zmod2
      · rw [hne i hij, h2 i hi (by simp [hij, hni])]

theorem x_close (S : List Q) (O : Finset ℕ) (j : ℕ) (hL : Layout anc flag nF ψ) (hj : j < nF) (hO : j ∈ O) :
    run s out (emit false anc flag fbit (.close j)) (xForm s anc flag nF ψ S O) =
      if out (fbit j) = 0 then xForm s anc flag nF ψ S (O.erase j) else fun _ => 0 := by
  rw [ite_fun]
  simp only [emit, ancillaCnot, flagMeasure, Bool.false_eq_true, if_false, List.nil_append, List.cons_append,
    run_cons, run_nil, step]
  funext x
  have hne : ∀ i, i ≠ j → Function.update x (flag j) (x (flag j) + x anc) (flag i) = x (flag i) :=
    fun i hi => Function.update_of_ne (fun h => hi (hL.inj h)) _ _
  have key : xForm s anc flag nF ψ S O (Function.update x (flag j) (x (flag j) + x anc)) =
      xForm s anc flag nF ψ S (O.erase j) x := by
    unfold xForm
    rw [x_flag_arg anc flag nF ψ S x j _ hL hj, Function.update_of_ne (hL.ne j).symm]
    congr 1
    apply propext
    constructor
    · rintro ⟨h1, h2⟩
      constructor
      · intro i hi
        rw [← hne i (Finset.ne_of_mem_erase hi), h1 i (Finset.mem_of_mem_erase hi)]
      · intro i hi hni
        by_cases hij : i = j
        · subst hij
          have := h1 i hO
          rw [Function.update_self] at this
          linear_combination this
        · rw [← h2 i hi (fun h => hni (Finset.mem_erase.2 ⟨hij, h⟩)), hne i hij]
    · rintro ⟨h1, h2⟩
      constructor
      · intro i hi
        by_cases hij : i = j
        · subst hij
          rw [Function.update_self, h2 i hj (by simp), zero_add]
        · rw [hne i hij, h1 i (Finset.mem_erase.2 ⟨hij, hi⟩)]
      · intro i hi hni
        have hij : i ≠ j := fun h => hni (h ▸ hO)
        rw [hne i hij, h2 i hi (fun h => hni (Finset.mem_of_mem_erase h))]
  rw [key]
  by_cases hx : x (flag j) = 0
  · rw [hx]
    simp only [eq_comm]
  · have : xForm s anc flag nF ψ S (O.erase j) x = 0 := by
      unfold xForm
      rw [if_neg]
      rintro ⟨-, h⟩
      exact hx (h j hj (by simp))
    rw [this]
    simp

theorem x_steps (hL : Layout anc flag nF ψ) :
    ∀ (l : List (GStep Q)) (S : List Q) (O : Finset ℕ),
    anc ∉ dataOf l → (∀ j < nF, flag j ∉ dataOf l) → (∀ j ∈ O, j < nF) → wf nF O l = true →
    run s out (l.flatMap (emit false anc flag fbit)) (xForm s anc flag nF ψ S O) =
      if ∀ j ∈ closedOf l, out (fbit j) = 0 then xForm s anc flag nF ψ (S ++ dataOf l) ∅ else fun _ => 0 := by
  intro l
  induction l with
  | nil =>
    intro S O _ _ _ h
    simp only [wf, decide_eq_true_eq] at h
    subst h
    simp [closedOf, dataOf, run_nil]
  | cons g l ih =>
    intro S O hd hdf hO hw
    rw [List.flatMap_cons, run_append]
    cases g with
    | data q =>
      simp only [dataOf_data, List.mem_cons, not_or] at hd hdf
      rw [x_data s out anc flag fbit nF ψ S O q hO (Ne.symm hd.1) (fun j hj => (hdf j hj).1)]
      rw [ih (S ++ [q]) O hd.2 (fun j hj => (hdf j hj).2) hO (by simpa [wf] using hw)]
      simp only [closedOf_data, dataOf_data, List.append_assoc, List.singleton_append]
      congr
    | opn j =>
      simp only [wf, Bool.and_eq_true, decide_eq_true_eq] at hw
      rw [x_open s out anc flag fbit nF ψ S O j hL hw.1.1 hw.1.2]
      rw [ih S (insert j O) hd hdf (by
        intro i hi
        rcases Finset.mem_insert.1 hi with rfl | hi
        · exact hw.1.1
        · exact hO i hi) hw.2]
      rfl
    | close j =>
      simp only [wf, Bool.and_eq_true, decide_eq_true_eq] at hw
      rw [x_close s out anc flag fbit nF ψ S O j hL (hO j hw.1) hw.1]
      by_cases ho : out (fbit j) = 0
      · rw [if_pos ho, ih S (O.erase j) hd hdf (fun i hi => hO i (Finset.mem_of_mem_erase hi)) hw.2]
        simp [dataOf_close, closedOf_close, ho]
      · rw [if_neg ho, run_zero, if_neg]
        intro h
        exact ho (h j (by simp [closedOf_close]))

end X

/-- All flags of a gadget are in state 0. -/
def flagBits (flag : ℕ → Q) (nF : ℕ) : List (Q × ZMod 2) := (List.range nF).map fun j => (flag j, 0)

omit [DecidableEq Q] in
theorem flagBits_iff (flag : ℕ → Q) (nF : ℕ) (x : Q → ZMod 2) :
    (∀ p ∈ flagBits flag nF, x p.1 = p.2) ↔ ∀ j < nF, x (flag j) = 0 := by
  simp [flagBits]

theorem gadget_correct (s : R) (hs : 2 * s * s = 1) (out : C → ZMod 2) (z : Bool) (anc : Q) (mbit : C)
    (flag : ℕ → Q) (fbit : ℕ → C) (nF : ℕ) (ψ : State Q R) (hL : Layout anc flag nF ψ) (l : List (GStep Q))
    (hd : anc ∉ dataOf l) (hdf : ∀ j < nF, flag j ∉ dataOf l) (hw : wf nF ∅ l = true) :
    run s out (gadget z anc mbit flag fbit l) (withBits ((anc, 0) :: flagBits flag nF) ψ) =
      if ∀ j ∈ closedOf l, out (fbit j) = 0 then
        withBits ((anc, out mbit) :: flagBits flag nF) (proj (s * s) z (dataOf l) (out mbit) ψ)
      else fun _ => 0 := by
  cases z with
  | true =>
    have h0 : withBits ((anc, 0) :: flagBits flag nF) ψ = zForm s anc flag nF ψ [] ∅ := by
      funext x
      unfold withBits zForm
      simp only [List.forall_mem_cons, flagBits_iff]
      simp
    simp only [gadget, ancH, if_true, List.nil_append, List.append_nil, run_append]
    rw [h0, z_steps s out anc flag fbit nF ψ hs hL l [] ∅ (by simp) (by simp) hd hdf (by simp) hw]
    split
    · rw [run_cons, run_nil, List.nil_append]
      funext x
      simp only [step, proj, if_true, withBits, List.forall_mem_cons, flagBits_iff, projZ, zForm]
      simp only [Finset.sum_empty, add_zero, Finset.notMem_empty, not_false_eq_true, true_implies,
        Finset.card_empty, pow_zero, one_mul]
      by_cases h1 : x anc = out mbit
      · simp only [h1, true_and, if_true]
        by_cases h2 : ∀ j < nF, x (flag j) = 0
        · rw [if_pos h2]
          simp only [and_iff_left h2]
          by_cases h3 : (List.map x (dataOf l)).sum = out mbit
          · simp [h3]
          · rw [if_neg (fun h => h3 h.symm), if_neg h3]
        · rw [if_neg h2, if_neg (fun h => h2 h.2)]
      · simp [h1]
    · rw [run_zero]
  | false =>
    have h0 : run s out [Instr.h anc] (withBits ((anc, 0) :: flagBits flag nF) ψ) = xForm s anc flag nF ψ [] ∅ := by
      funext x
      simp only [run_cons, run_nil, step, withBits, xForm, List.forall_mem_cons, flagBits_iff, Function.update_self,
        Function.update_of_ne (hL.ne _), true_and]
      rw [hL.freeA]
      have : ¬ ((1 : ZMod 2) = 0) := by decide
      simp only [this, false_and, if_false, mul_zero, add_zero]
      simp
    simp only [gadget, ancH, Bool.false_eq_true, if_false, run_append]
    rw [h0, x_steps s out anc flag fbit nF ψ hL l [] ∅ hd hdf (by simp) hw]
    split
    · rw [List.nil_append]
      funext x
      simp only [run_cons, run_nil, step, proj, Bool.false_eq_true, if_false, withBits, List.forall_mem_cons,
        flagBits_iff, projX, applyX, xForm, Function.update_self, Function.update_of_ne (hL.ne _)]
      simp only [Finset.notMem_empty, not_false_eq_true, true_implies, false_implies, implies_true, true_and]
      have e1 : ∀ v, ψ (fun q => Function.update x anc v q + (List.count q (dataOf l) : ZMod 2) * v) =
          ψ (fun q => x q + (List.count q (dataOf l) : ZMod 2) * v) := by
        intro v
        apply free_eq hL.freeA
        intro p hp
        rw [Function.update_of_ne hp]
      rw [e1, e1]
      simp only [mul_zero, add_zero, mul_one]
      by_cases h1 : x anc = out mbit
      · simp only [h1, true_and, if_true]
        split <;> ring
      · simp [h1]
    · rw [run_zero, run_zero]

end Verif.SP
