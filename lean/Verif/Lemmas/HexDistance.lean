import Verif.Props.ColorLattice
import Verif.Lemmas.Contraction

/-! # Errors on the hexagonal lattice: the contraction from distance `2t + 3` to `2t + 1` -/

namespace Verif.HexDist
open Verif Verif.Lattice Contract Finset

/-- Data qubits of the lattice of distance `2t + 1`. -/
def Dat (t : ℕ) (p : Pt) : Prop := InTri (3 * t + 1) p ∧ ¬ AncClass p

/-- Faces of the lattice of distance `2t + 1`. -/
def Anc (t : ℕ) (p : Pt) : Prop := InTri (3 * t + 1) p ∧ AncClass p

theorem dat_mk (t : ℕ) (x y : ℤ) : Dat t (x, y) ↔
    0 ≤ y ∧ y ≤ x ∧ (x - y) % 2 = 0 ∧ x + y ≤ 6 * t ∧ (x - 3 * y) % 6 ≠ 2 := by
  simp only [Dat, InTri, AncClass]; push_cast; omega

theorem anc_mk (t : ℕ) (x y : ℤ) : Anc t (x, y) ↔
    0 ≤ y ∧ y ≤ x ∧ (x - y) % 2 = 0 ∧ x + y ≤ 6 * t ∧ (x - 3 * y) % 6 = 2 := by
  simp only [Anc, InTri, AncClass]; push_cast; omega

/-- An error without syndrome. -/
structure Undetected (t : ℕ) (E : Finset Pt) : Prop where
  data : ∀ p ∈ E, Dat t p
  even : ∀ a, Anc t a → (E.filter (· ∈ hexNbrs a)).card % 2 = 0

/-- The qubits dropped by the contraction. -/
def Drop (t : ℕ) (p : Pt) : Prop := p.2 = 2 ∨ p = (0, 0) ∨ p = (1, 1) ∨ p = (6 * (t : ℤ) + 6, 0)

instance (t p) : Decidable (Drop t p) := by unfold Drop; infer_instance

/-- Where the contraction moves the other qubits. -/
def contract (p : Pt) : Pt :=
  if 3 ≤ p.2 then (p.1 - 3, p.2 - 3)
  else if p.2 = 1 then (p.1 - 3, 0)
  else if p.1 % 6 = 0 then (p.1 - 2, 0)
  else (p.1 - 4, 0)

theorem mem_hexNbrs (x y u v : ℤ) : (x, y) ∈ hexNbrs (u, v) ↔
    (y = v ∧ (x = u - 2 ∨ x = u + 2)) ∨ ((y = v - 1 ∨ y = v + 1) ∧ (x = u - 1 ∨ x = u + 1)) := by
  simp only [hexNbrs, List.mem_cons, Prod.mk.injEq, List.not_mem_nil, or_false]
  omega

theorem contract_data (t : ℕ) (p : Pt) (h : Dat (t + 1) p) (hd : ¬ Drop t p) : Dat t (contract p) := by
  obtain ⟨x, y⟩ := p
  rw [dat_mk] at h
  simp only [Drop, contract, Prod.mk.injEq] at hd ⊢
  push_cast at h
  split_ifs <;> rw [dat_mk] <;> omega

/-- Rows of the bigger lattice. -/
theorem row_cases (y : ℤ) (h : 0 ≤ y) : y = 0 ∨ y = 1 ∨ y = 2 ∨ y = 3 ∨ y = 4 ∨ 5 ≤ y := by omega

/-- Unfolds the contraction in a fixed row. -/
local macro "hexauto" : tactic => `(tactic| (
  simp only [Drop, contract, mem_hexNbrs, Prod.mk.injEq, true_or, or_true, true_and, and_true, false_and, and_false, false_or, or_false, or_self, iff_false, false_iff, iff_true, true_iff, not_not, not_true_eq_false, not_false_eq_true, Int.reduceSub, Int.reduceAdd, Int.reduceEq, Int.reduceLE, if_true, if_false, le_refl]
  try omega))
local macro "hexauto " h:ident : tactic => `(tactic| (
  simp only [Drop, contract, mem_hexNbrs, Prod.mk.injEq, $h:ident, true_or, or_true, true_and, and_true, false_and, and_false, false_or, or_false, or_self, iff_false, false_iff, iff_true, true_iff, not_not, not_true_eq_false, not_false_eq_true, Int.reduceSub, Int.reduceAdd, Int.reduceEq, Int.reduceLE, if_true, if_false, le_refl]
  try omega))

theorem face_row0 (t : ℕ) (u : ℤ) (ha : Anc t (u, 0)) (p : Pt) (hp : Dat (t + 1) p) :
    ¬ Drop t p ∧ contract p ∈ hexNbrs (u, 0) ↔ ¬ (p ∈ hexNbrs (u + 3, 3) ↔ p ∈ hexNbrs (u + 3, 1)) := by
  obtain ⟨x, y⟩ := p
  rw [anc_mk] at ha
  rw [dat_mk] at hp
  push_cast at hp
  obtain ⟨k, rfl⟩ : ∃ k, u = 6 * k + 2 := ⟨u / 6, by omega⟩
  obtain ⟨h1, h2, h3, h4, h5⟩ := hp
  rcases row_cases y h1 with rfl | rfl | rfl | rfl | rfl | hy
  · by_cases hx : x % 6 = 0
    · hexauto hx
    · hexauto hx
  · hexauto
  · hexauto
  · hexauto
  · hexauto
  · simp only [Drop, contract, mem_hexNbrs, Prod.mk.injEq, if_pos (show 3 ≤ y by omega)]; omega

theorem face_row1 (t : ℕ) (u : ℤ) (ha : Anc t (u, 1)) (p : Pt) (hp : Dat (t + 1) p) :
    ¬ Drop t p ∧ contract p ∈ hexNbrs (u, 1) ↔ ¬ (p ∈ hexNbrs (u + 3, 4) ↔ p ∈ hexNbrs (u + 3, 0)) := by
  obtain ⟨x, y⟩ := p
  rw [anc_mk] at ha
  rw [dat_mk] at hp
  push_cast at hp
  obtain ⟨k, rfl⟩ : ∃ k, u = 6 * k + 5 := ⟨u / 6, by omega⟩
  obtain ⟨h1, h2, h3, h4, h5⟩ := hp
  rcases row_cases y h1 with rfl | rfl | rfl | rfl | rfl | hy
  · by_cases hx : x % 6 = 0
    · hexauto hx
    · hexauto hx
  · hexauto
  · hexauto
  · hexauto
  · hexauto
  · simp only [Drop, contract, mem_hexNbrs, Prod.mk.injEq, if_pos (show 3 ≤ y by omega)]; omega

theorem face_high (t : ℕ) (u v : ℤ) (hv : 2 ≤ v) (p : Pt) (hp : Dat (t + 1) p) :
    ¬ Drop t p ∧ contract p ∈ hexNbrs (u, v) ↔ p ∈ hexNbrs (u + 3, v + 3) := by
  obtain ⟨x, y⟩ := p
  rw [dat_mk] at hp
  by_cases hy : 3 ≤ y
  · simp only [Drop, contract, mem_hexNbrs, Prod.mk.injEq, if_pos hy]; omega
  · simp only [Drop, contract, mem_hexNbrs, Prod.mk.injEq, if_neg hy]
    split_ifs <;> simp only [mem_hexNbrs] <;> omega

/-- The contracted error. -/
def shrink (t : ℕ) (E : Finset Pt) : Finset Pt := push contract (E.filter fun p => ¬ Drop t p)

theorem shrink_undetected (t : ℕ) (E : Finset Pt) (hE : Undetected (t + 1) E) : Undetected t (shrink t E) := by
  refine ⟨fun p hp => ?_, fun a ha => ?_⟩
  · simp only [shrink, push, mem_filter, mem_image] at hp
    obtain ⟨⟨q, ⟨h1, h2⟩, rfl⟩, _⟩ := hp
    exact contract_data t q (hE.data q h1) h2
  · rw [shrink, push_parity, Finset.filter_filter]
    obtain ⟨u, v⟩ := a
    have ha' := (anc_mk _ _ _).1 ha
    have hv : v = 0 ∨ v = 1 ∨ 2 ≤ v := by omega
    rcases hv with rfl | rfl | hv
    · exact xor_parity E _ _ _ (hE.even (u + 3, 3) ((anc_mk _ _ _).2 (by omega)))
        (hE.even (u + 3, 1) ((anc_mk _ _ _).2 (by omega))) fun p hp => face_row0 t u ha p (hE.data p hp)
    · exact xor_parity E _ _ _ (hE.even (u + 3, 4) ((anc_mk _ _ _).2 (by omega)))
        (hE.even (u + 3, 0) ((anc_mk _ _ _).2 (by omega))) fun p hp => face_row1 t u ha p (hE.data p hp)
    · rw [Finset.filter_congr fun p hp => face_high t u v hv p (hE.data p hp)]
      exact hE.even (u + 3, v + 3) ((anc_mk _ _ _).2 (by omega))

/-! ## Counting faces -/

def ancs (t : ℕ) : Finset Pt := (hexAncilla (2 * t + 1)).toFinset

theorem mem_ancs (t : ℕ) (a : Pt) : a ∈ ancs t ↔ Anc t a := by
  rw [ancs, List.mem_toFinset, mem_hexAncilla, show 2 * t + 1 + (2 * t + 1) / 2 = 3 * t + 1 by omega]
  rfl

/-- The number of faces of a set around a point. -/
theorem count_faces (A : Finset Pt) (p : Pt) :
    (A.filter fun a => p ∈ hexNbrs a).card = (hexNbrs p).countP fun a => decide (a ∈ A) := by
  have h : A.filter (fun a => p ∈ hexNbrs a) = ((hexNbrs p).filter fun a => decide (a ∈ A)).toFinset := by
    ext ⟨u, v⟩
    obtain ⟨x, y⟩ := p
    simp only [mem_filter, List.mem_toFinset, List.mem_filter, decide_eq_true_eq, mem_hexNbrs]
    constructor
    · rintro ⟨h1, h2⟩; exact ⟨by omega, h1⟩
    · rintro ⟨h1, h2⟩; exact ⟨h2, by omega⟩
  rw [h, List.toFinset_card_of_nodup, List.countP_eq_length_filter]
  refine List.Nodup.filter _ ?_
  obtain ⟨x, y⟩ := p
  rw [hexNbrs_eq]
  exact shift_nodup _ _ (by decide)

theorem count_class0 (A : Finset Pt) (hA : ∀ a ∈ A, AncClass a) (x y : ℤ) (h : (x - 3 * y) % 6 = 0) :
    (A.filter fun a => (x, y) ∈ hexNbrs a).card = (if (x - 1, y + 1) ∈ A then 1 else 0) + (if (x - 1, y - 1) ∈ A then 1 else 0) +
      (if (x + 2, y) ∈ A then 1 else 0) := by
  have n1 : ¬ (x - 2, y) ∈ A := fun hm => by have := hA _ hm; simp only [AncClass] at this; omega
  have n2 : ¬ (x + 1, y - 1) ∈ A := fun hm => by have := hA _ hm; simp only [AncClass] at this; omega
  have n3 : ¬ (x + 1, y + 1) ∈ A := fun hm => by have := hA _ hm; simp only [AncClass] at this; omega
  rw [count_faces]
  simp only [hexNbrs, List.countP_cons, List.countP_nil, decide_eq_true_eq, if_neg n1, if_neg n2, if_neg n3]
  omega

theorem count_class4 (A : Finset Pt) (hA : ∀ a ∈ A, AncClass a) (x y : ℤ) (h : (x - 3 * y) % 6 = 4) :
    (A.filter fun a => (x, y) ∈ hexNbrs a).card = (if (x + 1, y + 1) ∈ A then 1 else 0) + (if (x + 1, y - 1) ∈ A then 1 else 0) +
      (if (x - 2, y) ∈ A then 1 else 0) := by
  have n1 : ¬ (x + 2, y) ∈ A := fun hm => by have := hA _ hm; simp only [AncClass] at this; omega
  have n2 : ¬ (x - 1, y - 1) ∈ A := fun hm => by have := hA _ hm; simp only [AncClass] at this; omega
  have n3 : ¬ (x - 1, y + 1) ∈ A := fun hm => by have := hA _ hm; simp only [AncClass] at this; omega
  rw [count_faces]
  simp only [hexNbrs, List.countP_cons, List.countP_nil, decide_eq_true_eq, if_neg n1, if_neg n2, if_neg n3]
  omega

theorem class_of_ancs (t : ℕ) (P : Pt → Prop) [DecidablePred P] : ∀ a ∈ (ancs t).filter P, AncClass a := fun a ha => by
  rw [mem_filter, mem_ancs] at ha
  exact ha.1.2

/-- The dropped qubits carry an even part of the error. -/
theorem drop_parity (t : ℕ) (E : Finset Pt) (hE : Undetected (t + 1) E) : (E.filter (Drop t)).card % 2 = 0 := by
  refine cover_parity E ((ancs (t + 1)).filter fun a => a.2 ≤ 1) (fun a p => p ∈ hexNbrs a) _ ?_ ?_
  · intro a ha
    rw [mem_filter, mem_ancs] at ha
    exact hE.even a ha.1
  · rintro ⟨x, y⟩ hp
    obtain ⟨h1, h2, h3, h4, h5⟩ := (dat_mk _ _ _).1 (hE.data _ hp)
    have hr : (x - 3 * y) % 6 = 0 ∨ (x - 3 * y) % 6 = 4 := by omega
    rcases hr with hr | hr
    · rw [count_class0 _ (class_of_ancs _ _) _ _ hr]
      obtain ⟨k, rfl⟩ : ∃ k, x = 3 * y + 6 * k := ⟨(x - 3 * y) / 6, by omega⟩
      have e1 : ((3 * y + 6 * k - 1, y + 1) ∈ (ancs (t + 1)).filter fun a => a.2 ≤ 1) ↔ y = 0 ∧ 1 ≤ k := by
        simp only [mem_filter, mem_ancs, anc_mk]; omega
      have e2 : ((3 * y + 6 * k - 1, y - 1) ∈ (ancs (t + 1)).filter fun a => a.2 ≤ 1) ↔ y = 1 ∨ y = 2 := by
        simp only [mem_filter, mem_ancs, anc_mk]; omega
      have e3 : ((3 * y + 6 * k + 2, y) ∈ (ancs (t + 1)).filter fun a => a.2 ≤ 1) ↔ y = 1 ∨ (y = 0 ∧ k ≤ t) := by
        simp only [mem_filter, mem_ancs, anc_mk]; omega
      simp only [e1, e2, e3, Drop, Prod.mk.injEq]
      split_ifs <;> simp only [zero_add, add_zero, Nat.reduceAdd, Nat.reduceMod, false_iff, true_iff] <;> omega
    · rw [count_class4 _ (class_of_ancs _ _) _ _ hr]
      obtain ⟨k, rfl⟩ : ∃ k, x = 3 * y + 6 * k + 4 := ⟨(x - 3 * y) / 6, by omega⟩
      have e1 : ((3 * y + 6 * k + 4 + 1, y + 1) ∈ (ancs (t + 1)).filter fun a => a.2 ≤ 1) ↔ y = 0 := by
        simp only [mem_filter, mem_ancs, anc_mk]; omega
      have e2 : ((3 * y + 6 * k + 4 + 1, y - 1) ∈ (ancs (t + 1)).filter fun a => a.2 ≤ 1) ↔ y = 1 ∨ y = 2 := by
        simp only [mem_filter, mem_ancs, anc_mk]; omega
      have e3 : ((3 * y + 6 * k + 4 - 2, y) ∈ (ancs (t + 1)).filter fun a => a.2 ≤ 1) ↔ y = 0 ∨ (y = 1 ∧ 0 ≤ k) := by
        simp only [mem_filter, mem_ancs, anc_mk]; omega
      simp only [e1, e2, e3, Drop, Prod.mk.injEq]
      split_ifs <;> simp only [zero_add, add_zero, Nat.reduceAdd, Nat.reduceMod, false_iff, true_iff] <;> omega

/-- The faces centred in the rows `2, 5, 8, …` cover everything but the bottom row. -/
theorem bottom_parity (t : ℕ) (E : Finset Pt) (hE : Undetected t E) : (E.filter fun p => ¬ p.2 = 0).card % 2 = 0 := by
  refine cover_parity E ((ancs t).filter fun a => a.2 % 3 = 2) (fun a p => p ∈ hexNbrs a) _ ?_ ?_
  · intro a ha
    rw [mem_filter, mem_ancs] at ha
    exact hE.even a ha.1
  · rintro ⟨x, y⟩ hp
    obtain ⟨h1, h2, h3, h4, h5⟩ := (dat_mk _ _ _).1 (hE.data _ hp)
    have hr : (x - 3 * y) % 6 = 0 ∨ (x - 3 * y) % 6 = 4 := by omega
    rcases hr with hr | hr
    · rw [count_class0 _ (class_of_ancs _ _) _ _ hr]
      obtain ⟨k, rfl⟩ : ∃ k, x = 3 * y + 6 * k := ⟨(x - 3 * y) / 6, by omega⟩
      have e1 : ((3 * y + 6 * k - 1, y + 1) ∈ (ancs t).filter fun a => a.2 % 3 = 2) ↔ y % 3 = 1 := by
        simp only [mem_filter, mem_ancs, anc_mk]; omega
      have e2 : ((3 * y + 6 * k - 1, y - 1) ∈ (ancs t).filter fun a => a.2 % 3 = 2) ↔ y % 3 = 0 ∧ 1 ≤ y := by
        simp only [mem_filter, mem_ancs, anc_mk]; omega
      have e3 : ((3 * y + 6 * k + 2, y) ∈ (ancs t).filter fun a => a.2 % 3 = 2) ↔ y % 3 = 2 := by
        simp only [mem_filter, mem_ancs, anc_mk]; omega
      simp only [e1, e2, e3]
      split_ifs <;> simp only [zero_add, add_zero, Nat.reduceAdd, Nat.reduceMod, false_iff, true_iff] <;> omega
    · rw [count_class4 _ (class_of_ancs _ _) _ _ hr]
      obtain ⟨k, rfl⟩ : ∃ k, x = 3 * y + 6 * k + 4 := ⟨(x - 3 * y) / 6, by omega⟩
      have e1 : ((3 * y + 6 * k + 4 + 1, y + 1) ∈ (ancs t).filter fun a => a.2 % 3 = 2) ↔ y % 3 = 1 := by
        simp only [mem_filter, mem_ancs, anc_mk]; omega
      have e2 : ((3 * y + 6 * k + 4 + 1, y - 1) ∈ (ancs t).filter fun a => a.2 % 3 = 2) ↔ y % 3 = 0 ∧ 1 ≤ y := by
        simp only [mem_filter, mem_ancs, anc_mk]; omega
      have e3 : ((3 * y + 6 * k + 4 - 2, y) ∈ (ancs t).filter fun a => a.2 % 3 = 2) ↔ y % 3 = 2 := by
        simp only [mem_filter, mem_ancs, anc_mk]; omega
      simp only [e1, e2, e3]
      split_ifs <;> simp only [zero_add, add_zero, Nat.reduceAdd, Nat.reduceMod, false_iff, true_iff] <;> omega

/-! ## The bound -/

/-- If nothing is dropped and no two qubits meet, the three bottom rows are free of errors. -/
theorem rows_clear (t : ℕ) (E : Finset Pt) (hE : Undetected (t + 1) E) (hd : ∀ p ∈ E, ¬ Drop t p)
    (hc : ∀ p ∈ E, ∀ q ∈ E, contract p = contract q → p = q) (m : ℕ) :
    ((6 * (m : ℤ), 0) ∉ E ∧ (6 * (m : ℤ) + 1, 1) ∉ E) ∧ ((6 * (m : ℤ) + 3, 1) ∉ E ∧ (6 * (m : ℤ) + 4, 0) ∉ E) := by
  have hdat := hE.data
  have pair : ∀ p q : Pt, contract p = contract q → p ≠ q → (p ∈ E → q ∉ E) := fun p q h hne hp hq => hne (hc p hp q hq h)
  have pa : ∀ j : ℕ, ((6 * (j : ℤ), 0) ∈ E → (6 * (j : ℤ) + 1, 1) ∉ E) := fun j => pair _ _
    (by simp only [contract, Int.reduceLE, if_false, Int.reduceEq, if_true, if_pos (show (6 * (j : ℤ)) % 6 = 0 by omega),
          Prod.mk.injEq, and_true]; omega)
    (by simp)
  have pb : ∀ j : ℕ, ((6 * (j : ℤ) + 3, 1) ∈ E → (6 * (j : ℤ) + 4, 0) ∉ E) := fun j => pair _ _
    (by simp only [contract, Int.reduceLE, if_false, Int.reduceEq, if_true, if_neg (show ¬ (6 * (j : ℤ) + 4) % 6 = 0 by omega),
          Prod.mk.injEq, and_true]; omega)
    (by simp)
  -- what a face with these four possible errors says
  have four : ∀ (p1 p2 q1 q2 : Pt) (S : Finset Pt), p1 ≠ p2 → q1 ≠ q2 → p1 ≠ q1 → p1 ≠ q2 → p2 ≠ q1 → p2 ≠ q2 →
      S ⊆ {p1, p2, q1, q2} → S.card % 2 = 0 → p1 ∉ S → p2 ∉ S → (q1 ∈ S → q2 ∉ S) → q1 ∉ S ∧ q2 ∉ S := by
    intro p1 p2 q1 q2 S _ _ _ _ _ _ hS hev n1 n2 hq
    have hS' : S ⊆ {q1, q2} := fun s hs => by
      have := hS hs
      simp only [mem_insert, mem_singleton] at this ⊢
      rcases this with rfl | rfl | h | h
      · exact absurd hs n1
      · exact absurd hs n2
      · exact .inl h
      · exact .inr h
    by_cases h1 : q1 ∈ S
    · have : S = {q1} := by
        ext s
        simp only [mem_singleton]
        constructor
        · intro hs
          have := hS' hs
          simp only [mem_insert, mem_singleton] at this
          rcases this with h | rfl
          · exact h
          · exact absurd hs (hq h1)
        · rintro rfl; exact h1
      rw [this] at hev
      simp at hev
    · by_cases h2 : q2 ∈ S
      · have : S = {q2} := by
          ext s
          simp only [mem_singleton]
          constructor
          · intro hs
            have := hS' hs
            simp only [mem_insert, mem_singleton] at this
            rcases this with rfl | h
            · exact absurd hs h1
            · exact h
          · rintro rfl; exact h2
        rw [this] at hev
        simp at hev
      · exact ⟨h1, h2⟩
  -- from the first pair of a block to the second
  have step : ∀ j : ℕ, ((6 * (j : ℤ), 0) ∉ E ∧ (6 * (j : ℤ) + 1, 1) ∉ E) → ((6 * (j : ℤ) + 3, 1) ∉ E ∧ (6 * (j : ℤ) + 4, 0) ∉ E) := by
    intro j ⟨h1, h2⟩
    by_cases hin : Anc (t + 1) (6 * (j : ℤ) + 2, 0)
    · have := four (6 * (j : ℤ), 0) (6 * (j : ℤ) + 1, 1) (6 * (j : ℤ) + 3, 1) (6 * (j : ℤ) + 4, 0)
        (E.filter (· ∈ hexNbrs (6 * (j : ℤ) + 2, 0))) (by simp) (by simp) (by simp) (by simp) (by simp) (by simp)
        ?_ (hE.even _ hin) (by simp [h1]) (by simp [h2]) (fun h h' => pb j (mem_filter.1 h).1 (mem_filter.1 h').1)
      · refine ⟨fun h => this.1 (mem_filter.2 ⟨h, ?_⟩), fun h => this.2 (mem_filter.2 ⟨h, ?_⟩)⟩
        · rw [mem_hexNbrs]; omega
        · rw [mem_hexNbrs]; omega
      · rintro ⟨x, y⟩ h
        rw [mem_filter, mem_hexNbrs] at h
        have h0 := (dat_mk _ _ _).1 (hdat _ h.1)
        obtain ⟨-, h⟩ := h
        simp only [mem_insert, mem_singleton, Prod.mk.injEq]
        rcases h with ⟨rfl, rfl | rfl⟩ | ⟨rfl | rfl, rfl | rfl⟩
        all_goals first | (exfalso; omega) | omega
    · rw [anc_mk] at hin
      exact ⟨fun h => by have := (dat_mk _ _ _).1 (hdat _ h); omega, fun h => by have := (dat_mk _ _ _).1 (hdat _ h); omega⟩
  have next : ∀ j : ℕ, ((6 * (j : ℤ) + 3, 1) ∉ E ∧ (6 * (j : ℤ) + 4, 0) ∉ E) →
      ((6 * ((j + 1 : ℕ) : ℤ), 0) ∉ E ∧ (6 * ((j + 1 : ℕ) : ℤ) + 1, 1) ∉ E) := by
    intro j ⟨h1, h2⟩
    by_cases hin : Anc (t + 1) (6 * (j : ℤ) + 5, 1)
    · have := four (6 * (j : ℤ) + 3, 1) (6 * (j : ℤ) + 4, 0) (6 * ((j + 1 : ℕ) : ℤ), 0) (6 * ((j + 1 : ℕ) : ℤ) + 1, 1)
        (E.filter (· ∈ hexNbrs (6 * (j : ℤ) + 5, 1))) (by simp) (by simp) (by simp) (by simp; omega) (by simp; omega) (by simp)
        ?_ (hE.even _ hin) (by simp [h1]) (by simp [h2]) (fun h h' => pa (j + 1) (mem_filter.1 h).1 (mem_filter.1 h').1)
      · refine ⟨fun h => this.1 (mem_filter.2 ⟨h, ?_⟩), fun h => this.2 (mem_filter.2 ⟨h, ?_⟩)⟩
        · rw [mem_hexNbrs]; omega
        · rw [mem_hexNbrs]; omega
      · rintro ⟨x, y⟩ h
        rw [mem_filter, mem_hexNbrs] at h
        have h0 := (dat_mk _ _ _).1 (hdat _ h.1)
        have h2 := hd _ h.1
        simp only [Drop, Prod.mk.injEq] at h2
        obtain ⟨-, h⟩ := h
        simp only [mem_insert, mem_singleton, Prod.mk.injEq]
        rcases h with ⟨rfl, rfl | rfl⟩ | ⟨rfl | rfl, rfl | rfl⟩
        all_goals first | (exfalso; omega) | omega
    · rw [anc_mk] at hin
      refine ⟨fun h => ?_, fun h => by have := (dat_mk _ _ _).1 (hdat _ h); omega⟩
      have h0 := (dat_mk _ _ _).1 (hdat _ h)
      have h2 := hd _ h
      simp only [Drop, Prod.mk.injEq] at h2
      omega
  induction m with
  | zero =>
    have h0 : (6 * ((0 : ℕ) : ℤ), 0) ∉ E ∧ (6 * ((0 : ℕ) : ℤ) + 1, 1) ∉ E := by
      refine ⟨fun h => hd _ h ?_, fun h => hd _ h ?_⟩
      · simp [Drop]
      · simp [Drop]
    exact ⟨h0, step 0 h0⟩
  | succ m ih => exact ⟨next m ih.2, step (m + 1) (next m ih.2)⟩

/-- An undetected error of odd weight has at least `2t + 1` qubits. -/
theorem weight_bound (t : ℕ) : ∀ E : Finset Pt, Undetected t E → E.card % 2 = 1 → 2 * t + 1 ≤ E.card := by
  induction t with
  | zero => intro E _ h; omega
  | succ t ih =>
    intro E hE hodd
    have hs := shrink_undetected t E hE
    have hdp := drop_parity t E hE
    have hsplit := Finset.card_filter_add_card_filter_not (s := E) (Drop t)
    have hpar : (shrink t E).card % 2 = 1 := by
      rw [shrink, push_parity']; omega
    have hb := ih _ hs hpar
    by_cases hempty : (E.filter (Drop t)).card = 0
    · have hd : ∀ p ∈ E, ¬ Drop t p := fun p hp h => by
        rw [Finset.card_eq_zero] at hempty
        have : p ∈ E.filter (Drop t) := mem_filter.2 ⟨hp, h⟩
        rw [hempty] at this
        simp at this
      by_cases hc : ∀ p ∈ E, ∀ q ∈ E, contract p = contract q → p = q
      · exfalso
        have hclear := rows_clear t E hE hd hc
        have h0 : (E.filter fun p => p.2 = 0) = ∅ := by
          refine Finset.filter_eq_empty_iff.2 ?_
          rintro ⟨x, y⟩ hp hy
          simp only at hy
          subst hy
          have h := (dat_mk _ _ _).1 (hE.data _ hp)
          have hr : x % 6 = 0 ∨ x % 6 = 4 := by omega
          have h1 := hclear (x / 6).toNat
          rcases hr with hr | hr
          · refine h1.1.1 ?_
            rwa [show 6 * (((x / 6).toNat : ℕ) : ℤ) = x by omega]
          · refine h1.2.2 ?_
            rwa [show 6 * (((x / 6).toNat : ℕ) : ℤ) + 4 = x by omega]
        have h2 := bottom_parity _ E hE
        have h3 := Finset.card_filter_add_card_filter_not (s := E) (fun p => p.2 = 0)
        rw [h0] at h3
        simp only [Finset.card_empty] at h3
        omega
      · push Not at hc
        obtain ⟨p, hp, q, hq, hpq, hne⟩ := hc
        have := push_card_two contract (E.filter fun p => ¬ Drop t p) p q (mem_filter.2 ⟨hp, hd p hp⟩)
          (mem_filter.2 ⟨hq, hd q hq⟩) hne hpq
        rw [shrink] at hb
        omega
    · have := push_card contract (E.filter fun p => ¬ Drop t p)
      rw [shrink] at hb
      omega

end Verif.HexDist
