import Verif.Linalg
import Mathlib.Algebra.BigOperators.Group.Finset.Basic
import Mathlib.Algebra.Order.BigOperators.Group.Finset
import Mathlib.Tactic.Ring
import Mathlib.Data.Nat.ModEq

/-!
# Contractions of errors

Used for the distances of the colour code families: an error is pushed along a map of qubits, keeping
the qubits hit an odd number of times.
-/

namespace Verif.Contract
open Finset

variable {α β : Type} [DecidableEq α] [DecidableEq β]

/-- The points hit an odd number of times. -/
def push (φ : α → β) (E : Finset α) : Finset β :=
  (E.image φ).filter fun q => (E.filter fun p => φ p = q).card % 2 = 1

theorem sum_parity {ι : Type} (s : Finset ι) (f : ι → ℕ) [DecidableEq ι] :
    (∑ i ∈ s, f i) % 2 = (s.filter fun i => f i % 2 = 1).card % 2 := by
  induction s using Finset.induction_on with
  | empty => simp
  | insert a s ha ih =>
    rw [Finset.sum_insert ha, Finset.filter_insert]
    by_cases h : f a % 2 = 1
    · rw [if_pos h, Finset.card_insert_of_notMem (by simp [ha])]; omega
    · rw [if_neg h]; omega

theorem push_parity (φ : α → β) (E : Finset α) (Q : β → Prop) [DecidablePred Q] :
    ((push φ E).filter Q).card % 2 = (E.filter fun p => Q (φ p)).card % 2 := by
  have h := Finset.card_eq_sum_card_fiberwise (f := φ) (s := E.filter fun p => Q (φ p)) (t := (E.image φ).filter Q)
    (by intro p hp; simp only [coe_filter, Set.mem_setOf_eq, mem_image] at hp ⊢; exact ⟨⟨p, hp.1, rfl⟩, hp.2⟩)
  rw [h, sum_parity]
  congr 2
  ext q
  simp only [push, mem_filter]
  have : Q q → (filter (fun a => φ a = q) (filter (fun p => Q (φ p)) E)) = filter (fun a => φ a = q) E := by
    intro hq
    ext p
    simp only [mem_filter]
    constructor
    · rintro ⟨⟨h1, _⟩, h2⟩; exact ⟨h1, h2⟩
    · rintro ⟨h1, h2⟩; exact ⟨⟨h1, by rw [h2]; exact hq⟩, h2⟩
  constructor
  · rintro ⟨⟨h1, h2⟩, h3⟩; exact ⟨⟨h1, h3⟩, by rw [this h3]; exact h2⟩
  · rintro ⟨⟨h1, h3⟩, h2⟩; exact ⟨⟨h1, by rw [this h3] at h2; exact h2⟩, h3⟩

theorem push_parity' (φ : α → β) (E : Finset α) : (push φ E).card % 2 = E.card % 2 := by
  have := push_parity φ E (fun _ => True)
  simpa using this

theorem card_fibers (φ : α → β) (E : Finset α) :
    E.card = ∑ q ∈ E.image φ, (E.filter fun p => φ p = q).card :=
  Finset.card_eq_sum_card_fiberwise fun p hp => by simpa using ⟨p, hp, rfl⟩

theorem push_card (φ : α → β) (E : Finset α) : (push φ E).card ≤ E.card := by
  rw [card_fibers φ E, push, Finset.card_filter]
  refine Finset.sum_le_sum fun q _ => ?_
  split <;> omega

theorem push_card_two (φ : α → β) (E : Finset α) (p p' : α) (hp : p ∈ E) (hp' : p' ∈ E) (hne : p ≠ p') (h : φ p = φ p') :
    (push φ E).card + 2 ≤ E.card := by
  have hq : φ p ∈ E.image φ := Finset.mem_image_of_mem _ hp
  rw [card_fibers φ E, push, Finset.card_filter, ← Finset.add_sum_erase _ _ hq, ← Finset.add_sum_erase _ (fun q => _) hq]
  have h2 : 2 ≤ (E.filter fun a => φ a = φ p).card := by
    have : ({p, p'} : Finset α) ⊆ E.filter fun a => φ a = φ p := by
      intro a ha
      simp only [mem_insert, mem_singleton] at ha
      rcases ha with rfl | rfl
      · simpa using hp
      · simpa [h] using hp'
    have := Finset.card_le_card this
    rwa [Finset.card_pair hne] at this
  have h3 : ∑ q ∈ (E.image φ).erase (φ p), (if (E.filter fun a => φ a = q).card % 2 = 1 then 1 else 0) ≤
      ∑ q ∈ (E.image φ).erase (φ p), (E.filter fun a => φ a = q).card :=
    Finset.sum_le_sum fun q _ => by split <;> omega
  split <;> omega

/-- If every face of `A` meets `E` evenly, so does the set of points lying on an odd number of faces. -/
theorem cover_parity {ι : Type} [DecidableEq ι] (E : Finset α) (A : Finset ι) (N : ι → α → Prop) [∀ a, DecidablePred (N a)]
    (S : α → Prop) [DecidablePred S] (hA : ∀ a ∈ A, (E.filter (N a)).card % 2 = 0)
    (h : ∀ p ∈ E, ((A.filter fun a => N a p).card % 2 = 1 ↔ S p)) : (E.filter S).card % 2 = 0 := by
  have h1 : ∑ a ∈ A, (E.filter (N a)).card = ∑ p ∈ E, (A.filter fun a => N a p).card := by
    simp only [Finset.card_filter]
    exact Finset.sum_comm
  have h2 := sum_parity A fun a => (E.filter (N a)).card
  rw [h1, sum_parity] at h2
  have h3 : (A.filter fun a => (E.filter (N a)).card % 2 = 1) = ∅ :=
    Finset.filter_eq_empty_iff.2 fun a ha => by rw [hA a ha]; decide
  rw [h3] at h2
  rw [← Finset.filter_congr h]
  simpa using h2

/-- The symmetric difference of two even sets is even. -/
theorem xor_parity (E : Finset α) (P Q R : α → Prop) [DecidablePred P] [DecidablePred Q] [DecidablePred R]
    (hP : (E.filter P).card % 2 = 0) (hQ : (E.filter Q).card % 2 = 0) (h : ∀ p ∈ E, (R p ↔ ¬ (P p ↔ Q p))) :
    (E.filter R).card % 2 = 0 := by
  have h1 : ∀ F : Finset α, F ⊆ E → (F.filter R).card % 2 = ((F.filter P).card + (F.filter Q).card) % 2 := by
    intro F
    induction F using Finset.induction_on with
    | empty => simp
    | insert a s ha ih =>
      intro hF
      have ih := ih fun x hx => hF (Finset.mem_insert_of_mem hx)
      have := h a (hF (Finset.mem_insert_self _ _))
      rw [Finset.filter_insert, Finset.filter_insert, Finset.filter_insert]
      have e1 : (insert a (s.filter R)).card = (s.filter R).card + 1 := Finset.card_insert_of_notMem (by simp [ha])
      have e2 : (insert a (s.filter P)).card = (s.filter P).card + 1 := Finset.card_insert_of_notMem (by simp [ha])
      have e3 : (insert a (s.filter Q)).card = (s.filter Q).card + 1 := Finset.card_insert_of_notMem (by simp [ha])
      by_cases hp : P a <;> by_cases hq : Q a <;> by_cases hr : R a <;>
        simp only [hp, hq, hr, if_true, if_false, not_true, not_false_iff, iff_true, iff_false, e1, e2, e3] at this ⊢ <;>
        omega
  have := h1 E (Finset.Subset.refl _)
  omega

end Verif.Contract
