import Verif.Props.ColorLattice2
import Verif.Lemmas.Contraction

/-! # Errors on the square-octagon lattice: the contraction from distance `2t + 3` to `2t + 1` -/

namespace Verif.SODist
open Verif Verif.Lattice Contract Finset

theorem dat_mk (t : ℕ) (x y : ℤ) : SO t (x, y) .data ↔
    (y % 3 = 1 ∧ ((x - y) % 6 = 5 ∨ (x - y) % 6 = 1) ∧ 1 ≤ y ∧ y ≤ x + 1 ∧ x + y ≤ 6 * t + 3 ∧ (y = 1 → x ≤ 6 * t)) ∨
      (y % 3 = 2 ∧ ((x - y) % 6 = 1 ∨ (x - y) % 6 = 3) ∧ 2 ≤ y ∧ y + 1 ≤ x ∧ x + y ≤ 6 * t + 1) := Iff.rfl

theorem sq_mk (t : ℕ) (x y : ℤ) : SO t (x, y) .square ↔
    y % 3 = 0 ∧ (x - y) % 6 = 1 ∧ 3 ≤ y ∧ y + 1 ≤ x ∧ x + y ≤ 6 * t + 1 := Iff.rfl

theorem oc_mk (t : ℕ) (x y : ℤ) : SO t (x, y) .octagon ↔ y % 3 = 0 ∧ (x - y) % 6 = 4 ∧
      ((y % 2 = 1 ∧ 3 ≤ y ∧ y ≤ x + 2 ∧ x + y ≤ 6 * t - 2) ∨ (y % 2 = 0 ∧ 6 ≤ y ∧ y + 4 ≤ x ∧ x + y ≤ 6 * t + 4) ∨
        (y = 0 ∧ 4 ≤ x ∧ x < 6 * t)) := Iff.rfl

theorem mem_sq (x y u v : ℤ) : (x, y) ∈ squareNbrs (u, v) ↔ (x = u - 1 ∨ x = u + 1) ∧ (y = v - 1 ∨ y = v + 1) := by
  simp only [squareNbrs, List.mem_cons, Prod.mk.injEq, List.not_mem_nil, or_false]
  omega

theorem mem_oc (x y u v : ℤ) : (x, y) ∈ octagonNbrs (u, v) ↔
    ((x = u - 2 ∨ x = u + 2) ∧ (y = v - 1 ∨ y = v + 1)) ∨ ((x = u - 1 ∨ x = u + 1) ∧ (y = v - 2 ∨ y = v + 2)) := by
  simp only [octagonNbrs, List.mem_cons, Prod.mk.injEq, List.not_mem_nil, or_false]
  omega

/-- An error without syndrome. -/
structure Undetected (t : ℕ) (E : Finset Pt) : Prop where
  data : ∀ p ∈ E, SO t p .data
  square : ∀ a, SO t a .square → (E.filter (· ∈ squareNbrs a)).card % 2 = 0
  octagon : ∀ a, SO t a .octagon → (E.filter (· ∈ octagonNbrs a)).card % 2 = 0

/-- The qubits dropped by the contraction: the face in the left corner. -/
def Drop (p : Pt) : Prop := p ∈ octagonNbrs (1, 3) ∧ p.2 ≤ 4 ∧ 0 ≤ p.1

instance (p) : Decidable (Drop p) := by unfold Drop; infer_instance

theorem drop_mk (x y : ℤ) : Drop (x, y) ↔ (x = 0 ∧ y = 1) ∨ (x = 2 ∧ y = 1) ∨ (x = 3 ∧ y = 2) ∨ (x = 3 ∧ y = 4) := by
  simp only [Drop, mem_oc]
  omega

/-- Where the contraction moves the other qubits; the smaller lattice appears reflected. -/
def contract (t : ℕ) (p : Pt) : Pt :=
  if 4 ≤ p.2 then (6 * t + 5 - p.1, p.2 - 3)
  else if p.2 = 2 then (6 * t + 5 - p.1, 1)
  else if p.1 % 6 = 0 then (6 * t + 6 - p.1, 1)
  else (6 * t + 4 - p.1, 1)

theorem contract_data (t : ℕ) (p : Pt) (h : SO (t + 1) p .data) (hd : ¬ Drop p) : SO t (contract t p) .data := by
  obtain ⟨x, y⟩ := p
  rw [dat_mk] at h
  rw [drop_mk] at hd
  simp only [contract]
  rcases h with ⟨h1, h2, h3, h4, h5, h6⟩ | ⟨h1, h2, h3, h4, h5⟩
  · by_cases hy : 4 ≤ y
    · rw [if_pos hy, dat_mk]
      exact .inl ⟨by omega, by omega, by omega, by omega, by omega, by omega⟩
    · have hy1 : y = 1 := by omega
      subst hy1
      rw [if_neg (by decide), if_neg (by decide)]
      split_ifs <;> rw [dat_mk] <;> exact .inl ⟨by omega, by omega, by omega, by omega, by omega, by omega⟩
  · by_cases hy : 4 ≤ y
    · rw [if_pos hy, dat_mk]
      exact .inr ⟨by omega, by omega, by omega, by omega, by omega⟩
    · have hy1 : y = 2 := by omega
      subst hy1
      rw [if_neg (by decide), if_pos rfl, dat_mk]
      exact .inl ⟨by omega, by omega, by omega, by omega, by omega, by omega⟩

/-- The squares of the smaller lattice are squares of the bigger one. -/
theorem face_square (t : ℕ) (u v : ℤ) (hv : 3 ≤ v) (p : Pt) (hp : SO (t + 1) p .data) :
    ¬ Drop p ∧ contract t p ∈ squareNbrs (u, v) ↔ p ∈ squareNbrs (6 * t + 5 - u, v + 3) := by
  obtain ⟨x, y⟩ := p
  rw [dat_mk] at hp
  rw [drop_mk, mem_sq]
  by_cases hy : 4 ≤ y
  · simp only [contract, if_pos hy, mem_sq]; omega
  · simp only [contract, if_neg hy]
    split_ifs <;> rw [mem_sq] <;> omega

theorem low_rows (t : ℕ) (x y : ℤ) (hp : SO t (x, y) .data) :
    (y = 1 ∧ (x % 6 = 0 ∨ x % 6 = 2) ∧ 0 ≤ x ∧ x ≤ 6 * t) ∨ (y = 2 ∧ (x % 6 = 3 ∨ x % 6 = 5) ∧ 3 ≤ x ∧ x ≤ 6 * t - 1) ∨
    (y = 4 ∧ (x % 6 = 3 ∨ x % 6 = 5) ∧ 3 ≤ x ∧ x ≤ 6 * t - 1) ∨ (y = 5 ∧ (x % 6 = 0 ∨ x % 6 = 2) ∧ 6 ≤ x ∧ x ≤ 6 * t - 4) ∨ 7 ≤ y := by
  rw [dat_mk] at hp
  omega

/-- The octagons of the bottom row. -/
theorem face_octagon0 (t : ℕ) (u : ℤ) (ha : SO t (u, 0) .octagon) (p : Pt) (hp : SO (t + 1) p .data) :
    ¬ Drop p ∧ contract t p ∈ octagonNbrs (u, 0) ↔ p ∈ octagonNbrs (6 * t + 5 - u, 3) := by
  obtain ⟨x, y⟩ := p
  rw [oc_mk] at ha
  have hp := low_rows _ _ _ hp
  obtain ⟨k, rfl⟩ : ∃ k, u = 6 * k + 4 := ⟨u / 6, by omega⟩
  rw [drop_mk, mem_oc]
  rcases hp with ⟨rfl, h⟩ | ⟨rfl, h⟩ | ⟨rfl, h⟩ | ⟨rfl, h⟩ | hy
  · simp only [contract, Int.reduceLE, Int.reduceEq, if_false]
    split_ifs <;> rw [mem_oc] <;> omega
  · simp only [contract, Int.reduceLE, if_true, if_false]
    rw [mem_oc]; omega
  · simp only [contract, le_refl, if_true]
    rw [mem_oc]; omega
  · simp only [contract, Int.reduceLE, if_true]
    rw [mem_oc]; omega
  · simp only [contract, if_pos (show 4 ≤ y by omega)]
    rw [mem_oc]; omega

/-- The octagons of the next row: two octagons of the bigger lattice. -/
theorem face_octagon3 (t : ℕ) (u : ℤ) (ha : SO t (u, 3) .octagon) (p : Pt) (hp : SO (t + 1) p .data) :
    ¬ Drop p ∧ contract t p ∈ octagonNbrs (u, 3) ↔
      ¬ (p ∈ octagonNbrs (6 * t + 5 - u, 6) ↔ p ∈ octagonNbrs (6 * t + 5 - u, 0)) := by
  obtain ⟨x, y⟩ := p
  rw [oc_mk] at ha
  have hp := low_rows _ _ _ hp
  obtain ⟨k, rfl⟩ : ∃ k, u = 6 * k + 1 := ⟨u / 6, by omega⟩
  rw [drop_mk, mem_oc, mem_oc]
  rcases hp with ⟨rfl, h⟩ | ⟨rfl, h⟩ | ⟨rfl, h⟩ | ⟨rfl, h⟩ | hy
  · simp only [contract, Int.reduceLE, Int.reduceEq, if_false]
    split_ifs <;> rw [mem_oc] <;> omega
  · simp only [contract, Int.reduceLE, if_true, if_false]
    rw [mem_oc]; omega
  · simp only [contract, le_refl, if_true]
    rw [mem_oc]; omega
  · simp only [contract, Int.reduceLE, if_true]
    rw [mem_oc]; omega
  · simp only [contract, if_pos (show 4 ≤ y by omega)]
    rw [mem_oc]; omega

theorem face_octagon (t : ℕ) (u v : ℤ) (hv : 6 ≤ v) (p : Pt) (hp : SO (t + 1) p .data) :
    ¬ Drop p ∧ contract t p ∈ octagonNbrs (u, v) ↔ p ∈ octagonNbrs (6 * t + 5 - u, v + 3) := by
  obtain ⟨x, y⟩ := p
  rw [dat_mk] at hp
  rw [drop_mk, mem_oc]
  by_cases hy : 4 ≤ y
  · simp only [contract, if_pos hy, mem_oc]; omega
  · simp only [contract, if_neg hy]
    split_ifs <;> rw [mem_oc] <;> omega

/-- The contracted error. -/
def shrink (t : ℕ) (E : Finset Pt) : Finset Pt := push (contract t) (E.filter fun p => ¬ Drop p)

theorem shrink_undetected (t : ℕ) (E : Finset Pt) (hE : Undetected (t + 1) E) : Undetected t (shrink t E) := by
  refine ⟨fun p hp => ?_, fun a ha => ?_, fun a ha => ?_⟩
  · simp only [shrink, push, mem_filter, mem_image] at hp
    obtain ⟨⟨q, ⟨h1, h2⟩, rfl⟩, _⟩ := hp
    exact contract_data t q (hE.data q h1) h2
  · rw [shrink, push_parity, Finset.filter_filter]
    obtain ⟨u, v⟩ := a
    have ha' := (sq_mk _ _ _).1 ha
    rw [Finset.filter_congr fun p hp => face_square t u v (by omega) p (hE.data p hp)]
    exact hE.square _ ((sq_mk _ _ _).2 (by omega))
  · rw [shrink, push_parity, Finset.filter_filter]
    obtain ⟨u, v⟩ := a
    have ha' := (oc_mk _ _ _).1 ha
    have hv : v = 0 ∨ v = 3 ∨ 6 ≤ v := by omega
    rcases hv with rfl | rfl | hv
    · rw [Finset.filter_congr fun p hp => face_octagon0 t u ha p (hE.data p hp)]
      exact hE.octagon _ ((oc_mk _ _ _).2 (by omega))
    · exact xor_parity E _ _ _ (hE.octagon (6 * t + 5 - u, 6) ((oc_mk _ _ _).2 (by omega)))
        (hE.octagon (6 * t + 5 - u, 0) ((oc_mk _ _ _).2 (by omega))) fun p hp => face_octagon3 t u ha p (hE.data p hp)
    · rw [Finset.filter_congr fun p hp => face_octagon t u v hv p (hE.data p hp)]
      exact hE.octagon _ ((oc_mk _ _ _).2 (by omega))

/-- The dropped qubits are a face. -/
theorem drop_parity (t : ℕ) (E : Finset Pt) (hE : Undetected (t + 1) E) : (E.filter Drop).card % 2 = 0 := by
  have h : ∀ p ∈ E, (Drop p ↔ p ∈ octagonNbrs (1, 3)) := by
    rintro ⟨x, y⟩ hp
    have := low_rows _ _ _ (hE.data _ hp)
    rw [drop_mk, mem_oc]
    omega
  rw [Finset.filter_congr h]
  exact hE.octagon _ ((oc_mk _ _ _).2 (by omega))

/-- Every qubit above the bottom row lies on exactly one square. -/
theorem bottom_parity (t : ℕ) (E : Finset Pt) (hE : Undetected t E) : (E.filter fun p => ¬ p.2 = 1).card % 2 = 0 := by
  have hmem : ∀ a, a ∈ (soOf .square (2 * t + 1)).toFinset ↔ SO t a .square := fun a => by
    rw [List.mem_toFinset, mem_soOf]
  refine cover_parity E (soOf .square (2 * t + 1)).toFinset (fun a p => p ∈ squareNbrs a) _
    (fun a ha => hE.square a ((hmem a).1 ha)) ?_
  rintro ⟨x, y⟩ hp
  have h := (dat_mk _ _ _).1 (hE.data _ hp)
  have one : ∀ c : Pt, ((soOf .square (2 * t + 1)).toFinset.filter fun a => (x, y) ∈ squareNbrs a) = {c} → ¬ y = 1 →
      (((soOf .square (2 * t + 1)).toFinset.filter fun a => (x, y) ∈ squareNbrs a).card % 2 = 1 ↔ ¬ (x, y).2 = 1) := by
    intro c hc hy
    rw [hc]
    simp [hy]
  by_cases hy : y = 1
  · subst hy
    have : ((soOf .square (2 * t + 1)).toFinset.filter fun a => (x, 1) ∈ squareNbrs a) = ∅ := by
      refine Finset.filter_eq_empty_iff.2 ?_
      rintro ⟨u, v⟩ hc
      rw [hmem, sq_mk] at hc
      rw [mem_sq]
      omega
    rw [this]
    simp
  · rcases h with ⟨h1, h2 | h2, h3, h4, h5, h6⟩ | ⟨h1, h2 | h2, h3, h4, h5⟩
    · refine one (x + 1, y - 1) ?_ hy
      ext ⟨u, v⟩
      rw [mem_filter, hmem, sq_mk, mem_sq, mem_singleton, Prod.mk.injEq]
      omega
    · refine one (x - 1, y - 1) ?_ hy
      ext ⟨u, v⟩
      rw [mem_filter, hmem, sq_mk, mem_sq, mem_singleton, Prod.mk.injEq]
      omega
    · refine one (x + 1, y + 1) ?_ hy
      ext ⟨u, v⟩
      rw [mem_filter, hmem, sq_mk, mem_sq, mem_singleton, Prod.mk.injEq]
      omega
    · refine one (x - 1, y + 1) ?_ hy
      ext ⟨u, v⟩
      rw [mem_filter, hmem, sq_mk, mem_sq, mem_singleton, Prod.mk.injEq]
      omega

/-! ## The bound -/

theorem count_face (E : Finset Pt) (l : List Pt) (hl : l.Nodup) : (E.filter (· ∈ l)).card = l.countP fun p => decide (p ∈ E) := by
  have h : E.filter (· ∈ l) = (l.filter fun p => decide (p ∈ E)).toFinset := by
    ext p
    simp only [mem_filter, List.mem_toFinset, List.mem_filter, decide_eq_true_eq]
    exact and_comm
  rw [h, List.toFinset_card_of_nodup (hl.filter _), List.countP_eq_length_filter]

/-- The pairs of qubits of the bottom row. -/
def Pair (j : ℕ) (p : Pt) : Prop := p = (6 * (j : ℤ) + 2, 1) ∨ p = (6 * (j : ℤ) + 6, 1)

instance (j) : DecidablePred (Pair j) := fun _ => by unfold Pair; infer_instance

/-- An error of odd weight off the corner hits exactly one qubit of some pair. -/
theorem odd_pair (t : ℕ) (E : Finset Pt) (hE : Undetected (t + 1) E) (hodd : E.card % 2 = 1) (hz : ((0, 1) : Pt) ∉ E) :
    ∃ j ≤ t, (E.filter (Pair j)).card % 2 = 1 := by
  by_contra hc
  push Not at hc
  have h : (E.filter fun p => p.2 = 1).card % 2 = 0 := by
    refine cover_parity E (Finset.range (t + 1)) Pair _ (fun j hj => ?_) ?_
    · have := hc j (by rw [mem_range] at hj; omega)
      omega
    · rintro ⟨x, y⟩ hp
      have h := low_rows _ _ _ (hE.data _ hp)
      by_cases hy : y = 1
      · subst hy
        have hx0 : x ≠ 0 := fun h0 => hz (by rwa [h0] at hp)
        have : (Finset.range (t + 1)).filter (fun j => Pair j (x, 1)) = {((x - 1) / 6).toNat} := by
          ext j
          simp only [mem_filter, mem_range, Pair, Prod.mk.injEq, mem_singleton, and_true]
          omega
        rw [this]
        simp
      · have : (Finset.range (t + 1)).filter (fun j => Pair j (x, y)) = ∅ := by
          refine Finset.filter_eq_empty_iff.2 fun j _ => ?_
          simp [Pair, hy]
        rw [this]
        simp [hy]
  have h2 := bottom_parity _ E hE
  have h3 := Finset.card_filter_add_card_filter_not (s := E) (fun p => p.2 = 1)
  omega

/-- Three pairs with one qubit each. -/
theorem pigeon (a a' b b' c c' : Prop) [Decidable a] [Decidable a'] [Decidable b] [Decidable b'] [Decidable c] [Decidable c']
    (h1 : ((if c then 1 else 0) + (if c' then 1 else 0)) % 2 = 1)
    (h2 : ((if c then 1 else 0) + (if c' then 1 else 0) + (if b then 1 else 0) + (if b' then 1 else 0)) % 2 = 0)
    (h3 : ((if b then 1 else 0) + (if b' then 1 else 0) + (if a then 1 else 0) + (if a' then 1 else 0)) % 2 = 0) :
    (a ∧ b) ∨ (a ∧ c) ∨ (b ∧ c) ∨ (a' ∧ b') ∨ (a' ∧ c') ∨ (b' ∧ c') := by
  by_cases ha : a <;> by_cases ha' : a' <;> by_cases hb : b <;> by_cases hb' : b' <;> by_cases hc : c <;> by_cases hc' : c' <;>
    simp_all

theorem collision (t : ℕ) (E : Finset Pt) (hE : Undetected (t + 1) E) (j : ℕ) (hj : j ≤ t) (h : (E.filter (Pair j)).card % 2 = 1) :
    ∃ p ∈ E, ∃ q ∈ E, p ≠ q ∧ contract t p = contract t q := by
  have hdat := hE.data
  have no : ∀ x y : ℤ, ¬ SO (t + 1) (x, y) .data → (x, y) ∉ E := fun x y hn hm => hn (hdat _ hm)
  have h1 : (E.filter (Pair j)).card = (E.filter (· ∈ [((6 * (j : ℤ) + 2, 1) : Pt), (6 * (j : ℤ) + 6, 1)])).card := by
    congr 1
    ext p
    simp [Pair]
  rw [h1, count_face _ _ (by simp)] at h
  have h2 := hE.octagon (6 * (j : ℤ) + 4, 0) ((oc_mk _ _ _).2 (by omega))
  rw [count_face _ _ (by simp [octagonNbrs]; omega)] at h2
  have h3 := hE.square (6 * (j : ℤ) + 4, 3) ((sq_mk _ _ _).2 (by omega))
  rw [count_face _ _ (by simp [squareNbrs]; omega)] at h3
  simp only [octagonNbrs, squareNbrs, List.countP_cons, List.countP_nil, decide_eq_true_eq,
    if_neg (no (6 * (j : ℤ) + 4 - 2) (0 - 1) (by rw [dat_mk]; omega)),
    if_neg (no (6 * (j : ℤ) + 4 - 1) (0 - 2) (by rw [dat_mk]; omega)),
    if_neg (no (6 * (j : ℤ) + 4 + 1) (0 - 2) (by rw [dat_mk]; omega)),
    if_neg (no (6 * (j : ℤ) + 4 + 2) (0 - 1) (by rw [dat_mk]; omega))] at h h2 h3
  have e1 : 6 * (j : ℤ) + 4 - 2 = 6 * j + 2 := by ring
  have e2 : 6 * (j : ℤ) + 4 - 1 = 6 * j + 3 := by ring
  have e3 : 6 * (j : ℤ) + 4 + 1 = 6 * j + 5 := by ring
  have e4 : 6 * (j : ℤ) + 4 + 2 = 6 * j + 6 := by ring
  simp only [e1, e2, e3, e4, zero_add, add_zero, Int.reduceSub, Int.reduceAdd] at h h2 h3
  have key := pigeon ((6 * (j : ℤ) + 3, 4) ∈ E) ((6 * (j : ℤ) + 5, 4) ∈ E) ((6 * (j : ℤ) + 3, 2) ∈ E) ((6 * (j : ℤ) + 5, 2) ∈ E)
    ((6 * (j : ℤ) + 2, 1) ∈ E) ((6 * (j : ℤ) + 6, 1) ∈ E) (by omega) (by omega) (by omega)
  have ca : contract t (6 * (j : ℤ) + 3, 4) = (6 * (t : ℤ) + 2 - 6 * j, 1) := by
    simp only [contract, le_refl, if_true, Prod.mk.injEq, Int.reduceSub, and_true]; omega
  have ca' : contract t (6 * (j : ℤ) + 5, 4) = (6 * (t : ℤ) - 6 * j, 1) := by
    simp only [contract, le_refl, if_true, Prod.mk.injEq, Int.reduceSub, and_true]; omega
  have cb : contract t (6 * (j : ℤ) + 3, 2) = (6 * (t : ℤ) + 2 - 6 * j, 1) := by
    simp only [contract, Int.reduceLE, if_false, if_true, Prod.mk.injEq, Int.reduceSub, and_true]; omega
  have cb' : contract t (6 * (j : ℤ) + 5, 2) = (6 * (t : ℤ) - 6 * j, 1) := by
    simp only [contract, Int.reduceLE, if_false, if_true, Prod.mk.injEq, Int.reduceSub, and_true]; omega
  have cc : contract t (6 * (j : ℤ) + 2, 1) = (6 * (t : ℤ) + 2 - 6 * j, 1) := by
    simp only [contract, Int.reduceLE, Int.reduceEq, if_false, if_neg (show ¬ (6 * (j : ℤ) + 2) % 6 = 0 by omega), Prod.mk.injEq, Int.reduceSub, and_true]; omega
  have cc' : contract t (6 * (j : ℤ) + 6, 1) = (6 * (t : ℤ) - 6 * j, 1) := by
    simp only [contract, Int.reduceLE, Int.reduceEq, if_false, if_pos (show (6 * (j : ℤ) + 6) % 6 = 0 by omega), Prod.mk.injEq, Int.reduceSub, and_true]; omega
  rcases key with ⟨k1, k2⟩ | ⟨k1, k2⟩ | ⟨k1, k2⟩ | ⟨k1, k2⟩ | ⟨k1, k2⟩ | ⟨k1, k2⟩
  · exact ⟨_, k1, _, k2, by simp, by rw [ca, cb]⟩
  · exact ⟨_, k1, _, k2, by simp, by rw [ca, cc]⟩
  · exact ⟨_, k1, _, k2, by simp, by rw [cb, cc]⟩
  · exact ⟨_, k1, _, k2, by simp, by rw [ca', cb']⟩
  · exact ⟨_, k1, _, k2, by simp, by rw [ca', cc']⟩
  · exact ⟨_, k1, _, k2, by simp, by rw [cb', cc']⟩

/-- An undetected error of odd weight has at least `2t + 1` qubits. -/
theorem weight_bound (t : ℕ) : ∀ E : Finset Pt, Undetected t E → E.card % 2 = 1 → 2 * t + 1 ≤ E.card := by
  induction t with
  | zero => intro E _ h; omega
  | succ t ih =>
    intro E hE hodd
    have hs := shrink_undetected t E hE
    have hdp := drop_parity t E hE
    have hsplit := Finset.card_filter_add_card_filter_not (s := E) Drop
    have hpar : (shrink t E).card % 2 = 1 := by
      rw [shrink, push_parity']; omega
    have hb := ih _ hs hpar
    by_cases hempty : (E.filter Drop).card = 0
    · have hd : ∀ p ∈ E, ¬ Drop p := fun p hp h => by
        rw [Finset.card_eq_zero] at hempty
        have : p ∈ E.filter Drop := mem_filter.2 ⟨hp, h⟩
        rw [hempty] at this
        simp at this
      obtain ⟨j, hj, h⟩ := odd_pair t E hE hodd fun h => hd _ h ((drop_mk _ _).2 (.inl ⟨rfl, rfl⟩))
      obtain ⟨p, hp, q, hq, hne, hpq⟩ := collision t E hE j hj h
      have := push_card_two (contract t) (E.filter fun p => ¬ Drop p) p q (mem_filter.2 ⟨hp, hd p hp⟩)
        (mem_filter.2 ⟨hq, hd q hq⟩) hne hpq
      rw [shrink] at hb
      omega
    · have := push_card (contract t) (E.filter fun p => ¬ Drop p)
      rw [shrink] at hb
      omega

end Verif.SODist
