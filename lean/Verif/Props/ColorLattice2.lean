import Verif.Props.ColorLattice

/-!
# C16: square-octagon colour codes
-/

namespace Verif.Lattice
open Verif CSS

/-! ## Closed form -/

/-- Closed form of the square-octagon lattice of distance `2t + 1`. -/
def SO (t : ℕ) (p : Pt) : Kind → Prop
  | .data => (p.2 % 3 = 1 ∧ ((p.1 - p.2) % 6 = 5 ∨ (p.1 - p.2) % 6 = 1) ∧ 1 ≤ p.2 ∧ p.2 ≤ p.1 + 1 ∧ p.1 + p.2 ≤ 6 * t + 3 ∧
        (p.2 = 1 → p.1 ≤ 6 * t)) ∨
      (p.2 % 3 = 2 ∧ ((p.1 - p.2) % 6 = 1 ∨ (p.1 - p.2) % 6 = 3) ∧ 2 ≤ p.2 ∧ p.2 + 1 ≤ p.1 ∧ p.1 + p.2 ≤ 6 * t + 1)
  | .square => p.2 % 3 = 0 ∧ (p.1 - p.2) % 6 = 1 ∧ 3 ≤ p.2 ∧ p.2 + 1 ≤ p.1 ∧ p.1 + p.2 ≤ 6 * t + 1
  | .octagon => p.2 % 3 = 0 ∧ (p.1 - p.2) % 6 = 4 ∧
      ((p.2 % 2 = 1 ∧ 3 ≤ p.2 ∧ p.2 ≤ p.1 + 2 ∧ p.1 + p.2 ≤ 6 * t - 2) ∨
        (p.2 % 2 = 0 ∧ 6 ≤ p.2 ∧ p.2 + 4 ≤ p.1 ∧ p.1 + p.2 ≤ 6 * t + 4) ∨
        (p.2 = 0 ∧ 4 ≤ p.1 ∧ p.1 < 6 * t))

theorem mem_soDataRow (X : ℕ) (x0 y : ℤ) (p : Pt) (k : Kind) : (p, k) ∈ soDataRow X x0 y ↔
    k = .data ∧ p.2 = y ∧ x0 ≤ p.1 ∧ ((p.1 - x0) % 6 = 0 ∨ (p.1 - x0) % 6 = 2) ∧
      2 * ((p.1 - x0) / 6) + (p.1 - x0) % 6 / 2 < X := by
  obtain ⟨x, z⟩ := p
  simp only [soDataRow, List.mem_map, List.mem_range, Prod.mk.injEq]
  constructor
  · rintro ⟨n, hn, ⟨h1, h2⟩, h3⟩
    refine ⟨h3.symm, h2.symm, ?_, ?_, ?_⟩ <;> omega
  · rintro ⟨rfl, rfl, h1, h2, h3⟩
    refine ⟨(2 * ((x - x0) / 6) + (x - x0) % 6 / 2).toNat, ?_, ⟨?_, rfl⟩, rfl⟩ <;> omega

theorem mem_soAncillaRow (X : ℕ) (x0 y : ℤ) (a b : Kind) (p : Pt) (k : Kind) :
    (p, k) ∈ soAncillaRow X x0 y a b ↔
    p.2 = y ∧ x0 ≤ p.1 ∧ p.1 < x0 + 3 * X ∧ (((p.1 - x0) % 6 = 0 ∧ k = a) ∨ ((p.1 - x0) % 6 = 3 ∧ k = b)) := by
  obtain ⟨x, z⟩ := p
  simp only [soAncillaRow, List.mem_map, List.mem_range, Prod.mk.injEq]
  constructor
  · rintro ⟨n, hn, ⟨h1, h2⟩, h3⟩
    refine ⟨h2.symm, by omega, by omega, ?_⟩
    by_cases he : n % 2 = 0
    · rw [if_pos he] at h3; exact .inl ⟨by omega, h3.symm⟩
    · rw [if_neg he] at h3; exact .inr ⟨by omega, h3.symm⟩
  · rintro ⟨rfl, h1, h2, h3⟩
    refine ⟨((x - x0) / 3).toNat, by omega, ⟨by omega, rfl⟩, ?_⟩
    rcases h3 with ⟨h3, rfl⟩ | ⟨h3, rfl⟩
    · rw [if_pos (by omega)]
    · rw [if_neg (by omega)]

theorem mem_soAncillas (X y : ℕ) (p : Pt) (k : Kind) : (p, k) ∈ soAncillas X y ↔
    p.2 = y ∧ ((k = .square ∧ (p.1 - p.2) % 6 = 1 ∧
          ((y % 2 = 0 ∧ p.2 + 1 ≤ p.1 ∧ p.1 < p.2 + 1 + 3 * X) ∨ (y % 2 = 1 ∧ p.2 - 2 ≤ p.1 ∧ p.1 < p.2 - 2 + 3 * X))) ∨
      (k = .octagon ∧ (p.1 - p.2) % 6 = 4 ∧
          ((y % 2 = 0 ∧ p.2 + 1 ≤ p.1 ∧ p.1 < p.2 + 1 + 3 * X) ∨ (y % 2 = 1 ∧ p.2 - 2 ≤ p.1 ∧ p.1 < p.2 - 2 + 3 * X)))) := by
  unfold soAncillas
  split
  · rw [mem_soAncillaRow]
    constructor
    · rintro ⟨h1, h2, h3, ⟨h4, rfl⟩ | ⟨h4, rfl⟩⟩
      · exact ⟨h1, .inl ⟨rfl, by omega, by omega⟩⟩
      · exact ⟨h1, .inr ⟨rfl, by omega, by omega⟩⟩
    · rintro ⟨h1, ⟨rfl, h2, h3⟩ | ⟨rfl, h2, h3⟩⟩
      · exact ⟨h1, by omega, by omega, .inl ⟨by omega, rfl⟩⟩
      · exact ⟨h1, by omega, by omega, .inr ⟨by omega, rfl⟩⟩
  · rw [mem_soAncillaRow]
    constructor
    · rintro ⟨h1, h2, h3, ⟨h4, rfl⟩ | ⟨h4, rfl⟩⟩
      · exact ⟨h1, .inr ⟨rfl, by omega, by omega⟩⟩
      · exact ⟨h1, .inl ⟨rfl, by omega, by omega⟩⟩
    · rintro ⟨h1, ⟨rfl, h2, h3⟩ | ⟨rfl, h2, h3⟩⟩
      · exact ⟨h1, by omega, by omega, .inr ⟨by omega, rfl⟩⟩
      · exact ⟨h1, by omega, by omega, .inl ⟨by omega, rfl⟩⟩

/-- Rows `3k + 1`, `3k + 2`, `3k + 3` of one iteration. -/
theorem so_rows (t k : ℕ) (X : ℕ) (hk : k ≤ t) (hX : X = if k = 0 then 2 * t + 1 else 2 * t + 2 - 2 * k) (p : Pt) (c : Kind) :
    ((p, c) ∈ soDataRow X (((3 * k + 1 : ℕ) : ℤ) - 1) ((3 * k + 1 : ℕ) : ℤ) ++
      (if 3 * k + 1 + 1 ≤ 3 * t + 1 then soDataRow (2 * t - 2 * k) (((3 * k + 1 : ℕ) : ℤ) + 1 + 1) ((3 * k + 1 + 1 : ℕ) : ℤ) else []) ++
      (if 3 * k + 1 + 2 ≤ 3 * t + 1 then soAncillas (2 * t - 2 * k) (3 * k + 1 + 2) else [])) ↔
    SO t p c ∧ 3 * k + 1 ≤ p.2 ∧ p.2 ≤ 3 * k + 3 := by
  rw [List.mem_append, List.mem_append, mem_soDataRow]
  obtain ⟨x, y⟩ := p
  simp only
  by_cases hkt : k < t
  · rw [if_pos (by omega), if_pos (by omega), mem_soDataRow, mem_soAncillas]
    simp only
    cases c
    · simp only [SO, true_and, reduceCtorEq, false_and, or_false, and_false]
      split at hX <;> omega
    · simp only [SO, true_and, reduceCtorEq, false_and, or_false, false_or]
      omega
    · simp only [SO, true_and, reduceCtorEq, false_and, false_or]
      omega
  · have : k = t := by omega
    subst this
    rw [if_neg (by omega), if_neg (by omega)]
    simp only [List.not_mem_nil, or_false]
    cases c
    · simp only [SO, true_and]
      split at hX <;> omega
    · simp only [SO, reduceCtorEq, false_and, false_iff]
      omega
    · simp only [SO, reduceCtorEq, false_and, false_iff]
      omega

theorem mem_soLoop (t u : ℕ) : ∀ (k fuel : ℕ), k + u = t → u < fuel → ∀ (p : Pt) (c : Kind),
    (p, c) ∈ soLoop (3 * t + 1) fuel (3 * k + 1) (if k = 0 then 2 * t + 1 else 2 * t + 2 - 2 * k) ↔
      SO t p c ∧ 3 * k + 1 ≤ p.2 := by
  induction u with
  | zero =>
    intro k fuel hk hf p c
    obtain ⟨fuel, rfl⟩ : ∃ f, fuel = f + 1 := ⟨fuel - 1, by omega⟩
    rw [soLoop, if_pos (by omega)]
    have hxm : (if 3 * k + 1 = 1 then (if k = 0 then 2 * t + 1 else 2 * t + 2 - 2 * k) - 1
        else (if k = 0 then 2 * t + 1 else 2 * t + 2 - 2 * k) - 2) = 2 * t - 2 * k := by
      split_ifs <;> omega
    simp only [hxm]
    have hnil : soLoop (3 * t + 1) fuel (3 * k + 1 + 3) (2 * t - 2 * k) = [] := by
      cases fuel with
      | zero => rfl
      | succ f => rw [soLoop, if_neg (by omega)]
    rw [hnil, List.append_nil, so_rows t k _ (by omega) rfl]
    obtain ⟨x, y⟩ := p
    simp only
    constructor
    · rintro ⟨h1, h2, h3⟩; exact ⟨h1, h2⟩
    · rintro ⟨h1, h2⟩
      refine ⟨h1, h2, ?_⟩
      cases c <;> simp only [SO] at h1 <;> omega
  | succ u ih =>
    intro k fuel hk hf p c
    obtain ⟨fuel, rfl⟩ : ∃ f, fuel = f + 1 := ⟨fuel - 1, by omega⟩
    rw [soLoop, if_pos (by omega)]
    have hxm : (if 3 * k + 1 = 1 then (if k = 0 then 2 * t + 1 else 2 * t + 2 - 2 * k) - 1
        else (if k = 0 then 2 * t + 1 else 2 * t + 2 - 2 * k) - 2) = 2 * t - 2 * k := by
      split_ifs <;> omega
    simp only [hxm]
    have hnext := ih (k + 1) fuel (by omega) (by omega) p c
    rw [if_neg (by omega), show 3 * (k + 1) + 1 = 3 * k + 1 + 3 from by ring,
      show 2 * t + 2 - 2 * (k + 1) = 2 * t - 2 * k from by omega] at hnext
    rw [List.mem_append, so_rows t k _ (by omega) rfl, hnext]
    push_cast
    obtain ⟨x, y⟩ := p
    simp only
    constructor
    · rintro (⟨h1, h2, h3⟩ | ⟨h1, h2⟩)
      · exact ⟨h1, h2⟩
      · exact ⟨h1, by omega⟩
    · rintro ⟨h1, h2⟩
      by_cases h : y ≤ 3 * k + 3
      · exact .inl ⟨h1, h2, h⟩
      · exact .inr ⟨h1, by omega⟩

theorem mem_soSites (t : ℕ) (p : Pt) (c : Kind) : (p, c) ∈ soSites (2 * t + 1) ↔ SO t p c := by
  have e : 2 * t + 1 + (2 * t + 1) / 2 = 3 * t + 1 := by omega
  rw [soSites, e, List.mem_append]
  have := mem_soLoop t t 0 (3 * t + 1) (by omega) (by omega) p c
  rw [if_pos rfl] at this
  rw [show (3 * 0 + 1) = 1 from rfl] at this
  rw [this]
  obtain ⟨x, y⟩ := p
  simp only [soBottom, List.mem_map, List.mem_range, Prod.mk.injEq]
  constructor
  · rintro (⟨k, hk, ⟨h1, h2⟩, rfl⟩ | ⟨h, _⟩)
    · simp only [SO]; omega
    · exact h
  · intro h
    by_cases hy : y = 0
    · left
      cases c
      · simp only [SO] at h; omega
      · simp only [SO] at h; omega
      · simp only [SO] at h
        exact ⟨((x - 4) / 6).toNat, by omega, ⟨by omega, hy.symm⟩, rfl⟩
    · right
      refine ⟨h, ?_⟩
      cases c <;> simp only [SO] at h <;> push_cast <;> omega

theorem mem_soOf (t : ℕ) (c : Kind) (p : Pt) : p ∈ soOf c (2 * t + 1) ↔ SO t p c := by
  simp only [soOf, List.mem_map, List.mem_filter, decide_eq_true_eq]
  constructor
  · rintro ⟨⟨q, k⟩, ⟨h1, h2⟩, rfl⟩
    simp only at h2
    subst h2
    exact (mem_soSites t _ _).1 h1
  · intro h
    exact ⟨(p, c), ⟨(mem_soSites t _ _).2 h, rfl⟩, rfl⟩

/-! ## Sizes -/

theorem soDataRow_nodup (X : ℕ) (x0 y : ℤ) : (soDataRow X x0 y).Nodup :=
  List.nodup_range.map fun i j h => by simp only [Prod.mk.injEq] at h; omega

theorem soAncillaRow_nodup (X : ℕ) (x0 y : ℤ) (a b : Kind) : (soAncillaRow X x0 y a b).Nodup :=
  List.nodup_range.map fun i j h => by simp only [Prod.mk.injEq] at h; omega

theorem soAncillas_nodup (X y : ℕ) : (soAncillas X y).Nodup := by
  unfold soAncillas
  split <;> exact soAncillaRow_nodup _ _ _ _ _

theorem soRows_nodup (m y X X' : ℕ) : (soDataRow X ((y : ℤ) - 1) y ++
      (if y + 1 ≤ m then soDataRow X' ((y : ℤ) + 1 + 1) (y + 1 : ℕ) else []) ++
      (if y + 2 ≤ m then soAncillas X' (y + 2) else [])).Nodup ∧
    ∀ p ∈ (soDataRow X ((y : ℤ) - 1) y ++
      (if y + 1 ≤ m then soDataRow X' ((y : ℤ) + 1 + 1) (y + 1 : ℕ) else []) ++
      (if y + 2 ≤ m then soAncillas X' (y + 2) else [])), (y : ℤ) ≤ p.1.2 ∧ p.1.2 ≤ y + 2 := by
  have h1 : ∀ p ∈ soDataRow X ((y : ℤ) - 1) y, p.1.2 = y := fun p hp => ((mem_soDataRow _ _ _ p.1 p.2).1 hp).2.1
  have h2 : ∀ p ∈ (if y + 1 ≤ m then soDataRow X' ((y : ℤ) + 1 + 1) (y + 1 : ℕ) else []), p.1.2 = y + 1 := fun p hp => by
    split at hp
    · have := ((mem_soDataRow _ _ _ p.1 p.2).1 hp).2.1
      push_cast at this; exact this
    · simp at hp
  have h3 : ∀ p ∈ (if y + 2 ≤ m then soAncillas X' (y + 2) else []), p.1.2 = y + 2 := fun p hp => by
    split at hp
    · have := ((mem_soAncillas _ _ p.1 p.2).1 hp).1
      push_cast at this; exact this
    · simp at hp
  refine ⟨?_, ?_⟩
  · rw [List.nodup_append', List.nodup_append']
    refine ⟨⟨soDataRow_nodup _ _ _, ?_, ?_⟩, ?_, ?_⟩
    · split
      · exact soDataRow_nodup _ _ _
      · exact List.nodup_nil
    · intro p hp hq
      have := h1 p hp; have := h2 p hq; omega
    · split
      · exact soAncillas_nodup _ _
      · exact List.nodup_nil
    · intro p hp hq
      rcases List.mem_append.1 hp with hp | hp
      · have := h1 p hp; have := h3 p hq; omega
      · have := h2 p hp; have := h3 p hq; omega
  · intro p hp
    rcases List.mem_append.1 hp with hp | hp
    · rcases List.mem_append.1 hp with hp | hp
      · have := h1 p hp; omega
      · have := h2 p hp; omega
    · have := h3 p hp; omega

theorem soLoop_nodup (m fuel : ℕ) : ∀ y X : ℕ, (soLoop m fuel y X).Nodup ∧ ∀ p ∈ soLoop m fuel y X, (y : ℤ) ≤ p.1.2 := by
  induction fuel with
  | zero => intro y X; simp [soLoop]
  | succ fuel ih =>
    intro y X
    rw [soLoop]
    split
    · obtain ⟨h1, h2⟩ := soRows_nodup m y X (if y = 1 then X - 1 else X - 2)
      obtain ⟨h3, h4⟩ := ih (y + 3) (if y = 1 then X - 1 else X - 2)
      refine ⟨List.nodup_append'.2 ⟨h1, h3, fun p hp hq => ?_⟩, fun p hp => ?_⟩
      · have := (h2 p hp).2; have := h4 p hq
        push_cast at this; omega
      · rcases List.mem_append.1 hp with hp | hp
        · exact (h2 p hp).1
        · have := h4 p hp
          push_cast at this; omega
    · exact ⟨List.nodup_nil, fun p hp => by simp at hp⟩

theorem soSites_nodup (d : ℕ) : (soSites d).Nodup := by
  obtain ⟨h1, h2⟩ := soLoop_nodup (d + d / 2) (d + d / 2) 1 d
  refine List.nodup_append'.2 ⟨List.nodup_range.map fun i j h => ?_, h1, fun p hp hq => ?_⟩
  · simp only [Prod.mk.injEq] at h; omega
  · have := h2 p hq
    simp only [soBottom, List.mem_map] at hp
    obtain ⟨k, _, rfl⟩ := hp
    simp at this

theorem soOf_nodup (c : Kind) (d : ℕ) : (soOf c d).Nodup := by
  refine List.Nodup.map_on ?_ ((soSites_nodup d).filter _)
  rintro ⟨p, a⟩ hp ⟨q, b⟩ hq h
  simp only [List.mem_filter, decide_eq_true_eq] at hp hq h
  rw [hp.2, hq.2, h]

theorem row_count (X : ℕ) (x0 y : ℤ) : (soDataRow X x0 y).countP (fun q => decide (q.2 = .data)) = X := by
  rw [soDataRow, List.countP_map, List.countP_eq_length.2 (fun a _ => by simp), List.length_range]

theorem anc_count (X y : ℕ) : (soAncillas X y).countP (fun q => decide (q.2 = .data)) = 0 ∧ (soAncillas X y).length = X := by
  refine ⟨?_, ?_⟩
  · rw [List.countP_eq_zero]
    rintro ⟨p, c⟩ h
    rw [mem_soAncillas] at h
    rcases h with ⟨_, ⟨rfl, _⟩ | ⟨rfl, _⟩⟩ <;> simp
  · unfold soAncillas
    split <;> simp [soAncillaRow]

theorem soLoop_sizes (t u : ℕ) : ∀ k fuel : ℕ, k + u = t → 1 ≤ k → u < fuel →
    (soLoop (3 * t + 1) fuel (3 * k + 1) (2 * u + 2)).countP (fun q => decide (q.2 = .data)) = 2 * (u + 1) ^ 2 ∧
    (soLoop (3 * t + 1) fuel (3 * k + 1) (2 * u + 2)).length = 2 * (u + 1) ^ 2 + u * (u + 1) := by
  induction u with
  | zero =>
    intro k fuel hk h1 hf
    obtain ⟨fuel, rfl⟩ : ∃ f, fuel = f + 1 := ⟨fuel - 1, by omega⟩
    have hnil : ∀ X, soLoop (3 * t + 1) fuel (3 * k + 1 + 3) X = [] := fun X => by
      cases fuel with
      | zero => rfl
      | succ f => rw [soLoop, if_neg (by omega)]
    rw [soLoop, if_pos (by omega)]
    simp only [hnil, List.append_nil, if_neg (by omega : ¬ 3 * k + 1 + 1 ≤ 3 * t + 1), if_neg (by omega : ¬ 3 * k + 1 + 2 ≤ 3 * t + 1)]
    exact ⟨row_count _ _ _, by simp [soDataRow]⟩
  | succ u ih =>
    intro k fuel hk h1 hf
    obtain ⟨fuel, rfl⟩ : ∃ f, fuel = f + 1 := ⟨fuel - 1, by omega⟩
    obtain ⟨i1, i2⟩ := ih (k + 1) fuel (by omega) (by omega) (by omega)
    rw [show 3 * (k + 1) + 1 = 3 * k + 1 + 3 from by ring] at i1 i2
    rw [soLoop, if_pos (by omega)]
    have hx : (if 3 * k + 1 = 1 then 2 * (u + 1) + 2 - 1 else 2 * (u + 1) + 2 - 2) = 2 * u + 2 := by
      rw [if_neg (by omega)]; omega
    simp only [if_pos (by omega : 3 * k + 1 + 1 ≤ 3 * t + 1), if_pos (by omega : 3 * k + 1 + 2 ≤ 3 * t + 1), hx, List.countP_append, List.length_append, row_count, (anc_count _ _).1, (anc_count _ _).2, i1, i2]
    refine ⟨by ring, ?_⟩
    simp only [soDataRow, List.length_map, List.length_range]
    ring

theorem so_sizes (t : ℕ) (ht : 1 ≤ t) : (soOf .data (2 * t + 1)).length = 2 * t ^ 2 + 4 * t + 1 ∧
    (soOf .square (2 * t + 1)).length + (soOf .octagon (2 * t + 1)).length = t ^ 2 + 2 * t := by
  obtain ⟨u, rfl⟩ : ∃ u, t = u + 1 := ⟨t - 1, by omega⟩
  have e : 2 * (u + 1) + 1 + (2 * (u + 1) + 1) / 2 = 3 * (u + 1) + 1 := by omega
  obtain ⟨i1, i2⟩ := soLoop_sizes (u + 1) u 1 (3 * (u + 1)) (by omega) (by omega) (by omega)
  have hloop : (soSites (2 * (u + 1) + 1)).countP (fun q => decide (q.2 = .data)) = 2 * (u + 1) ^ 2 + 4 * (u + 1) + 1 ∧
      (soSites (2 * (u + 1) + 1)).length = 3 * (u + 1) ^ 2 + 6 * (u + 1) + 1 := by
    rw [soSites, e, show 3 * (u + 1) + 1 = 3 * (u + 1) + 1 from rfl]
    have hb : (soBottom (2 * (u + 1) + 1)).countP (fun q => decide (q.2 = .data)) = 0 ∧ (soBottom (2 * (u + 1) + 1)).length = u + 1 := by
      refine ⟨?_, ?_⟩
      · rw [List.countP_eq_zero]
        rintro ⟨p, c⟩ h
        simp only [soBottom, List.mem_map, Prod.mk.injEq] at h
        obtain ⟨k, _, _, rfl⟩ := h
        simp
      · simp only [soBottom, List.length_map, List.length_range]; omega
    rw [List.countP_append, List.length_append, hb.1, hb.2]
    have hl : soLoop (3 * (u + 1) + 1) (3 * (u + 1) + 1) 1 (2 * (u + 1) + 1) =
        soDataRow (2 * (u + 1) + 1) (((1 : ℕ) : ℤ) - 1) ((1 : ℕ) : ℤ) ++ soDataRow (2 * u + 2) (((1 : ℕ) : ℤ) + 1 + 1) ((1 + 1 : ℕ) : ℤ) ++
        soAncillas (2 * u + 2) (1 + 2) ++ soLoop (3 * (u + 1) + 1) (3 * (u + 1)) (3 * 1 + 1) (2 * u + 2) := by
      rw [soLoop, if_pos (by omega)]
      simp only [if_pos (by omega : 1 + 1 ≤ 3 * (u + 1) + 1), if_pos (by omega : 1 + 2 ≤ 3 * (u + 1) + 1)]
      rfl
    rw [hl]
    simp only [List.countP_append, List.length_append, row_count, (anc_count _ _).1, (anc_count _ _).2, i1, i2]
    refine ⟨by ring, ?_⟩
    simp only [soDataRow, List.length_map, List.length_range]
    ring
  have hc : ∀ c, (soOf c (2 * (u + 1) + 1)).length = (soSites (2 * (u + 1) + 1)).countP (fun q => decide (q.2 = c)) := fun c => by
    rw [soOf, List.length_map, ← List.countP_eq_length_filter]
  have hsum : ∀ l : List (Pt × Kind), l.countP (fun q => decide (q.2 = .data)) + l.countP (fun q => decide (q.2 = .square)) +
      l.countP (fun q => decide (q.2 = .octagon)) = l.length := by
    intro l
    induction l with
    | nil => rfl
    | cons q l ih =>
      obtain ⟨p, c⟩ := q
      cases c <;> simp [List.countP_cons] <;> omega
  have := hsum (soSites (2 * (u + 1) + 1))
  rw [hc, hc, hc]
  refine ⟨hloop.1, ?_⟩
  rw [hloop.1, hloop.2] at this
  nlinarith

/-! ## Overlaps -/

def sqOffs : List Pt := [(-1, -1), (1, -1), (1, 1), (-1, 1)]
def ocOffs : List Pt := [(-2, -1), (-1, -2), (1, -2), (2, -1), (2, 1), (1, 2), (-1, 2), (-2, 1)]

theorem squareNbrs_eq (a : Pt) : squareNbrs a = shift a sqOffs := by
  obtain ⟨x, y⟩ := a
  simp [squareNbrs, shift, sqOffs, Prod.mk_add_mk, sub_eq_add_neg]

theorem octagonNbrs_eq (a : Pt) : octagonNbrs a = shift a ocOffs := by
  obtain ⟨x, y⟩ := a
  simp [octagonNbrs, shift, ocOffs, Prod.mk_add_mk, sub_eq_add_neg]

/-- Displacements at which two faces of the given offsets can meet. -/
theorem meet_delta (o1 o2 : List Pt) (m : ℕ) (p q : ℤ)
    (h1 : ∀ o ∈ o1, ∀ o' ∈ o2, -(m : ℤ) ≤ o.1 - o'.1 ∧ o.1 - o'.1 ≤ m ∧ -(m : ℤ) ≤ o.2 - o'.2 ∧ o.2 - o'.2 ≤ m) :
    (o1.filter fun o => decide (o - (p, q) ∈ o2)) = [] ∨ (-(m : ℤ) ≤ p ∧ p ≤ m ∧ -(m : ℤ) ≤ q ∧ q ≤ m) := by
  by_cases h : (o1.filter fun o => decide (o - (p, q) ∈ o2)) = []
  · exact .inl h
  · right
    rw [List.filter_eq_nil_iff] at h
    push Not at h
    obtain ⟨o, ho, h⟩ := h
    have := h1 o ho _ (of_decide_eq_true h)
    have e1 : (o - (p, q)).1 = o.1 - p := rfl
    have e2 : (o - (p, q)).2 = o.2 - q := rfl
    rw [e1, e2] at this
    omega

theorem two_of_mod {n : ℕ} (hn : n % 2 = 0) : ((n : ℕ) : ZMod 2) = 0 :=
  (ZMod.natCast_eq_zero_iff _ _).2 (Nat.dvd_of_mod_eq_zero hn)

instance (t p) : DecidablePred (SO t p) := fun c => by cases c <;> unfold SO <;> infer_instance

theorem so_sq_sq (t : ℕ) (data : List Pt) (hd : IsOrder data (soOf .data (2 * t + 1))) (a b : Pt)
    (ha : SO t a .square) (hb : SO t b .square) : dot (row data (squareNbrs a)) (row data (squareNbrs b)) = 0 := by
  rw [squareNbrs_eq, squareNbrs_eq, dot_shift data hd.1 a b _ _ (by decide)]
  have hmem : ∀ p, (p ∈ data) = SO t p .data := fun p => by rw [hd.2, mem_soOf]
  simp only [hmem]
  obtain ⟨u, v⟩ := a
  obtain ⟨⟨x, y⟩, hab⟩ : ∃ δ, b - (u, v) = δ := ⟨_, rfl⟩
  have hb' : b = (u, v) + (x, y) := by rw [← hab]; abel
  rw [hab]
  subst hb'
  clear hab
  simp only [SO, Prod.mk_add_mk] at ha hb
  rcases meet_delta sqOffs sqOffs 2 x y (by decide) with h | h
  · rw [h]; rfl
  · apply two_of_mod
    push_cast at h
    have hδ : (x = 0 ∧ y = 0) := by omega
    obtain ⟨rfl, rfl⟩ := hδ
    · rw [show (sqOffs.filter fun o => decide (o - ((0, 0) : Pt) ∈ sqOffs)) = [(-1, -1), (1, -1), (1, 1), (-1, 1)] from by decide]
      refine even_cons2 (fun o => SO t ((u, v) + o) .data) _ _ _ ?_ (even_cons2 (fun o => SO t ((u, v) + o) .data) _ _ _ ?_ rfl)
      all_goals
        simp only [SO, Prod.mk_add_mk]
        omega

theorem so_sq_oc (t : ℕ) (data : List Pt) (hd : IsOrder data (soOf .data (2 * t + 1))) (a b : Pt)
    (ha : SO t a .square) (hb : SO t b .octagon) : dot (row data (squareNbrs a)) (row data (octagonNbrs b)) = 0 := by
  rw [squareNbrs_eq, octagonNbrs_eq, dot_shift data hd.1 a b _ _ (by decide)]
  have hmem : ∀ p, (p ∈ data) = SO t p .data := fun p => by rw [hd.2, mem_soOf]
  simp only [hmem]
  obtain ⟨u, v⟩ := a
  obtain ⟨⟨x, y⟩, hab⟩ : ∃ δ, b - (u, v) = δ := ⟨_, rfl⟩
  have hb' : b = (u, v) + (x, y) := by rw [← hab]; abel
  rw [hab]
  subst hb'
  clear hab
  simp only [SO, Prod.mk_add_mk] at ha hb
  rcases meet_delta sqOffs ocOffs 3 x y (by decide) with h | h
  · rw [h]; rfl
  · apply two_of_mod
    push_cast at h
    have hδ : (x = 3 ∧ y = 0) ∨ (x = -3 ∧ y = 0) ∨ (x = 0 ∧ y = 3) ∨ (x = 0 ∧ y = -3) := by omega
    rcases hδ with ⟨rfl, rfl⟩ | ⟨rfl, rfl⟩ | ⟨rfl, rfl⟩ | ⟨rfl, rfl⟩
    · rw [show (sqOffs.filter fun o => decide (o - ((3, 0) : Pt) ∈ ocOffs)) = [(1, -1), (1, 1)] from by decide]
      refine even_cons2 (fun o => SO t ((u, v) + o) .data) _ _ _ ?_ rfl
      all_goals
        simp only [SO, Prod.mk_add_mk]
        omega
    · rw [show (sqOffs.filter fun o => decide (o - ((-3, 0) : Pt) ∈ ocOffs)) = [(-1, -1), (-1, 1)] from by decide]
      refine even_cons2 (fun o => SO t ((u, v) + o) .data) _ _ _ ?_ rfl
      all_goals
        simp only [SO, Prod.mk_add_mk]
        omega
    · rw [show (sqOffs.filter fun o => decide (o - ((0, 3) : Pt) ∈ ocOffs)) = [(1, 1), (-1, 1)] from by decide]
      refine even_cons2 (fun o => SO t ((u, v) + o) .data) _ _ _ ?_ rfl
      all_goals
        simp only [SO, Prod.mk_add_mk]
        omega
    · rw [show (sqOffs.filter fun o => decide (o - ((0, -3) : Pt) ∈ ocOffs)) = [(-1, -1), (1, -1)] from by decide]
      refine even_cons2 (fun o => SO t ((u, v) + o) .data) _ _ _ ?_ rfl
      all_goals
        simp only [SO, Prod.mk_add_mk]
        omega

set_option maxHeartbeats 4000000 in
theorem so_oc_oc (t : ℕ) (data : List Pt) (hd : IsOrder data (soOf .data (2 * t + 1))) (a b : Pt)
    (ha : SO t a .octagon) (hb : SO t b .octagon) : dot (row data (octagonNbrs a)) (row data (octagonNbrs b)) = 0 := by
  rw [octagonNbrs_eq, octagonNbrs_eq, dot_shift data hd.1 a b _ _ (by decide)]
  have hmem : ∀ p, (p ∈ data) = SO t p .data := fun p => by rw [hd.2, mem_soOf]
  simp only [hmem]
  obtain ⟨u, v⟩ := a
  obtain ⟨⟨x, y⟩, hab⟩ : ∃ δ, b - (u, v) = δ := ⟨_, rfl⟩
  have hb' : b = (u, v) + (x, y) := by rw [← hab]; abel
  rw [hab]
  subst hb'
  clear hab
  simp only [SO, Prod.mk_add_mk] at ha hb
  rcases meet_delta ocOffs ocOffs 4 x y (by decide) with h | h
  · rw [h]; rfl
  · apply two_of_mod
    push_cast at h
    have hδ : (x = 0 ∧ y = 0) ∨ (x = 3 ∧ y = 3) ∨ (x = 3 ∧ y = -3) ∨ (x = -3 ∧ y = 3) ∨ (x = -3 ∧ y = -3) := by omega
    rcases hδ with ⟨rfl, rfl⟩ | ⟨rfl, rfl⟩ | ⟨rfl, rfl⟩ | ⟨rfl, rfl⟩ | ⟨rfl, rfl⟩
    · rw [show (ocOffs.filter fun o => decide (o - ((0, 0) : Pt) ∈ ocOffs)) = [(-2, -1), (-1, -2), (1, -2), (2, -1), (2, 1), (1, 2), (-1, 2), (-2, 1)] from by decide]
      by_cases hv : v = 0
      · refine even_cons2 (fun o => SO t ((u, v) + o) .data) _ _ _ ?_ (even_cons2 (fun o => SO t ((u, v) + o) .data) _ _ _ ?_ (even_cons2 (fun o => SO t ((u, v) + o) .data) _ _ _ ?_ (even_cons2 (fun o => SO t ((u, v) + o) .data) _ _ _ ?_ rfl)))
        all_goals
          simp only [SO, Prod.mk_add_mk]
          omega
      · rw [((by decide : List.Perm [(-2, -1), (-1, -2), (1, -2), (2, -1), (2, 1), (1, 2), (-1, 2), (-2, 1)]
          [((-2, 1) : Pt), (-2, -1), (-1, -2), (1, -2), (2, -1), (2, 1), (1, 2), (-1, 2)])).countP_eq]
        refine even_cons2 (fun o => SO t ((u, v) + o) .data) _ _ _ ?_ (even_cons2 (fun o => SO t ((u, v) + o) .data) _ _ _ ?_ (even_cons2 (fun o => SO t ((u, v) + o) .data) _ _ _ ?_ (even_cons2 (fun o => SO t ((u, v) + o) .data) _ _ _ ?_ rfl)))
        all_goals
          simp only [SO, Prod.mk_add_mk]
          omega
    · rw [show (ocOffs.filter fun o => decide (o - ((3, 3) : Pt) ∈ ocOffs)) = [(2, 1), (1, 2)] from by decide]
      refine even_cons2 (fun o => SO t ((u, v) + o) .data) _ _ _ ?_ rfl
      all_goals
        simp only [SO, Prod.mk_add_mk]
        omega
    · rw [show (ocOffs.filter fun o => decide (o - ((3, -3) : Pt) ∈ ocOffs)) = [(1, -2), (2, -1)] from by decide]
      refine even_cons2 (fun o => SO t ((u, v) + o) .data) _ _ _ ?_ rfl
      all_goals
        simp only [SO, Prod.mk_add_mk]
        omega
    · rw [show (ocOffs.filter fun o => decide (o - ((-3, 3) : Pt) ∈ ocOffs)) = [(-1, 2), (-2, 1)] from by decide]
      refine even_cons2 (fun o => SO t ((u, v) + o) .data) _ _ _ ?_ rfl
      all_goals
        simp only [SO, Prod.mk_add_mk]
        omega
    · rw [show (ocOffs.filter fun o => decide (o - ((-3, -3) : Pt) ∈ ocOffs)) = [(-2, -1), (-1, -2)] from by decide]
      refine even_cons2 (fun o => SO t ((u, v) + o) .data) _ _ _ ?_ rfl
      all_goals
        simp only [SO, Prod.mk_add_mk]
        omega

/-! ## Rank -/

/-- Faces with their coordinates: squares (`false`) and octagons (`true`). -/
def faceOf (f : Bool × Pt) : List Pt := if f.1 then octagonNbrs f.2 else squareNbrs f.2

theorem soFaces_eq (sq oc : List Pt) :
    soFaces sq oc = (sq.map (Prod.mk false) ++ oc.map (Prod.mk true)).map faceOf := by
  simp only [soFaces, List.map_append, List.map_map]
  rfl

def InSO (t : ℕ) (f : Bool × Pt) : Prop := SO t f.2 (if f.1 then .octagon else .square)

theorem so_pivot (t : ℕ) (f : Bool × Pt) (hf : InSO t f) :
    ∃ q : Pt, q ∈ faceOf f ∧ SO t q .data ∧
      ∀ g, InSO t g → q ∈ faceOf g → g = f ∨ 2 * g.2.1 + g.2.2 < 2 * f.2.1 + f.2.2 := by
  obtain ⟨b, x, y⟩ := f
  cases b
  · simp only [InSO, SO, Bool.false_eq_true, if_false] at hf
    refine ⟨(x - 1, y - 1), by simp [faceOf, squareNbrs], by simp only [SO]; omega, ?_⟩
    rintro ⟨c, u, v⟩ hg h
    cases c
    · simp only [InSO, SO, Bool.false_eq_true, if_false] at hg
      simp only [faceOf, squareNbrs, Bool.false_eq_true, if_false, List.mem_cons, Prod.mk.injEq, List.not_mem_nil, or_false, true_and] at h ⊢
      omega
    · simp only [InSO, SO, if_true] at hg
      simp only [faceOf, octagonNbrs, if_true, List.mem_cons, Prod.mk.injEq, List.not_mem_nil, or_false] at h
      right
      simp only
      omega
  · simp only [InSO, SO, if_true] at hf
    by_cases hy : y = 0
    · refine ⟨(x - 2, y + 1), by simp [faceOf, octagonNbrs], by simp only [SO]; omega, ?_⟩
      rintro ⟨c, u, v⟩ hg h
      cases c
      · simp only [InSO, SO, Bool.false_eq_true, if_false] at hg
        simp only [faceOf, squareNbrs, Bool.false_eq_true, if_false, List.mem_cons, Prod.mk.injEq, List.not_mem_nil, or_false, true_and] at h ⊢
        omega
      · simp only [InSO, SO, if_true] at hg
        simp only [faceOf, octagonNbrs, if_true, List.mem_cons, Prod.mk.injEq, List.not_mem_nil, or_false, true_and] at h ⊢
        omega
    · refine ⟨(x - 1, y - 2), by simp [faceOf, octagonNbrs], by simp only [SO]; omega, ?_⟩
      rintro ⟨c, u, v⟩ hg h
      cases c
      · simp only [InSO, SO, Bool.false_eq_true, if_false] at hg
        simp only [faceOf, squareNbrs, Bool.false_eq_true, if_false, List.mem_cons, Prod.mk.injEq, List.not_mem_nil, or_false, true_and] at h ⊢
        omega
      · simp only [InSO, SO, if_true] at hg
        simp only [faceOf, octagonNbrs, if_true, List.mem_cons, Prod.mk.injEq, List.not_mem_nil, or_false, true_and] at h ⊢
        omega

/-- C16: for every odd distance `d ≥ 3` and every iteration order of the sets of qubits, the
square-octagon lattice has `(d² + 2d - 1)/2` data qubits, any two faces share an even number of them,
and the constructor accepts the code, which encodes one qubit. -/
theorem C16_square_octagon (lib : Mod2) (d : ℕ) (hodd : d % 2 = 1) (h3 : 3 ≤ d) (data sq oc : List Pt)
    (hdata : IsOrder data (soOf .data d)) (hsq : IsOrder sq (soOf .square d)) (hoc : IsOrder oc (soOf .octagon d)) :
    2 * data.length + 1 = d ^ 2 + 2 * d ∧ 2 * (sq.length + oc.length) + 1 = data.length ∧ sq.Disjoint oc ∧
    (∀ f ∈ soFaces sq oc, ∀ g ∈ soFaces sq oc, Even (data.filter fun q => decide (q ∈ f ∧ q ∈ g)).length) ∧
    ∃ c : Code, colorCode lib d data (soFaces sq oc) = .ok c ∧ c.n = data.length ∧ c.stab.k = 1 ∧ c.distance = d := by
  obtain ⟨t, rfl⟩ : ∃ t, d = 2 * t + 1 := ⟨d / 2, by omega⟩
  obtain ⟨s1, s2⟩ := so_sizes t (by omega)
  rw [← hdata.length_eq (soOf_nodup _ _)] at s1
  rw [← hsq.length_eq (soOf_nodup _ _), ← hoc.length_eq (soOf_nodup _ _)] at s2
  have hk : 2 * (sq.length + oc.length) + 1 = data.length := by rw [s1, s2]; ring
  have hin : ∀ f ∈ sq.map (Prod.mk false) ++ oc.map (Prod.mk true), InSO t f := by
    intro f hf
    rcases List.mem_append.1 hf with hf | hf
    · obtain ⟨a, ha, rfl⟩ := List.mem_map.1 hf
      exact (mem_soOf t _ a).1 ((hsq.2 a).1 ha)
    · obtain ⟨a, ha, rfl⟩ := List.mem_map.1 hf
      exact (mem_soOf t _ a).1 ((hoc.2 a).1 ha)
  have horth : ∀ f, InSO t f → ∀ g, InSO t g → dot (row data (faceOf f)) (row data (faceOf g)) = 0 := by
    rintro ⟨b, f⟩ hf ⟨c, g⟩ hg
    cases b <;> cases c <;> simp only [InSO, Bool.false_eq_true, if_false, if_true] at hf hg <;>
      simp only [faceOf, Bool.false_eq_true, if_false, if_true]
    · exact so_sq_sq t data hdata f g hf hg
    · exact so_sq_oc t data hdata f g hf hg
    · rw [dot_comm]; exact so_sq_oc t data hdata g f hg hf
    · exact so_oc_oc t data hdata f g hf hg
  have horth' : ∀ f ∈ soFaces sq oc, ∀ g ∈ soFaces sq oc, dot (row data f) (row data g) = 0 := by
    rw [soFaces_eq]
    exact List.forall_mem_map.2 fun f hf => List.forall_mem_map.2 fun g hg => horth f (hin f hf) g (hin g hg)
  refine ⟨by rw [s1]; ring, hk, ?_, ?_, ?_⟩
  · intro p hp hq
    have h1 := (mem_soOf t _ p).1 ((hsq.2 p).1 hp)
    have h2 := (mem_soOf t _ p).1 ((hoc.2 p).1 hq)
    simp only [SO] at h1 h2
    omega
  · intro f hf g hg
    apply even_of_cast
    rw [← dot_rows_data data hdata.1]
    exact horth' f hf g hg
  · have hne : soFaces sq oc ≠ [] := by
      intro h
      have h := congrArg List.length h
      simp only [soFaces, List.length_append, List.length_map, List.length_nil] at h
      rw [s2] at h
      nlinarith
    obtain ⟨c, h1, h2, h3, h4⟩ := colorCode_ok lib (2 * t + 1) (by omega) data _ hne horth'
    refine ⟨c, h1, h2, ?_, h3⟩
    have hrank : Module.finrank (ZMod 2) (rowSpan (checkMatrix data (soFaces sq oc))) = sq.length + oc.length := by
      rw [checkMatrix_eq, soFaces_eq, List.map_map]
      have hnd : (sq.map (Prod.mk false) ++ oc.map (Prod.mk true)).Nodup := by
        refine List.nodup_append'.2 ⟨hsq.1.map fun a b h => by simpa using h, hoc.1.map fun a b h => by simpa using h, ?_⟩
        intro f hf hg
        obtain ⟨a, _, rfl⟩ := List.mem_map.1 hf
        obtain ⟨b, _, h⟩ := List.mem_map.1 hg
        simp at h
      rw [rank_of_pivots (sq.map (Prod.mk false) ++ oc.map (Prod.mk true)) hnd (row data ∘ faceOf)
        (fun f => 2 * f.2.1 + f.2.2)]
      · simp
      · intro f hf
        obtain ⟨q, p1, p2, p3⟩ := so_pivot t f (hin f hf)
        obtain ⟨j, hj⟩ := row_at data hdata.1 q ((hdata.2 q).2 ((mem_soOf t _ q).2 p2))
        refine ⟨j, by rw [Function.comp, hj, if_pos p1], fun g hg hne => ?_⟩
        rw [Function.comp, hj] at hne
        by_cases hq : q ∈ faceOf g
        · exact p3 g (hin g hg) hq
        · rw [if_neg hq] at hne; exact absurd rfl hne
    rw [h4, hrank]
    have : (data.length : ℤ) = 2 * ((sq.length : ℤ) + oc.length) + 1 := by exact_mod_cast hk.symm
    push_cast
    omega

example : (soOf .data 5).length = 17 ∧ (soOf .square 5).length = 3 ∧ (soOf .octagon 5).length = 5 ∧
    IsOrder (soOf .octagon 5).reverse (soOf .octagon 5) :=
  ⟨by decide, by decide, by decide, (List.nodup_reverse).2 (soOf_nodup _ 5), fun _ => List.mem_reverse⟩

/- An even distance is rejected here: two faces overlap in an odd number of qubits. -/
set_option maxRecDepth 20000 in
example (lib : Mod2) : colorCode lib 4 (soOf .data 4) (soFaces (soOf .square 4) (soOf .octagon 4))
    = .error (.invalidCSS "The check matrices must be orthogonal") := by
  have h : ∃ r ∈ checkMatrix (soOf .data 4) (soFaces (soOf .square 4) (soOf .octagon 4)),
      ∃ s ∈ checkMatrix (soOf .data 4) (soFaces (soOf .square 4) (soOf .octagon 4)), dot r s ≠ 0 := by
    decide +kernel
  obtain ⟨r, hr, s, hs, h⟩ := h
  have c : Code := ⟨0, [], [], ⟨0, [], 0, 0, none, none⟩, 0, 0, 0, [], []⟩
  exact (C08_rejects lib 4 none none c).2.2.1 _ _ _ r s hr hs h

end Verif.Lattice
