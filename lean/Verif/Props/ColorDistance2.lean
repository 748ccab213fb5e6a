import Verif.Lemmas.SODistance
import Verif.Lemmas.FaceWeight

/-!
# C131: square-octagon colour codes have the distance they declare

For every odd distance, no bound on the size of the code.
-/

namespace Verif.ColorDist2
open Verif Verif.Lattice Verif.CSS SODist FaceWeight Finset

/-- The errors on the bottom row of data qubits. -/
def bottomRow (t : ℕ) : Finset Pt := (soOf .data (2 * t + 1)).toFinset.filter fun p => p.2 = 1

theorem mem_bottomRow (t : ℕ) (x y : ℤ) : (x, y) ∈ bottomRow t ↔ y = 1 ∧ 0 ≤ x ∧ x ≤ 6 * t ∧ (x % 6 = 0 ∨ x % 6 = 2) := by
  rw [bottomRow, mem_filter, List.mem_toFinset, mem_soOf, dat_mk]
  omega

theorem bottomRow_card (t : ℕ) : (bottomRow t).card = 2 * t + 1 := by
  have h : bottomRow t = (Finset.range (2 * t + 1)).image fun k : ℕ => ((((if k % 2 = 0 then 3 * k else 3 * k - 1 : ℕ) : ℤ), 1) : Pt) := by
    ext ⟨x, y⟩
    rw [mem_bottomRow]
    simp only [mem_image, mem_range, Prod.mk.injEq]
    constructor
    · rintro ⟨h1, h2, h3, h4⟩
      rcases h4 with h4 | h4
      · exact ⟨(x / 3).toNat, by omega, by rw [if_pos (by omega)]; omega, h1.symm⟩
      · exact ⟨((x + 1) / 3).toNat, by omega, by rw [if_neg (by omega)]; omega, h1.symm⟩
    · rintro ⟨k, h1, h2, h3⟩
      split_ifs at h2 <;> omega
  rw [h, Finset.card_image_of_injective, Finset.card_range]
  intro a b hab
  simp only [Prod.mk.injEq, and_true] at hab
  split_ifs at hab <;> omega

theorem bottomRow_square (t : ℕ) (a : Pt) (ha : SO t a .square) : ((bottomRow t).filter (· ∈ squareNbrs a)).card % 2 = 0 := by
  obtain ⟨u, v⟩ := a
  rw [sq_mk] at ha
  have : (bottomRow t).filter (· ∈ squareNbrs (u, v)) = ∅ := by
    refine Finset.filter_eq_empty_iff.2 ?_
    rintro ⟨x, y⟩ h1 h2
    rw [mem_bottomRow] at h1
    rw [mem_sq] at h2
    omega
  rw [this]
  rfl

theorem bottomRow_octagon (t : ℕ) (a : Pt) (ha : SO t a .octagon) : ((bottomRow t).filter (· ∈ octagonNbrs a)).card % 2 = 0 := by
  obtain ⟨u, v⟩ := a
  rw [oc_mk] at ha
  have hv : v = 0 ∨ v = 3 ∨ 6 ≤ v := by omega
  rcases hv with rfl | rfl | hv
  · have : (bottomRow t).filter (· ∈ octagonNbrs (u, 0)) = {(u - 2, 1), (u + 2, 1)} := by
      ext ⟨x, y⟩
      simp only [mem_filter, mem_bottomRow, mem_oc, mem_insert, mem_singleton, Prod.mk.injEq]
      omega
    rw [this, Finset.card_pair (by simp; omega)]
  · have : (bottomRow t).filter (· ∈ octagonNbrs (u, 3)) = {(u - 1, 1), (u + 1, 1)} := by
      ext ⟨x, y⟩
      simp only [mem_filter, mem_bottomRow, mem_oc, mem_insert, mem_singleton, Prod.mk.injEq]
      omega
    rw [this, Finset.card_pair (by simp; omega)]
  · have : (bottomRow t).filter (· ∈ octagonNbrs (u, v)) = ∅ := by
      refine Finset.filter_eq_empty_iff.2 ?_
      rintro ⟨x, y⟩ h1 h2
      rw [mem_bottomRow] at h1
      rw [mem_oc] at h2
      omega
    rw [this]
    rfl

theorem so_minWeight (lib : Mod2) (d : ℕ) (hodd : d % 2 = 1) (h3 : 3 ≤ d) (data sq oc : List Pt)
    (hdata : IsOrder data (soOf .data d)) (hsq : IsOrder sq (soOf .square d)) (hoc : IsOrder oc (soOf .octagon d)) :
    Named.IsMinWeight (checkMatrix data (soFaces sq oc)) (checkMatrix data (soFaces sq oc)) d := by
  obtain ⟨-, -, -, hov, c, hc, hn, hk, hd⟩ := C16_square_octagon lib d hodd h3 data sq oc hdata hsq hoc
  have hself : ∀ f ∈ soFaces sq oc, ∀ g ∈ soFaces sq oc, dot (row data f) (row data g) = 0 := by
    intro f hf g hg
    rw [dot_rows_data data hdata.1, ZMod.natCast_eq_zero_iff]
    exact even_iff_two_dvd.1 (hov f hf g hg)
  have hr : 2 * Module.finrank (ZMod 2) (rowSpan (checkMatrix data (soFaces sq oc))) + 1 = data.length := by
    obtain ⟨-, -, -, -, -, -, -, h, -⟩ := C08_ctor_sound _ _ _ _ _ _ _ hc
    have := code_matrices lib d data _ c hc (fun n X Z => c.stab.k = (n : ℤ) - Module.finrank (ZMod 2) (rowSpan X)
      - Module.finrank (ZMod 2) (rowSpan Z) → c.stab.k = (data.length : ℤ)
        - 2 * (Module.finrank (ZMod 2) (rowSpan (checkMatrix data (soFaces sq oc))))) (fun h => by rw [h]; ring) h
    omega
  obtain ⟨t, rfl⟩ : ∃ t, d = 2 * t + 1 := ⟨d / 2, by omega⟩
  have hfaces : ∀ P : List Pt → Prop, (∀ f ∈ soFaces sq oc, P f) ↔
      (∀ a, SO t a .square → P (squareNbrs a)) ∧ (∀ a, SO t a .octagon → P (octagonNbrs a)) := by
    intro P
    simp only [soFaces, List.mem_append, List.mem_map]
    constructor
    · intro h
      exact ⟨fun a ha => h _ (.inl ⟨a, (hsq.2 a).2 ((mem_soOf t _ a).2 ha), rfl⟩),
        fun a ha => h _ (.inr ⟨a, (hoc.2 a).2 ((mem_soOf t _ a).2 ha), rfl⟩)⟩
    · rintro ⟨h1, h2⟩ f (⟨a, ha, rfl⟩ | ⟨a, ha, rfl⟩)
      · exact h1 a ((mem_soOf t _ a).1 ((hsq.2 a).1 ha))
      · exact h2 a ((mem_soOf t _ a).1 ((hoc.2 a).1 ha))
  refine minWeight_of_faces data hdata.1 _ _ hself hr ?_ ⟨bottomRow t, ?_, ?_, ?_, bottomRow_card t⟩
  · intro E h1 h2 h3
    obtain ⟨h4, h5⟩ := (hfaces fun f => (E.filter (· ∈ f)).card % 2 = 0).1 h2
    exact weight_bound t E ⟨fun p hp => (mem_soOf t _ p).1 ((hdata.2 p).1 (h1 p hp)), h4, h5⟩ h3
  · intro p hp
    exact (hdata.2 p).2 (List.mem_toFinset.1 (mem_filter.1 hp).1)
  · exact (hfaces fun f => ((bottomRow t).filter (· ∈ f)).card % 2 = 0).2 ⟨bottomRow_square t, bottomRow_octagon t⟩
  · rw [bottomRow_card]; omega

/-- C131: for every odd `d ≥ 3` and every iteration order of the sets of qubits, the square-octagon colour code of distance `d` is accepted, and `d`,
its declared distance, is the least weight of an error that no check detects and that is not a product of checks. -/
theorem C131_square_octagon_distance (lib : Mod2) (d : ℕ) (hodd : d % 2 = 1) (h3 : 3 ≤ d) (data sq oc : List Pt)
    (hdata : IsOrder data (soOf .data d)) (hsq : IsOrder sq (soOf .square d)) (hoc : IsOrder oc (soOf .octagon d)) :
    ∃ c : Code, colorCode lib d data (soFaces sq oc) = .ok c ∧ c.distance = d ∧
      Named.IsMinWeight c.hx c.hz d ∧ Named.IsMinWeight c.hz c.hx d := by
  obtain ⟨-, -, -, -, c, hc, -, -, hd⟩ := C16_square_octagon lib d hodd h3 data sq oc hdata hsq hoc
  have hmin := so_minWeight lib d hodd h3 data sq oc hdata hsq hoc
  exact ⟨c, hc, hd, code_matrices lib d data _ c hc (fun _ X Z => Named.IsMinWeight X Z d) hmin,
    code_matrices lib d data _ c hc (fun _ X Z => Named.IsMinWeight Z X d) hmin⟩

example : 7 % 2 = 1 ∧ 3 ≤ 7 ∧ IsOrder (soOf .data 7).reverse (soOf .data 7) ∧ IsOrder (soOf .square 7) (soOf .square 7) ∧
    IsOrder (soOf .octagon 7) (soOf .octagon 7) ∧ (soOf .data 7).length = 31 :=
  ⟨rfl, by decide, ⟨(List.nodup_reverse).2 (soOf_nodup _ 7), fun _ => List.mem_reverse⟩, ⟨soOf_nodup _ 7, fun _ => Iff.rfl⟩,
    ⟨soOf_nodup _ 7, fun _ => Iff.rfl⟩, by decide⟩

end Verif.ColorDist2
