import Verif.Lemmas.HexDistance
import Verif.Lemmas.FaceWeight

/-!
# C130: hexagonal colour codes have the distance they declare

For every odd distance, no bound on the size of the code.
-/

namespace Verif.ColorDist
open Verif Verif.Lattice Verif.CSS HexDist FaceWeight Finset

/-- The errors on the bottom row of data qubits. -/
def bottomRow (t : ℕ) : Finset Pt := (hexData (2 * t + 1)).toFinset.filter fun p => p.2 = 0

theorem mem_hexData' (t : ℕ) (p : Pt) : p ∈ hexData (2 * t + 1) ↔ Dat t p := by
  rw [mem_hexData, show 2 * t + 1 + (2 * t + 1) / 2 = 3 * t + 1 by omega]
  rfl

theorem mem_hexAncilla' (t : ℕ) (p : Pt) : p ∈ hexAncilla (2 * t + 1) ↔ Anc t p := by
  rw [mem_hexAncilla, show 2 * t + 1 + (2 * t + 1) / 2 = 3 * t + 1 by omega]
  rfl

theorem mem_bottomRow (t : ℕ) (x y : ℤ) : (x, y) ∈ bottomRow t ↔ y = 0 ∧ 0 ≤ x ∧ x ≤ 6 * t ∧ (x % 6 = 0 ∨ x % 6 = 4) := by
  rw [bottomRow, mem_filter, List.mem_toFinset, mem_hexData', dat_mk]
  omega

theorem bottomRow_card (t : ℕ) : (bottomRow t).card = 2 * t + 1 := by
  have h : bottomRow t = (Finset.range (2 * t + 1)).image fun k : ℕ => ((((if k % 2 = 0 then 3 * k else 3 * k + 1 : ℕ) : ℤ), 0) : Pt) := by
    ext ⟨x, y⟩
    rw [mem_bottomRow]
    simp only [mem_image, mem_range, Prod.mk.injEq]
    constructor
    · rintro ⟨h1, h2, h3, h4⟩
      rcases h4 with h4 | h4
      · exact ⟨(x / 3).toNat, by omega, by rw [if_pos (by omega)]; omega, h1.symm⟩
      · exact ⟨(x / 3).toNat, by omega, by rw [if_neg (by omega)]; omega, h1.symm⟩
    · rintro ⟨k, h1, h2, h3⟩
      split_ifs at h2 <;> omega
  rw [h, Finset.card_image_of_injective, Finset.card_range]
  intro a b hab
  simp only [Prod.mk.injEq, and_true] at hab
  split_ifs at hab <;> omega

theorem bottomRow_even (t : ℕ) (a : Pt) (ha : Anc t a) : ((bottomRow t).filter (· ∈ hexNbrs a)).card % 2 = 0 := by
  obtain ⟨u, v⟩ := a
  rw [anc_mk] at ha
  have hv : v = 0 ∨ v = 1 ∨ 2 ≤ v := by omega
  rcases hv with rfl | rfl | hv
  · have : (bottomRow t).filter (· ∈ hexNbrs (u, 0)) = {(u - 2, 0), (u + 2, 0)} := by
      ext ⟨x, y⟩
      simp only [mem_filter, mem_bottomRow, mem_hexNbrs, mem_insert, mem_singleton, Prod.mk.injEq]
      omega
    rw [this, Finset.card_pair (by simp; omega)]
  · have : (bottomRow t).filter (· ∈ hexNbrs (u, 1)) = {(u - 1, 0), (u + 1, 0)} := by
      ext ⟨x, y⟩
      simp only [mem_filter, mem_bottomRow, mem_hexNbrs, mem_insert, mem_singleton, Prod.mk.injEq]
      omega
    rw [this, Finset.card_pair (by simp; omega)]
  · have : (bottomRow t).filter (· ∈ hexNbrs (u, v)) = ∅ := by
      refine Finset.filter_eq_empty_iff.2 ?_
      rintro ⟨x, y⟩ h1 h2
      rw [mem_bottomRow] at h1
      rw [mem_hexNbrs] at h2
      omega
    rw [this]
    rfl

theorem hex_minWeight (lib : Mod2) (d : ℕ) (hodd : d % 2 = 1) (h3 : 3 ≤ d) (data anc : List Pt)
    (hdata : IsOrder data (hexData d)) (hanc : IsOrder anc (hexAncilla d)) :
    Named.IsMinWeight (checkMatrix data (anc.map hexNbrs)) (checkMatrix data (anc.map hexNbrs)) d := by
  obtain ⟨-, hk, -⟩ := C15_hexagonal lib d hodd h3 data anc hdata hanc
  have hself : ∀ f ∈ anc.map hexNbrs, ∀ g ∈ anc.map hexNbrs, dot (row data f) (row data g) = 0 :=
    List.forall_mem_map.2 fun a ha => List.forall_mem_map.2 fun b hb =>
      hex_overlap_even _ data hdata a b ((hanc.2 a).1 ha) ((hanc.2 b).1 hb)
  have hr : 2 * Module.finrank (ZMod 2) (rowSpan (checkMatrix data (anc.map hexNbrs))) + 1 = data.length := by
    rw [hex_rank _ data anc hdata hanc, hk]
  obtain ⟨t, rfl⟩ : ∃ t, d = 2 * t + 1 := ⟨d / 2, by omega⟩
  refine minWeight_of_faces data hdata.1 _ _ hself hr ?_ ⟨bottomRow t, ?_, ?_, ?_, bottomRow_card t⟩
  · intro E h1 h2 h3
    refine weight_bound t E ⟨fun p hp => (mem_hexData' t p).1 ((hdata.2 p).1 (h1 p hp)), fun a ha => ?_⟩ h3
    exact h2 _ (List.mem_map_of_mem ((hanc.2 a).2 ((mem_hexAncilla' t a).2 ha)))
  · intro p hp
    exact (hdata.2 p).2 (List.mem_toFinset.1 (mem_filter.1 hp).1)
  · exact List.forall_mem_map.2 fun a ha => bottomRow_even t a ((mem_hexAncilla' t a).1 ((hanc.2 a).1 ha))
  · rw [bottomRow_card]; omega

/-- C130: for every odd `d ≥ 3` and every iteration order of the sets of qubits, the hexagonal colour code of distance `d` is accepted, and `d`,
its declared distance, is the least weight of an error that no check detects and that is not a product of checks. -/
theorem C130_hexagonal_distance (lib : Mod2) (d : ℕ) (hodd : d % 2 = 1) (h3 : 3 ≤ d) (data anc : List Pt)
    (hdata : IsOrder data (hexData d)) (hanc : IsOrder anc (hexAncilla d)) :
    ∃ c : Code, colorCode lib d data (anc.map hexNbrs) = .ok c ∧ c.distance = d ∧
      Named.IsMinWeight c.hx c.hz d ∧ Named.IsMinWeight c.hz c.hx d := by
  obtain ⟨-, -, -, c, hc, -, -, hd⟩ := C15_hexagonal lib d hodd h3 data anc hdata hanc
  have hmin := hex_minWeight lib d hodd h3 data anc hdata hanc
  exact ⟨c, hc, hd, code_matrices lib d data _ c hc (fun _ X Z => Named.IsMinWeight X Z d) hmin,
    code_matrices lib d data _ c hc (fun _ X Z => Named.IsMinWeight Z X d) hmin⟩

example : 7 % 2 = 1 ∧ 3 ≤ 7 ∧ IsOrder (hexData 7).reverse (hexData 7) ∧ IsOrder (hexAncilla 7) (hexAncilla 7) ∧ (hexData 7).length = 37 :=
  ⟨rfl, by decide, ⟨(List.nodup_reverse).2 (hexData_nodup 7), fun _ => List.mem_reverse⟩, ⟨hexAncilla_nodup 7, fun _ => Iff.rfl⟩, by decide⟩

end Verif.ColorDist
