import Verif.Model.ColorLattice
import Verif.LinalgLemmas
import Mathlib.Tactic.Ring
import Mathlib.LinearAlgebra.Dimension.Finrank
import Mathlib.LinearAlgebra.FiniteDimensional.Basic

/-! # Lemmas on coordinate lattices -/

namespace Verif.Lattice
open Verif

theorem idxOf?_iff (data : List Pt) (hn : data.Nodup) (c : Pt) (j : ℕ) :
    data.idxOf? c = some j ↔ data[j]? = some c := by
  rw [List.idxOf?, List.findIdx?_eq_some_iff_getElem]
  constructor
  · rintro ⟨h, h1, _⟩
    rw [List.getElem?_eq_getElem h]
    simpa using h1
  · intro h
    obtain ⟨hj, h⟩ := List.getElem?_eq_some_iff.1 h
    refine ⟨hj, by simpa using h, fun k hk => ?_⟩
    have : data[k] ≠ data[j] := fun he => by
      have := (List.Nodup.getElem_inj_iff hn).1 he
      omega
    rw [h] at this
    simpa using this

theorem mem_faceQubits (data : List Pt) (hn : data.Nodup) (f : List Pt) (j : Fin data.length) :
    j.val ∈ faceQubits data f ↔ data[j] ∈ f := by
  simp only [faceQubits, List.mem_filterMap, idxOf?_iff data hn]
  constructor
  · rintro ⟨c, hc, h⟩
    rw [List.getElem?_eq_getElem j.2] at h
    cases h
    exact hc
  · intro h
    exact ⟨_, h, List.getElem?_eq_getElem j.2⟩

/-- The row of one face. -/
def row (data : List Pt) (f : List Pt) : Vec data.length := fun j => if j.val ∈ faceQubits data f then 1 else 0

theorem checkMatrix_eq (data : List Pt) (faces : List (List Pt)) :
    checkMatrix data faces = faces.map (row data) := by
  simp only [checkMatrix, facesToQubits, List.map_map]
  rfl

theorem row_apply (data : List Pt) (hn : data.Nodup) (f : List Pt) (j : Fin data.length) :
    row data f j = if data[j] ∈ f then 1 else 0 := by
  have := mem_faceQubits data hn f j
  by_cases h : data[j] ∈ f
  · simp only [row, if_pos (this.2 h), if_pos h]
  · simp only [row, if_neg (fun h' => h (this.1 h')), if_neg h]

/-- Overlap of two faces counted over the coordinates of the first. -/
theorem dot_rows (data : List Pt) (hn : data.Nodup) (f g : List Pt) (hf : f.Nodup) :
    dot (row data f) (row data g) = ((f.countP fun c => decide (c ∈ g ∧ c ∈ data) : ℕ) : ZMod 2) := by
  have h1 : dot (row data f) (row data g) = ∑ j : Fin data.length, (if data[j] ∈ f ∧ data[j] ∈ g then (1 : ZMod 2) else 0) := by
    unfold dot
    refine Finset.sum_congr rfl fun j _ => ?_
    rw [row_apply data hn, row_apply data hn]
    generalize data[j] = c
    by_cases h : c ∈ f <;> by_cases h' : c ∈ g <;> simp [h, h']
  rw [h1, Finset.sum_ite, Finset.sum_const_zero, add_zero, Finset.sum_const, nsmul_eq_mul, mul_one]
  congr 1
  have h2 : (f.countP fun c => decide (c ∈ g ∧ c ∈ data)) = (f.toFinset.filter fun c => c ∈ g ∧ c ∈ data).card := by
    rw [List.countP_eq_length_filter, ← List.toFinset_card_of_nodup (hf.filter _), List.toFinset_filter]
    congr 1
    ext c; simp
  rw [h2]
  refine Finset.card_bij (fun j _ => data[j]) ?_ ?_ ?_
  · intro j hj
    simp only [Finset.mem_filter, Finset.mem_univ, true_and] at hj
    simp only [Finset.mem_filter, List.mem_toFinset]
    exact ⟨hj.1, hj.2, List.getElem_mem _⟩
  · intro i _ j _ h
    exact Fin.ext ((List.Nodup.getElem_inj_iff hn).1 h)
  · intro c hc
    simp only [Finset.mem_filter, List.mem_toFinset] at hc
    obtain ⟨k, hk, hkc⟩ := List.mem_iff_getElem.1 hc.2.2
    refine ⟨⟨k, hk⟩, ?_, hkc⟩
    simp only [Finset.mem_filter, Finset.mem_univ, true_and]
    refine ⟨?_, ?_⟩
    · show data[k] ∈ f; rw [hkc]; exact hc.1
    · show data[k] ∈ g; rw [hkc]; exact hc.2.1

/-- Overlap of two faces counted over the data qubits. -/
theorem dot_rows_data (data : List Pt) (hn : data.Nodup) (f g : List Pt) :
    dot (row data f) (row data g) = (((data.filter fun q => decide (q ∈ f ∧ q ∈ g)).length : ℕ) : ZMod 2) := by
  have h1 : dot (row data f) (row data g) = ∑ j : Fin data.length, (fun c : Pt => if c ∈ f ∧ c ∈ g then (1 : ZMod 2) else 0) data[j] := by
    unfold dot
    refine Finset.sum_congr rfl fun j _ => ?_
    rw [row_apply data hn, row_apply data hn]
    generalize data[j] = c
    by_cases h : c ∈ f <;> by_cases h' : c ∈ g <;> simp [h, h']
  rw [h1]
  refine (Fin.sum_univ_fun_getElem data (fun c : Pt => if c ∈ f ∧ c ∈ g then (1 : ZMod 2) else 0)).trans ?_
  clear h1 hn
  induction data with
  | nil => simp
  | cons c data ih =>
    rw [List.map_cons, List.sum_cons, ih, List.filter_cons]
    by_cases h : c ∈ f ∧ c ∈ g
    · rw [if_pos h, if_pos (by simpa using h), List.length_cons]; push_cast; ring
    · rw [if_neg h, if_neg (by simpa using h), zero_add]

theorem even_of_cast {n : ℕ} (h : ((n : ℕ) : ZMod 2) = 0) : Even n :=
  even_iff_two_dvd.2 ((ZMod.natCast_eq_zero_iff n 2).1 h)

/-- A face of a duplicate-free enumeration contains a given data coordinate. -/
theorem row_at (data : List Pt) (hn : data.Nodup) (c : Pt) (hc : c ∈ data) :
    ∃ j : Fin data.length, ∀ f : List Pt, row data f j = if c ∈ f then 1 else 0 := by
  obtain ⟨k, hk, hkc⟩ := List.mem_iff_getElem.1 hc
  refine ⟨⟨k, hk⟩, fun f => ?_⟩
  have hc : data[(⟨k, hk⟩ : Fin data.length)] = c := hkc
  have := row_apply data hn f ⟨k, hk⟩
  rw [hc] at this
  exact this

/-- Faces given by offsets. -/
def shift (a : Pt) (offs : List Pt) : List Pt := offs.map (a + ·)

theorem mem_shift (a c : Pt) (offs : List Pt) : c ∈ shift a offs ↔ c - a ∈ offs := by
  simp only [shift, List.mem_map]
  constructor
  · rintro ⟨o, ho, rfl⟩; simpa using ho
  · intro h; exact ⟨_, h, by abel⟩

theorem shift_nodup (a : Pt) (offs : List Pt) (h : offs.Nodup) : (shift a offs).Nodup :=
  h.map fun x y hxy => by simpa using hxy

/-- Overlap of two faces, in terms of offsets. -/
theorem dot_shift (data : List Pt) (hn : data.Nodup) (a b : Pt) (o1 o2 : List Pt) (h1 : o1.Nodup) :
    dot (row data (shift a o1)) (row data (shift b o2))
      = (((o1.filter fun o => decide (o - (b - a) ∈ o2)).countP fun o => decide (a + o ∈ data) : ℕ) : ZMod 2) := by
  rw [dot_rows data hn _ _ (shift_nodup a o1 h1)]
  congr 1
  rw [List.countP_filter, show shift a o1 = o1.map (a + ·) from rfl, List.countP_map]
  refine List.countP_congr fun o _ => ?_
  have : a + o - b = o - (b - a) := by abel
  simp only [Function.comp, decide_eq_true_eq, Bool.and_eq_true, mem_shift, this]
  exact and_comm

/-- Rows with pivots that only smaller faces share are independent: the rank is the number of faces. -/
theorem rank_of_pivots {n : ℕ} {ι : Type} [DecidableEq ι] (faces : List ι) (hn : faces.Nodup) (r : ι → Vec n)
    (s : ι → ℤ)
    (h : ∀ a ∈ faces, ∃ j : Fin n, r a j = 1 ∧ ∀ b ∈ faces, r b j ≠ 0 → b = a ∨ s b < s a) :
    Module.finrank (ZMod 2) (rowSpan (faces.map r)) = faces.length := by
  let v : {a // a ∈ faces} → Vec n := fun a => r a.1
  have hli : LinearIndependent (ZMod 2) v := by
    rw [linearIndependent_iff']
    intro S g hg
    by_contra hne
    push Not at hne
    obtain ⟨i0, hi0, hgi0⟩ := hne
    obtain ⟨a, ha, hmin⟩ := Finset.exists_min_image (S.filter fun i => g i ≠ 0) (fun i => s i.1)
      ⟨i0, Finset.mem_filter.2 ⟨hi0, hgi0⟩⟩
    rw [Finset.mem_filter] at ha
    obtain ⟨j, h1, h2⟩ := h a.1 a.2
    have := congrFun hg j
    rw [Finset.sum_apply, Finset.sum_eq_single a] at this
    · simp only [Pi.smul_apply, smul_eq_mul, v, h1, mul_one] at this
      exact ha.2 this
    · intro b hb hba
      by_cases hgb : g b = 0
      · simp [hgb]
      · have hm := hmin b (Finset.mem_filter.2 ⟨hb, hgb⟩)
        by_cases hr : r b.1 j = 0
        · simp [v, hr]
        · rcases h2 b.1 b.2 hr with h | h
          · exact absurd (Subtype.ext h) hba
          · exact absurd hm (not_le.2 h)
    · intro h; exact absurd ha.1 h
  have hcard : Fintype.card {a // a ∈ faces} = faces.length := by
    rw [Fintype.card_of_subtype faces.toFinset (by simp), List.toFinset_card_of_nodup hn]
  have hset : {x | x ∈ faces.map r} = Set.range v := by
    ext x
    simp only [Set.mem_ofPred_eq, List.mem_map, Set.mem_range, v, Subtype.exists, exists_prop]
  unfold rowSpan
  rw [hset, finrank_span_eq_card hli, hcard]

/-- Neighbours come in pairs. -/
theorem even_cons2 (P : Pt → Prop) [DecidablePred P] (o1 o2 : Pt) (l : List Pt) (h : P o1 ↔ P o2)
    (hl : l.countP (fun o => decide (P o)) % 2 = 0) : (o1 :: o2 :: l).countP (fun o => decide (P o)) % 2 = 0 := by
  by_cases h1 : P o1
  · have h2 := h.1 h1
    simp [List.countP_cons, h1, h2]; omega
  · have h2 : ¬ P o2 := fun h' => h1 (h.2 h')
    simp [List.countP_cons, h1, h2]; omega

theorem even_count_nil (p : Pt → Bool) : (([] : List Pt).countP p : ZMod 2) = 0 := by simp

theorem IsOrder.length_eq {o l : List Pt} (h : IsOrder o l) (hl : l.Nodup) : o.length = l.length := by
  rw [← List.toFinset_card_of_nodup h.1, ← List.toFinset_card_of_nodup hl]
  congr 1
  ext p; simp [h.2]

end Verif.Lattice
