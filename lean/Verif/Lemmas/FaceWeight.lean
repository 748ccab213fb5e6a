import Verif.Props.ColorLattice
import Verif.Props.NamedCodes
import Verif.Lemmas.Contraction

/-! # Distance of a colour code in terms of sets of coordinates -/

namespace Verif.FaceWeight
open Verif Verif.Lattice Verif.CSS Finset

/-- The coordinates of the qubits on which an error acts. -/
def supp (data : List Pt) (v : Vec data.length) : Finset Pt :=
  (univ.filter fun j => v j ≠ 0).image fun j : Fin data.length => data[j]

/-- The error on a set of coordinates. -/
def vecOf (data : List Pt) (E : Finset Pt) : Vec data.length := fun j => if data[j] ∈ E then 1 else 0

theorem get_inj (data : List Pt) (hn : data.Nodup) : Function.Injective fun j : Fin data.length => data[j] := fun i j h =>
  Fin.ext ((List.Nodup.getElem_inj_iff hn).1 h)

theorem supp_card (data : List Pt) (hn : data.Nodup) (v : Vec data.length) : (supp data v).card = wt v :=
  Finset.card_image_of_injective _ (get_inj data hn)

theorem supp_sub (data : List Pt) (v : Vec data.length) : ∀ p ∈ supp data v, p ∈ data := fun p hp => by
  simp only [supp, mem_image] at hp
  obtain ⟨j, -, rfl⟩ := hp
  exact List.getElem_mem _

theorem zmod2 (a : ZMod 2) : a = if a ≠ 0 then 1 else 0 := by revert a; decide

theorem dot_supp (data : List Pt) (hn : data.Nodup) (f : List Pt) (v : Vec data.length) :
    dot (row data f) v = (((supp data v).filter (· ∈ f)).card : ZMod 2) := by
  rw [supp, Finset.filter_image, Finset.card_image_of_injective _ (get_inj data hn), Finset.filter_filter,
    Finset.card_filter]
  push_cast
  refine Finset.sum_congr rfl fun j _ => ?_
  rw [row_apply data hn, zmod2 (v j)]
  by_cases h : data[j] ∈ f <;> by_cases h' : v j = 0 <;> simp [h, h'] <;> simpa using h

theorem dot_ones {n : ℕ} (v : Vec n) : dot (fun _ => 1) v = ((wt v : ℕ) : ZMod 2) := by
  rw [wt, Finset.card_filter]
  push_cast
  refine Finset.sum_congr rfl fun j _ => ?_
  rw [one_mul]
  exact zmod2 _

theorem even_cast (n : ℕ) : ((n : ℕ) : ZMod 2) = 0 ↔ n % 2 = 0 := by
  rw [ZMod.natCast_eq_zero_iff]; omega

theorem supp_vecOf (data : List Pt) (E : Finset Pt) (h : ∀ p ∈ E, p ∈ data) :
    supp data (vecOf data E) = E := by
  ext p
  simp only [supp, mem_image, mem_filter, mem_univ, true_and]
  constructor
  · rintro ⟨j, h1, rfl⟩
    by_contra hc
    exact h1 (if_neg hc)
  · intro hp
    obtain ⟨k, hk, rfl⟩ := List.mem_iff_getElem.1 (h p hp)
    refine ⟨⟨k, hk⟩, ?_, rfl⟩
    unfold vecOf
    have : data[(⟨k, hk⟩ : Fin data.length)] ∈ E := hp
    rw [if_pos this]
    decide

/-- In a self-dual code with one logical qubit, an odd number of qubits and even faces, an undetected error is a product of
faces exactly if its weight is even. -/
theorem trivial_iff (n : ℕ) (H : List (Vec n)) (hself : ∀ r ∈ H, ∀ s ∈ H, dot r s = 0)
    (hk : 2 * Module.finrank (ZMod 2) (rowSpan H) + 1 = n) (v : Vec n) (hv : ∀ r ∈ H, dot r v = 0) :
    v ∈ rowSpan H ↔ wt v % 2 = 0 := by
  have hrow1 : ∀ r ∈ H, dot (fun _ => 1) r = 0 := by
    intro r hr
    have := hself r hr r hr
    rw [← this]
    refine Finset.sum_congr rfl fun j _ => ?_
    rw [one_mul]
    exact (by decide : ∀ a : ZMod 2, a = a * a) _
  rw [← even_cast, ← dot_ones]
  constructor
  · intro h
    rw [dot_comm]
    exact dot_eq_zero_of_mem_rowSpan (fun r hr => by rw [dot_comm]; exact hrow1 r hr) h
  · intro h
    have hnot : (fun _ => 1 : Vec n) ∉ rowSpan H := by
      intro hm
      have := dot_eq_zero_of_mem_rowSpan (v := (fun _ => 1 : Vec n)) (fun r hr => by rw [dot_comm]; exact hrow1 r hr) hm
      rw [dot_ones, even_cast] at this
      have hw : wt (fun _ => 1 : Vec n) = n := by simp [wt]
      omega
    have hker : rowSpan ((fun _ => 1 : Vec n) :: H) = kerOf H := by
      refine Submodule.eq_of_le_of_finrank_eq (rowSpan_le_iff.2 ?_) ?_
      · intro s hs r hr
        rcases List.mem_cons.1 hs with rfl | hs
        · rw [dot_comm]; exact hrow1 r hr
        · exact hself r hr s hs
      · have h1 : inSpan H (fun _ => 1 : Vec n) = false := by
          rw [← Bool.not_eq_true, inSpan_iff]; exact hnot
        rw [← rank_eq_finrank] at hk
        rw [← rank_eq_finrank, rank, h1, finrank_kerOf, if_neg (by simp)]
        omega
    refine mem_rowSpan_of_orthogonal_kerOf fun w hw => ?_
    rw [← hker] at hw
    refine dot_eq_zero_of_mem_rowSpan (fun r hr => ?_) hw
    rcases List.mem_cons.1 hr with rfl | hr
    · exact h
    · exact hv r hr

/-- The distance of a colour code with one logical qubit, from a bound on odd sets of coordinates that meet all faces evenly. -/
theorem minWeight_of_faces (data : List Pt) (hn : data.Nodup) (faces : List (List Pt)) (d : ℕ)
    (hself : ∀ f ∈ faces, ∀ g ∈ faces, dot (row data f) (row data g) = 0)
    (hk : 2 * Module.finrank (ZMod 2) (rowSpan (checkMatrix data faces)) + 1 = data.length)
    (lower : ∀ E : Finset Pt, (∀ p ∈ E, p ∈ data) → (∀ f ∈ faces, (E.filter (· ∈ f)).card % 2 = 0) → E.card % 2 = 1 → d ≤ E.card)
    (upper : ∃ E : Finset Pt, (∀ p ∈ E, p ∈ data) ∧ (∀ f ∈ faces, (E.filter (· ∈ f)).card % 2 = 0) ∧ E.card % 2 = 1 ∧ E.card = d) :
    Named.IsMinWeight (checkMatrix data faces) (checkMatrix data faces) d := by
  have hs : ∀ r ∈ checkMatrix data faces, ∀ s ∈ checkMatrix data faces, dot r s = 0 := by
    rw [checkMatrix_eq]
    exact List.forall_mem_map.2 fun f hf => List.forall_mem_map.2 fun g hg => hself f hf g hg
  have hev : ∀ v : Vec data.length, (∀ g ∈ checkMatrix data faces, dot g v = 0) ↔
      ∀ f ∈ faces, ((supp data v).filter (· ∈ f)).card % 2 = 0 := by
    intro v
    rw [checkMatrix_eq, List.forall_mem_map]
    refine forall₂_congr fun f _ => ?_
    rw [dot_supp data hn, even_cast]
  refine ⟨fun e h1 h2 => ?_, ?_⟩
  · rw [← supp_card data hn]
    refine lower _ (supp_sub data e) ((hev e).1 h1) ?_
    rw [trivial_iff _ _ hs hk e h1] at h2
    rw [supp_card data hn]
    omega
  · obtain ⟨E, h1, h2, h3, h4⟩ := upper
    have hE := supp_vecOf data E h1
    have h5 : ∀ g ∈ checkMatrix data faces, dot g (vecOf data E) = 0 := (hev _).2 (by rw [hE]; exact h2)
    have h6 : wt (vecOf data E) = E.card := by rw [← supp_card data hn, hE]
    refine ⟨vecOf data E, h5, ?_, by rw [h6, h4]⟩
    rw [trivial_iff _ _ hs hk _ h5, h6]
    omega

/-- The check matrices of the code object are the check matrix of the lattice. -/
theorem code_matrices (lib : Mod2) (d : ℕ) (data : List Pt) (faces : List (List Pt)) (c : Code)
    (h : colorCode lib d data faces = .ok c) (P : (n : ℕ) → List (Vec n) → List (Vec n) → Prop)
    (hP : P data.length (checkMatrix data faces) (checkMatrix data faces)) : P c.n c.hx c.hz := by
  obtain ⟨-, h1, h2, -⟩ := C08_ctor_sound _ _ _ _ _ _ _ h
  have e1 := h1 _ rfl
  have e2 := h2 _ rfl
  clear h1 h2 h
  obtain ⟨n, hx, hz, lx, lz, stab, dd, dx, dz⟩ := c
  simp only at e1 e2 ⊢
  obtain ⟨rfl, e1⟩ := e1
  have e1 := eq_of_heq e1
  have e2 := eq_of_heq e2.2
  subst e1; subst e2
  exact hP

end Verif.FaceWeight
