import Verif.Props.ProductDistance

/-! # C136: what the metachecks of product codes detect -/

namespace Verif.ProductRank
open Verif Verif.Product Verif.CodeFiles Verif.Kunneth Module

/-! ## Specification -/

/-- The product of a matrix and a vector modulo two: the syndrome of an error, or the metasyndrome of a syndrome. -/
def syndrome {a b : ℕ} (H : Matrix (Fin a) (Fin b) ℤ) (e : Vec b) : Vec a := fun i => ∑ j, ((H i j : ℤ) : ZMod 2) * e j

/-- The least weight of a vector that passes the metachecks `M` and is not the syndrome of any error; `⊤` if there is none. -/
noncomputable def blindDistance {a b c : ℕ} (M : Matrix (Fin a) (Fin b) ℤ) (H : Matrix (Fin b) (Fin c) ℤ) : ℕ∞ :=
  ⨅ s : {s : Vec b // syndrome M s = 0 ∧ ∀ e, syndrome H e ≠ s}, (wt s.1 : ℕ∞)

/-! ## Helpers -/

theorem blindDistance_eq {a b c : ℕ} (M : Matrix (Fin a) (Fin b) ℤ) (H : Matrix (Fin b) (Fin c) ℤ) :
    blindDistance M H = sys (lin M) (lin H) :=
  minW_congr (P := fun s => syndrome M s = 0 ∧ ∀ e, syndrome H e ≠ s) (Equiv.refl _) (fun _ => rfl) fun s =>
    and_congr Iff.rfl ⟨fun h e he => h ⟨e, he⟩, fun h ⟨e, he⟩ => h e he⟩

/-- The number of independent relations between the X checks of the 3D product. -/
theorem relations_d1 {n0 n1 r c : ℕ} (a1 : Matrix (Fin n0) (Fin n1) ℤ) (p : Matrix (Fin r) (Fin c) ℤ) :
    relations (d1 a1 p) = relations a1 * relations p := by
  have e1 := rk_d1 a1 p
  have h1 := relations_eq (d1 a1 p)
  have h2 := relations_eq a1
  have h3 := relations_eq p
  have : (relations (d1 a1 p) : ℤ) = relations a1 * relations p := by
    rw [h1, h2, h3, e1]; push_cast; ring
  exact_mod_cast this

theorem bits_dLast {n1 n2 r c : ℕ} (a2 : Matrix (Fin n1) (Fin n2) ℤ) (p : Matrix (Fin r) (Fin c) ℤ) :
    bits (dLast a2 p) = bits a2 * bits p := by
  have e1 := rk_dLast a2 p
  have h1 := bits_eq (dLast a2 p)
  have h2 := bits_eq a2
  have h3 := bits_eq p
  have : (bits (dLast a2 p) : ℤ) = bits a2 * bits p := by
    rw [h1, h2, h3, e1]; push_cast; ring
  exact_mod_cast this

/-! ## The claims -/

/-- C136: the metachecks of the 3D code, exactly. -/
theorem C136_product3d {n0 n1 n2 r c : ℕ} (a1 : Matrix (Fin n0) (Fin n1) ℤ) (a2 : Matrix (Fin n1) (Fin n2) ℤ)
    (p : Matrix (Fin r) (Fin c) ℤ) (D1 D2 D3) (hg : generate3d a1 a2 p = .ok (D1, D2, D3)) :
    blindDistance D3.transpose D2.transpose =
      min (ifSome (bits p) * distanceX a1 a2.transpose) (distance p.transpose * ifSome (bits a2)) := by
  have h := (C135_product3d a1 a2 p D1 D2 D3 hg).2.2.2
  rw [← h, distanceX, logicalDistance_eq, blindDistance_eq]

/-- C136: the metachecks of the 4D code, exactly. -/
theorem C136_product4d {n0 n1 n2 n3 r c : ℕ} (a1 : Matrix (Fin n0) (Fin n1) ℤ) (a2 : Matrix (Fin n1) (Fin n2) ℤ)
    (a3 : Matrix (Fin n2) (Fin n3) ℤ) (p : Matrix (Fin r) (Fin c) ℤ) (checks : Bool) (D1 D2 D3 D4)
    (hg : generate4d a1 a2 a3 p checks = .ok (D1, D2, D3, D4)) :
    blindDistance D1 D2 = min (ifSome (relations p) * distanceZ a1 a2.transpose) (distance p * ifSome (relations a1)) ∧
    blindDistance D4.transpose D3.transpose =
      min (ifSome (bits p) * distanceX a2 a3.transpose) (distance p.transpose * ifSome (bits a3)) := by
  obtain ⟨rfl, rfl, rfl, rfl⟩ := generate4d_eq hg
  constructor
  · rw [blindDistance_eq, sys_d1_d2, out_eq, out_eq, distanceZ, logicalDistance_eq, Matrix.transpose_transpose, distance_eq]
  · rw [blindDistance_eq, sys_dLast_d2_T, out_eq, out_eq, relations_transpose, relations_transpose, distanceX, logicalDistance_eq, distance_eq]

/-- C136: on toric codes, whatever passes the metachecks and is lighter than the shortest length is the syndrome of an error, and there
are vectors of that weight that are not: for the Z checks of the 3D code and for both types of checks of the 4D code. -/
theorem C136_toric (l0 l1 l2 l3 : ℕ) (h0 : 2 ≤ l0) (h1 : 2 ≤ l1) (h2 : 2 ≤ l2) (h3 : 2 ≤ l3) :
    (∀ D1 D2 D3, generate3d (hgpX (ringCode l0) (ringCode l1)) (hgpZ (ringCode l0) (ringCode l1)).transpose (ringCode l2) =
        .ok (D1, D2, D3) → blindDistance D3.transpose D2.transpose = (min (min l0 l1) l2 : ℕ)) ∧
    (∀ checks MX HX HZ MZ, createCode (hgpX (ringCode l0) (ringCode l1)) (hgpZ (ringCode l0) (ringCode l1)) (ringCode l2) (ringCode l3) checks =
        .ok (MX, HX, HZ, MZ) →
      blindDistance MX HX = (min (min (min l0 l1) l2) l3 : ℕ) ∧ blindDistance MZ HZ = (min (min (min l0 l1) l2) l3 : ℕ)) := by
  have u : ifSome 1 = 1 := rfl
  obtain ⟨q0, q0'⟩ := ring_distance h0
  obtain ⟨q1, q1'⟩ := ring_distance h1
  obtain ⟨q2, q2'⟩ := ring_distance h2
  obtain ⟨q3, q3'⟩ := ring_distance h3
  obtain ⟨⟨-, a2⟩, a3, -⟩ := C135_toric l0 l1 l2 l3 h0 h1 h2 h3
  have r1 : relations (hgpX (ringCode l0) (ringCode l1)) = 1 := by
    rw [hgpX_eq, relations_d1, relations_transpose, ring_relations h0, ring_bits h1]
  have r2 : bits (hgpZ (ringCode l0) (ringCode l1)).transpose = 1 := by
    rw [hgpZ_eq, bits_dLast, ring_bits h0]
    change 1 * relations (ringCode l1) = 1
    rw [ring_relations h1]
  have e3 : ∀ D1 D2 D3, generate3d (hgpX (ringCode l0) (ringCode l1)) (hgpZ (ringCode l0) (ringCode l1)).transpose (ringCode l2) =
        .ok (D1, D2, D3) → blindDistance D3.transpose D2.transpose = (min (min l0 l1) l2 : ℕ) := by
    intro D1 D2 D3 hg
    rw [C136_product3d _ _ _ _ _ _ hg, Matrix.transpose_transpose, a2, ring_bits h2, r2, q2', u, one_mul, mul_one]
    rfl
  refine ⟨e3, ?_⟩
  intro checks MX HX HZ MZ hg
  obtain ⟨D1, D2, D3, hg3, h12, h23⟩ := C18_product3d (hgpX (ringCode l0) (ringCode l1)) (hgpZ (ringCode l0) (ringCode l1)).transpose (ringCode l2)
    (hgp_even (ringCode l0) (ringCode l1))
  obtain ⟨E1, E2, E3, E4, h4, -, -, -⟩ := C19_product4d D1 D2 D3 (ringCode l3) checks h12 h23
  unfold createCode at hg
  rw [hg3] at hg
  simp only [bind, Except.bind] at hg
  rw [h4] at hg
  simp only [require] at hg
  split at hg
  · cases hg
  · cases hg
    obtain ⟨f1, f2⟩ := C136_product4d _ _ _ _ _ _ _ _ _ h4
    have g1 := (a3 _ _ _ hg3).1
    have g2 := e3 _ _ _ hg3
    rw [blindDistance_eq] at g2
    obtain ⟨s1, -, s3⟩ := generate3d_eq hg3
    have r3 : relations D1 = 1 := by rw [s1, relations_d1, r1, ring_relations h2]
    have r4 : bits D3 = 1 := by rw [s3, bits_dLast, r2, ring_bits h2]
    rw [ring_relations h3, q3, u, one_mul, g1, r3, u, mul_one] at f1
    rw [ring_bits h3, q3', u, one_mul, r4, u, mul_one, distanceX, logicalDistance_eq, g2] at f2
    exact ⟨f1, f2⟩

/-- The codes of the main program are examples. -/
example : ∃ MX HX HZ MZ, createCode (hgpX (ringCode 3) (ringCode 3)) (hgpZ (ringCode 3) (ringCode 3)) (ringCode 3) (ringCode 3) true =
    .ok (MX, HX, HZ, MZ) ∧ blindDistance MX HX = 3 ∧ blindDistance MZ HZ = 3 := by
  obtain ⟨MX, HX, HZ, MZ, h, -⟩ := C135_main 3 (by omega) true
  exact ⟨MX, HX, HZ, MZ, h, ((C136_toric 3 3 3 3 (by omega) (by omega) (by omega) (by omega)).2 true MX HX HZ MZ h)⟩

end Verif.ProductRank
