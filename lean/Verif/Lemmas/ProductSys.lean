import Verif.Lemmas.ProductDistance
import Verif.Lemmas.ProductRank

/-!
# Distances of the codes that the boundary maps define
-/

namespace Verif.ProductRank
open Verif Verif.Product Verif.CodeFiles Verif.Kunneth Module

/-- The linear map of a matrix modulo two. -/
noncomputable def lin {a b : ℕ} (A : Matrix (Fin a) (Fin b) ℤ) : Vec b →ₗ[ZMod 2] Vec a := (M2 A).mulVecLin

theorem wt_sum {n : ℕ} (v : Vec n) : wt v = ∑ i, if v i ≠ 0 then 1 else 0 := by
  rw [wt, Finset.card_filter]

theorem wtF_cut {x y r c : ℕ} (v : Vec (x * r + y * c)) : wtF (cut v) = wt v := by
  rw [wt_sum, Fin.sum_univ_add, wtF]
  congr 1
  · rw [← finProdFinEquiv.sum_comp, Fintype.sum_prod_type, Finset.sum_comm]
    refine Finset.sum_congr rfl fun j _ => ?_
    rw [wt_sum]; rfl
  · rw [← finProdFinEquiv.sum_comp, Fintype.sum_prod_type, Finset.sum_comm]
    refine Finset.sum_congr rfl fun j _ => ?_
    rw [wt_sum]; rfl

theorem wt_cut1 {x r : ℕ} (v : Vec (x * r)) : ∑ j, wt (cut1 v j) = wt v := by
  rw [wt_sum, ← finProdFinEquiv.sum_comp, Fintype.sum_prod_type, Finset.sum_comm]
  refine Finset.sum_congr rfl fun j _ => ?_
  rw [wt_sum]; rfl

theorem wt_equiv {m m' : ℕ} (f : Fin m' ≃ Fin m) (v : Vec m) : wt (v ∘ f) = wt v := by
  rw [wt_sum, wt_sum, ← f.sum_comp]; rfl

theorem out_zero {n1 n0 : ℕ} (b : Vec n1 →ₗ[ZMod 2] Vec n0) : sys (0 : Vec n0 →ₗ[ZMod 2] Vec 0) b = out b := by
  rw [sys, out]
  congr 1
  funext v
  simp

theorem ker_zero {n1 n0 : ℕ} (a : Vec n1 →ₗ[ZMod 2] Vec n0) : sys a (0 : Vec 0 →ₗ[ZMod 2] Vec n1) = kerDist a := by
  rw [sys, kerDist]
  congr 1
  funext v
  simp

variable {n0 n1 n2 n3 r c : ℕ}

theorem range_d2 (a1 : Matrix (Fin n0) (Fin n1) ℤ) (a2 : Matrix (Fin n1) (Fin n2) ℤ) (p : Matrix (Fin r) (Fin c) ℤ)
    (v : Vec (n1 * r + n0 * c)) : v ∈ LinearMap.range (lin (d2 a1 a2 p)) ↔ cut v ∈ LinearMap.range (bdry (M2 p) (lin a2) (lin a1)) := by
  constructor
  · rintro ⟨w, rfl⟩
    exact ⟨cut w, (cut_d2 a1 a2 p w).symm⟩
  · rintro ⟨w, hw⟩
    obtain ⟨u, rfl⟩ := (cut (x := n2) (y := n1) (r := r) (c := c)).surjective w
    refine ⟨u, cut.injective ?_⟩
    rw [← hw]
    exact cut_d2 a1 a2 p u

theorem range_dLast (a2 : Matrix (Fin n1) (Fin n2) ℤ) (p : Matrix (Fin r) (Fin c) ℤ)
    (v : Vec (n2 * r + n1 * c)) : v ∈ LinearMap.range (lin (dLast a2 p)) ↔
      cut v ∈ LinearMap.range (bdry (M2 p) (0 : Vec 0 →ₗ[ZMod 2] Vec n2) (lin a2)) := by
  constructor
  · rintro ⟨w, rfl⟩
    exact ⟨(0, cut1 w), (cut_dLast a2 p w).symm⟩
  · rintro ⟨w, hw⟩
    obtain ⟨u, hu⟩ := (cut1 (x := n2) (r := c)).surjective w.2
    refine ⟨u, cut.injective ?_⟩
    rw [← hw]
    have : w = (0, cut1 u) := Prod.ext (Subsingleton.elim _ _) hu.symm
    rw [this]
    exact cut_dLast a2 p u

theorem zero_d2 (a1 : Matrix (Fin n0) (Fin n1) ℤ) (a2 : Matrix (Fin n1) (Fin n2) ℤ) (p : Matrix (Fin r) (Fin c) ℤ)
    (v : Vec (n2 * r + n1 * c)) : bdry (M2 p) (lin a2) (lin a1) (cut v) = 0 ↔ lin (d2 a1 a2 p) v = 0 := by
  have := cut_d2 a1 a2 p v
  change _ = bdry (M2 p) (lin a2) (lin a1) (cut v) at this
  rw [← this, LinearEquiv.map_eq_zero_iff]
  rfl

theorem zero_d1 (a1 : Matrix (Fin n0) (Fin n1) ℤ) (p : Matrix (Fin r) (Fin c) ℤ)
    (v : Vec (n1 * r + n0 * c)) : bdry (M2 p) (lin a1) (0 : Vec n0 →ₗ[ZMod 2] Vec 0) (cut v) = 0 ↔ lin (d1 a1 p) v = 0 := by
  have := cut_d1 a1 p v
  change _ = (bdry (M2 p) (lin a1) (0 : Vec n0 →ₗ[ZMod 2] Vec 0) (cut v)).1 at this
  rw [Prod.ext_iff, ← this]
  have h2 : ∀ w : Vec (n0 * r), cut1 w = 0 ↔ w = 0 := fun w => LinearEquiv.map_eq_zero_iff _
  exact ⟨fun h => (h2 _).1 h.1, fun h => ⟨(h2 _).2 h, Subsingleton.elim _ _⟩⟩

/-- Middle degrees. -/
theorem sys_d2_d2 (a1 : Matrix (Fin n0) (Fin n1) ℤ) (a2 : Matrix (Fin n1) (Fin n2) ℤ) (a3 : Matrix (Fin n2) (Fin n3) ℤ)
    (p : Matrix (Fin r) (Fin c) ℤ) : sys (lin (d2 a1 a2 p)) (lin (d2 a2 a3 p)) =
      min (out (lin p) * sys (lin a2) (lin a3)) (kerDist (lin p) * sys (lin a1) (lin a2)) := by
  have h := sys_product (M2 p) (lin a3) (lin a2) (lin a1)
  rw [← minW_congr (w := wt) (P := fun v => lin (d2 a1 a2 p) v = 0 ∧ v ∉ LinearMap.range (lin (d2 a2 a3 p))) cut.toEquiv wtF_cut (by
    intro v
    exact and_congr (zero_d2 a1 a2 p v) (not_congr (range_d2 a2 a3 p v).symm))] at h
  exact h

/-- Degree one. -/
theorem sys_d1_d2 (a1 : Matrix (Fin n0) (Fin n1) ℤ) (a2 : Matrix (Fin n1) (Fin n2) ℤ)
    (p : Matrix (Fin r) (Fin c) ℤ) : sys (lin (d1 a1 p)) (lin (d2 a1 a2 p)) =
      min (out (lin p) * sys (lin a1) (lin a2)) (kerDist (lin p) * out (lin a1)) := by
  have h := sys_product (M2 p) (lin a2) (lin a1) (0 : Vec n0 →ₗ[ZMod 2] Vec 0)
  rw [← minW_congr (w := wt) (P := fun v => lin (d1 a1 p) v = 0 ∧ v ∉ LinearMap.range (lin (d2 a1 a2 p))) cut.toEquiv wtF_cut (by
    intro v
    exact and_congr (zero_d1 a1 p v) (not_congr (range_d2 a1 a2 p v).symm)), out_zero] at h
  exact h

/-- The last but one degree. -/
theorem sys_d2_dLast (a1 : Matrix (Fin n0) (Fin n1) ℤ) (a2 : Matrix (Fin n1) (Fin n2) ℤ)
    (p : Matrix (Fin r) (Fin c) ℤ) : sys (lin (d2 a1 a2 p)) (lin (dLast a2 p)) =
      min (out (lin p) * kerDist (lin a2)) (kerDist (lin p) * sys (lin a1) (lin a2)) := by
  have h := sys_product (M2 p) (0 : Vec 0 →ₗ[ZMod 2] Vec n2) (lin a2) (lin a1)
  rw [← minW_congr (w := wt) (P := fun v => lin (d2 a1 a2 p) v = 0 ∧ v ∉ LinearMap.range (lin (dLast a2 p))) cut.toEquiv wtF_cut (by
    intro v
    exact and_congr (zero_d2 a1 a2 p v) (not_congr (range_dLast a2 p v).symm)), ker_zero] at h
  exact h

/-- Products of two classical codes. -/
theorem sys_d1_dLast (a1 : Matrix (Fin n0) (Fin n1) ℤ) (p : Matrix (Fin r) (Fin c) ℤ) : sys (lin (d1 a1 p)) (lin (dLast a1 p)) =
      min (out (lin p) * kerDist (lin a1)) (kerDist (lin p) * out (lin a1)) := by
  have h := sys_product (M2 p) (0 : Vec 0 →ₗ[ZMod 2] Vec n1) (lin a1) (0 : Vec n0 →ₗ[ZMod 2] Vec 0)
  rw [← minW_congr (w := wt) (P := fun v => lin (d1 a1 p) v = 0 ∧ v ∉ LinearMap.range (lin (dLast a1 p))) cut.toEquiv wtF_cut (by
    intro v
    exact and_congr (zero_d1 a1 p v) (not_congr (range_dLast a1 p v).symm)), ker_zero, out_zero] at h
  exact h

/-- The last degree. -/
theorem kerDist_dLast (a2 : Matrix (Fin n1) (Fin n2) ℤ) (p : Matrix (Fin r) (Fin c) ℤ) :
    kerDist (lin (dLast a2 p)) = kerDist (lin p) * kerDist (lin a2) := by
  have h := sys_product (M2 p) (0 : Vec 0 →ₗ[ZMod 2] Vec 0) (0 : Vec 0 →ₗ[ZMod 2] Vec n2) (lin a2)
  rw [← minW_congr (w := wt) (P := fun v => lin (dLast a2 p) v = 0 ∧ v ≠ 0) (pad (r := r)).toEquiv (by
      intro v
      change ∑ j : Fin r, wt (0 : Vec 0) + ∑ k, wt (cut1 v k) = wt v
      rw [wt_cut1]
      simp [wt_eq_zero.2]) (by
      intro v
      apply and_congr
      · have := cut_dLast a2 p v
        change _ = bdry (M2 p) (0 : Vec 0 →ₗ[ZMod 2] Vec n2) (lin a2) (pad v) at this
        change bdry (M2 p) (0 : Vec 0 →ₗ[ZMod 2] Vec n2) (lin a2) (pad v) = 0 ↔ _
        rw [← this, LinearEquiv.map_eq_zero_iff]
        rfl
      · apply not_congr
        rw [← LinearEquiv.map_eq_zero_iff (pad (r := r))]
        constructor
        · rintro ⟨w, hw⟩
          have : w = 0 := Subsingleton.elim _ _
          rw [this, map_zero] at hw
          exact hw.symm
        · intro h
          change pad v ∈ _
          rw [h]
          exact Submodule.zero_mem _), ker_zero (lin a2)] at h
  have h2 : sys (0 : Vec 0 →ₗ[ZMod 2] Vec n2) (0 : Vec 0 →ₗ[ZMod 2] Vec 0) = ⊤ := by
    apply top_le_iff.1
    refine le_minW fun v hv => absurd ?_ hv.2
    rw [Subsingleton.elim v 0]
    exact Submodule.zero_mem _
  have h3 : out (M2 p).mulVecLin ≠ 0 := fun e => by
    have := one_le_out (M2 p).mulVecLin
    rw [e] at this
    exact absurd this (by decide)
  rw [h2, ENat.mul_top h3, min_eq_right le_top] at h
  exact h

/-! ## Transposed complexes -/

/-- Renumbering rows and columns does not change the distance. -/
theorem sys_submatrix {l m k l' m' k' : ℕ} (A : Matrix (Fin l) (Fin m) ℤ) (B : Matrix (Fin m) (Fin k) ℤ) (e : Fin l' ≃ Fin l)
    (f : Fin m' ≃ Fin m) (g : Fin k' ≃ Fin k) : sys (lin (A.submatrix e f)) (lin (B.submatrix f g)) = sys (lin A) (lin B) := by
  have key : ∀ {a b a' b' : ℕ} (A : Matrix (Fin a) (Fin b) ℤ) (e : Fin a' ≃ Fin a) (f : Fin b' ≃ Fin b) (v : Vec b),
      lin (A.submatrix e f) (v ∘ f) = (lin A v) ∘ e := by
    intro a b a' b' A e f v
    have := Matrix.submatrix_mulVec_equiv (M2 A) (v ∘ f) e f
    have h2 : (v ∘ f) ∘ f.symm = v := by funext i; simp
    rw [h2] at this
    exact this
  symm
  refine minW_congr (f.symm.arrowCongr (Equiv.refl _)) (fun v => ?_) fun v => ?_
  · exact wt_equiv f v
  · change lin (A.submatrix e f) (v ∘ f) = 0 ∧ (v ∘ f) ∉ LinearMap.range (lin (B.submatrix f g)) ↔ _
    rw [key]
    apply and_congr
    · constructor
      · intro h
        funext i
        have := congrFun h (e.symm i)
        simpa using this
      · intro h; rw [h]; rfl
    · apply not_congr
      constructor
      · rintro ⟨w, hw⟩
        refine ⟨w ∘ g.symm, ?_⟩
        have h2 := key B f g (w ∘ g.symm)
        have h3 : (w ∘ g.symm) ∘ g = w := by funext i; simp
        rw [h3, hw] at h2
        funext i
        have := congrFun h2 (f.symm i)
        simpa using this.symm
      · rintro ⟨w, rfl⟩
        exact ⟨w ∘ g, key B f g w⟩

theorem kron_transpose {a b c d : ℕ} (A : Matrix (Fin a) (Fin b) ℤ) (B : Matrix (Fin c) (Fin d) ℤ) :
    (kron A B).transpose = kron A.transpose B.transpose := rfl

theorem d2_transpose (a1 : Matrix (Fin n0) (Fin n1) ℤ) (a2 : Matrix (Fin n1) (Fin n2) ℤ) (p : Matrix (Fin r) (Fin c) ℤ) :
    (d2 a1 a2 p).transpose.submatrix finAddFlip finAddFlip = d2 a2.transpose a1.transpose p.transpose := by
  ext i j
  refine Fin.addCases (fun i => ?_) (fun i => ?_) i <;> refine Fin.addCases (fun j => ?_) (fun j => ?_) j <;>
    simp only [d2, Matrix.submatrix_apply, Matrix.transpose_apply, finAddFlip_apply_castAdd, finAddFlip_apply_natAdd, vstack, hstack,
      Fin.append_left, Fin.append_right, kron, Matrix.zero_apply, Matrix.one_apply, eq_comm]

theorem d1_transpose (a1 : Matrix (Fin n0) (Fin n1) ℤ) (p : Matrix (Fin r) (Fin c) ℤ) :
    (d1 a1 p).transpose.submatrix finAddFlip (Equiv.refl _) = dLast a1.transpose p.transpose := by
  ext i j
  refine Fin.addCases (fun i => ?_) (fun i => ?_) i <;>
    simp only [d1, dLast, Matrix.submatrix_apply, Matrix.transpose_apply, finAddFlip_apply_castAdd, finAddFlip_apply_natAdd, vstack, hstack,
      Fin.append_left, Fin.append_right, kron, Matrix.one_apply, eq_comm, Equiv.refl_apply]

theorem dLast_transpose (a2 : Matrix (Fin n1) (Fin n2) ℤ) (p : Matrix (Fin r) (Fin c) ℤ) :
    (dLast a2 p).transpose.submatrix (Equiv.refl _) finAddFlip = d1 a2.transpose p.transpose := by
  ext i j
  refine Fin.addCases (fun j => ?_) (fun j => ?_) j <;>
    simp only [d1, dLast, Matrix.submatrix_apply, Matrix.transpose_apply, finAddFlip_apply_castAdd, finAddFlip_apply_natAdd, vstack, hstack,
      Fin.append_left, Fin.append_right, kron, Matrix.one_apply, eq_comm, Equiv.refl_apply]

theorem sys_d2_d1_T (a1 : Matrix (Fin n0) (Fin n1) ℤ) (a2 : Matrix (Fin n1) (Fin n2) ℤ) (p : Matrix (Fin r) (Fin c) ℤ) :
    sys (lin (d2 a1 a2 p).transpose) (lin (d1 a1 p).transpose) =
      min (out (lin p.transpose) * kerDist (lin a1.transpose)) (kerDist (lin p.transpose) * sys (lin a2.transpose) (lin a1.transpose)) := by
  rw [← sys_submatrix _ _ finAddFlip finAddFlip (Equiv.refl _), d2_transpose, d1_transpose, sys_d2_dLast]

theorem sys_dLast_d2_T (a1 : Matrix (Fin n0) (Fin n1) ℤ) (a2 : Matrix (Fin n1) (Fin n2) ℤ) (p : Matrix (Fin r) (Fin c) ℤ) :
    sys (lin (dLast a2 p).transpose) (lin (d2 a1 a2 p).transpose) =
      min (out (lin p.transpose) * sys (lin a2.transpose) (lin a1.transpose)) (kerDist (lin p.transpose) * out (lin a2.transpose)) := by
  rw [← sys_submatrix _ _ (Equiv.refl _) finAddFlip finAddFlip, d2_transpose, dLast_transpose, sys_d1_d2]

theorem sys_d2_d2_T (a1 : Matrix (Fin n0) (Fin n1) ℤ) (a2 : Matrix (Fin n1) (Fin n2) ℤ) (a3 : Matrix (Fin n2) (Fin n3) ℤ)
    (p : Matrix (Fin r) (Fin c) ℤ) : sys (lin (d2 a2 a3 p).transpose) (lin (d2 a1 a2 p).transpose) =
      min (out (lin p.transpose) * sys (lin a2.transpose) (lin a1.transpose))
        (kerDist (lin p.transpose) * sys (lin a3.transpose) (lin a2.transpose)) := by
  rw [← sys_submatrix _ _ finAddFlip finAddFlip finAddFlip, d2_transpose, d2_transpose, sys_d2_d2]

theorem sys_dLast_d1_T (a1 : Matrix (Fin n0) (Fin n1) ℤ) (p : Matrix (Fin r) (Fin c) ℤ) :
    sys (lin (dLast a1 p).transpose) (lin (d1 a1 p).transpose) =
      min (out (lin p.transpose) * kerDist (lin a1.transpose)) (kerDist (lin p.transpose) * out (lin a1.transpose)) := by
  rw [← sys_submatrix _ _ (Equiv.refl _) finAddFlip (Equiv.refl _), d1_transpose, dLast_transpose, sys_d1_dLast]

theorem kerDist_submatrix {l m l' m' : ℕ} (A : Matrix (Fin l) (Fin m) ℤ) (e : Fin l' ≃ Fin l)
    (f : Fin m' ≃ Fin m) : kerDist (lin (A.submatrix e f)) = kerDist (lin A) := by
  have h := sys_submatrix A (0 : Matrix (Fin m) (Fin 0) ℤ) e f (Equiv.refl _)
  have z : ∀ {x y : ℕ}, lin (0 : Matrix (Fin x) (Fin y) ℤ) = 0 := by
    intro x y
    have : M2 (0 : Matrix (Fin x) (Fin y) ℤ) = 0 := by ext i j; simp [M2]
    rw [lin, this, Matrix.mulVecLin_zero]
  have z2 : (0 : Matrix (Fin m) (Fin 0) ℤ).submatrix f (Equiv.refl _) = 0 := by ext i j; rfl
  rw [z2, z, z, ker_zero, ker_zero] at h
  exact h

theorem kerDist_d1_T (a1 : Matrix (Fin n0) (Fin n1) ℤ) (p : Matrix (Fin r) (Fin c) ℤ) :
    kerDist (lin (d1 a1 p).transpose) = kerDist (lin p.transpose) * kerDist (lin a1.transpose) := by
  rw [← kerDist_submatrix _ finAddFlip (Equiv.refl _), d1_transpose, kerDist_dLast]

end Verif.ProductRank
