import Verif.Model.CodeFiles
import Verif.Lemmas.Kunneth
import Verif.LinalgLemmas
import Verif.Props.Product

/-!
# Ranks of the boundary maps of the product constructions
-/

namespace Verif.ProductRank
open Verif Verif.Product Verif.CodeFiles Verif.Kunneth Module

/-- The matrix modulo two. -/
def M2 {a b : ℕ} (A : Matrix (Fin a) (Fin b) ℤ) : Matrix (Fin a) (Fin b) (ZMod 2) := fun i j => ((A i j : ℤ) : ZMod 2)

/-- Its rank. -/
def rk {a b : ℕ} (A : Matrix (Fin a) (Fin b) ℤ) : ℕ := rank (rowsMod2 A)

theorem rk_eq {a b : ℕ} (A : Matrix (Fin a) (Fin b) ℤ) : rk A = (M2 A).rank := by
  rw [rk, rank_eq_finrank, Matrix.rank_eq_finrank_span_row]
  have : rowSpan (rowsMod2 A) = Submodule.span (ZMod 2) (Set.range (M2 A).row) := by
    rw [rowSpan]
    congr 1
    ext v
    simp only [rowsMod2, Set.mem_setOf_eq, List.mem_ofFn, Set.mem_range]
    rfl
  rw [this]

theorem rk_transpose {a b : ℕ} (A : Matrix (Fin a) (Fin b) ℤ) : rk A.transpose = rk A := by
  rw [rk_eq, rk_eq, ← Matrix.rank_transpose (M2 A)]
  rfl

theorem finrank_range {a b : ℕ} (A : Matrix (Fin a) (Fin b) ℤ) : finrank (ZMod 2) (LinearMap.range (M2 A).mulVecLin) = rk A := by
  rw [rk_eq]; rfl

theorem finrank_ker {a b : ℕ} (A : Matrix (Fin a) (Fin b) ℤ) : rk A + finrank (ZMod 2) (LinearMap.ker (M2 A).mulVecLin) = b := by
  have := LinearMap.finrank_range_add_finrank_ker (M2 A).mulVecLin
  rw [finrank_range] at this
  simpa using this

theorem M2_mul {a b c : ℕ} (A : Matrix (Fin a) (Fin b) ℤ) (B : Matrix (Fin b) (Fin c) ℤ) (h : Even2 (A * B)) :
    (M2 A).mulVecLin.comp (M2 B).mulVecLin = 0 := by
  rw [← Matrix.mulVecLin_mul]
  have : M2 A * M2 B = 0 := by
    ext i j
    have := (ZMod.intCast_zmod_eq_zero_iff_dvd _ 2).2 (h i j)
    rw [Matrix.mul_apply, Int.cast_sum] at this
    rw [Matrix.mul_apply, Matrix.zero_apply, ← this]
    exact Finset.sum_congr rfl fun k _ => by rw [Int.cast_mul]; rfl
  rw [this, Matrix.mulVecLin_zero]

theorem div_mk {a b : ℕ} (x : Fin a) (y : Fin b) : (finProdFinEquiv (x, y)).divNat = x :=
  congrArg Prod.fst (finProdFinEquiv.symm_apply_apply (x, y))

theorem mod_mk {a b : ℕ} (x : Fin a) (y : Fin b) : (finProdFinEquiv (x, y)).modNat = y :=
  congrArg Prod.snd (finProdFinEquiv.symm_apply_apply (x, y))

theorem mk_div_mod {a b : ℕ} (z : Fin (a * b)) : finProdFinEquiv (z.divNat, z.modNat) = z :=
  finProdFinEquiv.apply_symm_apply z

/-- The Kronecker product with an identity on the right. -/
theorem kron_one_sum {a b r : ℕ} (A : Matrix (Fin a) (Fin b) ℤ) (v : Fin (b * r) → ZMod 2) (i : Fin a) (j : Fin r) :
    ∑ x, ((kron A (1 : Matrix (Fin r) (Fin r) ℤ) (finProdFinEquiv (i, j)) x : ℤ) : ZMod 2) * v x =
      (M2 A).mulVecLin (fun l => v (finProdFinEquiv (l, j))) i := by
  rw [← finProdFinEquiv.sum_comp, Fintype.sum_prod_type, Matrix.mulVecLin_apply, Matrix.mulVec, dotProduct]
  refine Finset.sum_congr rfl fun l _ => ?_
  rw [Finset.sum_eq_single j]
  · rw [kron, div_mk, div_mk, mod_mk, mod_mk, Matrix.one_apply_eq, mul_one]; rfl
  · intro m _ hm
    rw [kron, mod_mk, mod_mk, Matrix.one_apply_ne (Ne.symm hm), mul_zero]; simp
  · simp

/-- The Kronecker product with an identity on the left. -/
theorem one_kron_sum {a r c : ℕ} (p : Matrix (Fin r) (Fin c) ℤ) (v : Fin (a * c) → ZMod 2) (i : Fin a) (j : Fin r) :
    ∑ x, ((kron (1 : Matrix (Fin a) (Fin a) ℤ) p (finProdFinEquiv (i, j)) x : ℤ) : ZMod 2) * v x =
      act (M2 p) (Fin a → ZMod 2) (fun k l => v (finProdFinEquiv (l, k))) j i := by
  rw [← finProdFinEquiv.sum_comp, Fintype.sum_prod_type, act_apply, Finset.sum_apply]
  rw [Finset.sum_eq_single i]
  · refine Finset.sum_congr rfl fun k _ => ?_
    rw [kron, div_mk, div_mk, mod_mk, mod_mk, Matrix.one_apply_eq, one_mul]; rfl
  · intro m _ hm
    refine Finset.sum_eq_zero fun k _ => ?_
    rw [kron, div_mk, div_mk, Matrix.one_apply_ne (Ne.symm hm), zero_mul]; simp
  · simp

/-- A vector as families of vectors. -/
def cut {x y r c : ℕ} : (Fin (x * r + y * c) → ZMod 2) ≃ₗ[ZMod 2] (Fin r → Fin x → ZMod 2) × (Fin c → Fin y → ZMod 2) where
  toFun v := (fun j i => v (Fin.castAdd _ (finProdFinEquiv (i, j))), fun k i => v (Fin.natAdd _ (finProdFinEquiv (i, k))))
  map_add' _ _ := rfl
  map_smul' _ _ := rfl
  invFun w := Fin.append (fun z => w.1 z.modNat z.divNat) (fun z => w.2 z.modNat z.divNat)
  left_inv v := by
    funext z
    refine Fin.addCases (fun z => ?_) (fun z => ?_) z
    · dsimp only; rw [Fin.append_left, mk_div_mod]
    · dsimp only; rw [Fin.append_right, mk_div_mod]
  right_inv w := by
    refine Prod.ext ?_ ?_
    · funext j i; simp only [Fin.append_left, div_mk, mod_mk]
    · funext j i; simp only [Fin.append_right, div_mk, mod_mk]

/-- A vector as a family of vectors. -/
def cut1 {x r : ℕ} : (Fin (x * r) → ZMod 2) ≃ₗ[ZMod 2] (Fin r → Fin x → ZMod 2) where
  toFun v := fun j i => v (finProdFinEquiv (i, j))
  map_add' _ _ := rfl
  map_smul' _ _ := rfl
  invFun w := fun z => w z.modNat z.divNat
  left_inv v := by funext z; simp only [mk_div_mod]
  right_inv w := by funext j i; simp only [div_mk, mod_mk]

theorem hstack_mulVec {q a b : ℕ} (A : Matrix (Fin q) (Fin a) ℤ) (B : Matrix (Fin q) (Fin b) ℤ) (v : Fin (a + b) → ZMod 2) (i : Fin q) :
    (M2 (hstack A B)).mulVecLin v i =
      ∑ x, ((A i x : ℤ) : ZMod 2) * v (Fin.castAdd b x) + ∑ x, ((B i x : ℤ) : ZMod 2) * v (Fin.natAdd a x) := by
  rw [Matrix.mulVecLin_apply, Matrix.mulVec, dotProduct, Fin.sum_univ_add]
  simp only [M2, hstack, Fin.append_left, Fin.append_right]

theorem vstack_top {q a b : ℕ} (A : Matrix (Fin a) (Fin q) ℤ) (B : Matrix (Fin b) (Fin q) ℤ) (v : Fin q → ZMod 2) (i : Fin a) :
    (M2 (vstack A B)).mulVecLin v (Fin.castAdd b i) = (M2 A).mulVecLin v i := by
  simp only [Matrix.mulVecLin_apply, Matrix.mulVec, dotProduct, M2, vstack, Fin.append_left]

theorem vstack_bot {q a b : ℕ} (A : Matrix (Fin a) (Fin q) ℤ) (B : Matrix (Fin b) (Fin q) ℤ) (v : Fin q → ZMod 2) (i : Fin b) :
    (M2 (vstack A B)).mulVecLin v (Fin.natAdd a i) = (M2 B).mulVecLin v i := by
  simp only [Matrix.mulVecLin_apply, Matrix.mulVec, dotProduct, M2, vstack, Fin.append_right]

variable {n0 n1 n2 r c : ℕ}

/-- The second boundary map is the boundary map of the product complex. -/
theorem cut_d2 (a1 : Matrix (Fin n0) (Fin n1) ℤ) (a2 : Matrix (Fin n1) (Fin n2) ℤ) (p : Matrix (Fin r) (Fin c) ℤ)
    (v : Fin (n2 * r + n1 * c) → ZMod 2) :
    cut ((M2 (d2 a1 a2 p)).mulVecLin v) = bdry (M2 p) (M2 a2).mulVecLin (M2 a1).mulVecLin (cut v) := by
  refine Prod.ext ?_ ?_
  · funext j i
    change (M2 (d2 a1 a2 p)).mulVecLin v (Fin.castAdd _ (finProdFinEquiv (i, j))) = _
    rw [d2, vstack_top, hstack_mulVec, kron_one_sum, one_kron_sum]
    rfl
  · funext j i
    change (M2 (d2 a1 a2 p)).mulVecLin v (Fin.natAdd _ (finProdFinEquiv (i, j))) = _
    rw [d2, vstack_bot, hstack_mulVec, kron_one_sum]
    simp only [Matrix.zero_apply, Int.cast_zero, zero_mul, Finset.sum_const_zero, zero_add]
    rfl

theorem cut_d1 (a1 : Matrix (Fin n0) (Fin n1) ℤ) (p : Matrix (Fin r) (Fin c) ℤ) (v : Fin (n1 * r + n0 * c) → ZMod 2) :
    cut1 ((M2 (d1 a1 p)).mulVecLin v) = (bdry (M2 p) (M2 a1).mulVecLin (0 : (Fin n0 → ZMod 2) →ₗ[ZMod 2] (Fin 0 → ZMod 2)) (cut v)).1 := by
  funext j i
  change (M2 (d1 a1 p)).mulVecLin v (finProdFinEquiv (i, j)) = _
  rw [d1, hstack_mulVec, kron_one_sum, one_kron_sum]
  rfl

theorem cut_dLast (a2 : Matrix (Fin n1) (Fin n2) ℤ) (p : Matrix (Fin r) (Fin c) ℤ) (v : Fin (n2 * c) → ZMod 2) :
    cut ((M2 (dLast a2 p)).mulVecLin v) =
      bdry (M2 p) (0 : (Fin 0 → ZMod 2) →ₗ[ZMod 2] (Fin n2 → ZMod 2)) (M2 a2).mulVecLin (0, cut1 v) := by
  refine Prod.ext ?_ ?_
  · funext j i
    change (M2 (dLast a2 p)).mulVecLin v (Fin.castAdd _ (finProdFinEquiv (i, j))) = _
    rw [dLast, vstack_top, Matrix.mulVecLin_apply, Matrix.mulVec, dotProduct]
    have := one_kron_sum p v i j
    simp only [bdry, LinearMap.coe_mk, AddHom.coe_mk, Pi.add_apply, LinearMap.zero_apply, Pi.zero_apply, zero_add]
    exact this
  · funext j i
    change (M2 (dLast a2 p)).mulVecLin v (Fin.natAdd _ (finProdFinEquiv (i, j))) = _
    rw [dLast, vstack_bot, Matrix.mulVecLin_apply, Matrix.mulVec, dotProduct]
    exact kron_one_sum a2 v i j

theorem rk_le_rows {a b : ℕ} (A : Matrix (Fin a) (Fin b) ℤ) : rk A ≤ a := by
  rw [rk_eq]; simpa using Matrix.rank_le_height (M2 A)

theorem finrank_eq_of {V W : Type} [AddCommGroup V] [Module (ZMod 2) V] [AddCommGroup W] [Module (ZMod 2) W] (e : V ≃ₗ[ZMod 2] W)
    (S : Submodule (ZMod 2) V) (T : Submodule (ZMod 2) W) (h : ∀ v, v ∈ S ↔ e v ∈ T) : finrank (ZMod 2) S = finrank (ZMod 2) T := by
  have : S = T.comap e.toLinearMap := by
    ext v; exact h v
  subst this
  exact (LinearEquiv.ofSubmodule' e T).finrank_eq

/-- Rank of the middle boundary maps. -/
theorem rk_d2 (a1 : Matrix (Fin n0) (Fin n1) ℤ) (a2 : Matrix (Fin n1) (Fin n2) ℤ) (p : Matrix (Fin r) (Fin c) ℤ) (h : Even2 (a1 * a2)) :
    (rk (d2 a1 a2 p) : ℤ) = rk p * n1 + (r - rk p) * rk a2 + (c - rk p) * rk a1 := by
  have h1 := finrank_ker_bdry (M2 p) (M2 a2).mulVecLin (M2 a1).mulVecLin (M2_mul a1 a2 h)
  have h2 := finrank_ker (d2 a1 a2 p)
  rw [finrank_eq_of cut _ (LinearMap.ker (bdry (M2 p) (M2 a2).mulVecLin (M2 a1).mulVecLin)) (by
    intro v
    rw [LinearMap.mem_ker, LinearMap.mem_ker, ← cut_d2, LinearEquiv.map_eq_zero_iff])] at h2
  have h3 := finrank_ker p
  have h4 := finrank_ker a2
  rw [finrank_range, finrank_range] at h1
  simp only [Fintype.card_fin, finrank_fin_fun] at h1
  zify at h1 h2 h3 h4
  generalize (finrank (ZMod 2) (LinearMap.ker (M2 p).mulVecLin) : ℤ) = np at *
  generalize (finrank (ZMod 2) (LinearMap.ker (M2 a2).mulVecLin) : ℤ) = na at *
  generalize (finrank (ZMod 2) (LinearMap.ker (bdry (M2 p) (M2 a2).mulVecLin (M2 a1).mulVecLin)) : ℤ) = nb at *
  obtain rfl : np = c - rk p := by linarith
  obtain rfl : na = n2 - rk a2 := by linarith
  linear_combination h2 - h1

/-- Rank of the first boundary map. -/
theorem rk_d1 (a1 : Matrix (Fin n0) (Fin n1) ℤ) (p : Matrix (Fin r) (Fin c) ℤ) :
    (rk (d1 a1 p) : ℤ) = rk p * n0 + (r - rk p) * rk a1 := by
  have h1 := finrank_ker_bdry (M2 p) (M2 a1).mulVecLin (0 : (Fin n0 → ZMod 2) →ₗ[ZMod 2] (Fin 0 → ZMod 2)) (by simp)
  have h2 := finrank_ker (d1 a1 p)
  rw [finrank_eq_of cut _ (LinearMap.ker (bdry (M2 p) (M2 a1).mulVecLin (0 : (Fin n0 → ZMod 2) →ₗ[ZMod 2] (Fin 0 → ZMod 2)))) (by
    intro v
    rw [LinearMap.mem_ker, LinearMap.mem_ker, ← LinearEquiv.map_eq_zero_iff cut1, cut_d1, Prod.ext_iff]
    exact ⟨fun h => ⟨h, Subsingleton.elim _ _⟩, fun h => h.1⟩)] at h2
  have h3 := finrank_ker p
  have h4 := finrank_ker a1
  rw [finrank_range, LinearMap.range_zero, finrank_bot] at h1
  simp only [Fintype.card_fin, finrank_fin_fun] at h1
  zify at h1 h2 h3 h4
  generalize (finrank (ZMod 2) (LinearMap.ker (M2 p).mulVecLin) : ℤ) = np at *
  generalize (finrank (ZMod 2) (LinearMap.ker (M2 a1).mulVecLin) : ℤ) = na at *
  generalize (finrank (ZMod 2) (LinearMap.ker (bdry (M2 p) (M2 a1).mulVecLin (0 : (Fin n0 → ZMod 2) →ₗ[ZMod 2] (Fin 0 → ZMod 2)))) : ℤ) = nb at *
  obtain rfl : np = c - rk p := by linarith
  obtain rfl : na = n1 - rk a1 := by linarith
  linear_combination h2 - h1

/-- The families with an empty first part. -/
def pad {n c r : ℕ} : (Fin (n * c) → ZMod 2) ≃ₗ[ZMod 2] (Fin r → Fin 0 → ZMod 2) × (Fin c → Fin n → ZMod 2) where
  toFun v := (0, cut1 v)
  map_add' v w := by rw [map_add, Prod.mk_add_mk, add_zero]
  map_smul' s v := by rw [map_smul, RingHom.id_apply, Prod.smul_mk, smul_zero]
  invFun w := cut1.symm w.2
  left_inv v := by simp
  right_inv w := by
    refine Prod.ext (Subsingleton.elim _ _) ?_
    simp

/-- Rank of the last boundary map. -/
theorem rk_dLast (a2 : Matrix (Fin n1) (Fin n2) ℤ) (p : Matrix (Fin r) (Fin c) ℤ) :
    (rk (dLast a2 p) : ℤ) = rk p * n2 + (c - rk p) * rk a2 := by
  have h1 := finrank_ker_bdry (M2 p) (0 : (Fin 0 → ZMod 2) →ₗ[ZMod 2] (Fin n2 → ZMod 2)) (M2 a2).mulVecLin (by simp)
  have h2 := finrank_ker (dLast a2 p)
  rw [finrank_eq_of pad _ (LinearMap.ker (bdry (M2 p) (0 : (Fin 0 → ZMod 2) →ₗ[ZMod 2] (Fin n2 → ZMod 2)) (M2 a2).mulVecLin)) (by
    intro v
    rw [LinearMap.mem_ker, LinearMap.mem_ker, ← LinearEquiv.map_eq_zero_iff cut, cut_dLast]
    rfl)] at h2
  have h3 := finrank_ker p
  rw [finrank_range, LinearMap.range_zero, finrank_bot, LinearMap.ker_zero, finrank_top] at h1
  simp only [Fintype.card_fin, finrank_fin_fun] at h1
  zify at h1 h2 h3
  generalize (finrank (ZMod 2) (LinearMap.ker (M2 p).mulVecLin) : ℤ) = np at *
  generalize (finrank (ZMod 2) (LinearMap.ker (bdry (M2 p) (0 : (Fin 0 → ZMod 2) →ₗ[ZMod 2] (Fin n2 → ZMod 2)) (M2 a2).mulVecLin)) : ℤ) = nb at *
  obtain rfl : np = c - rk p := by linarith
  linear_combination h2 - h1

end Verif.ProductRank
