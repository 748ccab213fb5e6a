import Verif.Model.LiftedProduct
import Mathlib.Logic.Equiv.Fin.Basic
import Mathlib.Algebra.BigOperators.Fin
import Mathlib.Data.Matrix.Block
import Mathlib.Tactic.Ring
import Mathlib.Tactic.Abel

/-! # C105: lifted product codes commute -/

namespace Verif.Lifted
open Verif Matrix

variable {L : ℕ}

/-- The circulant shift by `e`. -/
def shift (L : ℕ) (e : ℤ) : Matrix (Fin L) (Fin L) (ZMod 2) := fun s t => if ((s.val : ℤ) + e) % L = t.val then 1 else 0

theorem shift_index (s : Fin L) (e : ℤ) : ∃ u : Fin L, ((s.val : ℤ) + e) % L = u.val := by
  have hL : 0 < (L : ℤ) := by have := s.isLt; omega
  refine ⟨⟨(((s.val : ℤ) + e) % L).toNat, ?_⟩, ?_⟩
  · have h1 := Int.emod_nonneg ((s.val : ℤ) + e) hL.ne'
    have h2 := Int.emod_lt_of_pos ((s.val : ℤ) + e) hL
    omega
  · have h1 := Int.emod_nonneg ((s.val : ℤ) + e) hL.ne'
    show _ = ((((s.val : ℤ) + e) % L).toNat : ℤ)
    omega

theorem shift_mul (e f : ℤ) : shift L e * shift L f = shift L (e + f) := by
  ext s t
  obtain ⟨u, hu⟩ := shift_index s e
  rw [mul_apply, Finset.sum_eq_single u]
  · simp only [shift, hu, if_true, one_mul]
    have : ((s.val : ℤ) + (e + f)) % L = ((u.val : ℤ) + f) % L := by
      rw [← hu, ← add_assoc, Int.emod_add_emod]
    rw [this]
  · intro v _ hv
    have : ¬ (((s.val : ℤ) + e) % L = v.val) := by
      rw [hu]; intro h; apply hv; ext; omega
    simp only [shift, this, if_false, zero_mul]
  · intro h; exact absurd (Finset.mem_univ u) h

theorem shift_zero : shift L 0 = 1 := by
  ext s t
  have h : ((s.val : ℤ) + 0) % L = s.val := by
    rw [add_zero]; exact Int.emod_eq_of_lt (by omega) (by have := s.isLt; omega)
  simp only [shift, h, one_apply]
  by_cases hst : s = t
  · simp [hst]
  · have : ¬ ((s.val : ℤ) = t.val) := by intro h; apply hst; ext; omega
    simp [hst, this]

theorem shift_neg (e : ℤ) : shift L (-e) = (shift L e)ᵀ := by
  ext s t
  have hL : 0 < (L : ℤ) := by have := s.isLt; omega
  have hs : (s.val : ℤ) % L = s.val := Int.emod_eq_of_lt (by omega) (by have := s.isLt; omega)
  have ht : (t.val : ℤ) % L = t.val := Int.emod_eq_of_lt (by omega) (by have := t.isLt; omega)
  simp only [shift, transpose_apply]
  have : (((s.val : ℤ) + -e) % L = t.val) ↔ (((t.val : ℤ) + e) % L = s.val) := by
    constructor
    · intro h; rw [← h, Int.emod_add_emod, neg_add_cancel_right, hs]
    · intro h; rw [← h, Int.emod_add_emod, add_neg_cancel_right, ht]
  simp only [this]

theorem toBinary_eq (x : Elem) : Elem.toBinary L x = (x.map (shift L)).sum := by
  ext s t
  induction x with
  | nil => rfl
  | cons e x ih =>
    have : Elem.toBinary L (e :: x) s t = shift L e s t + Elem.toBinary L x s t := by
      simp [Elem.toBinary, shift]
    rw [this, ih, List.map_cons, List.sum_cons, add_apply]

theorem toBinary_nil : Elem.toBinary L [] = 0 := by rw [toBinary_eq]; rfl

theorem toBinary_cons (e : ℤ) (x : Elem) : Elem.toBinary L (e :: x) = shift L e + Elem.toBinary L x := by
  rw [toBinary_eq, toBinary_eq, List.map_cons, List.sum_cons]

theorem toBinary_append (x y : Elem) : Elem.toBinary L (x ++ y) = Elem.toBinary L x + Elem.toBinary L y := by
  rw [toBinary_eq, toBinary_eq, toBinary_eq, List.map_append, List.sum_append]

theorem toBinary_map_add (e : ℤ) (y : Elem) :
    Elem.toBinary L (y.map fun f => e + f) = shift L e * Elem.toBinary L y := by
  induction y with
  | nil => rw [List.map_nil, toBinary_nil, Matrix.mul_zero]
  | cons f y ih => rw [List.map_cons, toBinary_cons, toBinary_cons, ih, Matrix.mul_add, shift_mul]

theorem toBinary_mul (x y : Elem) : Elem.toBinary L (x.mul y) = Elem.toBinary L x * Elem.toBinary L y := by
  induction x with
  | nil => rw [toBinary_nil, Matrix.zero_mul]; exact toBinary_nil
  | cons e x ih =>
    have : Elem.mul (e :: x) y = (y.map fun f => e + f) ++ Elem.mul x y := by simp [Elem.mul]
    rw [this, toBinary_append, toBinary_map_add, ih, toBinary_cons, Matrix.add_mul]

theorem toBinary_neg (x : Elem) : Elem.toBinary L (x.map fun e => -e) = (Elem.toBinary L x)ᵀ := by
  induction x with
  | nil => rw [List.map_nil, toBinary_nil, transpose_zero]
  | cons e x ih => rw [List.map_cons, toBinary_cons, toBinary_cons, ih, transpose_add, shift_neg]

theorem shift_comm (e : ℤ) (x : Elem) : shift L e * Elem.toBinary L x = Elem.toBinary L x * shift L e := by
  induction x with
  | nil => rw [toBinary_nil, Matrix.zero_mul, Matrix.mul_zero]
  | cons f x ih => rw [toBinary_cons, Matrix.add_mul, Matrix.mul_add, ih, shift_mul, shift_mul, add_comm e f]

theorem toBinary_comm (x y : Elem) : Elem.toBinary L x * Elem.toBinary L y = Elem.toBinary L y * Elem.toBinary L x := by
  induction x with
  | nil => rw [toBinary_nil, Matrix.zero_mul, Matrix.mul_zero]
  | cons e x ih => rw [toBinary_cons, Matrix.add_mul, Matrix.mul_add, ih, shift_comm]

theorem toBinary_ident {n : ℕ} (i j : Fin n) : Elem.toBinary L (ident n i j) = if i = j then 1 else 0 := by
  unfold ident
  split
  · rw [toBinary_cons, toBinary_nil, shift_zero, add_zero]
  · exact toBinary_nil

theorem prod_div {a b : ℕ} (x : Fin a) (y : Fin b) : (finProdFinEquiv (x, y)).divNat = x :=
  congrArg Prod.fst (finProdFinEquiv.symm_apply_apply (x, y))

theorem prod_mod {a b : ℕ} (x : Fin a) (y : Fin b) : (finProdFinEquiv (x, y)).modNat = y :=
  congrArg Prod.snd (finProdFinEquiv.symm_apply_apply (x, y))

/-- Products of binary forms are computed with the circulants. -/
theorem toBinary_mul_transpose {r r' n : ℕ} (A : Proto r n) (B : Proto r' n) (i : Fin (r * L)) (j : Fin (r' * L)) :
    (toBinary L A * (toBinary L B)ᵀ) i j =
      (∑ k : Fin n, Elem.toBinary L (A i.divNat k) * (Elem.toBinary L (B j.divNat k))ᵀ) i.modNat j.modNat := by
  rw [mul_apply, ← finProdFinEquiv.sum_comp, Fintype.sum_prod_type, Matrix.sum_apply]
  refine Finset.sum_congr rfl fun x _ => ?_
  rw [mul_apply]
  refine Finset.sum_congr rfl fun y _ => ?_
  simp only [transpose_apply, toBinary, prod_div, prod_mod]

/-- One row of the first blocks. -/
theorem row1 {am an bm bn : ℕ} (a : Proto am an) (b : Proto bm bn) (i : Fin (am * bn)) (j : Fin (an * bm)) :
    (∑ k : Fin (an * bn), Elem.toBinary L (hx1 bn a i k) * (Elem.toBinary L (hz1 an b j k))ᵀ) =
      Elem.toBinary L (a i.divNat j.divNat) * (Elem.toBinary L (b j.modNat i.modNat))ᵀ := by
  rw [← finProdFinEquiv.sum_comp, Fintype.sum_prod_type, Finset.sum_eq_single j.divNat, Finset.sum_eq_single i.modNat]
  · simp only [hx1, hz1, kron, prod_div, prod_mod, toBinary_mul, toBinary_ident, if_true, Matrix.mul_one, Matrix.one_mul]
  · intro l _ hl
    simp only [hx1, hz1, kron, prod_div, prod_mod, toBinary_mul, toBinary_ident, if_neg (Ne.symm hl), Matrix.mul_zero,
      Matrix.zero_mul]
  · intro h; exact absurd (Finset.mem_univ _) h
  · intro l _ hl
    refine Finset.sum_eq_zero fun y _ => ?_
    simp only [hx1, hz1, kron, prod_div, prod_mod, toBinary_mul, toBinary_ident, if_neg (Ne.symm hl), Matrix.mul_zero,
      Matrix.zero_mul, transpose_zero]
  · intro h; exact absurd (Finset.mem_univ _) h

/-- One row of the second blocks. -/
theorem row2 {am an bm bn : ℕ} (a : Proto am an) (b : Proto bm bn) (i : Fin (am * bn)) (j : Fin (an * bm)) :
    (∑ k : Fin (am * bm), Elem.toBinary L (hx2 am b i k) * (Elem.toBinary L (hz2 bm a j k))ᵀ) =
      (Elem.toBinary L (b j.modNat i.modNat))ᵀ * Elem.toBinary L (a i.divNat j.divNat) := by
  rw [← finProdFinEquiv.sum_comp, Fintype.sum_prod_type, Finset.sum_eq_single i.divNat, Finset.sum_eq_single j.modNat]
  · simp only [hx2, hz2, kron, prod_div, prod_mod, toBinary_mul, toBinary_ident, if_true, Matrix.mul_one, Matrix.one_mul,
      transpose, toBinary_neg, transpose_transpose]
  · intro l _ hl
    simp only [hx2, hz2, kron, prod_div, prod_mod, toBinary_mul, toBinary_ident, if_neg (Ne.symm hl), Matrix.mul_zero,
      transpose_zero]
  · intro h; exact absurd (Finset.mem_univ _) h
  · intro l _ hl
    refine Finset.sum_eq_zero fun y _ => ?_
    simp only [hx2, hz2, kron, prod_div, prod_mod, toBinary_mul, toBinary_ident, if_neg (Ne.symm hl),
      Matrix.zero_mul]
  · intro h; exact absurd (Finset.mem_univ _) h

theorem rows_cancel {am an bm bn : ℕ} (a : Proto am an) (b : Proto bm bn) (i : Fin (am * bn)) (j : Fin (an * bm)) :
    (∑ k : Fin (an * bn), Elem.toBinary L (hx1 bn a i k) * (Elem.toBinary L (hz1 an b j k))ᵀ) +
      (∑ k : Fin (am * bm), Elem.toBinary L (hx2 am b i k) * (Elem.toBinary L (hz2 bm a j k))ᵀ) = 0 := by
  rw [row1, row2, ← toBinary_neg, toBinary_comm]
  ext s t
  rw [add_apply]
  exact CharTwo.add_self_eq_zero _

/-- C105: the checks of a lifted product code commute, for every lift parameter and all protographs. -/
theorem C105_lifted {am an bm bn : ℕ} (L : ℕ) (a : Proto am an) (b : Proto bm bn) :
    (liftedHgp L a b).1 * (liftedHgp L a b).2ᵀ = 0 := by
  ext i j
  show (toBinary L (hxProto a b) * (toBinary L (hzProto a b))ᵀ) i j = 0
  rw [toBinary_mul_transpose, Fin.sum_univ_add]
  simp only [hxProto, hzProto, hstack, Fin.append_left, Fin.append_right]
  rw [rows_cancel]; rfl

/-- The circulant `1 + x + x³` of length seven with itself; the checks do not vanish. -/
example : (liftedHgp 7 (fun _ _ => [0, 1, 3] : Proto 1 1) (fun _ _ => [0, 1, 3] : Proto 1 1)).1 ≠ 0 := by decide +kernel

/-- Two rows of a stabilizer code with X part `X` and Z part `Z` always commute. -/
def RowsCommute {r n : ℕ} (X Z : Matrix (Fin r) (Fin n) (ZMod 2)) : Prop := X * Zᵀ + Z * Xᵀ = 0

/-- C105: the array `protograph` of a lifted product code, lifted, is a stabilizer code. -/
theorem C105_protograph {am an bm bn : ℕ} (L : ℕ) (a : Proto am an) (b : Proto bm bn) :
    RowsCommute (toBinary L (protograph (hxProto a b) (hzProto a b)).1) (toBinary L (protograph (hxProto a b) (hzProto a b)).2) := by
  have key : ∀ (i : Fin (am * bn)) (j : Fin (an * bm)),
      (∑ k, Elem.toBinary L (hxProto a b i k) * (Elem.toBinary L (hzProto a b j k))ᵀ) = 0 := by
    intro i j
    rw [Fin.sum_univ_add]
    simp only [hxProto, hzProto, hstack, Fin.append_left, Fin.append_right]
    exact rows_cancel a b i j
  have key' : ∀ (i : Fin (am * bn)) (j : Fin (an * bm)),
      (∑ k, Elem.toBinary L (hzProto a b j k) * (Elem.toBinary L (hxProto a b i k))ᵀ) = 0 := by
    intro i j
    have h := congrArg Matrix.transpose (key i j)
    rw [transpose_sum, transpose_zero] at h
    simpa only [transpose_mul, transpose_transpose] using h
  unfold RowsCommute
  ext i j
  rw [add_apply, toBinary_mul_transpose, toBinary_mul_transpose, ← add_apply]
  have : ∀ (i j : Fin (an * bm + am * bn)),
      (∑ k, Elem.toBinary L ((protograph (hxProto a b) (hzProto a b)).1 i k) *
        (Elem.toBinary L ((protograph (hxProto a b) (hzProto a b)).2 j k))ᵀ) +
      (∑ k, Elem.toBinary L ((protograph (hxProto a b) (hzProto a b)).2 i k) *
        (Elem.toBinary L ((protograph (hxProto a b) (hzProto a b)).1 j k))ᵀ) = 0 := by
    intro i j
    refine Fin.addCases (fun i => ?_) (fun i => ?_) i <;> refine Fin.addCases (fun j => ?_) (fun j => ?_) j <;>
      simp only [protograph, vstack, zeros, Fin.append_left, Fin.append_right, toBinary_nil, transpose_zero, Matrix.mul_zero,
        Matrix.zero_mul, Finset.sum_const_zero, key, key', add_zero]
  rw [this]; rfl

/-- C105: a bias-tailored lifted product is built exactly if both kinds of check protographs have the same number of rows, and then
its rows commute. -/
theorem C105_bias_tailored {am an bm bn : ℕ} (L : ℕ) (a : Proto am an) (b : Proto bm bn) (h : an * bm = am * bn) :
    ∃ p, biasTailored a b = .ok p ∧ RowsCommute (toBinary L p.1) (toBinary L p.2) := by
  refine ⟨_, dif_pos h, ?_⟩
  have key : ∀ (i j : Fin (am * bn)),
      (∑ k, Elem.toBinary L (castRows h (hz2 bm a) i k) * (Elem.toBinary L (hx2 am b j k))ᵀ) +
      (∑ k, Elem.toBinary L (castRows h (hz1 an b) i k) * (Elem.toBinary L (hx1 bn a j k))ᵀ) = 0 := by
    intro i j
    have h' := congrArg Matrix.transpose (rows_cancel (L := L) a b j (i.cast h.symm))
    rw [transpose_add, transpose_sum, transpose_sum, transpose_zero] at h'
    simp only [transpose_mul, transpose_transpose] at h'
    rw [add_comm] at h'
    exact h'
  have key' : ∀ (i j : Fin (am * bn)),
      (∑ k, Elem.toBinary L (hx1 bn a i k) * (Elem.toBinary L (castRows h (hz1 an b) j k))ᵀ) +
      (∑ k, Elem.toBinary L (hx2 am b i k) * (Elem.toBinary L (castRows h (hz2 bm a) j k))ᵀ) = 0 := fun i j =>
    rows_cancel a b i (j.cast h.symm)
  unfold RowsCommute
  ext i j
  rw [add_apply, toBinary_mul_transpose, toBinary_mul_transpose, ← add_apply]
  refine Eq.trans (congrFun (congrFun (?_ : _ = (0 : Matrix (Fin L) (Fin L) (ZMod 2))) _) _) rfl
  generalize i.divNat = i'
  generalize j.divNat = j'
  refine Fin.addCases (fun i => ?_) (fun i => ?_) i' <;> refine Fin.addCases (fun j => ?_) (fun j => ?_) j' <;>
    simp only [vstack, hstack, zeros, castRows, Fin.append_left, Fin.append_right, toBinary_nil, transpose_zero, Matrix.mul_zero,
      Matrix.zero_mul, Finset.sum_const_zero, Fin.sum_univ_add, add_zero, zero_add]
  · exact key i j
  · exact key' i j

/-- A bias-tailored product of two different arrays (2×2 and 1×1) that meets the hypothesis, with nonzero checks. -/
example : ∃ p, biasTailored (fun i j => [(i : ℤ) + j] : Proto 2 2) (fun _ _ => [0, 1] : Proto 1 1) = .ok p ∧
    toBinary 3 p.1 ≠ 0 := ⟨_, dif_pos rfl, by decide +kernel⟩

/-- The full claim about bias-tailored products: they can be built for all protographs. -/
def C105_claim : Prop := ∀ (am an bm bn : ℕ) (a : Proto am an) (b : Proto bm bn), ∃ p, biasTailored a b = .ok p

/-- C105, what happens otherwise: `ValueError`. -/
theorem C105_bias_tailored_raises {am an bm bn : ℕ} (a : Proto am an) (b : Proto bm bn) (h : an * bm ≠ am * bn) :
    biasTailored a b = .error .valueError := dif_neg h

/-- C105, false for arrays of different shapes: a 1×2 and a 1×1 array raise. -/
theorem C105_violated_shapes : ¬ C105_claim := by
  intro h
  obtain ⟨p, hp⟩ := h 1 2 1 1 (fun _ _ => [0]) (fun _ _ => [0])
  have h' := (C105_bias_tailored_raises (am := 1) (an := 2) (bm := 1) (bn := 1) (fun _ _ => [0]) (fun _ _ => [0])
    (by decide)).symm.trans hp
  cases h'

/-- C105, false for the array `protograph` of a bias-tailored product: it separates X and Z parts that belong together, and the
rows of the result anticommute (one-by-one arrays, lift parameter one). -/
theorem C105_violated_protograph : ∃ p, biasTailored (fun _ _ => [0] : Proto 1 1) (fun _ _ => [0] : Proto 1 1) = .ok p ∧
    RowsCommute (toBinary 1 p.1) (toBinary 1 p.2) ∧
    ¬ RowsCommute (toBinary 1 (protograph p.1 p.2).1) (toBinary 1 (protograph p.1 p.2).2) := by
  refine ⟨_, dif_pos rfl, ?_, ?_⟩ <;> unfold RowsCommute <;> decide +kernel

/-- The contract on `ldpc.protograph` is needed: with the plain transposition of numpy (entries not transposed) the checks of the
code built from `x` and `1` with lift parameter three anticommute. -/
theorem C105_transpose_contract_needed :
    toBinary 3 (hstack (kron (fun _ _ => [1] : Proto 1 1) (ident 1)) (kron (ident 1) (fun _ _ => [0] : Proto 1 1))) *
      (toBinary 3 (hstack (kron (ident 1) (fun _ _ => [0] : Proto 1 1)) (kron (fun _ _ => [1] : Proto 1 1) (ident 1))))ᵀ ≠ 0 := by
  decide +kernel

end Verif.Lifted
