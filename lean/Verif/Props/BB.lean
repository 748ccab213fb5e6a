import Verif.Model.BB
import Verif.Props.CSS
import Mathlib.Logic.Equiv.Fin.Basic
import Mathlib.Algebra.Group.Commute.Basic
import Mathlib.Algebra.BigOperators.Fin

/-! # C17, C71: bivariate bicycle codes -/

namespace Verif.BB
open Verif Verif.CSS

theorem kron_mul {l m : ℕ} (a c : Matrix (Fin l) (Fin l) ℕ) (b d : Matrix (Fin m) (Fin m) ℕ) :
    kron a b * kron c d = kron (a * c) (b * d) := by
  ext i j
  simp only [Matrix.mul_apply, kron]
  rw [← finProdFinEquiv.sum_comp, Fintype.sum_prod_type, Finset.sum_mul_sum]
  refine Finset.sum_congr rfl fun x _ => Finset.sum_congr rfl fun y _ => ?_
  have h := finProdFinEquiv.symm_apply_apply (x, y)
  have h1 : (finProdFinEquiv (x, y)).divNat = x := congrArg Prod.fst h
  have h2 : (finProdFinEquiv (x, y)).modNat = y := congrArg Prod.snd h
  rw [h1, h2]
  ring

theorem kron_one {l m : ℕ} : kron (1 : Matrix (Fin l) (Fin l) ℕ) (1 : Matrix (Fin m) (Fin m) ℕ) = 1 := by
  ext i j
  simp only [kron, Matrix.one_apply]
  have : i = j ↔ i.divNat = j.divNat ∧ i.modNat = j.modNat := by
    rw [← finProdFinEquiv.symm.injective.eq_iff]
    simp [finProdFinEquiv]
  by_cases h1 : i.divNat = j.divNat <;> by_cases h2 : i.modNat = j.modNat <;> simp [this, h1, h2]

theorem xMatrix_pow (l m p : ℕ) : xMatrix l m ^ p = kron (shiftMatrix l ^ p) 1 := by
  induction p with
  | zero => rw [pow_zero, pow_zero, kron_one]
  | succ p ih => rw [pow_succ, pow_succ, ih, xMatrix, kron_mul, Matrix.one_mul]

theorem yMatrix_pow (l m p : ℕ) : yMatrix l m ^ p = kron 1 (shiftMatrix m ^ p) := by
  induction p with
  | zero => rw [pow_zero, pow_zero, kron_one]
  | succ p ih => rw [pow_succ, pow_succ, ih, yMatrix, kron_mul, Matrix.one_mul]

theorem commute_xy (l m : ℕ) : Commute (xMatrix l m) (yMatrix l m) := by
  show xMatrix l m * yMatrix l m = yMatrix l m * xMatrix l m
  rw [xMatrix, yMatrix, kron_mul, kron_mul]
  simp

theorem commute_foldl {α : Type} [Semiring α] (f : ℕ → α) (z : α) (hf : ∀ p, Commute z (f p)) :
    ∀ (l : List ℕ) (a : α), Commute z a → Commute z (l.foldl (fun a p => a + f p) a) := by
  intro l
  induction l with
  | nil => intro a h; exact h
  | cons p l ih => intro a h; exact ih _ (h.add_right (hf p))

theorem commute_cyclic (z : Matrix (Fin (l * m)) (Fin (l * m)) ℕ) (hx : Commute z (xMatrix l m))
    (hy : Commute z (yMatrix l m)) (xs ys : List ℕ) : Commute z (cyclicMatrixSum xs ys l m) :=
  commute_foldl _ z (fun p => hy.pow_right p) _ _ (commute_foldl _ z (fun p => hx.pow_right p) _ _ (Commute.zero_right z))

theorem commute_sums (l m : ℕ) (xs ys xs' ys' : List ℕ) :
    Commute (cyclicMatrixSum xs ys l m) (cyclicMatrixSum xs' ys' l m) :=
  commute_cyclic _ (commute_cyclic _ (.refl _) (commute_xy l m) xs ys).symm
    (commute_cyclic _ (commute_xy l m).symm (.refl _) xs ys).symm xs' ys'

/-- For every size and every choice of exponents, the X checks and Z checks commute. -/
theorem C17_commute (m l : ℕ) (aTerms bTerms : List ℕ × List ℕ) :
    ∀ r ∈ (cyclicCodeCheckMatrix m l aTerms bTerms).1, ∀ s ∈ (cyclicCodeCheckMatrix m l aTerms bTerms).2,
      dot r s = 0 := by
  intro r hr s hs
  simp only [cyclicCodeCheckMatrix, hstack, List.mem_ofFn] at hr hs
  obtain ⟨i, rfl⟩ := hr
  obtain ⟨j, rfl⟩ := hs
  simp only [dot, Fin.sum_univ_add, Fin.append_left, Fin.append_right, Matrix.transpose_apply, mod2]
  have h := congrFun (congrFun (commute_sums l m aTerms.1 aTerms.2 bTerms.1 bTerms.2).eq i) j
  have h' := congrArg (Nat.cast (R := ZMod 2)) h
  simp only [Matrix.mul_apply, Nat.cast_sum, Nat.cast_mul] at h'
  rw [h']
  exact add_self_eq_zero' _

/-- Each check matrix has one row per group element. -/
theorem C17_rows (m l : ℕ) (aTerms bTerms : List ℕ × List ℕ) :
    (cyclicCodeCheckMatrix m l aTerms bTerms).1.length = l * m ∧
    (cyclicCodeCheckMatrix m l aTerms bTerms).2.length = l * m := by
  simp [cyclicCodeCheckMatrix, hstack]

theorem mk_ok (lib : Mod2) (m l : ℕ) (aTerms bTerms : List ℕ × List ℕ) (d : ℤ) (hd : 0 < d) (hlm : 0 < l * m) :
    ∃ c, mk lib m l aTerms bTerms d = .ok c ∧ c.n = 2 * (l * m) ∧ c.distance = d ∧ c.xDistance = d ∧ c.zDistance = d ∧
      HEq c.hx (cyclicCodeCheckMatrix m l aTerms bTerms).1 ∧ HEq c.hz (cyclicCodeCheckMatrix m l aTerms bTerms).2 := by
  obtain ⟨c, hc⟩ := C08_ctor_complete lib _ (cyclicCodeCheckMatrix m l aTerms bTerms).1
    (cyclicCodeCheckMatrix m l aTerms bTerms).2 d none none (C17_commute m l aTerms bTerms) (by
      intro h
      have h2 := congrArg List.length h
      rw [List.length_append, (C17_rows m l aTerms bTerms).1, (C17_rows m l aTerms bTerms).2, List.length_nil] at h2
      omega) hd le_rfl le_rfl
  have := C08_ctor_sound _ _ _ _ _ _ _ hc
  obtain ⟨-, h1, h2, -, -, -, -, -, -, -, h3, h4, h5, -, -⟩ := this
  exact ⟨c, hc, by rw [← (h1 _ rfl).1]; ring, h3, h4, h5, (h1 _ rfl).2.symm, (h2 _ rfl).2.symm⟩

/-- `construct_bb_code` returns a CSS code on `n` qubits exactly for the five supported lengths and
raises `InvalidCSSCodeError` for every other length. -/
theorem C17_lengths (lib : Mod2) (n : ℤ) :
    ((n ∈ ([72, 90, 108, 144, 288] : List ℤ)) → ∃ c, constructBB lib n = .ok c ∧ (c.n : ℤ) = n) ∧
    (n ∉ ([72, 90, 108, 144, 288] : List ℤ) → ∃ msg, constructBB lib n = .error (.invalidCSS msg)) := by
  constructor
  · intro h
    simp only [List.mem_cons, List.not_mem_nil, or_false] at h
    rcases h with rfl | rfl | rfl | rfl | rfl
    · obtain ⟨c, hc, hn, -⟩ := mk_ok lib 6 6 ([3], [1, 2]) ([1, 2], [3]) 6 (by norm_num) (by norm_num)
      exact ⟨c, hc, by omega⟩
    · obtain ⟨c, hc, hn, -⟩ := mk_ok lib 15 3 ([9], [1, 2]) ([2, 7], [0]) 10 (by norm_num) (by norm_num)
      exact ⟨c, hc, by omega⟩
    · obtain ⟨c, hc, hn, -⟩ := mk_ok lib 9 6 ([3], [1, 2]) ([1, 2], [3]) 10 (by norm_num) (by norm_num)
      exact ⟨c, hc, by omega⟩
    · obtain ⟨c, hc, hn, -⟩ := mk_ok lib 12 6 ([3], [1, 2]) ([1, 2], [3]) 12 (by norm_num) (by norm_num)
      exact ⟨c, hc, by omega⟩
    · obtain ⟨c, hc, hn, -⟩ := mk_ok lib 12 12 ([3], [2, 7]) ([1, 2], [3]) 18 (by norm_num) (by norm_num)
      exact ⟨c, hc, by omega⟩
  · intro h
    simp only [List.mem_cons, List.not_mem_nil, or_false, not_or] at h
    unfold constructBB
    rw [if_neg h.1, if_neg h.2.1, if_neg h.2.2.1, if_neg h.2.2.2.1, if_neg h.2.2.2.2]
    exact ⟨_, rfl⟩

/-! ### Declared distances -/

theorem shift_pow (l p : ℕ) (i j : Fin l) : (shiftMatrix l ^ p) i j = if j.val = (i.val + p) % l then 1 else 0 := by
  induction p generalizing i j with
  | zero =>
    rw [pow_zero, Matrix.one_apply, add_zero, Nat.mod_eq_of_lt i.isLt]
    simp only [Fin.ext_iff, eq_comm]
  | succ p ih =>
    rw [pow_succ, Matrix.mul_apply]
    have hl : 0 < l := i.pos
    rw [Finset.sum_eq_single ⟨(i.val + p) % l, Nat.mod_lt _ hl⟩]
    · rw [ih]
      simp only [if_true, one_mul, shiftMatrix]
      rw [Nat.mod_add_mod]
      rfl
    · intro k _ hk
      rw [ih, if_neg (fun h => hk (Fin.ext h)), zero_mul]
    · simp

/-- The `n = 90` code as returned, entry by entry. -/
theorem entry (xs ys : List ℕ) (l m : ℕ) (i j : Fin (l * m)) :
    cyclicMatrixSum xs ys l m i j =
      (xs.map fun p => (if j.divNat.val = (i.divNat.val + p) % l then 1 else 0) *
        if i.modNat = j.modNat then 1 else 0).sum +
      (ys.map fun p => (if i.divNat = j.divNat then 1 else 0) *
        if j.modNat.val = (i.modNat.val + p) % m then 1 else 0).sum := by
  have key : ∀ (M : Matrix (Fin (l * m)) (Fin (l * m)) ℕ) (ps : List ℕ) (a : Matrix (Fin (l * m)) (Fin (l * m)) ℕ),
      ps.foldl (fun a p => a + M ^ p) a i j = a i j + (ps.map fun p => (M ^ p) i j).sum := by
    intro M ps
    induction ps with
    | nil => intro a; simp
    | cons p ps ih =>
      intro a
      rw [List.foldl_cons, ih, Matrix.add_apply, List.map_cons, List.sum_cons, add_assoc]
  rw [cyclicMatrixSum, key, key, Matrix.zero_apply, zero_add]
  congr 2
  · apply List.map_congr_left
    intro p _
    rw [xMatrix_pow, kron, shift_pow, Matrix.one_apply]
  · apply List.map_congr_left
    intro p _
    rw [yMatrix_pow, kron, shift_pow, Matrix.one_apply]

/-- Check matrices of the code returned for `n = 90`. -/
def hx90 : List (Vec (3 * 15 + 3 * 15)) := (cyclicCodeCheckMatrix 15 3 ([9], [1, 2]) ([2, 7], [0])).1
def hz90 : List (Vec (3 * 15 + 3 * 15)) := (cyclicCodeCheckMatrix 15 3 ([9], [1, 2]) ([2, 7], [0])).2

/-- An X error on qubits 0 and 15. -/
def e90 : Vec (3 * 15 + 3 * 15) := Fin.append (fun k => if k.val = 0 ∨ k.val = 15 then 1 else 0) 0

/-- A Z operator commuting with all X checks that anticommutes with it. -/
def w90 : Vec (3 * 15 + 3 * 15) := Fin.append (fun k => if k.val < 15 ∧ k.val % 3 ≠ 2 then 1 else 0) 0

theorem e90_undetected : ∀ r ∈ hz90, dot r e90 = 0 := by
  intro r hr
  simp only [hz90, cyclicCodeCheckMatrix, hstack, List.mem_ofFn] at hr
  obtain ⟨j, rfl⟩ := hr
  simp only [dot, e90, Fin.sum_univ_add, Fin.append_left, Fin.append_right, Matrix.transpose_apply, mod2, entry,
    Pi.zero_apply, mul_zero, Finset.sum_const_zero, add_zero]
  revert j
  decide +kernel

theorem w90_commutes : ∀ r ∈ hx90, dot r w90 = 0 := by
  intro r hr
  simp only [hx90, cyclicCodeCheckMatrix, hstack, List.mem_ofFn] at hr
  obtain ⟨i, rfl⟩ := hr
  simp only [dot, w90, Fin.sum_univ_add, Fin.append_left, Fin.append_right, mod2, entry,
    Pi.zero_apply, mul_zero, Finset.sum_const_zero, add_zero]
  revert i
  decide +kernel

theorem e90_w90 : dot e90 w90 = 1 := by
  simp only [dot, w90, e90, Fin.sum_univ_add, Fin.append_left, Fin.append_right,
    Pi.zero_apply, mul_zero, Finset.sum_const_zero, add_zero]
  decide +kernel

theorem e90_nontrivial : e90 ∉ rowSpan hx90 := by
  intro h
  have : ∀ v ∈ rowSpan hx90, dot v w90 = 0 := by
    intro v hv
    induction hv using Submodule.span_induction with
    | mem x hx => exact w90_commutes x hx
    | zero => simp [dot]
    | add a b _ _ ha hb => rw [dot_add_left, ha, hb, add_zero]
    | smul c a _ ha => simp only [dot, Pi.smul_apply, smul_eq_mul, mul_assoc] at ha ⊢; rw [← Finset.mul_sum, ha, mul_zero]
  have h1 := this _ h
  rw [e90_w90] at h1
  exact one_ne_zero h1

theorem e90_weight : wt e90 ≤ 2 := by
  have : (Finset.univ.filter fun i => e90 i ≠ 0) ⊆ {⟨0, by norm_num⟩, ⟨15, by norm_num⟩} := by
    intro i hi
    rw [Finset.mem_filter] at hi
    have h2 := hi.2
    revert h2
    refine Fin.addCases (fun k hk => ?_) (fun k hk => ?_) i
    · rw [e90, Fin.append_left] at hk
      simp only [ne_eq, ite_eq_right_iff, one_ne_zero, imp_false, not_not] at hk
      simp only [Finset.mem_insert, Finset.mem_singleton, Fin.ext_iff, Fin.val_castAdd]
      exact hk
    · rw [e90, Fin.append_right] at hk
      simp at hk
  exact (Finset.card_le_card this).trans Finset.card_le_two

/-- The claim: every undetected non-trivial X error of a returned code has at least the declared
weight. -/
def C71_claim (lib : Mod2) : Prop := ∀ (n : ℤ) (c : Code), constructBB lib n = .ok c →
  ∀ e : Vec c.n, (∀ r ∈ c.hz, dot r e = 0) → e ∉ rowSpan c.hx → c.distance ≤ wt e

/-- The code returned for `n = 90` is declared to have distance 10, but the X error on qubits 0 and 15
is undetected and not a stabilizer: the arguments `m` and `l_` are exchanged in the call. -/
theorem C71_violated (lib : Mod2) : ¬ C71_claim lib := by
  intro h
  obtain ⟨c, hc, hn, hd, -, -, hx, hz⟩ := mk_ok lib 15 3 ([9], [1, 2]) ([2, 7], [0]) 10 (by norm_num) (by norm_num)
  have h90 := h 90 c hc
  clear h hc
  obtain ⟨n, hx', hz', stab, d, xd, zd, lx, lz⟩ := c
  simp only at hn hd hx hz h90
  obtain rfl : n = 3 * 15 + 3 * 15 := by omega
  obtain rfl : hx' = hx90 := eq_of_heq hx
  obtain rfl : hz' = hz90 := eq_of_heq hz
  have := h90 e90 e90_undetected e90_nontrivial
  have := e90_weight
  omega

/-- A concrete case: in the 72-qubit code each X check has one row per group element. -/
example : (cyclicCodeCheckMatrix 6 6 ([3], [1, 2]) ([1, 2], [3])).1.length = 36 :=
  (C17_rows 6 6 _ _).1

end Verif.BB
