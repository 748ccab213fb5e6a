import Verif.Model.Product
import Mathlib.Logic.Equiv.Fin.Basic
import Mathlib.Algebra.BigOperators.Fin
import Mathlib.Tactic.Ring
import Mathlib.Tactic.LinearCombination

/-! # C18, C19: product codes are chain complexes -/

namespace Verif.Product
open Verif

/-- All entries of the matrix are even: the product is zero mod 2. -/
def Even2 {a b : ℕ} (M : Matrix (Fin a) (Fin b) ℤ) : Prop := ∀ i j, (2 : ℤ) ∣ M i j

theorem allZerosMod2_iff {a b : ℕ} (M : Matrix (Fin a) (Fin b) ℤ) : allZerosMod2 M = true ↔ Even2 M := by
  simp only [allZerosMod2, decide_eq_true_eq, Even2, Int.dvd_iff_emod_eq_zero]

theorem kron_mul {a b c d e f : ℕ} (A : Matrix (Fin a) (Fin b) ℤ) (C : Matrix (Fin b) (Fin c) ℤ)
    (B : Matrix (Fin d) (Fin e) ℤ) (D : Matrix (Fin e) (Fin f) ℤ) :
    kron A B * kron C D = kron (A * C) (B * D) := by
  ext i j
  simp only [Matrix.mul_apply, kron]
  rw [← finProdFinEquiv.sum_comp, Fintype.sum_prod_type, Finset.sum_mul_sum]
  refine Finset.sum_congr rfl fun x _ => Finset.sum_congr rfl fun y _ => ?_
  have h := finProdFinEquiv.symm_apply_apply (x, y)
  have h1 : (finProdFinEquiv (x, y)).divNat = x := congrArg Prod.fst h
  have h2 : (finProdFinEquiv (x, y)).modNat = y := congrArg Prod.snd h
  rw [h1, h2]
  ring

theorem hstack_mul_vstack {r a b c : ℕ} (A : Matrix (Fin r) (Fin a) ℤ) (B : Matrix (Fin r) (Fin b) ℤ)
    (C : Matrix (Fin a) (Fin c) ℤ) (D : Matrix (Fin b) (Fin c) ℤ) : hstack A B * vstack C D = A * C + B * D := by
  ext i j
  simp only [Matrix.mul_apply, Matrix.add_apply, hstack, vstack, Fin.sum_univ_add, Fin.append_left, Fin.append_right]

theorem vstack_mul {a b c d : ℕ} (A : Matrix (Fin a) (Fin c) ℤ) (B : Matrix (Fin b) (Fin c) ℤ)
    (M : Matrix (Fin c) (Fin d) ℤ) : vstack A B * M = vstack (A * M) (B * M) := by
  ext i j
  refine Fin.addCases (fun k => ?_) (fun k => ?_) i <;>
    simp only [Matrix.mul_apply, vstack, Fin.append_left, Fin.append_right]

theorem mul_hstack {a b c d : ℕ} (M : Matrix (Fin d) (Fin a) ℤ) (A : Matrix (Fin a) (Fin b) ℤ)
    (B : Matrix (Fin a) (Fin c) ℤ) : M * hstack A B = hstack (M * A) (M * B) := by
  ext i j
  refine Fin.addCases (fun k => ?_) (fun k => ?_) j <;>
    simp only [Matrix.mul_apply, hstack, Fin.append_left, Fin.append_right]

theorem even2_hstack {r a b : ℕ} (A : Matrix (Fin r) (Fin a) ℤ) (B : Matrix (Fin r) (Fin b) ℤ) :
    Even2 (hstack A B) ↔ Even2 A ∧ Even2 B := by
  constructor
  · intro h
    refine ⟨fun i j => ?_, fun i j => ?_⟩
    · have := h i (Fin.castAdd b j); rwa [hstack, Fin.append_left] at this
    · have := h i (Fin.natAdd a j); rwa [hstack, Fin.append_right] at this
  · rintro ⟨h1, h2⟩ i j
    refine Fin.addCases (fun k => ?_) (fun k => ?_) j
    · rw [hstack, Fin.append_left]; exact h1 i k
    · rw [hstack, Fin.append_right]; exact h2 i k

theorem even2_vstack {r a b : ℕ} (A : Matrix (Fin a) (Fin r) ℤ) (B : Matrix (Fin b) (Fin r) ℤ) :
    Even2 (vstack A B) ↔ Even2 A ∧ Even2 B := by
  constructor
  · intro h
    refine ⟨fun i j => ?_, fun i j => ?_⟩
    · have := h (Fin.castAdd b i) j; rwa [vstack, Fin.append_left] at this
    · have := h (Fin.natAdd a i) j; rwa [vstack, Fin.append_right] at this
  · rintro ⟨h1, h2⟩ i j
    refine Fin.addCases (fun k => ?_) (fun k => ?_) i
    · rw [vstack, Fin.append_left]; exact h1 k j
    · rw [vstack, Fin.append_right]; exact h2 k j

theorem hstack_add {r a b : ℕ} (A A' : Matrix (Fin r) (Fin a) ℤ) (B B' : Matrix (Fin r) (Fin b) ℤ) :
    hstack A B + hstack A' B' = hstack (A + A') (B + B') := by
  ext i j
  refine Fin.addCases (fun k => ?_) (fun k => ?_) j <;>
    simp only [Matrix.add_apply, hstack, Fin.append_left, Fin.append_right]

theorem even2_double {a b : ℕ} (M : Matrix (Fin a) (Fin b) ℤ) : Even2 (M + M) := by
  intro i j
  rw [Matrix.add_apply, ← two_mul]
  exact dvd_mul_right _ _

theorem even2_zero {a b : ℕ} : Even2 (0 : Matrix (Fin a) (Fin b) ℤ) := fun i j => by simp

/-- `M ⊗ I` is even iff `M` is, unless the identity is empty. -/
theorem even2_kron_one {a b r : ℕ} (M : Matrix (Fin a) (Fin b) ℤ) :
    Even2 (kron M (1 : Matrix (Fin r) (Fin r) ℤ)) ↔ Even2 M ∨ r = 0 := by
  constructor
  · intro h
    rcases Nat.eq_zero_or_pos r with h0 | h0
    · exact .inr h0
    · left
      intro i j
      have := h (finProdFinEquiv (i, (⟨0, h0⟩ : Fin r))) (finProdFinEquiv (j, (⟨0, h0⟩ : Fin r)))
      have e : ∀ {m : ℕ} (x : Fin m), (finProdFinEquiv (x, (⟨0, h0⟩ : Fin r))).divNat = x := fun x =>
        congrArg Prod.fst (finProdFinEquiv.symm_apply_apply (x, (⟨0, h0⟩ : Fin r)))
      have e' : ∀ {m : ℕ} (x : Fin m), (finProdFinEquiv (x, (⟨0, h0⟩ : Fin r))).modNat = ⟨0, h0⟩ := fun x =>
        congrArg Prod.snd (finProdFinEquiv.symm_apply_apply (x, (⟨0, h0⟩ : Fin r)))
      rw [kron, e, e, e', e', Matrix.one_apply_eq, mul_one] at this
      exact this
  · rintro (h | rfl)
    · intro i j
      exact Dvd.dvd.mul_right (h _ _) _
    · intro i
      exact absurd i.isLt (by simp)

theorem d1_d2 {n0 n1 n2 r c : ℕ} (a1 : Matrix (Fin n0) (Fin n1) ℤ) (a2 : Matrix (Fin n1) (Fin n2) ℤ)
    (p : Matrix (Fin r) (Fin c) ℤ) : Even2 (d1 a1 p * d2 a1 a2 p) ↔ Even2 (a1 * a2) ∨ r = 0 := by
  rw [d1, d2, hstack_mul_vstack, mul_hstack, mul_hstack, kron_mul, kron_mul, kron_mul, Matrix.mul_zero, hstack_add,
    Matrix.mul_one, Matrix.mul_one, Matrix.one_mul, Matrix.one_mul, Matrix.mul_one, add_zero, even2_hstack]
  rw [← even2_kron_one (r := r)]
  constructor
  · exact fun h => h.1
  · exact fun h => ⟨h, even2_double _⟩

theorem d2_dLast {n0 n1 n2 r c : ℕ} (a1 : Matrix (Fin n0) (Fin n1) ℤ) (a2 : Matrix (Fin n1) (Fin n2) ℤ)
    (p : Matrix (Fin r) (Fin c) ℤ) : Even2 (d2 a1 a2 p * dLast a2 p) ↔ Even2 (a1 * a2) ∨ c = 0 := by
  rw [d2, dLast, vstack_mul, hstack_mul_vstack, hstack_mul_vstack, kron_mul, kron_mul, kron_mul, Matrix.zero_mul,
    Matrix.mul_one, Matrix.mul_one, Matrix.one_mul, Matrix.one_mul, Matrix.mul_one, zero_add, even2_vstack]
  rw [← even2_kron_one (r := c)]
  constructor
  · exact fun h => h.2
  · exact fun h => ⟨even2_double _, h⟩

theorem d2_d2 {n0 n1 n2 n3 r c : ℕ} (a1 : Matrix (Fin n0) (Fin n1) ℤ) (a2 : Matrix (Fin n1) (Fin n2) ℤ)
    (a3 : Matrix (Fin n2) (Fin n3) ℤ) (p : Matrix (Fin r) (Fin c) ℤ) (h12 : Even2 (a1 * a2)) (h23 : Even2 (a2 * a3)) :
    Even2 (d2 a1 a2 p * d2 a2 a3 p) := by
  rw [d2, d2, vstack_mul, hstack_mul_vstack, hstack_mul_vstack, mul_hstack, mul_hstack, mul_hstack, mul_hstack,
    kron_mul, kron_mul, kron_mul, kron_mul, hstack_add, hstack_add, even2_vstack, even2_hstack, even2_hstack]
  simp only [Matrix.mul_zero, Matrix.zero_mul, Matrix.mul_one, Matrix.one_mul, add_zero, zero_add]
  exact ⟨⟨(even2_kron_one _).2 (.inl h23), even2_double _⟩, even2_zero, (even2_kron_one _).2 (.inl h12)⟩

/-- 3D product codes: from `a1 a2 = 0` the function returns three matrices whose consecutive products
vanish mod 2. -/
theorem C18_product3d {n0 n1 n2 r c : ℕ} (a1 : Matrix (Fin n0) (Fin n1) ℤ) (a2 : Matrix (Fin n1) (Fin n2) ℤ)
    (p : Matrix (Fin r) (Fin c) ℤ) (h : Even2 (a1 * a2)) :
    ∃ D1 D2 D3, generate3d a1 a2 p = .ok (D1, D2, D3) ∧ Even2 (D1 * D2) ∧ Even2 (D2 * D3) := by
  have h1 := (d1_d2 a1 a2 p).2 (.inl h)
  have h2 := (d2_dLast a1 a2 p).2 (.inl h)
  refine ⟨_, _, _, ?_, h1, h2⟩
  rw [generate3d, if_pos (by rw [(allZerosMod2_iff _).2 h1, (allZerosMod2_iff _).2 h2]; rfl)]

/-- Conversely, whatever is returned is a chain complex, and inputs with `a1 a2 ≠ 0` are rejected
unless `p` has no row and no column. -/
theorem C18_rejects {n0 n1 n2 r c : ℕ} (a1 : Matrix (Fin n0) (Fin n1) ℤ) (a2 : Matrix (Fin n1) (Fin n2) ℤ)
    (p : Matrix (Fin r) (Fin c) ℤ) :
    (∀ out, generate3d a1 a2 p = .ok out → Even2 (out.1 * out.2.1) ∧ Even2 (out.2.1 * out.2.2)) ∧
    (generate3d a1 a2 p = .error .runtimeError ↔ ¬ Even2 (a1 * a2) ∧ (0 < r ∨ 0 < c)) := by
  have hc : ((allZerosMod2 (d1 a1 p * d2 a1 a2 p) && allZerosMod2 (d2 a1 a2 p * dLast a2 p)) = true) ↔
      Even2 (d1 a1 p * d2 a1 a2 p) ∧ Even2 (d2 a1 a2 p * dLast a2 p) := by
    rw [Bool.and_eq_true, allZerosMod2_iff, allZerosMod2_iff]
  unfold generate3d
  constructor
  · intro out h
    split at h
    · next h' => cases h; exact hc.1 h'
    · cases h
  · rw [d1_d2, d2_dLast] at hc
    by_cases h : Even2 (a1 * a2)
    · rw [if_pos (hc.2 ⟨.inl h, .inl h⟩)]
      simp [h]
    · simp only [h, false_or, not_false_eq_true, true_and] at hc ⊢
      by_cases h0 : r = 0 ∧ c = 0
      · rw [if_pos (hc.2 h0)]
        constructor
        · intro h; cases h
        · omega
      · rw [if_neg (fun h' => h0 (hc.1 h'))]
        simp only [true_iff]
        omega

/-- 4D product codes: from `a1 a2 = 0` and `a2 a3 = 0`, with or without the internal checks, four
matrices are returned whose consecutive products vanish mod 2. -/
theorem C19_product4d {n0 n1 n2 n3 r c : ℕ} (a1 : Matrix (Fin n0) (Fin n1) ℤ) (a2 : Matrix (Fin n1) (Fin n2) ℤ)
    (a3 : Matrix (Fin n2) (Fin n3) ℤ) (p : Matrix (Fin r) (Fin c) ℤ) (checks : Bool)
    (h12 : Even2 (a1 * a2)) (h23 : Even2 (a2 * a3)) :
    ∃ D1 D2 D3 D4, generate4d a1 a2 a3 p checks = .ok (D1, D2, D3, D4) ∧
      Even2 (D1 * D2) ∧ Even2 (D2 * D3) ∧ Even2 (D3 * D4) := by
  have h1 := (d1_d2 a1 a2 p).2 (.inl h12)
  have h2 := d2_d2 a1 a2 a3 p h12 h23
  have h3 := (d2_dLast a2 a3 p).2 (.inl h23)
  refine ⟨_, _, _, _, ?_, h1, h2, h3⟩
  rw [generate4d, if_neg]
  rw [(allZerosMod2_iff _).2 h1, (allZerosMod2_iff _).2 h2, (allZerosMod2_iff _).2 h3]
  simp

theorem even2_transpose {a b : ℕ} {M : Matrix (Fin a) (Fin b) ℤ} (h : Even2 M) : Even2 M.transpose := fun i j => h j i

/-- `create_code`: starting from a CSS seed code (`hx hz^T = 0`), for any further seeds the saved
matrices commute: `mx hx = 0`, `hx hz^T = 0`, `mz hz = 0` mod 2, and no error is raised. -/
theorem C19_create_code {n0 n1 n2 r c r' c' : ℕ} (hx : Matrix (Fin n0) (Fin n1) ℤ) (hz : Matrix (Fin n2) (Fin n1) ℤ)
    (p : Matrix (Fin r) (Fin c) ℤ) (q : Matrix (Fin r') (Fin c') ℤ) (checks : Bool)
    (h : Even2 (hx * hz.transpose)) :
    ∃ MX HX HZ MZ, createCode hx hz p q checks = .ok (MX, HX, HZ, MZ) ∧
      Even2 (MX * HX) ∧ Even2 (HX * HZ.transpose) ∧ Even2 (MZ * HZ) := by
  obtain ⟨D1, D2, D3, h3, h12, h23⟩ := C18_product3d hx hz.transpose p h
  obtain ⟨E1, E2, E3, E4, h4, g12, g23, g34⟩ := C19_product4d D1 D2 D3 q checks h12 h23
  refine ⟨E1, E2, E3.transpose, E4.transpose, ?_, g12, by rwa [Matrix.transpose_transpose], ?_⟩
  · unfold createCode
    rw [h3]
    simp only [bind, Except.bind]
    rw [h4]
    simp only [require]
    rw [if_pos ⟨(allZerosMod2_iff _).2 g34, (allZerosMod2_iff _).2 g23, (allZerosMod2_iff _).2 g12⟩]
    rfl
  · rw [← Matrix.transpose_mul]
    exact even2_transpose g34

/-- A concrete complex meeting the hypotheses: the two-bit repetition code squared. -/
example : Even2 ((Matrix.of ![![1, 1]] : Matrix (Fin 1) (Fin 2) ℤ) * (Matrix.of ![![1], ![1]] : Matrix (Fin 2) (Fin 1) ℤ)) := by
  intro i j
  fin_cases i; fin_cases j
  exact ⟨1, by decide⟩

end Verif.Product
