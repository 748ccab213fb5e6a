import Verif.Linalg
import Mathlib.LinearAlgebra.BilinearForm.Orthogonal
import Mathlib.Algebra.Field.ZMod
import Mathlib.Tactic.LinearCombination
import Mathlib.Tactic.FinCases

/-! Helper lemmas about `Verif.Linalg`. -/

namespace Verif

section
variable {V : Type*} [AddCommGroup V] [Module (ZMod 2) V]

theorem add_self_eq_zero' (v : V) : v + v = 0 := by
  have h : (2 : ZMod 2) • v = v + v := two_smul _ v
  have h2 : (2 : ZMod 2) = 0 := by decide
  rw [← h, h2, zero_smul]

theorem zmod2_cases (a : ZMod 2) : a = 0 ∨ a = 1 := by
  revert a; decide

theorem eq_iff_add_eq_zero (a b : V) : a = b ↔ a + b = 0 := by
  constructor
  · rintro rfl; exact add_self_eq_zero' a
  · intro h
    have : a + b + b = b := by rw [h, zero_add]
    rwa [add_assoc, add_self_eq_zero', add_zero] at this

theorem add_add_cancel' (a b : V) : a + b + b = a := by
  rw [add_assoc, add_self_eq_zero', add_zero]

theorem rowSpan_nil : rowSpan ([] : List V) = ⊥ := by simp [rowSpan]

theorem rowSpan_cons (r : V) (rs : List V) :
    rowSpan (r :: rs) = Submodule.span (ZMod 2) {r} ⊔ rowSpan rs := by
  rw [rowSpan, rowSpan, ← Submodule.span_union]
  congr 1
  ext x; simp

theorem rowSpan_append (a b : List V) : rowSpan (a ++ b) = rowSpan a ⊔ rowSpan b := by
  rw [rowSpan, rowSpan, rowSpan, ← Submodule.span_union]
  congr 1
  ext x; simp

theorem mem_rowSpan_of_mem {rows : List V} {v : V} (h : v ∈ rows) : v ∈ rowSpan rows :=
  Submodule.subset_span h

theorem rowSpan_le_iff {rows : List V} {W : Submodule (ZMod 2) V} :
    rowSpan rows ≤ W ↔ ∀ r ∈ rows, r ∈ W := by
  rw [rowSpan, Submodule.span_le]; rfl

theorem mem_rowSpan_cons {r : V} {rs : List V} {v : V} :
    v ∈ rowSpan (r :: rs) ↔ v ∈ rowSpan rs ∨ v + r ∈ rowSpan rs := by
  rw [rowSpan_cons, Submodule.mem_sup]
  constructor
  · rintro ⟨y, hy, z, hz, rfl⟩
    obtain ⟨a, rfl⟩ := Submodule.mem_span_singleton.1 hy
    rcases zmod2_cases a with rfl | rfl
    · left; simpa using hz
    · right
      have : (1 : ZMod 2) • r + z + r = z := by
        rw [one_smul, add_comm r z, add_add_cancel']
      rwa [this]
  · rintro (h | h)
    · exact ⟨0, Submodule.zero_mem _, v, h, by simp⟩
    · exact ⟨r, Submodule.mem_span_singleton_self r, v + r, h, by
        rw [add_comm, add_add_cancel']⟩

/-- Adding a vector of the span does not change membership. -/
theorem add_mem_rowSpan_iff {W : Submodule (ZMod 2) V} {v w : V} (hw : w ∈ W) :
    v + w ∈ W ↔ v ∈ W := Submodule.add_mem_iff_left W hw

variable [DecidableEq V]

theorem inSpan_iff {rows : List V} {v : V} : inSpan rows v = true ↔ v ∈ rowSpan rows := by
  induction rows generalizing v with
  | nil => simp [inSpan, rowSpan_nil]
  | cons r rs ih => rw [inSpan, Bool.or_eq_true, ih, ih, mem_rowSpan_cons]

instance decMemRowSpan (rows : List V) (v : V) : Decidable (v ∈ rowSpan rows) :=
  decidable_of_iff (inSpan rows v = true) inSpan_iff

instance finiteRowSpan (rows : List V) : FiniteDimensional (ZMod 2) (rowSpan rows) := by
  have : Set.Finite {r | r ∈ rows} := rows.finite_toSet
  exact FiniteDimensional.span_of_finite (ZMod 2) this

theorem rank_eq_finrank (rows : List V) :
    rank rows = Module.finrank (ZMod 2) (rowSpan rows) := by
  induction rows with
  | nil => rw [rowSpan_nil]; simp [rank]
  | cons r rs ih =>
    rw [rank]
    by_cases h : inSpan rs r = true
    · have hr := inSpan_iff.1 h
      have : rowSpan (r :: rs) = rowSpan rs := by
        rw [rowSpan_cons, sup_eq_right, Submodule.span_singleton_le_iff_mem]; exact hr
      rw [if_pos h, this, ih]
    · have hr : r ∉ rowSpan rs := fun h' => h (inSpan_iff.2 h')
      rw [if_neg h, ih, rowSpan_cons, sup_comm]
      exact (finrank_sup_span_singleton_of_not_mem' hr).symm
where
  finrank_sup_span_singleton_of_not_mem' {rs : List V} {r : V} (hr : r ∉ rowSpan rs) :
      Module.finrank (ZMod 2) ↥(rowSpan rs ⊔ Submodule.span (ZMod 2) {r})
        = Module.finrank (ZMod 2) ↥(rowSpan rs) + 1 := by
    have hr0 : r ≠ 0 := fun h => hr (h ▸ Submodule.zero_mem _)
    have h1 := Submodule.finrank_sup_add_finrank_inf_eq (rowSpan rs) (Submodule.span (ZMod 2) {r})
    have h2 : rowSpan rs ⊓ Submodule.span (ZMod 2) {r} = ⊥ := by
      rw [Submodule.eq_bot_iff]
      rintro x ⟨hx1, hx2⟩
      obtain ⟨a, rfl⟩ := Submodule.mem_span_singleton.1 hx2
      rcases zmod2_cases a with rfl | rfl
      · simp
      · exact absurd (by simpa using hx1) hr
    rw [h2, finrank_span_singleton hr0] at h1
    simpa using h1

omit [Module (ZMod 2) V] in
theorem rank_le_length (rows : List V) : rank rows ≤ rows.length := by
  induction rows with
  | nil => simp [rank]
  | cons r rs ih => rw [rank, List.length_cons]; split <;> omega

theorem rank_congr {a b : List V} (h : rowSpan a = rowSpan b) : rank a = rank b := by
  rw [rank_eq_finrank, rank_eq_finrank, h]

theorem rowSpan_le_of_rank_append {a b : List V} (h : rank (a ++ b) = rank a) :
    rowSpan b ≤ rowSpan a := by
  have hle : rowSpan a ≤ rowSpan (a ++ b) := by rw [rowSpan_append]; exact le_sup_left
  have := Submodule.eq_of_le_of_finrank_eq hle (by rw [← rank_eq_finrank, ← rank_eq_finrank, h])
  rw [this, rowSpan_append]; exact le_sup_right

theorem rank_append_eq_iff {a b : List V} : rank (a ++ b) = rank a ↔ rowSpan b ≤ rowSpan a :=
  ⟨rowSpan_le_of_rank_append, fun h => rank_congr (by rw [rowSpan_append, sup_eq_left]; exact h)⟩

theorem rank_append_comm (a b : List V) : rank (a ++ b) = rank (b ++ a) :=
  rank_congr (by rw [rowSpan_append, rowSpan_append, sup_comm])

/-- The three-rank test used all over the code base decides equality of row spaces. -/
theorem rank_three_iff {a b : List V} :
    (rank a = rank b ∧ rank a = rank (a ++ b)) ↔ rowSpan a = rowSpan b := by
  constructor
  · rintro ⟨h1, h2⟩
    have hb : rowSpan b ≤ rowSpan a := rank_append_eq_iff.1 h2.symm
    have ha : rowSpan a ≤ rowSpan b := by
      apply rank_append_eq_iff.1
      rw [rank_append_comm, ← h2, h1]
    exact le_antisymm ha hb
  · intro h
    refine ⟨rank_congr h, ?_⟩
    exact (rank_append_eq_iff.2 h.ge).symm

theorem rank_append_singleton_eq_iff {a : List V} {v : V} :
    rank (a ++ [v]) = rank a ↔ v ∈ rowSpan a := by
  rw [rank_append_eq_iff, rowSpan_le_iff]; simp

end

section Dot
variable {n : ℕ}

theorem dot_add_right (a b c : Vec n) : dot a (b + c) = dot a b + dot a c := by
  simp [dot, mul_add, Finset.sum_add_distrib]

theorem dot_add_left (a b c : Vec n) : dot (a + b) c = dot a c + dot b c := by
  simp [dot, add_mul, Finset.sum_add_distrib]

theorem dot_comm (a b : Vec n) : dot a b = dot b a := by
  simp [dot, mul_comm]

@[simp] theorem dot_zero_right (a : Vec n) : dot a 0 = 0 := by simp [dot]
@[simp] theorem dot_zero_left (a : Vec n) : dot 0 a = 0 := by simp [dot]

theorem dot_smul_right (c : ZMod 2) (a b : Vec n) : dot a (c • b) = c * dot a b := by
  simp [dot, Finset.mul_sum, mul_left_comm]

/-- `dot` as a bilinear map. -/
def dotBilin (n : ℕ) : Vec n →ₗ[ZMod 2] Vec n →ₗ[ZMod 2] ZMod 2 :=
  LinearMap.mk₂ (ZMod 2) dot dot_add_left
    (fun c a b => by rw [dot_comm, dot_smul_right, dot_comm]; rfl)
    dot_add_right (fun c a b => by rw [dot_smul_right]; rfl)

@[simp] theorem dotBilin_apply (a b : Vec n) : dotBilin n a b = dot a b := rfl

theorem dot_single (a : Vec n) (i : Fin n) : dot a (Pi.single i 1) = a i := by
  classical
  simp [dot, Pi.single_apply]

/-- A vector orthogonal to all rows is orthogonal to the row space. -/
theorem dot_eq_zero_of_mem_rowSpan {rows : List (Vec n)} {v r : Vec n}
    (h : ∀ r ∈ rows, dot r v = 0) (hr : r ∈ rowSpan rows) : dot r v = 0 := by
  have : rowSpan rows ≤ LinearMap.ker ((dotBilin n).flip v) := by
    rw [rowSpan_le_iff]; intro x hx; simpa using h x hx
  simpa using this hr

theorem mulVec_eq_zero_iff {M : List (Vec n)} {v : Vec n} :
    (∀ b ∈ mulVec M v, b = 0) ↔ ∀ r ∈ M, dot r v = 0 := by
  simp [mulVec]

/-- The kernel of a matrix. -/
def kerOf (M : List (Vec n)) : Submodule (ZMod 2) (Vec n) where
  carrier := {v | ∀ r ∈ M, dot r v = 0}
  add_mem' := by
    intro a b ha hb r hr; rw [dot_add_right, ha r hr, hb r hr, add_zero]
  zero_mem' := by intro r _; simp
  smul_mem' := by intro c v hv r hr; rw [dot_smul_right, hv r hr, mul_zero]

theorem mem_kerOf {M : List (Vec n)} {v : Vec n} : v ∈ kerOf M ↔ ∀ r ∈ M, dot r v = 0 := Iff.rfl

theorem mem_kerOf' {M : List (Vec n)} {v : Vec n} : v ∈ kerOf M ↔ ∀ r ∈ rowSpan M, dot r v = 0 :=
  ⟨fun h _ hr => dot_eq_zero_of_mem_rowSpan h hr, fun h r hr => h r (mem_rowSpan_of_mem hr)⟩

theorem dotBilin_nondegenerate (n : ℕ) : LinearMap.BilinForm.Nondegenerate (dotBilin n) := by
  constructor
  · intro x hx; funext i; rw [← dot_single x i]; exact hx _
  · intro x hx; funext i; rw [← dot_single x i, dot_comm]; exact hx _

theorem kerOf_eq_orthogonal (M : List (Vec n)) :
    kerOf M = LinearMap.BilinForm.orthogonal (dotBilin n) (rowSpan M) := by
  ext v
  rw [mem_kerOf', LinearMap.BilinForm.mem_orthogonal_iff]
  rfl

theorem dotBilin_isRefl (n : ℕ) : LinearMap.BilinForm.IsRefl (dotBilin n) := by
  intro x y h; rw [dotBilin_apply, dot_comm]; exact h

theorem finrank_kerOf (M : List (Vec n)) :
    Module.finrank (ZMod 2) (kerOf M) = n - rank M := by
  rw [kerOf_eq_orthogonal, LinearMap.BilinForm.finrank_orthogonal (dotBilin_nondegenerate n),
    rank_eq_finrank]
  simp

theorem rank_le (M : List (Vec n)) : rank M ≤ n := by
  rw [rank_eq_finrank]
  calc _ ≤ _ := Submodule.finrank_le _
    _ = n := by simp

/-- Double orthogonal complement: a vector orthogonal to the whole kernel is a sum of rows. -/
theorem mem_rowSpan_of_orthogonal_kerOf {M : List (Vec n)} {v : Vec n}
    (h : ∀ w ∈ kerOf M, dot w v = 0) : v ∈ rowSpan M := by
  rw [← LinearMap.BilinForm.orthogonal_orthogonal (dotBilin_nondegenerate n) (dotBilin_isRefl n)
    (rowSpan M), LinearMap.BilinForm.mem_orthogonal_iff, ← kerOf_eq_orthogonal]
  intro w hw; exact h w hw

end Dot
end Verif
