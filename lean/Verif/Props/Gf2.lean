import Verif.Lemmas.Plu
import Mathlib.LinearAlgebra.Matrix.Rank

/-!
# C48, C49, C50, C54: the C++ linear algebra
-/

namespace Verif.Cpp
open Verif

/-! ## Specification -/

/-- A Boolean as a residue modulo 2. -/
def bit (b : Bool) : ZMod 2 := if b then 1 else 0

/-- All rows have the same length, and there is at least one row and one column. -/
def Rect (M : Gf2Mat) : Prop := M ≠ [] ∧ cols M ≠ 0 ∧ ∀ row ∈ M, row.length = cols M

/-- `M x = y` over GF(2). -/
def Solves (M : Gf2Mat) (x y : List (ZMod 2)) : Prop :=
  x.length = cols M ∧
    ∀ i < M.length, ∑ j ∈ Finset.range (cols M), bit (entry M i j) * x.getD j 0 = y.getD i 0

/-- The rows as vectors. -/
def asRows (n : ℕ) (M : Gf2Mat) : List (Vec n) := M.map fun row j => bit (row.getD j false)

/-- A Boolean list as a vector. -/
def asVec (n : ℕ) (v : List Bool) : Vec n := fun j => bit (v.getD j false)

theorem bit_eq_one (b : Bool) : bit b = 1 ↔ b = true := by cases b <;> decide

theorem bit_xor (a b : Bool) : bit (a ^^ b) = bit a + bit b := by cases a <;> cases b <;> decide

theorem bit_and (a b : Bool) : bit (a && b) = bit a * bit b := by cases a <;> cases b <;> decide

theorem bit_inj {a b : Bool} (h : bit a = bit b) : a = b := by revert h; cases a <;> cases b <;> decide

theorem getD_big {α : Type} (l : List α) (i : ℕ) (d : α) (h : l.length ≤ i) : l.getD i d = d := by
  rw [List.getD_eq_getElem?_getD, List.getElem?_eq_none h]; rfl

/-! ## C48: solving -/

section Solve
variable {m n : ℕ} {csc : List (List ℕ)} {p : Plu}

theorem sum_filter_lt (l : List ℕ) (t : ℕ) (h : ∀ j ∈ l, j ≤ t) (f : ℕ → ZMod 2) :
    (l.map fun j => if j < t then f j else 0).sum = ((l.filter (· ≠ t)).map f).sum := by
  induction l with
  | nil => rfl
  | cons a l ih =>
    have ha := h a (by simp)
    have ih := ih fun j hj => h j (by simp [hj])
    rw [List.map_cons, List.sum_cons, ih]
    by_cases e : a = t
    · have : ¬ a < t := by omega
      rw [if_neg this, zero_add, List.filter_cons_of_neg (by simpa using e)]
    · have : a < t := by omega
      rw [if_pos this, List.filter_cons_of_pos (by simpa using e), List.map_cons, List.sum_cons]

theorem forward_eq (h : Inv m csc n p) (y : ℕ → ZMod 2) (t : ℕ) (ht : t ≤ p.rank) :
    forward p y t = fun k => if k < t then red p y k else 0 := by
  induction t with
  | zero => funext k; simp [forward]
  | succ t ih =>
    have ih := ih (by omega)
    have hm := h.rank_le
    funext k
    simp only [forward, put]
    rw [ih]
    by_cases e : k = t
    · rw [if_pos e, e, if_pos (by omega), sum_filter_lt _ _ (fun j hj => (h.lower_lt t j hj).2), h.lower y t (by omega),
        add_comm]
    · rw [if_neg e]
      show (if k < t then red p y k else 0) = _
      by_cases e2 : k < t
      · rw [if_pos e2, if_pos (by omega)]
      · rw [if_neg e2, if_neg (by omega)]

theorem sum_put (l : List ℕ) (h : l.Nodup) (a : ℕ) (x : ℕ → ZMod 2) (v : ZMod 2) (hx : x a = 0) :
    (l.map (put x a v)).sum = (l.map x).sum + if a ∈ l then v else 0 := by
  induction l with
  | nil => simp
  | cons c l ih =>
    rw [List.nodup_cons] at h
    rw [List.map_cons, List.sum_cons, ih h.2, List.map_cons, List.sum_cons]
    by_cases e : c = a
    · subst e
      simp [put, h.1, hx, add_comm]
    · have : put x a v c = x c := by simp [put, e]
      rw [this]
      have : (a ∈ c :: l) ↔ a ∈ l := by
        rw [List.mem_cons]; exact ⟨fun h => h.resolve_left fun h => e h.symm, .inr⟩
      simp only [this]
      ring

theorem backward_spec (h : Inv m csc n p) (b : ℕ → ZMod 2) (s : ℕ) (hs : s ≤ p.rank) (x : ℕ → ZMod 2)
    (hx : ∀ j, (∀ i (hi : i < p.pivotCols.length), s ≤ i → p.pivotCols[i] ≠ j) → x j = 0)
    (hb : ∀ i, s ≤ i → i < p.rank → ((p.upper i).map x).sum = b i) :
    (∀ j, j ∉ p.pivotCols → backward p b s x j = 0) ∧
      ∀ i, i < p.rank → ((p.upper i).map (backward p b s x)).sum = b i := by
  have hnd : p.pivotCols.Nodup := h.sorted.imp fun h => Nat.ne_of_lt h
  induction s generalizing x with
  | zero =>
    refine ⟨fun j hj => hx j ?_, fun i hi => hb i (Nat.zero_le _) hi⟩
    intro i hi _ e
    exact hj (e ▸ List.getElem_mem hi)
  | succ s ih =>
    rw [backward]
    have hsl : s < p.pivotCols.length := by rw [h.plen]; omega
    have hg : p.pivotCols.getD s 0 = p.pivotCols[s] := by
      rw [List.getD_eq_getElem?_getD, List.getElem?_eq_getElem hsl]; rfl
    rw [hg]
    have hxs : x p.pivotCols[s] = 0 := by
      apply hx
      intro i hi hle e
      have := (hnd.getElem_inj_iff).1 e
      omega
    have hm := h.rank_le
    have upn : ∀ i, i < p.rank → (p.upper i).Nodup := by
      intro i hi
      rw [h.upper i hi]; exact hnd.filter _
    apply ih (by omega)
    · intro j hj
      by_cases e : j = p.pivotCols[s]
      · exact absurd e.symm (hj s hsl le_rfl)
      · simp only [put, if_neg e]
        exact hx j fun i hi hle => hj i hi (by omega)
    · intro i hle hi
      rw [sum_put _ (upn i hi) _ _ _ hxs]
      rcases Nat.lt_or_ge s i with hlt | hge
      · rw [hb i hlt hi, if_neg, add_zero]
        rw [h.upper i hi, List.mem_filter, decide_eq_true_eq]
        rintro ⟨-, e⟩
        rw [(h.diag s hsl).2 i hlt (by omega)] at e
        exact absurd e (by decide)
      · have : i = s := by omega
        subst this
        rw [if_pos]
        · rw [← add_assoc, add_self_eq_zero' (V := ZMod 2), zero_add]
        · rw [h.upper i hi, List.mem_filter, decide_eq_true_eq]
          exact ⟨List.getElem_mem hsl, (h.diag i hsl).1⟩

/-- The linear combination of the columns with coefficients `x`. -/
def combine (n : ℕ) (csc : List (List ℕ)) (x : ℕ → ZMod 2) : ℕ → ZMod 2 := ∑ j ∈ Finset.range n, x j • colOf csc j

theorem combine_apply (x : ℕ → ZMod 2) (k : ℕ) :
    combine n csc x k = ∑ j ∈ Finset.range n, x j * colOf csc j k := by
  simp [combine, Finset.sum_apply]

theorem red_combine (h : Inv m csc n p) (x : ℕ → ZMod 2) (k : ℕ) :
    red p (combine n csc x) k = ∑ j ∈ Finset.range n, x j * red p (colOf csc j) k := by
  have : red p (combine n csc x) = redMap h.ops (combine n csc x) := rfl
  rw [this, combine, map_sum, Finset.sum_apply]
  refine Finset.sum_congr rfl fun j _ => ?_
  rw [map_smul]
  rfl

theorem sum_filter_one (l : List ℕ) (f x : ℕ → ZMod 2) :
    ((l.filter fun j => f j = 1).map x).sum = (l.map fun j => x j * f j).sum := by
  induction l with
  | nil => rfl
  | cons a l ih =>
    rcases zmod2_cases (f a) with e | e
    · rw [List.filter_cons_of_neg (by simp [e]), ih]; simp [e]
    · rw [List.filter_cons_of_pos (by simp [e])]; simp [e, ih]

theorem sum_pivots (h : Inv m csc n p) (x f : ℕ → ZMod 2) (hx : ∀ j, j ∉ p.pivotCols → x j = 0) :
    (p.pivotCols.map fun j => x j * f j).sum = ∑ j ∈ Finset.range n, x j * f j := by
  have hnd : p.pivotCols.Nodup := h.sorted.imp fun h => Nat.ne_of_lt h
  rw [← List.sum_toFinset _ hnd]
  apply Finset.sum_subset
  · intro j hj
    exact Finset.mem_range.2 (h.bound j (List.mem_toFinset.1 hj))
  · intro j _ hj
    rw [hx j fun hh => hj (List.mem_toFinset.2 hh), zero_mul]

/-- The vector computed by the two substitutions. -/
def solution (p : Plu) (y : ℕ → ZMod 2) : ℕ → ZMod 2 := backward p (forward p y p.rank) p.rank fun _ => 0

/-- The solution reproduces the reduced right-hand side on the pivot rows. -/
theorem solution_pivot_rows (h : Inv m csc n p) (y : ℕ → ZMod 2) (i : ℕ) (hi : i < p.rank) :
    red p (combine n csc (solution p y)) i = red p y i := by
  obtain ⟨h1, h2⟩ := backward_spec h (forward p y p.rank) p.rank le_rfl (fun _ => 0) (fun _ _ => rfl)
    (fun i h1 h2 => absurd h2 (by omega))
  have := h2 i hi
  rw [h.upper i hi, sum_filter_one, sum_pivots h _ _ h1] at this
  have e := congrFun (forward_eq h y _ le_rfl) i
  simp only [if_pos hi] at e
  rw [red_combine h, ← e, ← this]
  rfl

/-- If the system is solvable the solution solves it. -/
theorem solution_solves (h : Inv m csc n p) (hcol : ∀ j k, m ≤ k → colOf csc j k = 0) (z : ℕ → ZMod 2) :
    combine n csc (solution p (combine n csc z)) = combine n csc z := by
  apply redMap_injective h.ops
  funext k
  show red p _ k = red p _ k
  rcases Nat.lt_or_ge k p.rank with h1 | h1
  · exact solution_pivot_rows h _ k h1
  · rcases Nat.lt_or_ge k m with h2 | h2
    · rw [red_combine h, red_combine h]
      refine Finset.sum_congr rfl fun j hj => ?_
      rw [h.zero j (Finset.mem_range.1 hj) k h1 h2, mul_zero, mul_zero]
    · unfold red
      rw [applyOps_ge h.ops _ h2, applyOps_ge h.ops _ h2, combine_apply, combine_apply]
      refine Finset.sum_congr rfl fun j _ => ?_
      rw [hcol j k h2, mul_zero, mul_zero]

end Solve

theorem colOf_toCsc (M : Gf2Mat) (j k : ℕ) (hj : j < cols M) :
    colOf (toCsc M) j k = if k < M.length then bit (entry M k j) else 0 := by
  have e : (toCsc M).getD j [] = (List.range M.length).filter fun k => entry M k j := by
    unfold toCsc
    rw [List.getD_eq_getElem?_getD, List.getElem?_map, List.getElem?_range hj]
    rfl
  unfold colOf column
  rw [e]
  by_cases hk : k < M.length
  · rw [if_pos hk]
    unfold bit
    congr 1
    simp [List.contains_iff_mem, hk]
  · rw [if_neg hk, if_neg]
    simp [hk]

theorem colOf_big (M : Gf2Mat) (j k : ℕ) (hk : M.length ≤ k) : colOf (toCsc M) j k = 0 := by
  rcases Nat.lt_or_ge j (cols M) with hj | hj
  · rw [colOf_toCsc M j k hj, if_neg (by omega)]
  · unfold colOf column
    have : (toCsc M).getD j [] = [] := by
      rw [List.getD_eq_getElem?_getD, List.getElem?_eq_none (by simp [toCsc]; exact hj)]; rfl
    rw [this]; rfl

/-- **C48**: if the system `M x = y` has a solution, `luSolve` returns one. -/
theorem C48_solve (M : Gf2Mat) (y : List (ZMod 2)) (hy : y.length = M.length) (hs : ∃ x, Solves M x y) :
    ∃ x, luSolve M.length (cols M) (plu M.length (cols M) (toCsc M)) y = .ok x ∧ Solves M x y := by
  obtain ⟨z, hzl, hz⟩ := hs
  set p := plu M.length (cols M) (toCsc M) with hp
  have h : Inv M.length (toCsc M) (cols M) p := inv_plu _ _ _
  have hlu : luSolve M.length (cols M) p y = .ok ((List.range (cols M)).map (solution p fun i => y.getD i 0)) := by
    unfold luSolve
    rw [if_neg (by simp [hy])]
    rfl
  have hyz : (fun i => y.getD i 0) = combine (cols M) (toCsc M) (fun j => z.getD j 0) := by
    funext i
    rw [combine_apply]
    rcases Nat.lt_or_ge i M.length with hi | hi
    · rw [← hz i hi]
      refine Finset.sum_congr rfl fun j hj => ?_
      rw [colOf_toCsc M j i (Finset.mem_range.1 hj), if_pos hi, mul_comm]
    · rw [getD_big _ _ _ (by omega)]
      symm
      exact Finset.sum_eq_zero fun j _ => by rw [colOf_big M j i hi, mul_zero]
  refine ⟨_, hlu, by simp, fun i hi => ?_⟩
  have key := congrFun (solution_solves h (colOf_big M) fun j => z.getD j 0) i
  rw [← hyz] at key
  rw [combine_apply] at key
  refine Eq.trans ?_ key
  refine Finset.sum_congr rfl fun j hj => ?_
  have hj' := Finset.mem_range.1 hj
  rw [colOf_toCsc M j i hj', if_pos hi, mul_comm]
  congr 1
  rw [List.getD_eq_getElem?_getD, List.getElem?_map, List.getElem?_range hj']
  rfl

/-- A system with a redundant equation. -/
example : luSolve 3 3 (plu 3 3 (toCsc [[true, true, false], [false, true, true], [true, false, true]])) [1, 1, 0] =
    .ok [0, 1, 0] := by decide +kernel

/-- **C48**: for an unsolvable system `luSolve` does not report failure; the vector returned does not solve it. -/
theorem C48_unsolvable (M : Gf2Mat) (y : List (ZMod 2)) (hy : y.length = M.length) :
    ∃ x, luSolve M.length (cols M) (plu M.length (cols M) (toCsc M)) y = .ok x ∧ (Solves M x y ↔ ∃ x, Solves M x y) := by
  by_cases hs : ∃ x, Solves M x y
  · obtain ⟨x, h1, h2⟩ := C48_solve M y hy hs
    exact ⟨x, h1, fun h => ⟨x, h⟩, fun _ => h2⟩
  · unfold luSolve
    rw [if_neg (by simp [hy])]
    exact ⟨_, rfl, fun h => absurd ⟨_, h⟩ hs, fun h => absurd h hs⟩

/-- **C48**: a right-hand side of the wrong length is rejected. -/
theorem C48_wrong_length (m n : ℕ) (p : Plu) (y : List (ZMod 2)) (hy : y.length ≠ m) :
    luSolve m n p y = .error .invalidArgument := if_pos hy

/-- **C48**: `perm * A = lower * upper` on the pivot columns: `rows` is a permutation of the rows; `lower` is lower
triangular with the diagonal; column `c` of `upper`, for each pivot column `c`, is upper triangular with the diagonal; and
row `rows[i]` of the matrix is the sum of the rows of `upper` listed in `lower[i]`, for every row, also below the rank. -/
theorem C48_factorisation (M : Gf2Mat) (p : Plu) (hp : p = plu M.length (cols M) (toCsc M)) :
    (∀ k < M.length, p.rows k < M.length) ∧ (∀ k < M.length, ∀ l < M.length, p.rows k = p.rows l → k = l) ∧
    (∀ i < p.rank, ∀ j, j ∈ p.lower i → j ≤ i) ∧ (∀ i < p.rank, i ∈ p.lower i) ∧
    p.pivotCols.length = p.rank ∧ p.pivotCols.Pairwise (· < ·) ∧ (∀ c ∈ p.pivotCols, c < cols M) ∧
    (∀ i j (hj : j < p.pivotCols.length), i < p.rank → p.pivotCols[j] ∈ p.upper i → i ≤ j) ∧
    (∀ i (hi : i < p.pivotCols.length), p.pivotCols[i] ∈ p.upper i) ∧
    ∀ i < M.length, ∀ c ∈ p.pivotCols,
      bit (entry M (p.rows i) c) = ((p.lower i).map fun j => if c ∈ p.upper j then (1 : ZMod 2) else 0).sum := by
  have h : Inv M.length (toCsc M) (cols M) p := hp ▸ inv_plu _ _ _
  have hm := h.rank_le
  have hpl := h.plen
  have up : ∀ i < p.rank, ∀ c, c ∈ p.upper i ↔ c ∈ p.pivotCols ∧ red p (colOf (toCsc M) c) i = 1 := by
    intro i hi c
    rw [h.upper i hi, List.mem_filter, decide_eq_true_eq]
  refine ⟨h.rows_lt, h.rows_inj, fun i _ j hj => (h.lower_lt i j hj).2, ?_, h.plen, h.sorted, h.bound, ?_, ?_, ?_⟩
  · intro i hi
    have : i ∈ (p.lower i).filter (· = i) := by rw [h.lower_self i hi]; simp
    exact List.mem_of_mem_filter this
  · intro i j hj hi hu
    by_contra hc
    have := ((up i hi _).1 hu).2
    rw [(h.diag j hj).2 i (by omega) (by omega)] at this
    exact absurd this (by decide)
  · intro i hi
    exact (up i (by omega) _).2 ⟨List.getElem_mem hi, (h.diag i hi).1⟩
  · intro i hi c hc
    have hcm := h.bound c hc
    have e := h.lower (colOf (toCsc M) c) i hi
    have hr := h.rows_lt i hi
    rw [colOf_toCsc M c (p.rows i) hcm, if_pos hr] at e
    have e2 : bit (entry M (p.rows i) c) = red p (colOf (toCsc M) c) i +
        (((p.lower i).filter (· ≠ i)).map (red p (colOf (toCsc M) c))).sum := by
      rw [e, add_assoc, add_self_eq_zero' (V := ZMod 2), add_zero]
    have ind : ∀ j ∈ p.lower i, (if c ∈ p.upper j then (1 : ZMod 2) else 0) = red p (colOf (toCsc M) c) j := by
      intro j hj
      have hjr := (h.lower_lt i j hj).1
      rcases zmod2_cases (red p (colOf (toCsc M) c) j) with e | e
      · rw [e, if_neg]
        rw [up j hjr, e]
        rintro ⟨-, h⟩
        exact absurd h (by decide)
      · rw [e, if_pos]
        exact (up j hjr c).2 ⟨hc, e⟩
    rw [List.map_congr_left ind, e2]
    have split : ∀ (l : List ℕ) (f : ℕ → ZMod 2), (l.map f).sum = ((l.filter (· = i)).map f).sum +
        ((l.filter (· ≠ i)).map f).sum := by
      intro l f
      induction l with
      | nil => simp
      | cons a l ih =>
        by_cases ea : a = i
        · rw [List.filter_cons_of_pos (by simpa using ea), List.filter_cons_of_neg (by simpa using ea)]
          simp only [List.map_cons, List.sum_cons, ih]; ring
        · rw [List.filter_cons_of_neg (by simpa using ea), List.filter_cons_of_pos (by simpa using ea)]
          simp only [List.map_cons, List.sum_cons, ih]; ring
    rw [split (p.lower i)]
    congr 1
    rcases Nat.lt_or_ge i p.rank with hlt | hge
    · rw [h.lower_self i hlt]; simp
    · rw [h.zero c hcm i hge hi]
      have : (p.lower i).filter (· = i) = [] := by
        rw [List.filter_eq_nil_iff]
        intro j hj
        have := (h.lower_lt i j hj).1
        have : j ≠ i := by omega
        simpa using this
      rw [this]; rfl

/-! ## Rank -/

/-- A vector as a function on all indices. -/
def ext (m : ℕ) : Vec m →ₗ[ZMod 2] (ℕ → ZMod 2) where
  toFun v k := if h : k < m then v ⟨k, h⟩ else 0
  map_add' := by
    intro a b; funext k
    by_cases h : k < m <;> simp [h]
  map_smul' := by
    intro a b; funext k
    by_cases h : k < m <;> simp [h]

theorem ext_injective (m : ℕ) : Function.Injective (ext m) := by
  intro a b h
  funext i
  have := congrFun h i.val
  simpa [ext, i.isLt] using this

/-- The columns as vectors. -/
def colVecs (m n : ℕ) (csc : List (List ℕ)) : List (Vec m) := (List.range n).map fun j i => colOf csc j i.val

theorem ext_col {m : ℕ} {csc : List (List ℕ)} (hcol : ∀ j k, m ≤ k → colOf csc j k = 0) (j : ℕ) :
    ext m (fun i : Fin m => colOf csc j i.val) = colOf csc j := by
  funext k
  by_cases h : k < m
  · simp [ext, h]
  · simp [ext, h, hcol j k (by omega)]

theorem mem_span_triangular {r : ℕ} (w : ℕ → ℕ → ZMod 2) (hd : ∀ i < r, w i i = 1 ∧ ∀ k, i < k → w i k = 0)
    (W : Submodule (ZMod 2) (ℕ → ZMod 2)) (hW : ∀ i < r, w i ∈ W) (t : ℕ) (ht : t ≤ r) (v : ℕ → ZMod 2)
    (hv : ∀ k, t ≤ k → v k = 0) : v ∈ W := by
  induction t generalizing v with
  | zero =>
    have : v = 0 := funext fun k => hv k (Nat.zero_le _)
    rw [this]; exact W.zero_mem
  | succ t ih =>
    have h1 : v - v t • w t ∈ W := by
      apply ih (by omega)
      intro k hk
      rcases Nat.lt_or_ge t k with h2 | h2
      · simp [hv k h2, (hd t (by omega)).2 k h2]
      · have : k = t := by omega
        subst this
        simp [(hd k (by omega)).1]
    have h2 : v t • w t ∈ W := W.smul_mem _ (hW t (by omega))
    have := W.add_mem h1 h2
    rwa [sub_add_cancel] at this

theorem plu_rank_cols (m n : ℕ) (csc : List (List ℕ)) (hcol : ∀ j k, m ≤ k → colOf csc j k = 0) :
    (plu m n csc).rank = rank (colVecs m n csc) := by
  set p := plu m n csc with hp
  have h : Inv m csc n p := inv_plu _ _ _
  rw [rank_eq_finrank]
  set f := (redMap h.ops) ∘ₗ (ext m) with hf
  have finj : Function.Injective f := (redMap_injective h.ops).comp (ext_injective m)
  have e1 : Module.finrank (ZMod 2) (rowSpan (colVecs m n csc)) =
      Module.finrank (ZMod 2) ((rowSpan (colVecs m n csc)).map f) :=
    (LinearEquiv.finrank_eq (Submodule.equivMapOfInjective f finj _))
  have fcol : ∀ j, f (fun i : Fin m => colOf csc j i.val) = red p (colOf csc j) := by
    intro j
    rw [hf, LinearMap.comp_apply, ext_col hcol]
    rfl
  have big : ∀ j k, m ≤ k → red p (colOf csc j) k = 0 := by
    intro j k hk
    unfold red
    rw [applyOps_ge h.ops _ hk, hcol j k hk]
  have e2 : (rowSpan (colVecs m n csc)).map f = LinearMap.range (ext p.rank) := by
    apply le_antisymm
    · rw [Submodule.map_le_iff_le_comap, rowSpan_le_iff]
      intro v hv
      obtain ⟨j, hj, rfl⟩ := List.mem_map.1 hv
      rw [Submodule.mem_comap, fcol]
      refine ⟨fun i => red p (colOf csc j) i.val, ?_⟩
      funext k
      by_cases hk : k < p.rank
      · simp [ext, hk]
      · simp only [ext, LinearMap.coe_mk, AddHom.coe_mk, hk, dif_neg, not_false_iff]
        rcases Nat.lt_or_ge k m with h2 | h2
        · rw [h.zero j (List.mem_range.1 hj) k (by omega) h2]
        · rw [big j k h2]
    · rintro _ ⟨v, rfl⟩
      have hpl := h.plen
      refine mem_span_triangular (r := p.rank) (fun i => red p (colOf csc (p.pivotCols.getD i 0))) ?_ _ ?_ p.rank le_rfl _ ?_
      · intro i hi
        have hi' : i < p.pivotCols.length := by omega
        have hg : p.pivotCols.getD i 0 = p.pivotCols[i] := by
          rw [List.getD_eq_getElem?_getD, List.getElem?_eq_getElem hi']; rfl
        simp only [hg]
        refine ⟨(h.diag i hi').1, fun k hk => ?_⟩
        rcases Nat.lt_or_ge k m with h2 | h2
        · exact (h.diag i hi').2 k hk h2
        · exact big _ k h2
      · intro i hi
        have hi' : i < p.pivotCols.length := by omega
        have hg : p.pivotCols.getD i 0 = p.pivotCols[i] := by
          rw [List.getD_eq_getElem?_getD, List.getElem?_eq_getElem hi']; rfl
        simp only [hg]
        refine ⟨fun i' : Fin m => colOf csc p.pivotCols[i] i'.val, mem_rowSpan_of_mem ?_, fcol _⟩
        exact List.mem_map.2 ⟨_, List.mem_range.2 (h.bound _ (List.getElem_mem hi')), rfl⟩
      · intro k hk
        simp only [ext, LinearMap.coe_mk, AddHom.coe_mk]
        rw [dif_neg (by omega)]
  rw [e1, e2, LinearMap.finrank_range_of_inj (ext_injective _)]
  simp

theorem getD_of_rect {M : Gf2Mat} {i : ℕ} (hi : i < M.length) : M.getD i [] = M[i] := by
  rw [List.getD_eq_getElem?_getD, List.getElem?_eq_getElem hi]; rfl

theorem asRows_eq (n : ℕ) (M : Gf2Mat) :
    asRows n M = (List.range M.length).map fun i (j : Fin n) => bit (entry M i j.val) := by
  apply List.ext_getElem
  · simp [asRows]
  · intro i h1 h2
    have hi : i < M.length := by simpa [asRows] using h1
    simp only [asRows, List.getElem_map, List.getElem_range, entry, getD_of_rect hi]

theorem rowSpan_range {n m : ℕ} (f : ℕ → Vec n) :
    rowSpan ((List.range m).map f) = Submodule.span (ZMod 2) (Set.range fun i : Fin m => f i.val) := by
  unfold rowSpan
  congr 1
  ext v
  simp only [List.mem_map, List.mem_range, Set.mem_setOf_eq, Set.mem_range]
  constructor
  · rintro ⟨i, hi, rfl⟩; exact ⟨⟨i, hi⟩, rfl⟩
  · rintro ⟨i, rfl⟩; exact ⟨i.val, i.isLt, rfl⟩

/-- **C48**: the computed rank is the dimension of the row space of the matrix. -/
theorem C48_rank (M : Gf2Mat) :
    (plu M.length (cols M) (toCsc M)).rank = Module.finrank (ZMod 2) (rowSpan (asRows (cols M) M)) := by
  rw [plu_rank_cols _ _ _ (colOf_big M), rank_eq_finrank, asRows_eq, rowSpan_range]
  unfold colVecs
  rw [rowSpan_range]
  set A : Matrix (Fin M.length) (Fin (cols M)) (ZMod 2) := fun i j => bit (entry M i.val j.val) with hA
  have e1 := A.rank_eq_finrank_span_cols
  have e2 := A.rank_eq_finrank_span_row
  have c : (fun j : Fin (cols M) => fun i : Fin M.length => colOf (toCsc M) j.val i.val) = A.col := by
    funext j i
    rw [colOf_toCsc M _ _ j.isLt, if_pos i.isLt]
    rfl
  have d : (fun i : Fin M.length => fun j : Fin (cols M) => bit (entry M i.val j.val)) = A.row := rfl
  rw [c]
  exact e1.symm.trans e2

/-! ## C50 -/

theorem getTranspose_ok {M : Gf2Mat} (h : Rect M) :
    getTranspose M = .ok ((List.range (cols M)).map fun j => (List.range M.length).map fun i => entry M i j) := by
  unfold getTranspose
  rw [if_pos]
  obtain ⟨h1, h2, -⟩ := h
  cases M with
  | nil => exact absurd rfl h1
  | cons r M =>
    simp only [cols, List.headD_cons] at h2
    have : r ≠ [] := fun e => by simp [e] at h2
    simp [matrixPresent, List.isEmpty_iff, this]

/-- **C50**: the transpose has the dimensions exchanged and entries reflected. -/
theorem C50_transpose (M : Gf2Mat) (h : Rect M) :
    ∃ T, getTranspose M = .ok T ∧ Rect T ∧ T.length = cols M ∧ cols T = M.length ∧
      ∀ i < M.length, ∀ j < cols M, entry T j i = entry M i j := by
  refine ⟨_, getTranspose_ok h, ?_, ?_, ?_, ?_⟩
  · obtain ⟨h1, h2, h3⟩ := h
    have hc : cols ((List.range (cols M)).map fun j => (List.range M.length).map fun i => entry M i j) = M.length := by
      cases hn : cols M with
      | zero => exact absurd hn h2
      | succ n => simp [cols, List.range_succ_eq_map]
    refine ⟨?_, ?_, ?_⟩
    · simpa using h2
    · rw [hc]; simpa using h1
    · rw [hc]
      intro row hrow
      obtain ⟨j, -, rfl⟩ := List.mem_map.1 hrow
      simp
  · simp
  · cases hn : cols M with
    | zero => exact absurd hn h.2.1
    | succ n => simp [cols, List.range_succ_eq_map]
  · intro i hi j hj
    have e : ((List.range (cols M)).map fun j => (List.range M.length).map fun i => entry M i j).getD j [] =
        (List.range M.length).map fun i => entry M i j := by
      rw [List.getD_eq_getElem?_getD, List.getElem?_map, List.getElem?_range hj]
      rfl
    show (List.getD _ j []).getD i false = _
    rw [e, List.getD_eq_getElem?_getD, List.getElem?_map, List.getElem?_range hi]
    rfl

theorem rect_ext {M N : Gf2Mat} (hM : Rect M) (hN : Rect N) (h1 : M.length = N.length) (h2 : cols M = cols N)
    (h : ∀ i < M.length, ∀ j < cols M, entry M i j = entry N i j) : M = N := by
  apply List.ext_getElem h1
  intro i hi hi'
  apply List.ext_getElem
  · rw [hM.2.2 _ (List.getElem_mem hi), hN.2.2 _ (List.getElem_mem hi'), h2]
  · intro j hj hj'
    have hjc : j < cols M := by rw [hM.2.2 _ (List.getElem_mem hi)] at hj; exact hj
    have := h i hi j hjc
    simp only [entry, getD_of_rect hi, getD_of_rect hi'] at this
    simpa [List.getD_eq_getElem?_getD, List.getElem?_eq_getElem hj, List.getElem?_eq_getElem hj'] using this

/-- **C50**: transposing twice gives the matrix back. -/
theorem C50_transpose_involution (M : Gf2Mat) (h : Rect M) :
    ∃ T, getTranspose M = .ok T ∧ getTranspose T = .ok M := by
  obtain ⟨T, h1, h2, h3, h4, h5⟩ := C50_transpose M h
  obtain ⟨U, g1, g2, g3, g4, g5⟩ := C50_transpose T h2
  refine ⟨T, h1, ?_⟩
  have : U = M := by
    apply rect_ext g2 h (by omega) (by omega)
    intro i hi j hj
    rw [g5 j (by omega) i (by omega), h5 i (by omega) j (by omega)]
  rw [g1, this]

example : Rect [[true, false, true], [false, true, true]] := ⟨by decide, by decide, by decide⟩

/-- **C50**: the CSC form lists, in increasing order and without repetition, exactly the non-zero positions. -/
theorem C50_csc (M : Gf2Mat) :
    (toCsc M).length = cols M ∧ ∀ j (hj : j < (toCsc M).length),
      (toCsc M)[j].Pairwise (· < ·) ∧ ∀ i, i ∈ (toCsc M)[j] ↔ i < M.length ∧ entry M i j = true := by
  refine ⟨by simp [toCsc], fun j hj => ?_⟩
  simp only [toCsc, List.getElem_map, List.getElem_range]
  refine ⟨List.pairwise_lt_range.filter _, fun i => ?_⟩
  rw [List.mem_filter, List.mem_range]

theorem rowTimes_eq (acc : Bool) (row vec : List Bool) :
    bit (rowTimes acc row vec) = bit acc + ∑ k ∈ Finset.range vec.length, bit (row.getD k false) * bit (vec.getD k false) := by
  unfold rowTimes
  generalize vec.length = n
  induction n with
  | zero => simp
  | succ n ih =>
    rw [List.range_succ, List.foldl_append, Finset.sum_range_succ, ← add_assoc, ← ih]
    simp only [List.foldl_cons, List.foldl_nil]
    rw [bit_xor, bit_and]

theorem matrixPresent_of_rect {M : Gf2Mat} (h : Rect M) : matrixPresent M = true := by
  obtain ⟨h1, h2, -⟩ := h
  cases M with
  | nil => exact absurd rfl h1
  | cons r M =>
    simp only [cols, List.headD_cons] at h2
    have : r ≠ [] := fun e => by simp [e] at h2
    simp [matrixPresent, List.isEmpty_iff, this]

/-- **C50**: `rectMatrixMultiply` adds the product modulo 2 to the result vector; on a zero vector it is the product. -/
theorem C50_multiply (M : Gf2Mat) (h : Rect M) (vec result : List Bool) (hv : vec.length = cols M)
    (hr : result.length = M.length) :
    ∃ out, rectMatrixMultiply M vec result = .ok out ∧ out.length = M.length ∧
      ∀ i < M.length, bit (out.getD i false) =
        bit (result.getD i false) + ∑ k ∈ Finset.range (cols M), bit (entry M i k) * bit (vec.getD k false) := by
  have hne : vec ≠ [] := by
    intro e; rw [e] at hv; exact h.2.1 hv.symm
  refine ⟨(List.range result.length).map fun i =>
    if i < M.length then rowTimes (result.getD i false) (M.getD i []) vec else result.getD i false, ?_, by simp [hr], ?_⟩
  · unfold rectMatrixMultiply
    rw [if_neg (by simp [matrixPresent_of_rect h, List.isEmpty_iff, hne]), if_neg (by omega)]
  · intro i hi
    rw [List.getD_eq_getElem?_getD, List.getElem?_map, List.getElem?_range (by omega)]
    simp only [Option.map_some, Option.getD_some, if_pos hi]
    rw [rowTimes_eq, hv]
    rfl

/-- **C50**: wrong dimensions are rejected. -/
theorem C50_multiply_rejects (M : Gf2Mat) (vec result : List Bool) (h : cols M ≠ vec.length ∨ M.length > result.length) :
    rectMatrixMultiply M vec result = .error .qecc := by
  unfold rectMatrixMultiply
  rw [if_pos h]
  exact ite_self _

/-- **C50**: `computeResidualErr` is the bitwise sum. -/
theorem C50_residual (error residual : List Bool) (h : residual.length = error.length) :
    ∃ out, computeResidualErr error residual = .ok out ∧ out.length = error.length ∧
      ∀ j < error.length, bit (out.getD j false) = bit (residual.getD j false) + bit (error.getD j false) := by
  refine ⟨(List.range residual.length).map fun j => residual.getD j false != error.getD j false, ?_, by simp [h], ?_⟩
  · unfold computeResidualErr; rw [if_pos (by omega)]
  · intro j hj
    rw [List.getD_eq_getElem?_getD, List.getElem?_map, List.getElem?_range (by omega)]
    simp only [Option.map_some, Option.getD_some]
    rw [show (residual.getD j false != error.getD j false) = (residual.getD j false ^^ error.getD j false) by
      cases residual.getD j false <;> cases error.getD j false <;> rfl]
    exact bit_xor _ _

/-! ## C49: row space -/

theorem plu_rank_snoc (m n : ℕ) (csc : List (List ℕ)) (idxs : List ℕ) (hl : csc.length = n)
    (hcol : ∀ j k, m ≤ k → colOf (csc ++ [idxs]) j k = 0) :
    colVecs m (n + 1) (csc ++ [idxs]) = colVecs m n csc ++ [fun i => column idxs i.val] := by
  unfold colVecs
  rw [List.range_succ, List.map_append]
  congr 1
  · apply List.map_congr_left
    intro j hj
    have hj' := List.mem_range.1 hj
    funext i
    unfold colOf
    rw [List.getD_eq_getElem?_getD, List.getD_eq_getElem?_getD, List.getElem?_append_left (by omega)]
  · simp only [List.map_cons, List.map_nil]
    congr 1
    funext i
    unfold colOf
    rw [List.getD_eq_getElem?_getD, ← hl]
    simp

/-- **C49**: for every matrix and vector of matching length, `isVectorInRowspace` is true exactly when the vector is a sum
of rows. -/
theorem C49_rowspace (M : Gf2Mat) (h : Rect M) (v : List Bool) (hv : v.length = cols M) :
    ∃ b, isVectorInRowspace M v = .ok b ∧ (b = true ↔ asVec (cols M) v ∈ rowSpan (asRows (cols M) M)) := by
  have hne : v ≠ [] := by
    intro e; rw [e] at hv; exact h.2.1 hv.symm
  unfold isVectorInRowspace
  rw [if_neg (by simp [matrixPresent_of_rect h, List.isEmpty_iff, hne])]
  by_cases hz : v.any id = true
  · rw [if_neg (by simp [hz]), if_neg (by omega)]
    obtain ⟨T, h1, h2, h3, h4, h5⟩ := C50_transpose M h
    rw [h1]
    refine ⟨_, rfl, ?_⟩
    rw [decide_eq_true_eq, h3, h4]
    set idxs := (List.range v.length).filter fun i => v.getD i false with hidx
    have hTl : (toCsc T).length = M.length := by rw [(C50_csc T).1, h4]
    have b1 : ∀ j k, cols M ≤ k → colOf (toCsc T) j k = 0 := by
      intro j k hk; exact colOf_big T j k (by omega)
    have b2 : ∀ j k, cols M ≤ k → colOf (toCsc T ++ [idxs]) j k = 0 := by
      intro j k hk
      rcases Nat.lt_or_ge j (toCsc T).length with hj | hj
      · have := b1 j k hk
        unfold colOf at this ⊢
        rwa [List.getD_eq_getElem?_getD, List.getElem?_append_left hj, ← List.getD_eq_getElem?_getD]
      · have hk' : ¬ k ∈ idxs := by
          rw [hidx, List.mem_filter, List.mem_range]; omega
        rcases Nat.eq_or_lt_of_le hj with e | e
        · unfold colOf column
          rw [List.getD_eq_getElem?_getD, ← e]
          simp [hk']
        · unfold colOf column
          rw [getD_big _ _ _ (by simp; omega)]
          rfl
    rw [plu_rank_cols _ _ _ b1, plu_rank_cols _ _ _ b2, plu_rank_snoc _ _ _ _ hTl b2, rank_append_singleton_eq_iff]
    have e1 : (fun i : Fin (cols M) => column idxs i.val) = asVec (cols M) v := by
      funext i
      have hi := i.isLt
      unfold column asVec bit
      congr 1
      simp [hidx, hv]
    have e2 : colVecs (cols M) M.length (toCsc T) = asRows (cols M) M := by
      rw [asRows_eq]
      unfold colVecs
      apply List.map_congr_left
      intro i hi
      have hi' := List.mem_range.1 hi
      funext j
      rw [colOf_toCsc T i j.val (by omega), if_pos (by omega), h5 i hi' j.val j.isLt]
    rw [e1, e2]
  · rw [if_pos (by simp [hz])]
    refine ⟨true, rfl, fun _ => ?_, fun _ => rfl⟩
    have : asVec (cols M) v = 0 := by
      funext j
      unfold asVec bit
      have hj : j.val < v.length := by rw [hv]; exact j.isLt
      rw [if_neg]
      · rfl
      · intro hh
        apply hz
        rw [List.any_eq_true]
        rw [List.getD_eq_getElem?_getD, List.getElem?_eq_getElem hj] at hh
        exact ⟨v[j.val], List.getElem_mem hj, hh⟩
    rw [this]
    exact Submodule.zero_mem _

example : isVectorInRowspace [[true, true, false], [false, true, true]] [true, false, true] = .ok true := by decide +kernel
example : isVectorInRowspace [[true, true, false], [false, true, true]] [true, false, false] = .ok false := by decide +kernel

/-- **C49**: a non-zero vector of another length is rejected, but the zero vector of any length is accepted. -/
theorem C49_wrong_length (M : Gf2Mat) (h : Rect M) (v : List Bool) (hv : v.length ≠ cols M) (hne : v ≠ []) :
    isVectorInRowspace M v = if v.any id then .error .qecc else .ok true := by
  unfold isVectorInRowspace
  rw [if_neg (by simp [matrixPresent_of_rect h, List.isEmpty_iff, hne])]
  by_cases hz : v.any id = true
  · rw [if_neg (by simp [hz]), if_pos hv, if_pos hz]
  · rw [if_pos (by simp [hz]), if_neg hz]

/-- **C49**: `isXStabilizer` decides membership in the row space of the X checks. -/
theorem C49_is_x_stabilizer (c : Code) (hX : Gf2Mat) (hc : c.hX = some hX) (h : Rect hX) (est : List Bool)
    (hv : est.length = cols hX) :
    ∃ b, c.isXStabilizer est = .ok b ∧ (b = true ↔ asVec (cols hX) est ∈ rowSpan (asRows (cols hX) hX)) := by
  unfold Code.isXStabilizer
  rw [hc]
  exact C49_rowspace hX h est hv

/-- **C49**: `isStabilizer` on an error of both kinds (first half X, second half Z) decides membership of both halves in the
respective row spaces. -/
theorem C49_is_stabilizer (c : Code) (hX : Gf2Mat) (hc : c.hX = some hX) (h1 : Rect hX) (h2 : Rect c.hZ)
    (hn : cols hX = c.n) (hn2 : cols c.hZ = c.n) (xest zest : List Bool) (hx : xest.length = c.n) (hz : zest.length = c.n) :
    ∃ b, c.isStabilizer (xest ++ zest) = some (.ok b) ∧
      (b = true ↔ asVec c.n xest ∈ rowSpan (asRows c.n hX) ∧ asVec c.n zest ∈ rowSpan (asRows c.n c.hZ)) := by
  have n0 : c.n ≠ 0 := hn ▸ h1.2.1
  have zero : ∀ v : List Bool, v.any id = false → asVec c.n v = 0 := by
    intro v hv
    funext j
    unfold asVec bit
    rw [if_neg]
    · rfl
    · intro hh
      rw [List.any_eq_false] at hv
      rw [List.getD_eq_getElem?_getD] at hh
      cases e : v[j.val]? with
      | none => rw [e] at hh; exact absurd hh (by decide)
      | some b =>
        rw [e] at hh
        exact hv b (List.mem_of_getElem? e) hh
  by_cases ha : (xest ++ zest).any id = true
  · have e : c.isStabilizer (xest ++ zest) = c.isStabilizer2 xest zest := by
      unfold Code.isStabilizer
      have hl : (xest ++ zest).length = c.n + c.n := by simp [hx, hz]
      rw [if_neg (by simp [ha]), if_pos (by omega), hl, show (c.n + c.n) / 2 = c.n by omega]
      rw [← hx, List.take_left, List.drop_left]
    obtain ⟨b1, g1, i1⟩ := C49_rowspace hX h1 xest (by omega)
    obtain ⟨b2, g2, i2⟩ := C49_rowspace c.hZ h2 zest (by omega)
    rw [hn] at i1
    rw [hn2] at i2
    rw [e]
    unfold Code.isStabilizer2
    rw [hc]
    simp only [Option.map_some, g1, g2]
    rw [← i1, ← i2]
    cases b1 with
    | false => exact ⟨false, rfl, by simp⟩
    | true => exact ⟨b2, rfl, by simp⟩
  · refine ⟨true, ?_, fun _ => ?_, fun _ => rfl⟩
    · unfold Code.isStabilizer
      rw [if_pos (by simp [ha])]
    · rw [List.any_append, Bool.not_eq_true, Bool.or_eq_false_iff] at ha
      rw [zero _ ha.1, zero _ ha.2]
      exact ⟨Submodule.zero_mem _, Submodule.zero_mem _⟩

/-! ## C54: neighbours -/

/-- Specification: the Tanner graph of a matrix with `n` columns: bit `b` and check `n + r` are adjacent when the entry
`(r, b)` is set. -/
def Adjacent (M : Gf2Mat) (u w : ℕ) : Prop :=
  ∃ r < M.length, ∃ b < cols M, entry M r b = true ∧ ((u = b ∧ w = cols M + r) ∨ (u = cols M + r ∧ w = b))

/-- **C54**: adjacency is symmetric. -/
theorem C54_symmetric (M : Gf2Mat) (u w : ℕ) : Adjacent M u w ↔ Adjacent M w u := by
  constructor <;>
  · rintro ⟨r, hr, b, hb, he, h⟩
    exact ⟨r, hr, b, hb, he, by omega⟩

theorem computeNbrs_spec (M : Gf2Mat) (h : Rect M) (i : ℕ) (hi : i < cols M + M.length) :
    ∃ l, computeNbrs M i = .ok l ∧ l.Pairwise (· < ·) ∧ ∀ w, w ∈ l ↔ Adjacent M i w := by
  unfold computeNbrs
  rw [if_neg (by simp [matrixPresent_of_rect h])]
  by_cases h1 : i < cols M
  · rw [if_pos h1]
    refine ⟨_, rfl, ?_, fun w => ?_⟩
    · rw [List.pairwise_map]
      exact (List.pairwise_lt_range.filter _).imp fun h => by omega
    · rw [List.mem_map]
      constructor
      · rintro ⟨r, hr, rfl⟩
        rw [List.mem_filter, List.mem_range] at hr
        exact ⟨r, hr.1, i, h1, hr.2, .inl ⟨rfl, rfl⟩⟩
      · rintro ⟨r, hr, b, hb, he, h⟩
        refine ⟨r, List.mem_filter.2 ⟨List.mem_range.2 hr, ?_⟩, by omega⟩
        have : b = i := by omega
        rw [← this]; exact he
  · rw [if_neg h1, if_pos (by omega)]
    refine ⟨_, rfl, List.pairwise_lt_range.filter _, fun w => ?_⟩
    rw [List.mem_filter, List.mem_range]
    constructor
    · rintro ⟨hw, he⟩
      exact ⟨i - cols M, by omega, w, hw, he, .inr ⟨by omega, rfl⟩⟩
    · rintro ⟨r, hr, b, hb, he, h⟩
      have e1 : w = b := by omega
      have e2 : i - cols M = r := by omega
      rw [e1, e2]; exact ⟨hb, he⟩

/-- The cache only holds correct answers. -/
def CacheOk (p : Pcm) : Prop := ∀ e ∈ p.cache, computeNbrs p.pcm e.1 = .ok e.2

theorem getNbrs_spec (p : Pcm) (h : CacheOk p) (i : ℕ) :
    (∃ l p', computeNbrs p.pcm i = .ok l ∧ p.getNbrs i = .ok (l, p') ∧ p'.pcm = p.pcm ∧ CacheOk p') ∨
      ∃ e, computeNbrs p.pcm i = .error e ∧ p.getNbrs i = .error e := by
  unfold Pcm.getNbrs
  cases hf : p.cache.find? fun e => e.1 == i with
  | some e =>
    have h1 := List.find?_some hf
    have h2 := h e (List.mem_of_find?_eq_some hf)
    simp only [beq_iff_eq] at h1
    rw [h1] at h2
    exact .inl ⟨e.2, p, h2, rfl, rfl, h⟩
  | none =>
    cases hc : computeNbrs p.pcm i with
    | error e => exact .inr ⟨e, rfl, rfl⟩
    | ok l =>
      refine .inl ⟨l, _, rfl, rfl, rfl, ?_⟩
      intro e he
      rcases List.mem_append.1 he with he | he
      · exact h e he
      · rw [List.mem_singleton] at he
        rw [he]; exact hc

/-- **C54**: in every history of calls on a matrix object, each call for a vertex of the Tanner graph answers with the sorted
list of its neighbours, whatever was asked before. -/
theorem C54_history (M : Gf2Mat) (h : Rect M) (calls : List ℕ) (j : ℕ) (hj : j < calls.length)
    (hi : calls[j] < cols M + M.length) :
    ∃ l, (({ pcm := M } : Pcm).calls calls).1[j]? = some (.ok l) ∧ l.Pairwise (· < ·) ∧ ∀ w, w ∈ l ↔ Adjacent M calls[j] w := by
  obtain ⟨l, h1, h2, h3⟩ := computeNbrs_spec M h calls[j] hi
  refine ⟨l, ?_, h2, h3⟩
  have key : ∀ (cs : List ℕ) (p : Pcm), CacheOk p → (p.calls cs).1 = cs.map (computeNbrs p.pcm) := by
    intro cs
    induction cs with
    | nil => intro p _; rfl
    | cons c cs ih =>
      intro p hp
      rcases getNbrs_spec p hp c with ⟨l, p', e1, e2, e3, e4⟩ | ⟨e, e1, e2⟩
      · simp only [Pcm.calls, e2, List.map_cons, e1, ih p' e4, e3]
      · simp only [Pcm.calls, e2, List.map_cons, e1, ih p hp]
  rw [key calls _ (by intro e he; simp at he), List.getElem?_map, List.getElem?_eq_getElem hj]
  simp [h1]

/-- **C54**: a vertex outside of the graph is an out-of-range error, at every time. -/
theorem C54_out_of_range (M : Gf2Mat) (h : Rect M) (i : ℕ) (hi : cols M + M.length ≤ i) :
    computeNbrs M i = .error .outOfRange := by
  unfold computeNbrs
  rw [if_neg (by simp [matrixPresent_of_rect h]), if_neg (by omega), if_neg (by omega)]

example : (({ pcm := [[true, true, false], [false, true, true]] } : Pcm).calls [1, 3, 1, 9, 4]).1 =
    [.ok [3, 4], .ok [0, 1], .ok [3, 4], .error .outOfRange, .ok [1, 2]] := by decide

/-! ## C87: syndromes -/

/-- Specification: `s` is the syndrome of `e` under the checks `M`. -/
def IsSyndrome (M : Gf2Mat) (e s : List Bool) : Prop :=
  s.length = M.length ∧ ∀ i < M.length, bit (s.getD i false) = ∑ k ∈ Finset.range (cols M), bit (entry M i k) * bit (e.getD k false)

theorem multiply_zero (M : Gf2Mat) (h : Rect M) (e : List Bool) (he : e.length = cols M) :
    ∃ s, rectMatrixMultiply M e (List.replicate M.length false) = .ok s ∧ IsSyndrome M e s := by
  obtain ⟨s, h1, h2, h3⟩ := C50_multiply M h e (List.replicate M.length false) he (by simp)
  refine ⟨s, h1, h2, fun i hi => ?_⟩
  rw [h3 i hi]
  have : (List.replicate M.length false).getD i false = false := by
    rw [List.getD_eq_getElem?_getD, List.getElem?_replicate]
    split <;> rfl
  rw [this]
  simp [bit]

/-- **C87**: the syndrome of an error of both kinds, X part first, is the syndrome of the X part under the Z checks followed
by the syndrome of the Z part under the X checks; `getXSyndrome` on the concatenated error gives the same. -/
theorem C87_syndrome (c : Code) (hX : Gf2Mat) (hc : c.hX = some hX) (h1 : Rect hX) (h2 : Rect c.hZ) (hn : cols hX = c.n)
    (hn2 : cols c.hZ = c.n) (x z : List Bool) (hx : x.length = c.n) (hz : z.length = c.n) :
    ∃ sx sz, c.getSyndrome x z = some (.ok (sx ++ sz)) ∧ c.getXSyndrome (x ++ z) = some (.ok (sx ++ sz)) ∧
      IsSyndrome c.hZ x sx ∧ IsSyndrome hX z sz := by
  obtain ⟨sx, g1, g2⟩ := multiply_zero c.hZ h2 x (by omega)
  obtain ⟨sz, k1, k2⟩ := multiply_zero hX h1 z (by omega)
  have n0 : c.n ≠ 0 := hn ▸ h1.2.1
  have xne : x ≠ [] := by intro e; rw [e] at hx; exact n0 hx.symm
  have zne : z ≠ [] := by intro e; rw [e] at hz; exact n0 hz.symm
  have e : c.getSyndrome x z = some (.ok (sx ++ sz)) := by
    unfold Code.getSyndrome
    rw [if_neg (by simp [xne, zne, hx, hz]), hc]
    simp only [Option.map_some, g1, k1]
    rfl
  refine ⟨sx, sz, e, ?_, g2, k2⟩
  unfold Code.getXSyndrome
  rw [if_neg (by simp [xne]), if_pos (by simp [hx, hz]; omega)]
  have t1 : (x ++ z).take c.n = x := by rw [← hx, List.take_left]
  have t2 : (x ++ z).drop c.n = z := by rw [← hx, List.drop_left]
  rw [t1, t2, e]

/-- **C87**: a vector of length `n` is taken as an X error. -/
theorem C87_x_syndrome (c : Code) (h2 : Rect c.hZ) (hn2 : cols c.hZ = c.n) (x : List Bool) (hx : x.length = c.n) :
    ∃ sx, c.getXSyndrome x = some (.ok sx) ∧ IsSyndrome c.hZ x sx := by
  obtain ⟨sx, g1, g2⟩ := multiply_zero c.hZ h2 x (by omega)
  have xne : x ≠ [] := by intro e; rw [e] at hx; exact h2.2.1 (hn2.trans hx.symm)
  refine ⟨sx, ?_, g2⟩
  unfold Code.getXSyndrome
  rw [if_neg xne, if_neg (by omega), g1]

/-- **C87**: errors of both kinds need vectors of length `n` each. -/
theorem C87_rejects (c : Code) (x z : List Bool) (h : x.length ≠ c.n ∨ z.length ≠ c.n) :
    c.getSyndrome x z = some (.error .qecc) := by
  unfold Code.getSyndrome
  rw [if_pos (by tauto)]

/-- **C87**: no vector of a length other than `n` and `2n` is accepted by `getXSyndrome`. -/
theorem C87_x_rejects (c : Code) (hn2 : cols c.hZ = c.n) (e : List Bool) (h1 : e.length ≠ c.n) (h2 : e.length ≠ 2 * c.n) :
    c.getXSyndrome e = some (.error .qecc) := by
  unfold Code.getXSyndrome
  by_cases he : e = []
  · rw [if_pos he]
  · rw [if_neg he]
    by_cases hl : e.length > c.n
    · rw [if_pos hl]
      exact C87_rejects c _ _ (Or.inr (by rw [List.length_drop]; omega))
    · rw [if_neg hl]
      unfold rectMatrixMultiply
      split
      · rfl
      · rw [if_pos (Or.inl (by omega))]

example : (mkCode (some [[true, true, true, true]]) [[true, true, true, true]]).getXSyndrome
    [true, false, false, false, true] = some (.error .qecc) := by decide

example : (mkCode (some [[true, true, true, true]]) [[true, true, true, true]]).getXSyndrome
    [true, false, false, false, true, true, false, false] = some (.ok [true, false]) := by decide

end Verif.Cpp
