import Verif.Model.Gf2
import Verif.LinalgLemmas
import Mathlib.Algebra.BigOperators.Group.Finset.Basic

/-! Helper lemmas: invariant of the PLU decomposition. -/

namespace Verif.Cpp
open Verif

theorem flips_apply (l : List ℕ) (h : l.Nodup) (c : ℕ → ZMod 2) (k : ℕ) :
    flips c l k = c k + if k ∈ l then 1 else 0 := by
  unfold flips
  induction l generalizing c with
  | nil => simp
  | cons a l ih =>
    rw [List.nodup_cons] at h
    rw [List.foldl_cons, ih h.2]
    unfold put
    by_cases hk : k = a
    · subst hk
      simp [h.1]
    · simp [hk]

/-- Legal operation `i` for `m` rows. -/
structure OpOk (m i : ℕ) (o : ℕ × List ℕ) : Prop where
  le : i ≤ o.1
  lt : o.1 < m
  nodup : o.2.Nodup
  mem : ∀ k ∈ o.2, i < k ∧ k < m

theorem swapAt_add (c d : ℕ → ZMod 2) (i j : ℕ) : swapAt (c + d) i j = swapAt c i j + swapAt d i j := by
  funext k
  simp only [swapAt, Pi.add_apply]
  split
  · rfl
  · split <;> rfl

theorem swapAt_swapAt {α : Type} (c : ℕ → α) (i j : ℕ) : swapAt (swapAt c i j) i j = c := by
  funext k
  simp only [swapAt]
  by_cases h1 : k = i
  · subst h1
    by_cases h2 : j = k
    · simp [h2]
    · simp [h2]
  · by_cases h2 : k = j
    · subst h2; simp [h1]
    · simp [h1, h2]

/-- The operation as a formula. -/
theorem applyOp_apply {m i : ℕ} {o : ℕ × List ℕ} (h : OpOk m i o) (c : ℕ → ZMod 2) (k : ℕ) :
    applyOp i o c k = swapAt c i o.1 k + (if k ∈ o.2 then 1 else 0) * swapAt c i o.1 i := by
  unfold applyOp
  by_cases h1 : swapAt c i o.1 i = 1
  · rw [if_pos h1, flips_apply _ h.nodup, h1, mul_one]
  · have h0 : swapAt c i o.1 i = 0 := (zmod2_cases _).resolve_right h1
    rw [if_neg h1, h0, mul_zero, add_zero]

theorem applyOp_add {m i : ℕ} {o : ℕ × List ℕ} (h : OpOk m i o) (c d : ℕ → ZMod 2) :
    applyOp i o (c + d) = applyOp i o c + applyOp i o d := by
  funext k
  rw [Pi.add_apply, applyOp_apply h, applyOp_apply h, applyOp_apply h, swapAt_add, Pi.add_apply, Pi.add_apply]
  ring

theorem applyOp_pivot {m i : ℕ} {o : ℕ × List ℕ} (h : OpOk m i o) (c : ℕ → ZMod 2) : applyOp i o c i = c o.1 := by
  rw [applyOp_apply h, if_neg fun hi => absurd (h.mem i hi).1 (lt_irrefl i), zero_mul, add_zero]
  simp [swapAt]

theorem applyOp_lt {m i : ℕ} {o : ℕ × List ℕ} (h : OpOk m i o) (c : ℕ → ZMod 2) {k : ℕ} (hk : k < i) :
    applyOp i o c k = c k := by
  rw [applyOp_apply h, if_neg fun hi => absurd (h.mem k hi).1 (by omega), zero_mul, add_zero]
  have := h.le
  simp only [swapAt, if_neg (show k ≠ i by omega), if_neg (show k ≠ o.1 by omega)]

theorem applyOp_ge {m i : ℕ} {o : ℕ × List ℕ} (h : OpOk m i o) (c : ℕ → ZMod 2) {k : ℕ} (hk : m ≤ k) :
    applyOp i o c k = c k := by
  have h1 := h.lt
  have h2 := h.le
  rw [applyOp_apply h, if_neg fun hi => absurd (h.mem k hi).2 (by omega), zero_mul, add_zero]
  simp only [swapAt, if_neg (show k ≠ i by omega), if_neg (show k ≠ o.1 by omega)]

theorem applyOp_inj {m i : ℕ} {o : ℕ × List ℕ} (h : OpOk m i o) (c : ℕ → ZMod 2) (h0 : applyOp i o c = 0) : c = 0 := by
  have hp : c o.1 = 0 := by rw [← applyOp_pivot h c, h0]; rfl
  have hs : swapAt c i o.1 = 0 := by
    funext k
    have := congrFun h0 k
    rw [applyOp_apply h] at this
    have e : swapAt c i o.1 i = 0 := by simp [swapAt, hp]
    rw [e, mul_zero, add_zero] at this
    exact this
  rw [← swapAt_swapAt c i o.1, hs]
  funext k
  simp [swapAt]

theorem applyOp_support {m i : ℕ} {o : ℕ × List ℕ} (h : OpOk m i o) (c : ℕ → ZMod 2) (hc : ∀ k, i ≤ k → c k = 0) :
    applyOp i o c = c := by
  funext k
  have hz : swapAt c i o.1 i = 0 := by simp [swapAt, hc _ h.le]
  rw [applyOp_apply h, hz, mul_zero, add_zero]
  simp only [swapAt]
  by_cases h1 : k = i
  · subst h1; simp [hc _ h.le, hc k le_rfl]
  · by_cases h2 : k = o.1
    · rw [if_neg h1, if_pos h2, h2, hc _ h.le, hc i le_rfl]
    · simp [h1, h2]

/-- Legal operations, counting from `i`. -/
def OpsOk (m i : ℕ) (os : List (ℕ × List ℕ)) : Prop := ∀ j (hj : j < os.length), OpOk m (i + j) os[j]

theorem OpsOk.tail {m i : ℕ} {o : ℕ × List ℕ} {os : List (ℕ × List ℕ)} (h : OpsOk m i (o :: os)) :
    OpOk m i o ∧ OpsOk m (i + 1) os := by
  refine ⟨h 0 (by simp), fun j hj => ?_⟩
  have := h (j + 1) (by simpa using hj)
  rw [show i + 1 + j = i + (j + 1) by omega]
  simpa using this

theorem opsOk_snoc {m i : ℕ} {os : List (ℕ × List ℕ)} {o : ℕ × List ℕ} (h : OpsOk m i os) (ho : OpOk m (i + os.length) o) :
    OpsOk m i (os ++ [o]) := by
  intro j hj
  rcases Nat.lt_or_ge j os.length with h1 | h1
  · rw [List.getElem_append_left h1]; exact h j h1
  · have : j = os.length := by simp at hj; omega
    subst this
    simpa using ho

theorem applyOps_snoc (i : ℕ) (os : List (ℕ × List ℕ)) (o : ℕ × List ℕ) (c : ℕ → ZMod 2) :
    applyOps i (os ++ [o]) c = applyOp (i + os.length) o (applyOps i os c) := by
  induction os generalizing i c with
  | nil => rfl
  | cons a os ih =>
    simp only [List.cons_append, applyOps, List.length_cons]
    rw [ih]
    congr 1
    omega

theorem applyOps_add {m i : ℕ} {os : List (ℕ × List ℕ)} (h : OpsOk m i os) (c d : ℕ → ZMod 2) :
    applyOps i os (c + d) = applyOps i os c + applyOps i os d := by
  induction os generalizing i c d with
  | nil => rfl
  | cons o os ih =>
    simp only [applyOps]
    rw [applyOp_add h.tail.1, ih h.tail.2]

theorem applyOps_ge {m i : ℕ} {os : List (ℕ × List ℕ)} (h : OpsOk m i os) (c : ℕ → ZMod 2) {k : ℕ} (hk : m ≤ k) :
    applyOps i os c k = c k := by
  induction os generalizing i c with
  | nil => rfl
  | cons o os ih =>
    simp only [applyOps]
    rw [ih h.tail.2, applyOp_ge h.tail.1 _ hk]

theorem applyOps_inj {m i : ℕ} {os : List (ℕ × List ℕ)} (h : OpsOk m i os) (c : ℕ → ZMod 2) (h0 : applyOps i os c = 0) :
    c = 0 := by
  induction os generalizing i c with
  | nil => exact h0
  | cons o os ih => exact applyOp_inj h.tail.1 _ (ih h.tail.2 _ h0)

/-- The operations of a decomposition as a linear map. -/
def redMap {m : ℕ} {os : List (ℕ × List ℕ)} (h : OpsOk m 0 os) : (ℕ → ZMod 2) →ₗ[ZMod 2] (ℕ → ZMod 2) where
  toFun := applyOps 0 os
  map_add' := applyOps_add h
  map_smul' := by
    intro a v
    have h0 : applyOps 0 os 0 = 0 := by
      have := applyOps_add h 0 0
      rw [add_zero] at this
      rw [this]
      funext k
      exact add_self_eq_zero' (V := ZMod 2) _
    rcases zmod2_cases a with rfl | rfl
    · simp [h0]
    · simp

theorem redMap_injective {m : ℕ} {os : List (ℕ × List ℕ)} (h : OpsOk m 0 os) : Function.Injective (redMap h) := by
  rw [← LinearMap.ker_eq_bot, LinearMap.ker_eq_bot']
  exact fun c hc => applyOps_inj h c hc

/-- Reduced column. -/
def red (p : Plu) (c : ℕ → ZMod 2) : ℕ → ZMod 2 := applyOps 0 p.ops c

/-- Column `j` of the matrix. -/
def colOf (csc : List (List ℕ)) (j : ℕ) : ℕ → ZMod 2 := column (csc.getD j [])

/-- The invariant after the columns below `c` were treated. -/
structure Inv (m : ℕ) (csc : List (List ℕ)) (c : ℕ) (p : Plu) : Prop where
  len : p.ops.length = p.rank
  rank_le : p.rank ≤ m
  ops : OpsOk m 0 p.ops
  plen : p.pivotCols.length = p.rank
  sorted : p.pivotCols.Pairwise (· < ·)
  bound : ∀ j ∈ p.pivotCols, j < c
  zero : ∀ j < c, ∀ k, p.rank ≤ k → k < m → red p (colOf csc j) k = 0
  diag : ∀ i (hi : i < p.pivotCols.length), red p (colOf csc p.pivotCols[i]) i = 1 ∧
    ∀ k, i < k → k < m → red p (colOf csc p.pivotCols[i]) k = 0
  lower : ∀ v k, k < m → red p v k = v (p.rows k) + (((p.lower k).filter (· ≠ k)).map (red p v)).sum
  lower_lt : ∀ k, ∀ j ∈ p.lower k, j < p.rank ∧ j ≤ k
  lower_self : ∀ k < p.rank, (p.lower k).filter (· = k) = [k]
  upper : ∀ i < p.rank, p.upper i = p.pivotCols.filter fun j => red p (colOf csc j) i = 1
  upper_ge : ∀ i, p.rank ≤ i → p.upper i = []
  rows_lt : ∀ k < m, p.rows k < m
  rows_inj : ∀ k < m, ∀ l < m, p.rows k = p.rows l → k = l

theorem inv_init (m : ℕ) (csc : List (List ℕ)) : Inv m csc 0 {} where
  len := rfl
  rank_le := Nat.zero_le _
  ops := fun j hj => absurd hj (by simp)
  plen := rfl
  sorted := List.Pairwise.nil
  bound := by simp
  zero := by simp
  diag := by simp
  lower := by intro v k _; simp [red, applyOps]
  lower_lt := by simp
  lower_self := by simp
  upper := by simp
  upper_ge := by simp
  rows_lt := fun k hk => hk
  rows_inj := fun k _ l _ e => e

theorem swap_lt {m i s k : ℕ} (hi : i < m) (hs : s < m) (f : ℕ → ℕ) (hf : ∀ k < m, f k < m) (hk : k < m) :
    swapAt f i s k < m := by
  unfold swapAt
  split
  · exact hf s hs
  · split
    · exact hf i hi
    · exact hf k hk

theorem swap_inj {m i s : ℕ} (hi : i < m) (hs : s < m) (f : ℕ → ℕ) (hf : ∀ k < m, ∀ l < m, f k = f l → k = l)
    (k : ℕ) (hk : k < m) (l : ℕ) (hl : l < m) (e : swapAt f i s k = swapAt f i s l) : k = l := by
  unfold swapAt at e
  by_cases h1 : k = i
  · by_cases h2 : l = i
    · omega
    · by_cases h3 : l = s
      · rw [if_pos h1, if_neg h2, if_pos h3] at e
        have := hf _ hs _ hi e; omega
      · rw [if_pos h1, if_neg h2, if_neg h3] at e
        have := hf _ hs _ hl e; omega
  · by_cases h4 : k = s
    · by_cases h2 : l = i
      · rw [if_neg h1, if_pos h4, if_pos h2] at e
        have := hf _ hi _ hs e; omega
      · by_cases h3 : l = s
        · omega
        · rw [if_neg h1, if_pos h4, if_neg h2, if_neg h3] at e
          have := hf _ hi _ hl e; omega
    · by_cases h2 : l = i
      · rw [if_neg h1, if_neg h4, if_pos h2] at e
        have := hf _ hk _ hs e; omega
      · by_cases h3 : l = s
        · rw [if_neg h1, if_neg h4, if_neg h2, if_pos h3] at e
          have := hf _ hk _ hi e; omega
        · rw [if_neg h1, if_neg h4, if_neg h2, if_neg h3] at e
          exact hf _ hk _ hl e

theorem inv_step_none {m : ℕ} {csc : List (List ℕ)} {c : ℕ} {p : Plu} (h : Inv m csc c p)
    (hz : ∀ k, p.rank ≤ k → k < m → red p (colOf csc c) k = 0) : Inv m csc (c + 1) p :=
  { h with
    bound := fun j hj => Nat.lt_succ_of_lt (h.bound j hj)
    zero := fun j hj k => by
      rcases Nat.lt_succ_iff_lt_or_eq.1 hj with h1 | h1
      · exact h.zero j h1 k
      · subst h1; exact hz k }

set_option maxHeartbeats 1000000 in
theorem inv_step_pivot {m : ℕ} {csc : List (List ℕ)} {c : ℕ} {p : Plu} (h : Inv m csc c p) (s : ℕ) (hs : p.rank ≤ s)
    (hsm : s < m) (h1 : red p (colOf csc c) s = 1) :
    Inv m csc (c + 1) (addPivot m p c (red p (colOf csc c)) s) := by
  set r := p.rank with hr
  set C := red p (colOf csc c) with hC
  set c1 := swapAt C r s with hc1
  set elim := (List.range m).filter fun i => decide (r < i ∧ c1 i = 1) with helim
  have hmem : ∀ k, k ∈ elim ↔ k < m ∧ r < k ∧ c1 k = 1 := by
    intro k
    rw [helim, List.mem_filter, List.mem_range, decide_eq_true_eq]
  have hop : OpOk m r (s, elim) := ⟨hs, hsm, List.nodup_range.filter _, fun k hk => ⟨((hmem k).1 hk).2.1, ((hmem k).1 hk).1⟩⟩
  have hrm : r < m := by omega
  set q := addPivot m p c C s with hq
  have qrank : q.rank = r + 1 := rfl
  have qops : q.ops = p.ops ++ [(s, elim)] := rfl
  have qrows : q.rows = swapAt p.rows r s := rfl
  have qpiv : q.pivotCols = p.pivotCols ++ [c] := rfl
  have qred : ∀ v, red q v = applyOp r (s, elim) (red p v) := by
    intro v
    unfold red
    rw [qops, applyOps_snoc, h.len, Nat.zero_add]
  -- the new pivot column
  have c1r : c1 r = 1 := by simp [hc1, swapAt, h1]
  have newcol : ∀ k, red q (colOf csc c) k = c1 k + (if k ∈ elim then 1 else 0) := by
    intro k
    rw [qred, applyOp_apply hop]
    show c1 k + _ * c1 r = _
    rw [c1r, mul_one]
  have newcol_r : red q (colOf csc c) r = 1 := by
    rw [newcol, c1r, if_neg, add_zero]
    intro hh
    exact absurd ((hmem r).1 hh).2.1 (lt_irrefl r)
  have newcol_gt : ∀ k, r < k → k < m → red q (colOf csc c) k = 0 := by
    intro k hk hkm
    rw [newcol]
    by_cases hh : k ∈ elim
    · rw [if_pos hh, ((hmem k).1 hh).2.2]; rfl
    · rw [if_neg hh, add_zero]
      rcases zmod2_cases (c1 k) with e | e
      · exact e
      · exact absurd ((hmem k).2 ⟨hkm, hk, e⟩) hh
  have newcol_lt : ∀ k, k < r → red q (colOf csc c) k = C k := by
    intro k hk
    rw [qred, applyOp_lt hop _ hk]
  have c1lt : ∀ k, k < r → c1 k = C k := by
    intro k hk
    simp only [hc1, swapAt, if_neg (show k ≠ r by omega), if_neg (show k ≠ s by omega)]
  -- old columns are unchanged
  have oldcol : ∀ j < c, ∀ k < m, red q (colOf csc j) k = red p (colOf csc j) k := by
    intro j hj k hk
    rw [qred, applyOp_apply hop]
    have z1 := h.zero j hj s hs hsm
    have z2 := h.zero j hj r le_rfl hrm
    have e : swapAt (red p (colOf csc j)) r s r = 0 := by simp [swapAt, z1]
    show swapAt (red p (colOf csc j)) r s k + _ * swapAt (red p (colOf csc j)) r s r = _
    rw [e, mul_zero, add_zero]
    unfold swapAt
    split
    · rename_i e; rw [e, z1, z2]
    · split
      · rename_i _ e; rw [e, z1, z2]
      · rfl
  have bnd : ∀ j ∈ p.pivotCols, j < c := h.bound
  -- lower
  set low := swapAt p.lower r s with hlow
  have qlow : ∀ k, q.lower k = if elim.contains k then (if k = r then low r ++ [r] else low k) ++ [r]
      else if k = r then low r ++ [r] else low k := fun k => rfl
  have relim : elim.contains r = false := by
    rw [Bool.eq_false_iff]
    intro hh
    exact absurd ((hmem r).1 (List.contains_iff_mem.1 hh)).2.1 (lt_irrefl r)
  have lowlt : ∀ k, ∀ j ∈ low k, j < r := by
    intro k j hj
    simp only [hlow, swapAt] at hj
    split at hj
    · exact (h.lower_lt _ j hj).1
    · split at hj
      · exact (h.lower_lt _ j hj).1
      · exact (h.lower_lt _ j hj).1
  have lowle : ∀ k, ∀ j ∈ low k, j ≤ k := by
    intro k j hj
    have hjr := lowlt k j hj
    rcases Nat.lt_or_ge k r with hk | hk
    · have : low k = p.lower k := by
        simp only [hlow, swapAt, if_neg (show k ≠ r by omega), if_neg (show k ≠ s by omega)]
      rw [this] at hj
      exact (h.lower_lt _ j hj).2
    · omega
  refine
    { len := by rw [qops, qrank, List.length_append, h.len]; rfl
      rank_le := by rw [qrank]; omega
      ops := by rw [qops]; exact opsOk_snoc h.ops (by rw [Nat.zero_add, h.len]; exact hop)
      plen := by rw [qpiv, qrank, List.length_append, h.plen]; rfl
      sorted := ?_
      bound := ?_
      zero := ?_
      diag := ?_
      lower := ?_
      lower_lt := ?_
      lower_self := ?_
      upper := ?_
      upper_ge := ?_
      rows_lt := fun k hk => by rw [qrows]; exact swap_lt hrm hsm _ h.rows_lt hk
      rows_inj := fun k hk l hl e => by rw [qrows] at e; exact swap_inj hrm hsm _ h.rows_inj k hk l hl e }
  · rw [qpiv, List.pairwise_append]
    refine ⟨h.sorted, List.pairwise_singleton _ _, ?_⟩
    intro a ha b hb
    simp only [List.mem_singleton] at hb
    rw [hb]; exact bnd a ha
  · rw [qpiv]
    intro j hj
    rcases List.mem_append.1 hj with hj | hj
    · exact Nat.lt_succ_of_lt (bnd j hj)
    · simp only [List.mem_singleton] at hj; omega
  · intro j hj k hk hkm
    rw [qrank] at hk
    rcases Nat.lt_succ_iff_lt_or_eq.1 hj with h2 | h2
    · rw [oldcol j h2 k hkm]; exact h.zero j h2 k (by omega) hkm
    · subst h2; exact newcol_gt k (by omega) hkm
  · intro i hi
    have hlen : i < p.pivotCols.length + 1 := by rw [qpiv] at hi; simpa using hi
    rcases Nat.lt_or_ge i p.pivotCols.length with h2 | h2
    · have e : q.pivotCols[i] = p.pivotCols[i] := by
        simp only [qpiv]; rw [List.getElem_append_left h2]
      rw [e]
      have hb := bnd p.pivotCols[i] (List.getElem_mem h2)
      obtain ⟨d1, d2⟩ := h.diag i h2
      have : p.pivotCols.length = r := h.plen
      refine ⟨by rw [oldcol _ hb i (by omega)]; exact d1, fun k hk hkm => ?_⟩
      rw [oldcol _ hb k hkm]; exact d2 k hk hkm
    · have hir : i = r := by have := h.plen; omega
      have e : q.pivotCols[i] = c := by
        simp only [qpiv]; rw [List.getElem_append_right h2]; simp
      rw [e, hir]
      exact ⟨newcol_r, newcol_gt⟩
  · intro v k hk
    have key : ∀ k < m, swapAt (red p v) r s k = v (swapAt p.rows r s k) +
        (((low k).filter (· ≠ k)).map (red p v)).sum := by
      intro k hk
      -- filter: entries are below r and for k ≥ r automatically different from k
      have fl : ∀ a b : ℕ, r ≤ a → r ≤ b → ∀ l : List ℕ, (∀ j ∈ l, j < r) →
          l.filter (· ≠ a) = l.filter (· ≠ b) := by
        intro a b ha hb l hl
        apply List.filter_congr
        intro j hj
        have := hl j hj
        have e1 : j ≠ a := by omega
        have e2 : j ≠ b := by omega
        simp [e1, e2]
      have pl : ∀ k, ∀ j ∈ p.lower k, j < r := fun k j hj => (h.lower_lt k j hj).1
      by_cases e1 : k = r
      · have : low k = p.lower s := by simp [hlow, swapAt, e1]
        rw [this]
        simp only [swapAt, if_pos e1]
        rw [h.lower v s hsm, fl k s (by omega) hs _ (pl s)]
      · by_cases e2 : k = s
        · have : low k = p.lower r := by simp only [hlow, swapAt, if_neg e1, if_pos e2]
          rw [this]
          simp only [swapAt, if_neg e1, if_pos e2]
          rw [h.lower v r hrm, fl k r (by omega) le_rfl _ (pl r)]
        · have : low k = p.lower k := by simp only [hlow, swapAt, if_neg e1, if_neg e2]
          rw [this]
          simp only [swapAt, if_neg e1, if_neg e2]
          rw [h.lower v k hk]
    have same : ∀ l : List ℕ, (∀ j ∈ l, j < r) → l.map (red q v) = l.map (red p v) := by
      intro l hl
      apply List.map_congr_left
      intro j hj
      rw [qred, applyOp_lt hop _ (hl j hj)]
    have e0 : red q v k = swapAt (red p v) r s k + (if k ∈ elim then 1 else 0) * swapAt (red p v) r s r := by
      rw [qred, applyOp_apply hop]
    rw [e0, key k hk, qrows, qlow]
    have hqr : red q v r = swapAt (red p v) r s r := by
      rw [qred, applyOp_pivot hop]; simp [swapAt]
    by_cases e1 : k = r
    · have : ¬ (r ∈ elim) := by
        intro hh; rw [List.contains_iff_mem.2 hh] at relim; cases relim
      rw [e1, relim, if_neg this, zero_mul, add_zero]
      simp only [Bool.false_eq_true, if_false, if_true, List.filter_append]
      have e3 : [r].filter (fun j => decide (j ≠ r)) = [] := by simp
      rw [e3, List.append_nil, same _ fun j hj => lowlt r j (List.mem_of_mem_filter hj)]
    · by_cases e2 : k ∈ elim
      · have hrk : r ≠ k := fun e => e1 e.symm
        rw [List.contains_iff_mem.2 e2, if_pos e2, one_mul]
        simp only [if_true, if_neg e1, List.filter_append]
        have e3 : [r].filter (fun j => decide (j ≠ k)) = [r] := by simp [hrk]
        rw [e3, List.map_append, List.sum_append, same _ fun j hj => lowlt k j (List.mem_of_mem_filter hj)]
        simp only [List.map_cons, List.map_nil, List.sum_cons, List.sum_nil, add_zero]
        rw [hqr, add_assoc]
      · have e4 : elim.contains k = false := by
          rw [Bool.eq_false_iff]; intro hh; exact e2 (List.contains_iff_mem.1 hh)
        rw [e4, if_neg e2, zero_mul, add_zero]
        simp only [Bool.false_eq_true, if_false, if_neg e1]
        rw [same _ fun j hj => lowlt k j (List.mem_of_mem_filter hj)]
  · intro k j hj
    rw [qlow] at hj
    rw [qrank]
    by_cases e1 : k = r
    · rw [e1, relim] at hj
      simp only [Bool.false_eq_true, if_false, if_true, List.mem_append, List.mem_singleton] at hj
      rcases hj with hj | hj
      · have := lowlt _ j hj; omega
      · omega
    · by_cases e2 : k ∈ elim
      · rw [List.contains_iff_mem.2 e2] at hj
        simp only [if_true, if_neg e1, List.mem_append, List.mem_singleton] at hj
        have := ((hmem k).1 e2).2.1
        rcases hj with hj | hj
        · have := lowlt _ j hj; omega
        · omega
      · have e4 : elim.contains k = false := by
          rw [Bool.eq_false_iff]; intro hh; exact e2 (List.contains_iff_mem.1 hh)
        rw [e4] at hj
        simp only [Bool.false_eq_true, if_false, if_neg e1] at hj
        have := lowlt _ j hj
        have := lowle _ j hj
        omega
  · intro k hk
    rw [qrank] at hk
    rw [qlow]
    by_cases e1 : k = r
    · rw [e1, relim]
      simp only [Bool.false_eq_true, if_false, if_true, List.filter_append]
      have e3 : (low r).filter (fun j => decide (j = r)) = [] := by
        rw [List.filter_eq_nil_iff]
        intro j hj
        have := lowlt r j hj
        have : j ≠ r := by omega
        simpa using this
      rw [e3]; simp
    · have e2 : ¬ (k ∈ elim) := fun hh => by
        have := ((hmem k).1 hh).2.1; omega
      have e4 : elim.contains k = false := by
        rw [Bool.eq_false_iff]; intro hh; exact e2 (List.contains_iff_mem.1 hh)
      rw [e4]
      simp only [Bool.false_eq_true, if_false, if_neg e1]
      have : low k = p.lower k := by
        simp only [hlow, swapAt, if_neg e1, if_neg (show k ≠ s by omega)]
      rw [this]
      exact h.lower_self k (by omega)
  · intro i hi
    rw [qrank] at hi
    have qup : q.upper i = if i ≤ r ∧ c1 i = 1 then p.upper i ++ [c] else p.upper i := rfl
    rw [qup, qpiv, List.filter_append]
    have im : i < m := by omega
    have old : p.pivotCols.filter (fun j => decide (red q (colOf csc j) i = 1)) =
        p.pivotCols.filter fun j => decide (red p (colOf csc j) i = 1) := by
      apply List.filter_congr
      intro j hj
      rw [oldcol j (bnd j hj) i im]
    rw [old]
    rcases Nat.lt_or_ge i r with hlt | hge
    · rw [← h.upper i hlt]
      have e : red q (colOf csc c) i = c1 i := by rw [newcol_lt i hlt, c1lt i hlt]
      by_cases e1 : c1 i = 1
      · rw [if_pos ⟨by omega, e1⟩]; simp [e, e1]
      · rw [if_neg fun hh => e1 hh.2]; simp [e, e1]
    · have hir : i = r := by omega
      rw [hir, if_pos ⟨le_rfl, c1r⟩, h.upper_ge _ le_rfl]
      have e0 : p.pivotCols.filter (fun j => decide (red p (colOf csc j) r = 1)) = [] := by
        rw [List.filter_eq_nil_iff]
        intro j hj
        rw [h.zero j (bnd j hj) r le_rfl hrm]
        simp
      rw [e0]; simp [newcol_r]
  · intro i hi
    rw [qrank] at hi
    have qup : q.upper i = if i ≤ r ∧ c1 i = 1 then p.upper i ++ [c] else p.upper i := rfl
    rw [qup, if_neg fun hh => by omega]
    exact h.upper_ge i (by omega)

theorem inv_step {m : ℕ} {csc : List (List ℕ)} {c : ℕ} {p : Plu} (h : Inv m csc c p) :
    Inv m csc (c + 1) (eliminateColumn m csc p c) := by
  unfold eliminateColumn
  show Inv m csc (c + 1) (match (List.range m).find? fun i => decide (p.rank ≤ i ∧ red p (colOf csc c) i = 1) with
    | none => p
    | some s => addPivot m p c (red p (colOf csc c)) s)
  cases hf : (List.range m).find? fun i => decide (p.rank ≤ i ∧ red p (colOf csc c) i = 1) with
  | none =>
    refine inv_step_none h fun k hk hkm => ?_
    rw [List.find?_eq_none] at hf
    have := hf k (List.mem_range.2 hkm)
    simp only [decide_eq_true_eq, not_and] at this
    exact (zmod2_cases _).resolve_right (this hk)
  | some s =>
    have h1 := List.find?_some hf
    have h2 := List.mem_of_find?_eq_some hf
    simp only [decide_eq_true_eq] at h1
    exact inv_step_pivot h s h1.1 (List.mem_range.1 h2) h1.2

theorem rank_le_cols {m : ℕ} {csc : List (List ℕ)} {c : ℕ} {p : Plu} (h : Inv m csc c p) : p.rank ≤ c := by
  rw [← h.plen]
  have h1 : p.pivotCols.Nodup := h.sorted.imp fun h => Nat.ne_of_lt h
  have h2 : p.pivotCols ⊆ List.range c := fun j hj => List.mem_range.2 (h.bound j hj)
  simpa using (List.subperm_of_subset h1 h2).length_le

theorem inv_loop {m n : ℕ} {csc : List (List ℕ)} (k : ℕ) (c : ℕ) (hc : c + k = n) (p : Plu) (h : Inv m csc c p) :
    Inv m csc n (rrefLoop m (min m n) csc (List.range' c k) p) := by
  induction k generalizing c p with
  | zero => rw [show n = c by omega]; exact h
  | succ k ih =>
    rw [List.range'_succ, rrefLoop]
    have hs := inv_step h
    split
    · rename_i hmax
      -- early exit
      have hle := rank_le_cols hs
      rcases Nat.lt_or_ge (c + 1) n with hlt | hge
      · have hm : (eliminateColumn m csc p c).rank = m := by omega
        exact { hs with
          bound := fun j hj => lt_of_lt_of_le (hs.bound j hj) (by omega)
          zero := fun j _ k hk hkm => absurd hkm (by omega) }
      · rw [show n = c + 1 by omega]; exact hs
    · exact ih (c + 1) (by omega) _ hs

/-- The invariant holds for the result. -/
theorem inv_plu (m n : ℕ) (csc : List (List ℕ)) : Inv m csc n (plu m n csc) := by
  unfold plu
  rw [List.range_eq_range']
  exact inv_loop n 0 (by omega) _ (inv_init m csc)

end Verif.Cpp
