import Verif.Lemmas.Prep
import Mathlib.Tactic.Ring

/-! The greedy loop of `heuristic_prep_circuit`: invariant and termination measure. -/

namespace Verif.SP
open Verif Verif.Spec
variable {n : ℕ}

/-- Every row is zero or owns a column of weight one. -/
def UnitRows (M : List (Vec n)) : Prop := ∀ r ∈ M, r = 0 ∨ ∃ c, r c = 1 ∧ colSum M c = 1

theorem colSum_cons (x : Vec n) (M : List (Vec n)) (j : Fin n) :
    colSum (x :: M) j = colSum M j + if x j = 1 then 1 else 0 := by
  simp [colSum, List.countP_cons]

theorem pairSum_cons (x : Vec n) (M : List (Vec n)) (i j : Fin n) :
    pairSum (x :: M) i j = pairSum M i j + if x i + x j = 1 then 1 else 0 := by
  simp [pairSum, List.countP_cons]

theorem colSum_eq_zero (M : List (Vec n)) (j : Fin n) : colSum M j = 0 ↔ ∀ r ∈ M, r j = 0 := by
  unfold colSum
  rw [List.countP_eq_zero]
  refine forall₂_congr fun r _ => ?_
  rcases zmod2_cases (r j) with h | h <;> rw [h] <;> decide

theorem pairSum_eq_zero (M : List (Vec n)) (i j : Fin n) : pairSum M i j = 0 ↔ ∀ r ∈ M, r i = r j := by
  unfold pairSum
  rw [List.countP_eq_zero]
  refine forall₂_congr fun r _ => ?_
  rcases zmod2_cases (r i) with h | h <;> rcases zmod2_cases (r j) with h' | h' <;> rw [h, h'] <;> decide

theorem pairSum_of_unit (M : List (Vec n)) (c j : Fin n) (r : Vec n) (hr : r ∈ M) (hc : colSum M c = 1)
    (h1 : r c = 1) (h2 : r j = 1) : pairSum M c j + 1 = colSum M j := by
  induction M with
  | nil => simp at hr
  | cons x M ih =>
    rw [colSum_cons] at hc
    rw [pairSum_cons, colSum_cons]
    rcases zmod2_cases (x c) with hx | hx
    · rw [hx] at hc
      have hrx : r ≠ x := by rintro rfl; rw [h1] at hx; exact absurd hx (by decide)
      have := ih ((List.mem_cons.1 hr).resolve_left hrx) (by simpa using hc)
      rw [hx, zero_add]; omega
    · rw [hx] at hc
      have hz : colSum M c = 0 := by simpa using hc
      rw [colSum_eq_zero] at hz
      have hrx : r = x := by
        rcases List.mem_cons.1 hr with h | h
        · exact h
        · have := hz r h; rw [h1] at this; exact absurd this (by decide)
      subst hrx
      have hp : pairSum M c j = colSum M j := by
        unfold pairSum colSum
        apply List.countP_congr
        intro y hy
        rw [hz y hy, zero_add]
      rw [hx, h2, hp]
      have : ¬ ((1 : ZMod 2) + 1 = 1) := by decide
      rw [if_neg this, if_pos rfl]

theorem colSum_addCol_target (M : List (Vec n)) (i j : Fin n) :
    colSum (addCol M (i, j)) j = pairSum M i j := by
  simp [colSum, addCol, pairSum, List.countP_map, Function.comp_def]

theorem colSum_addCol_other (M : List (Vec n)) (i j c : Fin n) (h : c ≠ j) :
    colSum (addCol M (i, j)) c = colSum M c := by
  simp [colSum, addCol, List.countP_map, Function.comp_def, Function.update_of_ne h]

theorem unitRows_addCol (M : List (Vec n)) (i j : Fin n) (hij : i ≠ j)
    (hlt : pairSum M i j < colSum M j) (hU : UnitRows M) : UnitRows (addCol M (i, j)) := by
  intro r' hr'
  obtain ⟨r, hr, rfl⟩ := List.mem_map.1 hr'
  rcases hU r hr with rfl | ⟨c, hc1, hc2⟩
  · left; funext k; simp [Function.update_apply]
  · right
    by_cases hcj : c = j
    · subst hcj
      have hz : pairSum M i c = 0 := by omega
      rw [pairSum_eq_zero] at hz
      refine ⟨i, ?_, ?_⟩
      · simp only; rw [Function.update_of_ne hij, hz r hr, hc1]
      · rw [colSum_addCol_other _ _ _ _ hij, ← hc2]
        unfold colSum
        exact List.countP_congr fun y hy => by rw [hz y hy]
    · refine ⟨c, ?_, ?_⟩
      · simp only; rw [Function.update_of_ne hcj, hc1]
      · rw [colSum_addCol_other _ _ _ _ hcj, hc2]

/-- Total weight of the matrix. -/
def totalWt (M : List (Vec n)) : ℕ := ∑ j, colSum M j

theorem totalWt_addCol (M : List (Vec n)) (i j : Fin n) (hlt : pairSum M i j < colSum M j) :
    totalWt (addCol M (i, j)) < totalWt M := by
  unfold totalWt
  apply Finset.sum_lt_sum
  · intro c _
    by_cases h : c = j
    · subst h; rw [colSum_addCol_target]; omega
    · rw [colSum_addCol_other _ _ _ _ h]
  · exact ⟨j, Finset.mem_univ _, by rw [colSum_addCol_target]; exact hlt⟩

theorem pairSum_comm (M : List (Vec n)) (i j : Fin n) : pairSum M i j = pairSum M j i := by
  unfold pairSum
  exact List.countP_congr fun y _ => by rw [add_comm]

theorem pairSum_addCol_other (M : List (Vec n)) (i j a b : Fin n) (ha : a ≠ j) (hb : b ≠ j) :
    pairSum (addCol M (i, j)) a b = pairSum M a b := by
  simp [pairSum, addCol, List.countP_map, Function.comp_def, Function.update_of_ne ha, Function.update_of_ne hb]

theorem updateCosts_init (M : List (Vec n)) (i j : Fin n) :
    updateCosts (addCol M (i, j)) (initCosts M) j = initCosts (addCol M (i, j)) := by
  funext a b
  unfold updateCosts initCosts fillDiag
  by_cases hab : a = b
  · simp [hab]
  · simp only [if_neg hab]
    by_cases hb : b = j
    · subst hb; rw [if_pos rfl, pairSum_comm]
    · rw [if_neg hb]
      by_cases ha : a = j
      · subst ha; rw [if_pos rfl]
      · rw [if_neg ha, pairSum_addCol_other _ _ _ _ _ ha hb, colSum_addCol_other _ _ _ _ hb]

/-- Non-zero columns and zero columns together are all columns. -/
theorem isReduced_iff (rk : ℕ) (M : List (Vec n)) : isReduced rk M = true ↔ (nonzeroCols M).length = rk := by
  unfold isReduced
  rw [decide_eq_true_eq]
  have h1 : (nonzeroCols M).length +
      ((List.finRange n).countP fun j => M.all fun r => decide (r j = 0)) = n := by
    rw [nonzeroCols, ← List.countP_eq_length_filter]
    have := List.length_eq_countP_add_countP (l := List.finRange n) (fun i => decide (1 ≤ colSum M i))
    rw [List.length_finRange] at this
    refine Eq.trans ?_ this.symm
    congr 1
    apply List.countP_congr
    intro j _
    rw [List.all_eq_true]
    have := colSum_eq_zero M j
    simp only [decide_eq_true_eq]
    rw [← this]
    simp
  omega

/-- A unit-row matrix without improving addition is fully reduced. -/
theorem reduced_of_unit (M : List (Vec n)) (hU : UnitRows M)
    (hno : ∀ i j, i ≠ j → colSum M j ≤ pairSum M i j) : (nonzeroCols M).length = rank M := by
  have key : ∀ r ∈ M, r = 0 ∨ ∃ c, r = Pi.single c 1 := by
    intro r hr
    rcases hU r hr with h | ⟨c, h1, h2⟩
    · exact Or.inl h
    · right
      refine ⟨c, ?_⟩
      funext j
      by_cases hj : j = c
      · subst hj; simp [h1]
      · rcases zmod2_cases (r j) with h | h
        · simp [hj, h]
        · have := pairSum_of_unit M c j r hr h2 h1 h
          have := hno c j (Ne.symm hj)
          omega
  have hspan : rowSpan M =
      Submodule.span (ZMod 2) {w : Vec n | ∃ q ∈ nonzeroCols M, w = Pi.single q 1} := by
    apply le_antisymm (rowSpan_le_nonzeroCols M)
    rw [Submodule.span_le]
    rintro w ⟨q, hq, rfl⟩
    obtain ⟨r, hr, h1⟩ := (mem_nonzeroCols M q).1 hq
    rcases key r hr with rfl | ⟨c, rfl⟩
    · simp at h1
    · have : q = c := by
        by_contra hne; simp [hne] at h1
      subst this
      exact mem_rowSpan_of_mem hr
  rw [rank_eq_finrank, hspan, finrank_span_singles _ (nodup_nonzeroCols M)]

theorem argmin_spec (f : CX n → ℤ) (l : List (CX n)) :
    (argmin f l = none ↔ l = []) ∧ ∀ p, argmin f l = some p → p ∈ l ∧ ∀ q ∈ l, f p ≤ f q := by
  induction l with
  | nil => simp [argmin]
  | cons x l ih =>
    constructor
    · simp only [argmin]
      split
      · simp
      · split <;> simp
    · intro p hp
      simp only [argmin] at hp
      split at hp
      · next h =>
        have : l = [] := ih.1.1 h
        subst this
        cases hp; simp
      · next q h =>
        have := ih.2 q h
        split at hp
        · next hle =>
          cases hp
          refine ⟨by simp, ?_⟩
          intro q' hq'
          rcases List.mem_cons.1 hq' with rfl | hq'
          · exact le_refl _
          · exact le_trans hle (this.2 q' hq')
        · next hle =>
          cases hp
          refine ⟨by simp [this.1], ?_⟩
          intro q' hq'
          rcases List.mem_cons.1 hq' with rfl | hq'
          · omega
          · exact this.2 q' hq'

theorem mem_unmasked (used : List (Fin n)) (p : CX n) : p ∈ unmasked used ↔ p.1 ∉ used ∧ p.2 ∉ used := by
  unfold unmasked
  rw [List.mem_filter, decide_eq_true_eq]
  constructor
  · exact fun h => h.2
  · intro h
    refine ⟨?_, h⟩
    rw [List.mem_flatMap]
    exact ⟨p.1, List.mem_finRange _, List.mem_map.2 ⟨p.2, List.mem_finRange _, rfl⟩⟩

/-- Loop invariant. -/
structure HInv (M0 : List (Vec n)) (s : HState n) : Prop where
  costs : s.costs = initCosts s.checks
  ne : ∀ g ∈ s.cnots, g.1 ≠ g.2
  span : rowSpan s.checks = (rowSpan M0).map (foldL s.cnots)
  nodup : s.used.Nodup

theorem hInv_init (M0 : List (Vec n)) :
    HInv M0 { checks := M0, costs := initCosts M0, used := [], cnots := [] } :=
  ⟨rfl, by simp, by simp [foldL], List.nodup_nil⟩

/-- `ldpc.mod2.reduced_row_echelon(·)[0]`: same row space, and every row is zero or has a pivot
column in which no other row has a one. -/
def RrefOk (rref : List (Vec n) → List (Vec n)) : Prop :=
  ∀ M, rowSpan (rref M) = rowSpan M ∧ UnitRows (rref M)

theorem neg_cost (M : List (Vec n)) (p : CX n) (h : initCosts M p.1 p.2 < 0) :
    p.1 ≠ p.2 ∧ pairSum M p.1 p.2 < colSum M p.2 := by
  unfold initCosts fillDiag at h
  split at h
  · omega
  · next hne => exact ⟨hne, by simp only at h; omega⟩

/-- What one iteration of an unfinished loop does. -/
theorem heurStep_cases (rref : List (Vec n) → List (Vec n)) (od : Bool) (M0 : List (Vec n)) (s : HState n)
    (hI : HInv M0 s) :
    (s.used = [] ∧ (∀ i j, i ≠ j → colSum s.checks j ≤ pairSum s.checks i j) ∧
      heurStep rref od s = { s with checks := rref s.checks, costs := initCosts (rref s.checks) }) ∨
    (s.used ≠ [] ∧ heurStep rref od s = { s with used := [] }) ∨
    (∃ p : CX n, p.1 ≠ p.2 ∧ p.1 ∉ s.used ∧ p.2 ∉ s.used ∧ pairSum s.checks p.1 p.2 < colSum s.checks p.2 ∧
      heurStep rref od s = HState.mk (addCol s.checks p) (initCosts (addCol s.checks p))
        (if od then s.used ++ [p.1, p.2] else s.used) (s.cnots ++ [p])) := by
  unfold heurStep
  by_cases hn : noReduction s = true
  · rw [if_pos hn]
    by_cases hu : s.used = []
    · left
      rw [if_pos hu]
      refine ⟨hu, ?_, rfl⟩
      intro i j hij
      unfold noReduction at hn
      rw [decide_eq_true_eq] at hn
      rcases hn with hn | hn
      · have := hn.2 (i, j) ((mem_unmasked _ _).2 (by simp [hu]))
        rw [hI.costs] at this
        simp only [initCosts, fillDiag, if_neg hij] at this
        omega
      · rw [hu] at hn
        have := i.2
        simp only [List.length_nil] at hn
        omega
    · right; left
      rw [if_neg hu]
      exact ⟨hu, rfl⟩
  · right; right
    rw [if_neg hn]
    unfold noReduction at hn
    rw [decide_eq_true_eq] at hn
    push Not at hn
    have hne : unmasked s.used ≠ [] := by
      intro he
      apply hn.2
      have hall : ∀ i : Fin n, i ∈ s.used := by
        intro i
        by_contra hi
        have := (mem_unmasked s.used (i, i)).2 ⟨hi, hi⟩
        rw [he] at this; simp at this
      rw [← List.toFinset_card_of_nodup hI.nodup]
      have : s.used.toFinset = Finset.univ := by
        ext i; simp [hall i]
      rw [this, Finset.card_univ, Fintype.card_fin]
    obtain ⟨p0, hp0, hneg⟩ := hn.1 hne
    have hs := argmin_spec (fun p => s.costs p.1 p.2) (unmasked s.used)
    cases hm : argmin (fun p => s.costs p.1 p.2) (unmasked s.used) with
    | none => exact absurd (hs.1.1 hm) hne
    | some p =>
      obtain ⟨hp, hmin⟩ := hs.2 p hm
      have hlt : s.costs p.1 p.2 < 0 := lt_of_le_of_lt (hmin p0 hp0) hneg
      rw [hI.costs] at hlt
      obtain ⟨h1, h2⟩ := neg_cost _ _ hlt
      obtain ⟨h3, h4⟩ := (mem_unmasked _ _).1 hp
      refine ⟨p, h1, h3, h4, h2, ?_⟩
      simp only
      rw [hI.costs]
      have := updateCosts_init s.checks p.1 p.2
      rw [← this]

theorem hInv_step (rref : List (Vec n) → List (Vec n)) (hr : RrefOk rref) (od : Bool) (M0 : List (Vec n))
    (s : HState n) (hI : HInv M0 s) : HInv M0 (heurStep rref od s) := by
  rcases heurStep_cases rref od M0 s hI with ⟨_, _, h⟩ | ⟨_, h⟩ | ⟨p, h1, h2, h3, _, h⟩ <;> rw [h]
  · exact ⟨rfl, hI.ne, by rw [(hr s.checks).1]; exact hI.span, hI.nodup⟩
  · exact ⟨hI.costs, hI.ne, hI.span, List.nodup_nil⟩
  · refine ⟨rfl, ?_, ?_, ?_⟩
    · intro g hg
      rcases List.mem_append.1 hg with hg | hg
      · exact hI.ne g hg
      · rw [List.mem_singleton.1 hg]; exact h1
    · simp only
      rw [addCol_eq, CSS.rowSpan_map, hI.span, ← Submodule.map_comp]
      congr 1
      apply LinearMap.ext
      intro v
      rw [foldl_append_cnot]
      simp [foldL]
    · simp only
      split
      · rw [List.nodup_append]
        refine ⟨hI.nodup, by simp [h1], ?_⟩
        intro a ha b hb
        rcases List.mem_pair.1 hb with rfl | rfl
        · rintro rfl; exact h2 ha
        · rintro rfl; exact h3 ha
      · exact hI.nodup

open Classical in
theorem heurLoop_terminates (rref : List (Vec n) → List (Vec n)) (hr : RrefOk rref) (od : Bool)
    (M0 : List (Vec n)) (s : HState n) (hI : HInv M0 s) :
    ∃ N s', HInv M0 s' ∧ isReduced (rank M0) s'.checks = true ∧
      ∀ fuel ≥ N, heurLoop rref od (rank M0) fuel s = some s' := by
  have wf : WellFounded (Prod.Lex (· < ·) (Prod.Lex (· < ·) (· < ·)) : ℕ × ℕ × ℕ → ℕ × ℕ × ℕ → Prop) :=
    WellFounded.prod_lex Nat.lt_wfRel.wf (WellFounded.prod_lex Nat.lt_wfRel.wf Nat.lt_wfRel.wf)
  generalize hm : ((if UnitRows s.checks then 0 else 1 : ℕ), totalWt s.checks,
    (if s.used = [] then 0 else 1 : ℕ)) = m
  induction m using wf.induction generalizing s with
  | _ m ih =>
    by_cases hred : isReduced (rank M0) s.checks = true
    · refine ⟨1, s, hI, hred, ?_⟩
      intro fuel hf
      obtain ⟨k, rfl⟩ : ∃ k, fuel = k + 1 := ⟨fuel - 1, by omega⟩
      rw [heurLoop, if_pos hred]
    · have hI' := hInv_step rref hr od M0 s hI
      have hrk : rank s.checks = rank M0 := by
        rw [rank_eq_finrank, hI.span, rank_eq_finrank]
        exact (Submodule.equivMapOfInjective _ (foldL_injective _ hI.ne) _).symm.finrank_eq
      have hdec : Prod.Lex (· < ·) (Prod.Lex (· < ·) (· < ·))
          ((if UnitRows (heurStep rref od s).checks then 0 else 1 : ℕ), totalWt (heurStep rref od s).checks,
            (if (heurStep rref od s).used = [] then 0 else 1 : ℕ)) m := by
        rw [← hm]
        rcases heurStep_cases rref od M0 s hI with ⟨hu, hno, h⟩ | ⟨hu, h⟩ | ⟨p, h1, h2, h3, h4, h⟩ <;> rw [h]
        · by_cases hU : UnitRows s.checks
          · exfalso
            apply hred
            rw [isReduced_iff, reduced_of_unit _ hU hno, hrk]
          · apply Prod.Lex.left
            rw [if_neg hU, if_pos (hr s.checks).2]; omega
        · apply Prod.Lex.right
          apply Prod.Lex.right
          rw [if_neg hu, if_pos rfl]; omega
        · by_cases hU : UnitRows s.checks
          · have := unitRows_addCol s.checks p.1 p.2 h1 h4 hU
            rw [if_pos hU, if_pos this]
            apply Prod.Lex.right
            apply Prod.Lex.left
            exact totalWt_addCol _ _ _ h4
          · rw [if_neg hU]
            by_cases hU' : UnitRows (addCol s.checks p)
            · rw [if_pos hU']; apply Prod.Lex.left; omega
            · rw [if_neg hU']
              apply Prod.Lex.right
              apply Prod.Lex.left
              exact totalWt_addCol _ _ _ h4
      obtain ⟨N, s', hs', hred', hN⟩ := ih _ hdec _ hI' rfl
      refine ⟨N + 1, s', hs', hred', ?_⟩
      intro fuel hf
      obtain ⟨k, rfl⟩ : ∃ k, fuel = k + 1 := ⟨fuel - 1, by omega⟩
      rw [heurLoop, if_neg hred]
      exact hN k (by omega)

end Verif.SP
