import Verif.Lemmas.Heuristic

/-! A function meeting the contract of `ldpc.mod2.reduced_row_echelon` exists. -/

namespace Verif.SP
open Verif Verif.Spec
variable {n : ℕ}

theorem unique_of_colSum_one (M : List (Vec n)) (c : Fin n) (h : colSum M c = 1) (x y : Vec n) (hx : x ∈ M)
    (hy : y ∈ M) (h1 : x c = 1) (h2 : y c = 1) : x = y := by
  induction M with
  | nil => simp at hx
  | cons z M ih =>
    rw [colSum_cons] at h
    rcases zmod2_cases (z c) with hz | hz
    · rw [hz] at h
      have hzx : ∀ w : Vec n, w ∈ z :: M → w c = 1 → w ∈ M := by
        intro w hw hw1
        rcases List.mem_cons.1 hw with rfl | hw
        · rw [hz] at hw1; exact absurd hw1 (by decide)
        · exact hw
      exact ih (by simpa using h) (hzx x hx h1) (hzx y hy h2)
    · rw [hz] at h
      have h0 : colSum M c = 0 := by simpa using h
      rw [colSum_eq_zero] at h0
      have hzx : ∀ w : Vec n, w ∈ z :: M → w c = 1 → w = z := by
        intro w hw hw1
        rcases List.mem_cons.1 hw with rfl | hw
        · rfl
        · rw [h0 w hw] at hw1; exact absurd hw1 (by decide)
      rw [hzx x hx h1, hzx y hy h2]

theorem reduce_exists (N : List (Vec n)) (c : Vec n → Fin n)
    (hc : ∀ x ∈ N, x ≠ 0 → x (c x) = 1 ∧ colSum N (c x) = 1) (r : Vec n) :
    ∃ r', r + r' ∈ rowSpan N ∧ ∀ x ∈ N, x ≠ 0 → r' (c x) = 0 := by
  induction hk : (N.toFinset.filter fun x => x ≠ 0 ∧ r (c x) = 1).card using Nat.strong_induction_on
    generalizing r with
  | _ k ih =>
    by_cases hall : ∀ x ∈ N, x ≠ 0 → r (c x) = 0
    · exact ⟨r, by rw [add_self_eq_zero']; exact Submodule.zero_mem _, hall⟩
    · push Not at hall
      obtain ⟨x, hx, hx0, hxc⟩ := hall
      have hxc1 : r (c x) = 1 := (zmod2_cases _).resolve_left hxc
      have hother : ∀ y ∈ N, y ≠ 0 → y ≠ x → x (c y) = 0 := by
        intro y hy hy0 hyx
        rcases zmod2_cases (x (c y)) with h | h
        · exact h
        · exact absurd (unique_of_colSum_one N (c y) (hc y hy hy0).2 y x hy hx (hc y hy hy0).1 h) hyx
      have hlt : (N.toFinset.filter fun y => y ≠ 0 ∧ (r + x) (c y) = 1).card < k := by
        rw [← hk]
        apply Finset.card_lt_card
        rw [Finset.ssubset_iff_of_subset]
        · refine ⟨x, ?_, ?_⟩
          · simp [hx, hx0, hxc1]
          · simp only [Finset.mem_filter, not_and]
            intro _ _
            rw [Pi.add_apply, hxc1, (hc x hx hx0).1]; decide
        · intro y hy
          simp only [Finset.mem_filter, List.mem_toFinset] at hy ⊢
          refine ⟨hy.1, hy.2.1, ?_⟩
          by_cases hyx : y = x
          · subst hyx; exact hxc1
          · have := hy.2.2
            rwa [Pi.add_apply, hother y hy.1 hy.2.1 hyx, add_zero] at this
      obtain ⟨r', h1, h2⟩ := ih _ hlt (r + x) rfl
      refine ⟨r', ?_, h2⟩
      have : r + r' = (r + x + r') + x := by
        rw [show r + x + r' + x = (r + r') + (x + x) by abel, add_self_eq_zero', add_zero]
      rw [this]
      exact Submodule.add_mem _ h1 (mem_rowSpan_of_mem hx)

theorem exists_rref_one (M : List (Vec n)) : ∃ N, rowSpan N = rowSpan M ∧ UnitRows N := by
  induction M with
  | nil => exact ⟨[], rfl, by intro r hr; simp at hr⟩
  | cons r M ih =>
    obtain ⟨N, hN, hU⟩ := ih
    by_cases hn : ∃ _ : Fin n, True
    swap
    · refine ⟨r :: M, rfl, ?_⟩
      intro x _
      left; funext i; exact absurd ⟨i, trivial⟩ hn
    obtain ⟨i0, -⟩ := hn
    have hchoice : ∃ c : Vec n → Fin n, ∀ x ∈ N, x ≠ 0 → x (c x) = 1 ∧ colSum N (c x) = 1 := by
      have : ∀ x : Vec n, ∃ c : Fin n, x ∈ N → x ≠ 0 → x c = 1 ∧ colSum N c = 1 := by
        intro x
        by_cases hx : x ∈ N ∧ x ≠ 0
        · obtain ⟨c, h⟩ := (hU x hx.1).resolve_left hx.2
          exact ⟨c, fun _ _ => h⟩
        · exact ⟨i0, fun h1 h2 => absurd ⟨h1, h2⟩ hx⟩
      choose c hc using this
      exact ⟨c, fun x hx hx0 => hc x hx hx0⟩
    obtain ⟨c, hc⟩ := hchoice
    obtain ⟨r', hr', hz⟩ := reduce_exists N c hc r
    have hspan : rowSpan (r' :: N) = rowSpan (r :: M) := by
      have hMN : ∀ y ∈ M, y ∈ rowSpan N := fun y hy => by rw [hN]; exact mem_rowSpan_of_mem hy
      have hNM : ∀ y ∈ N, y ∈ rowSpan M := fun y hy => by rw [← hN]; exact mem_rowSpan_of_mem hy
      have mono1 : rowSpan N ≤ rowSpan (r' :: N) := Submodule.span_mono fun y hy => List.mem_cons_of_mem _ hy
      have mono2 : rowSpan M ≤ rowSpan (r :: M) := Submodule.span_mono fun y hy => List.mem_cons_of_mem _ hy
      apply le_antisymm
      · rw [rowSpan_le_iff]
        intro y hy
        rcases List.mem_cons.1 hy with rfl | hy
        · have : y = (r + y) + r := by
            rw [show r + y + r = y + (r + r) by abel, add_self_eq_zero', add_zero]
          rw [this]
          exact Submodule.add_mem _ (mono2 (hN ▸ hr')) (mem_rowSpan_of_mem (by simp))
        · exact mono2 (hNM y hy)
      · rw [rowSpan_le_iff]
        intro y hy
        rcases List.mem_cons.1 hy with rfl | hy
        · have : y = (y + r') + r' := by
            rw [add_assoc, add_self_eq_zero', add_zero]
          rw [this]
          exact Submodule.add_mem _ (mono1 hr') (mem_rowSpan_of_mem (by simp))
        · exact mono1 (hMN y hy)
    by_cases hr0 : r' = 0
    · refine ⟨N, ?_, hU⟩
      rw [← hspan]
      apply le_antisymm
      · exact Submodule.span_mono fun y hy => List.mem_cons_of_mem _ hy
      · rw [rowSpan_le_iff]
        intro y hy
        rcases List.mem_cons.1 hy with rfl | hy
        · rw [hr0]; exact Submodule.zero_mem _
        · exact mem_rowSpan_of_mem hy
    · obtain ⟨d, hd⟩ : ∃ d, r' d = 1 := by
        by_contra h
        push Not at h
        exact hr0 (funext fun i => (zmod2_cases (r' i)).resolve_right (h i))
      refine ⟨r' :: N.map fun x => if x d = 1 then x + r' else x, ?_, ?_⟩
      · rw [← hspan]
        apply le_antisymm
        · rw [rowSpan_le_iff]
          intro y hy
          rcases List.mem_cons.1 hy with rfl | hy
          · exact mem_rowSpan_of_mem (by simp)
          · obtain ⟨x, hx, rfl⟩ := List.mem_map.1 hy
            have hx' : x ∈ rowSpan (r' :: N) := mem_rowSpan_of_mem (by simp [hx])
            show (if x d = 1 then x + r' else x) ∈ _
            split
            · exact Submodule.add_mem _ hx' (mem_rowSpan_of_mem (by simp))
            · exact hx'
        · rw [rowSpan_le_iff]
          intro y hy
          rcases List.mem_cons.1 hy with rfl | hy
          · exact mem_rowSpan_of_mem (by simp)
          · have hm : (if y d = 1 then y + r' else y) ∈
                rowSpan (r' :: N.map fun x => if x d = 1 then x + r' else x) :=
              mem_rowSpan_of_mem (List.mem_cons_of_mem _ (List.mem_map.2 ⟨y, hy, rfl⟩))
            split at hm
            · have : y = (y + r') + r' := by rw [add_assoc, add_self_eq_zero', add_zero]
              rw [this]
              exact Submodule.add_mem _ hm (mem_rowSpan_of_mem (by simp))
            · exact hm
      · intro y hy
        rcases List.mem_cons.1 hy with rfl | hy
        · right
          refine ⟨d, hd, ?_⟩
          rw [colSum_cons, if_pos hd]
          have : colSum (N.map fun x => if x d = 1 then x + y else x) d = 0 := by
            rw [colSum_eq_zero]
            intro z hz
            obtain ⟨x, _, rfl⟩ := List.mem_map.1 hz
            show (if x d = 1 then x + y else x) d = 0
            split
            · next h => rw [Pi.add_apply, h, hd]; decide
            · next h => exact (zmod2_cases (x d)).resolve_right h
          rw [this]
        · obtain ⟨x, hx, rfl⟩ := List.mem_map.1 hy
          by_cases hx0 : x = 0
          · left
            show (if x d = 1 then x + r' else x) = 0
            rw [hx0]; simp
          · right
            have hrc := hz x hx hx0
            refine ⟨c x, ?_, ?_⟩
            · show (if x d = 1 then x + r' else x) (c x) = 1
              split
              · rw [Pi.add_apply, hrc, add_zero, (hc x hx hx0).1]
              · exact (hc x hx hx0).1
            · rw [colSum_cons, hrc, if_neg (by decide), add_zero, ← (hc x hx hx0).2]
              unfold colSum
              rw [List.countP_map]
              apply List.countP_congr
              intro z _
              simp only [Function.comp_apply]
              split
              · rw [Pi.add_apply, hrc, add_zero]
              · rfl

/-- The contract on `reduced_row_echelon` is satisfiable. -/
theorem exists_rref (n : ℕ) : ∃ rref : List (Vec n) → List (Vec n), RrefOk rref := by
  choose f hf using exists_rref_one (n := n)
  exact ⟨f, hf⟩

end Verif.SP
