import Verif.Model.Names
import Mathlib.Data.List.Sort
import Mathlib.Data.List.Induction
import Mathlib.Data.List.TakeWhile
import Mathlib.Data.List.Dedup
import Mathlib.Data.List.Perm.Subperm
import Mathlib.Algebra.BigOperators.Group.List.Basic
import Mathlib.Algebra.Order.BigOperators.Group.List
import Mathlib.Algebra.BigOperators.Ring.List
import Mathlib.Data.List.Lex
import Mathlib.Data.Char
import Mathlib.Tactic.Linarith
import Mathlib.Tactic.FieldSimp

/-!
# C96: the printed simulation results

Specification: `total counts w` is the number of shots whose result string ends in the word `w` (the text after the last
space).
-/

namespace Verif.Names

/-- The shots with a result that ends in the word `w`. -/
def total (counts : List (List Char × ℕ)) (w : List Char) : ℕ :=
  ((counts.filter fun e => lastWord e.1 = w).map (·.2)).sum

/-- The word after the last space: the string is `a`, a space, the word; or the word alone if there is no space. -/
theorem lastWord_spec (s : List Char) : ' ' ∉ lastWord s ∧ (s = lastWord s ∨ ∃ a, s = a ++ ' ' :: lastWord s) := by
  unfold lastWord
  constructor
  · intro h
    have := List.mem_takeWhile_imp (List.mem_reverse.1 h)
    simp at this
  · have h := List.takeWhile_append_dropWhile (p := (· ≠ ' ')) (l := s.reverse)
    cases hd : s.reverse.dropWhile (· ≠ ' ') with
    | nil =>
      left
      rw [hd, List.append_nil] at h
      rw [h, List.reverse_reverse]
    | cons c l =>
      right
      have hc : c = ' ' := by
        have := List.head_dropWhile_not (p := fun x : Char => decide (x ≠ ' ')) (l := s.reverse) (by rw [hd]; simp)
        simp only [hd, List.head_cons] at this
        simpa using this
      rw [hd, hc] at h
      refine ⟨l.reverse, ?_⟩
      have := congrArg List.reverse h
      simpa using this.symm

theorem addCount_keys (d : List (List Char × ℕ)) (k : List Char) (n : ℕ) :
    (addCount d k n).map (·.1) = if d.any (fun e => e.1 = k) then d.map (·.1) else d.map (·.1) ++ [k] := by
  have hm : ∀ l : List (List Char × ℕ), (l.map fun e => if e.1 = k then (e.1, e.2 + n) else e).map (·.1) = l.map (·.1) := by
    intro l
    rw [List.map_map]
    apply List.map_congr_left
    intro e _
    simp only [Function.comp]
    split <;> rfl
  unfold addCount
  dsimp only
  rw [hm]
  split <;> simp

theorem addCount_mem {d : List (List Char × ℕ)} (k : List Char) (n : ℕ) (w : List Char) (v : ℕ) :
    (w, v) ∈ addCount d k n ↔ (w ≠ k ∧ (w, v) ∈ d) ∨ (w = k ∧ ∃ v', ((k, v') ∈ d ∨ ((∀ u, (k, u) ∉ d) ∧ v' = 0)) ∧ v = v' + n) := by
  unfold addCount
  dsimp only
  by_cases ha : d.any (fun e => e.1 = k) = true
  · rw [if_pos ha]
    simp only [List.any_eq_true, decide_eq_true_eq] at ha
    obtain ⟨⟨k', v₀⟩, hm, rfl⟩ := ha
    simp only [List.mem_map]
    constructor
    · rintro ⟨e, he, hx⟩
      split at hx
      · rename_i hk
        cases hx
        exact .inr ⟨hk, e.2, .inl (by rw [← hk]; exact he), rfl⟩
      · rename_i hk
        subst hx
        exact .inl ⟨hk, he⟩
    · rintro (⟨hk, he⟩ | ⟨rfl, v', h, rfl⟩)
      · exact ⟨_, he, by simp [hk]⟩
      · rcases h with h | ⟨h, _⟩
        · exact ⟨_, h, by simp⟩
        · exact absurd hm (h v₀)
  · rw [if_neg ha]
    have hno : ∀ u, (k, u) ∉ d := by
      intro u hu
      exact ha (List.any_eq_true.2 ⟨_, hu, by simp⟩)
    simp only [List.mem_map, List.mem_append, List.mem_singleton]
    constructor
    · rintro ⟨e, he | rfl, hx⟩
      · split at hx
        · rename_i hk
          exact absurd (show (k, e.2) ∈ d by rw [← hk]; exact he) (hno _)
        · rename_i hk
          subst hx
          exact .inl ⟨hk, he⟩
      · simp only [if_true] at hx
        cases hx
        exact .inr ⟨rfl, 0, .inr ⟨hno, rfl⟩, rfl⟩
    · rintro (⟨hk, he⟩ | ⟨rfl, v', h, rfl⟩)
      · exact ⟨_, .inl he, by simp [hk]⟩
      · rcases h with h | ⟨h, rfl⟩
        · exact absurd h (hno _)
        · exact ⟨_, .inr rfl, by simp⟩

/-- The invariant of the summarising loop. -/
theorem summarize_spec (counts : List (List Char × ℕ)) :
    ((summarize counts).map (·.1)).Nodup ∧
    ∀ w v, (w, v) ∈ summarize counts ↔ (∃ e ∈ counts, lastWord e.1 = w) ∧ v = total counts w := by
  induction counts using List.reverseRecOn with
  | nil => simp [summarize]
  | append_singleton l e ih =>
    obtain ⟨ih1, ih2⟩ := ih
    have hs : summarize (l ++ [e]) = addCount (summarize l) (lastWord e.1) e.2 := by simp [summarize]
    rw [hs]
    constructor
    · rw [addCount_keys]
      split
      · exact ih1
      · rename_i ha
        rw [List.nodup_append]
        refine ⟨ih1, by simp, ?_⟩
        intro a ha' b hb hab
        simp only [List.mem_singleton] at hb
        subst hb
        subst hab
        obtain ⟨x, hx, hx'⟩ := List.mem_map.1 ha'
        exact ha (List.any_eq_true.2 ⟨x, hx, by simp [hx']⟩)
    · intro w v
      have ht : total (l ++ [e]) w = total l w + if lastWord e.1 = w then e.2 else 0 := by
        simp only [total, List.filter_append, List.map_append, List.sum_append]
        congr 1
        by_cases h : lastWord e.1 = w <;> simp [h]
      rw [addCount_mem, ih2, ht]
      constructor
      · rintro (⟨hk, ⟨x, hx, hxw⟩, rfl⟩ | ⟨rfl, v', h, rfl⟩)
        · exact ⟨⟨x, List.mem_append_left _ hx, hxw⟩, by simp [Ne.symm hk]⟩
        · refine ⟨⟨e, by simp, rfl⟩, ?_⟩
          rw [if_pos rfl]
          rcases h with h | ⟨h, rfl⟩
          · rw [((ih2 _ _).1 h).2]
          · have : total l (lastWord e.1) = 0 := by
              unfold total
              rw [List.filter_eq_nil_iff.2]
              · rfl
              · intro x hx hxw
                exact h _ ((ih2 _ _).2 ⟨⟨x, hx, by simpa using hxw⟩, rfl⟩)
            omega
      · rintro ⟨⟨x, hx, hxw⟩, rfl⟩
        by_cases hk : lastWord e.1 = w
        · right
          refine ⟨hk.symm, total l w, ?_, by simp [hk]⟩
          by_cases hex : ∃ y ∈ l, lastWord y.1 = w
          · left
            rw [hk]
            exact (ih2 _ _).2 ⟨hex, rfl⟩
          · right
            constructor
            · intro u hu
              rw [hk] at hu
              exact hex ((ih2 _ _).1 hu).1
            · unfold total
              rw [List.filter_eq_nil_iff.2]
              · rfl
              · intro y hy hyw
                exact hex ⟨y, hy, by simpa using hyw⟩
        · left
          refine ⟨fun h => hk h.symm, ⟨x, ?_, hxw⟩, by simp [hk]⟩
          rcases List.mem_append.1 hx with h | h
          · exact h
          · simp only [List.mem_singleton] at h
            subst h
            exact absurd hxw hk

theorem printLoop_sublist (above : ℕ → Bool) : ∀ k es, (printLoop above k es).Sublist es
  | _, [] => .slnil
  | k, e :: es => by
    unfold printLoop
    split
    · split
      · simp
      · exact (printLoop_sublist above (k + 1) es).cons_cons e
    · exact (printLoop_sublist above k es).cons e

theorem printLoop_length (above : ℕ → Bool) : ∀ k es, k < 1000 → (printLoop above k es).length ≤ 1000 - k
  | _, [], _ => by simp [printLoop]
  | k, e :: es, hk => by
    unfold printLoop
    split
    · split
      · simp; omega
      · have := printLoop_length above (k + 1) es (by omega)
        simp only [List.length_cons]
        omega
    · exact printLoop_length above k es hk

theorem printLoop_pos (above : ℕ → Bool) : ∀ k es e, 0 < k → e ∈ printLoop above k es → above e.2 = true
  | _, [], _, _, h => by simp [printLoop] at h
  | k, x :: es, e, hk, h => by
    unfold printLoop at h
    split at h
    · rename_i hc
      rcases List.mem_cons.1 h with rfl | h
      · rcases hc with hc | hc
        · exact hc
        · omega
      · split at h
        · cases h
        · exact printLoop_pos above (k + 1) es e (by omega) h
    · exact printLoop_pos above k es e hk h

theorem printLoop_complete (above : ℕ → Bool) : ∀ k es e, k + es.length ≤ 1000 → e ∈ es → above e.2 = true →
    e ∈ printLoop above k es
  | _, [], _, _, h, _ => by cases h
  | k, x :: es, e, hk, he, ha => by
    simp only [List.length_cons] at hk
    unfold printLoop
    split
    · rcases List.mem_cons.1 he with rfl | he
      · exact List.mem_cons_self
      · refine List.mem_cons_of_mem _ ?_
        split
        · have : es = [] := List.length_eq_zero_iff.1 (by omega)
          rw [this] at he
          cases he
        · exact printLoop_complete above (k + 1) es e (by omega) he ha
    · rename_i hc
      rcases List.mem_cons.1 he with rfl | he
      · exact absurd (.inl ha) hc
      · exact printLoop_complete above k es e (by omega) he ha

theorem table_mem (counts : List (List Char × ℕ)) (w : List Char) (v : ℕ) :
    (w, v) ∈ table counts ↔ (∃ e ∈ counts, lastWord e.1 = w) ∧ v = total counts w := by
  rw [table, List.mem_mergeSort, (summarize_spec counts).2]

theorem table_sorted (counts : List (List Char × ℕ)) : ((table counts).map (·.1)).Pairwise (· < ·) := by
  have h1 : (table counts).Pairwise fun a b => a.1 ≤ b.1 := by
    have := List.pairwise_mergeSort (le := fun a b : List Char × ℕ => decide (a.1 ≤ b.1))
      (fun a b c h1 h2 => by simp at *; exact le_trans h1 h2) (fun a b => by simp; exact le_total _ _) (summarize counts)
    exact this.imp (by simp)
  have h2 : ((table counts).map (·.1)).Nodup := by
    have hp : ((table counts).map (·.1)).Perm ((summarize counts).map (·.1)) := (List.mergeSort_perm _ _).map _
    exact hp.nodup_iff.2 (summarize_spec counts).1
  rw [List.pairwise_map]
  have h3 : (table counts).Pairwise fun a b => a.1 ≠ b.1 := by
    rw [← List.pairwise_map (f := fun e : List Char × ℕ => e.1) (R := (· ≠ ·))]
    exact h2
  exact (h1.and h3).imp fun ⟨ha, hb⟩ => lt_of_le_of_ne ha hb

/-- **C96.** The printed lines are in strictly increasing order of the words, at most 1000; every line shows a word that
occurs, with the exact fraction of the shots that end in it. -/
theorem C96_printed (counts : List (List Char × ℕ)) (shots : ℕ) (threshold : ℚ) :
    ((printResults counts shots threshold).map (·.1)).Pairwise (· < ·) ∧
    (printResults counts shots threshold).length ≤ 1000 ∧
    ∀ w r, (w, r) ∈ printResults counts shots threshold → (∃ e ∈ counts, lastWord e.1 = w) ∧ r = (total counts w : ℚ) / shots := by
  have hsub := printLoop_sublist (fun n => decide (threshold < (n : ℚ) / shots)) 0 (table counts)
  refine ⟨?_, ?_, ?_⟩
  · unfold printResults
    rw [List.map_map]
    exact (table_sorted counts).sublist (hsub.map _)
  · unfold printResults
    rw [List.length_map]
    exact printLoop_length _ 0 _ (by omega)
  · intro w r h
    obtain ⟨e, he, hx⟩ := List.mem_map.1 h
    cases hx
    have := (table_mem counts e.1 e.2).1 (hsub.mem he)
    exact ⟨this.1, by rw [this.2]⟩

/-- **C96.** If at most 1000 words occur, every word whose fraction is above the threshold is printed. -/
theorem C96_complete (counts : List (List Char × ℕ)) (shots : ℕ) (threshold : ℚ)
    (hlen : (counts.map fun e => lastWord e.1).dedup.length ≤ 1000) (w : List Char) (hw : ∃ e ∈ counts, lastWord e.1 = w)
    (ha : threshold < (total counts w : ℚ) / shots) :
    (w, (total counts w : ℚ) / shots) ∈ printResults counts shots threshold := by
  have hl : (table counts).length ≤ 1000 := by
    refine le_trans ?_ hlen
    rw [← List.length_map (f := fun e : List Char × ℕ => e.1)]
    refine (List.Nodup.subperm ?_ ?_).length_le
    · exact (table_sorted counts).imp fun h => ne_of_lt h
    · intro x hx
      obtain ⟨e, he, rfl⟩ := List.mem_map.1 hx
      obtain ⟨⟨y, hy, hyw⟩, -⟩ := (table_mem counts e.1 e.2).1 he
      exact List.mem_dedup.2 (List.mem_map.2 ⟨y, hy, hyw⟩)
  have := printLoop_complete (fun n => decide (threshold < (n : ℚ) / shots)) 0 (table counts) (w, total counts w) (by omega)
    ((table_mem _ _ _).2 ⟨hw, rfl⟩) (by simpa using ha)
  exact List.mem_map.2 ⟨_, this, rfl⟩

/-- **C96.** A printed word below the threshold is the first of all words that occur, in alphabetical order: the only one. -/
theorem C96_below (counts : List (List Char × ℕ)) (shots : ℕ) (threshold : ℚ) (w : List Char) (r : ℚ)
    (h : (w, r) ∈ printResults counts shots threshold) : threshold < r ∨ ∀ e ∈ counts, w ≤ lastWord e.1 := by
  obtain ⟨e, he, hx⟩ := List.mem_map.1 h
  cases hx
  change e ∈ printLoop _ 0 (table counts) at he
  have hs := table_sorted counts
  have hmem := fun y (hy : y ∈ counts) => (table_mem counts (lastWord y.1) _).2 ⟨⟨y, hy, rfl⟩, rfl⟩
  cases ht : table counts with
  | nil => rw [ht] at he; cases he
  | cons x es =>
    rw [ht] at he hs hmem
    unfold printLoop at he
    rw [if_pos (.inr rfl), if_neg (by omega)] at he
    rcases List.mem_cons.1 he with rfl | he
    · right
      intro y hy
      rcases List.mem_cons.1 (hmem y hy) with h | h
      · rw [← h]
      · exact le_of_lt ((List.pairwise_cons.1 hs).1 _ (List.mem_map.2 ⟨_, h, rfl⟩))
    · left
      simpa using printLoop_pos _ 1 es e (by omega) he

/-- **C96.** If there are results at all, at least one line is printed. -/
theorem C96_nonempty (counts : List (List Char × ℕ)) (shots : ℕ) (threshold : ℚ) (h : counts ≠ []) :
    printResults counts shots threshold ≠ [] := by
  obtain ⟨y, hy⟩ := List.exists_mem_of_ne_nil _ h
  have hm := (table_mem counts (lastWord y.1) _).2 ⟨⟨y, hy, rfl⟩, rfl⟩
  change List.map _ (printLoop _ 0 (table counts)) ≠ []
  cases ht : table counts with
  | nil => rw [ht] at hm; cases hm
  | cons x es =>
    unfold printLoop
    rw [if_pos (.inr rfl)]
    simp

/-- Four shots of a circuit whose encoding has an extra register: both words occur in half of them and are printed. -/
example : ([['0'], ['1']].all fun w => decide (total [("01 0".toList, 1), ("10 1".toList, 2), ("00 0".toList, 1)] w = 2)) = true ∧
    (['0'], ((2 : ℕ) : ℚ) / (4 : ℕ)) ∈ printResults [("01 0".toList, 1), ("10 1".toList, 2), ("00 0".toList, 1)] 4 0 := by
  have h : total [("01 0".toList, 1), ("10 1".toList, 2), ("00 0".toList, 1)] ['0'] = 2 := by decide +kernel
  refine ⟨by decide +kernel, ?_⟩
  have := C96_complete [("01 0".toList, 1), ("10 1".toList, 2), ("00 0".toList, 1)] 4 0 (by decide +kernel) ['0']
    ⟨("01 0".toList, 1), by simp, by decide +kernel⟩ (by rw [h]; norm_num)
  rw [h] at this
  exact this

end Verif.Names
