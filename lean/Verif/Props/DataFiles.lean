import Verif.Model.DataUtils
import Std.Data.String.ToNat
import Mathlib.Data.List.Nodup
import Mathlib.Data.List.Perm.Subperm

/-!
# C45 and C84: output files
-/

namespace Verif.Data
open Verif

theorem fileName_inj (dir : String) {i j : ℕ} (h : fileName dir i = fileName dir j) : i = j := by
  unfold fileName at h
  rw [String.append_right_inj, String.append_right_inj, String.append_left_inj] at h
  exact Nat.repr_injective h

theorem findFree_spec (fs : List String) (dir : String) (fuel i : ℕ) :
    (∀ r, findFree fs dir fuel i = some r → i ≤ r ∧ fileName dir r ∉ fs ∧ ∀ j, i ≤ j → j < r → fileName dir j ∈ fs) ∧
      (findFree fs dir fuel i = none → ∀ j, i ≤ j → j < i + fuel → fileName dir j ∈ fs) := by
  induction fuel generalizing i with
  | zero => exact ⟨by simp [findFree], fun _ j h1 h2 => by omega⟩
  | succ fuel ih =>
    unfold findFree
    by_cases h : fs.contains (fileName dir i) = true
    · rw [if_pos h]
      have hm : fileName dir i ∈ fs := by simpa using h
      refine ⟨fun r hr => ?_, fun hr j h1 h2 => ?_⟩
      · obtain ⟨a, b, c⟩ := (ih (i + 1)).1 r hr
        refine ⟨by omega, b, fun j h1 h2 => ?_⟩
        by_cases hj : j = i
        · exact hj ▸ hm
        · exact c j (by omega) h2
      · by_cases hj : j = i
        · exact hj ▸ hm
        · exact (ih (i + 1)).2 hr j (by omega) (by omega)
    · rw [if_neg h]
      refine ⟨fun r hr => ?_, by simp⟩
      obtain rfl := Option.some.inj hr
      exact ⟨le_refl _, by simpa using h, fun j h1 h2 => by omega⟩

/-- **C45**: for every file system, directory and identifier the call returns; the returned file did not exist, its
identifier is the smallest unused one not below the requested identifier, and afterwards it exists and no other file
changed. -/
theorem C45_smallest_unused (fs : List String) (dir : String) (identifier : ℕ) :
    ∃ i, createOutpath fs dir identifier = some (fileName dir i, fileName dir i :: fs) ∧ identifier ≤ i ∧
      fileName dir i ∉ fs ∧ ∀ j, identifier ≤ j → j < i → fileName dir j ∈ fs := by
  cases h : findFree fs dir (fs.length + 1) identifier with
  | some r =>
    obtain ⟨a, b, c⟩ := (findFree_spec fs dir _ identifier).1 r h
    refine ⟨r, ?_, a, b, c⟩
    unfold createOutpath
    rw [h, Option.map_some, if_neg (by simpa using b)]
  | none =>
    exfalso
    have hall := (findFree_spec fs dir _ identifier).2 h
    have hsub : ((List.range (fs.length + 1)).map fun j => fileName dir (identifier + j)) ⊆ fs := by
      intro p hp
      obtain ⟨j, hj, rfl⟩ := List.mem_map.1 hp
      rw [List.mem_range] at hj
      exact hall _ (by omega) (by omega)
    have hnd : ((List.range (fs.length + 1)).map fun j => fileName dir (identifier + j)).Nodup := by
      refine List.Nodup.map (fun a b hab => ?_) List.nodup_range
      have := fileName_inj dir hab
      omega
    have := (List.subperm_of_subset hnd hsub).length_le
    simp at this

example : createOutpath ["r/id_0.json", "r/id_1.json", "r/id_3.json"] "r/" 0 =
    some ("r/id_2.json", ["r/id_2.json", "r/id_0.json", "r/id_1.json", "r/id_3.json"]) := by decide +kernel

/-- **C45**: in every sequence of calls all returned paths are different, and none existed before. -/
theorem C45_history (fs : List String) (calls : List (String × ℕ)) :
    ∃ ps fs', createAll fs calls = some (ps, fs') ∧ ps.Nodup ∧ (∀ p ∈ ps, p ∉ fs ∧ p ∈ fs') ∧ ∀ p ∈ fs, p ∈ fs' := by
  induction calls generalizing fs with
  | nil => exact ⟨[], fs, rfl, by simp, by simp, fun _ h => h⟩
  | cons c cs ih =>
    obtain ⟨i, h1, -, h3, -⟩ := C45_smallest_unused fs c.1 c.2
    obtain ⟨ps, fs', g1, g2, g3, g4⟩ := ih (fileName c.1 i :: fs)
    refine ⟨fileName c.1 i :: ps, fs', ?_, ?_, ?_, fun p hp => g4 p (List.mem_cons_of_mem _ hp)⟩
    · show (do let (p, fs1) ← createOutpath fs c.1 c.2; let (ps, fs2) ← createAll fs1 cs; some (p :: ps, fs2)) = _
      rw [h1]
      show (do let (ps, fs2) ← createAll (fileName c.1 i :: fs) cs; some (fileName c.1 i :: ps, fs2)) = _
      rw [g1]
      rfl
    · rw [List.nodup_cons]
      exact ⟨fun hp => (g3 _ hp).1 (List.mem_cons_self ..), g2⟩
    · intro p hp
      rcases List.mem_cons.1 hp with rfl | hp
      · exact ⟨h3, g4 _ (List.mem_cons_self ..)⟩
      · exact ⟨fun h => (g3 p hp).1 (List.mem_cons_of_mem _ h), (g3 p hp).2⟩

/-! ## C84: concurrent calls -/

/-- The full claim: two processes that choose their output file in the same directory at the same time never get the
same file, under any schedule. -/
def C84_claim : Prop :=
  ∀ (dir : String) (fs : List String) (i j : ℕ) (schedule : List Bool) (p q : String) (fs' : List String),
    interleave dir schedule (.testing i, .testing j, fs) = (.done p, .done q, fs') → p ≠ q

/-- **C84** is violated: both processes test before either creates the file. -/
theorem C84_violated : ¬ C84_claim := by
  intro h
  exact h "r/" [] 0 0 [true, false, true, false] "r/id_0.json" "r/id_0.json" ["r/id_0.json"] (by decide +kernel) rfl

/-- Both processes are between the test and the creation. -/
def bothTouching (s : Proc × Proc × List String) : Prop := (∃ i, s.1 = .touching i) ∧ ∃ j, s.2.1 = .touching j

/-- What is known about a process: a file about to be created does not exist, a created one does. -/
def Known (dir : String) (fs : List String) : Proc → Prop
  | .testing _ => True
  | .touching i => fileName dir i ∉ fs
  | .done p => p ∈ fs

/-- Invariant of the two processes. -/
def Inv (dir : String) (s : Proc × Proc × List String) : Prop :=
  Known dir s.2.2 s.1 ∧ Known dir s.2.2 s.2.1 ∧ ∀ p q, s.1 = .done p → s.2.1 = .done q → p ≠ q

theorem step_inv (dir : String) (fs : List String) (a b : Proc) (ha : Known dir fs a) (hb : Known dir fs b)
    (hne : ∀ p q, a = .done p → b = .done q → p ≠ q) (hn : ¬ ((∃ i, a = .touching i) ∧ ∃ j, b = .touching j)) :
    Known dir (a.step dir fs).2 (a.step dir fs).1 ∧ Known dir (a.step dir fs).2 b ∧
      ∀ p q, (a.step dir fs).1 = .done p → b = .done q → p ≠ q := by
  cases a with
  | testing i =>
    by_cases h : fs.contains (fileName dir i) = true
    · rw [show Proc.step dir fs (.testing i) = (.testing (i + 1), fs) from if_pos h]
      exact ⟨trivial, hb, fun p q h => by cases h⟩
    · rw [show Proc.step dir fs (.testing i) = (.touching i, fs) from if_neg h]
      exact ⟨by simpa [Known] using h, hb, fun p q h => by cases h⟩
  | touching i =>
    have hi : fileName dir i ∉ fs := ha
    have hs : Proc.step dir fs (.touching i) = (.done (fileName dir i), fileName dir i :: fs) := by
      show (_, if _ then _ else _) = _
      rw [if_neg (by simpa using hi)]
    rw [hs]
    refine ⟨List.mem_cons_self .., ?_, ?_⟩
    · cases b with
      | testing j => trivial
      | touching j => exact absurd ⟨⟨i, rfl⟩, ⟨j, rfl⟩⟩ hn
      | done q => exact List.mem_cons_of_mem _ hb
    · intro p q hp hq
      cases hp
      subst hq
      rintro rfl
      exact hi hb
  | done p => exact ⟨ha, hb, hne⟩

theorem exclusive_inv (dir : String) (schedule : List Bool) : ∀ (s : Proc × Proc × List String), Inv dir s →
    (∀ pre, pre <+: schedule → ¬ bothTouching (interleave dir pre s)) → Inv dir (interleave dir schedule s) := by
  induction schedule with
  | nil => intro s h _; exact h
  | cons b sch ih =>
    intro s h hn
    obtain ⟨a, c, fs⟩ := s
    have h0 : ¬ bothTouching (a, c, fs) := hn [] (List.nil_prefix)
    have hrest : ∀ s', interleave dir (b :: sch) (a, c, fs) = interleave dir sch s' →
        (∀ pre, interleave dir (b :: pre) (a, c, fs) = interleave dir pre s') → Inv dir s' →
        Inv dir (interleave dir (b :: sch) (a, c, fs)) := by
      intro s' e1 e2 hs'
      rw [e1]
      refine ih s' hs' fun pre hp => ?_
      rw [← e2]
      exact hn _ (List.cons_prefix_cons.2 ⟨rfl, hp⟩)
    cases b with
    | true =>
      refine hrest ((a.step dir fs).1, c, (a.step dir fs).2) rfl (fun _ => rfl) ?_
      exact step_inv dir fs a c h.1 h.2.1 h.2.2 h0
    | false =>
      refine hrest (a, (c.step dir fs).1, (c.step dir fs).2) rfl (fun _ => rfl) ?_
      obtain ⟨g1, g2, g3⟩ := step_inv dir fs c a h.2.1 h.1 (fun p q hp hq => (h.2.2 q p hq hp).symm)
        (fun hh => h0 ⟨hh.2, hh.1⟩)
      exact ⟨g2, g1, fun p q hp hq => (g3 q p hq hp).symm⟩

/-- **C84**: the claim holds for every schedule in which the two processes are never both between test and creation. -/
theorem C84_exclusive_partial (dir : String) (fs : List String) (i j : ℕ) (schedule : List Bool) (p q : String)
    (fs' : List String)
    (hn : ∀ pre, pre <+: schedule → ¬ bothTouching (interleave dir pre (.testing i, .testing j, fs)))
    (h : interleave dir schedule (.testing i, .testing j, fs) = (.done p, .done q, fs')) : p ≠ q := by
  have := exclusive_inv dir schedule (.testing i, .testing j, fs) ⟨trivial, trivial, fun p q h => by cases h⟩ hn
  rw [h] at this
  exact this.2.2 p q rfl rfl

/-- A schedule that meets the hypotheses: one process after the other. -/
example : (∀ pre, pre <+: [true, true, false, false, false] → ¬ bothTouching (interleave "r/" pre (.testing 0, .testing 0, []))) ∧
    interleave "r/" [true, true, false, false, false] (.testing 0, .testing 0, []) =
      (.done "r/id_0.json", .done "r/id_1.json", ["r/id_1.json", "r/id_0.json"]) := by
  have e : interleave "r/" [true, true, false, false, false] (.testing 0, .testing 0, []) =
      (.done "r/id_0.json", .done "r/id_1.json", ["r/id_1.json", "r/id_0.json"]) := by decide +kernel
  refine ⟨?_, e⟩
  intro pre hp
  have hl := hp.length_le
  obtain ⟨k, rfl⟩ : ∃ k, pre = [true, true, false, false, false].take k := ⟨pre.length, List.prefix_iff_eq_take.1 hp⟩
  rintro ⟨⟨i, h1⟩, ⟨j, h2⟩⟩
  have hk : k = 0 ∨ k = 1 ∨ k = 2 ∨ k = 3 ∨ k = 4 ∨ 5 ≤ k := by omega
  rcases hk with rfl | rfl | rfl | rfl | rfl | hk
  · cases h1
  · cases h2
  · cases h2
  · cases h1
  · cases h1
  · rw [List.take_of_length_le (by simpa using hk), e] at h1
    cases h1

end Verif.Data
