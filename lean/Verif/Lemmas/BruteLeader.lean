import Verif.Props.Faults
import Verif.Props.Verification

/-!
# A computable coset leader

Used to run the search functions inside the kernel in examples and witnesses.
-/

namespace Verif.SP
open Verif Verif.Spec
variable {n : ℕ}

theorem cosetLeader_of (e : Vec n) (gens : List (Vec n)) (r : Vec n) (heq : Equivalent gens e r) (hmin : IsLeader gens r) :
    CosetLeader e gens r := by
  unfold CosetLeader
  by_cases hl : gens.length = 0
  · rw [if_pos hl]
    have hg : gens = [] := List.length_eq_zero_iff.1 hl
    subst hg
    have h : e + r ∈ rowSpan ([] : List (Vec n)) := heq
    rw [rowSpan_nil, Submodule.mem_bot] at h
    exact ((eq_iff_add_eq_zero e r).2 h).symm
  · rw [if_neg hl]
    obtain ⟨c, hc, hspec⟩ := leaderConstraint_spec e gens (by rintro rfl; simp at hl)
    obtain ⟨co, hco⟩ := exists_combo gens _ heq
    have hr : ∀ f : Vec n, (fun i => if decide (f i = 1) = true then (1 : ZMod 2) else 0) = f := by
      intro f; funext i; rcases zmod2_cases (f i) with h | h <;> simp [h]
    refine ⟨c, ⟨fun i => decide (r i = 1), co⟩, hc, ⟨(hspec _).2 ?_, fun b hb => ?_⟩, (hr r).symm⟩
    · rw [hco, ← add_assoc, add_self_eq_zero', zero_add]; exact hr r
    · rw [leaderCost_eq, leaderCost_eq]
      simp only [hr]
      refine hmin _ ?_
      have hb' := (hspec b).1 hb
      show r + _ ∈ rowSpan gens
      rw [hb', ← add_assoc, add_comm r e]
      exact Submodule.add_mem _ heq (combo_mem _ _)

/-- All sums of rows. -/
def allCombos : List (Vec n) → List (Vec n)
  | [] => [0]
  | r :: rs => allCombos rs ++ (allCombos rs).map (r + ·)

theorem mem_allCombos (gens : List (Vec n)) (v : Vec n) : v ∈ allCombos gens ↔ v ∈ rowSpan gens := by
  rw [← inSpan_iff]
  induction gens generalizing v with
  | nil => simp [allCombos, inSpan]
  | cons r rs ih =>
    simp only [allCombos, List.mem_append, List.mem_map, inSpan, Bool.or_eq_true, ih]
    refine or_congr Iff.rfl ⟨?_, fun h => ⟨_, h, ?_⟩⟩
    · rintro ⟨a, ha, rfl⟩
      rwa [add_comm r a, add_assoc, add_self_eq_zero', add_zero]
    · rw [add_comm v r, ← add_assoc, add_self_eq_zero', zero_add]

/-- The first lightest element of the coset. -/
def bruteLeader (e : Vec n) (gens : List (Vec n)) : Vec n :=
  (lightest ((allCombos gens).map (e + ·))).getD e

theorem bruteLeader_spec (e : Vec n) (gens : List (Vec n)) : CosetLeader e gens (bruteLeader e gens) := by
  obtain ⟨h1, h2⟩ := lightest_mem ((allCombos gens).map (e + ·))
  unfold bruteLeader
  cases hl : lightest ((allCombos gens).map (e + ·)) with
  | none =>
    have : (0 : Vec n) ∈ allCombos gens := (mem_allCombos _ _).2 (Submodule.zero_mem _)
    have h := h1.1 hl
    rw [List.map_eq_nil_iff] at h
    rw [h] at this
    simp at this
  | some r =>
    obtain ⟨hm, hmin⟩ := h2 r hl
    obtain ⟨a, ha, rfl⟩ := List.mem_map.1 hm
    rw [mem_allCombos] at ha
    refine cosetLeader_of _ _ _ ?_ fun f hf => hmin f ?_
    · show e + (e + a) ∈ _
      rwa [← add_assoc, add_self_eq_zero', zero_add]
    · rw [List.mem_map]
      refine ⟨e + f, (mem_allCombos _ _).2 ?_, by rw [← add_assoc, add_self_eq_zero', zero_add]⟩
      have : (e + a) + f ∈ rowSpan gens := hf
      have h := Submodule.add_mem _ ha this
      rwa [show a + (e + a + f) = (a + a) + (e + f) by abel, add_self_eq_zero', zero_add] at h

end Verif.SP
