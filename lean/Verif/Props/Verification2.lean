import Verif.Props.Verification

/-! # C33: SMT search for verification stabilizers -/

namespace Verif.SP
open Verif Verif.Spec
variable {n : ℕ}

/-- Number of qubits in the support of both vectors. -/
def overlap (u v : Vec n) : ℕ := (Finset.univ.filter fun i => u i = 1 ∧ v i = 1).card

theorem dot_eq_overlap (u v : Vec n) : dot u v = (overlap u v : ZMod 2) := by
  unfold dot overlap
  rw [Finset.card_filter]
  push_cast
  apply Finset.sum_congr rfl
  intro i _
  rcases zmod2_cases (u i) with h | h <;> rcases zmod2_cases (v i) with h' | h' <;> simp [h, h']

theorem foldl_add_eq_sum (l : List (Vec n)) (a : Vec n) : l.foldl (· + ·) a = a + l.sum := by
  induction l generalizing a with
  | nil => simp
  | cons x l ih => simp [ih, add_assoc]

theorem filter_zipIdx_sum (gens : List (Vec n)) (f : ℕ → Bool) (k : ℕ) :
    (((gens.zipIdx k).filter fun g => f g.2).map fun g => g.1).sum =
      combo ((List.range' k gens.length).map f) gens := by
  induction gens generalizing k with
  | nil => simp [combo]
  | cons g gs ih =>
    rw [List.zipIdx_cons, List.filter_cons, List.length_cons, List.range'_succ, List.map_cons, combo_cons, ← ih]
    cases f k <;> simp

theorem verifExtract_eq (gens : List (Vec n)) (numAnc : ℕ) (a : ℕ → ℕ → Bool) :
    verifExtract gens numAnc a =
      (List.range numAnc).map fun anc => combo ((List.range gens.length).map (a anc)) gens := by
  unfold verifExtract
  apply List.map_congr_left
  intro anc _
  rw [foldl_add_eq_sum, zero_add, filter_zipIdx_sum gens (a anc) 0, ← List.range_eq_range']

theorem countP_filter_overlap (v : SVec (ℕ → ℕ → Bool) n) (e : Vec n) (a : ℕ → ℕ → Bool) :
    pbCount (((List.finRange n).filter fun i => decide (e i = 1)).map v) a = overlap (evalVec a v) e := by
  unfold pbCount overlap
  rw [List.countP_map, List.countP_filter, List.countP_eq_length_filter,
    ← List.toFinset_card_of_nodup ((List.nodup_finRange n).filter _)]
  congr 1
  ext i
  simp only [List.mem_toFinset, List.mem_filter, List.mem_finRange, true_and, Function.comp, Bool.and_eq_true,
    decide_eq_true_eq, evalVec]
  by_cases h : Sym.eval a (v i) = true <;> simp [h]

theorem pbCount_finRange (v : SVec (ℕ → ℕ → Bool) n) (a : ℕ → ℕ → Bool) :
    pbCount ((List.finRange n).map v) a = wt (evalVec a v) := by
  unfold pbCount
  rw [wt_eq_countP, List.countP_map]
  apply List.countP_congr
  intro i _
  simp only [Function.comp, evalVec]
  by_cases h : Sym.eval a (v i) = true <;> simp [h]

theorem verifConstraint_iff (gens faults : List (Vec n)) (numAnc numCnots : ℕ) (hg : gens ≠ []) :
    ∃ c, verifConstraint gens faults numAnc numCnots = some c ∧ ∀ a, (c a = true ↔
      (∀ e ∈ faults, ∃ m ∈ verifExtract gens numAnc a, overlap m e = 1) ∧
      ((verifExtract gens numAnc a).map wt).sum ≤ numCnots) := by
  have hv : ∀ anc : ℕ, ∃ v : SVec (ℕ → ℕ → Bool) n,
      varsToStab ((List.range gens.length).map fun i => .sym fun a : ℕ → ℕ → Bool => a anc i) gens = some v ∧
      ∀ a, evalVec a v = combo ((List.range gens.length).map (a anc)) gens := by
    intro anc
    obtain ⟨v, h1, h2⟩ := varsToStab_spec ((List.range gens.length).map fun i =>
      (Sym.sym fun a : ℕ → ℕ → Bool => a anc i)) gens (by simp) hg
    refine ⟨v, h1, fun a => ?_⟩
    rw [h2 a, List.map_map]
    rfl
  choose V hV1 hV2 using hv
  have hm : ((List.range numAnc).mapM fun anc =>
      varsToStab ((List.range gens.length).map fun i => .sym fun a : ℕ → ℕ → Bool => a anc i) gens) =
      some ((List.range numAnc).map V) := by
    generalize List.range numAnc = l
    induction l with
    | nil => rfl
    | cons x l ih => rw [List.mapM_cons, ih, hV1]; rfl
  refine ⟨_, by rw [verifConstraint, hm]; rfl, ?_⟩
  intro a
  have hex : verifExtract gens numAnc a = ((List.range numAnc).map V).map (evalVec a) := by
    rw [verifExtract_eq, List.map_map]
    apply List.map_congr_left
    intro anc _
    exact (hV2 anc a).symm
  rw [hex]
  generalize (List.range numAnc).map V = stabs
  rw [Bool.and_eq_true, List.all_eq_true, decide_eq_true_eq]
  apply and_congr
  · apply forall₂_congr
    intro e _
    rw [decide_eq_true_eq]
    unfold pbCount
    rw [Nat.succ_le_iff, List.countP_pos_iff]
    simp only [List.mem_map, exists_exists_and_eq_and, oddOverlap, eval_sym, decide_eq_true_eq,
      countP_filter_overlap]
  · have : pbCount (stabs.flatMap fun m => (List.finRange n).map m) a = ((stabs.map (evalVec a)).map wt).sum := by
      induction stabs with
      | nil => rfl
      | cons m ms ih =>
        simp only [List.flatMap_cons, List.map_cons, List.sum_cons]
        rw [← ih, ← pbCount_finRange]
        unfold pbCount
        rw [List.countP_append]
    rw [this]

theorem exists_assignment (gens ms : List (Vec n)) (h : ∀ m ∈ ms, m ∈ rowSpan gens) :
    ∃ a, verifExtract gens ms.length a = ms := by
  have : ∀ i, ∃ f : ℕ → Bool, combo ((List.range gens.length).map f) gens = ms.getD i 0 := by
    intro i
    apply exists_combo
    by_cases hi : i < ms.length
    · rw [List.getD_eq_getElem?_getD, List.getElem?_eq_getElem hi]; exact h _ (List.getElem_mem hi)
    · rw [List.getD_eq_getElem?_getD, List.getElem?_eq_none (by omega)]; exact Submodule.zero_mem _
  choose a ha using this
  refine ⟨a, ?_⟩
  rw [verifExtract_eq]
  apply List.ext_getElem
  · simp
  · intro i h1 h2
    simp only [List.getElem_map, List.getElem_range]
    rw [ha, List.getD_eq_getElem?_getD, List.getElem?_eq_getElem h2]; rfl

/-- Soundness: whatever stabilizers the search returns, they are stabilizers of the group, every
fault anticommutes with one of them, there are as many as requested and the CNOT bound holds. -/
theorem C33_sound (gens faults : List (Vec n)) (numAnc numCnots : ℕ) (ms : List (Vec n))
    (h : VerifOutcome gens faults numAnc numCnots (.value (some ms))) :
    (∀ m ∈ ms, m ∈ rowSpan gens) ∧ Detects ms faults ∧ ms.length = numAnc ∧ (ms.map wt).sum ≤ numCnots := by
  by_cases hg : gens = []
  · subst hg
    rcases h with h | h
    · simp at h
    · cases numAnc with
      | zero =>
        simp only [verifConstraint, List.range_zero, List.mapM_nil] at h
        rcases h with ⟨a, h1, h2⟩ | ⟨-, h2⟩
        · simp only [verifExtract, List.range_zero, List.map_nil, Outcome.value.injEq, Option.some.injEq] at h2
          subst h2
          refine ⟨by simp, ?_, rfl, by simp⟩
          intro f hf
          simp only [List.map_nil, List.flatMap_nil, Bool.and_eq_true, List.all_eq_true, decide_eq_true_eq,
            pbCount, List.countP_nil] at h1
          have := h1.1 f hf
          omega
        · simp at h2
      | succ k =>
        have : verifConstraint (n := n) [] faults (k + 1) numCnots = none := by
          rw [verifConstraint, List.range_succ_eq_map, List.mapM_cons]
          rfl
        rw [this] at h
        simp at h
  · obtain ⟨c, hc, hiff⟩ := verifConstraint_iff gens faults numAnc numCnots hg
    rcases h with h | h
    · simp at h
    · rw [hc] at h
      rcases h with ⟨a, h1, h2⟩ | ⟨-, h2⟩
      · simp only [Outcome.value.injEq, Option.some.injEq] at h2
        subst h2
        obtain ⟨h3, h4⟩ := (hiff a).1 h1
        refine ⟨?_, ?_, by simp [verifExtract], h4⟩
        · intro m hm
          rw [verifExtract_eq, List.mem_map] at hm
          obtain ⟨anc, -, rfl⟩ := hm
          exact combo_mem _ _
        · intro f hf
          obtain ⟨m, hm, ho⟩ := h3 f hf
          exact ⟨m, hm, by rw [dot_eq_overlap, ho]; rfl⟩
      · simp at h2

/-- The claim of completeness: the search answers "unsatisfiable" only if no suitable stabilizers exist. -/
def C33_complete_claim : Prop := ∀ (n : ℕ) (gens faults : List (Vec n)) (numAnc numCnots : ℕ), gens ≠ [] →
  VerifOutcome gens faults numAnc numCnots (.value none) →
  ¬ ∃ ms : List (Vec n), (∀ m ∈ ms, m ∈ rowSpan gens) ∧ Detects ms faults ∧ ms.length = numAnc ∧
    (ms.map wt).sum ≤ numCnots

/-- What the encoding does decide: whether there are stabilizers such that every fault overlaps one
of them in exactly one qubit.  Missing for the full claim: overlaps in 3, 5, … qubits
(`C33_violated`). -/
theorem C33_complete_partial (gens faults : List (Vec n)) (numAnc numCnots : ℕ) (hg : gens ≠ [])
    (h : VerifOutcome gens faults numAnc numCnots (.value none)) :
    ¬ ∃ ms : List (Vec n), (∀ m ∈ ms, m ∈ rowSpan gens) ∧ (∀ f ∈ faults, ∃ m ∈ ms, overlap m f = 1) ∧
      ms.length = numAnc ∧ (ms.map wt).sum ≤ numCnots := by
  obtain ⟨c, hc, hiff⟩ := verifConstraint_iff gens faults numAnc numCnots hg
  rintro ⟨ms, h1, h2, rfl, h4⟩
  rcases h with h | h
  · simp at h
  · rw [hc] at h
    rcases h with ⟨a, -, h⟩ | ⟨h, -⟩
    · simp at h
    · obtain ⟨a, ha⟩ := exists_assignment gens ms h1
      have : c a = true := (hiff a).2 (by rw [ha]; exact ⟨h2, h4⟩)
      rw [h a] at this
      simp at this

/-- Overlaps of faults of weight at most two are odd only if they are one, so for such fault sets
the search is complete. -/
theorem C33_complete_weight_two (gens faults : List (Vec n)) (numAnc numCnots : ℕ) (hg : gens ≠ [])
    (hw : ∀ f ∈ faults, wt f ≤ 2)
    (h : VerifOutcome gens faults numAnc numCnots (.value none)) :
    ¬ ∃ ms : List (Vec n), (∀ m ∈ ms, m ∈ rowSpan gens) ∧ Detects ms faults ∧ ms.length = numAnc ∧
      (ms.map wt).sum ≤ numCnots := by
  rintro ⟨ms, h1, h2, h3, h4⟩
  refine C33_complete_partial gens faults numAnc numCnots hg h ⟨ms, h1, ?_, h3, h4⟩
  intro f hf
  obtain ⟨m, hm, hd⟩ := h2 f hf
  refine ⟨m, hm, ?_⟩
  have hle : overlap m f ≤ 2 := by
    refine le_trans ?_ (hw f hf)
    unfold overlap wt
    apply Finset.card_le_card
    intro i hi
    simp only [Finset.mem_filter, Finset.mem_univ, true_and] at hi ⊢
    rw [hi.2]; decide
  rw [dot_eq_overlap] at hd
  interval_cases h : overlap m f
  · exact absurd hd (by decide)
  · rfl
  · exact absurd hd (by decide)

/-- The fault `XXX` is detected by the generator `ZZZ` (odd overlap), but the search reports that no
verification stabilizer exists, because `_odd_overlap` asks for an overlap of exactly one. -/
theorem C33_violated : ¬ C33_complete_claim := by
  intro h
  refine h 3 [![1,1,1]] [![1,1,1]] 1 3 (by simp) ?_ ⟨[![1,1,1]], ?_, ?_, rfl, by decide⟩
  · right
    obtain ⟨c, hc, hiff⟩ := verifConstraint_iff (n := 3) [![1,1,1]] [![1,1,1]] 1 3 (by simp)
    rw [hc]
    right
    refine ⟨fun a => ?_, rfl⟩
    rw [← Bool.not_eq_true, hiff]
    rintro ⟨h1, -⟩
    obtain ⟨m, hm, ho⟩ := h1 ![1,1,1] (by simp)
    rw [verifExtract_eq] at hm
    simp only [List.range_one, List.map_cons, List.map_nil, List.mem_singleton, List.length_cons, List.length_nil,
      zero_add] at hm
    subst hm
    cases hb : a 0 0
    · rw [hb] at ho; revert ho; decide
    · rw [hb] at ho; revert ho; decide
  · intro m hm
    exact Submodule.subset_span hm
  · intro f hf
    simp only [List.mem_singleton] at hf
    subst hf
    exact ⟨![1,1,1], by simp, by decide⟩

/-- Non-trivial instance: with two generators one measurement of weight two detects both faults. -/
example : VerifOutcome (n := 3) [![1,1,0], ![0,1,1]] [![1,0,0], ![0,0,1]] 1 2 (.value (some [![1,0,1]])) := by
  right
  obtain ⟨c, hc, hiff⟩ := verifConstraint_iff (n := 3) [![1,1,0], ![0,1,1]] [![1,0,0], ![0,0,1]] 1 2 (by simp)
  rw [hc]
  left
  refine ⟨fun _ _ => true, (hiff _).2 ?_, ?_⟩
  · constructor <;> decide
  · have : verifExtract (n := 3) [![1,1,0], ![0,1,1]] 1 (fun _ _ => true) = [![1,0,1]] := by decide
    rw [this]

end Verif.SP
