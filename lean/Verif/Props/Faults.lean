import Verif.Model.Faults
import Verif.Spec.Faults
import Verif.Lemmas.Symbolic
import Verif.Props.Lut

/-! # C25, C26, C27: coset leaders and fault filters -/

namespace Verif.SP
open Verif Verif.Spec
variable {n : ℕ}

/-! ## C25 -/

theorem leaderCost_eq (a : LeaderVars n) :
    leaderCost a = wt (fun i => if a.leader i then (1 : ZMod 2) else 0) := by
  rw [wt_eq_countP]
  unfold leaderCost
  congr 1
  funext i
  cases a.leader i <;> simp

theorem leaderConstraint_spec (e : Vec n) (gens : List (Vec n)) (hne : gens ≠ []) :
    ∃ c, leaderConstraint e gens = some c ∧ ∀ a, c a = true ↔
      (fun i => if a.leader i then (1 : ZMod 2) else 0) =
        e + combo ((List.range gens.length).map a.coeff) gens := by
  obtain ⟨g, hg, hev⟩ := varsToStab_spec
    ((List.range gens.length).map fun i => (.sym fun a : LeaderVars n => a.coeff i : Sym (LeaderVars n)))
    gens (by simp) hne
  refine ⟨_, by simp only [leaderConstraint, hg, Option.map_some]; rfl, fun a => ?_⟩
  rw [vectorEq_iff, evalVec_vectorAdd, evalVec_concrete, hev, List.map_map]
  rfl

/-- **C25**: whatever optimum the solver picks, the coset leader is equivalent to the error and has
minimum weight among all equivalent errors. -/
theorem C25_coset_leader (error : Vec n) (gens : List (Vec n)) (r : Vec n)
    (h : CosetLeader error gens r) : Equivalent gens error r ∧ IsLeader gens r := by
  unfold CosetLeader at h
  by_cases hl : gens.length = 0
  · rw [if_pos hl] at h
    have hg : gens = [] := List.length_eq_zero_iff.1 hl
    subst h hg
    refine ⟨by simp [Equivalent, add_self_eq_zero'], fun f hf => ?_⟩
    have : r + f = 0 := by
      have h := hf
      rwa [Equivalent, rowSpan_nil, Submodule.mem_bot] at h
    rw [(eq_iff_add_eq_zero r f).2 this]
  · rw [if_neg hl] at h
    obtain ⟨c, a, hc, hopt, rfl⟩ := h
    obtain ⟨c', hc', hspec⟩ := leaderConstraint_spec error gens (by rintro rfl; simp at hl)
    rw [hc] at hc'
    obtain rfl : c = c' := by simpa using hc'
    have ha := (hspec a).1 hopt.1
    have heq : Equivalent gens error (fun i => if a.leader i then (1 : ZMod 2) else 0) := by
      unfold Equivalent
      rw [ha, ← add_assoc, add_self_eq_zero', zero_add]
      exact combo_mem _ _
    refine ⟨heq, fun f hf => ?_⟩
    have hef : error + f ∈ rowSpan gens := by
      have := Submodule.add_mem _ heq hf
      rwa [← add_assoc, add_add_cancel'] at this
    obtain ⟨co, hco⟩ := exists_combo gens _ hef
    have hb := hopt.2 ⟨fun i => decide (f i = 1), co⟩ ((hspec _).2 (by
      rw [hco, ← add_assoc, add_self_eq_zero', zero_add]
      funext i; rcases zmod2_cases (f i) with h | h <;> simp [h]))
    rw [leaderCost_eq, leaderCost_eq] at hb
    refine hb.trans (le_of_eq ?_)
    congr 1
    funext i; rcases zmod2_cases (f i) with h | h <;> simp [h]

/-- **C25**: the solver always has an optimum to return ("always SAT"). -/
theorem C25_exists (error : Vec n) (gens : List (Vec n)) : ∃ r, CosetLeader error gens r := by
  unfold CosetLeader
  by_cases hl : gens.length = 0
  · simp [hl]
  · simp only [hl, if_false]
    obtain ⟨c, hc, hspec⟩ := leaderConstraint_spec error gens (by rintro rfl; simp at hl)
    have hne : ∃ k a, c a = true ∧ leaderCost a = k := by
      obtain ⟨co, hco⟩ := exists_combo gens 0 (Submodule.zero_mem _)
      refine ⟨_, ⟨fun i => decide (error i = 1), co⟩, (hspec _).2 ?_, rfl⟩
      rw [hco, add_zero]
      funext i; rcases zmod2_cases (error i) with h | h <;> simp [h]
    classical
    obtain ⟨a, ha, hk⟩ := Nat.find_spec hne
    refine ⟨_, c, a, hc, ⟨ha, fun b hb => ?_⟩, rfl⟩
    rw [hk]
    exact Nat.find_min' hne ⟨b, hb, rfl⟩

example : CosetLeader (![1, 1, 1, 0] : Vec 4) [![1, 1, 1, 1]] ![0, 0, 0, 1] := by
  obtain ⟨r, hr⟩ := C25_exists (![1, 1, 1, 0] : Vec 4) [![1, 1, 1, 1]]
  have h := C25_coset_leader _ _ _ hr
  have h1 : ![1, 1, 1, 0] + r ∈ rowSpan ([![1, 1, 1, 1]] : List (Vec 4)) := h.1
  rw [← inSpan_iff] at h1
  have h2 : wt r ≤ wt (![0, 0, 0, 1] : Vec 4) := h.2 _ (by
    have : r + ![0, 0, 0, 1] ∈ rowSpan ([![1, 1, 1, 1]] : List (Vec 4)) := by
      have e := Submodule.add_mem _ (inSpan_iff.1 h1) (inSpan_iff.1
        (show inSpan ([![1, 1, 1, 1]] : List (Vec 4)) ![1, 1, 1, 1] = true by decide))
      have : ![1, 1, 1, 0] + r + ![1, 1, 1, 1] = r + (![0, 0, 0, 1] : Vec 4) := by
        rw [add_comm _ r, add_assoc]; congr 1; decide
      rwa [this] at e
    exact this)
  have : r = ![0, 0, 0, 1] := by
    clear hr h
    revert r; decide +kernel
  rwa [← this]

/-! ## C27 -/

theorem mem_npUnique {rows : List (Vec n)} {v : Vec n} : v ∈ npUnique rows ↔ v ∈ rows := by
  simp only [npUnique, List.mem_filter, List.mem_map, List.mem_range, decide_eq_true_eq]
  exact ⟨fun h => h.2, fun h => ⟨Lut.exists_stateOf v, h⟩⟩

theorem stateOf_inj {i j : ℕ} (hi : i < 2 ^ n) (hj : j < 2 ^ n)
    (h : Lut.stateOf n i = Lut.stateOf n j) : i = j := by
  apply Nat.eq_of_testBit_eq
  intro b
  by_cases hb : b < n
  · have := congrFun h ⟨n - 1 - b, by omega⟩
    simp only [Lut.stateOf, show n - 1 - (n - 1 - b) = b by omega] at this
    cases h1 : i.testBit b <;> cases h2 : j.testBit b <;> simp_all
  · have hp : 2 ^ n ≤ 2 ^ b := Nat.pow_le_pow_right (by norm_num) (by omega)
    rw [Nat.testBit_lt_two_pow (by omega), Nat.testBit_lt_two_pow (by omega)]

theorem nodup_npUnique (rows : List (Vec n)) : (npUnique rows).Nodup := by
  apply List.Nodup.filter
  apply List.Nodup.map_on _ List.nodup_range
  intro i hi j hj h
  exact stateOf_inj (List.mem_range.1 hi) (List.mem_range.1 hj) h

theorem _root_.Verif.Spec.Equivalent.symm {S : List (Vec n)} {e f : Vec n} (h : Equivalent S e f) : Equivalent S f e := by
  unfold Equivalent at *; rwa [add_comm]

theorem _root_.Verif.Spec.Equivalent.trans {S : List (Vec n)} {e f g : Vec n} (h : Equivalent S e f)
    (h' : Equivalent S f g) : Equivalent S e g := by
  unfold Equivalent at *
  have := Submodule.add_mem _ h h'
  rwa [← add_assoc, add_add_cancel'] at this

theorem _root_.Verif.Spec.Equivalent.refl (S : List (Vec n)) (e : Vec n) : Equivalent S e e := by
  simp [Equivalent, add_self_eq_zero']

theorem dangerous_congr {S : List (Vec n)} {w : ℤ} {e f : Vec n} (h : Equivalent S e f) :
    Dangerous S w e ↔ Dangerous S w f :=
  ⟨fun H g hg => H g (h.trans hg), fun H g hg => H g (h.symm.trans hg)⟩

/-- The bound used by the filter: `max_w * num_errors` with `max_w = t_error // t`. -/
def weightBound (d dError : ℤ) (k : ℕ) : ℤ :=
  (max ((dError - 1) / 2) 1 / max ((d - 1) / 2) 1) * k

/-- **C27**: the filter returns exactly the coset leaders of those faults for which no equivalent
error has weight at most `max_w * num_errors`, without repetition. -/
theorem C27_trivial_filter (leader : Vec n → Vec n) (stabs faults : List (Vec n)) (d dError : ℤ)
    (k : ℕ) (hl : ∀ f, CosetLeader f stabs (leader f)) :
    (∀ v, v ∈ removeTrivialFaults leader faults d dError k ↔
      ∃ f ∈ faults, v = leader f ∧ Dangerous stabs (weightBound d dError k) f) ∧
    (removeTrivialFaults leader faults d dError k).Nodup := by
  refine ⟨fun v => ?_, nodup_npUnique _⟩
  simp only [removeTrivialFaults, mem_npUnique, List.mem_filter, List.mem_map, decide_eq_true_eq]
  constructor
  · rintro ⟨⟨f, hf, rfl⟩, hw⟩
    obtain ⟨heq, hlead⟩ := C25_coset_leader _ _ _ (hl f)
    refine ⟨f, hf, rfl, fun g hg => ?_⟩
    have := hlead g (heq.symm.trans hg)
    unfold weightBound
    omega
  · rintro ⟨f, hf, rfl, hD⟩
    obtain ⟨heq, hlead⟩ := C25_coset_leader _ _ _ (hl f)
    exact ⟨⟨f, hf, rfl⟩, hD _ heq⟩

/-- **C27**: the bound is never below the number of errors (so every error of weight at most the
number of faults that caused it is dropped), provided the distances are as the constructor
requires. -/
theorem C27_bound (d dError : ℤ) (k : ℕ) (h : d ≤ dError) : (k : ℤ) ≤ weightBound d dError k := by
  unfold weightBound
  have : 1 ≤ max ((dError - 1) / 2) 1 / max ((d - 1) / 2) 1 := by
    rw [Int.le_ediv_iff_mul_le (by omega)]
    have : (d - 1) / 2 ≤ (dError - 1) / 2 := Int.ediv_le_ediv (by norm_num) (by omega)
    omega
  nlinarith

/-- **C27**: when both distances agree the filter keeps exactly the faults whose minimal weight
exceeds the number of errors that caused them. -/
theorem C27_bound_eq (d : ℤ) (k : ℕ) : weightBound d d k = k := by
  unfold weightBound
  rw [Int.ediv_self (by omega), one_mul]

example : ∃ leader : Vec 4 → Vec 4, ∀ f, CosetLeader f [![1, 1, 1, 1]] (leader f) :=
  ⟨fun f => (C25_exists f _).choose, fun f => (C25_exists f _).choose_spec⟩
example : Dangerous ([![1, 1, 1, 1]] : List (Vec 4)) (weightBound 2 2 1) ![1, 1, 0, 0] := by
  intro f hf
  have hf' := inSpan_iff.2 hf
  rw [C27_bound_eq]
  revert hf'; clear hf; revert f; decide +kernel

/-! ## C26 -/

theorem mem_span_pair {S : List (Vec n)} {f g : Vec n} :
    rank (S ++ [f] ++ [g]) = rank (S ++ [f]) ↔ g ∈ rowSpan S ∨ Equivalent S f g := by
  rw [rank_append_singleton_eq_iff, rowSpan_append, sup_comm, ← rowSpan_append,
    List.singleton_append, mem_rowSpan_cons]
  unfold Equivalent
  rw [add_comm f g]

theorem dedupInner_spec (S : List (Vec n)) (f1 : Vec n) (F : ℕ → Vec n) (js R : List ℕ) (j : ℕ) :
    j ∈ dedupInner S f1 F js R ↔ j ∈ R ∨ (j ∈ js ∧ (F j ∈ rowSpan S ∨ Equivalent S f1 (F j))) := by
  induction js generalizing R with
  | nil => simp [dedupInner]
  | cons a js ih =>
    simp only [dedupInner]
    split
    · next h =>
      rw [ih]
      constructor
      · rintro (h1 | h1) <;> simp_all
      · rintro (h1 | ⟨h1, h2⟩)
        · exact Or.inl h1
        · rcases List.mem_cons.1 h1 with rfl | h1
          · exact Or.inl h
          · exact Or.inr ⟨h1, h2⟩
    · split
      · next h =>
        rw [mem_span_pair] at h
        rw [ih]
        constructor
        · rintro (h1 | h1)
          · rcases List.mem_cons.1 h1 with rfl | h1
            · exact Or.inr ⟨by simp, h⟩
            · exact Or.inl h1
          · exact Or.inr ⟨by simp [h1.1], h1.2⟩
        · rintro (h1 | ⟨h1, h2⟩)
          · exact Or.inl (by simp [h1])
          · rcases List.mem_cons.1 h1 with rfl | h1
            · exact Or.inl (by simp)
            · exact Or.inr ⟨h1, h2⟩
      · next h =>
        rw [mem_span_pair] at h
        rw [ih]
        constructor
        · rintro (h1 | h1)
          · exact Or.inl h1
          · exact Or.inr ⟨by simp [h1.1], h1.2⟩
        · rintro (h1 | ⟨h1, h2⟩)
          · exact Or.inl h1
          · rcases List.mem_cons.1 h1 with rfl | h1
            · exact absurd h2 h
            · exact Or.inr ⟨h1, h2⟩

/-- Invariant of the outer loop after the first `i` indices. -/
structure DedupInv (S : List (Vec n)) (F : ℕ → Vec n) (len i : ℕ) (R : List ℕ) : Prop where
  explained : ∀ j ∈ R, F j ∈ rowSpan S ∨ ∃ k < i, k ∉ R ∧ k < j ∧ Equivalent S (F k) (F j)
  nontrivial : ∀ j < i, j ∉ R → F j ∉ rowSpan S
  covers : ∀ k < i, k ∉ R → ∀ j, k < j → j < len → Equivalent S (F k) (F j) → j ∈ R

theorem dedupOuter_inv (S : List (Vec n)) (F : ℕ → Vec n) (len m i : ℕ) (R : List ℕ)
    (hm : i + m = len) (h : DedupInv S F len i R) :
    DedupInv S F len len (dedupOuter S F len (List.range' i m) R) := by
  induction m generalizing i R with
  | zero =>
    obtain rfl : i = len := by omega
    simpa [dedupOuter] using h
  | succ m ih =>
    rw [List.range'_succ, dedupOuter]
    split
    · next hi =>
      apply ih (i + 1) R (by omega)
      refine ⟨fun j hj => ?_, fun j hj hjR => ?_, fun k hk hkR => ?_⟩
      · rcases h.explained j hj with h1 | ⟨k, h1, h2⟩
        · exact Or.inl h1
        · exact Or.inr ⟨k, by omega, h2⟩
      · have : j ≠ i := by rintro rfl; exact hjR hi
        exact h.nontrivial j (by omega) hjR
      · have : k ≠ i := by rintro rfl; exact hkR hi
        exact h.covers k (by omega) hkR
    · next hi =>
      split
      · next hr =>
        rw [rank_append_singleton_eq_iff] at hr
        apply ih (i + 1) _ (by omega)
        refine ⟨fun j hj => ?_, fun j hj hjR => ?_, fun k hk hkR j hkj hj he => ?_⟩
        · rcases List.mem_cons.1 hj with rfl | hj
          · exact Or.inl hr
          · rcases h.explained j hj with h1 | ⟨k, h1, h2, h3⟩
            · exact Or.inl h1
            · exact Or.inr ⟨k, by omega, by simp only [List.mem_cons, not_or]; exact ⟨by omega, h2⟩, h3⟩
        · simp only [List.mem_cons, not_or] at hjR
          exact h.nontrivial j (by omega) hjR.2
        · simp only [List.mem_cons, not_or] at hkR
          exact List.mem_cons_of_mem _ (h.covers k (by omega) hkR.2 j hkj hj he)
      · next hr =>
        rw [rank_append_singleton_eq_iff] at hr
        apply ih (i + 1) _ (by omega)
        have hlow : ∀ k ≤ i, (k ∈ dedupInner S (F i) F (List.range' (i + 1) (len - (i + 1))) R ↔ k ∈ R) := by
          intro k hk
          rw [dedupInner_spec]
          constructor
          · rintro (h1 | ⟨h1, -⟩)
            · exact h1
            · simp [List.mem_range'] at h1; omega
          · exact Or.inl
        refine ⟨fun j hj => ?_, fun j hj hjR => ?_, fun k hk hkR j hkj hj he => ?_⟩
        · rw [dedupInner_spec] at hj
          rcases hj with hj | ⟨hj, h1 | h1⟩
          · rcases h.explained j hj with h1 | ⟨k, h1, h2, h3⟩
            · exact Or.inl h1
            · exact Or.inr ⟨k, by omega, by rwa [hlow k (by omega)], h3⟩
          · exact Or.inl h1
          · refine Or.inr ⟨i, by omega, by rwa [hlow i le_rfl], ?_, h1⟩
            simp [List.mem_range'] at hj; omega
        · rw [hlow j (by omega)] at hjR
          rcases Nat.lt_succ_iff_lt_or_eq.1 hj with hj | rfl
          · exact h.nontrivial j hj hjR
          · exact hr
        · rw [hlow k (by omega)] at hkR
          rw [dedupInner_spec]
          rcases Nat.lt_succ_iff_lt_or_eq.1 hk with hk | rfl
          · exact Or.inl (h.covers k hk hkR j hkj hj he)
          · refine Or.inr ⟨?_, Or.inr he⟩
            rw [List.mem_range'_1]; omega

/-- **C26**: the deduplicated fault list contains only input faults, no stabilizer, no two
equivalent faults (positions are different), and an equivalent of every input fault that is not a
stabilizer. -/
theorem C26_dedup (faults stabs : List (Vec n)) :
    (∀ f ∈ removeEquivalent faults stabs, f ∈ faults ∧ f ∉ rowSpan stabs) ∧
    (removeEquivalent faults stabs).Pairwise (fun f g => ¬ Equivalent stabs f g) ∧
    (∀ f ∈ faults, f ∉ rowSpan stabs → ∃ g ∈ removeEquivalent faults stabs, Equivalent stabs f g) := by
  set F : ℕ → Vec n := fun i => faults.getD i 0 with hF
  have inv := dedupOuter_inv stabs F faults.length faults.length 0 [] (by omega)
    ⟨by simp, by simp, by simp⟩
  rw [← List.range_eq_range'] at inv
  set R := dedupOuter stabs F faults.length (List.range faults.length) [] with hR
  have hval : removeEquivalent faults stabs =
    ((List.range faults.length).filter fun i => decide (i ∉ R)).map F := rfl
  have hmemF : ∀ i < faults.length, F i ∈ faults := by
    intro i hi
    simp only [hF, List.getD_eq_getElem?_getD, List.getElem?_eq_getElem hi, Option.getD_some]
    exact List.getElem_mem hi
  have hex : ∀ f ∈ faults, ∃ i < faults.length, F i = f := by
    intro f hf
    obtain ⟨i, hi, rfl⟩ := List.getElem_of_mem hf
    exact ⟨i, hi, by simp [hF, List.getD_eq_getElem?_getD, List.getElem?_eq_getElem hi]⟩
  rw [hval]
  refine ⟨?_, ?_, ?_⟩
  · intro f hf
    obtain ⟨i, hi, rfl⟩ := List.mem_map.1 hf
    simp only [List.mem_filter, List.mem_range, decide_eq_true_eq] at hi
    exact ⟨hmemF i hi.1, inv.nontrivial i hi.1 hi.2⟩
  · rw [List.pairwise_map]
    have hs : ((List.range faults.length).filter fun i => decide (i ∉ R)).Pairwise (· < ·) :=
      List.pairwise_lt_range.filter _
    refine hs.imp_of_mem fun {a b} ha hb hab he => ?_
    simp only [List.mem_filter, List.mem_range, decide_eq_true_eq] at ha hb
    exact hb.2 (inv.covers a ha.1 ha.2 b hab hb.1 he)
  · intro f hf hns
    obtain ⟨i, hi, rfl⟩ := hex f hf
    by_cases hiR : i ∈ R
    · rcases inv.explained i hiR with h1 | ⟨k, hk, hkR, -, he⟩
      · exact absurd h1 hns
      · exact ⟨F k, List.mem_map.2 ⟨k, by simp [hk, hkR], rfl⟩, he.symm⟩
    · exact ⟨F i, List.mem_map.2 ⟨i, by simp [hi, hiR], rfl⟩, .refl _ _⟩

example : removeEquivalent ([![1, 1, 0, 0], ![1, 1, 1, 1], ![0, 0, 1, 1], ![1, 0, 1, 0]] : List (Vec 4))
    [![1, 1, 1, 1]] = [![1, 1, 0, 0], ![1, 0, 1, 0]] := by decide +kernel

end Verif.SP
