import Verif.Lemmas.GadgetFaults
import Verif.Props.Gadgets
import Mathlib.Data.Fintype.Basic

/-! # Which sequences of steps tolerate faults -/

namespace Verif.SP
open Verif Verif.Spec

variable {Q : Type} [DecidableEq Q]

/-- Up to the measured operator (`c`), the moves act on at most `r` data qubits. -/
def Small (st : List (GStep Q)) (ms : List (Move Q)) (r : ℕ) : Prop :=
  ∃ (c : ZMod 2) (T : List Q), T.length ≤ r ∧ (∀ m ∈ ms, ∀ q ∈ m.locals st, q ∈ T) ∧
    ∀ p, (ms.map (Move.data st p)).sum + c * ((dataOf st).count p : ZMod 2) ≠ 0 → p ∈ T

/-- At most `t` moves that raise no flag are small. -/
def Good (st : List (GStep Q)) (t : ℕ) : Prop :=
  ∀ ms : List (Move Q), ms.length ≤ t → (∀ m ∈ ms, m.Valid st) → (∀ j, (ms.map (Move.flagFlip st j)).sum = 0) →
    Small st ms ms.length

theorem small_nil (st : List (GStep Q)) : Small st [] 0 := ⟨0, [], by simp, by simp, by simp⟩

theorem small_loc (st : List (GStep Q)) (q : Q) : Small st [.loc q] 1 :=
  ⟨0, [q], by simp, by simp [Move.locals], by simp [Move.data]⟩

theorem Small.cons_loc {st : List (GStep Q)} {ms : List (Move Q)} {r : ℕ} (h : Small st ms r) (q : Q) :
    Small st (.loc q :: ms) (r + 1) := by
  obtain ⟨c, T, h1, h2, h3⟩ := h
  refine ⟨c, q :: T, by simpa using h1, ?_, ?_⟩
  · intro m hm q' hq'
    rcases List.mem_cons.mp hm with rfl | hm
    · simp only [Move.locals, List.mem_singleton] at hq'
      simp [hq']
    · exact List.mem_cons_of_mem _ (h2 m hm q' hq')
  · intro p hp
    refine List.mem_cons_of_mem _ (h3 p ?_)
    simpa [Move.data] using hp

theorem Small.swap {st : List (GStep Q)} {m m' : Move Q} {r : ℕ} (h : Small st [m, m'] r) : Small st [m', m] r := by
  obtain ⟨c, T, h1, h2, h3⟩ := h
  refine ⟨c, T, h1, fun m'' hm => h2 m'' (by simp at hm ⊢; tauto), fun p hp => h3 p ?_⟩
  simp only [List.map_cons, List.map_nil, List.sum_cons, List.sum_nil, add_zero] at hp ⊢
  rwa [add_comm (m.data st p)]

/-- The one-flag gadget tolerates one fault. -/
theorem good_one (s0 : Q) (mid : List Q) (last : Q) :
    Good ([GStep.data s0, .opn 0] ++ (mid.map GStep.data ++ [.close 0, .data last])) 1 := by
  intro ms hlen hval hfl
  match ms, hlen with
  | [], _ => exact small_nil _
  | [.loc q], _ => exact small_loc _ q
  | [.flip i], _ =>
    have := hfl i
    simp [Move.flagFlip] at this
  | [.hook k b], _ =>
    set st := [GStep.data s0, .opn 0] ++ (mid.map GStep.data ++ [.close 0, .data last]) with hst
    have hflag := hfl 0
    simp only [List.map_cons, List.map_nil, List.sum_cons, List.sum_nil, add_zero, Move.flagFlip] at hflag
    have hk : k ≤ st.length := hval (.hook k b) (by simp)
    have hlen' : st.length = mid.length + 4 := by simp [hst]
    have hdat : dataOf st = s0 :: (mid ++ [last]) := by
      rw [hst, dataOf_append, dataOf_append, dataOf_map_data]; rfl
    have h2 : ∀ a : ZMod 2, a + a = 0 := by decide
    match k with
    | 0 =>
      refine ⟨1, [], by simp, ?_, ?_⟩
      · simp [Move.locals, lastStep]
      · intro p hp
        exact absurd (by simp [Move.data, h2]) hp
    | 1 =>
      refine ⟨1, [s0], by simp, ?_, ?_⟩
      · simp [Move.locals, lastStep, hst]
      · intro p hp
        by_contra hne
        apply hp
        have hne : s0 ≠ p := fun h => hne (by simp [h])
        have e : dataOf (st.drop 1) = mid ++ [last] := by
          rw [hst]
          show dataOf ([GStep.opn 0] ++ (mid.map GStep.data ++ [.close 0, .data last])) = _
          rw [dataOf_append, dataOf_append, dataOf_map_data]; rfl
        simp only [List.map_cons, List.map_nil, List.sum_cons, List.sum_nil, add_zero, Move.data, e, hdat, List.count_cons, one_mul]
        rw [if_neg (by simpa using hne), add_zero]
        exact h2 _
    | 2 =>
      refine ⟨1, [s0], by simp, ?_, ?_⟩
      · simp [Move.locals, lastStep, hst]
      · intro p hp
        by_contra hne
        apply hp
        have hne : s0 ≠ p := fun h => hne (by simp [h])
        have e : dataOf (st.drop 2) = mid ++ [last] := by
          rw [hst]
          show dataOf (mid.map GStep.data ++ [.close 0, .data last]) = _
          rw [dataOf_append, dataOf_map_data]; rfl
        simp only [List.map_cons, List.map_nil, List.sum_cons, List.sum_nil, add_zero, Move.data, e, hdat, List.count_cons, one_mul]
        rw [if_neg (by simpa using hne), add_zero]
        exact h2 _
    | k + 3 =>
      have hdrop : st.drop (k + 3) = (mid.drop (k + 1)).map GStep.data ++ (([GStep.close 0, GStep.data last] : List (GStep Q)).drop (k + 1 - mid.length)) := by
        rw [hst]
        show (mid.map GStep.data ++ [GStep.close 0, GStep.data last]).drop (k + 1) = _
        rw [List.drop_append, List.length_map, List.map_drop]
      have hcnt : ∀ l : List Q, (l.map GStep.data).countP (onFlag 0) = 0 := by
        intro l
        rw [List.countP_eq_zero]
        intro g hg
        obtain ⟨q, -, rfl⟩ := List.mem_map.mp hg
        simp [onFlag]
      by_cases h1 : k < mid.length
      · exfalso
        have hl : lastStep st (k + 3) = some (.data mid[k]) := by
          simp only [lastStep, hst]
          rw [if_neg (by omega)]
          show (mid.map GStep.data ++ [GStep.close 0, GStep.data last])[k]? = _
          rw [List.getElem?_append_left (by simpa using h1)]
          simp [h1]
        rw [hl, hdrop, show k + 1 - mid.length = 0 by omega, List.countP_append, hcnt] at hflag
        simp [onFlag] at hflag
      · have hk' : k = mid.length ∨ k = mid.length + 1 := by omega
        refine ⟨0, [last], by simp, ?_, ?_⟩
        · rcases hk' with rfl | rfl
          · have hl : lastStep st (mid.length + 3) = some (.close 0) := by
              simp only [lastStep, hst]
              rw [if_neg (by omega)]
              show (mid.map GStep.data ++ [GStep.close 0, GStep.data last])[mid.length]? = _
              rw [List.getElem?_append_right (by simp)]
              simp
            simp [Move.locals, hl]
          · have hl : lastStep st (mid.length + 1 + 3) = some (.data last) := by
              simp only [lastStep, hst]
              rw [if_neg (by omega)]
              show (mid.map GStep.data ++ [GStep.close 0, GStep.data last])[mid.length + 1]? = _
              rw [List.getElem?_append_right (by simp)]
              simp
            simp [Move.locals, hl]
        · intro p hp
          by_contra hne
          apply hp
          have hne : last ≠ p := fun h => hne (by simp [h])
          have e : dataOf (st.drop (k + 3)) = [last] ∨ dataOf (st.drop (k + 3)) = [] := by
            rw [hdrop, List.drop_eq_nil_of_le (by omega : mid.length ≤ k + 1)]
            rcases hk' with rfl | rfl
            · left; rw [show mid.length + 1 - mid.length = 1 by omega]; rfl
            · right; rw [show mid.length + 1 + 1 - mid.length = 2 by omega]; rfl
          rcases e with e | e <;> simp [Move.data, e, hne]

/-! ## Closed sequences -/

/-- Rename the qubits of a step. -/
def GStep.map {A B : Type} (f : A → B) : GStep A → GStep B
  | .data q => .data (f q)
  | .opn j => .opn j
  | .close j => .close j

section
variable {w : ℕ}

/-- The hook and flip part of `Small`, decidable. -/
def okSet (st : List (GStep (Fin w))) (ms : List (Move (Fin w))) (r : ℕ) : Bool :=
  [0, 1].any fun c : ZMod 2 =>
    decide (((ms.flatMap fun m => m.locals st) ++ (List.finRange w).filter fun p =>
      (ms.map (Move.data st p)).sum + c * ((dataOf st).count p : ZMod 2) ≠ 0).dedup.length ≤ r)

theorem okSet_small {st : List (GStep (Fin w))} {ms : List (Move (Fin w))} {r : ℕ} (h : okSet st ms r = true) :
    Small st ms r := by
  unfold okSet at h
  rw [List.any_eq_true] at h
  obtain ⟨c, -, hc⟩ := h
  refine ⟨c, _, of_decide_eq_true hc, ?_, ?_⟩
  · intro m hm q hq
    rw [List.mem_dedup, List.mem_append, List.mem_flatMap]
    exact .inl ⟨m, hm, hq⟩
  · intro p hp
    rw [List.mem_dedup, List.mem_append, List.mem_filter]
    exact .inr ⟨List.mem_finRange p, by simpa using hp⟩

/-- All checks for two faults on a closed sequence with `nF` flags. -/
def check2 (nF : ℕ) (st : List (GStep (Fin w))) : Bool :=
  (List.range (st.length + 1)).all fun k => [true, false].all fun b =>
    ((!(List.range nF).all fun j => Move.flagFlip st j (.hook k b) = 0) || okSet st [.hook k b] 1) &&
    ((List.range nF).all fun i => (!(List.range nF).all fun j => j = i || Move.flagFlip st j (.hook k b) = 0) ||
      okSet st [.hook k b] 2) &&
    ((List.range (st.length + 1)).all fun k' => [true, false].all fun b' =>
      (!(List.range nF).all fun j => Move.flagFlip st j (.hook k b) + Move.flagFlip st j (.hook k' b') = 0) ||
        okSet st [.hook k b, .hook k' b'] 2)

variable (f : Fin w → Q)

omit [DecidableEq Q] in
theorem dataOf_map (st : List (GStep (Fin w))) : dataOf (st.map (GStep.map f)) = (dataOf st).map f := by
  induction st with
  | nil => rfl
  | cons g st ih => cases g <;> simp [dataOf, GStep.map] at ih ⊢ <;> exact ih

omit [DecidableEq Q] in
theorem countP_map (st : List (GStep (Fin w))) (j : ℕ) : (st.map (GStep.map f)).countP (onFlag j) = st.countP (onFlag j) := by
  rw [List.countP_map]
  congr 1
  funext g
  cases g <;> rfl

omit [DecidableEq Q] in
theorem lastStep_map (st : List (GStep (Fin w))) (k : ℕ) :
    lastStep (st.map (GStep.map f)) k = (lastStep st k).map (GStep.map f) := by
  unfold lastStep
  split <;> simp

omit [DecidableEq Q] in
theorem flagFlip_map (st : List (GStep (Fin w))) (j k : ℕ) (b : Bool) :
    Move.flagFlip (st.map (GStep.map f)) j (.hook k b) = Move.flagFlip st j (.hook k b) := by
  simp only [Move.flagFlip, lastStep_map, ← List.map_drop, countP_map]
  congr 2
  cases lastStep st k with
  | none => rfl
  | some g => cases g <;> rfl

/-- Hooks of a closed sequence, renamed. -/
theorem small_map (hf : Function.Injective f) (st : List (GStep (Fin w))) (ks : List (ℕ × Bool)) (r : ℕ)
    (h : Small st (ks.map fun k => .hook k.1 k.2) r) :
    Small (st.map (GStep.map f)) (ks.map fun k => .hook k.1 k.2) r := by
  obtain ⟨c, T, h1, h2, h3⟩ := h
  refine ⟨c, T.map f, by simpa using h1, ?_, ?_⟩
  · intro m hm q hq
    obtain ⟨k, hk, rfl⟩ := List.mem_map.mp hm
    simp only [Move.locals, lastStep_map] at hq
    have h2' := h2 (.hook k.1 k.2) (List.mem_map.mpr ⟨k, hk, rfl⟩)
    simp only [Move.locals] at h2'
    cases hl : lastStep st k.1 with
    | none => rw [hl] at hq; simp at hq
    | some g =>
      rw [hl] at hq h2'
      cases g with
      | data i =>
        simp only [Option.map_some, GStep.map, List.mem_singleton] at hq
        subst hq
        exact List.mem_map.mpr ⟨i, h2' i (by simp), rfl⟩
      | opn j => simp [GStep.map] at hq
      | close j => simp [GStep.map] at hq
  · intro p hp
    by_cases hpf : ∃ i, f i = p
    · obtain ⟨i, rfl⟩ := hpf
      refine List.mem_map.mpr ⟨i, h3 i ?_, rfl⟩
      convert hp using 3
      · rw [List.map_map, List.map_map]
        congr 1
        funext k
        simp only [Function.comp, Move.data, ← List.map_drop, dataOf_map]
        rw [List.count_map_of_injective _ f hf]
      · rw [dataOf_map, List.count_map_of_injective _ f hf]
    · exfalso
      have hn : ∀ l : List (Fin w), (l.map f).count p = 0 := by
        intro l
        rw [List.count_eq_zero]
        intro h
        obtain ⟨i, -, hi⟩ := List.mem_map.mp h
        exact hpf ⟨i, hi⟩
      apply hp
      have e : ((ks.map fun k => Move.hook (Q := Q) k.1 k.2).map (Move.data (st.map (GStep.map f)) p)).sum = 0 := by
        rw [List.map_map]
        refine List.sum_eq_zero fun x hx => ?_
        obtain ⟨k, -, rfl⟩ := List.mem_map.mp hx
        simp only [Function.comp, Move.data, ← List.map_drop, dataOf_map, hn, Nat.cast_zero]
      rw [e, dataOf_map, hn]
      simp

theorem good_two (hf : Function.Injective f) (nF : ℕ) (st : List (GStep (Fin w))) (h : check2 nF st = true)
    (hnF : ∀ j, nF ≤ j → st.countP (onFlag j) = 0) : Good (st.map (GStep.map f)) 2 := by
  unfold check2 at h
  rw [List.all_eq_true] at h
  have hhook : ∀ k b, k ≤ st.length →
      ((∀ j, Move.flagFlip st j (.hook k b) = 0) → Small st [.hook k b] 1) ∧
      (∀ i < nF, (∀ j, j ≠ i → Move.flagFlip st j (.hook k b) = 0) → Small st [.hook k b] 2) ∧
      (∀ k' b', k' ≤ st.length → (∀ j, Move.flagFlip st j (.hook k b) + Move.flagFlip st j (.hook k' b') = 0) →
        Small st [.hook k b, .hook k' b'] 2) := by
    intro k b hk
    have h1 := h k (by simp; omega)
    rw [List.all_eq_true] at h1
    have h2 := h1 b (by cases b <;> simp)
    rw [Bool.and_eq_true, Bool.and_eq_true] at h2
    obtain ⟨⟨a1, a2⟩, a3⟩ := h2
    refine ⟨fun hz => ?_, fun i hi hz => ?_, fun k' b' hk' hz => ?_⟩
    · rw [Bool.or_eq_true] at a1
      rcases a1 with a1 | a1
      · simp only [Bool.not_eq_true', List.all_eq_false] at a1
        obtain ⟨j, -, hj⟩ := a1
        exact absurd (by simpa using hz j) hj
      · exact okSet_small a1
    · rw [List.all_eq_true] at a2
      have a2 := a2 i (by simpa using hi)
      rw [Bool.or_eq_true] at a2
      rcases a2 with a2 | a2
      · simp only [Bool.not_eq_true', List.all_eq_false] at a2
        obtain ⟨j, -, hj⟩ := a2
        by_cases hji : j = i
        · simp [hji] at hj
        · exact absurd (by simpa [hji] using hz j hji) hj
      · exact okSet_small a2
    · rw [List.all_eq_true] at a3
      have a3 := a3 k' (by simp; omega)
      rw [List.all_eq_true] at a3
      have a3 := a3 b' (by cases b' <;> simp)
      rw [Bool.or_eq_true] at a3
      rcases a3 with a3 | a3
      · simp only [Bool.not_eq_true', List.all_eq_false] at a3
        obtain ⟨j, -, hj⟩ := a3
        exact absurd (by simpa using hz j) hj
      · exact okSet_small a3
  have hnone : ∀ j k b, nF ≤ j → Move.flagFlip st j (.hook k b) = 0 := by
    intro j k b hj
    have h0 := hnF j hj
    rw [List.countP_eq_zero] at h0
    have h1 : (st.drop k).countP (onFlag j) = 0 := by
      rw [List.countP_eq_zero]
      exact fun g hg => h0 g (List.mem_of_mem_drop hg)
    have h2 : (lastStep st k).any (onFlag j) = false := by
      unfold lastStep
      split
      · rfl
      · cases hs : st[k - 1]? with
        | none => rfl
        | some g =>
          have := h0 g (List.mem_of_getElem? hs)
          simpa using this
    simp [Move.flagFlip, h1, h2]
  have hb : ∀ a : ZMod 2, a = 0 ∨ a = 1 := by decide
  have h11 : (1 : ZMod 2) + 1 = 0 := rfl
  intro ms hlen hval hfl
  have one : ∀ m : Move Q, m.Valid (st.map (GStep.map f)) → (∀ j, m.flagFlip (st.map (GStep.map f)) j = 0) →
      Small (st.map (GStep.map f)) [m] 1 := by
    intro m hm hz
    cases m with
    | loc q => exact small_loc _ q
    | flip i => have := hz i; simp [Move.flagFlip] at this
    | hook k b =>
      simp only [flagFlip_map] at hz
      exact small_map f hf st [(k, b)] 1 ((hhook k b (by simpa [Move.Valid] using hm)).1 hz)
  have flipHook : ∀ i k b, k ≤ st.length →
      (∀ j, Move.flagFlip (st.map (GStep.map f)) j (.flip i) + Move.flagFlip (st.map (GStep.map f)) j (.hook k b) = 0) →
      Small (st.map (GStep.map f)) [.flip i, .hook k b] 2 := by
    intro i k b hk hz
    simp only [flagFlip_map] at hz
    have hi : i < nF := by
      by_contra hi
      have := hz i
      rw [hnone i k b (by omega)] at this
      simp [Move.flagFlip] at this
    have hs := small_map f hf st [(k, b)] 2 ((hhook k b hk).2.1 i hi fun j hj => by
      have := hz j
      simpa [Move.flagFlip, Ne.symm hj] using this)
    obtain ⟨c, T, h1, h2, h3⟩ := hs
    refine ⟨c, T, h1, ?_, ?_⟩
    · intro m hm q hq
      simp only [List.mem_cons, List.not_mem_nil, or_false] at hm
      rcases hm with rfl | rfl
      · simp [Move.locals] at hq
      · exact h2 _ (by simp) q hq
    · intro p hp
      refine h3 p ?_
      simpa [Move.data] using hp
  match ms, hlen with
  | [], _ => exact small_nil _
  | [m], _ => exact one m (hval m (by simp)) fun j => by simpa using hfl j
  | [m, m'], _ =>
    have hv := hval m (by simp)
    have hv' := hval m' (by simp)
    have hz : ∀ j, m.flagFlip (st.map (GStep.map f)) j + m'.flagFlip (st.map (GStep.map f)) j = 0 := fun j => by
      simpa using hfl j
    cases m with
    | loc q => exact (one m' hv' fun j => by simpa [Move.flagFlip] using hz j).cons_loc q
    | flip i =>
      cases m' with
      | loc q =>
        have := hz i
        simp [Move.flagFlip] at this
      | flip i' =>
        exact ⟨0, [], by simp, by simp [Move.locals], by simp [Move.data]⟩
      | hook k b => exact flipHook i k b (by simpa [Move.Valid] using hv') hz
    | hook k b =>
      cases m' with
      | loc q => exact ((one _ hv fun j => by simpa [Move.flagFlip] using hz j).cons_loc q).swap
      | flip i => exact (flipHook i k b (by simpa [Move.Valid] using hv) fun j => by rw [add_comm]; exact hz j).swap
      | hook k' b' =>
        simp only [flagFlip_map] at hz
        exact small_map f hf st [(k, b), (k', b')] 2
          ((hhook k b (by simpa [Move.Valid] using hv)).2.2 k' b' (by simpa [Move.Valid] using hv') hz)

end

theorem check_0 : check2 0 ([] : List (GStep (Fin 0))) = true := by decide +kernel
theorem check_1 : check2 0 ([.data 0] : List (GStep (Fin 1))) = true := by decide +kernel
theorem check_2 : check2 0 ([.data 0, .data 1] : List (GStep (Fin 2))) = true := by decide +kernel
theorem check_4 : check2 1 (steps4 (0 : Fin 4) 1 2 3) = true := by decide +kernel
theorem check_5 : check2 2 (steps5 (0 : Fin 5) 1 2 3 4) = true := by decide +kernel
theorem check_6 : check2 2 (steps6 (0 : Fin 6) 1 2 3 4 5) = true := by decide +kernel
theorem check_8 : check2 3 (steps8 (0 : Fin 8) 1 2 3 4 5 6 7) = true := by decide +kernel

/-- Every sequence used by `measure_flagged` tolerates the faults it is meant for. -/
theorem stepsOf_good (t : ℕ) (stab : List Q) (st : List (GStep Q)) (h : stepsOf t stab = some st)
    (hw : t = 1 → 2 ≤ stab.length) (hnd : stab.Nodup) : Good st t := by
  have hinj : Function.Injective stab.get := List.nodup_iff_injective_get.mp hnd
  unfold stepsOf at h
  by_cases h1 : t = 1
  · subst h1
    simp only [if_true] at h
    cases stab with
    | nil => simp at h
    | cons s0 rest =>
      simp only [Option.some.injEq] at h
      subst h
      exact good_one s0 rest.dropLast (rest.getLastD s0)
  · by_cases h2 : t = 2
    · subst h2
      simp only [h1, if_false, if_true] at h
      have hn : ∀ {w : ℕ} (nF : ℕ) (l : List (GStep (Fin w))), (l.all fun g => match g with
          | .data _ => true | .opn i => decide (i < nF) | .close i => decide (i < nF)) = true →
          ∀ j, nF ≤ j → l.countP (onFlag j) = 0 := by
        intro w nF l hl j hj
        rw [List.countP_eq_zero]
        intro g hg
        rw [List.all_eq_true] at hl
        have := hl g hg
        cases g with
        | data q => simp [onFlag]
        | opn i => simp only [decide_eq_true_eq] at this; simp [onFlag]; omega
        | close i => simp only [decide_eq_true_eq] at this; simp [onFlag]; omega
      split at h
      · simp only [Option.some.injEq] at h
        subst h
        exact good_two (w := 0) (fun i => i.elim0) (fun i => i.elim0) 0 [] check_0 (hn 0 _ rfl)
      · simp only [Option.some.injEq] at h
        subst h
        exact good_two (List.get [_]) hinj 0 [.data 0] check_1 (hn 0 _ rfl)
      · simp only [Option.some.injEq] at h
        subst h
        exact good_two (List.get [_, _]) hinj 0 [.data 0, .data 1] check_2 (hn 0 _ rfl)
      · simp only [Option.some.injEq] at h
        subst h
        exact good_two (List.get [_, _, _, _]) hinj 1 _ check_4 (hn 1 _ rfl)
      · simp only [Option.some.injEq] at h
        subst h
        exact good_two (List.get [_, _, _, _, _]) hinj 2 _ check_5 (hn 2 _ rfl)
      · simp only [Option.some.injEq] at h
        subst h
        exact good_two (List.get [_, _, _, _, _, _]) hinj 2 _ check_6 (hn 2 _ rfl)
      · simp only [Option.some.injEq] at h
        subst h
        exact good_two (List.get [_, _, _, _, _, _, _, _]) hinj 3 _ check_8 (hn 3 _ rfl)
      · simp at h
    · simp [h1, h2] at h

end Verif.SP
