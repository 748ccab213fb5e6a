import Verif.Lemmas.GadgetSeq
import Verif.LinalgLemmas

/-! # C36: verification circuits measure every requested stabilizer -/

namespace Verif.SP
open Verif Verif.Spec

variable {n : ℕ} {R : Type} [CommRing R]

/-- Measurement of the `i`-th X stabilizer. -/
def measX (flags : Bool) (t : ℕ) (p : Vec n × ℕ) : Meas VQ VC where
  z := false
  supp := supp p.1
  anc := .xanc p.2
  bit := .xc p.2
  flags := if flags then (List.range (numFlags t (supp p.1).length)).map (.xflag p.2) else []
  fbits := if flags then (List.range (numFlags t (supp p.1).length)).map (.xf p.2) else []

/-- Measurement of the `i`-th Z stabilizer. -/
def measZ (flags : Bool) (t : ℕ) (p : Vec n × ℕ) : Meas VQ VC where
  z := true
  supp := supp p.1
  anc := .zanc p.2
  bit := .zc p.2
  flags := if flags then (List.range (numFlags t (supp p.1).length)).map (.zflag p.2) else []
  fbits := if flags then (List.range (numFlags t (supp p.1).length)).map (.zf p.2) else []

/-- The measurements asked for: first those detecting the errors of the prepared state (Z
stabilizers for |0⟩), without flags, then the other ones with flags. -/
def wanted (zeroState : Bool) (t : ℕ) (full : Bool) (xms zms : List (Vec n)) : List (Meas VQ VC) :=
  if zeroState then zms.zipIdx.map (measZ false t) ++ (if full then xms.zipIdx.map (measX true t) else [])
  else xms.zipIdx.map (measX false t) ++ (if full then zms.zipIdx.map (measZ true t) else [])

theorem mapM_ok_forall₂ {α β ε : Type} (f : α → Except ε β) : ∀ (l : List α) (bs : List β), l.mapM f = .ok bs →
    List.Forall₂ (fun a b => f a = .ok b) l bs := by
  intro l
  induction l with
  | nil => intro bs h; cases h; exact .nil
  | cons a l ih =>
    intro bs h
    rw [List.mapM_cons] at h
    simp only [bind_eq_ok] at h
    obtain ⟨b, hb, bs', hbs, h⟩ := h
    cases h
    exact .cons hb (ih bs' hbs)

theorem not_mem_supp {m : Vec n} {q : VQ} (h : ∀ i, q ≠ .data i) : q ∉ supp m := by
  intro hq
  simp only [supp, List.mem_map] at hq
  obtain ⟨i, -, rfl⟩ := hq
  exact h _ rfl

theorem realises_of_measures (s : R) (l : List (Instr VQ VC)) (z : Bool) (S : List VQ) (anc : VQ) (mbit : VC)
    (flag : ℕ → VQ) (fbit : ℕ → VC) (nF : ℕ) (h : Measures s l z S anc mbit flag fbit nF) :
    Realises s l ⟨z, S, anc, mbit, (List.range nF).map flag, (List.range nF).map fbit⟩ := by
  intro ψ out hF
  have := h ψ out (hF anc (by simp [Meas.own])) (fun j hj => hF _ (by simp [Meas.own]; exact .inr ⟨j, hj, rfl⟩))
  simp only [Meas.start, Meas.final, List.map_map]
  have e : (List.range nF).map ((fun f => (f, (0 : ZMod 2))) ∘ flag) = flagBits flag nF := rfl
  rw [e, this]
  simp

theorem realises_unflagged_x (s : R) (hs : 2 * s * s = 1) (t : ℕ) (p : Vec n × ℕ) :
    Realises s (measureUnflagged false (supp p.1) (.xanc p.2) (.xc p.2)) (measX false t p) := by
  have := realises_of_measures s _ _ _ _ _ _ _ _ (C34_unflagged s hs false (supp p.1) (.xanc p.2) (VC.xc p.2)
    (.xflag p.2) (.xf p.2) (fun a b h => by simpa using h) (by simp) (not_mem_supp (by simp)))
  exact this

theorem realises_unflagged_z (s : R) (hs : 2 * s * s = 1) (t : ℕ) (p : Vec n × ℕ) :
    Realises s (measureUnflagged true (supp p.1) (.zanc p.2) (.zc p.2)) (measZ false t p) := by
  have := realises_of_measures s _ _ _ _ _ _ _ _ (C34_unflagged s hs true (supp p.1) (.zanc p.2) (VC.zc p.2)
    (.zflag p.2) (.zf p.2) (fun a b h => by simpa using h) (by simp) (not_mem_supp (by simp)))
  exact this

theorem realises_flagged_x (s : R) (hs : 2 * s * s = 1) (t : ℕ) (p : Vec n × ℕ) (hw : t = 1 → 2 ≤ (supp p.1).length)
    (l : List (Instr VQ VC))
    (h : measureFlagged t false (supp p.1) (.xanc p.2) (.xc p.2) (.xflag p.2) (.xf p.2) = .ok l) :
    Realises s l (measX true t p) := by
  have := realises_of_measures s _ _ _ _ _ _ _ _ (C34_gadget_partial s hs t false (supp p.1) (.xanc p.2) (VC.xc p.2)
    (.xflag p.2) (.xf p.2) (fun a b h => by simpa using h) (by simp) (not_mem_supp (by simp))
    (fun j => not_mem_supp (by simp)) hw l h)
  exact this

theorem realises_flagged_z (s : R) (hs : 2 * s * s = 1) (t : ℕ) (p : Vec n × ℕ) (hw : t = 1 → 2 ≤ (supp p.1).length)
    (l : List (Instr VQ VC))
    (h : measureFlagged t true (supp p.1) (.zanc p.2) (.zc p.2) (.zflag p.2) (.zf p.2) = .ok l) :
    Realises s l (measZ true t p) := by
  have := realises_of_measures s _ _ _ _ _ _ _ _ (C34_gadget_partial s hs t true (supp p.1) (.zanc p.2) (VC.zc p.2)
    (.zflag p.2) (.zf p.2) (fun a b h => by simpa using h) (by simp) (not_mem_supp (by simp))
    (fun j => not_mem_supp (by simp)) hw l h)
  exact this

theorem own_x {flags : Bool} {t : ℕ} {p : Vec n × ℕ} {q : VQ} (h : q ∈ (measX flags t p).own) :
    q = .xanc p.2 ∨ ∃ j, q = .xflag p.2 j := by
  simp only [Meas.own, measX, List.mem_cons] at h
  rcases h with h | h
  · exact .inl h
  · right
    split at h
    · simp only [List.mem_map] at h
      obtain ⟨j, -, rfl⟩ := h
      exact ⟨j, rfl⟩
    · simp at h

theorem own_z {flags : Bool} {t : ℕ} {p : Vec n × ℕ} {q : VQ} (h : q ∈ (measZ flags t p).own) :
    q = .zanc p.2 ∨ ∃ j, q = .zflag p.2 j := by
  simp only [Meas.own, measZ, List.mem_cons] at h
  rcases h with h | h
  · exact .inl h
  · right
    split at h
    · simp only [List.mem_map] at h
      obtain ⟨j, -, rfl⟩ := h
      exact ⟨j, rfl⟩
    · simp at h

theorem zipIdx_pairwise {α : Type} (l : List α) (k : ℕ) : (l.zipIdx k).Pairwise fun a b => a.2 ≠ b.2 := by
  induction l generalizing k with
  | nil => simp
  | cons a l ih =>
    rw [List.zipIdx_cons, List.pairwise_cons]
    refine ⟨?_, ih (k + 1)⟩
    intro b hb
    have := List.le_snd_of_mem_zipIdx hb
    simp only
    omega

theorem pairwise_x (flags : Bool) (t : ℕ) (ms : List (Vec n)) :
    (ms.zipIdx.map (measX flags t)).Pairwise fun a b => ∀ q ∈ a.own, q ∉ b.own := by
  rw [List.pairwise_map]
  refine (zipIdx_pairwise ms 0).imp ?_
  intro a b hab q ha hb
  rcases own_x ha with rfl | ⟨j, rfl⟩ <;> rcases own_x hb with h | ⟨j', h⟩ <;> simp_all

theorem pairwise_z (flags : Bool) (t : ℕ) (ms : List (Vec n)) :
    (ms.zipIdx.map (measZ flags t)).Pairwise fun a b => ∀ q ∈ a.own, q ∉ b.own := by
  rw [List.pairwise_map]
  refine (zipIdx_pairwise ms 0).imp ?_
  intro a b hab q ha hb
  rcases own_z ha with rfl | ⟨j, rfl⟩ <;> rcases own_z hb with h | ⟨j', h⟩ <;> simp_all

theorem wanted_cases {zeroState : Bool} {t : ℕ} {full : Bool} {xms zms : List (Vec n)} {g : Meas VQ VC}
    (h : g ∈ wanted zeroState t full xms zms) : ∃ (flags : Bool) (p : Vec n × ℕ), g = measX flags t p ∨ g = measZ flags t p := by
  unfold wanted at h
  split at h
  · rcases List.mem_append.1 h with h | h
    · obtain ⟨p, -, rfl⟩ := List.mem_map.1 h; exact ⟨_, p, .inr rfl⟩
    · split at h
      · obtain ⟨p, -, rfl⟩ := List.mem_map.1 h; exact ⟨_, p, .inl rfl⟩
      · simp at h
  · rcases List.mem_append.1 h with h | h
    · obtain ⟨p, -, rfl⟩ := List.mem_map.1 h; exact ⟨_, p, .inl rfl⟩
    · split at h
      · obtain ⟨p, -, rfl⟩ := List.mem_map.1 h; exact ⟨_, p, .inr rfl⟩
      · simp at h

theorem own_not_data {zeroState : Bool} {t : ℕ} {full : Bool} {xms zms : List (Vec n)} {g : Meas VQ VC}
    (h : g ∈ wanted zeroState t full xms zms) {q : VQ} (hq : q ∈ g.own) : ∀ i, q ≠ .data i := by
  obtain ⟨flags, p, rfl | rfl⟩ := wanted_cases h
  · rcases own_x hq with rfl | ⟨j, rfl⟩ <;> simp
  · rcases own_z hq with rfl | ⟨j, rfl⟩ <;> simp

theorem wanted_pairwise (zeroState : Bool) (t : ℕ) (full : Bool) (xms zms : List (Vec n)) :
    (wanted zeroState t full xms zms).Pairwise fun a b => ∀ q ∈ a.own, q ∉ b.own := by
  unfold wanted
  cases zeroState <;> cases full <;> simp only [Bool.false_eq_true, if_false, if_true, List.append_nil]
  · exact pairwise_x false t xms
  · rw [List.pairwise_append]
    refine ⟨pairwise_x false t xms, pairwise_z true t zms, ?_⟩
    intro a ha b hb q hqa hqb
    obtain ⟨p, -, rfl⟩ := List.mem_map.1 ha
    obtain ⟨p', -, rfl⟩ := List.mem_map.1 hb
    rcases own_x hqa with rfl | ⟨j, rfl⟩ <;> rcases own_z hqb with h | ⟨j', h⟩ <;> simp_all
  · exact pairwise_z false t zms
  · rw [List.pairwise_append]
    refine ⟨pairwise_z false t zms, pairwise_x true t xms, ?_⟩
    intro a ha b hb q hqa hqb
    obtain ⟨p, -, rfl⟩ := List.mem_map.1 ha
    obtain ⟨p', -, rfl⟩ := List.mem_map.1 hb
    rcases own_z hqa with rfl | ⟨j, rfl⟩ <;> rcases own_x hqb with h | ⟨j', h⟩ <;> simp_all

theorem run_wanted (s : R) (out : VC → ZMod 2) (zeroState : Bool) (t : ℕ) (full : Bool) (xms zms : List (Vec n))
    (ls : List (List (Instr VQ VC))) (h : List.Forall₂ (Realises s) ls (wanted zeroState t full xms zms))
    (ψ : State VQ R) (hψ : ∀ q, (∀ i, q ≠ .data i) → Free ψ q) :
    run s out ls.flatten (withBits ((wanted zeroState t full xms zms).flatMap Meas.start) ψ) =
      if ∀ g ∈ wanted zeroState t full xms zms, ∀ c ∈ g.fbits, out c = 0 then
        withBits ((wanted zeroState t full xms zms).flatMap (Meas.final out))
          (projAll (s * s) out (wanted zeroState t full xms zms) ψ)
      else fun _ => 0 := by
  have := run_seq s out (wanted zeroState t full xms zms) ls h [] ψ (wanted_pairwise zeroState t full xms zms)
    (by
      intro g hg g' hg' q hq
      have := own_not_data hg hq
      obtain ⟨flags, p, rfl | rfl⟩ := wanted_cases hg'
      · exact not_mem_supp this
      · exact not_mem_supp this)
    (by simp) (fun g hg q hq => hψ q (own_not_data hg hq))
  rw [List.append_nil, List.append_nil] at this
  exact this

/-- `_measure_ft_stabs` measures exactly the given X and Z stabilizers: for every data state, flags
never fire and the data is projected, in order, onto the eigenspaces named by the outcomes. -/
theorem C36_measure_ft_stabs (s : R) (hs : 2 * s * s = 1) (out : VC → ZMod 2) (zeroState : Bool) (t : ℕ) (full : Bool)
    (xms zms : List (Vec n)) (l : List (Instr VQ VC))
    (hw : t = 1 → ∀ m ∈ (if zeroState then xms else zms), 2 ≤ (supp m).length)
    (h : measureFtStabs zeroState t full xms zms = .ok l)
    (ψ : State VQ R) (hψ : ∀ q, (∀ i, q ≠ .data i) → Free ψ q) :
    run s out l (withBits ((wanted zeroState t full xms zms).flatMap Meas.start) ψ) =
      if ∀ g ∈ wanted zeroState t full xms zms, ∀ c ∈ g.fbits, out c = 0 then
        withBits ((wanted zeroState t full xms zms).flatMap (Meas.final out))
          (projAll (s * s) out (wanted zeroState t full xms zms) ψ)
      else fun _ => 0 := by
  cases zeroState with
  | true =>
    simp only [measureFtStabs, if_true, bind_eq_ok, measureFtZ, Bool.false_eq_true, if_false] at h hw
    obtain ⟨a, ha, b, hb, h⟩ := h
    cases h
    -- the Z part
    have hmap : ∀ (L : List (Vec n × ℕ)), L.mapM (m := Except GadgetError)
        (fun p => .ok ((supp p.1).map fun q => (Instr.cx q (.zanc p.2) : Instr VQ VC))) =
        .ok (L.map fun p => (supp p.1).map fun q => .cx q (.zanc p.2)) := by
      intro L
      induction L with
      | nil => rfl
      | cons p L ih => rw [List.mapM_cons, ih]; rfl
    rw [hmap] at ha
    simp only [Except.map, Except.ok.injEq] at ha
    subst ha
    -- the X part
    have hx : ∃ ls, b = List.flatten ls ∧
        List.Forall₂ (Realises s) ls (if full then xms.zipIdx.map (measX true t) else []) := by
      cases full with
      | false => simp only [whenFull, Bool.false_eq_true, if_false, Except.ok.injEq] at hb ⊢; exact ⟨[], by simp [← hb], .nil⟩
      | true =>
        simp only [whenFull, if_true, measureFtX] at hb ⊢
        cases hm : xms.zipIdx.mapM (m := Except GadgetError) (fun p =>
          measureFlagged t false (supp p.1) (VQ.xanc p.2) (VC.xc p.2) (.xflag p.2) (.xf p.2)) with
        | error e => rw [hm] at hb; simp [Except.map] at hb
        | ok ls =>
          rw [hm] at hb
          simp only [Except.map, Except.ok.injEq] at hb
          refine ⟨ls, hb.symm, ?_⟩
          have hf := mapM_ok_forall₂ _ _ _ hm
          rw [List.forall₂_map_right_iff]
          refine List.Forall₂.flip ?_
          have hmem : ∀ p ∈ xms.zipIdx, p.1 ∈ xms := fun p hp => List.fst_mem_of_mem_zipIdx hp
          have : ∀ (L : List (Vec n × ℕ)) (ls : List (List (Instr VQ VC))), (∀ p ∈ L, p.1 ∈ xms) →
              List.Forall₂ (fun p l => measureFlagged t false (supp p.1) (VQ.xanc p.2) (VC.xc p.2) (.xflag p.2)
                (.xf p.2) = .ok l) L ls → List.Forall₂ (fun p l => Realises s l (measX true t p)) L ls := by
            intro L ls hL hf
            induction hf with
            | nil => exact .nil
            | cons h1 _ ih =>
              exact .cons (realises_flagged_x s hs t _ (fun ht => hw ht _ (hL _ (by simp))) _ h1)
                (ih (fun p hp => hL p (by simp [hp])))
          exact this _ _ hmem hf
    obtain ⟨ls, rfl, hls⟩ := hx
    have hend := measures_at_end s out (zms.zipIdx.map fun p =>
      ((supp p.1).map (fun q => (Instr.cx q (.zanc p.2) : Instr VQ VC)), VQ.zanc p.2, VC.zc p.2))
    have hz : ∀ φ : State VQ R, run s out ((zms.zipIdx.map fun p => (supp p.1).map fun q => Instr.cx q (.zanc p.2)).flatten ++
        (List.range zms.length).map fun i => .measure (.zanc i) (.zc i)) φ =
        run s out (zms.zipIdx.map fun p => measureUnflagged true (supp p.1) (.zanc p.2) (VC.zc p.2)).flatten φ := by
      intro φ
      have hp := hend φ (by
        rw [List.pairwise_map]
        refine (zipIdx_pairwise zms 0).imp ?_
        intro a b hab i hi
        obtain ⟨q, -, rfl⟩ := List.mem_map.1 hi
        exact ⟨q, _, rfl, by simpa using hab.symm⟩)
      rw [List.flatMap_map, List.flatMap_map, List.map_map] at hp
      have e1 : (List.range zms.length).map (fun i => (Instr.measure (.zanc i) (.zc i) : Instr VQ VC)) =
          zms.zipIdx.map ((fun a : List (Instr VQ VC) × VQ × VC => .measure a.2.1 a.2.2) ∘ fun p : Vec n × ℕ =>
            ((supp p.1).map (fun q => (Instr.cx q (.zanc p.2) : Instr VQ VC)), VQ.zanc p.2, VC.zc p.2)) := by
        have : zms.zipIdx.map Prod.snd = List.range zms.length := by
          rw [List.zipIdx_map_snd, List.range_eq_range']
        rw [← this, List.map_map]
        rfl
      rw [e1, ← List.flatMap_def, ← hp, ← List.flatMap_def]
      rfl
    have hfor : List.Forall₂ (Realises s)
        ((zms.zipIdx.map fun p => measureUnflagged true (supp p.1) (.zanc p.2) (VC.zc p.2)) ++ ls)
        (wanted true t full xms zms) := by
      unfold wanted
      simp only [if_true]
      apply List.rel_append
      · rw [List.forall₂_map_left_iff, List.forall₂_map_right_iff]
        exact List.forall₂_same.2 fun p _ => realises_unflagged_z s hs t p
      · exact hls
    have := run_wanted s out true t full xms zms _ hfor ψ hψ
    rw [List.flatten_append, run_append, ← hz, ← run_append] at this
    exact this
  | false =>
    simp only [measureFtStabs, bind_eq_ok, measureFtX, Bool.false_eq_true, if_false] at h hw
    obtain ⟨a, ha, b, hb, h⟩ := h
    cases h
    have hmap : ∀ (L : List (Vec n × ℕ)), L.mapM (m := Except GadgetError)
        (fun p => .ok (measureUnflagged false (supp p.1) (VQ.xanc p.2) (VC.xc p.2))) =
        .ok (L.map fun p => measureUnflagged false (supp p.1) (VQ.xanc p.2) (VC.xc p.2)) := by
      intro L
      induction L with
      | nil => rfl
      | cons p L ih => rw [List.mapM_cons, ih]; rfl
    rw [hmap] at ha
    simp only [Except.map, Except.ok.injEq] at ha
    subst ha
    have hx : ∃ ls, (b = List.flatten ls ++ if full then (List.range zms.length).map fun i => .measure (.zanc i) (.zc i) else []) ∧
        List.Forall₂ (Realises s) ls (if full then zms.zipIdx.map (measZ true t) else []) := by
      cases full with
      | false => simp only [whenFull, Bool.false_eq_true, if_false, Except.ok.injEq] at hb ⊢; exact ⟨[], by simp [← hb], .nil⟩
      | true =>
        simp only [whenFull, if_true, measureFtZ] at hb ⊢
        cases hm : zms.zipIdx.mapM (m := Except GadgetError) (fun p =>
          measureFlagged t true (supp p.1) (VQ.zanc p.2) (VC.zc p.2) (.zflag p.2) (.zf p.2)) with
        | error e => rw [hm] at hb; simp [Except.map] at hb
        | ok ls =>
          rw [hm] at hb
          simp only [Except.map, Except.ok.injEq] at hb
          refine ⟨ls, hb.symm, ?_⟩
          have hf := mapM_ok_forall₂ _ _ _ hm
          rw [List.forall₂_map_right_iff]
          refine List.Forall₂.flip ?_
          have hmem : ∀ p ∈ zms.zipIdx, p.1 ∈ zms := fun p hp => List.fst_mem_of_mem_zipIdx hp
          have : ∀ (L : List (Vec n × ℕ)) (ls : List (List (Instr VQ VC))), (∀ p ∈ L, p.1 ∈ zms) →
              List.Forall₂ (fun p l => measureFlagged t true (supp p.1) (VQ.zanc p.2) (VC.zc p.2) (.zflag p.2)
                (.zf p.2) = .ok l) L ls → List.Forall₂ (fun p l => Realises s l (measZ true t p)) L ls := by
            intro L ls hL hf
            induction hf with
            | nil => exact .nil
            | cons h1 _ ih =>
              exact .cons (realises_flagged_z s hs t _ (fun ht => hw ht _ (hL _ (by simp))) _ h1)
                (ih (fun p hp => hL p (by simp [hp])))
          exact this _ _ hmem hf
    obtain ⟨ls, rfl, hls⟩ := hx
    have hfor : List.Forall₂ (Realises s)
        ((xms.zipIdx.map fun p => measureUnflagged false (supp p.1) (.xanc p.2) (VC.xc p.2)) ++ ls)
        (wanted false t full xms zms) := by
      unfold wanted
      simp only [Bool.false_eq_true, if_false]
      apply List.rel_append
      · rw [List.forall₂_map_left_iff, List.forall₂_map_right_iff]
        exact List.forall₂_same.2 fun p _ => realises_unflagged_x s hs t p
      · exact hls
    have := run_wanted s out false t full xms zms _ hfor ψ hψ
    rw [List.flatten_append] at this
    rw [← List.append_assoc, run_append, this]
    by_cases hall : ∀ g ∈ wanted false t full xms zms, ∀ c ∈ g.fbits, out c = 0
    · rw [if_pos hall]
      cases full with
      | false => rfl
      | true =>
        simp only [if_true]
        have hm := measure_again s out ((List.range zms.length).map fun i => (VQ.zanc i, VC.zc i))
          ((wanted false t true xms zms).flatMap (Meas.final out)) (projAll (s * s) out (wanted false t true xms zms) ψ)
          (by
            intro p hp
            obtain ⟨i, hi, rfl⟩ := List.mem_map.1 hp
            rw [List.mem_range] at hi
            rw [List.mem_flatMap]
            refine ⟨measZ true t (zms[i], i), ?_, by simp [Meas.final, measZ]⟩
            unfold wanted
            simp only [Bool.false_eq_true, if_false, if_true, List.mem_append, List.mem_map]
            right
            exact ⟨(zms[i], i), by rw [List.mem_zipIdx_iff_getElem?]; simp [hi], rfl⟩)
        rw [List.map_map] at hm
        exact hm
    · rw [if_neg hall, run_zero]

/-- The naive circuit measures every X and every Z generator, `reps` times each. -/
theorem C36_naive (s : R) (hs : 2 * s * s = 1) (out : VC → ZMod 2) (zeroState : Bool) (t reps : ℕ)
    (Hx Hz : List (Vec n)) (l : List (Instr VQ VC))
    (hw : t = 1 → ∀ m ∈ (if zeroState then Hx else Hz), 2 ≤ (supp m).length)
    (h : naiveCircuit zeroState t reps Hx Hz = .ok l)
    (ψ : State VQ R) (hψ : ∀ q, (∀ i, q ≠ .data i) → Free ψ q) (gs : List (Meas VQ VC))
    (hgs : gs = wanted zeroState t true (List.replicate reps Hx).flatten (List.replicate reps Hz).flatten) :
    run s out l (withBits (gs.flatMap Meas.start) ψ) =
      (if ∀ g ∈ gs, ∀ c ∈ g.fbits, out c = 0 then
        withBits (gs.flatMap (Meas.final out)) (projAll (s * s) out gs ψ) else fun _ => 0) ∧
    (gs.map fun g => (g.z, g.supp)).Perm
      ((List.replicate reps Hx).flatten.map (fun r => (false, supp r)) ++
        (List.replicate reps Hz).flatten.map fun r => (true, supp r)) := by
  subst hgs
  refine ⟨C36_measure_ft_stabs s hs out zeroState t true _ _ l ?_ h ψ hψ, ?_⟩
  · intro ht m hm
    apply hw ht m
    cases zeroState <;> simp only [Bool.false_eq_true, if_false, if_true, List.mem_flatten, List.mem_replicate] at hm ⊢
    · obtain ⟨L, ⟨-, rfl⟩, hm⟩ := hm; exact hm
    · obtain ⟨L, ⟨-, rfl⟩, hm⟩ := hm; exact hm
  · have key : ∀ (f : Vec n → Bool × List VQ) (L : List (Vec n)), L.zipIdx.map (fun p => f p.1) = L.map f := by
      intro f L
      have := congrArg (List.map f) (List.zipIdx_map_fst 0 L)
      rw [List.map_map] at this
      exact this
    have hx := key (fun r => (false, supp r)) (List.replicate reps Hx).flatten
    have hz := key (fun r => (true, supp r)) (List.replicate reps Hz).flatten
    unfold wanted
    cases zeroState
    · simp only [Bool.false_eq_true, if_false, if_true, List.map_append, List.map_map]
      rw [← hx, ← hz]
      exact List.Perm.refl _
    · simp only [if_true, List.map_append, List.map_map]
      rw [← hx, ← hz]
      exact List.perm_append_comm

/-- Hypotheses met: the four-qubit code, one error to protect against, one repetition. -/
example : ∃ l, naiveCircuit (n := 4) true 1 1 [![1, 1, 1, 1]] [![1, 1, 1, 1]] = .ok l := ⟨_, rfl⟩
example : ∀ m ∈ ([![1, 1, 1, 1]] : List (Vec 4)), 2 ≤ (supp m).length := by decide
example : Free (fun x : VQ → ZMod 2 => if x (.data 0) = x (.data 1) then (1 : ℝ) else 0) (.xanc 3) := by
  intro x v; simp

/-- With three or more errors to protect against, no naive circuit exists as soon as there is a
stabilizer to be measured with flags. -/
theorem C36_violated_three_errors (t reps : ℕ) (ht : 3 ≤ t) (hr : 1 ≤ reps) (Hx Hz : List (Vec n)) (hx : Hx ≠ []) :
    ∃ e, naiveCircuit true t reps Hx Hz = .error e := by
  cases h : naiveCircuit true t reps Hx Hz with
  | error e => exact ⟨e, rfl⟩
  | ok l =>
    exfalso
    simp only [naiveCircuit, measureFtStabs, if_true, bind_eq_ok, whenFull] at h
    obtain ⟨a, -, b, hb, -⟩ := h
    simp only [measureFtX, if_true] at hb
    obtain ⟨r, Hx, rfl⟩ := List.exists_cons_of_ne_nil hx
    obtain ⟨reps, rfl⟩ := Nat.exists_eq_add_of_le' hr
    rw [List.replicate_succ, List.flatten_cons, List.cons_append, List.zipIdx_cons, List.mapM_cons] at hb
    have : measureFlagged t false (supp r) (VQ.xanc 0) (VC.xc 0) (VQ.xflag 0) (VC.xf 0) = .error .notImplemented := by
      unfold measureFlagged
      simp only
      rw [if_neg (by omega), if_neg (by omega), if_neg (by omega), if_neg (by omega), if_neg (by omega),
        if_neg (by omega)]
    simp only [this] at hb
    simp [bind, Except.bind, Except.map] at hb

/-- The full claim and its failure (weight-three generators with two errors also fail, see
`C34_accepts`). -/
def C36_claim : Prop := ∀ (n t : ℕ) (Hx Hz : List (Vec n)) (zeroState : Bool), 1 ≤ t →
  (∀ r ∈ Hx ++ Hz, 2 ≤ (supp r).length) → ∃ l, naiveCircuit zeroState t t Hx Hz = .ok l

theorem C36_violated : ¬ C36_claim := by
  intro h
  obtain ⟨l, hl⟩ := h 4 3 [![1, 1, 1, 1]] [![1, 1, 1, 1]] true (by norm_num) (by decide)
  obtain ⟨e, he⟩ := C36_violated_three_errors (n := 4) 3 3 le_rfl (by norm_num) [![1, 1, 1, 1]] [![1, 1, 1, 1]] (by simp)
  rw [hl] at he
  simp at he

/-- The verified preparation circuit measures exactly the stabilizers of both rounds: those found for
the first error type without flags, those found for the second (with the hook errors of the first
round as additional errors) with flags. -/
theorem C69_verification_circuit (s : R) (hs : 2 * s * s = 1) (out : VC → ZMod 2)
    (stabsFun : Bool → Option (List (Vec n)) → List (List (Vec n))) (zeroState : Bool) (t : ℕ) (full : Bool)
    (l : List (Instr VQ VC)) (h : verificationCircuit stabsFun zeroState t full = .ok l)
    (m1 m2 : List (Vec n)) (hm1 : m1 = (stabsFun zeroState none).flatten)
    (hm2 : m2 = (stabsFun (!zeroState) (some (hookErrors m1))).flatten)
    (hw : t = 1 → ∀ m ∈ m2, 2 ≤ (supp m).length)
    (ψ : State VQ R) (hψ : ∀ q, (∀ i, q ≠ .data i) → Free ψ q) :
    ∃ gs : List (Meas VQ VC),
      (gs.map fun g => (g.z, g.supp)) =
        m1.map (fun m => (zeroState, supp m)) ++ (if full then m2.map fun m => (!zeroState, supp m) else []) ∧
      run s out l (withBits (gs.flatMap Meas.start) ψ) =
        if ∀ g ∈ gs, ∀ c ∈ g.fbits, out c = 0 then
          withBits (gs.flatMap (Meas.final out)) (projAll (s * s) out gs ψ)
        else fun _ => 0 := by
  have key : ∀ (f : Vec n → Bool × List VQ) (L : List (Vec n)), L.zipIdx.map (fun p => f p.1) = L.map f := by
    intro f L
    have := congrArg (List.map f) (List.zipIdx_map_fst 0 L)
    rw [List.map_map] at this
    exact this
  subst hm1
  cases zeroState with
  | true =>
    simp only [verificationCircuit, if_true] at h
    refine ⟨wanted true t full (if full then m2 else []) (stabsFun true none).flatten, ?_, ?_⟩
    · have h1 := key (fun m => (true, supp m)) (stabsFun true none).flatten
      have h2 := key (fun m => (false, supp m)) m2
      cases full <;> simp only [wanted, if_true, if_false, Bool.false_eq_true, List.append_nil, List.map_append,
        List.map_map, Bool.not_true] <;> rw [← h1]
      · rfl
      · rw [← h2]; rfl
    · rw [← hm2] at h
      refine C36_measure_ft_stabs s hs out true t full _ _ l ?_ h ψ hψ
      intro ht m hm
      cases full <;> simp at hm
      exact hw ht m hm
  | false =>
    simp only [verificationCircuit, Bool.false_eq_true, if_false] at h
    refine ⟨wanted false t full (stabsFun false none).flatten (if full then m2 else []), ?_, ?_⟩
    · have h1 := key (fun m => (false, supp m)) (stabsFun false none).flatten
      have h2 := key (fun m => (true, supp m)) m2
      cases full <;> simp only [wanted, if_true, if_false, Bool.false_eq_true, List.append_nil, List.map_append,
        List.map_map, Bool.not_false] <;> rw [← h1]
      · rfl
      · rw [← h2]; rfl
    · rw [← hm2] at h
      refine C36_measure_ft_stabs s hs out false t full _ _ l ?_ h ψ hψ
      intro ht m hm
      cases full <;> simp at hm
      exact hw ht m hm

/-- Hypotheses met: a search function returning the weight-four stabilizer in one layer. -/
example : ∃ l, verificationCircuit (n := 4) (fun _ _ => [[![1, 1, 1, 1]]]) true 1 true = .ok l := ⟨_, rfl⟩

/-! ### Hook errors -/

/-- What a single fault on the ancilla of an unflagged measurement leaves on the data, when the CNOTs
are executed in ascending order of qubit index: the qubits of the support from some index on. -/
def isHookError (stab e : Vec n) : Prop := ∃ k : ℕ, ∀ i : Fin n, e i = if k ≤ i.val then stab i else 0

/-- The claim of the docstring: every hook error of a measured stabilizer is returned, up to the
stabilizer itself and errors of weight at most one. -/
def C70_claim : Prop := ∀ (n : ℕ) (stabs : List (Vec n)), ∀ s ∈ stabs, ∀ e, isHookError s e →
  e ∈ hookErrors stabs ∨ e + s ∈ hookErrors stabs ∨ wt e ≤ 1 ∨ wt (e + s) ≤ 1

/-- What is returned: the stabilizers with one qubit of the support left out. -/
theorem C70_exact (stabs : List (Vec n)) (e : Vec n) :
    e ∈ hookErrors stabs ↔ ∃ s ∈ stabs, ∃ i, s i = 1 ∧ e = Function.update s i 0 := by
  simp only [hookErrors, List.mem_flatMap, List.mem_map, List.mem_filter, List.mem_finRange, true_and,
    decide_eq_true_eq]
  constructor
  · rintro ⟨s, hs, i, hi, rfl⟩; exact ⟨s, hs, i, hi, rfl⟩
  · rintro ⟨s, hs, i, hi, rfl⟩; exact ⟨s, hs, i, hi, rfl⟩

/-- The returned errors are all equivalent to a single-qubit error, hence harmless: the additional
faults passed to the second verification round never need detection. -/
theorem C70_returned_trivial (stabs : List (Vec n)) (e : Vec n) (he : e ∈ hookErrors stabs) :
    ∃ s ∈ stabs, wt (e + s) = 1 := by
  obtain ⟨s, hs, i, hi, rfl⟩ := (C70_exact stabs e).1 he
  refine ⟨s, hs, ?_⟩
  have : Function.update s i 0 + s = Pi.single i 1 := by
    funext j
    by_cases hj : j = i
    · subst hj; simp [hi]
    · simp [hj, add_self_eq_zero']
  rw [this]
  simp [wt, Pi.single_apply, Finset.filter_eq']

/-- The weight-two hook error of a weight-four stabilizer is not returned. -/
theorem C70_violated : ¬ C70_claim := by
  intro h
  have := h 4 [![1, 1, 1, 1]] ![1, 1, 1, 1] (by simp) ![0, 0, 1, 1] ⟨2, by decide⟩
  revert this
  decide +kernel

end Verif.SP
