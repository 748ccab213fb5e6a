import Verif.Lemmas.PrepFaults
import Verif.Props.VerifCircuit

/-! # Frames through the first round of verification -/

namespace Verif.SP
open Verif Verif.Spec
variable {n : ℕ}

/-- The result bit and the ancilla of the first round. -/
def rbit (z : Bool) (i : ℕ) : VC := if z then .zc i else .xc i
def ranc (z : Bool) (i : ℕ) : VQ := if z then .zanc i else .xanc i

/-- The instructions of the first round. -/
def firstRound (z : Bool) (ms : List (Vec n)) : List (Instr VQ VC) :=
  if z then (ms.zipIdx.map fun p => (supp p.1).map fun q => .cx q (.zanc p.2)).flatten ++
    (List.range ms.length).map fun i => .measure (.zanc i) (.zc i)
  else (ms.zipIdx.map fun p => measureUnflagged false (supp p.1) (.xanc p.2) (.xc p.2)).flatten

theorem verificationCircuit_first (stabsFun : Bool → Option (List (Vec n)) → List (List (Vec n))) (z : Bool) (t : ℕ) :
    verificationCircuit stabsFun z t false = .ok (firstRound z (stabsFun z none).flatten) := by
  cases z with
  | true =>
    have hmap : ∀ (L : List (Vec n × ℕ)), L.mapM (m := Except GadgetError)
        (fun p => .ok ((supp p.1).map fun q => (Instr.cx q (.zanc p.2) : Instr VQ VC))) =
        .ok (L.map fun p => (supp p.1).map fun q => .cx q (.zanc p.2)) := by
      intro L
      induction L with
      | nil => rfl
      | cons p L ih => rw [List.mapM_cons, ih]; rfl
    simp only [verificationCircuit, measureFtStabs, measureFtZ, whenFull, firstRound, Bool.false_eq_true, if_true, if_false, hmap]
    simp [Except.map, bind, Except.bind]
  | false =>
    have hmap : ∀ (L : List (Vec n × ℕ)), L.mapM (m := Except GadgetError)
        (fun p => .ok (measureUnflagged false (supp p.1) (VQ.xanc p.2) (VC.xc p.2))) =
        .ok (L.map fun p => measureUnflagged false (supp p.1) (VQ.xanc p.2) (VC.xc p.2)) := by
      intro L
      induction L with
      | nil => rfl
      | cons p L ih => rw [List.mapM_cons, ih]; rfl
    simp only [verificationCircuit, measureFtStabs, measureFtX, whenFull, firstRound, Bool.false_eq_true, if_false, hmap]
    simp [Except.map, bind, Except.bind]

/-- The instructions of the first round. -/
theorem mem_firstRound {z : Bool} {ms : List (Vec n)} {i : Instr VQ VC} (h : i ∈ firstRound z ms) :
    (∃ k, i = .h (ranc z k) ∧ z = false) ∨
    (∃ k, ∃ j : Fin n, i = if z then .cx (.data j) (ranc z k) else .cx (ranc z k) (.data j)) ∨
    ∃ k, i = .measure (ranc z k) (rbit z k) := by
  cases z
  · simp only [firstRound, Bool.false_eq_true, if_false, List.mem_flatten, List.mem_map] at h
    obtain ⟨l, ⟨p, hp, rfl⟩, hi⟩ := h
    simp only [measureUnflagged, Bool.false_eq_true, if_false, List.mem_append, List.mem_singleton, List.mem_map, supp,
      List.mem_filter] at hi
    rcases hi with ((rfl | ⟨q, ⟨j, -, rfl⟩, rfl⟩) | rfl) | rfl
    · exact .inl ⟨p.2, rfl, rfl⟩
    · exact .inr (.inl ⟨p.2, j, rfl⟩)
    · exact .inl ⟨p.2, rfl, rfl⟩
    · exact .inr (.inr ⟨p.2, rfl⟩)
  · simp only [firstRound, if_true, List.mem_append, List.mem_flatten, List.mem_map] at h
    rcases h with ⟨l, ⟨p, hp, rfl⟩, hi⟩ | ⟨k, hk, rfl⟩
    · simp only [supp, List.mem_map] at hi
      obtain ⟨q, ⟨j, -, rfl⟩, rfl⟩ := hi
      exact .inr (.inl ⟨p.2, j, rfl⟩)
    · exact .inr (.inr ⟨k, rfl⟩)

theorem ranc_ne_data (z : Bool) (k i : ℕ) : ranc z k ≠ .data i := by cases z <;> simp [ranc]

/-- The first round does not change the kind of error it detects. -/
theorem tp_firstRound_step {z : Bool} {ms : List (Vec n)} {i : Instr VQ VC} (h : i ∈ firstRound z ms) (F : Frame VQ VC) :
    tp n z (frameStep F i) = tp n z F := by
  rcases mem_firstRound h with ⟨k, rfl, rfl⟩ | ⟨k, j, rfl⟩ | ⟨k, rfl⟩
  · funext m; simp [tp, frameStep, Finsupp.single_apply, ranc]
  · funext m; cases z <;> simp [tp, frameStep, Finsupp.single_apply, ranc]
  · rfl

theorem tp_firstRound {z : Bool} {ms : List (Vec n)} (l : List (Instr VQ VC)) (h : ∀ i ∈ l, i ∈ firstRound z ms)
    (F : Frame VQ VC) : tp n z (prop l F) = tp n z F := by
  induction l generalizing F with
  | nil => rfl
  | cons i l ih => rw [prop_cons, ih fun j hj => h j (by simp [hj]), tp_firstRound_step (h i (by simp))]

/-- A fault of the first round has at most one error of this kind. -/
theorem firstRound_fault {z : Bool} {ms : List (Vec n)} {i : Instr VQ VC} (h : i ∈ firstRound z ms) (P : PauliErr VQ)
    (hP : FaultAt i P) : wt (tp n z (P, 0)) ≤ 1 := by
  have hone : (∃ j : Fin n, ∀ k, tp n z (P, 0) k ≠ 0 → k = j) ∨ tp n z (P, 0) = 0 := by
    have hact : ∀ k, tp n z (P, 0) k ≠ 0 → P.ActsOn (.data k) := by
      intro k hk
      cases z
      · exact .inr hk
      · exact .inl hk
    have hq : ∃ q, ∀ k : Fin n, tp n z (P, 0) k ≠ 0 → VQ.data k = q := by
      rcases hP with ⟨q, hq⟩ | hq
      · exact ⟨q, fun k hk => hq _ (hact k hk)⟩
      · rcases mem_firstRound h with ⟨k, rfl, rfl⟩ | ⟨k, j, rfl⟩ | ⟨k, rfl⟩
        · exact ⟨ranc false k, fun m hm => by simpa [Instr.qubits] using hq _ (hact m hm)⟩
        · refine ⟨.data j, fun m hm => ?_⟩
          have := hq _ (hact m hm)
          cases z <;> simp [Instr.qubits, ranc] at this <;> simp [this]
        · exact ⟨ranc z k, fun m hm => by simpa [Instr.qubits] using hq _ (hact m hm)⟩
    obtain ⟨q, hq⟩ := hq
    by_cases hd : ∃ j : Fin n, q = .data j
    · obtain ⟨j, rfl⟩ := hd
      exact .inl ⟨j, fun k hk => data_inj.1 (hq k hk)⟩
    · right
      funext k
      by_contra hk
      exact hd ⟨k, (hq k hk).symm⟩
  rcases hone with ⟨j, hj⟩ | h0
  · rcases vec_one _ j hj with h | h
    · rw [h]; simp [wt]
    · rw [h, wt_single]
  · rw [h0]; simp [wt]

theorem supp_sum (m : Vec n) (f : VQ → ZMod 2) : ((supp m).map f).sum = dot m (fun i => f (.data i)) := by
  unfold supp dot
  rw [List.map_map]
  have h : ∀ L : List (Fin n), (List.map (f ∘ fun i : Fin n => VQ.data i) (L.filter fun i => decide (m i ≠ 0))).sum =
      (L.map fun i => m i * f (.data i)).sum := by
    intro L
    induction L with
    | nil => rfl
    | cons a L ih =>
      rw [List.filter_cons, List.map_cons, List.sum_cons, ← ih]
      rcases zmod2_cases (m a) with h | h <;> simp [h]
  rw [h, ← List.ofFn_eq_map, List.sum_ofFn]

theorem prop_cx_to (S : List VQ) (a : VQ) (ha : a ∉ S) (F : Frame VQ VC) :
    (prop (S.map fun q => .cx q a) F).1.1 a = F.1.1 a + (S.map F.1.1).sum ∧
    (∀ p, p ≠ a → (prop (S.map fun q => .cx q a) F).1.1 p = F.1.1 p) ∧ (prop (S.map fun q => .cx q a) F).2 = F.2 := by
  induction S generalizing F with
  | nil => simp [prop]
  | cons q S ih =>
    obtain ⟨h1, h2, h3⟩ := ih (fun h => ha (by simp [h])) (frameStep F (.cx q a))
    rw [List.map_cons, prop_cons]
    refine ⟨?_, ?_, ?_⟩
    · rw [h1, List.map_cons, List.sum_cons]
      have : (S.map (frameStep F (.cx q a)).1.1) = S.map F.1.1 := by
        apply List.map_congr_left
        intro p hp
        have : a ≠ p := fun e => ha (by simp [e, hp])
        simp [frameStep, Finsupp.single_apply, this]
      rw [this]
      simp [frameStep]; ring
    · intro p hp
      rw [h2 p hp]
      simp [frameStep, Finsupp.single_apply, Ne.symm hp]
    · rw [h3]; rfl

theorem prop_cx_from (S : List VQ) (a : VQ) (ha : a ∉ S) (F : Frame VQ VC) :
    (prop (S.map fun q => .cx a q) F).1.2 a = F.1.2 a + (S.map F.1.2).sum ∧
    (prop (S.map fun q => .cx a q) F).1.1 a = F.1.1 a ∧
    (∀ p, p ≠ a → (prop (S.map fun q => .cx a q) F).1.2 p = F.1.2 p) ∧
    (∀ p, p ∉ S → (prop (S.map fun q => .cx a q) F).1.1 p = F.1.1 p) ∧ (prop (S.map fun q => .cx a q) F).2 = F.2 := by
  induction S generalizing F with
  | nil => simp [prop]
  | cons q S ih =>
    obtain ⟨h1, h2, h3, h4, h5⟩ := ih (fun h => ha (by simp [h])) (frameStep F (.cx a q))
    have hqa : q ≠ a := fun e => ha (by simp [e])
    rw [List.map_cons, prop_cons]
    refine ⟨?_, ?_, ?_, ?_, ?_⟩
    · rw [h1, List.map_cons, List.sum_cons]
      have : (S.map (frameStep F (.cx a q)).1.2) = S.map F.1.2 := by
        apply List.map_congr_left
        intro p hp
        have : a ≠ p := fun e => ha (by simp [e, hp])
        simp [frameStep, Finsupp.single_apply, this]
      rw [this]
      simp [frameStep]; ring
    · rw [h2]; simp [frameStep, Finsupp.single_apply, hqa]
    · intro p hp
      rw [h3 p hp]
      simp [frameStep, Finsupp.single_apply, Ne.symm hp]
    · intro p hp
      simp only [List.mem_cons, not_or] at hp
      rw [h4 p hp.2]
      simp [frameStep, Finsupp.single_apply, Ne.symm hp.1]
    · rw [h5]; rfl

/-- The Z stabilizers of a list, before they are read. -/
theorem prop_zcx (L : List (Vec n × ℕ)) (hL : L.Pairwise fun a b => a.2 ≠ b.2) (F : Frame VQ VC) :
    (∀ p ∈ L, (prop (L.map fun p => (supp p.1).map fun q => (.cx q (.zanc p.2) : Instr VQ VC)).flatten F).1.1 (.zanc p.2) =
      F.1.1 (.zanc p.2) + dot p.1 (tp n true F)) ∧
    (∀ q, (∀ p ∈ L, q ≠ .zanc p.2) →
      (prop (L.map fun p => (supp p.1).map fun q => (.cx q (.zanc p.2) : Instr VQ VC)).flatten F).1.1 q = F.1.1 q) ∧
    (prop (L.map fun p => (supp p.1).map fun q => (.cx q (.zanc p.2) : Instr VQ VC)).flatten F).2 = F.2 := by
  induction L generalizing F with
  | nil => simp [prop]
  | cons p L ih =>
    rw [List.pairwise_cons] at hL
    obtain ⟨a1, a2, a3⟩ := prop_cx_to (supp p.1) (.zanc p.2) (not_mem_supp (by simp)) F
    set G := prop ((supp p.1).map fun q => (.cx q (.zanc p.2) : Instr VQ VC)) F with hG
    obtain ⟨b1, b2, b3⟩ := ih hL.2 G
    rw [List.map_cons, List.flatten_cons, prop_append, ← hG]
    have htp : tp n true G = tp n true F := by
      funext i; simp only [tp, if_true]; exact a2 _ (by simp)
    refine ⟨?_, ?_, ?_⟩
    · intro r hr
      rcases List.mem_cons.1 hr with rfl | hr
      · rw [b2 _ (fun p' hp' e => by simp at e; exact hL.1 p' hp' e), a1, supp_sum]; rfl
      · rw [b1 r hr, htp, a2 _ (by simp; exact (hL.1 r hr).symm)]
    · intro q hq
      rw [b2 q (fun r hr => hq r (by simp [hr])), a2 q (hq p (by simp))]
    · rw [b3, a3]

theorem prop_meas (f : ℕ → VQ) (b : ℕ → VC) (hb : Function.Injective b) (L : List ℕ) (hL : L.Nodup) (F : Frame VQ VC) :
    (prop (L.map fun i => .measure (f i) (b i)) F).1 = F.1 ∧
    (∀ i ∈ L, (prop (L.map fun i => .measure (f i) (b i)) F).2 (b i) = F.2 (b i) + F.1.1 (f i)) ∧
    ∀ c, (∀ i ∈ L, c ≠ b i) → (prop (L.map fun i => .measure (f i) (b i)) F).2 c = F.2 c := by
  induction L generalizing F with
  | nil => simp [prop]
  | cons k L ih =>
    rw [List.nodup_cons] at hL
    obtain ⟨h1, h2, h3⟩ := ih hL.2 (frameStep F (.measure (f k) (b k)))
    rw [List.map_cons, prop_cons]
    refine ⟨h1, ?_, ?_⟩
    · intro i hi
      rcases List.mem_cons.1 hi with rfl | hi
      · rw [h3 _ (fun j hj e => hL.1 (by rw [hb e]; exact hj))]
        simp [frameStep]
      · rw [h2 i hi]
        have : b i ≠ b k := fun e => hL.1 (hb e ▸ hi)
        simp [frameStep, Pi.single_apply, this]
    · intro c hc
      rw [h3 c fun i hi => hc i (by simp [hi])]
      simp [frameStep, Pi.single_apply, hc k (by simp)]

/-- One unflagged X measurement. -/
theorem prop_xgadget (m : Vec n) (k : ℕ) (F : Frame VQ VC) (h1 : F.1.1 (.xanc k) = 0) (h2 : F.1.2 (.xanc k) = 0) :
    (prop (measureUnflagged false (supp m) (.xanc k) (.xc k)) F).2 (.xc k) = F.2 (.xc k) + dot m (tp n false F) ∧
    (∀ c, c ≠ .xc k → (prop (measureUnflagged false (supp m) (.xanc k) (.xc k)) F).2 c = F.2 c) ∧
    (∀ p, p ≠ .xanc k → (prop (measureUnflagged false (supp m) (.xanc k) (.xc k)) F).1.2 p = F.1.2 p) ∧
    ∀ p, (∀ i, p ≠ .data i) → p ≠ .xanc k → (prop (measureUnflagged false (supp m) (.xanc k) (.xc k)) F).1.1 p = F.1.1 p := by
  have e : measureUnflagged false (supp m) (.xanc k) (VC.xc k) =
      .h (.xanc k) :: (((supp m).map fun q => .cx (.xanc k) q) ++ [.h (.xanc k), .measure (.xanc k) (.xc k)]) := by
    simp [measureUnflagged]
  have hF : frameStep F (.h (.xanc k)) = F := by
    refine Prod.ext (Prod.ext ?_ ?_) rfl <;> simp [frameStep, h1, h2]
  rw [e, prop_cons, hF, prop_append]
  obtain ⟨a1, a2, a3, a4, a5⟩ := prop_cx_from (supp m) (.xanc k) (not_mem_supp (by simp)) F
  set G := prop ((supp m).map fun q => (.cx (.xanc k) q : Instr VQ VC)) F with hG
  rw [supp_sum, h2, zero_add] at a1
  rw [h1] at a2
  refine ⟨?_, ?_, ?_, ?_⟩
  · simp [prop, frameStep, a1, a2, a5]; rfl
  · intro c hc; simp [prop, frameStep, a5, Pi.single_apply, hc]
  · intro p hp; simp [prop, frameStep, Finsupp.single_apply, Ne.symm hp, a3 p hp]
  · intro p hp hp'
    simp [prop, frameStep, Finsupp.single_apply, Ne.symm hp', a4 p (not_mem_supp hp)]

theorem prop_xgadgets (L : List (Vec n × ℕ)) (hL : L.Pairwise fun a b => a.2 ≠ b.2) (F : Frame VQ VC)
    (h0 : ∀ p ∈ L, F.1.1 (.xanc p.2) = 0 ∧ F.1.2 (.xanc p.2) = 0) :
    (∀ p ∈ L, (prop (L.map fun p => measureUnflagged false (supp p.1) (.xanc p.2) (VC.xc p.2)).flatten F).2 (.xc p.2) =
      F.2 (.xc p.2) + dot p.1 (tp n false F)) ∧
    ∀ c, (∀ p ∈ L, c ≠ .xc p.2) →
      (prop (L.map fun p => measureUnflagged false (supp p.1) (.xanc p.2) (VC.xc p.2)).flatten F).2 c = F.2 c := by
  induction L generalizing F with
  | nil => simp [prop]
  | cons p L ih =>
    rw [List.pairwise_cons] at hL
    obtain ⟨a1, a2, a3, a4⟩ := prop_xgadget p.1 p.2 F (h0 p (by simp)).1 (h0 p (by simp)).2
    set G := prop (measureUnflagged false (supp p.1) (.xanc p.2) (VC.xc p.2)) F with hG
    have hne : ∀ r ∈ L, VQ.xanc r.2 ≠ .xanc p.2 := fun r hr e => hL.1 r hr (by simpa using e.symm)
    obtain ⟨b1, b2⟩ := ih hL.2 G (fun r hr => by
      rw [a4 _ (by simp) (hne r hr), a3 _ (hne r hr)]; exact h0 r (by simp [hr]))
    rw [List.map_cons, List.flatten_cons, prop_append, ← hG]
    have htp : tp n false G = tp n false F := by
      funext i; simp only [tp, Bool.false_eq_true, if_false]; exact a3 _ (by simp)
    refine ⟨?_, ?_⟩
    · intro r hr
      rcases List.mem_cons.1 hr with rfl | hr
      · rw [b2 _ (fun p' hp' e => hL.1 p' hp' (by simpa using e)), a1]
      · rw [b1 r hr, htp, a2 _ (by simpa using (hL.1 r hr).symm)]
    · intro c hc
      rw [b2 c (fun r hr => hc r (by simp [hr])), a2 c (hc p (by simp))]

/-- The first round reads the syndrome of a data error. -/
theorem firstRound_bits (z : Bool) (ms : List (Vec n)) (F : Frame VQ VC) (hF : DataOnly n F) :
    ∀ p ∈ ms.zipIdx, (prop (firstRound z ms) F).2 (rbit z p.2) = dot p.1 (tp n z F) := by
  have hz : ∀ q, (∀ i, q ≠ .data i) → F.1.1 q = 0 ∧ F.1.2 q = 0 := by
    intro q hq
    have : ¬ F.1.ActsOn q := fun h => by
      obtain ⟨i, hi⟩ := hF.1 q h
      exact hq i hi
    simpa [PauliErr.ActsOn] using this
  have hb : ∀ c, F.2 c = 0 := fun c => by rw [hF.2]; rfl
  have hpw := zipIdx_pairwise ms 0
  cases z
  · intro p hp
    obtain ⟨h1, -⟩ := prop_xgadgets ms.zipIdx hpw F fun p _ => hz _ (by simp)
    have := h1 p hp
    rw [hb, zero_add] at this
    simpa [firstRound, rbit] using this
  · intro p hp
    obtain ⟨h1, -, h3⟩ := prop_zcx ms.zipIdx hpw F
    obtain ⟨-, g2, -⟩ := prop_meas (fun i => .zanc i) (fun i => .zc i) (fun a b h => by simpa using h)
      (List.range ms.length) List.nodup_range (prop (ms.zipIdx.map fun p => (supp p.1).map fun q =>
        (.cx q (.zanc p.2) : Instr VQ VC)).flatten F)
    have hlt : p.2 ∈ List.range ms.length := by
      have := List.snd_lt_of_mem_zipIdx hp
      simpa using this
    have := g2 p.2 hlt
    rw [h3, hb, zero_add, h1 p hp, (hz _ (by simp)).1, zero_add] at this
    simp only [firstRound, rbit, if_true]
    rw [prop_append]
    exact this

end Verif.SP
