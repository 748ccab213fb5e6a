import Verif.Lemmas.PrepState
import Verif.Spec.Prep

/-! # The first round of verification on the prepared state -/

namespace Verif.SP
open Verif Verif.Spec
variable {n : ℕ} {R : Type} [CommRing R]

theorem supp_count (m : Vec n) (q : VQ) :
    ((supp m).count q : ZMod 2) = match q with | .data i => (if h : i < n then m ⟨i, h⟩ else 0) | _ => 0 := by
  have hnd : (supp m).Nodup := by
    unfold supp
    refine List.Nodup.map (fun a b h => ?_) ((List.nodup_finRange n).filter _)
    exact data_inj.1 h
  by_cases hq : q ∈ supp m
  · rw [List.count_eq_one_of_mem hnd hq]
    simp only [supp, List.mem_map, List.mem_filter, List.mem_finRange, true_and, decide_eq_true_eq] at hq
    obtain ⟨i, hi, rfl⟩ := hq
    simp only [i.2, dif_pos, Fin.eta]
    rcases zmod2_cases (m i) with h | h
    · exact absurd h hi
    · rw [h]; simp
  · rw [List.count_eq_zero_of_not_mem hq]
    cases q with
    | data i =>
      by_cases h : i < n
      · simp only [h, dif_pos]
        by_contra hne
        apply hq
        simp only [supp, List.mem_map, List.mem_filter, List.mem_finRange, true_and, decide_eq_true_eq]
        exact ⟨⟨i, h⟩, fun e => hne (by rw [e]; simp), rfl⟩
      · simp [h]
    | _ => simp

theorem shift_supp (m : Vec n) (x : VQ → ZMod 2) : Shift m x fun q => x q + ((supp m).count q : ZMod 2) := by
  constructor
  · intro i
    show x (.data i) + _ = _
    rw [supp_count]; simp
  · intro q hq
    simp only
    rw [supp_count]
    cases q with
    | data i =>
      by_cases h : i < n
      · exact absurd rfl (hq ⟨i, h⟩)
      · simp [h]
    | _ => simp

theorem proj_invZ (half : R) (m : Vec n) (ψ : State VQ R) (h : InvZ m ψ) (o : ZMod 2) :
    proj half true (supp m) o ψ = if o = 0 then ψ else fun _ => 0 := by
  funext x
  simp only [proj, if_true, projZ]
  rw [supp_sum]
  by_cases hx : dot m (fun i => x (.data i)) = 0
  · rw [hx]
    by_cases ho : o = 0
    · subst ho; simp
    · rw [if_neg (fun e => ho e.symm), if_neg ho]
  · have := h x hx
    rw [this]
    split <;> split <;> simp [this]

theorem proj_invX (s : R) (hs : 2 * s * s = 1) (m : Vec n) (ψ : State VQ R) (h : InvX m ψ) (o : ZMod 2) :
    proj (s * s) false (supp m) o ψ = if o = 0 then ψ else fun _ => 0 := by
  funext x
  simp only [proj, Bool.false_eq_true, if_false, projX, applyX]
  rw [h x _ (shift_supp m x)]
  rcases zmod2_cases o with rfl | rfl
  · rw [if_pos rfl, sgn_zero]
    linear_combination (ψ x) * hs
  · rw [if_neg (by decide)]
    simp [sgn]

/-- The circuit prepares the state with stabilizers `S` of the kind of the errors. -/
def Prepares (z : Bool) (c : PrepCircuit n) (S : List (Vec n)) : Prop :=
  if z then PreparesZero c.hadamards c.cnots S else PreparesPlus c.hadamards c.cnots S

variable (z : Bool) (c : PrepCircuit n) (S ms : List (Vec n)) (hnd : c.hadamards.Nodup) (hne : ∀ g ∈ c.cnots, g.1 ≠ g.2)
  (hS : Prepares z c S) (hms : ∀ m ∈ ms, ∀ r ∈ S, dot r m = 0)

include hnd hne hS in
/-- Operators commuting with the stabilizers of the kind of the errors are stabilizers of the other kind. -/
theorem proj_measured (s : R) (hs : 2 * s * s = 1) (m : Vec n) (hm : ∀ r ∈ S, dot r m = 0) (o : ZMod 2) :
    proj (s * s) z (supp m) o (prepared s c) = if o = 0 then prepared s c else fun _ => 0 := by
  cases z with
  | true => exact proj_invZ _ m _ (prepared_invZ s c hnd hne m ((hS.2 m).2 hm)) o
  | false => exact proj_invX s hs m _ (prepared_invX s c hnd hne m ((hS.2 m).2 hm)) o

include hnd hne hS in
theorem proj_stab (s : R) (hs : 2 * s * s = 1) (v : Vec n) (hv : v ∈ rowSpan S) :
    proj (s * s) (!z) (supp v) 0 (prepared s c) = prepared s c := by
  cases z with
  | true =>
    have := proj_invX s hs v _ (prepared_invX s c hnd hne v ((hS.1 v).2 hv)) 0
    rwa [if_pos rfl] at this
  | false =>
    have := proj_invZ (s * s) v _ (prepared_invZ s c hnd hne v ((hS.1 v).2 hv)) 0
    rwa [if_pos rfl] at this

/-- The bits of the ancillas. -/
def ancs (z : Bool) (k : ℕ) (out : VC → ZMod 2) : List (VQ × ZMod 2) := (List.range k).map fun i => (ranc z i, out (rbit z i))

include hnd hne hS in
theorem projAll_measured (s : R) (hs : 2 * s * s = 1) (out : VC → ZMod 2) (gs : List (Meas VQ VC))
    (h : ∀ g ∈ gs, ∃ m : Vec n, g.z = z ∧ g.supp = supp m ∧ ∀ r ∈ S, dot r m = 0) :
    projAll (s * s) out gs (prepared s c) = if ∀ g ∈ gs, out g.bit = 0 then prepared s c else fun _ => 0 := by
  have hzero : ∀ gs : List (Meas VQ VC), projAll (s * s) out gs (fun _ => (0 : R)) = fun _ => 0 := by
    intro gs
    induction gs with
    | nil => rfl
    | cons g gs ih =>
      simp only [projAll, List.foldl_cons] at ih ⊢
      have : proj (s * s) g.z g.supp (out g.bit) (fun _ => (0 : R)) = fun _ => 0 := by
        funext x; cases g.z <;> simp [proj, projX, projZ, applyX]
      rw [this, ih]
  induction gs with
  | nil => simp [projAll]
  | cons g gs ih =>
    obtain ⟨m, h1, h2, h3⟩ := h g (by simp)
    have hp := proj_measured z c S hnd hne hS s hs m h3 (out g.bit)
    rw [← h1, ← h2] at hp
    have e : projAll (s * s) out (g :: gs) (prepared s c) =
        projAll (s * s) out gs (proj (s * s) g.z g.supp (out g.bit) (prepared s c)) := rfl
    rw [e, hp]
    by_cases ho : out g.bit = 0
    · rw [if_pos ho, ih fun g' hg' => h g' (by simp [hg'])]
      simp [ho]
    · rw [if_neg ho, hzero, if_neg]
      intro hall
      exact ho (hall g (by simp))

include hnd hne hS hms in
/-- Without faults all measurements give 0 and leave the prepared state. -/
theorem run_verified (s : R) (hs : 2 * s * s = 1) (out : VC → ZMod 2) :
    run s out (prepInstrs c ++ firstRound z ms) (zeros (register n z ms.length)) =
      if ∀ i < ms.length, out (rbit z i) = 0 then
        withBits ((List.range ms.length).map fun i => (ranc z i, 0)) (prepared s c) else fun _ => 0 := by
  rw [run_append, run_prep_register]
  have hv := verificationCircuit_first (fun _ _ => [ms]) z 0
  have hfree : ∀ q, (∀ i, q ≠ VQ.data i) → Free (prepared s c) q := fun q hq => prepared_free s c q fun i => hq i
  have key : ∀ xms zms : List (Vec n), measureFtStabs z 0 false xms zms = .ok (firstRound z ms) →
      (if z then zms else xms) = ms →
      run s out (firstRound z ms) (withBits ((List.range ms.length).map fun i => (ranc z i, 0)) (prepared s c)) =
      if ∀ i < ms.length, out (rbit z i) = 0 then
        withBits ((List.range ms.length).map fun i => (ranc z i, 0)) (prepared s c) else fun _ => 0 := by
    intro xms zms hok hz
    have := C36_measure_ft_stabs s hs out z 0 false xms zms _ (by simp) hok (prepared s c) hfree
    have hw : ∀ g, g ∈ wanted z 0 false xms zms ↔ ∃ p ∈ ms.zipIdx, g = if z then measZ false 0 p else measX false 0 p := by
      intro g
      cases z
      · simp only [Bool.false_eq_true, if_false] at hz
        subst hz
        simp only [wanted, Bool.false_eq_true, if_false, List.append_nil, List.mem_map]
        exact exists_congr fun p => and_congr_right fun _ => eq_comm
      · simp only [if_true] at hz
        subst hz
        simp only [wanted, Bool.false_eq_true, if_false, if_true, List.append_nil, List.mem_map]
        exact exists_congr fun p => and_congr_right fun _ => eq_comm
    have hmem : ∀ p ∈ ms.zipIdx, p.2 < ms.length ∧ p.1 ∈ ms := by
      intro p hp
      obtain ⟨a, b⟩ := p
      rw [List.mem_zipIdx_iff_getElem?] at hp
      obtain ⟨h1, h2⟩ := List.getElem?_eq_some_iff.1 hp
      simp only at h1 h2 ⊢
      exact ⟨h1, h2 ▸ List.getElem_mem _⟩
    have hidx : ∀ i < ms.length, ∃ p ∈ ms.zipIdx, p.2 = i := by
      intro i hi
      exact ⟨(ms[i], i), by rw [List.mem_zipIdx_iff_getElem?]; simp [hi], rfl⟩
    have hgs := projAll_measured z c S hnd hne hS s hs out (wanted z 0 false xms zms) (by
      intro g hg
      obtain ⟨p, hp, rfl⟩ := (hw g).1 hg
      refine ⟨p.1, ?_, ?_, hms p.1 (hmem p hp).2⟩ <;> cases z <;> rfl)
    have hfb : ∀ g ∈ wanted z 0 false xms zms, ∀ cc ∈ g.fbits, out cc = 0 := by
      intro g hg cc hcc
      obtain ⟨p, hp, rfl⟩ := (hw g).1 hg
      cases z <;> simp [measX, measZ] at hcc
    have hall : (∀ g ∈ wanted z 0 false xms zms, out g.bit = 0) ↔ ∀ i < ms.length, out (rbit z i) = 0 := by
      constructor
      · intro h i hi
        obtain ⟨p, hp, rfl⟩ := hidx i hi
        have := h _ ((hw _).2 ⟨p, hp, rfl⟩)
        cases z <;> simpa [rbit, measX, measZ] using this
      · intro h g hg
        obtain ⟨p, hp, rfl⟩ := (hw g).1 hg
        have := h p.2 (hmem p hp).1
        cases z <;> simpa [rbit, measX, measZ] using this
    have hstart : ∀ q, q ∈ (wanted z 0 false xms zms).flatMap Meas.start ↔
        q ∈ (List.range ms.length).map fun i => (ranc z i, (0 : ZMod 2)) := by
      intro q
      simp only [List.mem_flatMap, List.mem_map, List.mem_range]
      constructor
      · rintro ⟨g, hg, hq⟩
        obtain ⟨p, hp, rfl⟩ := (hw g).1 hg
        refine ⟨p.2, (hmem p hp).1, ?_⟩
        cases z <;> simpa [Meas.start, measX, measZ, ranc, eq_comm] using hq
      · rintro ⟨i, hi, rfl⟩
        obtain ⟨p, hp, rfl⟩ := hidx i hi
        refine ⟨_, (hw _).2 ⟨p, hp, rfl⟩, ?_⟩
        cases z <;> simp [Meas.start, measX, measZ, ranc]
    rw [if_pos hfb, hgs, withBits_congr hstart] at this
    rw [this]
    simp only [hall]
    by_cases ho : ∀ i < ms.length, out (rbit z i) = 0
    · rw [if_pos ho, if_pos ho]
      apply withBits_congr
      intro q
      rw [← hstart q]
      simp only [List.mem_flatMap]
      apply exists_congr
      intro g
      apply and_congr_right
      intro hg
      have h0 := hall.2 ho g hg
      simp [Meas.final, Meas.start, h0]
    · rw [if_neg ho, if_neg ho, withBits_zero]
  have hfl : ([ms]).flatten = ms := by simp
  rw [hfl] at hv
  cases z with
  | true =>
    simp only [verificationCircuit, if_true, hfl, Bool.false_eq_true, if_false] at hv
    exact key _ ms hv rfl
  | false =>
    simp only [verificationCircuit, hfl, Bool.false_eq_true, if_false] at hv
    exact key ms _ hv rfl

end Verif.SP
