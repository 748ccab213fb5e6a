import Verif.Lemmas.PrepFull2
import Verif.Spec.FaultToleranceFull

/-! # Runs of fully verified preparation circuits -/

namespace Verif.SP
open Verif Verif.Spec
variable {n : ℕ} {R : Type} [CommRing R]

/-- The measurement of the `p.2`-th stabilizer of kind `k`. -/
def measK (k : Bool) (flags : Bool) (t : ℕ) (p : Vec n × ℕ) : Meas VQ VC := if k then measZ flags t p else measX flags t p

variable (z : Bool) (c : PrepCircuit n) (t : ℕ) (m1 m2 : List (Vec n))

/-- The measurements of both rounds. -/
def bothMeas : List (Meas VQ VC) := m1.zipIdx.map (measK z false t) ++ m2.zipIdx.map (measK (!z) true t)

theorem bothMeas_eq : bothMeas z t m1 m2 = if z then wanted z t true m2 m1 else wanted z t true m1 m2 := by
  cases z <;> rfl

theorem realises_flagged (s : R) (hs : 2 * s * s = 1) (k : Bool) (hf : FlagsOk t m2) (p : Vec n × ℕ) (hp : p.1 ∈ m2) :
    Realises s (mkGad k (flagSteps t p.1) p).instrs (measK k true t p) := by
  have hst := flagSteps_some hf hp
  cases k with
  | false =>
    have h := measureFlagged_steps t false (supp p.1) (VQ.xanc p.2) (VC.xc p.2) (.xflag p.2) (.xf p.2)
    rw [hst] at h
    exact realises_flagged_x s hs t p (hf _ hp).2 _ h
  | true =>
    have h := measureFlagged_steps t true (supp p.1) (VQ.zanc p.2) (VC.zc p.2) (.zflag p.2) (.zf p.2)
    rw [hst] at h
    exact realises_flagged_z s hs t p (hf _ hp).2 _ h

theorem run_zGates (s : R) (out : VC → ZMod 2) (φ : State VQ R) : run s out (firstRound true m1) φ =
    run s out (m1.zipIdx.map fun p => measureUnflagged true (supp p.1) (.zanc p.2) (VC.zc p.2)).flatten φ := by
  have hend := measures_at_end s out (m1.zipIdx.map fun p =>
    ((supp p.1).map (fun q => (Instr.cx q (.zanc p.2) : Instr VQ VC)), VQ.zanc p.2, VC.zc p.2))
  have hp := hend φ (by
    rw [List.pairwise_map]
    refine (zipIdx_pairwise m1 0).imp ?_
    intro a b hab i hi
    obtain ⟨q, -, rfl⟩ := List.mem_map.1 hi
    exact ⟨q, _, rfl, by simpa using hab.symm⟩)
  rw [List.flatMap_map, List.flatMap_map, List.map_map] at hp
  have e1 : (List.range m1.length).map (fun i => (Instr.measure (.zanc i) (.zc i) : Instr VQ VC)) =
      m1.zipIdx.map ((fun a : List (Instr VQ VC) × VQ × VC => .measure a.2.1 a.2.2) ∘ fun p : Vec n × ℕ =>
        ((supp p.1).map (fun q => (Instr.cx q (.zanc p.2) : Instr VQ VC)), VQ.zanc p.2, VC.zc p.2)) := by
    have : m1.zipIdx.map Prod.snd = List.range m1.length := by
      rw [List.zipIdx_map_snd, List.range_eq_range']
    rw [← this, List.map_map]
    rfl
  rw [firstRound_z, zGates, e1, ← List.flatMap_def, ← hp, ← List.flatMap_def]
  rfl

/-- Both rounds measure their stabilizers. -/
theorem run_both (s : R) (hs : 2 * s * s = 1) (out : VC → ZMod 2) (hf : FlagsOk t m2) (ψ : State VQ R)
    (hψ : ∀ q, (∀ i, q ≠ .data i) → Free ψ q) :
    run s out (bothRounds z t m1 m2) (withBits ((bothMeas z t m1 m2).flatMap Meas.start) ψ) =
      if ∀ g ∈ bothMeas z t m1 m2, ∀ c ∈ g.fbits, out c = 0 then
        withBits ((bothMeas z t m1 m2).flatMap (Meas.final out)) (projAll (s * s) out (bothMeas z t m1 m2) ψ)
      else fun _ => 0 := by
  have hfor : List.Forall₂ (Realises s)
      ((m1.zipIdx.map fun p => measureUnflagged z (supp p.1) (ranc z p.2) (rbit z p.2)) ++
        m2.zipIdx.map fun p => (mkGad (!z) (flagSteps t p.1) p).instrs) (bothMeas z t m1 m2) := by
    unfold bothMeas
    apply List.rel_append
    · rw [List.forall₂_map_left_iff, List.forall₂_map_right_iff]
      refine List.forall₂_same.2 fun p _ => ?_
      cases z
      · exact realises_unflagged_x s hs t p
      · exact realises_unflagged_z s hs t p
    · rw [List.forall₂_map_left_iff, List.forall₂_map_right_iff]
      exact List.forall₂_same.2 fun p hp => realises_flagged t m2 s hs (!z) hf p (List.fst_mem_of_mem_zipIdx hp)
  have hrun : ∀ φ : State VQ R, run s out (bothRounds z t m1 m2) φ =
      run s out ((m1.zipIdx.map fun p => measureUnflagged z (supp p.1) (ranc z p.2) (rbit z p.2)) ++
        m2.zipIdx.map fun p => (mkGad (!z) (flagSteps t p.1) p).instrs).flatten φ := by
    intro φ
    rw [List.flatten_append, run_append, bothRounds, run_append, gadsInstrs, secondGads, List.flatMap_map, List.flatMap_def]
    congr 1
    cases z
    · rw [firstRound, if_neg (by decide)]; rfl
    · rw [run_zGates]; rfl
  rw [hrun]
  have hb := bothMeas_eq z t m1 m2
  rw [hb] at hfor ⊢
  cases z with
  | true => exact run_wanted s out true t true m2 m1 _ hfor ψ hψ
  | false => exact run_wanted s out false t true m1 m2 _ hfor ψ hψ

theorem projAll_fixed (half : R) (out : VC → ZMod 2) (ψ : State VQ R) (gs : List (Meas VQ VC))
    (h : ∀ g ∈ gs, ∀ o, proj half g.z g.supp o ψ = if o = 0 then ψ else fun _ => 0) :
    projAll half out gs ψ = if ∀ g ∈ gs, out g.bit = 0 then ψ else fun _ => 0 := by
  have hzero : ∀ gs : List (Meas VQ VC), projAll half out gs (fun _ => (0 : R)) = fun _ => 0 := by
    intro gs
    induction gs with
    | nil => rfl
    | cons g gs ih =>
      simp only [projAll, List.foldl_cons] at ih ⊢
      have : proj half g.z g.supp (out g.bit) (fun _ => (0 : R)) = fun _ => 0 := by
        funext x; cases g.z <;> simp [proj, projX, projZ, applyX]
      rw [this, ih]
  induction gs with
  | nil => simp [projAll]
  | cons g gs ih =>
    have e : projAll half out (g :: gs) ψ = projAll half out gs (proj half g.z g.supp (out g.bit) ψ) := rfl
    rw [e, h g (by simp)]
    by_cases ho : out g.bit = 0
    · rw [if_pos ho, ih fun g' hg' => h g' (by simp [hg'])]
      simp [ho]
    · rw [if_neg ho, hzero, if_neg]
      intro hall
      exact ho (hall g (by simp))

variable (S : List (Vec n)) (hnd : c.hadamards.Nodup) (hne : ∀ g ∈ c.cnots, g.1 ≠ g.2) (hS : Prepares z c S)
  (h1 : ∀ m ∈ m1, ∀ r ∈ S, dot r m = 0) (h2 : ∀ m ∈ m2, m ∈ rowSpan S)

include hnd hne hS in
theorem proj_stab' (s : R) (hs : 2 * s * s = 1) (v : Vec n) (hv : v ∈ rowSpan S) (o : ZMod 2) :
    proj (s * s) (!z) (supp v) o (prepared s c) = if o = 0 then prepared s c else fun _ => 0 := by
  cases z with
  | true => exact proj_invX s hs v _ (prepared_invX s c hnd hne v ((hS.1 v).2 hv)) o
  | false => exact proj_invZ (s * s) v _ (prepared_invZ s c hnd hne v ((hS.1 v).2 hv)) o

theorem measK_z (k flags : Bool) (p : Vec n × ℕ) : (measK k flags t p).z = k := by cases k <;> rfl
theorem measK_supp (k flags : Bool) (p : Vec n × ℕ) : (measK k flags t p).supp = supp p.1 := by cases k <;> rfl
theorem measK_bit (k flags : Bool) (p : Vec n × ℕ) : (measK k flags t p).bit = rbit k p.2 := by cases k <;> rfl
theorem measK_anc (k flags : Bool) (p : Vec n × ℕ) : (measK k flags t p).anc = ranc k p.2 := by cases k <;> rfl
theorem measK_flags (k : Bool) (p : Vec n × ℕ) :
    (measK k true t p).flags = (List.range (numFlags t (supp p.1).length)).map (rflag k p.2) := by cases k <;> rfl
theorem measK_fbits (k : Bool) (p : Vec n × ℕ) :
    (measK k true t p).fbits = (List.range (numFlags t (supp p.1).length)).map (rfbit k p.2) := by cases k <;> rfl
theorem measK_noflags (k : Bool) (p : Vec n × ℕ) : (measK k false t p).flags = [] ∧ (measK k false t p).fbits = [] := by
  cases k <;> exact ⟨rfl, rfl⟩

theorem mem_zipIdx_fst {ms : List (Vec n)} {p : Vec n × ℕ} (hp : p ∈ ms.zipIdx) : p.1 ∈ ms ∧ p.2 < ms.length := by
  refine ⟨List.fst_mem_of_mem_zipIdx hp, ?_⟩
  have := List.snd_lt_of_mem_zipIdx hp
  simpa using this

theorem exists_zipIdx {ms : List (Vec n)} {i : ℕ} (hi : i < ms.length) : ∃ p ∈ ms.zipIdx, p.2 = i ∧ p.1 = ms[i] :=
  ⟨(ms[i], i), by rw [List.mem_zipIdx_iff_getElem?]; simp [hi], rfl, rfl⟩

theorem mem_bits_both (hf : FlagsOk t m2) (b : VC) : b ∈ bitsOf (bothRounds z t m1 m2) ↔
    ∃ g ∈ bothMeas z t m1 m2, b = g.bit ∨ b ∈ g.fbits := by
  rw [bothRounds, bitsOf_append, List.mem_append, bitsOf_firstRound]
  have hsec : b ∈ bitsOf (gadsInstrs (secondGads (!z) t m2)) ↔
      ∃ p ∈ m2.zipIdx, b = rbit (!z) p.2 ∨ ∃ j < numFlags t (supp p.1).length, b = rfbit (!z) p.2 j := by
    have e : bitsOf (gadsInstrs (secondGads (!z) t m2)) = m2.zipIdx.flatMap fun p => bitsOf (mkGad (!z) (flagSteps t p.1) p).instrs := by
      rw [gadsInstrs, secondGads, List.flatMap_map]
      induction m2.zipIdx with
      | nil => rfl
      | cons p L ih => rw [List.flatMap_cons, bitsOf_append, ih, List.flatMap_cons]
    rw [e, List.mem_flatMap]
    refine exists_congr fun p => and_congr_right fun hp => ?_
    have hm := (mem_zipIdx_fst hp).1
    have hsp := stepsOf_spec t _ _ (flagSteps_some hf hm) (hf _ hm).2
    rw [Gad.instrs, bitsOf_gadget', List.mem_append, List.mem_map, List.mem_singleton, or_comm]
    refine or_congr Iff.rfl ?_
    constructor
    · rintro ⟨j, hj, rfl⟩
      exact ⟨j, (hsp.2.2 j).1 hj, rfl⟩
    · rintro ⟨j, hj, rfl⟩
      exact ⟨j, (hsp.2.2 j).2 hj, rfl⟩
  rw [hsec]
  simp only [bothMeas, List.mem_append, List.mem_map]
  constructor
  · rintro (⟨i, hi, rfl⟩ | ⟨p, hp, h⟩)
    · obtain ⟨p, hp, rfl, -⟩ := exists_zipIdx (List.mem_range.1 hi)
      exact ⟨_, .inl ⟨p, hp, rfl⟩, .inl (measK_bit _ _ _ _).symm⟩
    · refine ⟨_, .inr ⟨p, hp, rfl⟩, ?_⟩
      rcases h with rfl | ⟨j, hj, rfl⟩
      · exact .inl (measK_bit _ _ _ _).symm
      · right
        rw [measK_fbits]
        exact List.mem_map_of_mem (List.mem_range.2 hj)
  · rintro ⟨g, ⟨p, hp, rfl⟩ | ⟨p, hp, rfl⟩, h⟩
    · rw [measK_bit, (measK_noflags _ _ _).2] at h
      simp only [List.not_mem_nil, or_false] at h
      exact .inl ⟨p.2, List.mem_range.2 (mem_zipIdx_fst hp).2, h.symm⟩
    · right
      refine ⟨p, hp, ?_⟩
      rw [measK_bit, measK_fbits] at h
      rcases h with h | h
      · exact .inl h
      · obtain ⟨j, hj, rfl⟩ := List.mem_map.1 h
        exact .inr ⟨j, List.mem_range.1 hj, rfl⟩

include hnd hne hS h1 h2 in
/-- Without faults all measurements give 0 and leave the prepared state. -/
theorem run_full (s : R) (hs : 2 * s * s = 1) (out : VC → ZMod 2) (hf : FlagsOk t m2) :
    run s out (prepInstrs c ++ bothRounds z t m1 m2) (withBits ((bothMeas z t m1 m2).flatMap Meas.start) (base n R)) =
      if ∀ b ∈ bitsOf (bothRounds z t m1 m2), out b = 0 then
        withBits ((bothMeas z t m1 m2).flatMap Meas.start) (prepared s c) else fun _ => 0 := by
  have hfree : ∀ q, (∀ i, q ≠ VQ.data i) → Free (prepared s c) q := fun q hq => prepared_free s c q fun i => hq i
  have hown : ∀ p ∈ (bothMeas z t m1 m2).flatMap Meas.start, ∀ i, p.1 ≠ VQ.data i := by
    intro p hp i
    obtain ⟨g, hg, hp⟩ := List.mem_flatMap.1 hp
    have ho : p.1 ∈ g.own := by
      simp only [Meas.start, List.mem_cons, List.mem_map] at hp
      rcases hp with rfl | ⟨f, hf, rfl⟩
      · simp [Meas.own]
      · simp [Meas.own, hf]
    rw [bothMeas_eq] at hg
    split at hg
    · exact own_not_data hg ho i
    · exact own_not_data hg ho i
  rw [run_append, run_withBits s out _ _ _ (by
    intro i hi q hq p hp
    obtain ⟨j, rfl⟩ := prep_qubits c hi hq
    exact hown p hp j), run_prep_out]
  have := run_both z t m1 m2 s hs out hf (prepared s c) hfree
  have e : run s (fun _ => 0) (prepInstrs c) (base n R) = prepared s c := rfl
  rw [e, this, projAll_fixed]
  · have hiff : (∀ b ∈ bitsOf (bothRounds z t m1 m2), out b = 0) ↔
        (∀ g ∈ bothMeas z t m1 m2, ∀ c ∈ g.fbits, out c = 0) ∧ ∀ g ∈ bothMeas z t m1 m2, out g.bit = 0 := by
      constructor
      · intro h
        exact ⟨fun g hg b hb => h b ((mem_bits_both z t m1 m2 hf b).2 ⟨g, hg, .inr hb⟩),
          fun g hg => h _ ((mem_bits_both z t m1 m2 hf _).2 ⟨g, hg, .inl rfl⟩)⟩
      · rintro ⟨ha, hb⟩ b hbm
        obtain ⟨g, hg, rfl | hb'⟩ := (mem_bits_both z t m1 m2 hf b).1 hbm
        · exact hb g hg
        · exact ha g hg b hb'
    by_cases ha : ∀ g ∈ bothMeas z t m1 m2, ∀ c ∈ g.fbits, out c = 0
    · by_cases hb : ∀ g ∈ bothMeas z t m1 m2, out g.bit = 0
      · rw [if_pos ha, if_pos hb, if_pos (hiff.2 ⟨ha, hb⟩)]
        refine withBits_congr (fun q => ?_) _
        simp only [List.mem_flatMap]
        refine exists_congr fun g => and_congr_right fun hg => ?_
        simp [Meas.final, Meas.start, hb g hg]
      · rw [if_pos ha, if_neg hb, withBits_zero, if_neg fun h => hb (hiff.1 h).2]
    · rw [if_neg ha, if_neg fun h => ha (hiff.1 h).1]
  · intro g hg o
    simp only [bothMeas, List.mem_append, List.mem_map] at hg
    rcases hg with ⟨p, hp, rfl⟩ | ⟨p, hp, rfl⟩
    · rw [measK_z, measK_supp]
      exact proj_measured z c S hnd hne hS s hs p.1 (h1 _ (mem_zipIdx_fst hp).1) o
    · rw [measK_z, measK_supp]
      exact proj_stab' z c S hnd hne hS s hs p.1 (h2 _ (mem_zipIdx_fst hp).1) o

end Verif.SP
