import Verif.Props.StimRecords

/-!
# C75: counting logical errors of the plus state on self-dual codes

The simulator creates its decoder with `LutDecoder(code)` (simulation.py:62), that is with `init_luts=True`.
-/

namespace Verif.PlusState
open Verif Verif.Stim

/-- The full claim for the plus state: if every kept record is an X-basis reading of a logical plus state (a sum of Z stabilizers) hit by
some Z error, with the X syndrome of that error, then the decoder answers every syndrome and the batch reports exactly the number of kept
records whose error, after the decoder's correction, acts non-trivially on the code space, and the number of records with a flag. -/
def C75_claim_plus : Prop :=
  ∀ (c : CSS.Code), CSS.Built c → ∀ (s : Sim) (hist : List Lut.Call) (records : List (List (ZMod 2))) (err : List (ZMod 2) → Vec c.n),
    (∀ r ∈ kept s records, dataBits c.n s r + err r ∈ rowSpan c.hz ∧ pick r s.xmeas = mulVec c.hx (err r)) →
    ∃ (est : List (ZMod 2) → Vec c.n) (f : List (ZMod 2) → Bool),
      (∀ e, (Lut.decodeZ (Lut.after c true hist) (mulVec c.hx e)).1 = some (est (mulVec c.hx e))) ∧
      (∀ r, f r = true ↔ err r + est (mulVec c.hx (err r)) ∉ rowSpan c.hz) ∧
      simulateBatch s false c.lx c.lz (fun y => (Lut.decodeZ (Lut.after c true hist) y).1) records =
        some ((kept s records).countP f, records.countP fun r => (pick r (s.xver ++ s.zver)).any (· != 0))

/-- C75, plus state: every code that is not reported self-dual, and every code with equal X and Z checks.
Missing: self-dual codes with different X and Z check matrices, where it fails (`C75_violated_plus`). -/
theorem C75_plus_default_partial (c : CSS.Code) (hb : CSS.Built c) (hc : c.isSelfDual = false ∨ c.hx = c.hz) (s : Sim)
    (hist : List Lut.Call) (records : List (List (ZMod 2))) (err : List (ZMod 2) → Vec c.n)
    (hrec : ∀ r ∈ kept s records, dataBits c.n s r + err r ∈ rowSpan c.hz ∧ pick r s.xmeas = mulVec c.hx (err r)) :
    ∃ (est : List (ZMod 2) → Vec c.n) (f : List (ZMod 2) → Bool),
      (∀ e, (Lut.decodeZ (Lut.after c true hist) (mulVec c.hx e)).1 = some (est (mulVec c.hx e))) ∧
      (∀ e, Lut.IsMinWeight c.hx (mulVec c.hx e) (est (mulVec c.hx e))) ∧
      (∀ r, f r = true ↔ err r + est (mulVec c.hx (err r)) ∉ rowSpan c.hz) ∧
      simulateBatch s false c.lx c.lz (fun y => (Lut.decodeZ (Lut.after c true hist) y).1) records =
        some ((kept s records).countP f, records.countP fun r => (pick r (s.xver ++ s.zver)).any (· != 0)) := by
  classical
  let est : List (ZMod 2) → Vec c.n := fun y => ((Lut.decodeZ (Lut.after c true hist) y).1).getD 0
  have hest : ∀ e, (Lut.decodeZ (Lut.after c true hist) (mulVec c.hx e)).1 = some (est (mulVec c.hx e)) ∧
      Lut.IsMinWeight c.hx (mulVec c.hx e) (est (mulVec c.hx e)) := by
    intro e
    obtain ⟨v, h1, h2⟩ : ∃ v, (Lut.decodeZ (Lut.after c true hist) (mulVec c.hx e)).1 = some v ∧ Lut.IsMinWeight c.hx (mulVec c.hx e) v := by
      rcases hc with hc | hc
      · exact Lut.C24_decode_z_partial c true hist (mulVec c.hx e) hc ⟨e, rfl⟩
      · exact Lut.C24_decode_z_selfdual_partial c hist (mulVec c.hx e) hc ⟨e, rfl⟩
    have : est (mulVec c.hx e) = v := by simp only [est, h1, Option.getD_some]
    rw [this]; exact ⟨h1, h2⟩
  have hobs : ∀ e : Vec c.n, (∀ r ∈ c.hx, dot r e = 0) → ((∀ l ∈ if (false : Bool) then c.lz else c.lx, dot l e = 0) ↔ e ∈ rowSpan c.hz) := by
    intro e he
    have := CSS.C10_z_dichotomy c hb e (by
      intro b hb'
      obtain ⟨r, hr, rfl⟩ := List.mem_map.1 hb'
      exact he r hr)
    rw [(CSS.C10_stabilizer_test c e).2, ← Bool.not_eq_true, CSS.Code.checkIfLogicalZError, CSS.any_eq_one_iff] at this
    rw [← this]
    simp only [Bool.false_eq_true, if_false]
    constructor
    · rintro h ⟨l, hl, h1⟩
      rw [h l hl] at h1; exact absurd h1 (by decide)
    · intro h l hl
      rcases zmod2_cases (dot l e) with h0 | h0
      · exact h0
      · exact absurd ⟨l, hl, h0⟩ h
  obtain ⟨f, hf, hs⟩ := simulateBatch_counts s false c.lx c.lz c.hx c.hz
    (fun y => (Lut.decodeZ (Lut.after c true hist) y).1) est (fun e => ⟨(hest e).1, (hest e).2.1⟩) hobs
    (by
      intro r hr v hv
      obtain ⟨lib, -, d, hx, hz, xd, zd, h⟩ := hb
      exact (CSS.C08_ctor_sound lib d _ _ _ _ c h).2.2.2.2.2.1 r hr v hv)
    records err (by intro r hr; simpa using hrec r hr)
  exact ⟨est, f, fun e => (hest e).1, fun e => (hest e).2, hf, hs⟩

/-! ## Violation: the Steane code with two Z checks in the other order -/

def stX : List (Vec 7) := [![1, 1, 0, 0, 1, 1, 0], ![1, 0, 1, 0, 1, 0, 1], ![0, 0, 0, 1, 1, 1, 1]]
def stZ : List (Vec 7) := [![1, 0, 1, 0, 1, 0, 1], ![1, 1, 0, 0, 1, 1, 0], ![0, 0, 0, 1, 1, 1, 1]]

/-- A Z error on the second qubit. -/
def e1 : Vec 7 := ![0, 1, 0, 0, 0, 0, 0]
/-- The same with a logical Z operator. -/
def e2 : Vec 7 := ![1, 0, 1, 1, 1, 1, 1]
/-- The correction by the wrong table. -/
def ans : Vec 7 := ![0, 0, 1, 0, 0, 0, 0]
def ones : Vec 7 := ![1, 1, 1, 1, 1, 1, 1]

/-- A simulator that measures the three X checks first, then the data qubits. -/
def sim : Sim := ⟨0, [], [], List.range 3, [], (List.range 7).map (3 + ·), 10, 0, 7, []⟩
def rec1 : List (ZMod 2) := mulVec stX e1 ++ List.ofFn e1
def rec2 : List (ZMod 2) := mulVec stX e2 ++ List.ofFn e2

theorem ans_eq : (Lut.generateLut stZ).lookup [1, 0, 0] = some ans := by decide +kernel

theorem selfDual : stX.length = stZ.length ∧ rank stX = rank (stX ++ stZ) := by decide +kernel

theorem not_mem (v : Vec 7) (h : ∃ w ∈ stX, dot w v = 1) : v ∉ rowSpan stZ := by
  obtain ⟨w, hw, h⟩ := h
  intro hm
  have key : ∀ w ∈ stX, ∀ r ∈ stZ, dot r w = 0 := by decide +kernel
  have : dot v w = 0 := dot_eq_zero_of_mem_rowSpan (key w hw) hm
  rw [dot_comm, this] at h
  exact absurd h (by decide)

theorem ones_not_mem : ones ∉ rowSpan stZ := by
  intro hm
  have : dot ones ones = 0 := dot_eq_zero_of_mem_rowSpan (by decide +kernel) hm
  exact absurd this (by decide +kernel)

/-- The record of an error on the state `0...0`. -/
theorem batch (lx lz : List (Vec 7)) (dec : List (ZMod 2) → Option (Vec 7)) (h : dec [1, 0, 0] = some ans) :
    simulateBatch sim false lx lz dec [rec1, rec2] = some ([e1 + ans, e2 + ans].countP (flagged lx), 0) := by
  have h1 : pick rec1 sim.xmeas = [1, 0, 0] := by decide +kernel
  have h2 : pick rec2 sim.xmeas = [1, 0, 0] := by decide +kernel
  have hk : kept sim [rec1, rec2] = [rec1, rec2] := by decide +kernel
  have h3 : (fun i : Fin 7 => (pick rec1 sim.data).getD i.val 0 : Vec 7) = e1 := by decide +kernel
  have h4 : (fun i : Fin 7 => (pick rec2 sim.data).getD i.val 0 : Vec 7) = e2 := by decide +kernel
  unfold simulateBatch
  simp only [hk, List.isEmpty_cons, Bool.false_eq_true, if_false, List.map_cons, List.map_nil, h1, h2, h3, h4, List.mapM_cons, List.mapM_nil, h]
  rfl

theorem one_flagged (x : Vec 7) (h : dot x ones = 1) : [e1 + ans, e2 + ans].countP (flagged [x]) = 1 := by
  have hs : e1 + ans + (e2 + ans) = ones := by decide +kernel
  rw [← hs, dot_add_right] at h
  have hf : ∀ v : Vec 7, flagged [x] v = decide (dot x v ≠ 0) := by
    intro v
    simp only [flagged, List.any_cons, List.any_nil, Bool.or_false]
    rw [dot_comm]
  simp only [List.countP_cons, List.countP_nil, hf, decide_eq_true_eq]
  rcases zmod2_cases (dot x (e1 + ans)) with h1 | h1 <;> rcases zmod2_cases (dot x (e2 + ans)) with h2 | h2 <;> rw [h1, h2] at h ⊢
  · exact absurd h (by decide)
  · decide
  · decide
  · exact absurd h (by decide)

theorem res1 : e1 + ans ∉ rowSpan stZ := not_mem _ (by decide +kernel)
theorem res2 : e2 + ans ∉ rowSpan stZ := not_mem _ (by decide +kernel)

/-- **C75 fails** for the plus state of self-dual codes whose X and Z checks are listed in different orders: of two wrong corrections of
the Steane code exactly one is counted. -/
theorem C75_violated_plus : ¬ C75_claim_plus := by
  intro hcl
  obtain ⟨c, hc⟩ := CSS.C08_ctor_complete CSS.refLib 7 stX stZ 3 none none (by decide +kernel) (by simp [stX]) (by decide) (by decide) (by decide)
  have hs := CSS.C08_ctor_sound _ _ _ _ _ _ _ hc
  have hb : CSS.Built c := ⟨CSS.refLib, CSS.refLib_correct, _, _, _, _, _, hc⟩
  obtain ⟨f0, f1⟩ := hs.2.1 _ rfl
  obtain ⟨-, f2⟩ := hs.2.2.1 _ rfl
  have hk : c.stab.k = (c.n : ℤ) - rank c.hx - rank c.hz := by
    rw [rank_eq_finrank, rank_eq_finrank]; exact hs.2.2.2.2.2.2.2.1
  have hl := (CSS.C09_logical_x c hb).2.2.1
  have hz := CSS.C10_z_dichotomy c hb
  clear hs hc
  obtain ⟨n, hx, hz', stab, dd, dx, dz, lx, lz⟩ := c
  simp only at f0 f1 f2 hk hl
  subst f0
  obtain rfl := eq_of_heq f1
  obtain rfl := eq_of_heq f2
  have r1 : rank stX = 3 := by decide +kernel
  have r2 : rank stZ = 3 := by decide +kernel
  rw [r1, r2] at hk
  have hlen : lx.length = 1 := by omega
  obtain ⟨x, rfl⟩ := List.length_eq_one_iff.1 hlen
  set c : CSS.Code := ⟨7, stX, stZ, stab, dd, dx, dz, [x], lz⟩ with hcdef
  have hx1 : dot x ones = 1 := by
    have h := hz ones (by
      show ∀ b ∈ mulVec stX ones, b = 0
      decide +kernel)
    rw [(CSS.C10_stabilizer_test c ones).2, ← Bool.not_eq_true, CSS.Code.checkIfLogicalZError, CSS.any_eq_one_iff] at h
    have h' := (not_iff_not.2 h).2 ones_not_mem
    rw [not_not] at h'
    obtain ⟨l, hl, h⟩ := h'
    rwa [List.mem_singleton.1 hl] at h
  have hsd : c.isSelfDual = true := decide_eq_true selfDual
  have hdec : ∀ y, (Lut.decodeZ (Lut.after c true []) y).1 = (Lut.generateLut stZ).lookup y := Lut.C24_violated_wrong_checks c hsd
  have hne : rec2 ≠ rec1 := by decide +kernel
  have hkept : kept sim [rec1, rec2] = [rec1, rec2] := by decide +kernel
  obtain ⟨est, f, h1, h2, h3⟩ := hcl c hb sim [] [rec1, rec2] (fun r => if r = rec1 then e1 else e2) (by
    rw [hkept]
    intro r hr
    simp only [List.mem_cons, List.not_mem_nil, or_false] at hr
    rcases hr with rfl | rfl
    · rw [if_pos rfl]
      have h0 : dataBits 7 sim rec1 + e1 = 0 := by decide +kernel
      have h5 : pick rec1 sim.xmeas = mulVec stX e1 := by decide +kernel
      exact ⟨by show dataBits 7 sim rec1 + e1 ∈ rowSpan stZ; rw [h0]; exact zero_mem _, h5⟩
    · rw [if_neg hne]
      have h0 : dataBits 7 sim rec2 + e2 = 0 := by decide +kernel
      have h5 : pick rec2 sim.xmeas = mulVec stX e2 := by decide +kernel
      exact ⟨by show dataBits 7 sim rec2 + e2 ∈ rowSpan stZ; rw [h0]; exact zero_mem _, h5⟩)
  have m1 : mulVec stX e1 = [1, 0, 0] := by decide +kernel
  have m2 : mulVec stX e2 = [1, 0, 0] := by decide +kernel
  have he : est [1, 0, 0] = ans := by
    have := h1 e1
    rw [hdec] at this
    change (Lut.generateLut stZ).lookup (mulVec stX e1) = some (est (mulVec stX e1)) at this
    rw [m1, ans_eq] at this
    exact (Option.some.inj this).symm
  have hf1 : f rec1 = true := by
    rw [h2, if_pos rfl]
    change e1 + est (mulVec stX e1) ∉ rowSpan stZ
    rw [m1, he]
    exact res1
  have hf2 : f rec2 = true := by
    rw [h2, if_neg hne]
    change e2 + est (mulVec stX e2) ∉ rowSpan stZ
    rw [m2, he]
    exact res2
  rw [batch _ _ _ (by rw [hdec, ans_eq])] at h3
  have h4 := congrArg Prod.fst (Option.some.inj h3)
  have h5 : ([rec1, rec2]).countP f = 2 := by simp only [List.countP_cons, List.countP_nil, hf1, hf2, if_true]
  rw [hkept] at h4
  change [e1 + ans, e2 + ans].countP (flagged [x]) = [rec1, rec2].countP f at h4
  rw [one_flagged x hx1, h5] at h4
  omega

end Verif.PlusState
