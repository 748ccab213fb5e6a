import Verif.Props.DecodeHalf
import Verif.Props.PlusState
import Verif.Props.StimStats

/-!
# C140: records with few errors are counted as no logical error in the simulation of a preparation
-/

namespace Verif.FewErrors
open Verif Verif.Stim Verif.DecodeHalf

/-! ## Lemmas -/

/-- What the estimates do to errors below half the distance, as a count. -/
theorem none_counted {n : ℕ} {H S : List (Vec n)} {d : ℕ} (hd : Named.IsMinWeight S H d) (est : List (ZMod 2) → Vec n)
    (hest : ∀ e, Lut.IsMinWeight H (mulVec H e) (est (mulVec H e))) (err : List (ZMod 2) → Vec n) (f : List (ZMod 2) → Bool)
    (hf : ∀ r, f r = true ↔ err r + est (mulVec H (err r)) ∉ rowSpan S) (l : List (List (ZMod 2))) (hl : ∀ r ∈ l, 2 * wt (err r) < d) :
    l.countP f = 0 := by
  refine List.countP_eq_zero.2 fun r hr h => ?_
  exact (hf r).1 h (correctsBelowHalf hd (est := fun e => est (mulVec H e)) hest (err r) (hl r hr))

/-- The record of one shot of the simulator below: the syndrome and then the data qubits. -/
def shot {n : ℕ} (H : List (Vec n)) (e v : Vec n) : List (ZMod 2) := mulVec H e ++ List.ofFn (v + e)

/-- A simulator with `m` check measurements of both kinds at the same places of the record, followed by `n` data measurements. -/
def plain (m n : ℕ) : Sim := ⟨0, [], [], List.range m, List.range m, (List.range n).map (m + ·), m + n, 0, n, []⟩

theorem shot_ok {n : ℕ} (H S : List (Vec n)) (e v : Vec n) (hv : v ∈ rowSpan S) :
    kept (plain H.length n) [shot H e v] = [shot H e v] ∧ dataBits n (plain H.length n) (shot H e v) + e ∈ rowSpan S ∧
      pick (shot H e v) (plain H.length n).zmeas = mulVec H e ∧ pick (shot H e v) (plain H.length n).xmeas = mulVec H e := by
  have hl : (mulVec H e).length = H.length := by simp [mulVec]
  have hp : pick (shot H e v) (List.range H.length) = mulVec H e := by
    simp only [pick, shot]
    apply List.ext_getElem
    · simp [hl]
    · intro i h1 h2
      simp only [List.length_map, List.length_range] at h1
      simp only [List.getElem_map, List.getElem_range]
      rw [List.getD_eq_getElem?_getD, List.getElem?_append_left h2, List.getElem?_eq_getElem h2]
      rfl
  refine ⟨rfl, ?_, hp, hp⟩
  have : dataBits n (plain H.length n) (shot H e v) = v + e := by
    funext i
    simp only [dataBits, pick, plain, List.map_map]
    rw [List.getD_eq_getElem?_getD, List.getElem?_map, List.getElem?_range i.2]
    simp only [Option.map_some, Function.comp, Option.getD_some]
    rw [shot, List.getD_eq_getElem?_getD, List.getElem?_append_right (by omega), hl]
    simp
  rw [this, add_assoc, add_self_eq_zero', add_zero]
  exact hv

/-! ## C140 -/

/-- C140: zero state: if the data qubits of every kept record are in the logical zero state up to an X error of weight less than half the
X distance, and the measured Z syndrome is the one of this error, the batch reports no logical error, and the discarded shots are those
with a flag. -/
theorem C140_zero (c : CSS.Code) (hb : CSS.Built c) (d : ℕ) (hd : Named.IsMinWeight c.hx c.hz d) (s : Sim) (initLuts : Bool)
    (hist : List Lut.Call) (records : List (List (ZMod 2)))
    (hrec : ∀ r ∈ kept s records, ∃ e : Vec c.n, 2 * wt e < d ∧ dataBits c.n s r + e ∈ rowSpan c.hx ∧ pick r s.zmeas = mulVec c.hz e) :
    simulateBatch s true c.lx c.lz (fun y => (Lut.decodeX (Lut.after c initLuts hist) y).1) records =
      some (0, records.countP fun r => (pick r (s.xver ++ s.zver)).any (· != 0)) := by
  classical
  have h0 : ∀ r, ∃ e : Vec c.n, r ∈ kept s records → 2 * wt e < d ∧ dataBits c.n s r + e ∈ rowSpan c.hx ∧ pick r s.zmeas = mulVec c.hz e := by
    intro r
    by_cases h : r ∈ kept s records
    · obtain ⟨e, he⟩ := hrec r h
      exact ⟨e, fun _ => he⟩
    · exact ⟨0, fun h' => absurd h' h⟩
  choose err herr using h0
  obtain ⟨est, f, -, h1, h2, h3⟩ := C75_zero_state c hb s initLuts hist records err fun r hr => (herr r hr).2
  rw [h3, none_counted hd est h1 err f h2 _ fun r hr => (herr r hr).1]

/-- C140: plus state, with the decoder of the simulator.  Missing: self-dual codes with different X and Z check matrices, where it fails
(`C140_violated_plus`). -/
theorem C140_plus_partial (c : CSS.Code) (hb : CSS.Built c) (hc : c.isSelfDual = false ∨ c.hx = c.hz) (d : ℕ)
    (hd : Named.IsMinWeight c.hz c.hx d) (s : Sim) (hist : List Lut.Call) (records : List (List (ZMod 2)))
    (hrec : ∀ r ∈ kept s records, ∃ e : Vec c.n, 2 * wt e < d ∧ dataBits c.n s r + e ∈ rowSpan c.hz ∧ pick r s.xmeas = mulVec c.hx e) :
    simulateBatch s false c.lx c.lz (fun y => (Lut.decodeZ (Lut.after c true hist) y).1) records =
      some (0, records.countP fun r => (pick r (s.xver ++ s.zver)).any (· != 0)) := by
  classical
  have h0 : ∀ r, ∃ e : Vec c.n, r ∈ kept s records → 2 * wt e < d ∧ dataBits c.n s r + e ∈ rowSpan c.hz ∧ pick r s.xmeas = mulVec c.hx e := by
    intro r
    by_cases h : r ∈ kept s records
    · obtain ⟨e, he⟩ := hrec r h
      exact ⟨e, fun _ => he⟩
    · exact ⟨0, fun h' => absurd h' h⟩
  choose err herr using h0
  obtain ⟨est, f, -, h1, h2, h3⟩ := PlusState.C75_plus_default_partial c hb hc s hist records err fun r hr => (herr r hr).2
  rw [h3, none_counted hd est h1 err f h2 _ fun r hr => (herr r hr).1]

/-- C140: the bound is sharp: some record with an X error of weight at most half the distance, rounded up, is counted as a logical error. -/
theorem C140_sharp (c : CSS.Code) (hb : CSS.Built c) (d : ℕ) (hd : Named.IsMinWeight c.hx c.hz d) (initLuts : Bool) (hist : List Lut.Call) :
    ∃ (s : Sim) (r : List (ZMod 2)) (e : Vec c.n), 2 * wt e ≤ d + 1 ∧ dataBits c.n s r + e ∈ rowSpan c.hx ∧ pick r s.zmeas = mulVec c.hz e ∧
      simulateBatch s true c.lx c.lz (fun y => (Lut.decodeX (Lut.after c initLuts hist) y).1) [r] = some (1, 0) := by
  obtain ⟨est, h1, -, e, he, hw⟩ := C133_decode_x c initLuts hist d hd
  obtain ⟨k1, k2, k3, -⟩ := shot_ok c.hz c.hx e 0 (zero_mem _)
  refine ⟨plain c.hz.length c.n, shot c.hz e 0, e, he, k2, k3, ?_⟩
  obtain ⟨est', f, g0, -, g2, g3⟩ := C75_zero_state c hb (plain c.hz.length c.n) initLuts hist [shot c.hz e 0] (fun _ => e) (by
    intro r hr
    rw [k1, List.mem_singleton] at hr
    subst hr
    exact ⟨k2, k3⟩)
  have hf : f (shot c.hz e 0) = true := by
    rw [g2]
    have := h1 e
    rw [g0 e] at this
    rwa [Option.some.inj this]
  rw [g3, k1, List.countP_cons_of_pos hf]
  simp [plain, pick]

/-- C140: the reported rate.  If all records of all batches are as in `C140_zero`, then with `at_least_min_errors=False` the estimation
ends and reports the logical error rate 0 and no errors; with `at_least_min_errors=True`, the default, and a positive `min_errors` it
never ends. -/
theorem C140_rate (c : CSS.Code) (hb : CSS.Built c) (d : ℕ) (hd : Named.IsMinWeight c.hx c.hz d) (s : Sim) (initLuts : Bool)
    (hist : List Lut.Call) (batches : ℕ → List (List (ZMod 2)))
    (hrec : ∀ j, ∀ r ∈ kept s (batches j), ∃ e : Vec c.n, 2 * wt e < d ∧ dataBits c.n s r + e ∈ rowSpan c.hx ∧ pick r s.zmeas = mulVec c.hz e)
    (o : ℕ → ℕ × ℕ)
    (ho : ∀ j, simulateBatch s true c.lx c.lz (fun y => (Lut.decodeX (Lut.after c initLuts hist) y).1) (batches j) = some (o j))
    (k shots perBatch minErr : ℕ) (hs : 0 < shots) (hp : 0 < perBatch) :
    (∃ fuel ra used, logicalErrorRate k shots perBatch false minErr o fuel = some (0, ra, 0, used)) ∧
    (0 < minErr → ∀ fuel, logicalErrorRate k shots perBatch true minErr o fuel = none) := by
  have h0 : ∀ j, (o j).1 = 0 := by
    intro j
    have := ho j
    rw [C140_zero c hb d hd s initLuts hist (batches j) (hrec j)] at this
    rw [← Option.some.inj this]
  refine ⟨?_, fun hm fuel => C37_violated_endless k shots perBatch minErr hs hp hm o h0 fuel⟩
  obtain ⟨fuel, ⟨pl, ra, errs, used⟩, h⟩ := (C37_terminates k shots perBatch hs hp false minErr o).2 (by simp)
  obtain ⟨m, -, -, he, -, hpl, -⟩ := C37_returned_partial k shots perBatch hs hp false minErr o fuel pl ra errs used h
  have h1 : errs = 0 := by rw [he]; simp [totalErrors, h0]
  have h2 : pl = 0 := by rw [hpl]; simp [batchRate, h0]
  subst h1 h2
  exact ⟨fuel, ra, used, h⟩

/-- Hypotheses met by the Steane code and a batch of all its errors on single qubits. -/
example : ∃ (c : CSS.Code), CSS.Built c ∧ c.n = 7 ∧ Named.IsMinWeight c.hx c.hz 3 ∧ (c.isSelfDual = false ∨ c.hx = c.hz) ∧
    Named.IsMinWeight c.hz c.hx 3 ∧ ∃ (s : Sim) (records : List (List (ZMod 2))), kept s records = records ∧ records.length = 7 ∧
    ∀ r ∈ kept s records, ∃ e : Vec c.n, 2 * wt e < 3 ∧ wt e = 1 ∧ dataBits c.n s r + e ∈ rowSpan c.hx ∧ pick r s.zmeas = mulVec c.hz e := by
  obtain ⟨c, h1, h2, -, -, -, -, -, h8, h9⟩ := Named.C13_named CSS.refLib "steane" none _ (.steane none)
  have heq : c.hx = c.hz := by
    have ht : Named.table.lookup (Named.lookupName "steane" none) = some Named.steane := rfl
    rw [Named.fromCodeName, ht] at h1
    obtain ⟨-, f1, f2, -⟩ := CSS.C08_ctor_sound _ _ _ _ _ _ _ h1
    exact eq_of_heq ((f1 _ rfl).2.symm.trans (f2 _ rfl).2)
  have hb : CSS.Built c := by
    have ht : Named.table.lookup (Named.lookupName "steane" none) = some Named.steane := rfl
    rw [Named.fromCodeName, ht] at h1
    exact ⟨CSS.refLib, CSS.refLib_correct, _, _, _, _, _, h1⟩
  refine ⟨c, hb, h2, h8, .inr heq, h9, plain c.hz.length c.n, (List.finRange c.n).map fun i => shot c.hz (Pi.single i 1) 0, ?_, by simp [h2], ?_⟩
  · simp [kept, plain, pick]
  · intro r hr
    obtain ⟨hr, -⟩ := List.mem_filter.1 hr
    obtain ⟨i, -, rfl⟩ := List.mem_map.1 hr
    have hw : wt (Pi.single i 1 : Vec c.n) = 1 := by
      rw [wt, Finset.card_eq_one]
      refine ⟨i, ?_⟩
      ext j
      simp [Pi.single_apply]
    obtain ⟨-, k2, k3, -⟩ := shot_ok c.hz c.hx (Pi.single i 1) 0 (zero_mem _)
    exact ⟨Pi.single i 1, by omega, hw, k2, k3⟩

/-! ## Violation for the plus state -/

/-- The full claim for the plus state. -/
def C140_claim_plus : Prop :=
  ∀ (c : CSS.Code), CSS.Built c → ∀ d, Named.IsMinWeight c.hz c.hx d → ∀ (s : Sim) (hist : List Lut.Call) (records : List (List (ZMod 2))),
    (∀ r ∈ kept s records, ∃ e : Vec c.n, 2 * wt e < d ∧ dataBits c.n s r + e ∈ rowSpan c.hz ∧ pick r s.xmeas = mulVec c.hx e) →
    simulateBatch s false c.lx c.lz (fun y => (Lut.decodeZ (Lut.after c true hist) y).1) records =
      some (0, records.countP fun r => (pick r (s.xver ++ s.zver)).any (· != 0))

/-- The Steane code with a redundant fourth check, which is a different one for X and for Z. -/
def rx : List (Vec 7) := [![1, 1, 0, 0, 1, 1, 0], ![1, 0, 1, 0, 1, 0, 1], ![0, 0, 0, 1, 1, 1, 1], ![0, 1, 1, 0, 0, 1, 1]]
def rz : List (Vec 7) := [![1, 1, 0, 0, 1, 1, 0], ![1, 0, 1, 0, 1, 0, 1], ![0, 0, 0, 1, 1, 1, 1], ![1, 0, 1, 1, 0, 1, 0]]
/-- An error on the second qubit. -/
def eq2 : Vec 7 := ![0, 1, 0, 0, 0, 0, 0]

theorem rmin : Named.IsMinWeight rz rx 3 := by
  constructor
  · intro e he hn
    have key : ∀ e : Vec 7, (∀ g ∈ rx, dot g e = 0) → wt e < 3 → e = 0 := by decide +kernel
    by_contra h
    rw [key e he (by omega)] at hn
    exact hn (zero_mem _)
  · refine ⟨![1, 1, 1, 0, 0, 0, 0], by decide +kernel, fun hm => ?_, by decide +kernel⟩
    have : dot (![1, 1, 1, 0, 0, 0, 0] : Vec 7) ![1, 1, 1, 0, 0, 0, 0] = 0 := dot_eq_zero_of_mem_rowSpan (by decide +kernel) hm
    exact absurd this (by decide +kernel)

theorem rself : rx.length = rz.length ∧ rank rx = rank (rx ++ rz) := by decide +kernel
theorem rlook : (Lut.generateLut rz).lookup (mulVec rx eq2) = none := by decide +kernel
theorem rsingle : 2 * wt eq2 < 3 := by decide +kernel

/-- **C140 fails** for the plus state of self-dual codes with different X and Z check matrices: a single Z error makes the simulation raise
`KeyError`. -/
theorem C140_violated_plus : ¬ C140_claim_plus := by
  intro hcl
  obtain ⟨c, hc⟩ := CSS.C08_ctor_complete CSS.refLib 7 rx rz 3 none none (by decide +kernel) (by simp [rx]) (by decide) (by decide) (by decide)
  have hs := CSS.C08_ctor_sound _ _ _ _ _ _ _ hc
  have hb : CSS.Built c := ⟨CSS.refLib, CSS.refLib_correct, _, _, _, _, _, hc⟩
  obtain ⟨f0, f1⟩ := hs.2.1 _ rfl
  obtain ⟨-, f2⟩ := hs.2.2.1 _ rfl
  clear hs hc
  obtain ⟨n, hx, hz', stab, dd, dx, dz, lx, lz⟩ := c
  simp only at f0 f1 f2
  subst f0
  obtain rfl := eq_of_heq f1
  obtain rfl := eq_of_heq f2
  set c : CSS.Code := ⟨7, rx, rz, stab, dd, dx, dz, lx, lz⟩ with hcdef
  have hsd : c.isSelfDual = true := decide_eq_true rself
  have hdec : ∀ y, (Lut.decodeZ (Lut.after c true []) y).1 = (Lut.generateLut rz).lookup y := Lut.C24_violated_wrong_checks c hsd
  obtain ⟨k1, k2, -, k3⟩ := shot_ok rx rz eq2 0 (zero_mem _)
  have h := hcl c hb 3 rmin (plain rx.length 7) [] [shot rx eq2 0] (by
    rw [k1]
    intro r hr
    rw [List.mem_singleton] at hr
    subst hr
    exact ⟨eq2, rsingle, k2, k3⟩)
  have hn : simulateBatch (plain rx.length 7) false c.lx c.lz (fun y => (Lut.decodeZ (Lut.after c true []) y).1) [shot rx eq2 0] = none := by
    unfold simulateBatch
    simp only [k1, List.isEmpty_cons, Bool.false_eq_true, if_false, List.map_cons, List.map_nil, k3, List.mapM_cons, hdec, rlook]
    rfl
  rw [hn] at h
  exact absurd h (by simp)

end Verif.FewErrors
