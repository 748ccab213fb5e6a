import Verif.Props.StimCirc2
import Verif.Props.Lut
import Mathlib.Algebra.Order.BigOperators.Group.List

/-!
# C74, C75: measurement records of the stim circuit and the counting of logical errors
-/

namespace Verif.Stim
open Verif

/-! ## Specification -/

/-- The instruction yields a measurement result. -/
def Op.isMeas : Op → Bool
  | .mr _ | .mrx _ | .mrz _ => true
  | _ => false

/-- The measurements of a circuit, in the order of the record. -/
def record (ops : List Op) : List Op := ops.filter Op.isMeas

/-- Measurement of an X check with ancilla `a`: controlled-X from `a` to every qubit of the check. -/
def blockX {n : ℕ} (a : ℕ) (r : Vec n) : List Op := [.h a] ++ (support r).map (fun q => .cx a q) ++ [.mrx a]

/-- Measurement of a Z check with ancilla `a`. -/
def blockZ {n : ℕ} (a : ℕ) (r : Vec n) : List Op := (support r).map (fun q => .cx q a) ++ [.mrz a]

/-- `blocks f a rs`: the measurements of the checks `rs` with ancillas `a, a+1, …`. -/
def blocks {n : ℕ} (f : ℕ → Vec n → List Op) : ℕ → List (Vec n) → List Op
  | _, [] => []
  | a, r :: rs => f a r ++ blocks f (a + 1) rs

/-! ## Number of qubits of a stim circuit -/

theorem numQubits_cons (o : Op) (ops : List Op) : numQubits (o :: ops) = o.qubits.foldr (fun q m => max (q + 1) m) (numQubits ops) := rfl

theorem foldr_max_le (l : List ℕ) (m k : ℕ) : l.foldr (fun q m => max (q + 1) m) m ≤ k ↔ (∀ q ∈ l, q < k) ∧ m ≤ k := by
  induction l with
  | nil => simp
  | cons a l ih =>
    rw [List.foldr_cons, Nat.max_le, ih, List.forall_mem_cons, Nat.succ_le_iff, and_assoc]

theorem numQubits_le (ops : List Op) (k : ℕ) : numQubits ops ≤ k ↔ ∀ o ∈ ops, ∀ q ∈ o.qubits, q < k := by
  induction ops with
  | nil => simp [numQubits]
  | cons o ops ih => rw [numQubits_cons, foldr_max_le, ih, List.forall_mem_cons]

theorem lt_numQubits {ops : List Op} {o : Op} (ho : o ∈ ops) {q : ℕ} (hq : q ∈ o.qubits) : q < numQubits ops :=
  (numQubits_le ops _).1 le_rfl o ho q hq

/-- The next ancilla is not used by the circuit. -/
theorem numQubits_fresh (ops : List Op) : ∀ o ∈ ops, numQubits ops ∉ o.qubits :=
  fun _ ho h => absurd (lt_numQubits ho h) (lt_irrefl _)

theorem numQubits_append (a b : List Op) : numQubits (a ++ b) = max (numQubits a) (numQubits b) := by
  apply le_antisymm
  · rw [numQubits_le]
    intro o ho q hq
    rcases List.mem_append.1 ho with h | h
    · exact lt_of_lt_of_le (lt_numQubits h hq) (le_max_left _ _)
    · exact lt_of_lt_of_le (lt_numQubits h hq) (le_max_right _ _)
  · apply max_le
    · rw [numQubits_le]; intro o ho q hq; exact lt_numQubits (List.mem_append_left _ ho) hq
    · rw [numQubits_le]; intro o ho q hq; exact lt_numQubits (List.mem_append_right _ ho) hq

theorem support_lt {n : ℕ} (r : Vec n) : ∀ q ∈ support r, q < n := by
  intro q hq
  obtain ⟨i, -, rfl⟩ := List.mem_map.1 hq
  exact i.2

theorem numQubits_blockX {n : ℕ} (a : ℕ) (ha : n ≤ a) (r : Vec n) : numQubits (blockX a r) = a + 1 := by
  apply le_antisymm
  · rw [numQubits_le]
    intro o ho q hq
    simp only [blockX, List.mem_append, List.mem_singleton, List.mem_map] at ho
    rcases ho with (rfl | ⟨x, hx, rfl⟩) | rfl
    · simp [Op.qubits] at hq; omega
    · have := support_lt r x hx
      simp [Op.qubits] at hq; omega
    · simp [Op.qubits] at hq; omega
  · exact lt_numQubits (o := .h a) (by simp [blockX]) (by simp [Op.qubits])

theorem numQubits_blockZ {n : ℕ} (a : ℕ) (ha : n ≤ a) (r : Vec n) : numQubits (blockZ a r) = a + 1 := by
  apply le_antisymm
  · rw [numQubits_le]
    intro o ho q hq
    simp only [blockZ, List.mem_append, List.mem_singleton, List.mem_map] at ho
    rcases ho with ⟨x, hx, rfl⟩ | rfl
    · have := support_lt r x hx
      simp [Op.qubits] at hq; omega
    · simp [Op.qubits] at hq; omega
  · exact lt_numQubits (o := .mrz a) (by simp [blockZ]) (by simp [Op.qubits])

/-! ## Stabilizer measurements -/

theorem foldl_measX {n : ℕ} (hx : List (Vec n)) : ∀ s : Sim, n ≤ numQubits s.ops →
    (hx.foldl measX s) = { s with
      ops := s.ops ++ blocks blockX (numQubits s.ops) hx
      xmeas := s.xmeas ++ (List.range hx.length).map (s.nMeas + ·)
      nMeas := s.nMeas + hx.length } ∧
    numQubits (hx.foldl measX s).ops = numQubits s.ops + hx.length := by
  induction hx with
  | nil => intro s h; simp [blocks]
  | cons r hx ih =>
    intro s h
    have hn : numQubits (measX s r).ops = numQubits s.ops + 1 := by
      have : (measX s r).ops = s.ops ++ blockX (numQubits s.ops) r := by simp [measX, blockX]
      rw [this, numQubits_append, numQubits_blockX _ h]
      omega
    obtain ⟨h1, h2⟩ := ih (measX s r) (by omega)
    rw [List.foldl_cons]
    refine ⟨?_, by rw [h2, hn, List.length_cons]; omega⟩
    rw [h1, hn]
    have e : (measX s r).ops = s.ops ++ blockX (numQubits s.ops) r := by simp [measX, blockX]
    have e2 : (measX s r).xmeas = s.xmeas ++ [s.nMeas] := rfl
    have e3 : (measX s r).nMeas = s.nMeas + 1 := rfl
    rw [e, e2, e3]
    simp only [measX, blocks, List.length_cons, List.range_succ_eq_map, List.map_cons, List.map_map, List.append_assoc,
      List.singleton_append, Nat.add_zero]
    congr 1
    · congr 2
      refine List.map_congr_left fun x _ => ?_
      simp only [Function.comp]; omega
    · omega

theorem foldl_measZ {n : ℕ} (hz : List (Vec n)) : ∀ s : Sim, n ≤ numQubits s.ops →
    (hz.foldl measZ s) = { s with
      ops := s.ops ++ blocks blockZ (numQubits s.ops) hz
      zmeas := s.zmeas ++ (List.range hz.length).map (s.nMeas + ·)
      nMeas := s.nMeas + hz.length } ∧
    numQubits (hz.foldl measZ s).ops = numQubits s.ops + hz.length := by
  induction hz with
  | nil => intro s h; simp [blocks]
  | cons r hz ih =>
    intro s h
    have e : (measZ s r).ops = s.ops ++ blockZ (numQubits s.ops) r := by simp [measZ, blockZ]
    have hn : numQubits (measZ s r).ops = numQubits s.ops + 1 := by
      rw [e, numQubits_append, numQubits_blockZ _ h]
      omega
    obtain ⟨h1, h2⟩ := ih (measZ s r) (by omega)
    rw [List.foldl_cons]
    refine ⟨?_, by rw [h2, hn, List.length_cons]; omega⟩
    rw [h1, hn]
    have e2 : (measZ s r).zmeas = s.zmeas ++ [s.nMeas] := rfl
    have e3 : (measZ s r).nMeas = s.nMeas + 1 := rfl
    rw [e, e2, e3]
    simp only [measZ, blocks, List.length_cons, List.range_succ_eq_map, List.map_cons, List.map_map, List.append_assoc,
      List.singleton_append, Nat.add_zero]
    congr 1
    · congr 2
      refine List.map_congr_left fun x _ => ?_
      simp only [Function.comp]; omega
    · omega

/-! ## Verification measurements -/

theorem record_idle (p : ℚ) (nq : ℕ) (i u : List ℕ) : record (idle p nq i u) = [] := by
  rw [record, List.filter_eq_nil_iff]
  intro o ho
  obtain ⟨x, -, rfl⟩ := List.mem_map.1 ho
  simp [Op.isMeas]

theorem record_append (a b : List Op) : record (a ++ b) = record a ++ record b := List.filter_append ..

/-- The qubits measured by a list of gates, in order. -/
def measuredIn (gs : List Gate) : List ℕ := gs.filterMap fun | .meas q => some q | _ => none

/-- Bookkeeping of the verification measurements after the gates `pre`. -/
structure Ver (pre : List Gate) (s : St) : Prop where
  meas : s.measured = (measuredIn pre).reverse
  recd : record s.ops = s.measured.reverse.map .mr
  n : s.nMeas = s.measured.length
  perm : (s.xver ++ s.zver).Perm (List.range s.nMeas)
  reused : ∀ K, (∀ q ∈ s.measured, q < K) → s.reused = (List.range K).countP fun q => decide (2 ≤ s.measured.count q)

theorem countP_one {l : List ℕ} (hl : l.Nodup) (q : ℕ) (hq : q ∈ l) (f g : ℕ → Bool) (h1 : f q = false) (h2 : g q = true)
    (h3 : ∀ x, x ≠ q → g x = f x) : l.countP g = l.countP f + 1 := by
  induction l with
  | nil => simp at hq
  | cons a l ih =>
    rw [List.nodup_cons] at hl
    by_cases ha : a = q
    · subst ha
      rw [List.countP_cons, List.countP_cons, h1, h2]
      have : l.countP g = l.countP f := List.countP_congr fun x hx => by
        rw [h3 x (fun h => hl.1 (h ▸ hx))]
      simp [this]
    · rw [List.countP_cons, List.countP_cons, h3 a ha, ih hl.2 (by
        rcases List.mem_cons.1 hq with h | h
        · exact absurd h.symm ha
        · exact h)]
      omega

theorem ver_gate {p : ℚ} {nq : ℕ} {par : Bool} {s : St} (pre : List Gate) (g : Gate) (h : Ver pre s) :
    Ver (pre ++ [g]) (gate p nq par s g) := by
  have keep : ∀ s' : St, (measuredIn [g]) = [] → s'.measured = s.measured → record s'.ops = record s.ops → s'.nMeas = s.nMeas →
      s'.xver = s.xver → s'.zver = s.zver → s'.reused = s.reused → Ver (pre ++ [g]) s' := by
    intro s' h0 h1 h2 h3 h4 h5 h6
    have h0' : measuredIn (pre ++ [g]) = measuredIn pre := by
      simp only [measuredIn] at h0 ⊢
      rw [List.filterMap_append, h0, List.append_nil]
    refine ⟨by rw [h1, h.meas, h0'], by rw [h2, h1, h.recd], by rw [h3, h1, h.n], by rw [h4, h5, h3]; exact h.perm, ?_⟩
    intro K hK
    rw [h6, h1]; rw [h1] at hK; exact h.reused K hK
  cases g with
  | h q =>
    refine keep _ rfl ?_ ?_ ?_ ?_ ?_ ?_ <;> simp only [gate] <;> split <;> try split
    all_goals first | rfl | skip
    · rw [record_append]
      have e1 : record [.h q, .noise .dep1 [q] (2 * p / 3)] = [] := by simp [record, Op.isMeas]
      rw [e1, List.append_nil]
    · rw [record_append, record_append, record_idle]
      have e1 : record [.h q, .noise .dep1 [q] (2 * p / 3)] = [] := by simp [record, Op.isMeas]
      rw [e1, List.append_nil, List.append_nil]
  | cx c t =>
    have e1 : record (initCtrl p s c) = [] := by
      by_cases h1 : c ∈ s.inited <;> by_cases h2 : c ∈ s.ctrls <;> simp [initCtrl, h1, h2, record, Op.isMeas]
    have e2 : record (initTarget p (setInit s.inited c) t) = [] := by
      unfold initTarget; split <;> simp [record, Op.isMeas]
    have e3 : record [.cx c t, .noise .dep2 [c, t] p] = [] := by simp [record, Op.isMeas]
    refine keep _ rfl ?_ ?_ ?_ ?_ ?_ ?_ <;> simp only [gate] <;> split
    all_goals first | rfl | skip
    · simp only [record_append, e1, e2, e3, List.append_nil]
    · simp only [record_append, e1, e2, e3, List.append_nil, record_idle]
  | meas q =>
    have hm : (gate p nq par s (.meas q)).measured = q :: s.measured := rfl
    have hn : (gate p nq par s (.meas q)).nMeas = s.nMeas + 1 := rfl
    refine ⟨?_, ?_, ?_, ?_, ?_⟩
    · rw [hm, h.meas]; simp [measuredIn]
    · have : record (gate p nq par s (.meas q)).ops = record s.ops ++ [.mr q] := by
        have e1 : record [.noise .xErr [q] (2 * p / 3), .mr q] = [.mr q] := by simp [record, Op.isMeas]
        cases par
        · simp only [gate, Bool.false_eq_true, if_false]
          rw [record_append, record_idle, List.append_nil, record_append, e1]
        · simp only [gate, if_true]
          rw [record_append, e1]
      rw [this, h.recd, hm]; simp
    · rw [hn, hm, h.n]; rfl
    · rw [hn, List.range_succ]
      have : ((gate p nq par s (.meas q)).xver ++ (gate p nq par s (.meas q)).zver).Perm ((s.xver ++ s.zver) ++ [s.nMeas]) := by
        simp only [gate]
        split
        · rw [List.append_assoc]
        · rw [List.append_assoc, List.append_assoc]
          exact List.Perm.append_left _ List.perm_append_comm
      exact this.trans (h.perm.append_right _)
    · intro K hK
      rw [hm] at hK ⊢
      have hr : (gate p nq par s (.meas q)).reused = if s.measured.count q = 1 then s.reused + 1 else s.reused := rfl
      rw [hr, h.reused K fun x hx => hK x (List.mem_cons_of_mem _ hx)]
      split
      · rename_i h1
        symm
        refine countP_one List.nodup_range q (List.mem_range.2 (hK q (by simp))) _ _ ?_ ?_ ?_
        · rw [decide_eq_false_iff_not]; omega
        · rw [decide_eq_true_eq, List.count_cons_self]; omega
        · intro x hx; rw [List.count_cons_of_ne (Ne.symm hx)]
      · rename_i h1
        refine List.countP_congr fun x _ => ?_
        rw [decide_eq_true_eq, decide_eq_true_eq]
        by_cases hx : x = q
        · subst hx; rw [List.count_cons_self]; omega
        · rw [List.count_cons_of_ne (Ne.symm hx)]
  | other => exact keep _ rfl rfl rfl rfl rfl rfl rfl

/-- The state `to_stim_circ` starts from in `set_p`. -/
def zeroed (nq : ℕ) (p : ℚ) : Sim := { initial nq p with xver := [], zver := [], xmeas := [], zmeas := [], data := [], nMeas := 0, p := p, reused := 0 }

theorem toStim_ver (nq : ℕ) (par : Bool) (p : ℚ) (layers : List (List Gate)) :
    Ver layers.flatten (toStim (zeroed nq p) nq par layers) := by
  have := toStim_induct p nq par Ver (fun pre s g h => ver_gate pre g h) (fun pre s h => ?_) layers []
    ⟨[], [], [], [], [], [], [], [], 0, 0⟩ ?_
  · rw [List.nil_append] at this; exact this
  · refine ⟨h.meas, ?_, h.n, h.perm, h.reused⟩
    simp only [layerStart, record_append]
    rw [h.recd]
    split
    · simp [record]
    · rw [record_idle, List.append_nil]
  · exact ⟨rfl, rfl, rfl, by simp, fun K _ => by simp⟩

theorem record_blocksX {n : ℕ} (hx : List (Vec n)) : ∀ a, record (blocks blockX a hx) = (List.range hx.length).map fun i => .mrx (a + i) := by
  induction hx with
  | nil => intro a; rfl
  | cons r hx ih =>
    intro a
    have e0 : record ((support r).map fun q => Op.cx a q) = [] := by
      rw [record, List.filter_eq_nil_iff]
      intro o ho
      obtain ⟨x, -, rfl⟩ := List.mem_map.1 ho
      simp [Op.isMeas]
    have e : record (blockX a r) = [.mrx a] := by
      rw [blockX, record_append, record_append, e0]
      rfl
    rw [blocks, record_append, e, ih, List.length_cons, List.range_succ_eq_map, List.map_cons, List.map_map]
    simp only [List.singleton_append, Nat.add_zero, List.cons.injEq, true_and]
    refine List.map_congr_left fun x _ => ?_
    simp only [Function.comp]; congr 1; omega

theorem record_blocksZ {n : ℕ} (hz : List (Vec n)) : ∀ a, record (blocks blockZ a hz) = (List.range hz.length).map fun i => .mrz (a + i) := by
  induction hz with
  | nil => intro a; rfl
  | cons r hz ih =>
    intro a
    have e0 : record ((support r).map fun q => Op.cx q a) = [] := by
      rw [record, List.filter_eq_nil_iff]
      intro o ho
      obtain ⟨x, -, rfl⟩ := List.mem_map.1 ho
      simp [Op.isMeas]
    have e : record (blockZ a r) = [.mrz a] := by
      rw [blockZ, record_append, e0]
      rfl
    rw [blocks, record_append, e, ih, List.length_cons, List.range_succ_eq_map, List.map_cons, List.map_map]
    simp only [List.singleton_append, Nat.add_zero, List.cons.injEq, true_and]
    refine List.map_congr_left fun x _ => ?_
    simp only [Function.comp]; congr 1; omega

/-! ## C74 -/

/-- The prepared circuit uses the data qubits `0 … n-1`, each in some CNOT, and ancillas `n … n+a-1`, each of which
is measured once or twice; data qubits are not measured. -/
structure PrepCircuit (n a : ℕ) (gs : List Gate) : Prop where
  range : ∀ g ∈ gs, ∀ q ∈ g.qubits, q < n + a
  data : ∀ q < n, ∃ c t, .cx c t ∈ gs ∧ (q = c ∨ q = t)
  unmeasured : ∀ q < n, .meas q ∉ gs
  ancilla : ∀ q, n ≤ q → q < n + a → (measuredIn gs).count q = 1 ∨ (measuredIn gs).count q = 2

/-- Which qubits the instructions touch. -/
structure Uses (pre : List Gate) (s : St) : Prop where
  inited : ∀ q ∈ s.inited, ∃ g ∈ pre, q ∈ g.qubits
  ops : ∀ o ∈ s.ops, ∀ q ∈ o.qubits, ∃ g ∈ pre, q ∈ g.qubits
  cx : ∀ c t, .cx c t ∈ pre → .cx c t ∈ s.ops
  mr : ∀ q, .meas q ∈ pre → .mr q ∈ s.ops

theorem idle_qubits {p : ℚ} {nq : ℕ} {i u : List ℕ} {o : Op} (ho : o ∈ idle p nq i u) : ∀ q ∈ o.qubits, q ∈ i := by
  obtain ⟨x, hx, rfl⟩ := List.mem_map.1 ho
  have := (List.mem_filter.1 hx).2
  simp only [Bool.and_eq_true, List.contains_iff_mem] at this
  intro q hq
  simp only [Op.qubits, List.mem_singleton] at hq
  rw [hq]; exact this.1

theorem uses_gate {p : ℚ} {nq : ℕ} {par : Bool} {s : St} (pre : List Gate) (g : Gate) (h : Uses pre s) :
    Uses (pre ++ [g]) (gate p nq par s g) := by
  have ex : ∀ {q : ℕ}, (∃ g' ∈ pre, q ∈ g'.qubits) → ∃ g' ∈ pre ++ [g], q ∈ g'.qubits := by
    rintro q ⟨g', h1, h2⟩; exact ⟨g', List.mem_append_left _ h1, h2⟩
  -- the instructions appended by the gate
  have key : ∃ tail : List Op, (gate p nq par s g).ops = s.ops ++ tail ∧
      (∀ q ∈ (gate p nq par s g).inited, q ∈ s.inited ∨ q ∈ g.qubits) ∧
      (∀ o ∈ tail, ∀ q ∈ o.qubits, q ∈ s.inited ∨ q ∈ g.qubits) ∧
      (∀ c t, g = .cx c t → .cx c t ∈ tail) ∧ (∀ q, g = .meas q → .mr q ∈ tail) := by
    cases g with
    | h a =>
      by_cases ha : a ∈ s.inited
      · cases par
        · refine ⟨[.h a, .noise .dep1 [a] (2 * p / 3)] ++ idle p nq s.inited [a], by simp [gate, ha], ?_, ?_, by simp, by simp⟩
          · intro q hq; simp [gate, ha] at hq; exact .inl hq
          · intro o ho q hq
            rcases List.mem_append.1 ho with h1 | h1
            · simp at h1; rcases h1 with rfl | rfl <;> simp [Op.qubits] at hq <;> simp [Gate.qubits, hq]
            · exact .inl (idle_qubits h1 q hq)
        · refine ⟨[.h a, .noise .dep1 [a] (2 * p / 3)], by simp [gate, ha], ?_, ?_, by simp, by simp⟩
          · intro q hq; simp [gate, ha] at hq; exact .inl hq
          · intro o ho q hq
            simp at ho; rcases ho with rfl | rfl <;> simp [Op.qubits] at hq <;> simp [Gate.qubits, hq]
      · refine ⟨[], by simp [gate, ha], ?_, by simp, by simp, by simp⟩
        intro q hq; simp [gate, ha] at hq; exact .inl hq
    | cx c t =>
      have hi : ∀ o ∈ initCtrl p s c ++ initTarget p (setInit s.inited c) t ++ [.cx c t, .noise .dep2 [c, t] p],
          ∀ q ∈ o.qubits, q = c ∨ q = t := by
        intro o ho q hq
        simp only [List.mem_append, initCtrl, initTarget] at ho
        rcases ho with (ho | ho) | ho
        · split at ho
          · simp at ho
          · split at ho <;> simp at ho
            · rcases ho with rfl | rfl <;> simp [Op.qubits] at hq <;> exact .inl hq
            · subst ho; simp [Op.qubits] at hq; exact .inl hq
        · split at ho <;> simp at ho
          subst ho; simp [Op.qubits] at hq; exact .inr hq
        · simp at ho
          rcases ho with rfl | rfl <;> simpa [Op.qubits] using hq
      have hin : ∀ q ∈ setInit (setInit s.inited c) t, q ∈ s.inited ∨ q ∈ (Gate.cx c t).qubits := by
        intro q hq
        rw [mem_setInit, mem_setInit] at hq
        simp only [Gate.qubits, List.mem_cons, List.not_mem_nil, or_false]
        tauto
      cases par
      · refine ⟨(initCtrl p s c ++ initTarget p (setInit s.inited c) t ++ [.cx c t, .noise .dep2 [c, t] p]) ++
          idle p nq (setInit (setInit s.inited c) t) [c, t], by simp [gate], ?_, ?_, ?_, by simp⟩
        · intro q hq; exact hin q (by simpa [gate] using hq)
        · intro o ho q hq
          rcases List.mem_append.1 ho with h1 | h1
          · have := hi o h1 q hq
            right; simpa [Gate.qubits] using this
          · exact hin q (idle_qubits h1 q hq)
        · rintro c' t' ⟨rfl, rfl⟩; simp
      · refine ⟨initCtrl p s c ++ initTarget p (setInit s.inited c) t ++ [.cx c t, .noise .dep2 [c, t] p], by simp [gate], ?_, ?_, ?_, by simp⟩
        · intro q hq; exact hin q (by simpa [gate] using hq)
        · intro o ho q hq
          have := hi o ho q hq
          right; simpa [Gate.qubits] using this
        · rintro c' t' ⟨rfl, rfl⟩; simp
    | meas a =>
      have hin : ∀ q ∈ (gate p nq par s (.meas a)).inited, q ∈ s.inited ∨ q ∈ (Gate.meas a).qubits := by
        intro q hq; simp [gate] at hq; exact .inl hq.1
      cases par
      · refine ⟨[.noise .xErr [a] (2 * p / 3), .mr a] ++ idle p nq s.inited [a], by simp [gate], hin, ?_, by simp, ?_⟩
        · intro o ho q hq
          rcases List.mem_append.1 ho with h1 | h1
          · simp at h1; rcases h1 with rfl | rfl <;> simp [Op.qubits] at hq <;> simp [Gate.qubits, hq]
          · exact .inl (idle_qubits h1 q hq)
        · rintro q ⟨rfl⟩; simp
      · refine ⟨[.noise .xErr [a] (2 * p / 3), .mr a], by simp [gate], hin, ?_, by simp, ?_⟩
        · intro o ho q hq
          simp at ho; rcases ho with rfl | rfl <;> simp [Op.qubits] at hq <;> simp [Gate.qubits, hq]
        · rintro q ⟨rfl⟩; simp
    | other => exact ⟨[], by simp [gate], fun q hq => .inl hq, by simp, by simp, by simp⟩
  obtain ⟨tail, h1, h2, h3, h4, h5⟩ := key
  have lift : ∀ {q : ℕ}, (q ∈ s.inited ∨ q ∈ g.qubits) → ∃ g' ∈ pre ++ [g], q ∈ g'.qubits := by
    rintro q (hq | hq)
    · exact ex (h.inited q hq)
    · exact ⟨g, by simp, hq⟩
  refine ⟨fun q hq => lift (h2 q hq), ?_, ?_, ?_⟩
  · intro o ho q hq
    rw [h1] at ho
    rcases List.mem_append.1 ho with ho | ho
    · exact ex (h.ops o ho q hq)
    · exact lift (h3 o ho q hq)
  · intro c t hct
    rw [h1]
    rcases List.mem_append.1 hct with hct | hct
    · exact List.mem_append_left _ (h.cx c t hct)
    · exact List.mem_append_right _ (h4 c t (List.mem_singleton.1 hct).symm)
  · intro q hq
    rw [h1]
    rcases List.mem_append.1 hq with hq | hq
    · exact List.mem_append_left _ (h.mr q hq)
    · exact List.mem_append_right _ (h5 q (List.mem_singleton.1 hq).symm)

theorem toStim_uses (nq : ℕ) (par : Bool) (p : ℚ) (layers : List (List Gate)) :
    Uses layers.flatten (toStim (zeroed nq p) nq par layers) := by
  have := toStim_induct p nq par Uses (fun pre s g h => uses_gate pre g h) (fun pre s h => ?_) layers []
    ⟨[], [], [], [], [], [], [], [], 0, 0⟩ ?_
  · rw [List.nil_append] at this; exact this
  · refine ⟨h.inited, ?_, fun c t hc => List.mem_append_left _ (h.cx c t hc), fun q hq => List.mem_append_left _ (h.mr q hq)⟩
    intro o ho q hq
    rcases List.mem_append.1 ho with ho | ho
    · exact h.ops o ho q hq
    · split at ho
      · simp at ho
      · exact h.inited q (idle_qubits ho q hq)
  · exact ⟨by simp, by simp, by simp, by simp⟩

theorem sum_count (m : List ℕ) : ∀ (n a : ℕ), (∀ q ∈ m, n ≤ q ∧ q < n + a) →
    ((List.range (n + a)).map fun q => m.count q).sum = m.length := by
  intro n a h
  have : ∀ K, (∀ q ∈ m, q < K) → ((List.range K).map fun q => m.count q).sum = m.length := by
    intro K hK
    induction m with
    | nil => simp
    | cons x m ih =>
      have hx : x < K := hK x (by simp)
      have e : ((List.range K).map fun q => (x :: m).count q) = (List.range K).map fun q => m.count q + (if x = q then 1 else 0) := by
        refine List.map_congr_left fun q _ => ?_
        rw [List.count_cons]; simp
      rw [e, List.sum_map_add, ih (fun q hq => h q (List.mem_cons_of_mem _ hq)) (fun q hq => hK q (List.mem_cons_of_mem _ hq))]
      have : ((List.range K).map fun q => if x = q then 1 else 0).sum = 1 := by
        rw [List.sum_map_eq_nsmul_single x _ (fun a' ha _ => if_neg (Ne.symm ha)), List.count_eq_one_of_mem List.nodup_range
          (List.mem_range.2 hx)]
        simp
      rw [this]; rfl
  exact this _ fun q hq => (h q hq).2

/-- For the circuits `PrepCircuit` describes, the computed number of data qubits is right. -/
theorem dataQubits {n a nq : ℕ} {par : Bool} {p : ℚ} {layers : List (List Gate)} (h : PrepCircuit n a layers.flatten) :
    let t := toStim (zeroed nq p) nq par layers
    numQubits t.ops = n + a ∧ (numQubits t.ops : ℤ) - (t.xver.length + t.zver.length) + t.reused = n := by
  intro t
  have hu := toStim_uses nq par p layers
  have hv := toStim_ver nq par p layers
  have hN : numQubits t.ops = n + a := by
    apply le_antisymm
    · rw [numQubits_le]
      intro o ho q hq
      obtain ⟨g, hg, hgq⟩ := hu.ops o ho q hq
      exact h.range g hg q hgq
    · by_contra hcon
      push Not at hcon
      have hlast : ∃ o ∈ t.ops, (n + a - 1) ∈ o.qubits := by
        rcases Nat.eq_zero_or_pos a with rfl | ha
        · obtain ⟨c, t', hct, hq⟩ := h.data (n - 1) (by omega)
          exact ⟨_, hu.cx c t' hct, by simpa [Op.qubits] using hq⟩
        · have hc := h.ancilla (n + a - 1) (by omega) (by omega)
          have hmem : (n + a - 1) ∈ measuredIn layers.flatten := by
            apply List.count_pos_iff.1; omega
          obtain ⟨g, hg, hgq⟩ := List.mem_filterMap.1 hmem
          cases g with
          | meas q =>
            simp only [Option.some.injEq] at hgq
            subst hgq
            exact ⟨_, hu.mr _ hg, by simp [Op.qubits]⟩
          | _ => simp at hgq
      obtain ⟨o, ho, hq⟩ := hlast
      have := lt_numQubits ho hq
      omega
  refine ⟨hN, ?_⟩
  have hmem : ∀ q ∈ t.measured, n ≤ q ∧ q < n + a := by
    intro q hq
    have hq' : q ∈ t.measured := hq
    rw [hv.meas, List.mem_reverse] at hq'
    obtain ⟨g, hg, hgq⟩ := List.mem_filterMap.1 hq'
    cases g with
    | meas q' =>
      simp only [Option.some.injEq] at hgq
      subst hgq
      refine ⟨?_, h.range _ hg _ (by simp [Gate.qubits])⟩
      by_contra hcon
      exact h.unmeasured _ (by omega) hg
    | _ => simp at hgq
  have hlen : t.xver.length + t.zver.length = t.measured.length := by
    have := hv.perm.length_eq
    rw [List.length_append, List.length_range, hv.n] at this
    exact this
  have hr := hv.reused (n + a) fun q hq => (hmem q hq).2
  have hcnt : ∀ q, n ≤ q → q < n + a → t.measured.count q = 1 ∨ t.measured.count q = 2 := by
    intro q h1 h2
    have : t.measured.count q = (measuredIn layers.flatten).count q := by rw [hv.meas, List.count_reverse]
    rw [this]; exact h.ancilla q h1 h2
  have hsum := sum_count t.measured n a hmem
  have htot : ((List.range (n + a)).map fun q => t.measured.count q).sum =
      a + (List.range (n + a)).countP fun q => decide (2 ≤ t.measured.count q) := by
    have e : (List.range (n + a)) = List.range n ++ (List.range a).map (n + ·) := List.range_add ..
    have z : ∀ q < n, t.measured.count q = 0 := by
      intro q hq
      apply List.count_eq_zero_of_not_mem
      intro hm
      have := (hmem q hm).1
      omega
    rw [e, List.map_append, List.sum_append, List.countP_append]
    have z1 : ((List.range n).map fun q => t.measured.count q).sum = 0 := by
      apply List.sum_eq_zero
      intro x hx
      obtain ⟨q, hq, rfl⟩ := List.mem_map.1 hx
      exact z q (List.mem_range.1 hq)
    have z2 : (List.range n).countP (fun q => decide (2 ≤ t.measured.count q)) = 0 := by
      rw [List.countP_eq_zero]
      intro q hq
      rw [z q (List.mem_range.1 hq)]; simp
    rw [z1, z2]
    clear hsum hr e
    have : ∀ b ≤ a, (((List.range b).map (n + ·)).map fun q => t.measured.count q).sum =
        b + ((List.range b).map (n + ·)).countP fun q => decide (2 ≤ t.measured.count q) := by
      intro b hb
      induction b with
      | zero => simp
      | succ b ih =>
        have := ih (by omega)
        rw [List.range_succ, List.map_append, List.map_append, List.sum_append, List.countP_append, this]
        rcases hcnt (n + b) (by omega) (by omega) with hc | hc <;> simp [hc] <;> omega
    have := this a le_rfl
    omega
  rw [hN, hr]
  have h3 : t.xver.length + t.zver.length = a + (List.range (n + a)).countP fun q => decide (2 ≤ t.measured.count q) := by
    rw [hlen, ← hsum, htot]
  have h4 : (t.xver.length : ℤ) + t.zver.length = a + ((List.range (n + a)).countP fun q => decide (2 ≤ t.measured.count q) : ℕ) := by
    exact_mod_cast h3
  rw [h4]
  push_cast
  ring

/-- C74: for every circuit with the usual qubit layout and every code, the appended instructions measure every
check with a fresh ancilla and every data qubit once, and the index lists name these results in the record: verification
results come first, then the X checks, the Z checks and the data qubits, in order. -/
theorem C74_records {n : ℕ} (a nq : ℕ) (par zero : Bool) (layers : List (List Gate)) (hx hz : List (Vec n)) (p : ℚ)
    (h : PrepCircuit n a layers.flatten) :
    let s := construct nq par zero layers hx hz p
    let circ := (toStim (zeroed nq p) nq par layers).ops
    s.ops = circ ++ blocks blockX (n + a) hx ++ blocks blockZ (n + a + hx.length) hz ++
      (List.range n).map (fun q => if zero then .mrz q else .mrx q) ∧
    (∀ o ∈ circ, ∀ q ∈ o.qubits, q < n + a) ∧
    s.nMeas = (record s.ops).length ∧
    (record circ).length = (measuredIn layers.flatten).length ∧
    (s.xver ++ s.zver).Perm (List.range (record circ).length) ∧
    s.xmeas = (List.range hx.length).map ((record circ).length + ·) ∧
    s.zmeas = (List.range hz.length).map ((record circ).length + hx.length + ·) ∧
    s.data = (List.range n).map ((record circ).length + hx.length + hz.length + ·) := by
  intro s circ
  obtain ⟨hN, hD⟩ := dataQubits (nq := nq) (par := par) (p := p) h
  have hv := toStim_ver nq par p layers
  have hu := toStim_uses nq par p layers
  have hrec : (record circ).length = (toStim (zeroed nq p) nq par layers).nMeas := by
    show (record (toStim (zeroed nq p) nq par layers).ops).length = _
    rw [hv.recd, hv.n]; simp
  set t := toStim (zeroed nq p) nq par layers with ht
  have hs0 : s = measureData zero (measureStabilizers hx hz { zeroed nq p with
      xver := t.xver, zver := t.zver, nMeas := t.nMeas, reused := t.reused, ops := t.ops
      numQubits := (Stim.numQubits t.ops : ℤ) - (t.xver.length + t.zver.length) + t.reused }) := rfl
  rw [hD] at hs0
  rw [measureStabilizers] at hs0
  obtain ⟨x1, x2⟩ := foldl_measX hx ({ zeroed nq p with
      xver := t.xver, zver := t.zver, nMeas := t.nMeas, reused := t.reused, ops := t.ops, numQubits := (n : ℤ) } : Sim)
      (by show n ≤ numQubits t.ops; omega)
  obtain ⟨z1, z2⟩ := foldl_measZ hz (hx.foldl measX ({ zeroed nq p with
      xver := t.xver, zver := t.zver, nMeas := t.nMeas, reused := t.reused, ops := t.ops, numQubits := (n : ℤ) } : Sim))
      (by rw [x2]; show n ≤ numQubits t.ops + _; omega)
  rw [z1, x2, x1] at hs0
  have hN' : numQubits t.ops = n + a := hN
  simp only [measureData, hN', Int.toNat_natCast, zeroed, initial, List.nil_append] at hs0
  have hops : s.ops = circ ++ blocks blockX (n + a) hx ++ blocks blockZ (n + a + hx.length) hz ++
      (List.range n).map (fun q => if zero then .mrz q else .mrx q) := by rw [hs0]
  have hmr : record ((List.range n).map (fun q => if zero then Op.mrz q else .mrx q)) =
      (List.range n).map (fun q => if zero then Op.mrz q else .mrx q) := by
    rw [record, List.filter_eq_self]
    intro o ho
    obtain ⟨q, -, rfl⟩ := List.mem_map.1 ho
    cases zero <;> rfl
  refine ⟨hops, ?_, ?_, ?_, ?_, ?_, ?_, ?_⟩
  · intro o ho q hq
    have := lt_numQubits ho hq
    rw [hN'] at this
    exact this
  · rw [hops, record_append, record_append, record_append, record_blocksX, record_blocksZ, hmr]
    simp only [List.length_append, List.length_map, List.length_range]
    rw [hrec, hs0]
  · rw [hrec, hv.n, hv.meas, List.length_reverse]
  · rw [hrec, hs0]; exact hv.perm
  · rw [hrec, hs0]
  · rw [hrec, hs0]
  · rw [hrec, hs0]

/-- Hypotheses met: a Bell pair with one ancilla measured twice. -/
example : PrepCircuit 2 1 [[Gate.h 0], [.cx 0 1], [.cx 0 2], [.cx 1 2], [.meas 2], [.cx 0 2], [.cx 1 2], [.meas 2]].flatten := by
  refine ⟨by decide, ?_, by decide, ?_⟩
  · intro q hq
    exact ⟨0, 1, by decide, by omega⟩
  · intro q h1 h2
    obtain rfl : q = 2 := by omega
    right; decide

/-- The index lists are right for every circuit on `n` data qubits followed by ancillas. -/
def C74_claim : Prop := ∀ {n : ℕ} (a nq : ℕ) (par zero : Bool) (layers : List (List Gate)) (hx hz : List (Vec n)) (p : ℚ),
  (∀ g ∈ layers.flatten, ∀ q ∈ g.qubits, q < n + a) →
  (construct nq par zero layers hx hz p).data.length = n

/-- C74 fails when an ancilla is measured three times: the number of data qubits is computed too small, and the
last data qubit is never read out. -/
theorem C74_violated : ¬ C74_claim := by
  intro h
  have := h (n := 2) 1 3 true true [[.h 0], [.cx 0 1], [.cx 0 2], [.meas 2], [.cx 0 2], [.meas 2], [.cx 0 2], [.meas 2]]
    [![1, 1]] [![1, 1]] 0 (by decide)
  revert this
  decide +kernel

/-- C74 fails when a data qubit is not in the circuit: it serves as the ancilla of the first check. -/
theorem C74_violated_collision : (construct (n := 3) 3 true true [[.h 0], [.cx 0 1]] [![1, 1, 1]] [] 0).ops.filterMap Op.toGate =
    [.h 0, .cx 0 1, .h 2, .cx 2 0, .cx 2 1, .cx 2 2] := by decide +kernel

/-! ## C75: counting logical errors -/

theorem mapM_dec {α β : Type} (f : α → Option β) (l : List α) (g : α → β) (h : ∀ x ∈ l, f x = some (g x)) :
    l.mapM f = some (l.map g) := by
  induction l with
  | nil => rfl
  | cons a l ih =>
    rw [List.mapM_cons, h a (by simp), ih fun x hx => h x (List.mem_cons_of_mem _ hx)]
    rfl

/-- The measured data bits of a record. -/
def dataBits (n : ℕ) (s : Sim) (r : List (ZMod 2)) : Vec n := fun i => (pick r s.data).getD i.val 0

/-- Counting with any decoder that reproduces syndromes: `H` are the checks that see the error, `S` the stabilizers of
the other kind, `obs` the observables. -/
theorem simulateBatch_counts {n : ℕ} (s : Sim) (zero : Bool) (lx lz H S : List (Vec n)) (dec : List (ZMod 2) → Option (Vec n))
    (est : List (ZMod 2) → Vec n)
    (hdec : ∀ e : Vec n, dec (mulVec H e) = some (est (mulVec H e)) ∧ mulVec H (est (mulVec H e)) = mulVec H e)
    (hobs : ∀ e : Vec n, (∀ r ∈ H, dot r e = 0) → ((∀ l ∈ if zero then lz else lx, dot l e = 0) ↔ e ∈ rowSpan S))
    (hS : ∀ r ∈ H, ∀ v ∈ S, dot r v = 0)
    (records : List (List (ZMod 2))) (err : List (ZMod 2) → Vec n)
    (hrec : ∀ r ∈ kept s records, dataBits n s r + err r ∈ rowSpan S ∧
      pick r (if zero then s.zmeas else s.xmeas) = mulVec H (err r)) :
    ∃ f : List (ZMod 2) → Bool, (∀ r, f r = true ↔ err r + est (mulVec H (err r)) ∉ rowSpan S) ∧
    simulateBatch s zero lx lz dec records = some ((kept s records).countP f,
        records.countP fun r => (pick r (s.xver ++ s.zver)).any (· != 0)) := by
  classical
  refine ⟨fun r => decide (err r + est (mulVec H (err r)) ∉ rowSpan S), fun r => by simp, ?_⟩
  have hdisc : records.length - (kept s records).length = records.countP fun r => (pick r (s.xver ++ s.zver)).any (· != 0) := by
    rw [kept, ← List.countP_eq_length_filter]
    have := List.length_eq_countP_add_countP (fun r : List (ZMod 2) => (pick r (s.xver ++ s.zver)).all (· == 0)) (l := records)
    have e : records.countP (fun r => decide ¬ ((pick r (s.xver ++ s.zver)).all (· == 0)) = true) =
        records.countP fun r => (pick r (s.xver ++ s.zver)).any (· != 0) := by
      refine List.countP_congr fun r _ => ?_
      simp
    omega
  unfold simulateBatch
  by_cases hk : kept s records = []
  · simp only [hk, List.isEmpty_nil, if_true, List.countP_nil]
    rw [← hdisc, hk]; simp
  · have hk' : (kept s records).isEmpty = false := by simpa using hk
    have hmap : ((kept s records).map fun r => pick r (if zero then s.zmeas else s.xmeas)).mapM dec =
        some (((kept s records).map fun r => pick r (if zero then s.zmeas else s.xmeas)).map est) := by
      apply mapM_dec
      intro x hx
      obtain ⟨r, hr, rfl⟩ := List.mem_map.1 hx
      rw [(hrec r hr).2]; exact (hdec (err r)).1
    simp only [hk', Bool.false_eq_true, if_false, hmap]
    show some _ = some _
    congr 2
    rw [List.map_map, List.zipWith_map, List.zipWith_self, List.countP_map]
    refine List.countP_congr fun r hr => ?_
    obtain ⟨h1, h2⟩ := hrec r hr
    simp only [Function.comp, flagged, List.any_eq_true, decide_eq_true_eq]
    rw [h2]
    have hd := (hdec (err r)).2
    set v := est (mulVec H (err r)) with hv
    have hker : ∀ c ∈ H, dot c (err r + v) = 0 := by
      intro c hc
      rw [dot_add_right]
      have : dot c v = dot c (err r) := by
        have := List.map_inj_left.1 hd c hc
        exact this
      rw [this, add_self_eq_zero']
    have hSv : ∀ c ∈ H, ∀ x ∈ rowSpan S, dot c x = 0 := by
      intro c hc x hx
      rw [dot_comm]
      exact dot_eq_zero_of_mem_rowSpan (fun y hy => by rw [dot_comm]; exact hS c hc y hy) hx
    have hsum : dataBits n s r + v = (dataBits n s r + err r) + (err r + v) := by
      rw [add_assoc, ← add_assoc (err r), add_self_eq_zero', zero_add]
    have hkd : ∀ c ∈ H, dot c (dataBits n s r + v) = 0 := by
      intro c hc
      rw [hsum, dot_add_right, hSv c hc _ h1, hker c hc, add_zero]
    have hiff := hobs _ hkd
    have hmem : dataBits n s r + v ∈ rowSpan S ↔ err r + v ∈ rowSpan S := by
      rw [hsum]
      exact Submodule.add_mem_iff_right _ h1
    rw [← hmem, ← hiff]
    push Not
    constructor
    · rintro ⟨l, hl, h⟩
      exact ⟨l, hl, by rwa [dot_comm]⟩
    · rintro ⟨l, hl, h⟩
      exact ⟨l, hl, by rwa [dot_comm]⟩

/-- C75: a batch for the zero state.  If every kept record is a Z-basis reading of a logical zero state (a sum of X
stabilizers) hit by some X error, with the Z syndrome of that error, then the batch reports exactly the number of kept
records whose error, after the decoder's correction, acts non-trivially on the code space, and the number of
records with a verification flag. -/
theorem C75_zero_state (c : CSS.Code) (hb : CSS.Built c) (s : Sim) (initLuts : Bool) (hist : List Lut.Call)
    (records : List (List (ZMod 2))) (err : List (ZMod 2) → Vec c.n)
    (hrec : ∀ r ∈ kept s records, dataBits c.n s r + err r ∈ rowSpan c.hx ∧ pick r s.zmeas = mulVec c.hz (err r)) :
    ∃ (est : List (ZMod 2) → Vec c.n) (f : List (ZMod 2) → Bool),
      (∀ e, (Lut.decodeX (Lut.after c initLuts hist) (mulVec c.hz e)).1 = some (est (mulVec c.hz e))) ∧
      (∀ e, Lut.IsMinWeight c.hz (mulVec c.hz e) (est (mulVec c.hz e))) ∧
      (∀ r, f r = true ↔ err r + est (mulVec c.hz (err r)) ∉ rowSpan c.hx) ∧
      simulateBatch s true c.lx c.lz (fun y => (Lut.decodeX (Lut.after c initLuts hist) y).1) records =
        some ((kept s records).countP f, records.countP fun r => (pick r (s.xver ++ s.zver)).any (· != 0)) := by
  classical
  let est : List (ZMod 2) → Vec c.n := fun y => ((Lut.decodeX (Lut.after c initLuts hist) y).1).getD 0
  have hest : ∀ e, (Lut.decodeX (Lut.after c initLuts hist) (mulVec c.hz e)).1 = some (est (mulVec c.hz e)) ∧
      Lut.IsMinWeight c.hz (mulVec c.hz e) (est (mulVec c.hz e)) := by
    intro e
    obtain ⟨v, h1, h2⟩ := Lut.C23_decode_x_min_weight c initLuts hist (mulVec c.hz e) ⟨e, rfl⟩
    have : est (mulVec c.hz e) = v := by simp only [est, h1, Option.getD_some]
    rw [this]; exact ⟨h1, h2⟩
  have hobs : ∀ e : Vec c.n, (∀ r ∈ c.hz, dot r e = 0) → ((∀ l ∈ if (true : Bool) then c.lz else c.lx, dot l e = 0) ↔ e ∈ rowSpan c.hx) := by
    intro e he
    have := CSS.C10_x_dichotomy c hb e (by
      intro b hb'
      obtain ⟨r, hr, rfl⟩ := List.mem_map.1 hb'
      exact he r hr)
    rw [(CSS.C10_stabilizer_test c e).1, ← Bool.not_eq_true, CSS.Code.checkIfLogicalXError, CSS.any_eq_one_iff] at this
    rw [← this]
    simp only [if_true]
    constructor
    · rintro h ⟨l, hl, h1⟩
      rw [h l hl] at h1; exact absurd h1 (by decide)
    · intro h l hl
      rcases zmod2_cases (dot l e) with h0 | h0
      · exact h0
      · exact absurd ⟨l, hl, h0⟩ h
  obtain ⟨f, hf, hs⟩ := simulateBatch_counts s true c.lx c.lz c.hz c.hx
    (fun y => (Lut.decodeX (Lut.after c initLuts hist) y).1) est (fun e => ⟨(hest e).1, (hest e).2.1⟩) hobs
    (by
      intro r hr v hv
      obtain ⟨lib, -, d, hx, hz, xd, zd, h⟩ := hb
      have := (CSS.C08_ctor_sound lib d _ _ _ _ c h).2.2.2.2.2.1 v hv r hr
      rw [dot_comm]; exact this)
    records err (by intro r hr; simpa using hrec r hr)
  exact ⟨est, f, fun e => (hest e).1, fun e => (hest e).2, hf, hs⟩

/-- Hypotheses met: for every code, X error `e` and X stabilizer `v` there is a simulator and a record with a nonzero
error as in `C75_zero_state`. -/
example (c : CSS.Code) (e v : Vec c.n) (hv : v ∈ rowSpan c.hx) :
    let s : Sim := ⟨0, [], [], [], List.range c.hz.length, (List.range c.n).map (c.hz.length + ·), c.hz.length + c.n, 0, c.n, []⟩
    let r : List (ZMod 2) := mulVec c.hz e ++ List.ofFn (v + e)
    kept s [r] = [r] ∧ dataBits c.n s r + e ∈ rowSpan c.hx ∧ pick r s.zmeas = mulVec c.hz e := by
  intro s r
  have hl : (mulVec c.hz e).length = c.hz.length := by simp [mulVec]
  refine ⟨rfl, ?_, ?_⟩
  · have : dataBits c.n s r = v + e := by
      funext i
      have h2 : c.hz.length + i.val < r.length := by simp [r, hl]
      simp only [dataBits, pick, s, List.map_map]
      rw [List.getD_eq_getElem?_getD, List.getElem?_map, List.getElem?_range i.2]
      simp only [Option.map_some, Function.comp, Option.getD_some]
      rw [List.getD_eq_getElem?_getD, List.getElem?_append_right (by omega), hl]
      simp
    rw [this, add_assoc, add_self_eq_zero', add_zero]
    exact hv
  · simp only [pick, s, r]
    apply List.ext_getElem
    · simp [hl]
    · intro i h1 h2
      simp only [List.length_map, List.length_range] at h1
      simp only [List.getElem_map, List.getElem_range]
      rw [List.getD_eq_getElem?_getD, List.getElem?_append_left h2, List.getElem?_eq_getElem h2]
      rfl

/-- C75: the same for the plus state and Z errors.  Missing: self-dual codes, whose Z table is wrong or absent
(`C24_violated_fresh`, `C24_violated_default`). -/
theorem C75_plus_state_partial (c : CSS.Code) (hb : CSS.Built c) (hsd : c.isSelfDual = false) (s : Sim) (initLuts : Bool)
    (hist : List Lut.Call) (records : List (List (ZMod 2))) (err : List (ZMod 2) → Vec c.n)
    (hrec : ∀ r ∈ kept s records, dataBits c.n s r + err r ∈ rowSpan c.hz ∧ pick r s.xmeas = mulVec c.hx (err r)) :
    ∃ (est : List (ZMod 2) → Vec c.n) (f : List (ZMod 2) → Bool),
      (∀ e, (Lut.decodeZ (Lut.after c initLuts hist) (mulVec c.hx e)).1 = some (est (mulVec c.hx e))) ∧
      (∀ e, Lut.IsMinWeight c.hx (mulVec c.hx e) (est (mulVec c.hx e))) ∧
      (∀ r, f r = true ↔ err r + est (mulVec c.hx (err r)) ∉ rowSpan c.hz) ∧
      simulateBatch s false c.lx c.lz (fun y => (Lut.decodeZ (Lut.after c initLuts hist) y).1) records =
        some ((kept s records).countP f, records.countP fun r => (pick r (s.xver ++ s.zver)).any (· != 0)) := by
  classical
  let est : List (ZMod 2) → Vec c.n := fun y => ((Lut.decodeZ (Lut.after c initLuts hist) y).1).getD 0
  have hest : ∀ e, (Lut.decodeZ (Lut.after c initLuts hist) (mulVec c.hx e)).1 = some (est (mulVec c.hx e)) ∧
      Lut.IsMinWeight c.hx (mulVec c.hx e) (est (mulVec c.hx e)) := by
    intro e
    obtain ⟨v, h1, h2⟩ := Lut.C24_decode_z_partial c initLuts hist (mulVec c.hx e) hsd ⟨e, rfl⟩
    have : est (mulVec c.hx e) = v := by simp only [est, h1, Option.getD_some]
    rw [this]; exact ⟨h1, h2⟩
  have hobs : ∀ e : Vec c.n, (∀ r ∈ c.hx, dot r e = 0) → ((∀ l ∈ if (false : Bool) then c.lz else c.lx, dot l e = 0) ↔ e ∈ rowSpan c.hz) := by
    intro e he
    have := CSS.C10_z_dichotomy c hb e (by
      intro b hb'
      obtain ⟨r, hr, rfl⟩ := List.mem_map.1 hb'
      exact he r hr)
    rw [(CSS.C10_stabilizer_test c e).2, ← Bool.not_eq_true, CSS.Code.checkIfLogicalZError, CSS.any_eq_one_iff] at this
    rw [← this]
    simp only [Bool.false_eq_true, if_false]
    constructor
    · rintro h ⟨l, hl, h1⟩
      rw [h l hl] at h1; exact absurd h1 (by decide)
    · intro h l hl
      rcases zmod2_cases (dot l e) with h0 | h0
      · exact h0
      · exact absurd ⟨l, hl, h0⟩ h
  obtain ⟨f, hf, hs⟩ := simulateBatch_counts s false c.lx c.lz c.hx c.hz
    (fun y => (Lut.decodeZ (Lut.after c initLuts hist) y).1) est (fun e => ⟨(hest e).1, (hest e).2.1⟩) hobs
    (by
      intro r hr v hv
      obtain ⟨lib, -, d, hx, hz, xd, zd, h⟩ := hb
      exact (CSS.C08_ctor_sound lib d _ _ _ _ c h).2.2.2.2.2.1 r hr v hv)
    records err (by intro r hr; simpa using hrec r hr)
  exact ⟨est, f, fun e => (hest e).1, fun e => (hest e).2, hf, hs⟩

end Verif.Stim
