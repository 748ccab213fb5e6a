import Verif.Model.StimSim
import Mathlib.Tactic.Ring
import Mathlib.Data.List.Infix

/-!
# C38: the noisy stim circuit
-/

namespace Verif.Stim
open Verif

/-! ## Changing the error rate -/

/-- C38: after any history of `set_p` calls the simulator is the one constructed with the last rate. -/
theorem C38_history {n : ℕ} (nq : ℕ) (par zero : Bool) (layers : List (List Gate)) (hx hz : List (Vec n)) (p0 p : ℚ)
    (ps : List ℚ) :
    (ps ++ [p]).foldl (setP nq par zero layers hx hz) (construct nq par zero layers hx hz p0) =
      construct nq par zero layers hx hz p := by
  rw [List.foldl_append, List.foldl_cons, List.foldl_nil]
  rfl

/-- An instruction whose noise rate is multiplied by `p`. -/
def Op.scale (p : ℚ) : Op → Op
  | .noise k qs r => .noise k qs (r * p)
  | o => o

theorem scale_qubits (p : ℚ) (o : Op) : (o.scale p).qubits = o.qubits := by cases o <;> rfl

theorem numQubits_scale (p : ℚ) (ops : List Op) : numQubits (ops.map (Op.scale p)) = numQubits ops := by
  unfold numQubits
  induction ops with
  | nil => rfl
  | cons o ops ih => simp only [List.map_cons, List.foldr_cons, scale_qubits, ih]

/-- A state with all rates multiplied by `p`. -/
def St.scale (p : ℚ) (s : St) : St := { s with ops := s.ops.map (Op.scale p) }

theorem idle_scale (p : ℚ) (nq : ℕ) (i u : List ℕ) : idle p nq i u = (idle 1 nq i u).map (Op.scale p) := by
  simp only [idle, List.map_map]
  refine List.map_congr_left fun q _ => ?_
  simp only [Function.comp, Op.scale]
  congr 1; ring

theorem gate_scale (p : ℚ) (nq : ℕ) (par : Bool) (s : St) (g : Gate) :
    gate p nq par (s.scale p) g = (gate 1 nq par s g).scale p := by
  have e : 2 * p / 3 = 2 * 1 / 3 * p := by ring
  have hi := idle_scale p nq
  cases g with
  | h q => cases par <;> by_cases hq : q ∈ s.inited <;>
      simp [gate, St.scale, Op.scale, e, hi, hq]
  | cx c t =>
    have h1 : initCtrl p (s.scale p) c = (initCtrl 1 s c).map (Op.scale p) := by
      by_cases hc : c ∈ s.inited <;> by_cases hd : c ∈ s.ctrls <;> simp [initCtrl, St.scale, hc, hd, Op.scale, e]
    have h2 : initTarget p (setInit s.inited c) t = (initTarget 1 (setInit s.inited c) t).map (Op.scale p) := by
      simp only [initTarget]
      split <;> simp [Op.scale, e]
    simp only [St.scale] at h1
    cases par <;> simp [gate, h1, h2, hi, St.scale, Op.scale]
  | meas q => cases par <;> simp [gate, St.scale, Op.scale, e, hi] <;> rfl
  | other => rfl

theorem layer_scale (p : ℚ) (nq : ℕ) (par : Bool) (s : St) (l : List Gate) :
    layer p nq par (s.scale p) l = (layer 1 nq par s l).scale p := by
  unfold layer
  have h0 : layerStart p nq (s.scale p) = (layerStart 1 nq s).scale p := by
    simp only [layerStart, St.scale, List.map_append]
    congr 2
    by_cases hu : s.used = [] <;> simp [idle_scale p, hu]
  rw [h0]
  generalize layerStart 1 nq s = t
  induction l generalizing t with
  | nil => rfl
  | cons g l ih => rw [List.foldl_cons, List.foldl_cons, gate_scale, ih]

theorem layers_scale (p : ℚ) (nq : ℕ) (par : Bool) (layers : List (List Gate)) : ∀ s : St,
    layers.foldl (layer p nq par) (s.scale p) = (layers.foldl (layer 1 nq par) s).scale p := by
  induction layers with
  | nil => intro s; rfl
  | cons l ls ih => intro s; rw [List.foldl_cons, List.foldl_cons, layer_scale, ih]

/-- A simulator with all rates multiplied by `p`. -/
def Sim.scale (p : ℚ) (s : Sim) : Sim := { s with p := p, ops := s.ops.map (Op.scale p) }

theorem measX_scale {n : ℕ} (p : ℚ) (s : Sim) (r : Vec n) : measX (s.scale p) r = (measX s r).scale p := by
  simp [measX, Sim.scale, numQubits_scale, Op.scale, Function.comp_def]

theorem measZ_scale {n : ℕ} (p : ℚ) (s : Sim) (r : Vec n) : measZ (s.scale p) r = (measZ s r).scale p := by
  simp [measZ, Sim.scale, numQubits_scale, Op.scale, Function.comp_def]

theorem foldl_scale {n : ℕ} (p : ℚ) (f : Sim → Vec n → Sim) (hf : ∀ s r, f (s.scale p) r = (f s r).scale p)
    (l : List (Vec n)) : ∀ s : Sim, l.foldl f (s.scale p) = (l.foldl f s).scale p := by
  induction l with
  | nil => intro s; rfl
  | cons r l ih => intro s; rw [List.foldl_cons, List.foldl_cons, hf, ih]

/-- C38: the circuit for the rate `p` is the circuit for the rate 1 with every noise rate multiplied by `p`; all
measurement bookkeeping is the same. -/
theorem C38_scaling {n : ℕ} (nq : ℕ) (par zero : Bool) (layers : List (List Gate)) (hx hz : List (Vec n)) (p : ℚ) :
    construct nq par zero layers hx hz p = (construct nq par zero layers hx hz 1).scale p := by
  unfold construct setP
  have h0 : toStim { initial nq p with xver := [], zver := [], xmeas := [], zmeas := [], data := [], nMeas := 0, p := p, reused := 0 }
      nq par layers = (toStim { initial nq 1 with xver := [], zver := [], xmeas := [], zmeas := [], data := [], nMeas := 0, p := 1, reused := 0 }
      nq par layers).scale p := by
    unfold toStim
    rw [← layers_scale]
    rfl
  simp only [h0]
  generalize toStim { initial nq 1 with xver := [], zver := [], xmeas := [], zmeas := [], data := [], nMeas := 0, p := 1, reused := 0 }
      nq par layers = t
  simp only [measureStabilizers]
  have h1 : ∀ s s' : Sim, s' = s.scale p → measureData zero (List.foldl measZ (List.foldl measX s' hx) hz) =
      (measureData zero (List.foldl measZ (List.foldl measX s hx) hz)).scale p := by
    rintro s s' rfl
    rw [foldl_scale p measX (measX_scale p), foldl_scale p measZ (measZ_scale p)]
    generalize List.foldl measZ (List.foldl measX s hx) hz = u
    simp only [measureData, Sim.scale, List.map_append, List.map_map]
    congr 2
    refine List.map_congr_left fun q _ => ?_
    cases zero <;> rfl
  refine h1 _ _ ?_
  simp only [Sim.scale, St.scale, numQubits_scale, initial]

/-! ## Every instruction carries its noise -/

/-- The instructions on qubit `q`. -/
def on (q : ℕ) (ops : List Op) : List Op := ops.filter fun o => o.qubits.contains q

/-- The instruction sequences of one qubit: between the start (or a measurement) and the next use the qubit is
initialised with an error of rate `2p/3` (a flip, or a phase flip after the Hadamard that prepares `|+⟩`); every
CNOT is followed by a two-qubit channel of rate `p` on its qubits, every Hadamard by a one-qubit channel, and every
measurement preceded by a flip; idle channels only hit initialised qubits. -/
inductive Noisy (p : ℚ) (q : ℕ) : Bool → List Op → Prop
  | start : Noisy p q false []
  | initX {l} : Noisy p q false l → Noisy p q true (l ++ [.noise .xErr [q] (2 * p / 3)])
  | initH {l} : Noisy p q false l → Noisy p q true (l ++ [.h q, .noise .zErr [q] (2 * p / 3)])
  | cx {l} (c t : ℕ) (h : q = c ∨ q = t) : Noisy p q true l → Noisy p q true (l ++ [.cx c t, .noise .dep2 [c, t] p])
  | h {l} : Noisy p q true l → Noisy p q true (l ++ [.h q, .noise .dep1 [q] (2 * p / 3)])
  | idle {l} : Noisy p q true l → Noisy p q true (l ++ [.noise .dep1 [q] (2 * p / 3)])
  | meas {b l} : Noisy p q b l → Noisy p q false (l ++ [.noise .xErr [q] (2 * p / 3), .mr q])

theorem contains_true {l : List ℕ} {q : ℕ} (h : q ∈ l) : l.contains q = true := List.contains_iff_mem.2 h
theorem contains_false {l : List ℕ} {q : ℕ} (h : q ∉ l) : l.contains q = false := by simpa using h

theorem on_append (q : ℕ) (a b : List Op) : on q (a ++ b) = on q a ++ on q b := List.filter_append ..

/-- Induction over the gates of all layers. -/
theorem toStim_induct (p : ℚ) (nq : ℕ) (par : Bool) (P : List Gate → St → Prop)
    (hgate : ∀ pre s g, P pre s → P (pre ++ [g]) (gate p nq par s g))
    (hstart : ∀ pre s, P pre s → P pre (layerStart p nq s))
    (layers : List (List Gate)) : ∀ pre s, P pre s → P (pre ++ layers.flatten) (layers.foldl (layer p nq par) s) := by
  have hl : ∀ (l : List Gate) pre s, P pre s → P (pre ++ l) (l.foldl (gate p nq par) s) := by
    intro l
    induction l with
    | nil => intro pre s h; simpa using h
    | cons g l ih =>
      intro pre s h
      have := ih _ _ (hgate pre s g h)
      simpa using this
  induction layers with
  | nil => intro pre s h; simpa using h
  | cons l ls ih =>
    intro pre s h
    have := ih _ _ (hl l pre _ (hstart pre s h))
    simpa [layer] using this

theorem on_idle (p : ℚ) (nq q : ℕ) (i u : List ℕ) :
    on q (idle p nq i u) = [] ∨ (q ∈ i ∧ q ∉ u ∧ on q (idle p nq i u) = [.noise .dep1 [q] (2 * p / 3)]) := by
  have h : on q (idle p nq i u) = (((List.range nq).filter fun x => i.contains x && !u.contains x).filter (· == q)).map
      fun x => Op.noise .dep1 [x] (2 * p / 3) := by
    simp only [on, idle, List.filter_map, Op.qubits, Function.comp_def]
    congr 1
    refine List.filter_congr fun x _ => ?_
    rw [Bool.eq_iff_iff, List.contains_iff_mem, beq_iff_eq, List.mem_singleton]
    exact eq_comm
  rw [h]
  have hnd : (((List.range nq).filter fun x => i.contains x && !u.contains x)).Nodup := (List.nodup_range).filter _
  by_cases hq : q ∈ (List.range nq).filter fun x => i.contains x && !u.contains x
  · right
    have hq' := (List.mem_filter.1 hq).2
    simp only [Bool.and_eq_true, List.contains_iff_mem, Bool.not_eq_true'] at hq'
    refine ⟨hq'.1, by simpa using hq'.2, ?_⟩
    rw [List.filter_beq, List.count_eq_one_of_mem hnd hq]
    rfl
  · left
    rw [List.filter_beq, List.count_eq_zero_of_not_mem hq]
    rfl

theorem noisy_idle {p : ℚ} {q : ℕ} {l : List Op} (nq : ℕ) (i u : List ℕ)
    (h : Noisy p q (i.contains q) l) : Noisy p q (i.contains q) (l ++ on q (idle p nq i u)) := by
  rcases on_idle p nq q i u with h0 | ⟨h1, -, h2⟩
  · rw [h0, List.append_nil]; exact h
  · rw [h2]
    rw [contains_true h1] at h ⊢
    exact h.idle

theorem mem_setInit (l : List ℕ) (a q : ℕ) : q ∈ setInit l a ↔ q = a ∨ q ∈ l := by
  unfold setInit
  split
  · rename_i h
    rw [List.contains_iff_mem] at h
    constructor
    · exact .inr
    · rintro (rfl | h')
      · exact h
      · exact h'
  · simp

theorem noisy_gate {p : ℚ} {q nq : ℕ} {par : Bool} {s : St} (g : Gate) (h : Noisy p q (s.inited.contains q) (on q s.ops)) :
    Noisy p q (((gate p nq par s g).inited).contains q) (on q (gate p nq par s g).ops) := by
  cases g with
  | h a =>
    simp only [gate]
    split
    · rename_i ha
      rw [List.contains_iff_mem] at ha
      have h1 : Noisy p q (s.inited.contains q) (on q (s.ops ++ [.h a, .noise .dep1 [a] (2 * p / 3)])) := by
        rw [on_append]
        by_cases hq : q = a
        · subst hq
          rw [contains_true ha] at h ⊢
          simpa [on, Op.qubits] using h.h
        · simpa [on, Op.qubits, hq] using h
      split
      · exact h1
      · rw [on_append]; exact noisy_idle nq _ _ h1
    · exact h
  | cx c t =>
    simp only [gate]
    have h1 : Noisy p q ((setInit s.inited c).contains q) (on q (s.ops ++ initCtrl p s c)) := by
      rw [on_append]
      unfold initCtrl
      by_cases hc : c ∈ s.inited
      · rw [if_pos (by rwa [List.contains_iff_mem])]
        have : (setInit s.inited c).contains q = s.inited.contains q := by
          rw [Bool.eq_iff_iff, List.contains_iff_mem, List.contains_iff_mem, mem_setInit]
          constructor
          · rintro (rfl | h')
            · exact hc
            · exact h'
          · exact .inr
        rw [this]
        simpa [on] using h
      · rw [if_neg (by rwa [List.contains_iff_mem])]
        by_cases hq : q = c
        · subst hq
          rw [contains_true ((mem_setInit _ _ _).2 (.inl rfl))]
          rw [contains_false hc] at h
          split
          · simpa [on, Op.qubits] using h.initH
          · simpa [on, Op.qubits] using h.initX
        · have : (setInit s.inited c).contains q = s.inited.contains q := by
            rw [Bool.eq_iff_iff, List.contains_iff_mem, List.contains_iff_mem, mem_setInit]; simp [hq]
          rw [this]
          split <;> simpa [on, Op.qubits, hq] using h
    have h2 : Noisy p q ((setInit (setInit s.inited c) t).contains q) (on q (s.ops ++ initCtrl p s c ++ initTarget p (setInit s.inited c) t)) := by
      rw [on_append]
      unfold initTarget
      by_cases hc : t ∈ setInit s.inited c
      · rw [if_pos (by rwa [List.contains_iff_mem])]
        have : (setInit (setInit s.inited c) t).contains q = (setInit s.inited c).contains q := by
          rw [Bool.eq_iff_iff, List.contains_iff_mem, List.contains_iff_mem, mem_setInit _ t]
          constructor
          · rintro (rfl | h')
            · exact hc
            · exact h'
          · exact .inr
        rw [this]
        simpa [on] using h1
      · rw [if_neg (by rwa [List.contains_iff_mem])]
        by_cases hq : q = t
        · subst hq
          rw [contains_true ((mem_setInit _ _ _).2 (.inl rfl))]
          rw [contains_false hc] at h1
          simpa [on, Op.qubits] using h1.initX
        · have : (setInit (setInit s.inited c) t).contains q = (setInit s.inited c).contains q := by
            rw [Bool.eq_iff_iff, List.contains_iff_mem, List.contains_iff_mem, mem_setInit _ t]; simp [hq]
          rw [this]
          simpa [on, Op.qubits, hq] using h1
    have h3 : Noisy p q ((setInit (setInit s.inited c) t).contains q)
        (on q (s.ops ++ initCtrl p s c ++ initTarget p (setInit s.inited c) t ++ [.cx c t, .noise .dep2 [c, t] p])) := by
      rw [on_append]
      by_cases hq : q = c ∨ q = t
      · have : q ∈ setInit (setInit s.inited c) t := by
          rw [mem_setInit, mem_setInit]; tauto
        rw [contains_true this] at h2 ⊢
        have := h2.cx c t hq
        simpa [on, Op.qubits, hq] using this
      · push Not at hq
        simpa [on, Op.qubits, hq.1, hq.2] using h2
    split
    · exact h3
    · rw [on_append]; exact noisy_idle nq _ _ h3
  | meas a =>
    simp only [gate]
    by_cases hq : q = a
    · subst hq
      have hf : (s.inited.filter (· ≠ q)).contains q = false := by simp
      rw [hf]
      have h1 : Noisy p q false (on q (s.ops ++ [.noise .xErr [q] (2 * p / 3), .mr q])) := by
        rw [on_append]; simpa [on, Op.qubits] using h.meas
      split
      · exact h1
      · rw [on_append]
        rcases on_idle p nq q s.inited [q] with h0 | ⟨-, h2, -⟩
        · rw [h0, List.append_nil]; exact h1
        · simp at h2
    · have hf : (s.inited.filter (· ≠ a)).contains q = s.inited.contains q := by simp [hq]
      rw [hf]
      have h1 : Noisy p q (s.inited.contains q) (on q (s.ops ++ [.noise .xErr [a] (2 * p / 3), .mr a])) := by
        rw [on_append]; simpa [on, Op.qubits, hq] using h
      split
      · exact h1
      · rw [on_append]; exact noisy_idle nq _ _ h1
  | other => exact h

/-- C38: in the circuit of every layered input, for every qubit, every initialisation, gate, idle step and measurement carries
its own noise channel with the documented rate. -/
theorem C38_noise (s : Sim) (nq : ℕ) (par : Bool) (layers : List (List Gate)) (q : ℕ) :
    ∃ b, Noisy s.p q b (on q (toStim s nq par layers).ops) := by
  refine ⟨_, toStim_induct s.p nq par (fun _ t => Noisy s.p q (t.inited.contains q) (on q t.ops)) (fun _ _ g h => noisy_gate g h)
    (fun _ t h => ?_) layers [] _ ?_⟩
  · simp only [layerStart, on_append]
    split
    · simpa [on] using h
    · exact noisy_idle nq _ _ h
  · simpa [on] using Noisy.start

end Verif.Stim
