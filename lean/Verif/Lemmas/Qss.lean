import Verif.Spec.Qss
import Verif.Props.AnalogTanner

/-!
# The loop of a quasi-single-shot sample
-/

namespace Verif.Qss
open Verif Analog AnalogTanner Gauss

variable {k m n : ℕ}

/-! ### The descriptions do not change when the sample goes on -/

theorem valuesAt_append {log : List (Vec n × (Fin m → ℝ))} {j : ℕ} (h : j < log.length) (l' : List (Vec n × (Fin m → ℝ))) :
    valuesAt (log ++ l') j = valuesAt log j := by
  unfold valuesAt
  rw [List.getElem?_append_left h]

theorem errorAt_append {log : List (Vec n × (Fin m → ℝ))} {j : ℕ} (h : j < log.length) (l' : List (Vec n × (Fin m → ℝ))) :
    errorAt (log ++ l') j = errorAt log j := by
  unfold errorAt
  rw [List.getElem?_append_left h]

theorem valuesAt_last (log : List (Vec n × (Fin m → ℝ))) (p : Vec n × (Fin m → ℝ)) : valuesAt (log ++ [p]) log.length = p.2 := by
  unfold valuesAt
  rw [List.getElem?_append_right le_rfl, Nat.sub_self]
  rfl

theorem errorAt_last (log : List (Vec n × (Fin m → ℝ))) (p : Vec n × (Fin m → ℝ)) : errorAt (log ++ [p]) log.length = p.1 := by
  unfold errorAt
  rw [List.getElem?_append_right le_rfl, Nat.sub_self]
  rfl

theorem correctionAt_append (bp : Solver) {T : ℕ} {calls : List (WCall k m n)} {j : ℕ}
    (h : k ≤ j → T ∣ j - k → (j - k) / T < calls.length) (cs : List (WCall k m n)) :
    correctionAt bp T (calls ++ cs) j = correctionAt bp T calls j := by
  unfold correctionAt
  split
  · rename_i hj
    rw [List.getElem?_append_left (h hj.1 hj.2)]
  · rfl

/-- All complete windows have been decoded. -/
def Decoded (k T : ℕ) (calls len : ℕ) : Prop := ∀ w, w * T + (k + 1) ≤ len → w < calls

theorem residualBefore_append (bp : Solver) {T : ℕ} (hT : 0 < T) {log : List (Vec n × (Fin m → ℝ))} {calls : List (WCall k m n)}
    (hd : Decoded k T calls.length log.length) (l' : List (Vec n × (Fin m → ℝ))) (cs : List (WCall k m n)) {j : ℕ} (h : j ≤ log.length) :
    residualBefore bp T (log ++ l') (calls ++ cs) j = residualBefore bp T log calls j := by
  cases j with
  | zero => rfl
  | succ j =>
    simp only [residualBefore]
    rw [errorAt_append h, correctionAt_append bp]
    intro h1 h2
    apply hd
    rw [Nat.div_mul_cancel h2]
    omega

theorem carried_append (bp : Solver) (H : Mat m n) {T : ℕ} {calls : List (WCall k m n)} (cs : List (WCall k m n)) (r : ℕ) {w : ℕ}
    (h : w ≤ calls.length) : carried bp H T (calls ++ cs) r w = carried bp H T calls r w := by
  cases w with
  | zero => rfl
  | succ w =>
    simp only [carried]
    rw [List.getElem?_append_left h]

theorem windowBits_append (bp : Solver) (H : Mat m n) {T : ℕ} {log : List (Vec n × (Fin m → ℝ))} {calls : List (WCall k m n)}
    (l' : List (Vec n × (Fin m → ℝ))) (cs : List (WCall k m n)) {w : ℕ} (h : w ≤ calls.length) (i : Fin m) (r : Fin (k + 1))
    (hr : w * T + r.val < log.length) : windowBits bp H T (log ++ l') (calls ++ cs) w i r = windowBits bp H T log calls w i r := by
  unfold windowBits
  rw [valuesAt_append hr, carried_append bp H cs r.val h]

/-! ### The invariant -/

/-- The draws of the errors. -/
noncomputable def drawn (s : Sim k m n) (u : Fin n → ℝ) (e : Vec n) : Vec n :=
  (if s.errIdx then Prod.snd else Prod.fst) (generateErr (fun _ => s.bits.1) (fun _ => s.bits.2.1) (fun _ => s.bits.2.2) u e e)

/-- The errors, values and calls up to now. -/
structure Past (bp : Solver) (s : Sim k m n) (T : ℕ) (own sigma : ℝ) (rounds : List (Draws m n)) (log : List (Vec n × (Fin m → ℝ)))
    (calls : List (WCall k m n)) : Prop where
  errors : ∀ j d, j < log.length → rounds[j]? = some d → errorAt log j = drawn s d.u (residualBefore bp T log calls j)
  values : ∀ j d, j < log.length → rounds[j]? = some d →
    valuesAt log j = noisyAnalog (apply s.H (errorAt log j)) (if j + 1 = rounds.length then 0 else sigma) d.g
  asked : ∀ w c, calls[w]? = some c → w * T + (k + 1) ≤ log.length ∧ c.last = decide (w * T + (k + 1) = rounds.length) ∧ c.pcm = s.H3D ∧
    c.soft = Soft.updated s.method (windowPriors own sigma T log w c.last) ∧ c.syn = flattenF (diffSyndrome (windowBits bp s.H T log calls w))

/-- The state before a round. -/
structure Inv (bp : Solver) (s : Sim k m n) (T : ℕ) (own sigma : ℝ) (rounds : List (Draws m n)) (q : State k m n) : Prop where
  past : Past bp s T own sigma rounds q.log q.calls
  len : q.log.length = q.calls.length * T + q.cnt
  lt : q.cnt < k + 1
  half : q.calls ≠ [] → T ≤ q.cnt
  err : q.err = residualBefore bp T q.log q.calls q.log.length
  amat : ∀ i r, q.amat i r = if r.val < q.cnt then valuesAt q.log (q.calls.length * T + r.val) i else 0
  mat : ∀ i r, q.mat i r = if r.val < q.cnt then windowBits bp s.H T q.log q.calls q.calls.length i r else 0

theorem Inv.decoded {bp : Solver} {s : Sim k m n} {T : ℕ} {own sigma : ℝ} {rounds : List (Draws m n)} {q : State k m n}
    (h : Inv bp s T own sigma rounds q) (hT : 0 < T) : Decoded k T q.calls.length q.log.length := by
  intro w hw
  rw [h.len] at hw
  by_contra hn
  have := Nat.mul_le_mul_right T (not_lt.1 hn)
  have := h.lt
  omega

theorem Past.log_append {bp : Solver} {s : Sim k m n} {T : ℕ} (hT : 0 < T) {own sigma : ℝ} {rounds : List (Draws m n)}
    {log : List (Vec n × (Fin m → ℝ))} {calls : List (WCall k m n)} (h : Past bp s T own sigma rounds log calls)
    (hd : Decoded k T calls.length log.length) (p : Vec n × (Fin m → ℝ))
    (he : ∀ d, rounds[log.length]? = some d → p.1 = drawn s d.u (residualBefore bp T log calls log.length))
    (hv : ∀ d, rounds[log.length]? = some d → p.2 = noisyAnalog (apply s.H p.1) (if log.length + 1 = rounds.length then 0 else sigma) d.g) :
    Past bp s T own sigma rounds (log ++ [p]) calls := by
  have hb : ∀ j, j ≤ log.length → residualBefore bp T (log ++ [p]) calls j = residualBefore bp T log calls j := by
    intro j hj
    have := residualBefore_append bp hT hd [p] [] hj
    rwa [List.append_nil] at this
  refine ⟨fun j d hj hr => ?_, fun j d hj hr => ?_, fun w c hc => ?_⟩
  · rw [List.length_append, List.length_singleton] at hj
    rcases Nat.lt_succ_iff_lt_or_eq.1 hj with h1 | rfl
    · rw [errorAt_append h1, hb _ h1.le, h.errors j d h1 hr]
    · rw [errorAt_last, hb _ le_rfl, he d hr]
  · rw [List.length_append, List.length_singleton] at hj
    rcases Nat.lt_succ_iff_lt_or_eq.1 hj with h1 | rfl
    · rw [errorAt_append h1, valuesAt_append h1, h.values j d h1 hr]
    · rw [errorAt_last, valuesAt_last, hv d hr]
  · obtain ⟨a1, a2, a3, a4, a5⟩ := h.asked w c hc
    have hw : w < calls.length := (List.getElem?_eq_some_iff.1 hc).1
    refine ⟨by rw [List.length_append]; omega, a2, a3, ?_, ?_⟩
    · rw [a4]
      congr 1
      unfold windowPriors
      congr 1
      funext j
      rw [valuesAt_append (by have := j.divNat.isLt; omega)]
    · rw [a5]
      congr 2
      funext i r
      have := windowBits_append bp s.H (T := T) [p] [] hw.le i r (show w * T + r.val < log.length by have := r.isLt; omega)
      rw [List.append_nil] at this
      exact this.symm

theorem Past.calls_append {bp : Solver} {s : Sim k m n} {T : ℕ} (hT : 0 < T) {own sigma : ℝ} {rounds : List (Draws m n)}
    {log : List (Vec n × (Fin m → ℝ))} {calls : List (WCall k m n)} (h : Past bp s T own sigma rounds log calls)
    (hl : log.length = calls.length * T + (k + 1)) (c : WCall k m n) (hl' : c.last = decide (calls.length * T + (k + 1) = rounds.length))
    (hp : c.pcm = s.H3D) (hs : c.soft = Soft.updated s.method (windowPriors own sigma T log calls.length c.last))
    (hy : c.syn = flattenF (diffSyndrome (windowBits bp s.H T log calls calls.length))) :
    Past bp s T own sigma rounds log (calls ++ [c]) := by
  have hb : ∀ j, j < log.length → residualBefore bp T log (calls ++ [c]) j = residualBefore bp T log calls j := by
    intro j hj
    cases j with
    | zero => rfl
    | succ j =>
      simp only [residualBefore]
      rw [correctionAt_append bp]
      intro h1 h2
      rw [Nat.div_lt_iff_lt_mul hT]
      omega
  have hwb : ∀ w, w ≤ calls.length → windowBits bp s.H T log (calls ++ [c]) w = windowBits bp s.H T log calls w := by
    intro w hw
    funext i r
    unfold windowBits
    rw [carried_append bp s.H [c] r.val hw]
  refine ⟨fun j d hj hr => ?_, h.values, fun w c' hc => ?_⟩
  · rw [hb j hj, h.errors j d hj hr]
  · by_cases hw : w < calls.length
    · rw [List.getElem?_append_left hw] at hc
      rw [hwb w hw.le]
      exact h.asked w c' hc
    · have hw' : w = calls.length := by
        have := (List.getElem?_eq_some_iff.1 hc).1
        rw [List.length_append, List.length_singleton] at this
        omega
      subst hw'
      rw [List.getElem?_append_right le_rfl, Nat.sub_self] at hc
      obtain rfl : c = c' := by simpa using hc
      exact ⟨hl.ge, hl', hp, hs, by rw [hwb _ le_rfl, hy]⟩

/-! ### One round -/

theorem binary_noiseless (v : Vec m) (g : Fin m → ℝ) : binaryFromAnalog (noisyAnalog v 0 g) = v := by
  have h01 : ∀ x : ZMod 2, x = 0 ∨ x = 1 := by decide
  funext i
  unfold binaryFromAnalog noisyAnalog
  rcases h01 (v i) with h | h
  · rw [h, if_pos rfl, zero_mul, add_zero, if_neg (by norm_num)]
  · rw [h, if_neg (show ¬ (1 : ZMod 2) = 0 by decide), zero_mul, add_zero, if_pos (by norm_num)]

/-- The state after the measurement of a round. -/
structure Measured (bp : Solver) (s : Sim k m n) (T : ℕ) (own sigma : ℝ) (rounds : List (Draws m n)) (q : State k m n) : Prop where
  past : Past bp s T own sigma rounds q.log q.calls
  len : q.log.length = q.calls.length * T + q.cnt
  pos : 0 < q.cnt
  half : q.calls ≠ [] → T < q.cnt
  err : q.err = errorAt q.log (q.log.length - 1)
  amat : ∀ i r, q.amat i r = if r.val < q.cnt then valuesAt q.log (q.calls.length * T + r.val) i else 0
  mat : ∀ i r, q.mat i r = if r.val < q.cnt then windowBits bp s.H T q.log q.calls q.calls.length i r else 0

theorem measured {bp : Solver} {s : Sim k m n} {T : ℕ} (hT : 0 < T) {own sigma : ℝ} {rounds : List (Draws m n)} {q : State k m n}
    (h : Inv bp s T own sigma rounds q) (d : Draws m n) (hd : rounds[q.log.length]? = some d) (last : Bool)
    (hl : last = decide (q.log.length + 1 = rounds.length)) : Measured bp s T own sigma rounds (measure s sigma q d last) := by
  set e : Vec n := drawn s d.u q.err with he
  set y : Fin m → ℝ := noisyAnalog (apply s.H e) (if last then 0 else sigma) d.g with hy
  have hmeas : measure s sigma q d last = { q with
      err := e, mat := addColumn q.mat q.cnt (if last then apply s.H e else binaryFromAnalog y), amat := addAnalog q.amat q.cnt y,
      cnt := q.cnt + 1, log := q.log ++ [(e, y)] } := by
    unfold measure
    have : (if s.errIdx then (generateErr (fun _ => s.bits.1) (fun _ => s.bits.2.1) (fun _ => s.bits.2.2) d.u q.err q.err).2
        else (generateErr (fun _ => s.bits.1) (fun _ => s.bits.2.1) (fun _ => s.bits.2.2) d.u q.err q.err).1) = e := by
      rw [he]; unfold drawn; cases s.errIdx <;> rfl
    simp only [this, hy]
  have hb : (if last then apply s.H e else binaryFromAnalog y) = binaryFromAnalog y := by
    cases last with
    | false => rfl
    | true => rw [if_pos rfl, hy, if_pos rfl, binary_noiseless]
  rw [hmeas, hb]
  have hdec := h.decoded hT
  have hlog : (q.log ++ [(e, y)]).length = q.log.length + 1 := by simp
  have hlen := h.len
  have hlt := h.lt
  refine ⟨?_, ?_, ?_, ?_, ?_, ?_, ?_⟩
  · refine h.past.log_append hT hdec (e, y) (fun d' hd' => ?_) fun d' hd' => ?_
    · rw [hd] at hd'; cases hd'
      rw [he, h.err]
    · rw [hd] at hd'; cases hd'
      simp only
      rw [hy, hl]
      simp only [decide_eq_true_eq]
  · simp only [hlog]; omega
  · simp only; omega
  · intro hne
    have := h.half hne
    simp only; omega
  · simp only [hlog]
    rw [Nat.add_sub_cancel, errorAt_last]
  · intro i r
    simp only [addAnalog]
    rw [h.amat i r]
    by_cases h1 : r.val = q.cnt
    · rw [if_pos h1, if_neg (by omega), if_pos (by omega), zero_add, h1, ← hlen, valuesAt_last]
    · rw [if_neg h1]
      by_cases h2 : r.val < q.cnt
      · rw [if_pos h2, if_pos (by omega), valuesAt_append (by omega)]
      · rw [if_neg h2, if_neg (by omega)]
  · intro i r
    simp only [addColumn]
    rw [h.mat i r]
    by_cases h1 : r.val = q.cnt
    · rw [if_pos h1, if_neg (by omega), if_pos (by omega), zero_add]
      unfold windowBits
      rw [h1, ← hlen, valuesAt_last]
      by_cases h2 : q.cnt < T
      · have h3 : q.calls = [] := by
          by_contra hne
          have := h.half hne
          omega
        rw [h3]
        simp [carried]
      · rw [if_neg h2, add_zero]
    · rw [if_neg h1]
      by_cases h2 : r.val < q.cnt
      · rw [if_pos h2, if_pos (by omega)]
        have := windowBits_append bp s.H (T := T) (log := q.log) (calls := q.calls) [(e, y)] [] le_rfl i r (by omega)
        rw [List.append_nil] at this
        exact this.symm
      · rw [if_neg h2, if_neg (by omega)]

theorem Measured.residual {bp : Solver} {s : Sim k m n} {T : ℕ} {own sigma : ℝ} {rounds : List (Draws m n)} {q : State k m n}
    (h : Measured bp s T own sigma rounds q) (calls : List (WCall k m n)) :
    residualBefore bp T q.log calls q.log.length = q.err + correctionAt bp T calls (q.log.length - 1) := by
  have : q.log.length = q.log.length - 1 + 1 := by have := h.len; have := h.pos; omega
  rw [this]
  simp only [residualBefore, Nat.add_sub_cancel]
  rw [h.err]

/-- A round that does not fill the window. -/
theorem Measured.next {bp : Solver} {s : Sim k m n} {T : ℕ} (hk : k + 1 = 2 * T) {own sigma : ℝ} {rounds : List (Draws m n)}
    {q : State k m n} (h : Measured bp s T own sigma rounds q) (hlt : q.cnt < k + 1) : Inv bp s T own sigma rounds q := by
  refine ⟨h.past, h.len, hlt, fun hne => (h.half hne).le, ?_, h.amat, h.mat⟩
  rw [h.residual]
  unfold correctionAt
  rw [if_neg, add_zero]
  rintro ⟨h1, c, hc⟩
  have hlen := h.len
  have hpos := h.pos
  by_cases h0 : q.calls = []
  · rw [h0] at hlen
    simp only [List.length_nil, Nat.zero_mul, Nat.zero_add] at hlen
    omega
  · have hh := h.half h0
    have e : q.calls.length * T + q.cnt = T * c + 2 * T := by omega
    have e2 : q.cnt = T * (c + 2) - T * q.calls.length := by
      rw [Nat.mul_comm T q.calls.length, Nat.mul_add]; omega
    rw [← Nat.mul_sub] at e2
    have h3 : T * 1 < T * (c + 2 - q.calls.length) := by omega
    have h4 : T * (c + 2 - q.calls.length) < T * 2 := by omega
    have h5 := Nat.lt_of_mul_lt_mul_left h3
    have h6 := Nat.lt_of_mul_lt_mul_left h4
    omega

/-! ### A full window -/

theorem newChannel_eq (s : Sim k m n) (T : ℕ) (own sigma : ℝ) (hs : 0 < sigma) (hm : 0 < m)
    (hp : ∀ i : Fin ((k + 1) * n), s.channelProbs (Fin.castAdd _ i) = .fin own) (q : State k m n) (last : Bool)
    (ha : ∀ i r, q.amat i r = valuesAt q.log (q.calls.length * T + r.val) i) :
    newChannel s (.fin sigma) q.amat last = windowPriors own sigma T q.log q.calls.length last := by
  have hval : ∀ j : Fin ((k + 1) * m), virtualInit (q.amat j.modNat j.divNat) (.fin sigma) =
      .fin (posteriorWrong sigma (valuesAt q.log (q.calls.length * T + j.divNat.val) j.modNat)) := by
    intro j
    rw [ha, (C109_posterior sigma _ hs).1]
  have hidx : ∀ j : Fin ((k + 1) * m), ((k + 1) * n + (k + 1) * m - m ≤ (k + 1) * n + j.val) ↔ j.divNat.val = k := by
    intro j
    have e1 : (k + 1) * m = k * m + m := by ring
    have hd : j.divNat.val = j.val / m := rfl
    have hj := j.isLt
    rw [hd]
    constructor
    · intro h
      have h1 : k * m ≤ j.val := by omega
      apply le_antisymm
      · have : j.val / m < k + 1 := (Nat.div_lt_iff_lt_mul hm).2 hj
        omega
      · exact (Nat.le_div_iff_mul_le hm).2 h1
    · intro h
      have : k * m ≤ j.val := by
        have := Nat.div_mul_le_self j.val m
        rwa [h] at this
      omega
  unfold newChannel windowPriors
  funext i
  cases last with
  | false =>
    simp only [Bool.false_eq_true, if_false, false_and]
    refine Fin.addCases (fun a => ?_) (fun b => ?_) i
    · rw [Fin.append_left, Fin.append_left, hp]
    · rw [Fin.append_right, Fin.append_right, hval]
  | true =>
    simp only [if_true, true_and]
    refine Fin.addCases (fun a => ?_) (fun b => ?_) i
    · rw [Fin.append_left, Fin.append_left, hp, if_neg]
      rintro (h | h)
      · omega
      · have h1 : a.val < (k + 1) * n := a.isLt
        have e1 : (k + 1) * m = k * m + m := by ring
        simp only [Fin.val_castAdd] at h
        omega
    · rw [Fin.append_right, Fin.append_right, hval]
      by_cases hb : b.divNat.val = k
      · rw [if_pos hb, if_pos]
        right
        simp only [Fin.val_natAdd]
        exact (hidx b).2 hb
      · rw [if_neg hb, if_neg]
        rintro (h | h)
        · omega
        · simp only [Fin.val_natAdd] at h
          exact hb ((hidx b).1 h)

theorem window_eq {bp : Solver} {s : Sim k m n} {T : ℕ} (hk : k + 1 = 2 * T) {own sigma : ℝ} (hs : 0 < sigma) (hm : 0 < m)
    (hp : ∀ i : Fin ((k + 1) * n), s.channelProbs (Fin.castAdd _ i) = .fin own) {rounds : List (Draws m n)}
    {q : State k m n} (h : Measured bp s T own sigma rounds q) (hc : q.cnt = k + 1) (last : Bool)
    (hl : last = decide (q.log.length = rounds.length)) :
    ∃ c, (window bp s (.fin sigma) q last).1 = c ∧ c.last = last ∧ Past bp s T own sigma rounds q.log (q.calls ++ [c]) ∧
      (window bp s (.fin sigma) q last).2.1.1 = correction bp T c ∧
      (last = false → (window bp s (.fin sigma) q last).2.1.2 =
        commit s.H (windowBits bp s.H T q.log q.calls q.calls.length) T (correction bp T c) (timeFlip bp T c)) := by
  have hT : 0 < T := by omega
  have ha : ∀ i r, q.amat i r = valuesAt q.log (q.calls.length * T + r.val) i := fun i r => by
    rw [h.amat, if_pos (by have := r.isLt; omega)]
  have hmat : q.mat = windowBits bp s.H T q.log q.calls q.calls.length := by
    funext i r
    rw [h.mat, if_pos (by have := r.isLt; omega)]
  have hlen := h.len
  rw [hc] at hlen
  have hn := newChannel_eq s T own sigma hs hm hp q last ha
  have hR : (k + 1) / 2 = T := by omega
  refine ⟨_, rfl, rfl, ?_, ?_, ?_⟩
  · apply h.past.calls_append hT hlen
    · show last = _
      rw [hl, hlen]
    · rfl
    · show Soft.updated s.method (newChannel s (.fin sigma) q.amat last) = _
      rw [hn]
      rfl
    · show flattenF (diffSyndrome q.mat) = _
      rw [hmat]
  · unfold window decodeMultiround correction answerOf cumsumCol
    cases last with
    | true =>
      simp only [if_true]
      funext x
      refine Finset.sum_congr rfl fun r _ => ?_
      rw [if_pos (by have := r.isLt; omega), if_pos (.inl trivial)]
    | false =>
      simp only [Bool.false_eq_true, if_false, false_or]
      funext x
      refine Finset.sum_congr rfl fun r _ => ?_
      rw [hR]
      by_cases hr : r.val < T
      · rw [if_pos (by omega), if_pos hr]
      · rw [if_neg (by omega), if_neg hr]
  · intro hf
    subst hf
    have e1 : ∀ d : Vec ((k + 1) * n + (k + 1) * m), cumsumCol (spaceCorrection d) ((k + 1) / 2 - 1) =
        fun x => ∑ r : Fin (k + 1), if (false = true ∨ r.val < T) then spaceCorrection d x r else 0 := by
      intro d
      funext x
      unfold cumsumCol
      refine Finset.sum_congr rfl fun r _ => ?_
      rw [hR]
      by_cases hr : r.val < T
      · rw [if_pos (by omega), if_pos (.inr hr)]
      · rw [if_neg (by omega), if_neg (by rintro (h | h); exacts [absurd h (by decide), hr h])]
    have e2 : ∀ d : Vec ((k + 1) * n + (k + 1) * m), (fun i => ∑ r : Fin (k + 1), if r.val = (k + 1) / 2 - 1 then timeCorrection d i r else 0) =
        fun i => ∑ r : Fin (k + 1), if r.val + 1 = T then timeCorrection d i r else 0 := by
      intro d
      funext i
      refine Finset.sum_congr rfl fun r _ => ?_
      rw [hR]
      by_cases hr : r.val + 1 = T
      · rw [if_pos (by omega), if_pos hr]
      · rw [if_neg (by omega), if_neg hr]
    unfold window decodeMultiround
    simp only [Bool.false_eq_true, if_false]
    rw [e1, e2, hR, ← hmat]
    rfl

/-- A full window in the middle of the sample. -/
theorem full_mid {bp : Solver} {s : Sim k m n} {T : ℕ} (hk : k + 1 = 2 * T) {own sigma : ℝ} (hs : 0 < sigma) (hm : 0 < m)
    (hp : ∀ i : Fin ((k + 1) * n), s.channelProbs (Fin.castAdd _ i) = .fin own) {rounds : List (Draws m n)}
    {q : State k m n} (h : Measured bp s T own sigma rounds q) (hc : q.cnt = k + 1) (hl : q.log.length ≠ rounds.length) :
    ∃ q', full bp s (.fin sigma) q false = .ok q' ∧ Inv bp s T own sigma rounds q' ∧ q'.log = q.log := by
  have hT : 0 < T := by omega
  have hR : (k + 1) / 2 = T := by omega
  obtain ⟨c, e1, e2, e3, e4, e5⟩ := window_eq hk hs hm hp h hc false (by rw [decide_eq_false hl])
  have hlen := h.len
  rw [hc] at hlen
  have hmove : ∀ M : Mat m (k + 1), moveSyndrome M = .ok fun i r => if h : r.val + (k + 1) / 2 < k + 1 then M i ⟨r.val + (k + 1) / 2, h⟩ else 0 :=
    fun M => if_pos (by omega)
  unfold full
  simp only [Bool.false_eq_true, if_false]
  rw [hmove, e5 rfl, e1, e4]
  refine ⟨_, rfl, ⟨e3, ?_, ?_, ?_, ?_, ?_, ?_⟩, rfl⟩
  · simp only [List.length_append, List.length_singleton, hR, hlen, Nat.add_mul]; omega
  · simp only; omega
  · intro _; simp only [hR]; exact le_rfl
  · simp only
    rw [h.residual]
    congr 1
    unfold correctionAt
    have : q.log.length - 1 - k = q.calls.length * T := by omega
    rw [if_pos ⟨by omega, by rw [this]; exact Dvd.intro_left _ rfl⟩, this, Nat.mul_div_cancel _ hT,
      List.getElem?_append_right le_rfl, Nat.sub_self]
    rfl
  · intro i r
    simp only [moveAnalog, hR, List.length_append, List.length_singleton]
    by_cases hr : r.val < T
    · rw [dif_pos (by omega), if_pos hr, h.amat, if_pos (by simp only; omega)]
      have e : (q.calls.length + 1) * T + r.val = q.calls.length * T + (r.val + T) := by rw [Nat.add_mul, Nat.one_mul]; omega
      rw [e]
    · rw [dif_neg (by omega), if_neg hr]
  · intro i r
    simp only [hR, List.length_append, List.length_singleton]
    by_cases hr : r.val < T
    · rw [dif_pos (by omega), if_pos hr]
      unfold commit windowBits
      simp only
      rw [if_neg (show ¬ (r.val + T < T) by omega), if_pos hr, add_zero]
      simp only [carried]
      rw [List.getElem?_append_right le_rfl, Nat.sub_self]
      simp only [List.getElem?_cons_zero]
      have e : (q.calls.length + 1) * T + r.val = q.calls.length * T + (r.val + T) := by rw [Nat.add_mul, Nat.one_mul]; omega
      rw [e]
      by_cases h0 : r.val = 0
      · rw [if_pos (show r.val + T = T by omega), if_pos h0, Pi.add_apply, add_assoc]
      · rw [if_neg (show ¬ (r.val + T = T) by omega), if_neg h0, if_pos (by omega), Pi.add_apply, Pi.zero_apply, add_zero]
    · rw [dif_neg (by omega), if_neg hr]

/-! ### The loop -/

theorem loop_spec {bp : Solver} {s : Sim k m n} {T : ℕ} (hk : k + 1 = 2 * T) {own sigma : ℝ} (hs : 0 < sigma) (hm : 0 < m)
    (hp : ∀ i : Fin ((k + 1) * n), s.channelProbs (Fin.castAdd _ i) = .fin own) (rounds : List (Draws m n)) :
    ∀ (ds : List (Draws m n)) (q : State k m n), Inv bp s T own sigma rounds q → rounds.drop q.log.length = ds →
      q.log.length + ds.length = rounds.length →
      ∃ q', loop bp s sigma ds q = .ok q' ∧ Past bp s T own sigma rounds q'.log q'.calls ∧ q'.log.length = rounds.length ∧
        q'.err = residualBefore bp T q'.log q'.calls rounds.length ∧ ∀ w, w < q'.calls.length ↔ w * T + (k + 1) ≤ rounds.length := by
  have hT : 0 < T := by omega
  intro ds
  induction ds with
  | nil =>
    intro q h _ hl
    simp only [List.length_nil, Nat.add_zero] at hl
    refine ⟨q, rfl, h.past, hl, by rw [h.err, hl], fun w => ⟨fun hw => ?_, fun hw => h.decoded hT w (by omega)⟩⟩
    obtain ⟨c, hc⟩ : ∃ c, q.calls[w]? = some c := ⟨_, List.getElem?_eq_getElem hw⟩
    have := (h.past.asked w c hc).1
    omega
  | cons d ds ih =>
    intro q h hdrop hl
    have hget : rounds[q.log.length]? = some d := by
      rw [← List.head?_drop, hdrop]; rfl
    have hlast : ds.isEmpty = decide (q.log.length + 1 = rounds.length) := by
      simp only [List.length_cons] at hl
      cases ds with
      | nil => simp only [List.length_nil] at hl; simp; omega
      | cons a b => simp only [List.length_cons] at hl; simp; omega
    have hM := measured hT h d hget ds.isEmpty hlast
    have hlog : (measure s sigma q d ds.isEmpty).log.length = q.log.length + 1 := by
      show (q.log ++ [_]).length = _
      rw [List.length_append, List.length_singleton]
    have hdrop' : rounds.drop (measure s sigma q d ds.isEmpty).log.length = ds := by
      rw [hlog, ← List.drop_drop, hdrop]; rfl
    have hl' : (measure s sigma q d ds.isEmpty).log.length + ds.length = rounds.length := by
      rw [hlog]; simp only [List.length_cons] at hl; omega
    simp only [loop]
    rw [if_neg (not_le.2 h.lt)]
    have hcnt : (measure s sigma q d ds.isEmpty).cnt = q.cnt + 1 := rfl
    by_cases hf : (measure s sigma q d ds.isEmpty).cnt = k + 1
    · rw [if_pos hf]
      by_cases hds : ds = []
      · have hlen := hM.len
        rw [hf] at hlen
        have hlr : (measure s sigma q d ds.isEmpty).log.length = rounds.length := by
          rw [← hl', hds]; rfl
        have hE : ds.isEmpty = true := by rw [hds]; rfl
        rw [hE] at hM hlen hlr hf ⊢
        obtain ⟨c, e1, e2, e3, e4, -⟩ := window_eq hk hs hm hp hM hf true (by rw [hlr]; simp)
        unfold full
        simp only [if_true]
        rw [e1, e4, hds]
        refine ⟨_, rfl, e3, hlr, ?_, ?_⟩
        · simp only
          rw [← hlr, hM.residual]
          congr 1
          unfold correctionAt
          have : (measure s sigma q d true).log.length - 1 - k = (measure s sigma q d true).calls.length * T := by omega
          rw [if_pos ⟨by omega, by rw [this]; exact Dvd.intro_left _ rfl⟩, this, Nat.mul_div_cancel _ hT,
            List.getElem?_append_right le_rfl, Nat.sub_self]
          rfl
        · intro w
          simp only [List.length_append, List.length_singleton]
          rw [← hlr, hlen]
          constructor
          · intro hw
            have := Nat.mul_le_mul_right T (Nat.lt_succ_iff.1 hw)
            omega
          · intro hw
            by_contra hn
            have := Nat.mul_le_mul_right T (not_lt.1 hn)
            rw [Nat.add_mul] at this
            omega
      · have hE : ds.isEmpty = false := by simp [hds]
        have hne : (measure s sigma q d ds.isEmpty).log.length ≠ rounds.length := by
          have : 0 < ds.length := List.length_pos_of_ne_nil hds
          omega
        rw [hE] at hM hne hf hdrop' hl' ⊢
        obtain ⟨q', g1, g2, g3⟩ := full_mid hk hs hm hp hM hf hne
        rw [g1]
        exact ih q' g2 (by rw [g3]; exact hdrop') (by rw [g3]; exact hl')
    · rw [if_neg hf]
      exact ih _ (hM.next hk (by have := h.lt; omega)) hdrop' hl'

end Verif.Qss
