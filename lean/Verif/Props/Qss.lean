import Verif.Lemmas.Qss
import Verif.Props.Analog

/-!
# C116: samples of the quasi-single-shot simulator with analog information
-/

namespace Verif.Qss
open Verif Analog AnalogTanner Gauss

variable {k m n : ℕ} {f : ℝ → ℝ}

/-! ### Specification -/

/-- The rate of the data errors that the checks see: X and Y errors, or Z and Y errors for X checks. -/
noncomputable def Args.own (a : Args m n) : ℝ :=
  let p := channelSetup a.per a.bx a.bY a.bz
  if a.xSide then p.2.2 + p.2.1 else p.1 + p.2.1

/-- The rate of wrong syndrome bits. -/
noncomputable def Args.syn (a : Args m n) : ℝ :=
  let p := channelSetup a.ser a.bx a.bY a.bz
  if a.xSide then p.2.2 + p.2.1 else p.1 + p.2.1

/-- The simulator constructed with `a` and a window of `k + 1` rounds, after any number of samples. -/
def Reached (bp : Solver) (f : ℝ → ℝ) (a : Args m n) (s : Sim k m n) : Prop :=
  ∃ s0 hist fl, Sim.new f k a = .ok s0 ∧ s0.samples bp hist = .ok (s, fl)

/-! ### Lemmas -/

theorem new_eq {a : Args m n} {s0 : Sim k m n} (h : Sim.new f k a = .ok s0) :
    (k + 1) % 2 = 0 ∧ (a.analogTg = true → m ≠ 0) ∧ Method.ofName a.method = .ok s0.method ∧ s0.H = a.H ∧ s0.L = a.L ∧ s0.bits = channelSetup a.per a.bx a.bY a.bz ∧ s0.errIdx = a.xSide ∧
      s0.H3D = buildMultiroundPcm a.H k ∧ (∀ i : Fin ((k + 1) * n), s0.channelProbs (Fin.castAdd _ i) = .fin a.own) ∧
      s0.sigma = if a.analogTg then some (sigmaOfRate f a.syn) else none := by
  unfold Sim.new at h
  simp only [bind_eq_ok, require_ok] at h
  obtain ⟨_, h1, d, h2, _, h3, h4⟩ := h
  obtain rfl := (Except.ok.inj h4).symm
  refine ⟨h1, fun ha => ?_, h2, rfl, rfl, rfl, rfl, rfl, fun i => ?_, ?_⟩
  · rw [ha] at h3; simpa using h3
  · simp only [Fin.append_left, sideRate, Args.own]
    cases a.xSide
    · rfl
    · simp only [if_true]; rw [add_comm]
  · simp only [sideRate, Args.syn]
    cases a.xSide
    · rfl
    · simp only [if_true]; rw [add_comm]

theorem samples_state (bp : Solver) (hist : List (List (Draws m n))) : ∀ (s0 s : Sim k m n) (fl : List Bool),
    s0.samples bp hist = .ok (s, fl) → s = { s0 with soft := s.soft } := by
  induction hist with
  | nil =>
    intro s0 s fl h
    have := Except.ok.inj h
    cases this
    rfl
  | cons r rs ih =>
    intro s0 s fl h
    simp only [Sim.samples] at h
    cases hq : s0.sample bp r with
    | error e => rw [hq] at h; cases h
    | ok q =>
      rw [hq] at h
      simp only at h
      cases ht : Sim.samples bp { s0 with soft := q.1.soft } rs with
      | error e => rw [ht] at h; cases h
      | ok t =>
        rw [ht] at h
        cases Except.ok.inj h
        exact ih { s0 with soft := q.1.soft } t.1 t.2 ht

theorem sample_ok (bp : Solver) (a : Args m n) (s : Sim k m n) (h : Reached bp f a s) (ha : a.analogTg = true) (sigma : ℝ) (p1 : 0 < sigma)
    (p2 : sigmaOfRate f a.syn = .fin sigma) (rounds : List (Draws m n)) :
    ∃ method q, Method.ofName a.method = .ok method ∧ s.sample bp rounds = .ok (q, !isLogicalErr a.L q.err) ∧
      SampleOk bp method a.H ((k + 1) / 2) (channelSetup a.per a.bx a.bY a.bz) a.xSide a.own sigma rounds q.log q.calls q.err := by
  obtain ⟨s0, hist, fl, hn, hs⟩ := h
  obtain ⟨n1, n2, n3, n4, n5, n6, n7, n8, n9, n10⟩ := new_eq hn
  have hst := samples_state bp hist s0 s fl hs
  have e4 : s.H = a.H := by rw [hst]; exact n4
  have e5 : s.L = a.L := by rw [hst]; exact n5
  have e6 : s.bits = channelSetup a.per a.bx a.bY a.bz := by rw [hst]; exact n6
  have e7 : s.errIdx = a.xSide := by rw [hst]; exact n7
  have e8 : s.H3D = buildMultiroundPcm a.H k := by rw [hst]; exact n8
  have e9 : ∀ i : Fin ((k + 1) * n), s.channelProbs (Fin.castAdd _ i) = .fin a.own := by rw [hst]; exact n9
  have e10 : s.sigma = some (.fin sigma) := by rw [hst, ← p2]; simp only; rw [n10, ha]; rfl
  have e3 : s.method = s0.method := by rw [hst]
  have hk : k + 1 = 2 * ((k + 1) / 2) := by omega
  have hinv : Inv bp s ((k + 1) / 2) a.own sigma rounds s.start := by
    refine ⟨⟨fun j d hj => absurd hj (Nat.not_lt_zero _), fun j d hj => absurd hj (Nat.not_lt_zero _), fun w c hc => ?_⟩,
      ?_, Nat.succ_pos k, fun hne => absurd rfl hne, rfl, fun i r => ?_, fun i r => ?_⟩
    · simp [Sim.start] at hc
    · simp [Sim.start]
    · simp [Sim.start]
    · simp [Sim.start]
  obtain ⟨q, g1, g2, g3, g4, g5⟩ := loop_spec hk p1 (Nat.pos_of_ne_zero (n2 ha)) e9 rounds rounds s.start hinv rfl
    (by simp [Sim.start])
  refine ⟨s0.method, q, n3, ?_, g3, fun j d hj => ?_, fun j d hj => ?_, g5, fun w c hc => ?_, g4⟩
  · unfold Sim.sample
    rw [e10]
    simp only
    rw [g1, e5]
  · have hlt : j < q.log.length := by rw [g3]; exact (List.getElem?_eq_some_iff.1 hj).1
    rw [g2.errors j d hlt hj]
    unfold drawn
    rw [e6, e7]
  · have hlt : j < q.log.length := by rw [g3]; exact (List.getElem?_eq_some_iff.1 hj).1
    rw [g2.values j d hlt hj, e4]
  · obtain ⟨-, b1, b2, b3, b4⟩ := g2.asked w c hc
    exact ⟨b1, by rw [b2, e8], by rw [b3, e3], by rw [b4, e4]⟩

/-! ### C116 -/

/-- **C116**: with analog information and a syndrome error rate below a half, every sample is as described: in every round a Pauli error
of the channel is added to the residual error, the checks are measured with Gaussian noise for which a bit is wrong with the wanted rate,
and the last round is perfect; every complete window is given to the decoder, with the right error probabilities, and its correction is
applied.  The result says whether the remaining error is a logical error. -/
theorem C116_sample (hf : IsErfcInv f) (bp : Solver) (a : Args m n) (s : Sim k m n) (h : Reached bp f a s) (ha : a.analogTg = true)
    (h0 : 0 < a.syn) (h1 : a.syn < 1 / 2) (rounds : List (Draws m n)) :
    ∃ method sigma q, Method.ofName a.method = .ok method ∧ 0 < sigma ∧ (∀ b, wrongSign b sigma = a.syn) ∧
      s.sample bp rounds = .ok (q, !isLogicalErr a.L q.err) ∧
      SampleOk bp method a.H ((k + 1) / 2) (channelSetup a.per a.bx a.bY a.bz) a.xSide a.own sigma rounds q.log q.calls q.err := by
  obtain ⟨sigma, p1, p2, p3⟩ := sigma_pos hf h0 h1
  obtain ⟨method, q, r1, r2, r3⟩ := sample_ok bp a s h ha sigma p1 p2 rounds
  exact ⟨method, sigma, q, r1, p1, p3, r2, r3⟩

/-- The state without the decoder object. -/
def State.view (q : State k m n) : Vec n × Mat m (k + 1) × (Fin m → Fin (k + 1) → ℝ) × ℕ × List (Vec n × (Fin m → ℝ)) × List (WCall k m n) :=
  (q.err, q.mat, q.amat, q.cnt, q.log, q.calls)

theorem full_view (bp : Solver) (s : Sim k m n) (x : Soft ((k + 1) * n + (k + 1) * m)) (sigma : Num) (q q' : State k m n)
    (h : q.view = q'.view) (last : Bool) :
    (full bp s sigma q last).map State.view = (full bp { s with soft := x } sigma q' last).map State.view := by
  obtain ⟨e, M, A, c, y, l, cs⟩ := q
  obtain ⟨e', M', A', c', y', l', cs'⟩ := q'
  simp only [State.view, Prod.mk.injEq] at h
  obtain ⟨rfl, rfl, rfl, rfl, rfl, rfl⟩ := h
  unfold full
  simp only [window, newChannel]
  cases last
  · simp only [Bool.false_eq_true, if_false]
    cases moveSyndrome (decodeMultiround s.H _ M false).2 <;> rfl
  · rfl

theorem measure_view (s : Sim k m n) (x : Soft ((k + 1) * n + (k + 1) * m)) (sigma : ℝ) (q q' : State k m n) (h : q.view = q'.view)
    (d : Draws m n) (last : Bool) : (measure s sigma q d last).view = (measure { s with soft := x } sigma q' d last).view := by
  obtain ⟨e, M, A, c, y, l, cs⟩ := q
  obtain ⟨e', M', A', c', y', l', cs'⟩ := q'
  simp only [State.view, Prod.mk.injEq] at h
  obtain ⟨rfl, rfl, rfl, rfl, rfl, rfl⟩ := h
  rfl

theorem loop_view (bp : Solver) (s : Sim k m n) (x : Soft ((k + 1) * n + (k + 1) * m)) (sigma : ℝ) (ds : List (Draws m n)) :
    ∀ q q' : State k m n, q.view = q'.view →
      (loop bp s sigma ds q).map State.view = (loop bp { s with soft := x } sigma ds q').map State.view := by
  induction ds with
  | nil => intro q q' h; simp only [loop, Except.map, h]
  | cons d ds ih =>
    intro q q' h
    have hc : ∀ q q' : State k m n, q.view = q'.view → q.cnt = q'.cnt := fun q q' h => congrArg (fun v => v.2.2.2.1) h
    have hM := measure_view s x sigma q q' h d ds.isEmpty
    simp only [loop]
    rw [hc q q' h, hc _ _ hM]
    split
    · rfl
    · split
      · have hF := full_view bp s x (.fin sigma) _ _ hM ds.isEmpty
        cases h1 : full bp s (.fin sigma) (measure s sigma q d ds.isEmpty) ds.isEmpty with
        | error e =>
          rw [h1] at hF
          cases h2 : full bp { s with soft := x } (.fin sigma) (measure { s with soft := x } sigma q' d ds.isEmpty) ds.isEmpty with
          | error e' => rw [h2] at hF; simp only [Except.map] at hF ⊢; exact hF
          | ok r => rw [h2] at hF; simp [Except.map] at hF
        | ok r =>
          rw [h1] at hF
          cases h2 : full bp { s with soft := x } (.fin sigma) (measure { s with soft := x } sigma q' d ds.isEmpty) ds.isEmpty with
          | error e' => rw [h2] at hF; simp [Except.map] at hF
          | ok r' => rw [h2] at hF; exact ih r r' (Except.ok.inj hF)
      · exact ih _ _ hM

/-- **C116**: a sample does not depend on the samples before it. -/
theorem C116_fresh (bp : Solver) (a : Args m n) (s s' : Sim k m n) (h : Reached bp f a s) (h' : Reached bp f a s')
    (rounds : List (Draws m n)) :
    (s.sample bp rounds).map (fun r => (r.1.log, r.1.calls, r.2)) = (s'.sample bp rounds).map fun r => (r.1.log, r.1.calls, r.2) := by
  obtain ⟨s0, hist, fl, hn, hs⟩ := h
  obtain ⟨s0', hist', fl', hn', hs'⟩ := h'
  obtain rfl := Except.ok.inj (hn.symm.trans hn')
  have e1 := samples_state bp hist s0 s fl hs
  have e2 := samples_state bp hist' s0 s' fl' hs'
  have e : s' = { s with soft := s'.soft } := by
    rw [e2]; conv_rhs => rw [e1]
  have hL : ∀ sigma, (loop bp s sigma rounds s.start).map State.view = (loop bp s' sigma rounds s'.start).map State.view := by
    intro sigma
    have := loop_view bp s s'.soft sigma rounds s.start ({ s with soft := s'.soft } : Sim k m n).start rfl
    rwa [← e] at this
  have hg : s'.sigma = s.sigma := by rw [e]
  have hLL : s'.L = s.L := by rw [e]
  clear e
  unfold Sim.sample
  rw [hg]
  cases s.sigma with
  | none => rfl
  | some t =>
    cases t with
    | fin sigma =>
      simp only
      have hL := hL sigma
      cases h1 : loop bp s sigma rounds s.start with
      | error e =>
        rw [h1] at hL
        cases h2 : loop bp s' sigma rounds s'.start with
        | error e' => rw [h2] at hL; simp only [Except.map, Except.error.injEq] at hL ⊢; exact hL
        | ok r => rw [h2] at hL; simp [Except.map] at hL
      | ok r =>
        rw [h1] at hL
        cases h2 : loop bp s' sigma rounds s'.start with
        | error e' => rw [h2] at hL; simp [Except.map] at hL
        | ok r' =>
          rw [h2] at hL
          have hv := Except.ok.inj hL
          have v1 : r.err = r'.err := congrArg (fun v => v.1) hv
          have v2 : r.log = r'.log := congrArg (fun v => v.2.2.2.2.1) hv
          have v3 : r.calls = r'.calls := congrArg (fun v => v.2.2.2.2.2) hv
          simp only [Except.map, v1, v2, v3, hLL]
    | inf => rfl
    | nan => rfl

/-! ### What the decoder is asked -/

/-- The correction applied after the window before window `w`. -/
def before (bp : Solver) (T : ℕ) (calls : List (WCall k m n)) : ℕ → Vec n
  | 0 => 0
  | w + 1 => ((calls[w]?).map (correction bp T)).getD 0

/-- The syndrome errors that the decoder saw in the round before window `w`. -/
def blamed (bp : Solver) (T : ℕ) (calls : List (WCall k m n)) : ℕ → Vec m
  | 0 => 0
  | w + 1 => ((calls[w]?).map (timeFlip bp T)).getD 0

/-- The error in round `r` of window `w`, as if the correction after the window before had been applied before this window. -/
def presentError (bp : Solver) (T : ℕ) (log : List (Vec n × (Fin m → ℝ))) (calls : List (WCall k m n)) (w r : ℕ) : Vec n :=
  errorAt log (w * T + r) + if r < T then before bp T calls w else 0

/-- The data errors of round `r` of window `w`: what has changed since the round before; in round zero all errors present. -/
def dataFaults (bp : Solver) (T : ℕ) (log : List (Vec n × (Fin m → ℝ))) (calls : List (WCall k m n)) (w : ℕ) (r : Fin (k + 1)) : Vec n :=
  presentError bp T log calls w r.val + if r.val = 0 then 0 else presentError bp T log calls w (r.val - 1)

/-- The wrong bits of the syndrome in round `j`. -/
noncomputable def wrongBits (H : Mat m n) (log : List (Vec n × (Fin m → ℝ))) (j : ℕ) : Vec m :=
  binaryFromAnalog (valuesAt log j) + apply H (errorAt log j)

theorem accumulated_faults (bp : Solver) (T : ℕ) (log : List (Vec n × (Fin m → ℝ))) (calls : List (WCall k m n)) (w r : ℕ)
    (hr : r < k + 1) : accumulated (dataFaults bp T log calls w) r = presentError bp T log calls w r := by
  induction r with
  | zero =>
    rw [accumulated_zero _ hr]
    simp [dataFaults]
  | succ r ih =>
    rw [accumulated_succ _ r hr, ih (by omega)]
    unfold dataFaults
    simp only [Nat.add_sub_cancel, Nat.add_eq_zero_iff, one_ne_zero, and_false, if_false]
    funext q
    have c : ∀ x : ZMod 2, x + x = 0 := by decide
    simp only [Pi.add_apply]
    linear_combination c (presentError bp T log calls w r q)

/-- **C116**: every question to the decoder is the syndrome of the errors that really happened: the data errors since the committed
correction and the wrong syndrome bits of the window; but in the first round of a later window the bits that the decoder called wrong in
the round before are flipped once more. -/
theorem C116_question (bp : Solver) (method : Method) (H : Mat m n) (T : ℕ) (hT : 0 < T) (bits : ℝ × ℝ × ℝ) (zErrors : Bool) (own sigma : ℝ)
    (rounds : List (Draws m n)) (log : List (Vec n × (Fin m → ℝ))) (calls : List (WCall k m n)) (final : Vec n)
    (h : SampleOk bp method H T bits zErrors own sigma rounds log calls final) (w : ℕ) (c : WCall k m n) (hc : calls[w]? = some c) :
    c.syn = apply (buildMultiroundPcm H k) (pack (dataFaults bp T log calls w)
      fun r => wrongBits H log (w * T + r.val) + if r.val = 0 then blamed bp T calls w else 0) := by
  rw [(h.asked w c hc).2.2.2, eq_comm, C39_multiround]
  intro r i
  rw [accumulated_faults bp T log calls w r.val r.isLt]
  have c2 : ∀ x : ZMod 2, x + x = 0 := by decide
  have hw : w < calls.length := (List.getElem?_eq_some_iff.1 hc).1
  unfold presentError wrongBits windowBits
  rw [apply_add]
  simp only [Pi.add_apply]
  have key : (apply H (if r.val < T then before bp T calls w else 0) i + (if r.val = 0 then blamed bp T calls w else 0) i : ZMod 2) =
      if r.val < T then carried bp H T calls r.val w i else 0 := by
    by_cases hr : r.val < T
    · rw [if_pos hr, if_pos hr]
      cases w with
      | zero =>
        simp only [before, blamed, carried]
        rw [apply_zero]
        simp
      | succ w =>
        simp only [before, blamed, carried]
        rw [List.getElem?_eq_getElem (show w < calls.length by omega)]
        rfl
    · rw [if_neg hr, if_neg hr, if_neg (by omega), apply_zero]
      simp
  linear_combination key + c2 (apply H (errorAt log (w * T + r.val)) i)

/-- **C116**: when the last window is complete and the decoder explains it, the syndrome of the remaining error is what the decoder
called wrong in the last, perfect round. -/
theorem C116_end (bp : Solver) (method : Method) (H : Mat m n) (T : ℕ) (hk : k + 1 = 2 * T) (bits : ℝ × ℝ × ℝ) (zErrors : Bool) (own sigma : ℝ)
    (rounds : List (Draws m n)) (log : List (Vec n × (Fin m → ℝ))) (calls : List (WCall k m n)) (final : Vec n)
    (h : SampleOk bp method H T bits zErrors own sigma rounds log calls final) (w : ℕ) (hw : w * T + (k + 1) = rounds.length) :
    ∃ c, calls[w]? = some c ∧ c.last = true ∧
      (apply c.pcm (answerOf bp c) = c.syn → ∀ i, apply H final i = timeCorrection (answerOf bp c) i (Fin.last k)) := by
  have hT : 0 < T := by omega
  have hlt : w < calls.length := (h.windows w).2 hw.le
  refine ⟨calls[w], List.getElem?_eq_getElem hlt, ?_, ?_⟩
  · rw [(h.asked w _ (List.getElem?_eq_getElem hlt)).1, hw]; simp
  · intro hs i
    have hc : calls[w]? = some calls[w] := List.getElem?_eq_getElem hlt
    obtain ⟨a1, a2, a3, a4⟩ := h.asked w _ hc
    have hl : calls[w].last = true := by rw [a1, hw]; simp
    rw [a2, a4, ← pack_corrections (answerOf bp calls[w]), C39_multiround] at hs
    have h1 := hs (Fin.last k) i
    have hr1 : rounds.length = rounds.length - 1 + 1 := by omega
    have hj : w * T + k = rounds.length - 1 := by omega
    have hcor : correctionAt bp T calls (rounds.length - 1) = correction bp T calls[w] := by
      unfold correctionAt
      have e : rounds.length - 1 - k = w * T := by omega
      rw [if_pos ⟨by omega, by rw [e]; exact Dvd.intro_left _ rfl⟩, e, Nat.mul_div_cancel _ hT, hc]
      rfl
    have hacc : accumulated (fun r q => spaceCorrection (m := m) (answerOf bp calls[w]) q r) (Fin.last k).val = correction bp T calls[w] := by
      funext q
      unfold accumulated correction
      refine Finset.sum_congr rfl fun r _ => ?_
      rw [if_pos (by have := r.isLt; simp only [Fin.val_last]; omega), if_pos (.inl hl)]
    have hd : (rounds.length - 1) < rounds.length := by omega
    have hv := h.values (rounds.length - 1) _ (List.getElem?_eq_getElem hd)
    rw [if_pos hr1.symm] at hv
    have hb : windowBits bp H T log calls w i (Fin.last k) = apply H (errorAt log (rounds.length - 1)) i := by
      unfold windowBits
      rw [if_neg (by simp only [Fin.val_last]; omega), add_zero, Fin.val_last, hj, hv, binary_noiseless]
    rw [hacc, hb] at h1
    rw [h.after, hr1]
    simp only [residualBefore]
    rw [hcor, apply_add, ← h1]
    have c2 : ∀ x : ZMod 2, x + x = 0 := by decide
    linear_combination c2 (apply H (correction bp T calls[w]) i)

/-! ### The hypotheses can be met -/

/-- The repetition code, bit flips of rate `1 / 10`, wrong syndrome bits of rate `1 / 5`. -/
noncomputable def repetition (method : List Char) : Args 2 3 where
  H := ![![1, 1, 0], ![0, 1, 1]]
  per := 1 / 10
  ser := 1 / 5
  L := [![1, 0, 0]]
  bx := none
  bY := some 0
  bz := some 0
  method := method
  xSide := false
  analogTg := true

theorem repetition_reached (bp : Solver) (method : List Char) (hm : method = ['b', 'p', 'o', 's', 'd'] ∨ method = ['m', 'a', 't', 'c', 'h', 'i', 'n', 'g']) :
    ∃ s : Sim 3 2 3, Reached bp f (repetition method) s ∧ (repetition method).own = 1 / 10 ∧ (repetition method).syn = 1 / 5 := by
  have : ∃ s0 : Sim 3 2 3, Sim.new f 3 (repetition method) = .ok s0 := by
    unfold Sim.new
    rcases hm with rfl | rfl
    · exact ⟨_, rfl⟩
    · exact ⟨_, rfl⟩
  obtain ⟨s0, h0⟩ := this
  refine ⟨s0, ⟨s0, [], [], h0, rfl⟩, ?_, ?_⟩ <;> norm_num [Args.own, Args.syn, repetition, channelSetup]

/-- Six rounds with windows of four rounds: two calls, the second of them in the last round. -/
example (hf : IsErfcInv f) (bp : Solver) (rounds : List (Draws 2 3)) (hr : rounds.length = 6) (method : List Char)
    (hm : method = ['b', 'p', 'o', 's', 'd'] ∨ method = ['m', 'a', 't', 'c', 'h', 'i', 'n', 'g']) :
    ∃ (s : Sim 3 2 3) (q : State 3 2 3), s.sample bp rounds = .ok (q, !isLogicalErr [![1, 0, 0]] q.err) ∧ q.calls.length = 2 ∧
      q.calls.map (·.last) = [false, true] := by
  obtain ⟨s, h1, h2, h3⟩ := repetition_reached (f := f) bp method hm
  obtain ⟨me, sigma, q, -, -, -, e, ok⟩ := C116_sample hf bp (repetition method) s h1 rfl (by rw [h3]; norm_num) (by rw [h3]; norm_num) rounds
  have hw := ok.windows
  rw [hr] at hw
  have hl : q.calls.length = 2 := by
    have a1 := hw 1
    have a2 := hw 2
    omega
  refine ⟨s, q, e, hl, ?_⟩
  obtain ⟨c0, c1, hc⟩ : ∃ c0 c1, q.calls = [c0, c1] := by
    match hq : q.calls, hl with
    | [c0, c1], _ => exact ⟨c0, c1, rfl⟩
  have b0 := (ok.asked 0 c0 (by rw [hc]; rfl)).1
  have b1 := (ok.asked 1 c1 (by rw [hc]; rfl)).1
  rw [hr] at b0 b1
  rw [hc]
  simp only [List.map_cons, List.map_nil, b0, b1]
  decide

end Verif.Qss
