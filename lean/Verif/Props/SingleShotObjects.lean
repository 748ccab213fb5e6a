import Verif.Lemmas.SingleShotObjects
import Verif.Props.AnalogTanner

/-!
# C114: the decoder objects of the single-shot simulator; C115: independence of samples
-/

namespace Verif.SSO
open Verif Analog AnalogTanner Gauss

variable {m n l mx mz lx lz : ℕ} {f : ℝ → ℝ}

/-! ### Specification -/

/-- The rate of X and Y errors on a data qubit, which are the errors seen by the checks `Hz`. -/
noncomputable def Args.xRate (a : Args mx mz lx lz n) : ℝ :=
  (channelSetup a.per a.bx a.bY a.bz).1 + (channelSetup a.per a.bx a.bY a.bz).2.1

/-- The rate of Z and Y errors on a data qubit, which are the errors seen by the checks `Hx`. -/
noncomputable def Args.zRate (a : Args mx mz lx lz n) : ℝ :=
  (channelSetup a.per a.bx a.bY a.bz).2.2 + (channelSetup a.per a.bx a.bY a.bz).2.1

/-- The rate of wrong bits in the syndrome of the X errors. -/
noncomputable def Args.xSyn (a : Args mx mz lx lz n) : ℝ :=
  (channelSetup a.ser a.bx a.bY a.bz).1 + (channelSetup a.ser a.bx a.bY a.bz).2.1

/-- The rate of wrong bits in the syndrome of the Z errors. -/
noncomputable def Args.zSyn (a : Args mx mz lx lz n) : ℝ :=
  (channelSetup a.ser a.bx a.bY a.bz).2.2 + (channelSetup a.ser a.bx a.bY a.bz).2.1

/-- The meta checks used for the syndrome of the X errors. -/
def Args.xMetas (a : Args mx mz lx lz n) : Option (Mat lz mz) := if a.zMeta then a.Mz else none

/-- The meta checks used for the syndrome of the Z errors. -/
def Args.zMetas (a : Args mx mz lx lz n) : Option (Mat lx mx) := if a.xMeta then a.Mx else none

/-- For finite biases the rates are shares of the error rate. -/
theorem rates_finite (a : Args mx mz lx lz n) (x y z : ℝ) (hx : a.bx = some x) (hy : a.bY = some y) (hz : a.bz = some z) :
    a.xRate = a.per * (x + y) / (x + y + z) ∧ a.zRate = a.per * (z + y) / (x + y + z) ∧ a.xSyn = a.ser * (x + y) / (x + y + z) ∧
      a.zSyn = a.ser * (z + y) / (x + y + z) := by
  unfold Args.xRate Args.zRate Args.xSyn Args.zSyn
  rw [hx, hy, hz]
  simp only [channelSetup]
  refine ⟨?_, ?_, ?_, ?_⟩ <;> ring

/-- A call on the side with checks `H`, meta checks `M`, data error rate `own` and syndrome error rate `syn` uses the check matrix
that belongs to it, and the right error probabilities for the data bits (for the meta code: of the syndrome bits). -/
def RightPrior (H : Mat m n) (M : Option (Mat l m)) (own syn : ℝ) : SideCall m n l → Prop
  | .std c => c.pcm = H ∧ ∀ i, c.probs i = .fin own
  | .tanner c => c.pcm = analogPcm H ∧ ∀ i : Fin n, c.probs (Fin.castAdd m i) = .fin own
  | .stage c => (∃ M' ∈ M, c.pcm = singleStagePcm H M') ∧ ∀ i : Fin n, c.probs (Fin.castAdd m i) = .fin own
  | .metaCode c => (∃ M' ∈ M, c.pcm = M') ∧ ∀ i, c.probs i = .fin syn

/-- The simulator constructed with `a`, at the beginning of any round of any sample: `hist` are the earlier samples, `ds` the earlier
rounds of this one. -/
def Reached (bp : Bp) (f : ℝ → ℝ) (a : Args mx mz lx lz n) (s : Sim mx mz lx lz n) (res : Vec n × Vec n) : Prop :=
  ∃ s0 s1 hist fl ds tr, Sim.new f a = .ok s0 ∧ s0.samples bp hist = .ok (s1, fl) ∧ s1.rounds bp (0, 0) ds = .ok (tr, s, res)

/-- The calls of single-stage decoding with the analog Tanner graph, for measured values `y` with noise strength `sigma`. -/
noncomputable def oneStageCalls (H : Mat m n) (M : Option (Mat l m)) (rate sigma : ℝ) (y : Fin m → ℝ) : List (SideCall m n l) :=
  match M with
  | none => [.tanner ⟨analogPcm H, Fin.append (const rate) fun j => .fin (posteriorWrong sigma (y j)), toReal (binaryFromAnalog y)⟩]
  | some M => [.stage ⟨singleStagePcm H M, Fin.append (const rate) fun j => .fin (posteriorWrong sigma (y j)),
      Fin.append (toReal (binaryFromAnalog y)) (toReal (apply M (binaryFromAnalog y)))⟩]

/-- The question to the meta code for a binary syndrome. -/
def metaCall (M : Mat l m) (syn : ℝ) (b : Vec m) : Call l m := ⟨M, const syn, toReal (apply M b)⟩

/-- The calls of two-stage decoding with meta checks and the analog Tanner graph. -/
noncomputable def twoStageCalls (bp : Bp) (H : Mat m n) (M : Mat l m) (rate syn sigma : ℝ) (y : Fin m → ℝ) : List (SideCall m n l) :=
  [.metaCode (metaCall M syn (binaryFromAnalog y)),
   .tanner ⟨analogPcm H, Fin.append (const rate) fun j => .fin (posteriorWrong sigma (y j)),
     toReal (binaryFromAnalog y + bp _ _ (metaCall M syn (binaryFromAnalog y)))⟩]

/-- The calls of two-stage decoding with a binary syndrome. -/
def hardCalls (bp : Bp) (H : Mat m n) (M : Option (Mat l m)) (own syn : ℝ) (b : Vec m) : List (SideCall m n l) :=
  match M with
  | none => [.std ⟨H, const own, toReal b⟩]
  | some M => [.metaCode (metaCall M syn b), .std ⟨H, const own, toReal (b + bp _ _ (metaCall M syn b))⟩]

/-- The errors of both kinds before a round: a Pauli error of the biased channel on top of the residual error. -/
noncomputable def Args.errors (a : Args mx mz lx lz n) (u : Fin n → ℝ) (res : Vec n × Vec n) : Vec n × Vec n :=
  generateErr (fun _ => (channelSetup a.per a.bx a.bY a.bz).1) (fun _ => (channelSetup a.per a.bx a.bY a.bz).2.1)
    (fun _ => (channelSetup a.per a.bx a.bY a.bz).2.2) u res.1 res.2

/-- The estimate of the data error: the first `n` bits of the answer. -/
def answer (bp : Bp) : SideCall m n l → Vec n
  | .std c => bp _ _ c
  | .tanner c => dataPart (bp _ _ c)
  | .stage c => dataPart (bp _ _ c)
  | .metaCode _ => 0

/-! ### Lemmas -/

theorem new_eq {a : Args mx mz lx lz n} {s0 : Sim mx mz lx lz n} (h : Sim.new f a = .ok s0) :
    s0 = ⟨a.cfg, a.ser, channelSetup a.per a.bx a.bY a.bz, logicalsOf a.Lx a.Lz,
      sideNew f a.cfg a.Hz a.xMetas a.xRate a.zRate a.xSyn, sideNew f a.cfg a.Hx a.zMetas a.zRate a.xRate a.zSyn⟩ := by
  unfold Sim.new at h
  split at h
  · cases h
  · split at h
    · cases h
    · exact (Except.ok.inj h).symm

theorem reached_canon {bp : Bp} {a : Args mx mz lx lz n} {s : Sim mx mz lx lz n} {res : Vec n × Vec n} (h : Reached bp f a s res) :
    ∃ s0, Sim.new f a = .ok s0 ∧ s.canon = s0.canon := by
  obtain ⟨s0, s1, hist, fl, ds, tr, h0, h1, h2⟩ := h
  refine ⟨s0, h0, ?_⟩
  have e1 := samples_canon bp hist s0 s1 fl h1
  rcases rounds_cases bp ds s1 s1 rfl (0, 0) with ⟨e, g, -⟩ | ⟨r, -, g, -, -, -, c, -⟩
  · rw [g] at h2; cases h2
  · rw [g] at h2
    have := Except.ok.inj h2
    rw [show s = r.2.1 by rw [this], c, e1]

theorem bitsR_toReal (b : Vec m) : bitsR (toReal b) = b := by
  funext i
  unfold bitsR toReal truncR
  by_cases h : b i = 0
  · rw [if_pos h, if_pos le_rfl, h]; simp
  · have h1 : b i = 1 := by
      have : ∀ x : ZMod 2, x ≠ 0 → x = 1 := by decide
      exact this _ h
    rw [if_neg h, if_pos zero_le_one, h1]; simp

theorem truncR_toReal (b : Vec m) (i : Fin m) : ((truncR (toReal b i) : ℤ) : ℝ) = toReal b i := by
  unfold toReal truncR
  by_cases h : b i = 0
  · rw [if_pos h, if_pos le_rfl]; simp
  · rw [if_neg h, if_pos zero_le_one]; simp

theorem decoding_prior (bp : Bp) (c : SSConfig) (H : Mat m n) (M : Option (Mat l m)) (own other syn : ℝ)
    (hc : c.singleStage = true ∨ c.analogTg = false ∨ own = other) (y : Fin m → ℝ) (o : Outcome m n l)
    (h : decoding bp c (sideNew f c H M own other syn) y = .ok o) : ∀ q ∈ o.calls, RightPrior H M own syn q := by
  obtain ⟨ss, ai, at'⟩ := c
  have hc' : ss = false → at' = true → other = own := by
    intro h1 h2
    rcases hc with h | h | h
    · exact absurd (h1.symm.trans h) (by decide)
    · exact absurd (h2.symm.trans h) (by decide)
    · exact h.symm
  clear hc
  cases ss <;> cases ai <;> cases at' <;> cases M <;> (try obtain rfl := hc' rfl rfl) <;> first
    | (cases h; done)
    | (obtain rfl := Except.ok.inj h
       intro q hq
       simp only [List.mem_cons, List.not_mem_nil, or_false, List.nil_append, List.cons_append] at hq
       first
         | (subst hq
            simp [RightPrior, BpDec.ask, BpDec.update, sideNew, setup, singleStageSetup, twoStageSetup, const, Fin.append_left])
         | (rcases hq with rfl | rfl <;>
            simp [RightPrior, BpDec.ask, BpDec.update, sideNew, setup, singleStageSetup, twoStageSetup, const, Fin.append_left]))

theorem decoding_last (bp : Bp) (c : SSConfig) (t : Side m n l) (y : Fin m → ℝ) (o : Outcome m n l) (h : decoding bp c t y = .ok o) :
    ∃ q, o.calls.getLast? = some q ∧ o.estimate = answer bp q := by
  obtain ⟨ss, ai, at'⟩ := c
  obtain ⟨H, M, own, other, syn, sigma, ⟨std, tanner, stage, metaCode⟩⟩ := t
  cases ss <;> cases ai <;> cases at' <;> cases M <;> cases sigma <;> cases tanner <;> cases stage <;> cases metaCode <;> first
    | (cases h; done)
    | (obtain rfl := Except.ok.inj h
       exact ⟨_, rfl, rfl⟩)

/-- Inversion of a round on one side. -/
theorem sideRound_inv {bp : Bp} {c : SSConfig} {ser : ℝ} {t : Side m n l} {e : Vec n} {g u : Fin m → ℝ}
    {r : List (SideCall m n l) × Side m n l × Vec n} (h : t.round bp c ser e g u = .ok r) :
    ∃ y o, t.noisySyndrome c ser g u (apply t.H e) = .ok y ∧ decoding bp c t y = .ok o ∧ r = (o.calls, { t with decs := o.decs }, e + o.estimate) := by
  unfold Side.round at h
  simp only [bind, Except.bind, pure, Except.pure] at h
  cases h1 : t.noisySyndrome c ser g u (apply t.H e) with
  | error e => rw [h1] at h; cases h
  | ok y =>
    rw [h1] at h
    simp only at h
    cases h2 : decoding bp c t y with
    | error e => rw [h2] at h; cases h
    | ok o => rw [h2] at h; exact ⟨y, o, rfl, h2, (Except.ok.inj h).symm⟩

theorem sideRound_intro {bp : Bp} {c : SSConfig} {ser : ℝ} {t : Side m n l} {e : Vec n} {g u : Fin m → ℝ} {y : Fin m → ℝ}
    {o : Outcome m n l} (h1 : t.noisySyndrome c ser g u (apply t.H e) = .ok y) (h2 : decoding bp c t y = .ok o) :
    t.round bp c ser e g u = .ok (o.calls, { t with decs := o.decs }, e + o.estimate) := by
  unfold Side.round
  simp only [bind, Except.bind, pure, Except.pure, h1, h2]

/-- Inversion of a round. -/
theorem round_inv {bp : Bp} {s : Sim mx mz lx lz n} {res : Vec n × Vec n} {d : Draws mx mz n}
    {r : Trace mx mz lx lz n × Sim mx mz lx lz n × Vec n × Vec n} (h : s.round bp res d = .ok r) :
    ∃ x z, s.x.round bp s.cfg s.ser (s.errors d.u res).1 d.gx d.ux = .ok x ∧ s.z.round bp s.cfg s.ser (s.errors d.u res).2 d.gz d.uz = .ok z ∧
      r = (⟨x.1, z.1⟩, { s with x := x.2.1, z := z.2.1 }, x.2.2, z.2.2) := by
  unfold Sim.round at h
  simp only [bind, Except.bind, pure, Except.pure] at h
  cases h1 : s.x.round bp s.cfg s.ser (s.errors d.u res).1 d.gx d.ux with
  | error e => rw [h1] at h; cases h
  | ok x =>
    rw [h1] at h
    simp only at h
    cases h2 : s.z.round bp s.cfg s.ser (s.errors d.u res).2 d.gz d.uz with
    | error e => rw [h2] at h; cases h
    | ok z => rw [h2] at h; exact ⟨x, z, rfl, rfl, (Except.ok.inj h).symm⟩

theorem round_intro {bp : Bp} {s : Sim mx mz lx lz n} {res : Vec n × Vec n} {d : Draws mx mz n}
    {x : List (SideCall mz n lz) × Side mz n lz × Vec n} {z : List (SideCall mx n lx) × Side mx n lx × Vec n}
    (h1 : s.x.round bp s.cfg s.ser (s.errors d.u res).1 d.gx d.ux = .ok x)
    (h2 : s.z.round bp s.cfg s.ser (s.errors d.u res).2 d.gz d.uz = .ok z) :
    s.round bp res d = .ok (⟨x.1, z.1⟩, { s with x := x.2.1, z := z.2.1 }, x.2.2, z.2.2) := by
  unfold Sim.round
  simp only [bind, Except.bind, pure, Except.pure, h1, h2]

/-- A round after any history, in terms of rounds on the two sides of the constructed simulator. -/
theorem round_reached {bp : Bp} {a : Args mx mz lx lz n} {s : Sim mx mz lx lz n} {res : Vec n × Vec n} (h : Reached bp f a s res)
    (d : Draws mx mz n) {x : List (SideCall mz n lz) × Side mz n lz × Vec n} {z : List (SideCall mx n lx) × Side mx n lx × Vec n}
    (h1 : (sideNew f a.cfg a.Hz a.xMetas a.xRate a.zRate a.xSyn).round bp a.cfg a.ser (a.errors d.u res).1 d.gx d.ux = .ok x)
    (h2 : (sideNew f a.cfg a.Hx a.zMetas a.zRate a.xRate a.zSyn).round bp a.cfg a.ser (a.errors d.u res).2 d.gz d.uz = .ok z) :
    ∃ r, s.round bp res d = .ok r ∧ r.1.x = x.1 ∧ r.1.z = z.1 ∧ r.2.2 = (x.2.2, z.2.2) := by
  obtain ⟨s0, h0, hc⟩ := reached_canon h
  have e0 := new_eq h0
  have hr : s0.round bp res d = .ok (⟨x.1, z.1⟩, { s0 with x := x.2.1, z := z.2.1 }, x.2.2, z.2.2) := by
    apply round_intro <;> rw [e0]
    · exact h1
    · exact h2
  rcases round_cases bp s s0 hc res d with ⟨e, -, g⟩ | ⟨r, r', g, g', a1, a2, -, -⟩
  · rw [hr] at g; cases g
  · rw [hr] at g'
    obtain rfl := Except.ok.inj g'
    exact ⟨r, g, by rw [a1], by rw [a1], a2⟩

theorem errors_reached {bp : Bp} {a : Args mx mz lx lz n} {s : Sim mx mz lx lz n} {res : Vec n × Vec n} (h : Reached bp f a s res)
    (u : Fin n → ℝ) (res' : Vec n × Vec n) : s.errors u res' = a.errors u res' := by
  obtain ⟨s0, h0, hc⟩ := reached_canon h
  have e0 := new_eq h0
  have : s.channel = s0.channel := congrArg (·.channel) hc
  unfold Sim.errors Args.errors
  rw [this, e0]

theorem virtual_posterior {sigma : ℝ} (h : 0 < sigma) (y : Fin m → ℝ) :
    (fun j => virtualInit (y j) (.fin sigma)) = fun j => .fin (posteriorWrong sigma (y j)) :=
  funext fun j => (C109_posterior sigma (y j) h).1

theorem sigma_pos (hf : IsErfcInv f) (r : ℝ) (h0 : 0 < r) (h1 : r < 1 / 2) :
    ∃ sigma, 0 < sigma ∧ sigmaOfRate f r = .fin sigma ∧ ∀ b, wrongSign b sigma = r := by
  obtain ⟨t, ht, e, hw⟩ := C109_sigma hf r h0.le h1
  refine ⟨t, ht.lt_of_ne fun h => ?_, e, hw⟩
  have := hw true
  rw [← C109_rate true t ht, ← h, errorRate, if_pos rfl] at this
  linarith

theorem noisy_analog (c : SSConfig) (hc : c.analogTg = true) (H : Mat m n) (M : Option (Mat l m)) (own other syn ser sigma : ℝ)
    (hs : sigmaOfRate f syn = .fin sigma) (h0 : ser ≠ 0) (g u : Fin m → ℝ) (s : Vec m) :
    (sideNew f c H M own other syn).noisySyndrome c ser g u s = .ok (noisyAnalog s sigma g) := by
  have ha : c.analog = true := by unfold SSConfig.analog; rw [hc, Bool.or_true]
  unfold Side.noisySyndrome sideNew
  simp only [if_pos h0, ha, if_true, hs]

theorem oneStage_decoding (bp : Bp) (c : SSConfig) (h1 : c.singleStage = true) (hc : c.analogTg = true) (H : Mat m n) (M : Option (Mat l m))
    (own other syn sigma : ℝ) (hs : sigmaOfRate f syn = .fin sigma) (hp : 0 < sigma) (y : Fin m → ℝ) :
    ∃ o, decoding bp c (sideNew f c H M own other syn) y = .ok o ∧ o.calls = oneStageCalls H M own sigma y := by
  obtain ⟨ss, ai, at'⟩ := c
  obtain rfl : ss = true := h1
  obtain rfl : at' = true := hc
  cases M <;> cases ai <;> refine ⟨_, rfl, ?_⟩
  all_goals
    unfold oneStageCalls
    rw [← virtual_posterior hp, ← hs]
    rfl

theorem twoStage_decoding (bp : Bp) (c : SSConfig) (h1 : c.singleStage = false) (hc : c.analogTg = true) (H : Mat m n) (M : Mat l m)
    (own other syn sigma : ℝ) (hs : sigmaOfRate f syn = .fin sigma) (hp : 0 < sigma) (y : Fin m → ℝ) :
    ∃ o, decoding bp c (sideNew f c H (some M) own other syn) y = .ok o ∧ o.calls = twoStageCalls bp H M other syn sigma y := by
  obtain ⟨ss, ai, at'⟩ := c
  obtain rfl : ss = false := h1
  obtain rfl : at' = true := hc
  cases ai <;> refine ⟨_, rfl, ?_⟩
  all_goals
    unfold twoStageCalls
    rw [← virtual_posterior hp, ← hs]
    rfl

theorem hard_decoding (bp : Bp) (c : SSConfig) (h1 : c.singleStage = false) (hc : c.analog = false) (H : Mat m n) (M : Option (Mat l m))
    (own other syn : ℝ) (b : Vec m) :
    ∃ o, decoding bp c (sideNew f c H M own other syn) (toReal b) = .ok o ∧ o.calls = hardCalls bp H M own syn b := by
  obtain ⟨ss, ai, at'⟩ := c
  obtain rfl : ss = false := h1
  cases ai <;> cases at' <;> first | cases hc | skip
  cases M
  · refine ⟨_, rfl, ?_⟩
    have : (fun i => ((truncR (toReal b i) : ℤ) : ℝ)) = toReal b := funext fun i => truncR_toReal b i
    show [SideCall.std ⟨H, const own, fun i => ((truncR (toReal b i) : ℤ) : ℝ)⟩] = _
    rw [this]
    rfl
  · rename_i M
    refine ⟨_, rfl, ?_⟩
    show [SideCall.metaCode (metaCall M syn (bitsR (toReal b))), SideCall.std ⟨H, const own,
      toReal (bitsR (toReal b) + bp _ _ (metaCall M syn (bitsR (toReal b))))⟩] = _
    rw [bitsR_toReal]
    rfl

theorem channel_zero (bx bY bz : Option ℝ) : channelSetup 0 bx bY bz = ((0, 0, 0) : ℝ × ℝ × ℝ) := by
  unfold channelSetup
  split <;> simp

theorem ser_ne_zero (a : Args mx mz lx lz n) (h : 0 < a.xSyn) : a.ser ≠ 0 := by
  intro h0
  unfold Args.xSyn at h
  rw [h0, channel_zero] at h
  simp at h

/-! ### C114 -/

/-- **C114**: in the perfect round that ends every sample, whatever was decoded before, the decoders have the check matrix and the
error rate of their side, and are asked the true syndromes. -/
theorem C114_perfect (bp : Bp) (a : Args mx mz lx lz n) (s : Sim mx mz lx lz n) (res : Vec n × Vec n) (h : Reached bp f a s res)
    (u : Fin n → ℝ) : (s.perfect bp res u).1 =
      ⟨[.std ⟨a.Hz, const a.xRate, toReal (apply a.Hz (a.errors u res).1)⟩], [.std ⟨a.Hx, const a.zRate, toReal (apply a.Hx (a.errors u res).2)⟩]⟩ := by
  obtain ⟨s0, h0, hc⟩ := reached_canon h
  have e0 := new_eq h0
  rw [perfect_eq bp s s0 hc, e0]
  unfold sideNew setup
  cases h1 : a.cfg.singleStage <;> rfl

/-- **C114**: in every noisy round the residual error is the error plus the estimate of the last decoder asked. -/
theorem C114_residual (bp : Bp) (a : Args mx mz lx lz n) (s : Sim mx mz lx lz n) (res : Vec n × Vec n) (h : Reached bp f a s res)
    (d : Draws mx mz n) (r) (hr : s.round bp res d = .ok r) :
    ∃ qx qz, r.1.x.getLast? = some qx ∧ r.1.z.getLast? = some qz ∧
      r.2.2 = ((a.errors d.u res).1 + answer bp qx, (a.errors d.u res).2 + answer bp qz) := by
  obtain ⟨x, z, h1, h2, rfl⟩ := round_inv hr
  obtain ⟨y, o, -, ho, rfl⟩ := sideRound_inv h1
  obtain ⟨y', o', -, ho', rfl⟩ := sideRound_inv h2
  obtain ⟨q, g, e⟩ := decoding_last bp _ _ _ _ ho
  obtain ⟨q', g', e'⟩ := decoding_last bp _ _ _ _ ho'
  refine ⟨q, q', g, g', ?_⟩
  rw [e, e', errors_reached h]

/-- **C114 (partial)**: in every noisy round after every history, every decoder asked has the check matrix and the error rates of its
side.  Missing: two-stage decoding with the analog Tanner graph when the rates of the sides differ (`C114_violated`). -/
theorem C114_priors_partial (bp : Bp) (a : Args mx mz lx lz n) (s : Sim mx mz lx lz n) (res : Vec n × Vec n) (h : Reached bp f a s res)
    (hc : a.cfg.singleStage = true ∨ a.cfg.analogTg = false ∨ a.xRate = a.zRate) (d : Draws mx mz n) (r) (hr : s.round bp res d = .ok r) :
    (∀ q ∈ r.1.x, RightPrior a.Hz a.xMetas a.xRate a.xSyn q) ∧ ∀ q ∈ r.1.z, RightPrior a.Hx a.zMetas a.zRate a.zSyn q := by
  obtain ⟨s0, h0, hcn⟩ := reached_canon h
  have e0 := new_eq h0
  rcases round_cases bp s s0 hcn res d with ⟨e, g, -⟩ | ⟨r1, r', g, g', a1, a2, -, -⟩
  · rw [hr] at g; cases g
  · rw [hr] at g
    obtain rfl := Except.ok.inj g
    rw [a1]
    obtain ⟨x, z, h1, h2, rfl⟩ := round_inv g'
    obtain ⟨y, o, -, ho, rfl⟩ := sideRound_inv h1
    obtain ⟨y', o', -, ho', rfl⟩ := sideRound_inv h2
    rw [e0] at ho ho'
    exact ⟨decoding_prior bp _ _ _ _ _ _ hc _ _ ho, decoding_prior bp _ _ _ _ _ _ (by
      rcases hc with h | h | h
      · exact .inl h
      · exact .inr (.inl h)
      · exact .inr (.inr h.symm)) _ _ ho'⟩

/-- **C114**: single-stage decoding with the analog Tanner graph, in every noisy round after every history: every data bit has the
error rate of its side, every check the probability that its bit is wrong, given the measured value and noise of the rate of syndrome
errors; the decoders are asked the thresholded values and, with meta checks, their meta syndrome. -/
theorem C114_single_stage_analog (hf : IsErfcInv f) (bp : Bp) (a : Args mx mz lx lz n) (s : Sim mx mz lx lz n) (res : Vec n × Vec n)
    (h : Reached bp f a s res) (h1 : a.cfg.singleStage = true) (h2 : a.cfg.analogTg = true) (hx0 : 0 < a.xSyn) (hx1 : a.xSyn < 1 / 2)
    (hz0 : 0 < a.zSyn) (hz1 : a.zSyn < 1 / 2) (d : Draws mx mz n) :
    ∃ r sx sz, s.round bp res d = .ok r ∧ 0 < sx ∧ 0 < sz ∧ (∀ b, wrongSign b sx = a.xSyn ∧ wrongSign b sz = a.zSyn) ∧
      r.1.x = oneStageCalls a.Hz a.xMetas a.xRate sx (noisyAnalog (apply a.Hz (a.errors d.u res).1) sx d.gx) ∧
      r.1.z = oneStageCalls a.Hx a.zMetas a.zRate sz (noisyAnalog (apply a.Hx (a.errors d.u res).2) sz d.gz) := by
  obtain ⟨sx, px, ex, wx⟩ := sigma_pos hf a.xSyn hx0 hx1
  obtain ⟨sz, pz, ez, wz⟩ := sigma_pos hf a.zSyn hz0 hz1
  have h0 := ser_ne_zero a hx0
  obtain ⟨ox, gx, cx⟩ := oneStage_decoding (f := f) bp a.cfg h1 h2 a.Hz a.xMetas a.xRate a.zRate a.xSyn sx ex px
    (noisyAnalog (apply a.Hz (a.errors d.u res).1) sx d.gx)
  obtain ⟨oz, gz, cz⟩ := oneStage_decoding (f := f) bp a.cfg h1 h2 a.Hx a.zMetas a.zRate a.xRate a.zSyn sz ez pz
    (noisyAnalog (apply a.Hx (a.errors d.u res).2) sz d.gz)
  obtain ⟨r, g, rx, rz, -⟩ := round_reached h d
    (sideRound_intro (noisy_analog a.cfg h2 a.Hz a.xMetas a.xRate a.zRate a.xSyn a.ser sx ex h0 d.gx d.ux _) gx)
    (sideRound_intro (noisy_analog a.cfg h2 a.Hx a.zMetas a.zRate a.xRate a.zSyn a.ser sz ez h0 d.gz d.uz _) gz)
  exact ⟨r, sx, sz, g, px, pz, fun b => ⟨wx b, wz b⟩, rx.trans cx, rz.trans cz⟩

/-- **C114**: the same for two-stage decoding with meta checks on both sides: the meta code repairs the thresholded values, with the
rate of syndrome errors.  The data bits get the error rate of the *other* side. -/
theorem C114_two_stage_analog (hf : IsErfcInv f) (bp : Bp) (a : Args mx mz lx lz n) (s : Sim mx mz lx lz n) (res : Vec n × Vec n)
    (h : Reached bp f a s res) (h1 : a.cfg.singleStage = false) (h2 : a.cfg.analogTg = true) (hx0 : 0 < a.xSyn) (hx1 : a.xSyn < 1 / 2)
    (hz0 : 0 < a.zSyn) (hz1 : a.zSyn < 1 / 2) (Mz : Mat lz mz) (Mx : Mat lx mx) (hmz : a.xMetas = some Mz) (hmx : a.zMetas = some Mx)
    (d : Draws mx mz n) :
    ∃ r sx sz, s.round bp res d = .ok r ∧ 0 < sx ∧ 0 < sz ∧ (∀ b, wrongSign b sx = a.xSyn ∧ wrongSign b sz = a.zSyn) ∧
      r.1.x = twoStageCalls bp a.Hz Mz a.zRate a.xSyn sx (noisyAnalog (apply a.Hz (a.errors d.u res).1) sx d.gx) ∧
      r.1.z = twoStageCalls bp a.Hx Mx a.xRate a.zSyn sz (noisyAnalog (apply a.Hx (a.errors d.u res).2) sz d.gz) := by
  obtain ⟨sx, px, ex, wx⟩ := sigma_pos hf a.xSyn hx0 hx1
  obtain ⟨sz, pz, ez, wz⟩ := sigma_pos hf a.zSyn hz0 hz1
  have h0 := ser_ne_zero a hx0
  obtain ⟨ox, gx, cx⟩ := twoStage_decoding (f := f) bp a.cfg h1 h2 a.Hz Mz a.xRate a.zRate a.xSyn sx ex px
    (noisyAnalog (apply a.Hz (a.errors d.u res).1) sx d.gx)
  obtain ⟨oz, gz, cz⟩ := twoStage_decoding (f := f) bp a.cfg h1 h2 a.Hx Mx a.zRate a.xRate a.zSyn sz ez pz
    (noisyAnalog (apply a.Hx (a.errors d.u res).2) sz d.gz)
  rw [← hmz] at gx
  rw [← hmx] at gz
  obtain ⟨r, g, rx, rz, -⟩ := round_reached h d
    (sideRound_intro (noisy_analog a.cfg h2 a.Hz a.xMetas a.xRate a.zRate a.xSyn a.ser sx ex h0 d.gx d.ux _) gx)
    (sideRound_intro (noisy_analog a.cfg h2 a.Hx a.zMetas a.zRate a.xRate a.zSyn a.ser sz ez h0 d.gz d.uz _) gz)
  exact ⟨r, sx, sz, g, px, pz, fun b => ⟨wx b, wz b⟩, rx.trans cx, rz.trans cz⟩

/-- **C114**: two-stage decoding with binary syndromes, in every noisy round after every history: each syndrome bit is flipped if its
draw is below the rate of syndrome errors (no bit is flipped at rate zero); with meta checks the syndrome is repaired first. -/
theorem C114_two_stage_hard (bp : Bp) (a : Args mx mz lx lz n) (s : Sim mx mz lx lz n) (res : Vec n × Vec n)
    (h : Reached bp f a s res) (h1 : a.cfg.singleStage = false) (h2 : a.cfg.analog = false) (d : Draws mx mz n)
    (hu : ∀ i, 0 ≤ d.ux i) (hu' : ∀ i, 0 ≤ d.uz i) :
    ∃ r, s.round bp res d = .ok r ∧
      r.1.x = hardCalls bp a.Hz a.xMetas a.xRate a.xSyn (apply a.Hz (a.errors d.u res).1 + fun i => if d.ux i < a.xSyn then 1 else 0) ∧
      r.1.z = hardCalls bp a.Hx a.zMetas a.zRate a.zSyn (apply a.Hx (a.errors d.u res).2 + fun i => if d.uz i < a.zSyn then 1 else 0) := by
  have key : ∀ {m l : ℕ} (H : Mat m n) (M : Option (Mat l m)) (own other syn : ℝ) (g u : Fin m → ℝ) (e : Vec n) (_ : ∀ i, 0 ≤ u i)
      (_ : a.ser = 0 → syn = 0), (sideNew f a.cfg H M own other syn).noisySyndrome a.cfg a.ser g u (apply H e) =
        .ok (toReal (apply H e + fun i => if u i < syn then 1 else 0)) := by
    intro m l H M own other syn g u e hu0 hz
    unfold Side.noisySyndrome
    by_cases hs : a.ser = 0
    · rw [if_neg (not_not.2 hs)]
      congr 2
      funext i
      rw [Pi.add_apply, if_neg (by rw [hz hs]; exact not_lt.2 (hu0 i)), add_zero]
    · rw [if_pos hs, h2]
      rfl
  have z1 : a.ser = 0 → a.xSyn = 0 := fun h => by unfold Args.xSyn; rw [h, channel_zero]; simp
  have z2 : a.ser = 0 → a.zSyn = 0 := fun h => by unfold Args.zSyn; rw [h, channel_zero]; simp
  obtain ⟨ox, gx, cx⟩ := hard_decoding (f := f) bp a.cfg h1 h2 a.Hz a.xMetas a.xRate a.zRate a.xSyn
    (apply a.Hz (a.errors d.u res).1 + fun i => if d.ux i < a.xSyn then 1 else 0)
  obtain ⟨oz, gz, cz⟩ := hard_decoding (f := f) bp a.cfg h1 h2 a.Hx a.zMetas a.zRate a.xRate a.zSyn
    (apply a.Hx (a.errors d.u res).2 + fun i => if d.uz i < a.zSyn then 1 else 0)
  obtain ⟨r, g, rx, rz, -⟩ := round_reached h d (sideRound_intro (key a.Hz a.xMetas _ _ _ d.gx d.ux _ hu z1) gx)
    (sideRound_intro (key a.Hx a.zMetas _ _ _ d.gz d.uz _ hu' z2) gz)
  exact ⟨r, g, rx.trans cx, rz.trans cz⟩

/-- The full claim: every decoder asked in any round has the matrix and the rates of its side. -/
def C114_claim (f : ℝ → ℝ) : Prop :=
  ∀ (mx mz lx lz n : ℕ) (bp : Bp) (a : Args mx mz lx lz n) (s : Sim mx mz lx lz n) (res : Vec n × Vec n), Reached bp f a s res →
    ∀ (d : Draws mx mz n) (r), s.round bp res d = .ok r →
      (∀ q ∈ r.1.x, RightPrior a.Hz a.xMetas a.xRate a.xSyn q) ∧ ∀ q ∈ r.1.z, RightPrior a.Hx a.zMetas a.zRate a.zSyn q

/-- A biased simulation: Z errors are twice as likely as X errors. -/
noncomputable def biased (c : SSConfig) : Args 1 1 1 1 2 where
  cfg := c
  per := 3 / 10
  ser := 3 / 10
  bx := some 1
  bY := some 0
  bz := some 2
  xMeta := true
  zMeta := true
  Hx := fun _ _ => 1
  Hz := fun _ _ => 1
  Mx := some fun _ _ => 1
  Mz := some fun _ _ => 1
  Lx := none
  Lz := none

theorem biased_rates (c : SSConfig) : (biased c).xRate = 1 / 10 ∧ (biased c).zRate = 2 / 10 ∧ (biased c).xSyn = 1 / 10 ∧ (biased c).zSyn = 2 / 10 := by
  obtain ⟨h1, h2, h3, h4⟩ := rates_finite (biased c) 1 0 2 rfl rfl rfl
  rw [h1, h2, h3, h4]
  norm_num [biased]

theorem biased_reached (bp : Bp) (c : SSConfig) (hc : (c.analogTg && c.analogInfo) = false) : ∃ s, Reached bp f (biased c) s (0, 0) := by
  have : ∃ s0, Sim.new f (biased c) = .ok s0 := by
    unfold Sim.new
    rw [if_neg (by rw [show (biased c).cfg = c from rfl, hc]; decide), if_neg (by simp)]
    exact ⟨_, rfl⟩
  obtain ⟨s0, h⟩ := this
  exact ⟨s0, s0, s0, [], [], [], ⟨[], []⟩, h, rfl, rfl⟩

/-- **C114 fails** for two-stage decoding with the analog Tanner graph: the data bits get the error rate of the other side. -/
theorem C114_violated (hf : IsErfcInv f) : ¬ C114_claim f := by
  intro hcl
  obtain ⟨r1, r2, r3, r4⟩ := biased_rates ⟨false, false, true⟩
  obtain ⟨s, hs⟩ := biased_reached (f := f) (fun _ _ _ => 0) ⟨false, false, true⟩ rfl
  obtain ⟨r, sx, sz, hr, -, -, -, hx, -⟩ := C114_two_stage_analog hf (fun _ _ _ => 0) (biased ⟨false, false, true⟩) s (0, 0) hs rfl rfl
    (by rw [r3]; norm_num) (by rw [r3]; norm_num) (by rw [r4]; norm_num) (by rw [r4]; norm_num) _ _ rfl rfl ⟨0, 0, 0, 0, 0⟩
  have h := (hcl _ _ _ _ _ _ _ s (0, 0) hs _ r hr).1
  rw [hx] at h
  have hm : ∀ {m n l : ℕ} (bp : Bp) (H : Mat m n) (M : Mat l m) (rate syn sigma : ℝ) (y : Fin m → ℝ) (P : SideCall m n l → Prop),
      (∀ q ∈ twoStageCalls bp H M rate syn sigma y, P q) → P (.tanner ⟨analogPcm H, Fin.append (const rate) fun j => .fin (posteriorWrong sigma (y j)),
        toReal (binaryFromAnalog y + bp _ _ (metaCall M syn (binaryFromAnalog y)))⟩) := by
    intro m n l bp H M rate syn sigma y P h
    exact h _ (List.mem_cons_of_mem _ List.mem_cons_self)
  have h2 := (hm _ _ _ _ _ _ _ _ h).2 (0 : Fin 2)
  simp only [Fin.append_left, const] at h2
  have h3 := Num.fin.inj h2
  rw [r1, r2] at h3
  norm_num at h3

/-- The hypotheses of the exact theorems are met. -/
example (hf : IsErfcInv f) (bp : Bp) (d : Draws 1 1 2) :
    ∃ s r, Reached bp f (biased ⟨true, false, true⟩) s (0, 0) ∧ s.round bp (0, 0) d = .ok r ∧ r.1.x.length = 1 := by
  obtain ⟨r1, r2, r3, r4⟩ := biased_rates ⟨true, false, true⟩
  obtain ⟨s, hs⟩ := biased_reached (f := f) bp ⟨true, false, true⟩ rfl
  obtain ⟨r, sx, sz, hr, -, -, -, hx, -⟩ := C114_single_stage_analog hf bp (biased ⟨true, false, true⟩) s (0, 0) hs rfl rfl
    (by rw [r3]; norm_num) (by rw [r3]; norm_num) (by rw [r4]; norm_num) (by rw [r4]; norm_num) d
  exact ⟨s, r, hs, hr, by rw [hx]; rfl⟩

example (bp : Bp) : ∃ s r, Reached bp f (biased ⟨false, false, false⟩) s (0, 0) ∧ s.round bp (0, 0) ⟨0, 0, 0, 0, 0⟩ = .ok r ∧
    r.1.x.length = 2 ∧ (s.perfect bp (0, 0) 0).1.x.length = 1 := by
  obtain ⟨s, hs⟩ := biased_reached (f := f) bp ⟨false, false, false⟩ rfl
  obtain ⟨r, hr, hx, -⟩ := C114_two_stage_hard bp (biased ⟨false, false, false⟩) s (0, 0) hs rfl rfl ⟨0, 0, 0, 0, 0⟩ (fun _ => le_rfl) fun _ => le_rfl
  refine ⟨s, r, hs, hr, by rw [hx]; rfl, by rw [C114_perfect bp _ _ _ hs]; rfl⟩

/-! ### C115 -/

/-- **C115**: a sample does not depend on the samples before it: the calls of decoders and the result are those of a simulator that was
just constructed. -/
theorem C115_fresh (bp : Bp) (s0 s : Sim mx mz lx lz n)
    (hist : List (List (Draws mx mz n) × (Fin n → ℝ))) (fl : List (Bool × Bool)) (h : s0.samples bp hist = .ok (s, fl))
    (noisy : List (Draws mx mz n)) (last : Fin n → ℝ) :
    (s.sample bp noisy last).map (fun r => (r.1, r.2.2)) = (s0.sample bp noisy last).map fun r => (r.1, r.2.2) := by
  rcases sample_cases bp s s0 (samples_canon bp hist s0 s fl h) noisy last with ⟨e, h1, h2⟩ | ⟨r, r', h1, h2, a1, a2, -⟩
  · rw [h1, h2]
  · rw [h1, h2]
    simp only [Except.map, a1, a2]

/-- **C115**: the results of a run are those of its samples, each on its own. -/
theorem C115_samples (bp : Bp) (s0 : Sim mx mz lx lz n) (hist : List (List (Draws mx mz n) × (Fin n → ℝ))) : ∀ (s : Sim mx mz lx lz n)
    (fl : List (Bool × Bool)), s0.samples bp hist = .ok (s, fl) →
    List.Forall₂ (fun d b => ∃ r, s0.sample bp d.1 d.2 = .ok r ∧ r.2.2 = b) hist fl := by
  suffices H : ∀ (s1 : Sim mx mz lx lz n), s1.canon = s0.canon → ∀ (s : Sim mx mz lx lz n) (fl : List (Bool × Bool)),
      s1.samples bp hist = .ok (s, fl) → List.Forall₂ (fun d b => ∃ r, s0.sample bp d.1 d.2 = .ok r ∧ r.2.2 = b) hist fl from
    fun s fl h => H s0 rfl s fl h
  induction hist with
  | nil => intro s1 _ s fl h; cases h; exact .nil
  | cons d ds ih =>
    intro s1 hc s fl h
    simp only [Sim.samples, bind, Except.bind, pure, Except.pure] at h
    rcases sample_cases bp s1 s0 hc d.1 d.2 with ⟨e, h1, -⟩ | ⟨r, r', h1, h2, a1, a2, c⟩
    · rw [h1] at h; cases h
    · rw [h1] at h
      simp only at h
      cases h3 : r.2.1.samples bp ds with
      | error e => rw [h3] at h; cases h
      | ok t =>
        rw [h3] at h
        have e := Except.ok.inj h
        obtain rfl : r.2.2 :: t.2 = fl := (Prod.ext_iff.1 e).2
        exact .cons ⟨r', h2, a2.symm⟩ (ih r.2.1 (c.trans hc) t.1 t.2 h3)

/-- Two samples with one noisy round each. -/
example (bp : Bp) : ∃ s0 s fl, Sim.new f (biased ⟨false, false, false⟩) = .ok s0 ∧
    s0.samples bp [([⟨0, 0, 0, 0, 0⟩], 0), ([⟨1, 0, 0, 0, 0⟩], 1)] = .ok (s, fl) ∧ fl.length = 2 := by
  have hn : ∃ s0, Sim.new f (biased ⟨false, false, false⟩) = .ok s0 := ⟨_, by unfold Sim.new; rw [if_neg (by decide), if_neg (by decide)]⟩
  obtain ⟨s0, h0⟩ := hn
  have hsmp : ∀ (s : Sim 1 1 1 1 2), s.canon = s0.canon → ∀ u last, ∃ r, s.sample bp [⟨u, 0, 0, 0, 0⟩] last = .ok r ∧ r.2.1.canon = s0.canon := by
    intro s hc u last
    have hr : Reached bp f (biased ⟨false, false, false⟩) s0 (0, 0) := ⟨s0, s0, [], [], [], ⟨[], []⟩, h0, rfl, rfl⟩
    obtain ⟨r, hr, -⟩ := C114_two_stage_hard bp (biased ⟨false, false, false⟩) s0 (0, 0) hr rfl rfl ⟨u, 0, 0, 0, 0⟩ (fun _ => le_rfl) fun _ => le_rfl
    rcases sample_cases bp s s0 hc [⟨u, 0, 0, 0, 0⟩] last with ⟨e, -, h2⟩ | ⟨r, r', h1, h2, -, -, c⟩
    · simp only [Sim.sample, Sim.rounds, bind, Except.bind, pure, Except.pure, hr] at h2
      cases h2
    · exact ⟨r, h1, c.trans hc⟩
  obtain ⟨r1, h1, c1⟩ := hsmp s0 rfl 0 0
  obtain ⟨r2, h2, c2⟩ := hsmp r1.2.1 c1 1 1
  refine ⟨s0, r2.2.1, [r1.2.2, r2.2.2], h0, ?_, rfl⟩
  simp only [Sim.samples, bind, Except.bind, pure, Except.pure, h1, h2]

end Verif.SSO
