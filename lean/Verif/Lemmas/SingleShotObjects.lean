import Verif.Model.SingleShotObjects

/-!
# The decoder objects of `SingleShotSimulator`: what changes during a simulation
-/

namespace Verif.SSO
open Verif Analog AnalogTanner

variable {m n l mx mz lx lz : ℕ}

/-- Forget the probabilities that are overwritten before they are used. -/
def Decs.canon (c : SSConfig) (d : Decs m n l) : Decs m n l :=
  if c.analogTg then { d with tanner := d.tanner.map fun t => ⟨t.pcm, const 0⟩, stage := d.stage.map fun t => ⟨t.pcm, const 0⟩ } else d

/-- The same for a side. -/
def Side.canon (c : SSConfig) (t : Side m n l) : Side m n l := { t with decs := t.decs.canon c }

/-- The same for the simulator. -/
def Sim.canon (s : Sim mx mz lx lz n) : Sim mx mz lx lz n := { s with x := s.x.canon s.cfg, z := s.z.canon s.cfg }

theorem decoding_canon (bp : Bp) (c : SSConfig) (t : Side m n l) (y : Fin m → ℝ) :
    (decoding bp c t y).map (fun o => (o.calls, o.decs.canon c, o.estimate)) =
      (decoding bp c (t.canon c) y).map fun o => (o.calls, t.decs.canon c, o.estimate) := by
  obtain ⟨ss, ai, at'⟩ := c
  obtain ⟨H, M, own, other, syn, sigma, ⟨std, tanner, stage, metaCode⟩⟩ := t
  cases ss <;> cases ai <;> cases at' <;> cases M <;> cases sigma <;> cases tanner <;> cases stage <;> cases metaCode <;> rfl

theorem decoding_eq (bp : Bp) (c : SSConfig) (t t' : Side m n l) (h : t.canon c = t'.canon c) (y : Fin m → ℝ) :
    (decoding bp c t y).map (fun o => (o.calls, o.decs.canon c, o.estimate)) =
      (decoding bp c t' y).map fun o => (o.calls, t.decs.canon c, o.estimate) := by
  have hd : t.decs.canon c = t'.decs.canon c := congrArg Side.decs h
  have h1 := decoding_canon bp c t y
  have h2 := decoding_canon bp c t' y
  rw [h1, h, hd, ← h2]
  have e1 : ((decoding bp c t' y).map fun o => (o.calls, o.decs.canon c, o.estimate)).map (fun r => (r.1, t'.decs.canon c, r.2.2)) =
      (decoding bp c t' y).map fun o => (o.calls, t'.decs.canon c, o.estimate) := by
    cases decoding bp c t' y <;> rfl
  rw [← e1, h2]
  cases decoding bp c (t'.canon c) y <;> rfl

theorem noisySyndrome_canon (c c' : SSConfig) (t : Side m n l) (ser : ℝ) (g u : Fin m → ℝ) (s : Vec m) :
    (t.canon c').noisySyndrome c ser g u s = t.noisySyndrome c ser g u s := rfl

theorem sideRound_eq (bp : Bp) (c : SSConfig) (ser : ℝ) (t t' : Side m n l) (h : t.canon c = t'.canon c) (e : Vec n) (g u : Fin m → ℝ) :
    (t.round bp c ser e g u).map (fun r => (r.1, r.2.1.canon c, r.2.2)) =
      (t'.round bp c ser e g u).map fun r => (r.1, t.canon c, r.2.2) := by
  have hH : apply t.H e = apply t'.H e := by
    show apply (t.canon c).H e = apply (t'.canon c).H e
    rw [h]
  have hn : ∀ s, t.noisySyndrome c ser g u s = t'.noisySyndrome c ser g u s := fun s => by
    rw [← noisySyndrome_canon c c t, h, noisySyndrome_canon]
  unfold Side.round
  rw [hn, hH]
  cases t'.noisySyndrome c ser g u (apply t'.H e) with
  | error e => rfl
  | ok y =>
    have hd := decoding_eq bp c t t' h y
    simp only [bind, Except.bind, pure, Except.pure]
    cases h1 : decoding bp c t y with
    | error e1 =>
      rw [h1] at hd
      cases h2 : decoding bp c t' y with
      | error e2 => rw [h2] at hd; cases hd; rfl
      | ok o2 => rw [h2] at hd; cases hd
    | ok o1 =>
      rw [h1] at hd
      cases h2 : decoding bp c t' y with
      | error e2 => rw [h2] at hd; cases hd
      | ok o2 =>
        rw [h2] at hd
        obtain ⟨hc, hdd, he⟩ : o1.calls = o2.calls ∧ o1.decs.canon c = t.decs.canon c ∧ o1.estimate = o2.estimate := by
          have := Except.ok.inj hd
          simpa using this
        simp only [Except.map, Side.canon, hc, hdd, he]

theorem round_eq (bp : Bp) (s s' : Sim mx mz lx lz n) (h : s.canon = s'.canon) (res : Vec n × Vec n) (d : Draws mx mz n) :
    (s.round bp res d).map (fun r => (r.1, r.2.1.canon, r.2.2)) = (s'.round bp res d).map fun r => (r.1, s.canon, r.2.2) := by
  have hc : s.cfg = s'.cfg := congrArg (·.cfg) h
  have hs : s.ser = s'.ser := congrArg (·.ser) h
  have hch : s.channel = s'.channel := congrArg (·.channel) h
  have hx : s.x.canon s.cfg = s'.x.canon s.cfg := by
    have := congrArg Sim.x h
    rw [hc]; rw [show s.canon.x = s.x.canon s.cfg from rfl, hc] at this; exact this
  have hz : s.z.canon s.cfg = s'.z.canon s.cfg := by
    have := congrArg Sim.z h
    rw [hc]; rw [show s.canon.z = s.z.canon s.cfg from rfl, hc] at this; exact this
  have he : s.errors d.u res = s'.errors d.u res := by unfold Sim.errors; rw [hch]
  have h1 := sideRound_eq bp s.cfg s.ser s.x s'.x hx (s.errors d.u res).1 d.gx d.ux
  have h2 := sideRound_eq bp s.cfg s.ser s.z s'.z hz (s.errors d.u res).2 d.gz d.uz
  unfold Sim.round
  rw [← hc, ← hs, ← he]
  simp only [bind, Except.bind, pure, Except.pure]
  cases e1 : s.x.round bp s.cfg s.ser (s.errors d.u res).1 d.gx d.ux with
  | error e =>
    rw [e1] at h1
    cases e1' : s'.x.round bp s.cfg s.ser (s.errors d.u res).1 d.gx d.ux with
    | error e' => rw [e1'] at h1; cases h1; rfl
    | ok r' => rw [e1'] at h1; cases h1
  | ok r =>
    rw [e1] at h1
    cases e1' : s'.x.round bp s.cfg s.ser (s.errors d.u res).1 d.gx d.ux with
    | error e' => rw [e1'] at h1; cases h1
    | ok r' =>
      rw [e1'] at h1
      obtain ⟨a1, a2, a3⟩ : r.1 = r'.1 ∧ r.2.1.canon s.cfg = s.x.canon s.cfg ∧ r.2.2 = r'.2.2 := by
        have := Except.ok.inj h1
        simpa using this
      simp only
      cases e2 : s.z.round bp s.cfg s.ser (s.errors d.u res).2 d.gz d.uz with
      | error e =>
        rw [e2] at h2
        cases e2' : s'.z.round bp s.cfg s.ser (s.errors d.u res).2 d.gz d.uz with
        | error e' => rw [e2'] at h2; cases h2; rfl
        | ok q' => rw [e2'] at h2; cases h2
      | ok q =>
        rw [e2] at h2
        cases e2' : s'.z.round bp s.cfg s.ser (s.errors d.u res).2 d.gz d.uz with
        | error e' => rw [e2'] at h2; cases h2
        | ok q' =>
          rw [e2'] at h2
          obtain ⟨b1, b2, b3⟩ : q.1 = q'.1 ∧ q.2.1.canon s.cfg = s.z.canon s.cfg ∧ q.2.2 = q'.2.2 := by
            have := Except.ok.inj h2
            simpa using this
          simp only [Except.map, Sim.canon, a1, a2, a3, b1, b2, b3]

/-- Two simulators that differ only in probabilities that are overwritten before use: either both fail in the same way, or both
succeed, with the same calls and residual errors. -/
theorem round_cases (bp : Bp) (s s' : Sim mx mz lx lz n) (h : s.canon = s'.canon) (res : Vec n × Vec n) (d : Draws mx mz n) :
    (∃ e, s.round bp res d = .error e ∧ s'.round bp res d = .error e) ∨
      ∃ r r', s.round bp res d = .ok r ∧ s'.round bp res d = .ok r' ∧ r.1 = r'.1 ∧ r.2.2 = r'.2.2 ∧ r.2.1.canon = s.canon ∧
        r'.2.1.canon = s.canon := by
  have h1 := round_eq bp s s' h res d
  have h2 := round_eq bp s' s' rfl res d
  cases e1 : s.round bp res d with
  | error e =>
    rw [e1] at h1
    cases e2 : s'.round bp res d with
    | error e' => rw [e2] at h1; cases h1; exact .inl ⟨e, rfl, rfl⟩
    | ok r' => rw [e2] at h1; cases h1
  | ok r =>
    rw [e1] at h1
    cases e2 : s'.round bp res d with
    | error e' => rw [e2] at h1; cases h1
    | ok r' =>
      rw [e2] at h1 h2
      have h1 := Except.ok.inj h1
      have h2 := Except.ok.inj h2
      simp only [Prod.mk.injEq] at h1 h2
      exact .inr ⟨r, r', rfl, rfl, h1.1, h1.2.2, h1.2.1, h2.2.1.trans h.symm⟩

theorem rounds_cases (bp : Bp) (ds : List (Draws mx mz n)) : ∀ (s s' : Sim mx mz lx lz n), s.canon = s'.canon → ∀ (res : Vec n × Vec n),
    (∃ e, s.rounds bp res ds = .error e ∧ s'.rounds bp res ds = .error e) ∨
      ∃ r r', s.rounds bp res ds = .ok r ∧ s'.rounds bp res ds = .ok r' ∧ r.1 = r'.1 ∧ r.2.2 = r'.2.2 ∧ r.2.1.canon = s.canon ∧
        r'.2.1.canon = s.canon := by
  induction ds with
  | nil => exact fun s s' h res => .inr ⟨_, _, rfl, rfl, rfl, rfl, rfl, h.symm⟩
  | cons d ds ih =>
    intro s s' h res
    simp only [Sim.rounds, bind, Except.bind, pure, Except.pure]
    rcases round_cases bp s s' h res d with ⟨e, h1, h2⟩ | ⟨r, r', h1, h2, a, b, c, c'⟩
    · rw [h1, h2]; exact .inl ⟨e, rfl, rfl⟩
    · rw [h1, h2]
      simp only
      rw [← b]
      rcases ih r.2.1 r'.2.1 (c.trans c'.symm) r.2.2 with ⟨e, g1, g2⟩ | ⟨q, q', g1, g2, a', b', e, e'⟩
      · rw [g1, g2]; exact .inl ⟨e, rfl, rfl⟩
      · rw [g1, g2]
        exact .inr ⟨_, _, rfl, rfl, by rw [a, a'], b', e.trans c, e'.trans c⟩

theorem perfect_eq (bp : Bp) (s s' : Sim mx mz lx lz n) (h : s.canon = s'.canon) (res : Vec n × Vec n) (u : Fin n → ℝ) :
    s.perfect bp res u = s'.perfect bp res u := by
  have hH : ∀ s : Sim mx mz lx lz n, s.perfect bp res u = s.canon.perfect bp res u := by
    intro s
    have hstd : ∀ (c : SSConfig) {m l : ℕ} (t : Side m n l), (t.canon c).decs.std = t.decs.std := by
      intro c m l t
      unfold Side.canon Decs.canon
      cases c.analogTg <;> rfl
    unfold Sim.perfect
    rw [show s.canon.x = s.x.canon s.cfg from rfl, show s.canon.z = s.z.canon s.cfg from rfl, hstd, hstd]
    rfl
  rw [hH s, hH s', h]

theorem sample_cases (bp : Bp) (s s' : Sim mx mz lx lz n) (h : s.canon = s'.canon) (noisy : List (Draws mx mz n)) (last : Fin n → ℝ) :
    (∃ e, s.sample bp noisy last = .error e ∧ s'.sample bp noisy last = .error e) ∨
      ∃ r r', s.sample bp noisy last = .ok r ∧ s'.sample bp noisy last = .ok r' ∧ r.1 = r'.1 ∧ r.2.2 = r'.2.2 ∧ r.2.1.canon = s.canon := by
  simp only [Sim.sample, bind, Except.bind, pure, Except.pure]
  rcases rounds_cases bp noisy s s' h (0, 0) with ⟨e, h1, h2⟩ | ⟨r, r', h1, h2, a, b, c, c'⟩
  · rw [h1, h2]; exact .inl ⟨e, rfl, rfl⟩
  · rw [h1, h2]
    refine .inr ⟨_, _, rfl, rfl, ?_, ?_, c⟩ <;> simp only [a, b, perfect_eq bp _ _ (c.trans c'.symm)]

/-- A simulator after any samples differs from the constructed one only in probabilities that are overwritten before use. -/
theorem samples_canon (bp : Bp) (hist : List (List (Draws mx mz n) × (Fin n → ℝ))) : ∀ (s0 s : Sim mx mz lx lz n) (fl : List (Bool × Bool)),
    s0.samples bp hist = .ok (s, fl) → s.canon = s0.canon := by
  induction hist with
  | nil => intro s0 s fl h; cases h; rfl
  | cons d ds ih =>
    intro s0 s fl h
    simp only [Sim.samples, bind, Except.bind, pure, Except.pure] at h
    rcases sample_cases bp s0 s0 rfl d.1 d.2 with ⟨e, h1, -⟩ | ⟨r, -, h1, -, -, -, c⟩
    · rw [h1] at h; cases h
    · rw [h1] at h
      simp only at h
      cases h2 : r.2.1.samples bp ds with
      | error e => rw [h2] at h; cases h
      | ok t =>
        rw [h2] at h
        have := Except.ok.inj h
        rw [show s = t.1 from (Prod.ext_iff.1 this).1.symm, ih _ _ _ h2, c]

end Verif.SSO
