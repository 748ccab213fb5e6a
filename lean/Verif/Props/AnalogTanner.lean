import Verif.Model.AnalogTanner
import Verif.Lemmas.Gauss
import Verif.Props.Analog3

/-!
# C109, C110, C111: analog Tanner graph decoding
-/

namespace Verif.AnalogTanner
open Verif Analog Real Gauss MeasureTheory ProbabilityTheory

variable {m n mx mz : ℕ} {f : ℝ → ℝ}

/-! ## C109: noise strength and error rate -/

theorem errorRate_eq {sigma : ℝ} (h : sigma ≠ 0) : errorRate sigma = erfc (1 / √(2 * sigma ^ 2)) / 2 := by
  unfold errorRate
  rw [if_neg h]
  norm_num
  ring

/-- **C109**: the error rate of a noise strength is the probability that the read-out of a check has the wrong sign. -/
theorem C109_rate (b : Bool) (sigma : ℝ) (h : 0 ≤ sigma) : errorRate sigma = wrongSign b sigma := by
  rcases h.eq_or_lt with h | h
  · subst h
    unfold errorRate wrongSign readout
    rw [if_pos rfl]
    cases b <;> norm_num
  · rw [errorRate_eq h.ne', wrongSign_eq b sigma h]

/-- **C109**: with the functions of the simulators: the probability that the thresholded bit of a noisy analog syndrome differs from
the bit of the perfect syndrome. -/
theorem C109_bit (s : Vec m) (i : Fin m) (sigma : ℝ) (h : 0 ≤ sigma) :
    standardNormal.real {g | binaryFromAnalog (noisyAnalog s sigma fun _ => g) i ≠ s i} = errorRate sigma := by
  rw [C109_rate (decide (s i = 1)) sigma h]
  unfold wrongSign readout binaryFromAnalog noisyAnalog
  congr 1
  ext g
  simp only [Set.mem_setOf_eq]
  rcases zmod2_cases (s i) with e | e
  · by_cases h1 : (1 : ℝ) + sigma * g ≤ 0 <;> simp [e, h1]
  · by_cases h1 : (-1 : ℝ) + sigma * g ≤ 0 <;> simp [e, h1]

/-- **C109**: every rate is less than a half. -/
theorem C109_rate_lt (sigma : ℝ) : 0 ≤ errorRate sigma ∧ errorRate sigma < 1 / 2 := by
  by_cases h : sigma = 0
  · subst h; unfold errorRate; rw [if_pos rfl]; norm_num
  · rw [errorRate_eq h]
    have h1 : erfc (1 / √(2 * sigma ^ 2)) < erfc 0 := erfc_strictAnti (by positivity)
    rw [erfc_zero] at h1
    constructor <;> linarith [erfc_pos (1 / √(2 * sigma ^ 2))]

/-- **C109**: every rate below a half is turned into a noise strength with this rate. -/
theorem C109_sigma (hf : IsErfcInv f) (ser : ℝ) (h0 : 0 ≤ ser) (h1 : ser < 1 / 2) :
    ∃ sigma, 0 ≤ sigma ∧ sigmaOfRate f ser = .fin sigma ∧ ∀ b, wrongSign b sigma = ser := by
  rcases h0.eq_or_lt with h | h
  · refine ⟨0, le_rfl, by unfold sigmaOfRate; rw [if_pos h.symm], fun b => ?_⟩
    rw [← C109_rate b 0 le_rfl, ← h]
    unfold errorRate
    rw [if_pos rfl]
  · have hi := hf (2 * ser) (by linarith) (by linarith)
    have hp : 0 < f (2 * ser) := by
      by_contra hn
      have := erfc_strictAnti.antitone (not_lt.1 hn)
      rw [hi, erfc_zero] at this
      linarith
    have h2 : (0 : ℝ) < √2 := sqrt_pos.2 two_pos
    have hs : 0 < 1 / √2 / f (2 * ser) := by positivity
    refine ⟨1 / √2 / f (2 * ser), hs.le, ?_, fun b => ?_⟩
    · unfold sigmaOfRate
      rw [if_neg h.ne', if_neg (by rw [not_or]; constructor <;> linarith), if_neg (by linarith), if_neg hp.ne']
    · have e : (1 : ℝ) / √(2 * (1 / √2 / f (2 * ser)) ^ 2) = f (2 * ser) := by
        rw [sqrt_mul two_pos.le, sqrt_sq hs.le]
        field_simp
      rw [wrongSign_eq b _ hs, e, hi]
      ring

/-- **C109**: both conversions are inverse. -/
theorem C109_inverse (hf : IsErfcInv f) (sigma : ℝ) (h : 0 ≤ sigma) : sigmaOfRate f (errorRate sigma) = .fin sigma := by
  rcases h.eq_or_lt with h | h
  · subst h
    unfold errorRate sigmaOfRate
    rw [if_pos rfl, if_pos rfl]
  · have hp : 0 < errorRate sigma := by rw [errorRate_eq h.ne']; linarith [erfc_pos (1 / √(2 * sigma ^ 2))]
    have hl := (C109_rate_lt sigma).2
    have e : f (2 * errorRate sigma) = 1 / √(2 * sigma ^ 2) := by
      rw [errorRate_eq h.ne', show 2 * (erfc (1 / √(2 * sigma ^ 2)) / 2) = erfc (1 / √(2 * sigma ^ 2)) by ring, hf.left_inv]
    have h2 : (0 : ℝ) < √2 := sqrt_pos.2 two_pos
    have hs : √(2 * sigma ^ 2) = √2 * sigma := by rw [sqrt_mul two_pos.le, sqrt_sq h.le]
    unfold sigmaOfRate
    rw [if_neg hp.ne', if_neg (by rw [not_or]; constructor <;> linarith), if_neg (by linarith), e, hs, if_neg (by positivity)]
    congr 1
    field_simp

/-- **C109**: at one half the noise strength is infinite; above, it is negative. -/
theorem C109_large (hf : IsErfcInv f) :
    sigmaOfRate f (1 / 2) = .inf ∧ ∀ ser, 1 / 2 < ser → ser < 1 → ∃ sigma, sigma < 0 ∧ sigmaOfRate f ser = .fin sigma := by
  constructor
  · have e : f (2 * (1 / 2)) = 0 := by
      rw [show (2 : ℝ) * (1 / 2) = erfc 0 by rw [erfc_zero]; norm_num, hf.left_inv]
    unfold sigmaOfRate
    rw [if_neg (by norm_num), if_neg (by norm_num), if_neg (by norm_num), if_pos e]
  · intro ser h1 h2
    have hi := hf (2 * ser) (by linarith) (by linarith)
    have hn : f (2 * ser) < 0 := by
      by_contra hn
      have := erfc_strictAnti.antitone (not_lt.1 hn)
      rw [hi, erfc_zero] at this
      linarith
    refine ⟨1 / √2 / f (2 * ser), div_neg_of_pos_of_neg (by positivity) hn, ?_⟩
    unfold sigmaOfRate
    rw [if_neg (by linarith), if_neg (by rw [not_or]; constructor <;> linarith), if_neg (by linarith), if_neg hn.ne]

/-- The two densities. -/
theorem density_ratio (sigma y : ℝ) (h : 0 < sigma) :
    density true sigma y = density false sigma y * exp (-(2 * y / sigma ^ 2)) ∧ 0 < density false sigma y := by
  have h2 : 0 < sigma ^ 2 := by positivity
  have hv : Real.toNNReal (sigma ^ 2) ≠ 0 := (Real.toNNReal_pos.2 h2).ne'
  refine ⟨?_, gaussianPDFReal_pos _ _ _ hv⟩
  unfold density gaussianPDFReal
  rw [Real.coe_toNNReal _ h2.le, if_pos rfl, if_neg Bool.false_ne_true, mul_assoc _ (exp _) (exp _), ← exp_add]
  congr 2
  field_simp
  ring

/-- **C109**: the value given to a virtual check is the probability that its bit is wrong, given the analog value. -/
theorem C109_posterior (sigma y : ℝ) (h : 0 < sigma) :
    virtualInit y (.fin sigma) = .fin (posteriorWrong sigma y) ∧ 0 < posteriorWrong sigma y ∧ posteriorWrong sigma y ≤ 1 / 2 := by
  have e : posteriorWrong sigma y = 1 / (exp |analogLlr y sigma| + 1) := by
    obtain ⟨h1, h2⟩ := density_ratio sigma y h
    have hs : 0 < sigma ^ 2 := by positivity
    unfold posteriorWrong analogLlr
    rw [if_neg (not_le.2 h)]
    have hE := exp_pos (2 * y / sigma ^ 2)
    by_cases hy : y ≤ 0
    · have ha : 2 * y / sigma ^ 2 ≤ 0 := div_nonpos_of_nonpos_of_nonneg (by linarith) hs.le
      rw [decide_eq_true hy, Bool.not_true, h1, abs_of_nonpos ha]
      have := exp_pos (-(2 * y / sigma ^ 2))
      field_simp
    · have ha : 0 ≤ 2 * y / sigma ^ 2 := div_nonneg (by linarith [not_le.1 hy]) hs.le
      rw [decide_eq_false hy, Bool.not_false, h1, abs_of_nonneg ha, exp_neg]
      field_simp
      ring
  refine ⟨?_, ?_, ?_⟩
  · rw [e]
    unfold virtualInit
    simp only [if_neg (not_le.2 h)]
  · rw [e]; positivity
  · rw [e]
    have : 1 ≤ exp |analogLlr y sigma| := one_le_exp (abs_nonneg _)
    rw [div_le_div_iff₀ (by positivity) two_pos]
    linarith

/-- **C109**: without noise every bit is trusted. -/
theorem C109_posterior_zero (y : ℝ) : virtualInit y (.fin 0) = .fin 0 := by
  unfold virtualInit
  simp

example : ∃ f, IsErfcInv f ∧ ∃ sigma, 0 < sigma ∧ sigmaOfRate f (1 / 10) = .fin sigma ∧ wrongSign true sigma = 1 / 10 := by
  obtain ⟨f, hf⟩ := exists_isErfcInv
  obtain ⟨sigma, h0, h1, h2⟩ := C109_sigma hf (1 / 10) (by norm_num) (by norm_num)
  refine ⟨f, hf, sigma, h0.lt_of_ne ?_, h1, h2 true⟩
  rintro rfl
  have := h2 true
  rw [← C109_rate true 0 le_rfl, errorRate, if_pos rfl] at this
  norm_num at this

/-! ## C110: the decoder -/

/-- **C110**: the constructor accepts exactly a positive noise strength without a rate, or a rate without one. -/
theorem C110_constructor (H : Mat m n) (p : Fin n → ℝ) (sigma : ℝ) (ser : Option ℝ) :
    (∃ d, Decoder.new f H p (.fin sigma) ser = .ok d) ↔ (0 < sigma ∧ ser = none) ∨ (sigma ≤ 0 ∧ ser ≠ none) := by
  unfold Decoder.new decoderSigma
  by_cases h : sigma ≤ 0
  · rw [if_pos (show (Num.fin sigma).le0 from h)]
    cases ser with
    | none => simp [bind, Except.bind, not_lt.2 h]
    | some r => simp [bind, Except.bind, h, pure, Except.pure]
  · rw [if_neg (show ¬ (Num.fin sigma).le0 from h)]
    cases ser with
    | none => simp [bind, Except.bind, not_le.1 h, pure, Except.pure]
    | some r => simp [bind, Except.bind, h]

/-- What the decoder keeps. -/
theorem decodeAll_spec (bp : BpOsd) (ys : List (Fin m → ℝ)) (d : Decoder m n) (p : Fin n → ℝ)
    (hd : ∀ i, d.channel (Fin.castAdd m i) = .fin (p i)) :
    (d.decodeAll bp ys).2 = ys.map fun y =>
      bp _ _ (analogPcm d.H) (Fin.append (fun i => .fin (p i)) fun j => virtualInit (y j) d.sigma) (binaryFromAnalog y) := by
  induction ys generalizing d with
  | nil => rfl
  | cons y ys ih =>
    have e : (d.setAnalogSyndrome y).channel = Fin.append (fun i => .fin (p i)) fun j => virtualInit (y j) d.sigma := by
      unfold Decoder.setAnalogSyndrome
      simp only [hd]
    show _ :: _ = _ :: _
    have h2 := ih (d.setAnalogSyndrome y) fun i => by rw [e, Fin.append_left]
    rw [show ((d.decode bp y).1.decodeAll bp ys).2 = _ from h2]
    congr 1
    show bp _ _ (analogPcm d.H) (d.setAnalogSyndrome y).channel _ = _
    rw [e]

theorem new_channel (H : Mat m n) (p : Fin n → ℝ) (s : Num) (i : Fin n) :
    (⟨H, s, Fin.append (fun i => Num.fin (p i)) fun _ : Fin m => Num.fin 0⟩ : Decoder m n).channel (Fin.castAdd m i) = .fin (p i) := by
  simp only [Fin.append_left]

/-- **C110**: whatever was decoded before, the BP+OSD decoder is given the matrix `[H | I]`, the thresholded syndrome, the error
probabilities of the constructor for the data bits, and for every check the probability that its bit is wrong. -/
theorem C110_history (bp : BpOsd) (H : Mat m n) (p : Fin n → ℝ) (sigma : ℝ) (hs : 0 < sigma) (ys : List (Fin m → ℝ)) :
    ∃ d, Decoder.new f H p (.fin sigma) none = .ok d ∧ (d.decodeAll bp ys).2 = ys.map fun y =>
      bp m (n + m) (analogPcm H) (Fin.append (fun i => .fin (p i)) fun j => .fin (posteriorWrong sigma (y j))) (binaryFromAnalog y) := by
  refine ⟨⟨H, .fin sigma, Fin.append (fun i => Num.fin (p i)) fun _ : Fin m => Num.fin 0⟩, ?_, ?_⟩
  · unfold Decoder.new decoderSigma
    rw [if_neg (show ¬ (Num.fin sigma).le0 from not_le.2 hs)]
    rfl
  · rw [decodeAll_spec bp ys _ p (new_channel H p _)]
    refine List.map_congr_left fun y _ => ?_
    simp only [(C109_posterior sigma _ hs).1]

/-- **C110**: the same for a decoder made from an error rate; the probabilities are those of the noise with this rate. -/
theorem C110_history_rate (hf : IsErfcInv f) (bp : BpOsd) (H : Mat m n) (p : Fin n → ℝ) (sigma ser : ℝ) (hs : sigma ≤ 0)
    (h0 : 0 < ser) (h1 : ser < 1 / 2) (ys : List (Fin m → ℝ)) :
    ∃ d sigma', Decoder.new f H p (.fin sigma) (some ser) = .ok d ∧ 0 < sigma' ∧ (∀ b, wrongSign b sigma' = ser) ∧
      (d.decodeAll bp ys).2 = ys.map fun y =>
        bp m (n + m) (analogPcm H) (Fin.append (fun i => .fin (p i)) fun j => .fin (posteriorWrong sigma' (y j))) (binaryFromAnalog y) := by
  obtain ⟨t, ht, e, hw⟩ := C109_sigma hf ser h0.le h1
  have hp : 0 < t := by
    refine ht.lt_of_ne fun h => ?_
    have := hw true
    rw [← C109_rate true t ht, ← h, errorRate, if_pos rfl] at this
    linarith
  refine ⟨⟨H, .fin t, Fin.append (fun i => Num.fin (p i)) fun _ : Fin m => Num.fin 0⟩, t, ?_, hp, hw, ?_⟩
  · unfold Decoder.new decoderSigma
    rw [if_pos (show (Num.fin sigma).le0 from hs)]
    show Except.ok (⟨H, sigmaOfRate f ser, _⟩ : Decoder m n) = _
    rw [e]
  · rw [decodeAll_spec bp ys _ p (new_channel H p _)]
    refine List.map_congr_left fun y _ => ?_
    simp only [(C109_posterior t _ hp).1]

/-- **C110**: an estimate that reproduces the syndrome it was asked about consists of a data error and of flipped checks that together
explain the thresholded syndrome. -/
theorem C110_estimate (H : Mat m n) (v : Vec (n + m)) (y : Fin m → ℝ) (hv : apply (analogPcm H) v = binaryFromAnalog y) (i : Fin m) :
    apply H (dataPart v) i + v (Fin.natAdd n i) = binaryFromAnalog y i := by
  have e : v = Fin.append (dataPart v) fun j => v (Fin.natAdd n j) := by
    funext j
    refine Fin.addCases (fun a => ?_) (fun b => ?_) j
    · rw [Fin.append_left]; rfl
    · rw [Fin.append_right]
  rw [e] at hv
  exact (C43_analog_pcm H _ _ _).1 hv i

/-- The repetition code, two calls. -/
example (bp : BpOsd) : ∃ d, Decoder.new f (![![1, 1, 0], ![0, 1, 1]] : Mat 2 3) (fun _ => 1 / 100) (.fin (1 / 2)) none = .ok d ∧
    (d.decodeAll bp [![1, -1], ![-2, 0]]).2.length = 2 := by
  obtain ⟨d, h, e⟩ := C110_history (f := f) bp (![![1, 1, 0], ![0, 1, 1]] : Mat 2 3) (fun _ => 1 / 100) (1 / 2) (by norm_num)
    [![1, -1], ![-2, 0]]
  exact ⟨d, h, by rw [e]; rfl⟩

/-! ## C111: the simulator -/

/-- A decoder for a positive noise strength. -/
theorem new_ok (H : Mat m n) (p : Fin n → ℝ) (sigma : ℝ) (hs : 0 < sigma) :
    Decoder.new f H p (.fin sigma) none = .ok ⟨H, .fin sigma, Fin.append (fun i => Num.fin (p i)) fun _ : Fin m => Num.fin 0⟩ := by
  unfold Decoder.new decoderSigma
  rw [if_neg (show ¬ (Num.fin sigma).le0 from not_le.2 hs)]
  rfl

/-- No decoder without noise. -/
theorem new_zero (H : Mat m n) (p : Fin n → ℝ) : Decoder.new f H p (.fin 0) none = .error .valueError := by
  unfold Decoder.new decoderSigma
  rw [if_pos (show (Num.fin 0).le0 from le_rfl)]
  rfl

theorem sigma_pos (hf : IsErfcInv f) {r : ℝ} (h0 : 0 < r) (h1 : r < 1 / 2) :
    ∃ sigma, 0 < sigma ∧ sigmaOfRate f r = .fin sigma ∧ ∀ b, wrongSign b sigma = r := by
  obtain ⟨t, ht, e, hw⟩ := C109_sigma hf r h0.le h1
  refine ⟨t, ht.lt_of_ne fun h => ?_, e, hw⟩
  have := hw true
  rw [← C109_rate true t ht, ← h, errorRate, if_pos rfl] at this
  linarith

/-- The simulator has the wanted measurement noise: on both sides, the thresholded bit of a check is wrong with probability `r`. -/
def Sim.HasRate (s : Sim mx mz n) (r : ℝ) : Prop :=
  ∃ sx sz, s.xSigma = .fin sx ∧ s.zSigma = .fin sz ∧ ∀ b, wrongSign b sx = r ∧ wrongSign b sz = r

/-- **C111** (claim): for every noise strength or rate below one half, and every bias with a positive sum, the simulator is created, and
its measurement noise is the one that was asked for. -/
def C111_claim (f : ℝ → ℝ) : Prop :=
  ∀ (mx mz n : ℕ) (Hx : Mat mx n) (Hz : Mat mz n) (Lx Lz : List (Vec n)) (c : Config) (r : ℝ), c.method = ['a', 't', 'd'] →
    0 ≤ r → r < 1 / 2 → (c.ser = some r ∧ c.sigma = none ∨ c.ser = none ∧ ∃ sigma, 0 ≤ sigma ∧ c.sigma = some sigma ∧ wrongSign true sigma = r) →
    (∀ x ∈ c.bx, 0 ≤ x) → (∀ x ∈ c.bY, 0 ≤ x) → (∀ x ∈ c.bz, 0 ≤ x) → (∀ x ∈ c.bx, ∀ y ∈ c.bY, ∀ z ∈ c.bz, 0 < x + y + z) →
    ∃ s, Sim.new f Hx Lx Hz Lz c = .ok s ∧ s.HasRate r

/-- The rate used by the constructor. -/
theorem rate_eq (c : Config) (r : ℝ)
    (h : c.ser = some r ∧ c.sigma = none ∨ c.ser = none ∧ ∃ sigma, 0 ≤ sigma ∧ c.sigma = some sigma ∧ wrongSign true sigma = r) :
    c.rate = .ok r := by
  unfold Config.rate
  rcases h with ⟨h1, h2⟩ | ⟨h1, sigma, h0, h2, h3⟩
  · rw [h1, h2]
  · rw [h1, h2]
    show Except.ok (errorRate sigma) = _
    rw [C109_rate true sigma h0, h3]

/-- **C111**: exactly one of `sigma` and `syndr_err_rate` must be given. -/
theorem C111_arguments (Hx : Mat mx n) (Hz : Mat mz n) (Lx Lz : List (Vec n)) (c : Config) (h : c.sigma.isSome = c.ser.isSome) :
    Sim.new f Hx Lx Hz Lz c = .error .valueError := by
  have e : c.rate = .error .valueError := by
    unfold Config.rate
    cases h1 : c.sigma <;> cases h2 : c.ser <;> rw [h1, h2] at h <;> first | rfl | cases h
  unfold Sim.new
  rw [e]
  rfl

/-- The constructor in terms of the two rates. -/
theorem new_eq (Hx : Mat mx n) (Hz : Mat mz n) (Lx Lz : List (Vec n)) (c : Config) (hm : c.method = ['a', 't', 'd']) (r : ℝ)
    (hr : c.rate = .ok r) : Sim.new f Hx Lx Hz Lz c =
      (Decoder.new f Hz (fun _ => (channelSetup c.dataRate c.bx c.bY c.bz).1 + (channelSetup c.dataRate c.bx c.bY c.bz).2.1)
        (sigmaOfRate f ((channelSetup r c.bx c.bY c.bz).1 + (channelSetup r c.bx c.bY c.bz).2.1)) none).bind fun xd =>
      (Decoder.new f Hx (fun _ => (channelSetup c.dataRate c.bx c.bY c.bz).2.2 + (channelSetup c.dataRate c.bx c.bY c.bz).2.1)
        (sigmaOfRate f ((channelSetup r c.bx c.bY c.bz).2.2 + (channelSetup r c.bx c.bY c.bz).2.1)) none).bind fun zd =>
      .ok ⟨Hx, Hz, Lx, Lz, r, sigmaOfRate f ((channelSetup r c.bx c.bY c.bz).1 + (channelSetup r c.bx c.bY c.bz).2.1),
        sigmaOfRate f ((channelSetup r c.bx c.bY c.bz).2.2 + (channelSetup r c.bx c.bY c.bz).2.1),
        channelSetup c.dataRate c.bx c.bY c.bz, xd, zd⟩ := by
  unfold Sim.new
  rw [hr]
  show (if c.method ≠ ['a', 't', 'd'] then _ else _) = _
  rw [if_neg (by rw [hm]; exact fun h => h rfl)]
  rfl

/-- **C111**: what the noise of the two sides is: the rate asked for is split according to the bias as if it were the rate of a
Pauli channel; the X side gets the parts of X and Y, the Z side those of Z and Y. -/
theorem C111_rates (hf : IsErfcInv f) (Hx : Mat mx n) (Hz : Mat mz n) (Lx Lz : List (Vec n)) (c : Config)
    (hm : c.method = ['a', 't', 'd']) (r : ℝ) (hr : c.rate = .ok r) (rx rz : ℝ)
    (hx : rx = (channelSetup r c.bx c.bY c.bz).1 + (channelSetup r c.bx c.bY c.bz).2.1)
    (hz : rz = (channelSetup r c.bx c.bY c.bz).2.2 + (channelSetup r c.bx c.bY c.bz).2.1)
    (hx0 : 0 < rx) (hx1 : rx < 1 / 2) (hz0 : 0 < rz) (hz1 : rz < 1 / 2) :
    ∃ s sx sz, Sim.new f Hx Lx Hz Lz c = .ok s ∧ 0 < sx ∧ 0 < sz ∧ s.xSigma = .fin sx ∧ s.zSigma = .fin sz ∧
      ∀ b, wrongSign b sx = rx ∧ wrongSign b sz = rz := by
  obtain ⟨sx, px, ex, wx⟩ := sigma_pos hf hx0 hx1
  obtain ⟨sz, pz, ez, wz⟩ := sigma_pos hf hz0 hz1
  rw [new_eq Hx Hz Lx Lz c hm r hr, ← hx, ← hz, ex, ez, new_ok _ _ _ px, new_ok _ _ _ pz]
  exact ⟨_, sx, sz, rfl, px, pz, rfl, rfl, fun b => ⟨wx b, wz b⟩⟩

/-- **C111**: the part of the claim that holds: only Y errors, and some noise. -/
theorem C111_partial (hf : IsErfcInv f) (Hx : Mat mx n) (Hz : Mat mz n) (Lx Lz : List (Vec n)) (c : Config) (r : ℝ)
    (hm : c.method = ['a', 't', 'd']) (h0 : 0 < r) (h1 : r < 1 / 2)
    (h : c.ser = some r ∧ c.sigma = none ∨ c.ser = none ∧ ∃ sigma, 0 ≤ sigma ∧ c.sigma = some sigma ∧ wrongSign true sigma = r)
    (hx : c.bx ≠ none) (hy : c.bY = none) : ∃ s, Sim.new f Hx Lx Hz Lz c = .ok s ∧ s.HasRate r := by
  obtain ⟨x, hx⟩ := Option.ne_none_iff_exists'.1 hx
  have e : channelSetup r c.bx c.bY c.bz = (0, r, 0) := by rw [hx, hy]; rfl
  obtain ⟨s, sx, sz, hs, -, -, ex, ez, w⟩ := C111_rates hf Hx Hz Lx Lz c hm r (rate_eq c r h) r r (by rw [e]; ring) (by rw [e]; ring)
    h0 h1 h0 h1
  exact ⟨s, hs, sx, sz, ex, ez, w⟩

/-- **C111** is false: with the default bias the noise of both sides has two thirds of the rate asked for, for every rate and every
noise strength. -/
theorem C111_violated_default (hf : IsErfcInv f) (Hx : Mat mx n) (Hz : Mat mz n) (Lx Lz : List (Vec n)) (p : ℝ) (r : ℝ) (h0 : 0 < r)
    (h1 : r < 1 / 2) (c : Config) (hc : c = { dataRate := p, ser := some r } ∨
      ∃ sigma, 0 ≤ sigma ∧ wrongSign true sigma = r ∧ c = { dataRate := p, sigma := some sigma }) :
    ∃ s, Sim.new f Hx Lx Hz Lz c = .ok s ∧ s.HasRate (2 / 3 * r) ∧ ¬ s.HasRate r := by
  have hr : c.rate = .ok r ∧ c.method = ['a', 't', 'd'] ∧ c.bx = some 1 ∧ c.bY = some 1 ∧ c.bz = some 1 := by
    rcases hc with rfl | ⟨sigma, hs, hw, rfl⟩
    · exact ⟨rfl, rfl, rfl, rfl, rfl⟩
    · exact ⟨rate_eq _ r (Or.inr ⟨rfl, sigma, hs, rfl, hw⟩), rfl, rfl, rfl, rfl⟩
  obtain ⟨hr, hm, hx, hy, hz⟩ := hr
  have e : channelSetup r c.bx c.bY c.bz = (r / 3, r / 3, r / 3) := by
    rw [hx, hy, hz]
    unfold channelSetup
    norm_num
  obtain ⟨s, sx, sz, hs, px, -, ex, ez, w⟩ := C111_rates hf Hx Hz Lx Lz c hm r hr (2 / 3 * r) (2 / 3 * r) (by rw [e]; ring)
    (by rw [e]; ring) (by linarith) (by linarith) (by linarith) (by linarith)
  refine ⟨s, hs, ⟨sx, sz, ex, ez, w⟩, ?_⟩
  rintro ⟨tx, tz, ex', -, w'⟩
  rw [ex] at ex'
  cases ex'
  have := (w' true).1
  rw [(w true).1] at this
  linarith

/-- **C111** is false: without measurement noise the constructor raises `ValueError`. -/
theorem C111_violated_noiseless (Hx : Mat mx n) (Hz : Mat mz n) (Lx Lz : List (Vec n)) (c : Config) (hm : c.method = ['a', 't', 'd'])
    (hr : c.rate = .ok 0) : Sim.new f Hx Lx Hz Lz c = .error .valueError := by
  have e : channelSetup (0 : ℝ) c.bx c.bY c.bz = (0, 0, 0) := by
    unfold channelSetup
    split <;> simp
  rw [new_eq Hx Hz Lx Lz c hm 0 hr, e]
  simp only [add_zero]
  rw [show sigmaOfRate f 0 = .fin 0 from if_pos rfl, new_zero]
  rfl

/-- **C111** is false: with errors of only one kind (X or Z) the constructor raises `ValueError` for every rate below one half. -/
theorem C111_violated_one_kind (hf : IsErfcInv f) (Hx : Mat mx n) (Hz : Mat mz n) (Lx Lz : List (Vec n)) (c : Config)
    (hm : c.method = ['a', 't', 'd']) (r : ℝ) (hr : c.rate = .ok r) (h0 : 0 ≤ r) (h1 : r < 1 / 2)
    (hb : c.bx = none ∨ (c.bx ≠ none ∧ c.bY ≠ none ∧ c.bz = none)) : Sim.new f Hx Lx Hz Lz c = .error .valueError := by
  rcases h0.eq_or_lt with h | h0
  · exact C111_violated_noiseless Hx Hz Lx Lz c hm (h ▸ hr)
  · rw [new_eq Hx Hz Lx Lz c hm r hr]
    rcases hb with hb | ⟨hx, hy, hz⟩
    · have e : channelSetup r c.bx c.bY c.bz = (r, 0, 0) := by rw [hb]; rfl
      obtain ⟨sx, px, ex, -⟩ := sigma_pos hf h0 h1
      rw [e]
      simp only [add_zero]
      rw [ex, new_ok _ _ _ px, show sigmaOfRate f 0 = .fin 0 from if_pos rfl, new_zero]
      rfl
    · obtain ⟨x, hx⟩ := Option.ne_none_iff_exists'.1 hx
      obtain ⟨y, hy⟩ := Option.ne_none_iff_exists'.1 hy
      have e : channelSetup r c.bx c.bY c.bz = (0, 0, r) := by rw [hx, hy, hz]; rfl
      rw [e]
      simp only [add_zero]
      rw [show sigmaOfRate f 0 = .fin 0 from if_pos rfl, new_zero]
      rfl

/-- **C111**: the claim is false. -/
theorem C111_violated (f : ℝ → ℝ) : ¬ C111_claim f := fun h => by
  obtain ⟨s, hs, -⟩ := h 0 0 0 0 0 [] [] { dataRate := 0, ser := some 0 } 0 rfl le_rfl (by norm_num) (Or.inl ⟨rfl, rfl⟩)
    (fun x hx => by cases hx; norm_num) (fun x hx => by cases hx; norm_num) (fun x hx => by cases hx; norm_num)
    (fun x hx y hy z hz => by cases hx; cases hy; cases hz; norm_num)
  rw [C111_violated_noiseless _ _ _ _ _ rfl rfl] at hs
  cases hs

/-- What one side of a sample should report: the estimate of the BP+OSD decoder for `[H | I]`, the thresholded noisy syndrome of the
error, the data error probability and the probabilities of wrong bits; success when the error plus the data part of the estimate has
even overlap with all logical operators. -/
def SideCorrect (bp : BpOsd) (H : Mat m n) (L : List (Vec n)) (sigma p : ℝ) (e : Vec n) (g : Fin m → ℝ) (ok : Bool) : Prop :=
  ∃ y : Fin m → ℝ, (∀ i, y i = readout (decide (∑ j, H i j * e j = 1)) sigma (g i)) ∧
    (ok = true ↔ ∀ v ∈ L, ∑ q, v q * (e q + bp m (n + m) (analogPcm H)
      (Fin.append (fun _ => .fin p) fun j => .fin (posteriorWrong sigma (y j))) (binaryFromAnalog y) (Fin.castAdd m q)) = 0)

theorem side_spec (bp : BpOsd) (H : Mat m n) (L : List (Vec n)) (sigma p : ℝ) (hs : 0 < sigma) (d : Decoder m n) (hH : d.H = H)
    (hd : d.sigma = .fin sigma) (hc : ∀ i, d.channel (Fin.castAdd m i) = .fin p) (e : Vec n) (g : Fin m → ℝ) :
    SideCorrect bp H L sigma p e g (side bp H L sigma d e g).2 ∧ (side bp H L sigma d e g).1.H = H ∧
      (side bp H L sigma d e g).1.sigma = .fin sigma ∧ ∀ i, (side bp H L sigma d e g).1.channel (Fin.castAdd m i) = .fin p := by
  refine ⟨⟨noisyAnalog (apply H e) sigma g, fun i => ?_, ?_⟩, hH, hd, fun i => ?_⟩
  · unfold noisyAnalog readout
    show (if apply H e i = 0 then (1 : ℝ) else -1) + _ = (if decide (apply H e i = 1) = true then (-1 : ℝ) else 1) + _
    rcases zmod2_cases (apply H e i) with h | h <;> simp [h]
  · have hc' : ∀ y, (d.setAnalogSyndrome y).channel = Fin.append (fun _ => .fin p) fun j => .fin (posteriorWrong sigma (y j)) := by
      intro y
      unfold Decoder.setAnalogSyndrome
      simp only [hc, hd, (C109_posterior sigma _ hs).1]
    show (!isLogicalErr L _) = true ↔ _
    rw [Bool.not_eq_true', ← Bool.not_eq_true, C44_is_logical]
    push Not
    unfold Decoder.decode dataPart
    simp only [hc', Pi.add_apply]
    rw [show ∀ y, (d.setAnalogSyndrome y).H = H from fun _ => hH]
  · simp only [side, Decoder.decode, Decoder.setAnalogSyndrome, Fin.append_left, hc]

/-- **C111**: the samples of a simulator, in terms of the draws: whatever was sampled before, each sample draws a Pauli error from the
biased channel, and reports for each side whether decoding the noisy syndrome of this error succeeded. -/
theorem C111_samples (bp : BpOsd) (Hx : Mat mx n) (Hz : Mat mz n) (Lx Lz : List (Vec n)) (c : Config) (s : Sim mx mz n)
    (hs : Sim.new f Hx Lx Hz Lz c = .ok s) (sx sz : ℝ) (hx : s.xSigma = .fin sx) (hz : s.zSigma = .fin sz) (rs : List (Draws mx mz n)) :
    ∃ out, s.samples bp rs = some out ∧ List.Forall₂ (fun r b => ∃ px py pz ex ez, (px, py, pz) = channelSetup c.dataRate c.bx c.bY c.bz ∧
      (ex, ez) = generateErr (fun _ => px) (fun _ => py) (fun _ => pz) r.u 0 0 ∧
      SideCorrect bp Hz Lz sx (px + py) ex r.gx b.1 ∧ SideCorrect bp Hx Lx sz (pz + py) ez r.gz b.2) rs out := by
  cases hr : c.rate with
  | error e => unfold Sim.new at hs; rw [hr] at hs; cases hs
  | ok r =>
    have hm : c.method = ['a', 't', 'd'] := by
      by_contra hm
      unfold Sim.new at hs
      rw [hr] at hs
      change (if c.method ≠ ['a', 't', 'd'] then _ else _) = _ at hs
      rw [if_pos hm] at hs
      cases hs
    rw [new_eq Hx Hz Lx Lz c hm r hr] at hs
    generalize channelSetup c.dataRate c.bx c.bY c.bz = ch at hs ⊢
    cases h1 : Decoder.new f Hz (fun _ => ch.1 + ch.2.1)
      (sigmaOfRate f ((channelSetup r c.bx c.bY c.bz).1 + (channelSetup r c.bx c.bY c.bz).2.1)) none with
    | error e => rw [h1] at hs; cases hs
    | ok xd =>
      rw [h1] at hs
      cases h2 : Decoder.new f Hx (fun _ => ch.2.2 + ch.2.1)
        (sigmaOfRate f ((channelSetup r c.bx c.bY c.bz).2.2 + (channelSetup r c.bx c.bY c.bz).2.1)) none with
      | error e => change (Except.bind _ _) = _ at hs; rw [h2] at hs; cases hs
      | ok zd =>
        change (Except.bind _ _) = _ at hs
        rw [h2] at hs
        have hs := (Except.ok.inj hs).symm
        have ex : sigmaOfRate f ((channelSetup r c.bx c.bY c.bz).1 + (channelSetup r c.bx c.bY c.bz).2.1) = .fin sx := by
          rw [hs] at hx; exact hx
        have ez : sigmaOfRate f ((channelSetup r c.bx c.bY c.bz).2.2 + (channelSetup r c.bx c.bY c.bz).2.1) = .fin sz := by
          rw [hs] at hz; exact hz
        rw [ex] at h1
        rw [ez] at h2
        have px : 0 < sx := by
          rcases (C110_constructor (f := f) Hz _ sx none).1 ⟨_, h1⟩ with h | h
          · exact h.1
          · exact absurd rfl h.2
        have pz : 0 < sz := by
          rcases (C110_constructor (f := f) Hx _ sz none).1 ⟨_, h2⟩ with h | h
          · exact h.1
          · exact absurd rfl h.2
        rw [new_ok _ _ _ px] at h1
        rw [new_ok _ _ _ pz] at h2
        have key : ∀ (rs : List (Draws mx mz n)) (t : Sim mx mz n), t.Hx = Hx → t.Hz = Hz → t.Lx = Lx → t.Lz = Lz → t.xSigma = .fin sx →
            t.zSigma = .fin sz → t.channel = ch → t.xDecoder.H = Hz → t.xDecoder.sigma = .fin sx →
            (∀ i, t.xDecoder.channel (Fin.castAdd mz i) = .fin (ch.1 + ch.2.1)) → t.zDecoder.H = Hx → t.zDecoder.sigma = .fin sz →
            (∀ i, t.zDecoder.channel (Fin.castAdd mx i) = .fin (ch.2.2 + ch.2.1)) →
            ∃ out, t.samples bp rs = some out ∧ List.Forall₂ (fun r b => ∃ px py pz ex ez, (px, py, pz) = ch ∧
              (ex, ez) = generateErr (fun _ => px) (fun _ => py) (fun _ => pz) r.u 0 0 ∧
              SideCorrect bp Hz Lz sx (px + py) ex r.gx b.1 ∧ SideCorrect bp Hx Lx sz (pz + py) ez r.gz b.2) rs out := by
          intro rs
          induction rs with
          | nil => intros; exact ⟨[], rfl, .nil⟩
          | cons w ws ih =>
            intro t a1 a2 a3 a4 a5 a6 a7 a8 a9 a10 a11 a12 a13
            have X := side_spec bp Hz Lz sx (ch.1 + ch.2.1) px t.xDecoder a8 a9 a10
              (generateErr (fun _ => ch.1) (fun _ => ch.2.1) (fun _ => ch.2.2) w.u 0 0).1 w.gx
            have Z := side_spec bp Hx Lx sz (ch.2.2 + ch.2.1) pz t.zDecoder a11 a12 a13
              (generateErr (fun _ => ch.1) (fun _ => ch.2.1) (fun _ => ch.2.2) w.u 0 0).2 w.gz
            have e1 : t.singleSample bp w = some ({ t with
                xDecoder := (side bp Hz Lz sx t.xDecoder (generateErr (fun _ => ch.1) (fun _ => ch.2.1) (fun _ => ch.2.2) w.u 0 0).1 w.gx).1,
                zDecoder := (side bp Hx Lx sz t.zDecoder (generateErr (fun _ => ch.1) (fun _ => ch.2.1) (fun _ => ch.2.2) w.u 0 0).2 w.gz).1 },
                (side bp Hz Lz sx t.xDecoder (generateErr (fun _ => ch.1) (fun _ => ch.2.1) (fun _ => ch.2.2) w.u 0 0).1 w.gx).2,
                (side bp Hx Lx sz t.zDecoder (generateErr (fun _ => ch.1) (fun _ => ch.2.1) (fun _ => ch.2.2) w.u 0 0).2 w.gz).2) := by
              unfold Sim.singleSample
              rw [a5, a6, a7, a1, a2, a3, a4]
            obtain ⟨out, ho, hF⟩ := ih { t with
                xDecoder := (side bp Hz Lz sx t.xDecoder (generateErr (fun _ => ch.1) (fun _ => ch.2.1) (fun _ => ch.2.2) w.u 0 0).1 w.gx).1,
                zDecoder := (side bp Hx Lx sz t.zDecoder (generateErr (fun _ => ch.1) (fun _ => ch.2.1) (fun _ => ch.2.2) w.u 0 0).2 w.gz).1 }
              a1 a2 a3 a4 a5 a6 a7 X.2.1 X.2.2.1 X.2.2.2 Z.2.1 Z.2.2.1 Z.2.2.2
            refine ⟨((side bp Hz Lz sx t.xDecoder (generateErr (fun _ => ch.1) (fun _ => ch.2.1) (fun _ => ch.2.2) w.u 0 0).1 w.gx).2,
                (side bp Hx Lx sz t.zDecoder (generateErr (fun _ => ch.1) (fun _ => ch.2.1) (fun _ => ch.2.2) w.u 0 0).2 w.gz).2) :: out,
              ?_, .cons ⟨ch.1, ch.2.1, ch.2.2,
              (generateErr (fun _ => ch.1) (fun _ => ch.2.1) (fun _ => ch.2.2) w.u 0 0).1,
              (generateErr (fun _ => ch.1) (fun _ => ch.2.1) (fun _ => ch.2.2) w.u 0 0).2, rfl, rfl, X.1, Z.1⟩ hF⟩
            unfold Sim.samples
            rw [e1]
            show (Sim.samples bp _ ws).map _ = _
            rw [ho]
            rfl
        have h1 := Except.ok.inj h1
        have h2 := Except.ok.inj h2
        refine key rs s ?_ ?_ ?_ ?_ hx hz ?_ ?_ ?_ ?_ ?_ ?_ ?_ <;> rw [hs] <;> try rfl
        · show xd.H = _; rw [← h1]
        · show xd.sigma = _; rw [← h1]
        · show ∀ i, xd.channel _ = _; rw [← h1]; exact new_channel Hz _ _
        · show zd.H = _; rw [← h2]
        · show zd.sigma = _; rw [← h2]
        · show ∀ i, zd.channel _ = _; rw [← h2]; exact new_channel Hx _ _

/-- A simulator with default bias and rate 1/10 for a two-qubit code, and a sample. -/
example (bp : BpOsd) : ∃ f, IsErfcInv f ∧ ∃ s out, Sim.new f (![![1, 1]] : Mat 1 2) [![1, 0]] (![![1, 1]] : Mat 1 2) [![1, 0]]
    { dataRate := 1 / 100, ser := some (1 / 10) } = .ok s ∧
    s.samples bp [⟨fun _ => 1 / 2, fun _ => 0, fun _ => 1⟩, ⟨fun _ => 0, fun _ => 3, fun _ => -2⟩] = some out ∧ out.length = 2 := by
  obtain ⟨f, hf⟩ := exists_isErfcInv
  obtain ⟨s, hs, ⟨sx, sz, hx, hz, -⟩, -⟩ := C111_violated_default hf (![![1, 1]] : Mat 1 2) (![![1, 1]] : Mat 1 2) [![1, 0]] [![1, 0]]
    (1 / 100) (1 / 10) (by norm_num) (by norm_num) _ (Or.inl rfl)
  obtain ⟨out, ho, hF⟩ := C111_samples bp _ _ _ _ _ s hs sx sz hx hz
    [⟨fun _ => 1 / 2, fun _ => 0, fun _ => 1⟩, ⟨fun _ => 0, fun _ => 3, fun _ => -2⟩]
  exact ⟨f, hf, s, out, hs, ho, by rw [← hF.length_eq]; rfl⟩

end Verif.AnalogTanner
