import Verif.Props.QssWindow

/-!
# C138: few faults in a sample with many windows
-/

namespace Verif.Qss
open Verif Analog AnalogTanner Gauss

variable {k m n : ℕ} {f : ℝ → ℝ}

/-! ### Specification -/

/-- The data error that is drawn in round `j`. -/
def freshError (bp : Solver) (T : ℕ) (log : List (Vec n × (Fin m → ℝ))) (calls : List (WCall k m n)) (j : ℕ) : Vec n :=
  errorAt log j + residualBefore bp T log calls j

/-- The number of faults of round `j`: data errors drawn in this round and wrong syndrome bits. -/
noncomputable def roundFaults (bp : Solver) (H : Mat m n) (T : ℕ) (log : List (Vec n × (Fin m → ℝ))) (calls : List (WCall k m n)) (j : ℕ) : ℕ :=
  wt (freshError bp T log calls j) + wt (wrongBits H log j)

/-- `a` is a lightest explanation of the question `c`; in the last window only explanations without wrong syndrome bits in the last,
perfect round count. -/
def LightestAnswer (c : WCall k m n) (a : Vec ((k + 1) * n + (k + 1) * m)) : Prop :=
  if c.last = true then Lightest c a else apply c.pcm a = c.syn ∧ ∀ b, apply c.pcm b = c.syn → wt a ≤ wt b

/-! ### Lemmas -/

/-- The weight of the faults that window `w` has to explain. -/
noncomputable def load (bp : Solver) (H : Mat m n) (T : ℕ) (log : List (Vec n × (Fin m → ℝ))) (calls : List (WCall k m n)) (w : ℕ) : ℕ :=
  (∑ r, wt (dataFaults bp T log calls w r)) + ∑ r, wt (effective bp H T log calls w r)

theorem dataFaults_zero (bp : Solver) (T : ℕ) (log : List (Vec n × (Fin m → ℝ))) (calls : List (WCall k m n)) (r : Fin (k + 1)) :
    dataFaults bp T log calls 0 r = freshError bp T log calls r.val := by
  obtain ⟨r, hr⟩ := r
  unfold dataFaults presentError freshError
  cases r with
  | zero => simp [before, residualBefore]
  | succ r =>
    simp only [before, residualBefore, correctionAt]
    rw [if_neg (show ¬ (k ≤ r ∧ T ∣ r - k) by omega)]
    simp

theorem load_zero (bp : Solver) (H : Mat m n) (T : ℕ) (log : List (Vec n × (Fin m → ℝ))) (calls : List (WCall k m n)) :
    load bp H T log calls 0 = ∑ j ∈ Finset.range (k + 1), roundFaults bp H T log calls j := by
  unfold load roundFaults
  rw [← Finset.sum_add_distrib, ← Fin.sum_univ_eq_sum_range (fun j => wt (freshError bp T log calls j) + wt (wrongBits H log j))]
  refine Finset.sum_congr rfl fun r _ => ?_
  rw [dataFaults_zero]
  unfold effective
  simp [blamed]

theorem sum_range_fin {R : ℕ} (g : Fin R → ℕ) (g' : ℕ → ℕ) (h : ∀ r : Fin R, g r = g' r.val) : ∑ r, g r = ∑ r ∈ Finset.range R, g' r := by
  rw [← Fin.sum_univ_eq_sum_range]
  exact Finset.sum_congr rfl fun r _ => h r

theorem before_succ (bp : Solver) (T : ℕ) (hT : 0 < T) (hk : k + 1 = 2 * T) (calls : List (WCall k m n)) (w : ℕ) :
    correctionAt bp T calls ((w + 1) * T + T - 1) = before bp T calls (w + 1) := by
  unfold correctionAt
  have e : (w + 1) * T + T - 1 - k = w * T := by
    have : (w + 1) * T = w * T + T := by ring
    omega
  rw [e, if_pos ⟨by have : (w + 1) * T = w * T + T := by ring
                    omega, Dvd.intro_left _ rfl⟩, Nat.mul_div_cancel _ hT]
  rfl

/-- The data faults of window `w + 1` after its first round. -/
theorem dataFaults_succ (bp : Solver) (T : ℕ) (hT : 0 < T) (hk : k + 1 = 2 * T) (log : List (Vec n × (Fin m → ℝ)))
    (calls : List (WCall k m n)) (w : ℕ) (r : Fin (k + 1)) (h0 : 0 < r.val) :
    dataFaults bp T log calls (w + 1) r =
      if h : r.val < T then dataFaults bp T log calls w ⟨T + r.val, by omega⟩ else freshError bp T log calls ((w + 1) * T + r.val) := by
  obtain ⟨r, hr⟩ := r
  simp only at h0 ⊢
  have c2 : ∀ x : ZMod 2, x + x = 0 := by decide
  have hmul : (w + 1) * T = w * T + T := by ring
  split
  · rename_i h
    unfold dataFaults presentError
    simp only
    rw [if_neg (show ¬ r = 0 by omega), if_pos h, if_pos (show r - 1 < T by omega), if_neg (show ¬ T + r = 0 by omega),
      if_neg (show ¬ T + r < T by omega), if_neg (show ¬ T + r - 1 < T by omega),
      show (w + 1) * T + r = w * T + (T + r) by omega, show (w + 1) * T + (r - 1) = w * T + (T + r - 1) by omega]
    funext q
    simp only [Pi.add_apply, Pi.zero_apply]
    linear_combination c2 (before bp T calls (w + 1) q)
  · rename_i h
    unfold dataFaults presentError freshError
    simp only
    rw [if_neg (show ¬ r = 0 by omega), if_neg h, add_zero,
      show (w + 1) * T + r = (w + 1) * T + (r - 1) + 1 by omega]
    simp only [residualBefore]
    congr 2
    by_cases hrT : r = T
    · subst hrT
      rw [if_pos (by omega), ← before_succ bp r hT hk calls w, show (w + 1) * r + r - 1 = (w + 1) * r + (r - 1) by omega]
    · rw [if_neg (by omega)]
      unfold correctionAt
      rw [if_neg]
      rintro ⟨-, h2⟩
      have e : (w + 1) * T + (r - 1) - k = w * T + (r - T) := by omega
      rw [e, Nat.dvd_add_right (Dvd.intro_left _ rfl)] at h2
      have := Nat.le_of_dvd (by omega) h2
      omega

/-- Sums over the rounds of a window, by halves. -/
theorem sum_halves (T : ℕ) (hk : k + 1 = 2 * T) (g : Fin (k + 1) → ℕ) :
    ∑ r, g r = (∑ r : Fin T, g ⟨r.val, by omega⟩) + ∑ r : Fin T, g ⟨T + r.val, by omega⟩ := by
  have e : k + 1 = T + T := by omega
  rw [← (finCongr e.symm).sum_comp, Fin.sum_univ_add]
  rfl

theorem load_succ (bp : Solver) (method : Method) (H : Mat m n) (T : ℕ) (hk : k + 1 = 2 * T) (bits : ℝ × ℝ × ℝ) (zErrors : Bool)
    (own sigma : ℝ) (rounds : List (Draws m n)) (log : List (Vec n × (Fin m → ℝ))) (calls : List (WCall k m n)) (final : Vec n)
    (h : SampleOk bp method H T bits zErrors own sigma rounds log calls final) (w : ℕ) (hw : w * T + (k + 1) < rounds.length)
    (c : WCall k m n) (hc : calls[w]? = some c) (ha : LightestAnswer c (answerOf bp c)) :
    load bp H T log calls (w + 1) ≤ 2 * load bp H T log calls w + ∑ r : Fin T, roundFaults bp H T log calls ((w + 1) * T + (T + r.val)) := by
  have hT : 0 < T := by omega
  obtain ⟨S, rfl⟩ : ∃ S, T = S + 1 := ⟨T - 1, by omega⟩
  obtain ⟨a1, a2, -, -⟩ := h.asked w c hc
  have hl : c.last = false := by rw [a1]; simpa using hw.ne
  have hq := C116_question bp method H (S + 1) hT bits zErrors own sigma rounds log calls final h w c hc
  have hans : wt (answerOf bp c) ≤ load bp H (S + 1) log calls w := by
    unfold LightestAnswer at ha
    rw [if_neg (by rw [hl]; decide)] at ha
    have := ha.2 (pack (dataFaults bp (S + 1) log calls w) (effective bp H (S + 1) log calls w)) (by rw [hq, a2]; rfl)
    rw [wt_pack] at this
    exact this
  have hsplit : wt (answerOf bp c) = (∑ r, wt (fun q => spaceCorrection (m := m) (answerOf bp c) q r)) +
      ∑ r, wt (fun i => timeCorrection (n := n) (answerOf bp c) i r) := by
    conv_lhs => rw [← pack_corrections (answerOf bp c), wt_pack]
  -- the first round
  have hmul : (w + 1) * (S + 1) = w * (S + 1) + (S + 1) := by ring
  have hbef : before bp (S + 1) calls (w + 1) = ∑ r : Fin (S + 1), (fun q => spaceCorrection (m := m) (answerOf bp c) q ⟨r.val, by omega⟩ : Vec n) := by
    simp only [before, hc, Option.map_some, Option.getD_some]
    funext q
    unfold correction
    have e : k + 1 = (S + 1) + (S + 1) := by omega
    rw [← (finCongr e.symm).sum_comp, Fin.sum_univ_add, Finset.sum_apply]
    refine (congrArg₂ (· + ·) (Finset.sum_congr rfl fun r _ => ?_) (Finset.sum_eq_zero fun r _ => ?_)).trans (add_zero _)
    · exact if_pos (.inr r.isLt)
    · refine if_neg ?_
      rintro (h' | h')
      · rw [hl] at h'; cases h'
      · exact absurd (show S + 1 + r.val < S + 1 from h') (by omega)
  have hbl : blamed bp (S + 1) calls (w + 1) = fun i => timeCorrection (n := n) (answerOf bp c) i ⟨S, by omega⟩ := by
    simp only [blamed, hc, Option.map_some, Option.getD_some]
    funext i
    unfold timeFlip
    rw [Finset.sum_eq_single (⟨S, by omega⟩ : Fin (k + 1))]
    · rw [if_pos rfl]
    · intro r _ hr
      rw [if_neg]
      intro he
      exact hr (Fin.ext (by simpa using he))
    · simp
  have hpres : presentError bp (S + 1) log calls w (S + 1) = ∑ r ∈ Finset.univ.filter (fun r : Fin (k + 1) => r.val ≤ S + 1), dataFaults bp (S + 1) log calls w r := by
    rw [← accumulated_faults bp (S + 1) log calls w (S + 1) (by omega)]
    funext q
    unfold accumulated
    rw [Finset.sum_apply, Finset.sum_filter]
  have hfirst : dataFaults bp (S + 1) log calls (w + 1) ⟨0, by omega⟩ =
      presentError bp (S + 1) log calls w (S + 1) + before bp (S + 1) calls (w + 1) := by
    unfold dataFaults presentError
    rw [if_pos rfl, if_pos (by simp), if_neg (by simp), add_zero, add_zero, hmul, add_zero]
  have hw1 : wt (dataFaults bp (S + 1) log calls (w + 1) ⟨0, by omega⟩) ≤
      (∑ r : Fin (S + 1), wt (dataFaults bp (S + 1) log calls w ⟨r.val, by omega⟩)) + wt (dataFaults bp (S + 1) log calls w ⟨S + 1 + 0, by omega⟩) +
        ∑ r : Fin (S + 1), wt (fun q => spaceCorrection (m := m) (answerOf bp c) q ⟨r.val, by omega⟩ : Vec n) := by
    rw [hfirst, hbef, hpres]
    refine (Kunneth.wt_add_le _ _).trans (Nat.add_le_add ?_ (Kunneth.wt_sum_le _ _))
    refine (Kunneth.wt_sum_le _ _).trans ?_
    rw [Finset.sum_filter, sum_halves (S + 1) hk]
    refine Nat.add_le_add (Finset.sum_le_sum fun r _ => ?_) ?_
    · rw [if_pos (by simp only; omega)]
    · rw [Fin.sum_univ_succ, Finset.sum_eq_zero, add_zero]
      · rw [if_pos (by simp)]
        rfl
      · intro r _
        rw [if_neg (by simp)]
  have hw2 : wt (effective bp H (S + 1) log calls (w + 1) ⟨0, by omega⟩) ≤
      wt (effective bp H (S + 1) log calls w ⟨S + 1 + 0, by omega⟩) + wt (fun i => timeCorrection (n := n) (answerOf bp c) i ⟨S, by omega⟩ : Vec m) := by
    unfold effective
    simp only [if_true, add_zero]
    rw [hbl, hmul, if_neg (by omega), add_zero]
    exact Kunneth.wt_add_le _ _
  have hs : (∑ r : Fin (S + 1), wt (fun q => spaceCorrection (m := m) (answerOf bp c) q ⟨r.val, by omega⟩ : Vec n)) ≤
      ∑ r, wt (fun q => spaceCorrection (m := m) (answerOf bp c) q r) := by
    rw [sum_halves (S + 1) hk (fun r => wt (fun q => spaceCorrection (m := m) (answerOf bp c) q r))]
    exact Nat.le_add_right _ _
  have ht : wt (fun i => timeCorrection (n := n) (answerOf bp c) i ⟨S, by omega⟩ : Vec m) ≤ ∑ r, wt (fun i => timeCorrection (n := n) (answerOf bp c) i r) :=
    Finset.single_le_sum (f := fun r => wt (fun i => timeCorrection (n := n) (answerOf bp c) i r)) (fun _ _ => Nat.zero_le _) (Finset.mem_univ _)
  have hd : (∑ r, wt (dataFaults bp (S + 1) log calls (w + 1) r)) = wt (dataFaults bp (S + 1) log calls (w + 1) ⟨0, by omega⟩) +
      (∑ r : Fin S, wt (dataFaults bp (S + 1) log calls w ⟨S + 1 + r.succ.val, by omega⟩)) +
        ∑ r : Fin (S + 1), wt (freshError bp (S + 1) log calls ((w + 1) * (S + 1) + (S + 1 + r.val))) := by
    rw [sum_halves (S + 1) hk, Fin.sum_univ_succ]
    congr 1
    · congr 1
      refine Finset.sum_congr rfl fun r _ => ?_
      exact congrArg wt ((dataFaults_succ bp (S + 1) hT hk log calls w ⟨r.succ.val, by omega⟩ (by simp)).trans (dif_pos r.succ.isLt))
    · refine Finset.sum_congr rfl fun r _ => ?_
      exact congrArg wt ((dataFaults_succ bp (S + 1) hT hk log calls w ⟨S + 1 + r.val, by omega⟩ (show 0 < S + 1 + r.val by omega)).trans (dif_neg (show ¬ S + 1 + r.val < S + 1 by omega)))
  have he : (∑ r, wt (effective bp H (S + 1) log calls (w + 1) r)) = wt (effective bp H (S + 1) log calls (w + 1) ⟨0, by omega⟩) +
      (∑ r : Fin S, wt (effective bp H (S + 1) log calls w ⟨S + 1 + r.succ.val, by omega⟩)) +
        ∑ r : Fin (S + 1), wt (wrongBits H log ((w + 1) * (S + 1) + (S + 1 + r.val))) := by
    rw [sum_halves (S + 1) hk, Fin.sum_univ_succ]
    congr 1
    · congr 1
      refine Finset.sum_congr rfl fun r _ => ?_
      unfold effective
      simp only [Fin.val_succ]
      rw [if_neg (by omega), if_neg (by omega), show (w + 1) * (S + 1) + (r.val + 1) = w * (S + 1) + (S + 1 + (r.val + 1)) by omega]
    · refine Finset.sum_congr rfl fun r _ => ?_
      unfold effective
      simp only
      rw [if_neg (by omega), add_zero]
  have hld : (∑ r, wt (dataFaults bp (S + 1) log calls w r)) = (∑ r : Fin (S + 1), wt (dataFaults bp (S + 1) log calls w ⟨r.val, by omega⟩)) +
      (wt (dataFaults bp (S + 1) log calls w ⟨S + 1 + 0, by omega⟩) + ∑ r : Fin S, wt (dataFaults bp (S + 1) log calls w ⟨S + 1 + r.succ.val, by omega⟩)) := by
    rw [sum_halves (S + 1) hk]
    congr 1
    rw [Fin.sum_univ_succ]
    rfl
  have hle : (∑ r, wt (effective bp H (S + 1) log calls w r)) = (∑ r : Fin (S + 1), wt (effective bp H (S + 1) log calls w ⟨r.val, by omega⟩)) +
      (wt (effective bp H (S + 1) log calls w ⟨S + 1 + 0, by omega⟩) + ∑ r : Fin S, wt (effective bp H (S + 1) log calls w ⟨S + 1 + r.succ.val, by omega⟩)) := by
    rw [sum_halves (S + 1) hk]
    congr 1
    rw [Fin.sum_univ_succ]
    rfl
  have hN : (∑ r : Fin (S + 1), roundFaults bp H (S + 1) log calls ((w + 1) * (S + 1) + (S + 1 + r.val))) =
      (∑ r : Fin (S + 1), wt (freshError bp (S + 1) log calls ((w + 1) * (S + 1) + (S + 1 + r.val)))) +
        ∑ r : Fin (S + 1), wt (wrongBits H log ((w + 1) * (S + 1) + (S + 1 + r.val))) := by
    rw [← Finset.sum_add_distrib]
    rfl
  have hL : load bp H (S + 1) log calls w = (∑ r, wt (dataFaults bp (S + 1) log calls w r)) + ∑ r, wt (effective bp H (S + 1) log calls w r) := rfl
  have hL' : load bp H (S + 1) log calls (w + 1) = (∑ r, wt (dataFaults bp (S + 1) log calls (w + 1) r)) +
      ∑ r, wt (effective bp H (S + 1) log calls (w + 1) r) := rfl
  rw [hN]
  rw [hsplit] at hans
  omega

/-- The faults that window `W` has to explain: a fault counts twice for every window that was decoded with it before. -/
theorem load_le (bp : Solver) (method : Method) (H : Mat m n) (T : ℕ) (hk : k + 1 = 2 * T) (bits : ℝ × ℝ × ℝ) (zErrors : Bool)
    (own sigma : ℝ) (rounds : List (Draws m n)) (log : List (Vec n × (Fin m → ℝ))) (calls : List (WCall k m n)) (final : Vec n)
    (h : SampleOk bp method H T bits zErrors own sigma rounds log calls final)
    (ha : ∀ c ∈ calls, LightestAnswer c (answerOf bp c)) (w : ℕ) (hw : w * T + (k + 1) ≤ rounds.length) :
    load bp H T log calls w ≤ ∑ j ∈ Finset.range (w * T + (k + 1)), 2 ^ (w - (j / T - 1)) * roundFaults bp H T log calls j := by
  have hT : 0 < T := by omega
  induction w with
  | zero =>
    rw [load_zero]
    simp
  | succ w ih =>
    have hmul : (w + 1) * T = w * T + T := by ring
    have hlt : w < calls.length := (h.windows w).2 (by omega)
    have h1 := load_succ bp method H T hk bits zErrors own sigma rounds log calls final h w (by omega) calls[w] (List.getElem?_eq_getElem hlt)
      (ha _ (List.getElem_mem hlt))
    have h2 := ih (by omega)
    refine h1.trans ?_
    rw [show (w + 1) * T + (k + 1) = w * T + (k + 1) + T by omega, Finset.sum_range_add]
    refine Nat.add_le_add ?_ ?_
    · refine (Nat.mul_le_mul_left 2 h2).trans (le_of_eq ?_)
      rw [Finset.mul_sum]
      refine Finset.sum_congr rfl fun j hj => ?_
      have hj' : j / T < w + 2 := by
        rw [Nat.div_lt_iff_lt_mul hT]
        have := Finset.mem_range.1 hj
        have : (w + 2) * T = w * T + 2 * T := by ring
        omega
      rw [show w + 1 - (j / T - 1) = w - (j / T - 1) + 1 by omega, pow_succ]
      ring
    · rw [Fin.sum_univ_eq_sum_range (fun r => roundFaults bp H T log calls ((w + 1) * T + (T + r)))]
      refine le_of_eq (Finset.sum_congr rfl fun r hr => ?_)
      have hr' := Finset.mem_range.1 hr
      have e : w * T + (k + 1) + r = r + (w + 2) * T := by
        have : (w + 2) * T = w * T + 2 * T := by ring
        omega
      have e2 : (w + 1) * T + (T + r) = r + (w + 2) * T := by
        have : (w + 2) * T = w * T + 2 * T := by ring
        omega
      rw [e, e2, Nat.add_mul_div_right _ _ hT, Nat.div_eq_of_lt hr', show w + 1 - (0 + (w + 2) - 1) = 0 by omega, pow_zero, one_mul]

/-! ### C138 -/

/-- **C138**, for samples of any number of windows: when every answer of the decoder is a lightest explanation, a fault counts twice for
every window that is decoded after the first one that sees it, and all these together are fewer than half the distance, the sample is a
success. -/
theorem C138_windows (hf : IsErfcInv f) (bp : Solver) (a : Args m n) (s : Sim k m n) (h : Reached bp f a s) (ha : a.analogTg = true)
    (h0 : 0 < a.syn) (h1 : a.syn < 1 / 2) (W : ℕ) (rounds : List (Draws m n)) (hr : rounds.length = (W + 2) * ((k + 1) / 2)) (d : ℕ)
    (hd : LogicalsAtLeast a.H a.L d) :
    ∃ q success, s.sample bp rounds = .ok (q, success) ∧ q.log.length = rounds.length ∧ q.calls.length = W + 1 ∧
      ((∀ c ∈ q.calls, LightestAnswer c (answerOf bp c)) →
        2 * (∑ j ∈ Finset.range rounds.length,
          2 ^ (W - (j / ((k + 1) / 2) - 1)) * roundFaults bp a.H ((k + 1) / 2) q.log q.calls j) < d →
        success = true ∧ apply a.H q.err = 0) := by
  obtain ⟨method, sigma, q, -, -, -, hs, hok⟩ := C116_sample hf bp a s h ha h0 h1 rounds
  have hk : k + 1 = 2 * ((k + 1) / 2) := by
    obtain ⟨s0, hist, fl, hn, -⟩ := h
    have := (new_eq hn).1
    omega
  generalize (k + 1) / 2 = T at hk hr hok ⊢
  have hT : 0 < T := by omega
  have hlen : rounds.length = W * T + (k + 1) := by rw [hr, hk]; ring
  have hcl : q.calls.length = W + 1 := by
    have b1 := (hok.windows W).2 hlen.ge
    have b2 := (hok.windows (W + 1)).not.2 (by rw [hlen]; have : (W + 1) * T = W * T + T := by ring
                                               omega)
    omega
  refine ⟨q, _, hs, hok.length, hcl, fun hl hfew => ?_⟩
  obtain ⟨c, hc, hlast, hend⟩ := C138_last_window bp method a.H T hk _ _ _ _ rounds q.log q.calls q.err hok W hlen.symm a.L d hd
  have hmem : c ∈ q.calls := List.mem_of_getElem? hc
  have hL := hl c hmem
  unfold LightestAnswer at hL
  rw [if_pos hlast] at hL
  have hle := load_le bp method a.H T hk _ _ _ _ rounds q.log q.calls q.err hok hl W hlen.ge
  rw [← hlen] at hle
  unfold load at hle
  obtain ⟨r1, r2⟩ := hend hL (by omega)
  exact ⟨by rw [r2]; rfl, r1⟩

/-- **C138**, a simpler bound: at most `2 ^ W` times the number of all faults has to be below half the distance. -/
theorem C138_windows_total (hf : IsErfcInv f) (bp : Solver) (a : Args m n) (s : Sim k m n) (h : Reached bp f a s) (ha : a.analogTg = true)
    (h0 : 0 < a.syn) (h1 : a.syn < 1 / 2) (W : ℕ) (rounds : List (Draws m n)) (hr : rounds.length = (W + 2) * ((k + 1) / 2)) (d : ℕ)
    (hd : LogicalsAtLeast a.H a.L d) :
    ∃ q success, s.sample bp rounds = .ok (q, success) ∧ ((∀ c ∈ q.calls, LightestAnswer c (answerOf bp c)) →
      2 ^ (W + 1) * (∑ j ∈ Finset.range rounds.length, roundFaults bp a.H ((k + 1) / 2) q.log q.calls j) < d → success = true) := by
  obtain ⟨q, success, e1, -, -, e4⟩ := C138_windows hf bp a s h ha h0 h1 W rounds hr d hd
  refine ⟨q, success, e1, fun hl hfew => (e4 hl (lt_of_le_of_lt ?_ hfew)).1⟩
  rw [pow_succ, mul_comm (2 ^ W) 2, mul_assoc, Finset.mul_sum (Finset.range rounds.length) _ (2 ^ W)]
  exact Nat.mul_le_mul_left 2 (Finset.sum_le_sum fun j _ => Nat.mul_le_mul_right _ (Nat.pow_le_pow_right (by norm_num) (Nat.sub_le _ _)))

/-! ### The hypotheses can be met -/

/-- There is a decoder that gives a lightest explanation, one without wrong syndrome bits in the last round if there is one among the
lightest. -/
theorem careful_solver (m : ℕ) : ∃ bp : Solver, ∀ (k n : ℕ) (c : WCall k m n),
    (∃ b, apply c.pcm b = c.syn ∧ (∀ i, timeCorrection b i (Fin.last k) = 0) ∧ ∀ b', apply c.pcm b' = c.syn → wt b ≤ wt b') →
    LightestAnswer c (answerOf bp c) := by
  classical
  have hex : ∀ (N M : ℕ) (pcm : Mat N M) (syn : Vec N), ∃ a : Vec M,
      (∃ b : Vec M, apply pcm b = syn ∧ (∀ j, M ≤ j.val + m → b j = 0) ∧ ∀ b', apply pcm b' = syn → wt b ≤ wt b') →
      apply pcm a = syn ∧ (∀ j, M ≤ j.val + m → a j = 0) ∧ ∀ b', apply pcm b' = syn → wt a ≤ wt b' := by
    intro N M pcm syn
    by_cases h : ∃ b : Vec M, apply pcm b = syn ∧ (∀ j, M ≤ j.val + m → b j = 0) ∧ ∀ b', apply pcm b' = syn → wt b ≤ wt b'
    · exact ⟨h.choose, fun _ => h.choose_spec⟩
    · exact ⟨0, fun h' => absurd h' h⟩
  choose g hg using hex
  refine ⟨fun N M pcm _ syn => g N M pcm syn, fun k n c ⟨b, hb1, hb2, hb3⟩ => ?_⟩
  obtain ⟨r1, r2, r3⟩ := hg _ _ c.pcm c.syn ⟨b, hb1, (timeCorrection_last b).1 hb2, hb3⟩
  unfold LightestAnswer
  split
  · exact ⟨r1, (timeCorrection_last _).2 r2, fun b h1 _ => r3 b h1⟩
  · exact ⟨r1, r3⟩

/-- The repetition code of distance three with windows of four rounds and samples of six rounds, two windows: there is a decoder for
which every sample whose only fault is in one of the last two rounds is a success. -/
example (hf : IsErfcInv f) : ∃ bp : Solver, ∃ s : Sim 3 2 3, ∀ rounds : List (Draws 2 3), rounds.length = 6 →
    ∃ q success, s.sample bp rounds = .ok (q, success) ∧
      ((∀ j < 4, roundFaults bp ![![1, 1, 0], ![0, 1, 1]] 2 q.log q.calls j = 0) →
        roundFaults bp ![![1, 1, 0], ![0, 1, 1]] 2 q.log q.calls 4 + roundFaults bp ![![1, 1, 0], ![0, 1, 1]] 2 q.log q.calls 5 ≤ 1 →
        success = true) := by
  obtain ⟨bp, hbp⟩ := careful_solver 2
  obtain ⟨s, h1, h2, h3⟩ := repetition_reached (f := f) bp ['b', 'p', 'o', 's', 'd'] (.inl rfl)
  refine ⟨bp, s, fun rounds hr => ?_⟩
  have hd : LogicalsAtLeast (![![1, 1, 0], ![0, 1, 1]] : Mat 2 3) [![1, 0, 0]] 3 := by unfold LogicalsAtLeast; decide +kernel
  obtain ⟨q, success, e1, e2, e3, e4⟩ := C138_windows hf bp (repetition ['b', 'p', 'o', 's', 'd']) s h1 rfl (by rw [h3]; norm_num)
    (by rw [h3]; norm_num) 1 rounds hr 3 hd
  obtain ⟨method, sigma, q', -, -, -, hs, hok⟩ := C116_sample hf bp (repetition ['b', 'p', 'o', 's', 'd']) s h1 rfl (by rw [h3]; norm_num)
    (by rw [h3]; norm_num) rounds
  rw [e1] at hs
  obtain ⟨rfl, -⟩ := Prod.mk.inj (Except.ok.inj hs)
  refine ⟨q, success, e1, fun hz hone => (e4 ?_ ?_).1⟩
  · change SampleOk bp method ![![1, 1, 0], ![0, 1, 1]] 2 _ _ _ _ rounds q.log q.calls q.err at hok
    have l0 : load bp ![![1, 1, 0], ![0, 1, 1]] 2 q.log q.calls 0 = 0 := by
      rw [load_zero]
      exact Finset.sum_eq_zero fun j hj => hz j (Finset.mem_range.1 hj)
    obtain ⟨c0, c1, hc⟩ : ∃ c0 c1, q.calls = [c0, c1] := by
      match hq : q.calls, e3 with
      | [c0, c1], _ => exact ⟨c0, c1, rfl⟩
    have k0 : q.calls[0]? = some c0 := by rw [hc]; rfl
    have k1 : q.calls[1]? = some c1 := by rw [hc]; rfl
    have pk : ∀ w c, q.calls[w]? = some c → apply c.pcm (pack (dataFaults bp 2 q.log q.calls w)
        (effective bp ![![1, 1, 0], ![0, 1, 1]] 2 q.log q.calls w)) = c.syn ∧
        wt (pack (dataFaults bp 2 q.log q.calls w) (effective bp ![![1, 1, 0], ![0, 1, 1]] 2 q.log q.calls w)) =
          load bp ![![1, 1, 0], ![0, 1, 1]] 2 q.log q.calls w := by
      intro w c hcw
      refine ⟨?_, wt_pack _ _⟩
      rw [C116_question bp method _ 2 (by omega) _ _ _ _ rounds _ _ _ hok w c hcw, (hok.asked w c hcw).2.1]
      rfl
    have a0 : LightestAnswer c0 (answerOf bp c0) := by
      refine hbp _ _ c0 ⟨_, (pk 0 c0 k0).1, fun i => ?_, fun b' _ => by rw [(pk 0 c0 k0).2, l0]; exact Nat.zero_le _⟩
      have hp : pack (dataFaults bp 2 q.log q.calls 0) (effective bp ![![1, 1, 0], ![0, 1, 1]] 2 q.log q.calls 0) = 0 := by
        funext j
        by_contra hj
        have hw0 := (pk 0 c0 k0).2
        rw [l0, ProductRank.wt_sum, Finset.sum_eq_zero_iff] at hw0
        have := hw0 j (Finset.mem_univ _)
        rw [Pi.zero_apply] at hj
        revert this hj
        generalize pack (dataFaults bp 2 q.log q.calls 0) (effective bp ![![1, 1, 0], ![0, 1, 1]] 2 q.log q.calls 0) j = x
        revert x
        decide
      rw [hp]
      rfl
    have l1 : load bp ![![1, 1, 0], ![0, 1, 1]] 2 q.log q.calls 1 ≤ 1 := by
      have := load_succ bp method ![![1, 1, 0], ![0, 1, 1]] 2 rfl _ _ _ _ rounds q.log q.calls q.err hok 0 (by omega) c0 k0 a0
      rw [l0, Fin.sum_univ_two] at this
      simp only [Fin.val_zero, Fin.val_one, zero_add, one_mul, add_zero, mul_zero, Nat.reduceAdd] at this
      omega
    intro c hcm
    rw [hc] at hcm
    rcases List.mem_cons.1 hcm with rfl | hcm
    · exact a0
    rw [List.mem_singleton] at hcm
    subst hcm
    refine hbp _ _ c ?_
    by_cases hsyn : c.syn = 0
    · exact ⟨0, by rw [hsyn]; exact apply_zero _, fun i => rfl, fun b' _ => by rw [show wt (0 : Vec (4 * 3 + 4 * 2)) = 0 by decide]; exact Nat.zero_le _⟩
    · refine ⟨_, (pk 1 c k1).1, fun i => ?_, fun b' hb' => ?_⟩
      · rw [time_pack, effective_last bp method _ 2 rfl _ _ _ _ rounds q.log q.calls q.err hok 1 (by omega)]
        rfl
      · rw [(pk 1 c k1).2]
        refine l1.trans (Nat.one_le_iff_ne_zero.2 fun hw => hsyn ?_)
        have : b' = 0 := by
          funext j
          rw [ProductRank.wt_sum, Finset.sum_eq_zero_iff] at hw
          have := hw j (Finset.mem_univ _)
          rw [Pi.zero_apply]
          revert this
          generalize b' j = x
          revert x
          decide
        rw [← hb', this]
        exact apply_zero _
  · change 2 * (∑ j ∈ Finset.range rounds.length, 2 ^ (1 - (j / 2 - 1)) * roundFaults bp ![![1, 1, 0], ![0, 1, 1]] 2 q.log q.calls j) < 3
    rw [hr]
    simp only [Finset.sum_range_succ, Finset.sum_range_zero]
    rw [hz 0 (by omega), hz 1 (by omega), hz 2 (by omega), hz 3 (by omega)]
    norm_num
    omega

end Verif.Qss
