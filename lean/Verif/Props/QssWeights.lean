import Verif.Props.Qss

/-!
# C117: the weights of the matching decoder
-/

namespace Verif.Qss
open Verif Analog AnalogTanner Gauss Real

variable {k m n : ℕ} {f : ℝ → ℝ}

/-! ### Specification -/

/-- The probability of the error `e` when the bits are wrong independently with probabilities `p`. -/
noncomputable def likelihood {N : ℕ} (p : Fin N → ℝ) (e : Vec N) : ℝ := ∏ i, if e i = 1 then p i else 1 - p i

/-- The weight of an error. -/
noncomputable def cost {N : ℕ} (w : Fin N → ℝ) (e : Vec N) : ℝ := ∑ i, if e i = 1 then w i else 0

/-- The error probabilities of window `w` of a sample: data errors with rate `own`, syndrome bits with the probability to be wrong given
the measured value, the syndrome of the last round of the sample practically never. -/
noncomputable def windowProbs (own sigma : ℝ) (T : ℕ) (log : List (Vec n × (Fin m → ℝ))) (w : ℕ) (last : Bool) :
    Fin ((k + 1) * n + (k + 1) * m) → ℝ :=
  Fin.append (fun _ => own) fun j =>
    if last = true ∧ j.divNat.val = k then 1 / 10 ^ 15 else posteriorWrong sigma (valuesAt log (w * T + j.divNat.val) j.modNat)

/-! ### Lemmas -/

theorem windowPriors_eq (own sigma : ℝ) (T : ℕ) (log : List (Vec n × (Fin m → ℝ))) (w : ℕ) (last : Bool)
    (i : Fin ((k + 1) * n + (k + 1) * m)) : windowPriors own sigma T log w last i = .fin (windowProbs own sigma T log w last i) := by
  unfold windowPriors windowProbs
  refine Fin.addCases (fun a => ?_) (fun b => ?_) i
  · rw [Fin.append_left, Fin.append_left]
  · rw [Fin.append_right, Fin.append_right]
    split <;> rfl

theorem windowProbs_mem (own sigma : ℝ) (hs : 0 < sigma) (h0 : 0 < own) (h1 : own < 1) (T : ℕ) (log : List (Vec n × (Fin m → ℝ))) (w : ℕ)
    (last : Bool) (i : Fin ((k + 1) * n + (k + 1) * m)) :
    0 < windowProbs own sigma T log w last i ∧ windowProbs own sigma T log w last i < 1 := by
  unfold windowProbs
  refine Fin.addCases (fun a => ?_) (fun b => ?_) i
  · rw [Fin.append_left]; exact ⟨h0, h1⟩
  · rw [Fin.append_right]
    split
    · norm_num
    · obtain ⟨-, a, b⟩ := C109_posterior sigma (valuesAt log (w * T + b.divNat.val) b.modNat) hs
      exact ⟨a, by linarith⟩

theorem log_likelihood {N : ℕ} (p : Fin N → ℝ) (hp : ∀ i, 0 < p i ∧ p i < 1) (e : Vec N) :
    0 < likelihood p e ∧ Real.log (likelihood p e) = (∑ i, Real.log (1 - p i)) - cost (fun i => Real.log ((1 - p i) / p i)) e := by
  have hpos : ∀ i, 0 < if e i = 1 then p i else 1 - p i := by
    intro i
    have := hp i
    split <;> linarith
  refine ⟨Finset.prod_pos fun i _ => hpos i, ?_⟩
  unfold likelihood cost
  rw [Real.log_prod fun i _ => (hpos i).ne', ← Finset.sum_sub_distrib]
  refine Finset.sum_congr rfl fun i _ => ?_
  have h1 := (hp i).1
  have h2 : 0 < 1 - p i := by linarith [(hp i).2]
  split
  · simp only [Real.log_div h2.ne' h1.ne']; ring
  · rw [sub_zero]

theorem cost_le_iff {N : ℕ} (p : Fin N → ℝ) (hp : ∀ i, 0 < p i ∧ p i < 1) (e e' : Vec N) :
    cost (fun i => Real.log ((1 - p i) / p i)) e ≤ cost (fun i => Real.log ((1 - p i) / p i)) e' ↔ likelihood p e' ≤ likelihood p e := by
  obtain ⟨a1, a2⟩ := log_likelihood p hp e
  obtain ⟨b1, b2⟩ := log_likelihood p hp e'
  rw [← Real.log_le_log_iff b1 a1, a2, b2]
  constructor <;> intro h <;> linarith

theorem clippedWeight_eq {p : ℝ} (h0 : 0 < p) (h1 : p < 1) :
    clippedWeight (.fin p) = .fin (max (-16777215) (min 16777215 (Real.log ((1 - p) / p)))) := by
  have h2 : 0 < 1 - p := by linarith
  unfold clippedWeight
  simp only
  rw [if_neg h0.ne', if_neg h2.ne', if_neg (not_lt.2 (div_pos h2 h0).le)]

/-! ### C117 -/

/-- **C117**: in every window given to the matching decoder the weights are finite, and as long as no log-likelihood ratio is
larger than the bound for weights, errors of smaller weight are errors of larger probability: the decoder looks for the most probable
error of the model in which data bits are wrong with their rate and syndrome bits with the probability that follows from the measured
value. -/
theorem C117_matching (hf : IsErfcInv f) (bp : Solver) (a : Args m n) (s : Sim k m n) (h : Reached bp f a s) (ha : a.analogTg = true)
    (hm : a.method = ['m', 'a', 't', 'c', 'h', 'i', 'n', 'g']) (h0 : 0 < a.syn) (h1 : a.syn < 1 / 2) (o0 : 0 < a.own) (o1 : a.own < 1)
    (rounds : List (Draws m n)) :
    ∃ sigma q b, 0 < sigma ∧ (∀ b, wrongSign b sigma = a.syn) ∧ s.sample bp rounds = .ok (q, b) ∧
      ∀ w c, q.calls[w]? = some c →
        ∃ wt, c.soft = .weights (fun i => .fin (wt i)) ∧
          ((∀ i, |Real.log ((1 - windowProbs (k := k) a.own sigma ((k + 1) / 2) q.log w c.last i) /
              windowProbs a.own sigma ((k + 1) / 2) q.log w c.last i)| ≤ 16777215) →
            ∀ e e', cost wt e ≤ cost wt e' ↔
              likelihood (windowProbs a.own sigma ((k + 1) / 2) q.log w c.last) e' ≤ likelihood (windowProbs a.own sigma ((k + 1) / 2) q.log w c.last) e) := by
  obtain ⟨me, sigma, q, g1, g2, g3, g4, g5⟩ := C116_sample hf bp a s h ha h0 h1 rounds
  obtain rfl : me = .matching := by
    rw [hm] at g1
    exact (Except.ok.inj g1).symm
  refine ⟨sigma, q, _, g2, g3, g4, fun w c hc => ?_⟩
  have hs := (g5.asked w c hc).2.2.1
  have hp := windowProbs_mem (k := k) a.own sigma g2 o0 o1 ((k + 1) / 2) q.log w c.last
  refine ⟨fun i => max (-16777215) (min 16777215 (Real.log ((1 - windowProbs (k := k) a.own sigma ((k + 1) / 2) q.log w c.last i) /
      windowProbs a.own sigma ((k + 1) / 2) q.log w c.last i))), ?_, fun hb e e' => ?_⟩
  · rw [hs]
    unfold Soft.updated
    simp only
    congr 1
    funext i
    rw [windowPriors_eq, clippedWeight_eq (hp i).1 (hp i).2]
  · rw [← cost_le_iff _ hp e e']
    have : (fun i => max (-16777215) (min 16777215 (Real.log ((1 - windowProbs (k := k) a.own sigma ((k + 1) / 2) q.log w c.last i) /
        windowProbs a.own sigma ((k + 1) / 2) q.log w c.last i)))) = fun i => Real.log ((1 - windowProbs (k := k) a.own sigma ((k + 1) / 2) q.log w c.last i) /
        windowProbs a.own sigma ((k + 1) / 2) q.log w c.last i) := by
      funext i
      have := abs_le.1 (hb i)
      rw [min_eq_right this.2, max_eq_right this.1]
    rw [this]

/-- **C117**: the weight of a syndrome bit is the size of the log-likelihood ratio of the measured value. -/
theorem C117_syndrome (sigma y : ℝ) (h : 0 < sigma) :
    clippedWeight (virtualInit y (.fin sigma)) = .fin (min 16777215 |2 * y / sigma ^ 2|) := by
  obtain ⟨e, a, b⟩ := C109_posterior sigma y h
  rw [e, clippedWeight_eq a (by linarith)]
  have e2 : posteriorWrong sigma y = 1 / (exp |2 * y / sigma ^ 2| + 1) := by
    have := e
    unfold virtualInit analogLlr at this
    simp only [if_neg (not_le.2 h)] at this
    exact (Num.fin.inj this).symm
  have hE := exp_pos |2 * y / sigma ^ 2|
  have e3 : (1 - posteriorWrong sigma y) / posteriorWrong sigma y = exp |2 * y / sigma ^ 2| := by
    rw [e2]; field_simp; ring
  rw [e3, Real.log_exp, max_eq_right]
  exact le_min (by norm_num) (by linarith [abs_nonneg (2 * y / sigma ^ 2)])

/-- The bound holds whenever the measured values are not too large. -/
theorem C117_bound (own sigma : ℝ) (hs : 0 < sigma) (o0 : 0 < own) (o1 : own < 1) (hown : |Real.log ((1 - own) / own)| ≤ 16777215) (T : ℕ)
    (log : List (Vec n × (Fin m → ℝ))) (w : ℕ) (last : Bool) (hy : ∀ j i, |2 * valuesAt log j i / sigma ^ 2| ≤ 16777215)
    (i : Fin ((k + 1) * n + (k + 1) * m)) :
    |Real.log ((1 - windowProbs own sigma T log w last i) / windowProbs own sigma T log w last i)| ≤ 16777215 := by
  unfold windowProbs
  refine Fin.addCases (fun a => ?_) (fun b => ?_) i
  · rw [Fin.append_left]; exact hown
  · rw [Fin.append_right]
    split
    · have h1 : (1 - (1 : ℝ) / 10 ^ 15) / (1 / 10 ^ 15) = 10 ^ 15 - 1 := by norm_num
      rw [h1, abs_of_nonneg (Real.log_nonneg (by norm_num))]
      have := Real.log_le_sub_one_of_pos (show (0 : ℝ) < 10 ^ 15 - 1 by norm_num)
      have h2 : Real.log (10 ^ 15 - 1) ≤ Real.log (10 ^ 15) := Real.log_le_log (by norm_num) (by norm_num)
      have h3 : Real.log ((10 : ℝ) ^ 15) = 15 * Real.log 10 := by rw [Real.log_pow]; norm_num
      have h4 := Real.log_le_sub_one_of_pos (show (0 : ℝ) < 10 by norm_num)
      linarith
    · set y := valuesAt log (w * T + b.divNat.val) b.modNat
      have h1 := hy (w * T + b.divNat.val) b.modNat
      obtain ⟨e, a, hb⟩ := C109_posterior sigma y hs
      have e2 : posteriorWrong sigma y = 1 / (exp |2 * y / sigma ^ 2| + 1) := by
        have := e
        unfold virtualInit analogLlr at this
        simp only [if_neg (not_le.2 hs)] at this
        exact (Num.fin.inj this).symm
      have hE := exp_pos |2 * y / sigma ^ 2|
      have e3 : (1 - posteriorWrong sigma y) / posteriorWrong sigma y = exp |2 * y / sigma ^ 2| := by
        rw [e2]; field_simp; ring
      rw [e3, Real.log_exp, abs_abs]
      exact h1

/-- The repetition code with matching meets the hypotheses. -/
example (hf : IsErfcInv f) (bp : Solver) (rounds : List (Draws 2 3)) :
    ∃ (s : Sim 3 2 3) (q : State 3 2 3) (b : Bool), s.sample bp rounds = .ok (q, b) ∧
      ∀ (w : ℕ) (c : WCall 3 2 3), q.calls[w]? = some c → ∃ wt : Fin _ → ℝ, c.soft = .weights fun i => .fin (wt i) := by
  obtain ⟨s, h1, h2, h3⟩ := repetition_reached (f := f) bp ['m', 'a', 't', 'c', 'h', 'i', 'n', 'g'] (.inr rfl)
  obtain ⟨sigma, q, b, -, -, e, hq⟩ := C117_matching hf bp _ s h1 rfl rfl (by rw [h3]; norm_num) (by rw [h3]; norm_num) (by rw [h2]; norm_num)
    (by rw [h2]; norm_num) rounds
  exact ⟨s, q, b, e, fun w c hc => let ⟨wt, h, _⟩ := hq w c hc; ⟨wt, h⟩⟩

end Verif.Qss
