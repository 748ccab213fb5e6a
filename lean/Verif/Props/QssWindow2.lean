import Verif.Props.QssWindow
import Verif.Props.QssWeights
import Mathlib.Analysis.Complex.ExponentialBounds

/-!
# C138 for the matching decoder with its own weights
-/

namespace Verif.Qss
open Verif Analog AnalogTanner Gauss Real

variable {k m n : ℕ} {f : ℝ → ℝ}

/-- The weight of a data error of rate `own`. -/
noncomputable def dataWeight (own : ℝ) : ℝ := min 16777215 (log ((1 - own) / own))

/-- The weight of a wrong syndrome bit with the measured value `y`. -/
noncomputable def bitWeight (sigma y : ℝ) : ℝ := min 16777215 |2 * y / sigma ^ 2|

/-- The weight of a wrong syndrome bit in the last round of the sample. -/
noncomputable def lastWeight : ℝ := log (10 ^ 15 - 1)

/-- The weights of window `w`, the last one of a sample. -/
noncomputable def lastWeights (own sigma : ℝ) (T : ℕ) (log : List (Vec n × (Fin m → ℝ))) (w : ℕ) : Fin ((k + 1) * n + (k + 1) * m) → ℝ :=
  Fin.append (fun _ => dataWeight own) fun j =>
    if j.divNat.val = k then lastWeight else bitWeight sigma (valuesAt log (w * T + j.divNat.val) j.modNat)

theorem cost_eq_weightBy {N : ℕ} (W : Fin N → ℝ) (v : Vec N) : cost W v = weightBy W v := by
  unfold cost weightBy
  refine Finset.sum_congr rfl fun i _ => ?_
  have : ∀ x : ZMod 2, x = 1 ↔ x ≠ 0 := by decide
  simp only [this]

theorem dataWeight_pos {own : ℝ} (o0 : 0 < own) (o1 : own < 1 / 2) : 0 < dataWeight own := by
  refine lt_min (by norm_num) (Real.log_pos ?_)
  rw [lt_div_iff₀ o0]
  linarith

theorem lastWeight_mem : 0 ≤ lastWeight ∧ lastWeight ≤ 16777215 := by
  unfold lastWeight
  refine ⟨Real.log_nonneg (by norm_num), ?_⟩
  have h2 : Real.log (10 ^ 15 - 1) ≤ Real.log (10 ^ 15) := Real.log_le_log (by norm_num) (by norm_num)
  have h3 : Real.log ((10 : ℝ) ^ 15) = 15 * Real.log 10 := by rw [Real.log_pow]; norm_num
  have h4 := Real.log_le_sub_one_of_pos (show (0 : ℝ) < 10 by norm_num)
  linarith

theorem bitWeight_nonneg (sigma y : ℝ) : 0 ≤ bitWeight sigma y := le_min (by norm_num) (abs_nonneg _)

theorem lastWeights_nonneg {own : ℝ} (o0 : 0 < own) (o1 : own < 1 / 2) (sigma : ℝ) (T : ℕ) (log : List (Vec n × (Fin m → ℝ))) (w : ℕ)
    (j : Fin ((k + 1) * n + (k + 1) * m)) : 0 ≤ lastWeights own sigma T log w j := by
  unfold lastWeights
  refine Fin.addCases (fun a => ?_) (fun b => ?_) j
  · rw [Fin.append_left]; exact (dataWeight_pos o0 o1).le
  · rw [Fin.append_right]
    split
    · exact lastWeight_mem.1
    · exact bitWeight_nonneg _ _

theorem soft_last {own sigma : ℝ} (hs : 0 < sigma) (o0 : 0 < own) (o1 : own < 1 / 2) (T : ℕ) (log : List (Vec n × (Fin m → ℝ))) (w : ℕ) :
    Soft.updated .matching (windowPriors (k := k) own sigma T log w true) = .weights fun j => .fin (lastWeights own sigma T log w j) := by
  unfold Soft.updated
  simp only
  congr 1
  funext j
  unfold windowPriors lastWeights
  refine Fin.addCases (fun a => ?_) (fun b => ?_) j
  · rw [Fin.append_left, Fin.append_left, clippedWeight_eq o0 (by linarith), max_eq_right]
    · rfl
    · have := dataWeight_pos o0 o1
      unfold dataWeight at this
      linarith
  · rw [Fin.append_right, Fin.append_right]
    by_cases hb : b.divNat.val = k
    · rw [if_pos ⟨rfl, hb⟩, if_pos hb, clippedWeight_eq (by norm_num) (by norm_num)]
      have h1 : (1 - (1 : ℝ) / 10 ^ 15) / (1 / 10 ^ 15) = 10 ^ 15 - 1 := by norm_num
      rw [h1]
      have := lastWeight_mem
      unfold lastWeight at this
      rw [min_eq_right this.2, max_eq_right (by linarith)]
      rfl
    · rw [if_neg (fun h => hb h.2), if_neg hb]
      have := C117_syndrome sigma (valuesAt log (w * T + b.divNat.val) b.modNat) hs
      rw [(C109_posterior sigma _ hs).1] at this
      exact this

/-- **C138** with matching: the decoder is given weights; when it returns an explanation of least weight for them, no logical error remains
in any sample whose last window has so few effective faults that twice the weight of the data errors plus the weight of the wrong syndrome
bits is below the weight of a logical operator, and the weight of all faults is below the weight of a syndrome bit of the last round. -/
theorem C138_matching (bp : Solver) (H : Mat m n) (T : ℕ) (hk : k + 1 = 2 * T) (bits : ℝ × ℝ × ℝ) (zErrors : Bool)
    (own sigma : ℝ) (hs : 0 < sigma) (o0 : 0 < own) (o1 : own < 1 / 2) (rounds : List (Draws m n)) (log : List (Vec n × (Fin m → ℝ)))
    (calls : List (WCall k m n)) (final : Vec n) (h : SampleOk bp .matching H T bits zErrors own sigma rounds log calls final) (w : ℕ)
    (hw : w * T + (k + 1) = rounds.length) (L : List (Vec n)) (d : ℕ) (hd : LogicalsAtLeast H L d) :
    ∃ c W, calls[w]? = some c ∧ c.soft = .weights (fun j => .fin (W j)) ∧
      (apply c.pcm (answerOf bp c) = c.syn → (∀ b, apply c.pcm b = c.syn → cost W (answerOf bp c) ≤ cost W b) →
        ∀ D F : ℝ, D = dataWeight own * ((∑ r, wt (dataFaults bp T log calls w r) : ℕ) : ℝ) →
          F = (∑ r, ∑ i, if effective bp H T log calls w r i ≠ 0 then bitWeight sigma (valuesAt log (w * T + r.val) i) else 0) →
          2 * D + F < dataWeight own * d → D + F < lastWeight → apply H final = 0 ∧ isLogicalErr L final = false) := by
  have hdata : ∀ i, lastWeights (k := k) own sigma T log w (Fin.castAdd _ i) = dataWeight own := by
    intro i
    unfold lastWeights
    rw [Fin.append_left]
  obtain ⟨c, hc, hl, hres⟩ := C138_weighted bp .matching H T hk bits zErrors own sigma rounds log calls final h w hw L d hd
    (lastWeights own sigma T log w) (dataWeight own) (dataWeight_pos o0 o1) hdata (lastWeights_nonneg o0 o1 sigma T log w)
  obtain ⟨a1, a2, a3, a4⟩ := h.asked w c hc
  refine ⟨c, lastWeights own sigma T log w, hc, by rw [a3, hl, soft_last hs o0 o1], ?_⟩
  intro hsol hmin D F hD hF hfew hlast
  have heff0 := effective_last bp .matching H T hk bits zErrors own sigma rounds log calls final h w hw
  have hFlips : (∑ r, ∑ i, if effective bp H T log calls w r i ≠ 0 then
      lastWeights (k := k) own sigma T log w (Fin.natAdd _ (finProdFinEquiv (r, i))) else 0) = F := by
    rw [hF]
    refine Finset.sum_congr rfl fun r _ => Finset.sum_congr rfl fun i _ => ?_
    by_cases hr : r = Fin.last k
    · rw [hr, heff0]; simp
    · have : r.val ≠ k := fun h => hr (Fin.ext h)
      unfold lastWeights
      rw [Fin.append_right, divNat_pair, modNat_pair, if_neg this]
  have hcand := hmin (pack (dataFaults bp T log calls w) (effective bp H T log calls w)) (by
    rw [C116_question bp .matching H T (by omega) bits zErrors own sigma rounds log calls final h w c hc, a2]; rfl)
  rw [cost_eq_weightBy, cost_eq_weightBy, weightBy_pack _ _ hdata, hFlips, ← hD] at hcand
  refine hres ⟨hsol, fun i => ?_, fun b hb _ => ?_⟩ ?_
  · by_contra hne
    have : lastWeight ≤ weightBy (lastWeights own sigma T log w) (answerOf bp c) := by
      have h1 : lastWeight = if answerOf bp c (Fin.natAdd _ (finProdFinEquiv (Fin.last k, i))) ≠ 0 then
          lastWeights (k := k) own sigma T log w (Fin.natAdd _ (finProdFinEquiv (Fin.last k, i))) else 0 := by
        rw [if_pos (show answerOf bp c (Fin.natAdd _ (finProdFinEquiv (Fin.last k, i))) ≠ 0 from hne)]
        unfold lastWeights
        rw [Fin.append_right, divNat_pair, if_pos (Fin.val_last k)]
      rw [h1]
      exact Finset.single_le_sum (f := fun j => if answerOf bp c j ≠ 0 then lastWeights (k := k) own sigma T log w j else 0)
        (fun j _ => by split; exacts [lastWeights_nonneg o0 o1 sigma T log w j, le_rfl]) (Finset.mem_univ _)
    linarith
  · rw [← cost_eq_weightBy, ← cost_eq_weightBy]
    exact hmin b hb
  · rw [hFlips]
    rw [hD] at hfew
    linarith

/-- The repetition code of distance three with matching: error rate 1/10, six rounds, windows of four rounds.  One effective data error and
no wrong syndrome bit in the last window are corrected by every decoder that returns an explanation of least weight. -/
example (hf : IsErfcInv f) (bp : Solver) (rounds : List (Draws 2 3)) (hr : rounds.length = 6) :
    ∃ (s : Sim 3 2 3) (q : State 3 2 3) (success : Bool) (c : WCall 3 2 3) (W : _), s.sample bp rounds = .ok (q, success) ∧
      q.calls[1]? = some c ∧ c.soft = .weights (fun j => .fin (W j)) ∧
      (apply c.pcm (answerOf bp c) = c.syn → (∀ b, apply c.pcm b = c.syn → cost W (answerOf bp c) ≤ cost W b) →
        ∑ r, wt (dataFaults bp 2 q.log q.calls 1 r) = 1 → (∀ r, effective bp ![![1, 1, 0], ![0, 1, 1]] 2 q.log q.calls 1 r = 0) →
        success = true) := by
  obtain ⟨s, h1, h2, h3⟩ := repetition_reached (f := f) bp ['m', 'a', 't', 'c', 'h', 'i', 'n', 'g'] (.inr rfl)
  obtain ⟨me, sigma, q, g1, g2, -, g4, g5⟩ := C116_sample hf bp (repetition ['m', 'a', 't', 'c', 'h', 'i', 'n', 'g']) s h1 rfl
    (by rw [h3]; norm_num) (by rw [h3]; norm_num) rounds
  obtain rfl : me = .matching := (Except.ok.inj g1).symm
  have hd : LogicalsAtLeast (![![1, 1, 0], ![0, 1, 1]] : Mat 2 3) [![1, 0, 0]] 3 := by unfold LogicalsAtLeast; decide +kernel
  obtain ⟨c, W, e1, e2, e3⟩ := C138_matching bp _ _ rfl _ _ _ sigma g2 (by rw [h2]; norm_num) (by rw [h2]; norm_num) rounds q.log q.calls
    q.err g5 1 (by rw [hr]) [![1, 0, 0]] 3 hd
  refine ⟨s, q, _, c, W, g4, e1, e2, fun a1 a2 a3 a4 => ?_⟩
  have hw : dataWeight (1 / 10) ≤ 9 ∧ 0 < dataWeight (1 / 10) := by
    refine ⟨(min_le_right _ _).trans ?_, dataWeight_pos (by norm_num) (by norm_num)⟩
    have := Real.log_le_sub_one_of_pos (show (0 : ℝ) < (1 - 1 / 10) / (1 / 10) by norm_num)
    norm_num at this ⊢
    linarith
  have hl : 9 < lastWeight := by
    unfold lastWeight
    rw [Real.lt_log_iff_exp_lt (by norm_num)]
    have h1 : Real.exp 9 = Real.exp 1 ^ 9 := by rw [← Real.exp_nat_mul]; norm_num
    have h2 : Real.exp 1 ^ 9 ≤ 3 ^ 9 := pow_le_pow_left₀ (Real.exp_pos 1).le Real.exp_one_lt_three.le 9
    rw [h1]
    refine lt_of_le_of_lt h2 (by norm_num)
  have := (e3 a1 a2 (dataWeight (1 / 10)) 0 (by
    change _ = dataWeight (repetition _).own * ((∑ r, wt (dataFaults bp 2 q.log q.calls 1 r) : ℕ) : ℝ)
    rw [h2, a3]; simp) (by
    symm
    refine Finset.sum_eq_zero fun r _ => Finset.sum_eq_zero fun i _ => if_neg ?_
    have := congrFun (a4 r) i
    exact not_not.2 this) (by rw [h2]; push_cast; linarith [hw.2]) (by linarith [hw.1])).2
  change (!isLogicalErr [![1, 0, 0]] q.err) = true
  rw [this]
  rfl

end Verif.Qss
