import Verif.Props.Qss
import Verif.Lemmas.ProductSys
import Verif.Lemmas.ProductDistance

/-!
# C138: few faults in a window are corrected
-/

namespace Verif.Qss
open Verif Analog AnalogTanner Gauss

variable {k m n : ℕ} {f : ℝ → ℝ}

/-! ### Specification -/

/-- The data error that is new in round `j`. -/
def newError (log : List (Vec n × (Fin m → ℝ))) (j : ℕ) : Vec n :=
  errorAt log j + if j = 0 then 0 else errorAt log (j - 1)

/-- The number of faults of a sample without a correction in between: new data errors and wrong syndrome bits of all rounds. -/
noncomputable def faultCount (H : Mat m n) (log : List (Vec n × (Fin m → ℝ))) : ℕ :=
  ∑ j ∈ Finset.range log.length, (wt (newError log j) + wt (wrongBits H log j))

/-- `a` is a lightest explanation of the question `c` that has no wrong syndrome bits in the last round. -/
def Lightest (c : WCall k m n) (a : Vec ((k + 1) * n + (k + 1) * m)) : Prop :=
  apply c.pcm a = c.syn ∧ (∀ i, timeCorrection a i (Fin.last k) = 0) ∧
    ∀ b, apply c.pcm b = c.syn → (∀ i, timeCorrection b i (Fin.last k) = 0) → wt a ≤ wt b

/-- Every undetected error that changes a logical operator has weight at least `d`. -/
def LogicalsAtLeast (H : Mat m n) (L : List (Vec n)) (d : ℕ) : Prop :=
  ∀ v : Vec n, apply H v = 0 → isLogicalErr L v = true → d ≤ wt v

/-! ### Lemmas -/

theorem wt_pack {R : ℕ} (e : Fin R → Vec n) (s : Fin R → Vec m) : wt (pack e s) = (∑ r, wt (e r)) + ∑ r, wt (s r) := by
  rw [ProductRank.wt_sum, Fin.sum_univ_add]
  congr 1
  · rw [← finProdFinEquiv.sum_comp, Fintype.sum_prod_type]
    refine Finset.sum_congr rfl fun r _ => ?_
    rw [ProductRank.wt_sum]
    refine Finset.sum_congr rfl fun i _ => ?_
    unfold pack
    rw [Fin.append_left, divNat_pair, modNat_pair]
  · rw [← finProdFinEquiv.sum_comp, Fintype.sum_prod_type]
    refine Finset.sum_congr rfl fun r _ => ?_
    rw [ProductRank.wt_sum]
    refine Finset.sum_congr rfl fun i _ => ?_
    unfold pack
    rw [Fin.append_right, divNat_pair, modNat_pair]

theorem time_pack {R : ℕ} (e : Fin R → Vec n) (s : Fin R → Vec m) (i : Fin m) (r : Fin R) : timeCorrection (pack e s) i r = s r i := by
  unfold timeCorrection pack
  rw [Fin.append_right, divNat_pair, modNat_pair]

theorem accumulated_all {R : ℕ} (e : Fin (R + 1) → Vec n) : accumulated e R = ∑ r, e r := by
  funext q
  unfold accumulated
  rw [Finset.sum_apply]
  exact Finset.sum_congr rfl fun t _ => if_pos (by have := t.isLt; omega)

/-- The effective data errors and wrong syndrome bits of window `w`. -/
noncomputable def effective (bp : Solver) (H : Mat m n) (T : ℕ) (log : List (Vec n × (Fin m → ℝ))) (calls : List (WCall k m n)) (w : ℕ) :
    Fin (k + 1) → Vec m :=
  fun r => wrongBits H log (w * T + r.val) + if r.val = 0 then blamed bp T calls w else 0

theorem effective_last (bp : Solver) (method : Method) (H : Mat m n) (T : ℕ) (hk : k + 1 = 2 * T) (bits : ℝ × ℝ × ℝ) (zErrors : Bool)
    (own sigma : ℝ) (rounds : List (Draws m n)) (log : List (Vec n × (Fin m → ℝ))) (calls : List (WCall k m n)) (final : Vec n)
    (h : SampleOk bp method H T bits zErrors own sigma rounds log calls final) (w : ℕ) (hw : w * T + (k + 1) = rounds.length) :
    effective bp H T log calls w (Fin.last k) = 0 := by
  have hlast : w * T + k = rounds.length - 1 := by omega
  have hv := h.values (rounds.length - 1) _ (List.getElem?_eq_getElem (by omega : rounds.length - 1 < rounds.length))
  rw [if_pos (by omega)] at hv
  unfold effective wrongBits
  rw [Fin.val_last, hlast, hv, binary_noiseless, if_neg (by omega), add_zero]
  funext i
  exact add_self_eq_zero' _

theorem candidate (bp : Solver) (method : Method) (H : Mat m n) (T : ℕ) (hk : k + 1 = 2 * T) (bits : ℝ × ℝ × ℝ) (zErrors : Bool)
    (own sigma : ℝ) (rounds : List (Draws m n)) (log : List (Vec n × (Fin m → ℝ))) (calls : List (WCall k m n)) (final : Vec n)
    (h : SampleOk bp method H T bits zErrors own sigma rounds log calls final) (w : ℕ) (hw : w * T + (k + 1) = rounds.length)
    (c : WCall k m n) (hc : calls[w]? = some c) :
    ∃ b, apply c.pcm b = c.syn ∧ ∀ i, timeCorrection b i (Fin.last k) = 0 := by
  refine ⟨pack (dataFaults bp T log calls w) (effective bp H T log calls w), ?_, fun i => ?_⟩
  · rw [C116_question bp method H T (by omega) bits zErrors own sigma rounds log calls final h w c hc, (h.asked w c hc).2.1]
    rfl
  · rw [time_pack, effective_last bp method H T hk bits zErrors own sigma rounds log calls final h w hw]
    rfl

theorem final_le (bp : Solver) (method : Method) (H : Mat m n) (T : ℕ) (hk : k + 1 = 2 * T) (bits : ℝ × ℝ × ℝ) (zErrors : Bool)
    (own sigma : ℝ) (rounds : List (Draws m n)) (log : List (Vec n × (Fin m → ℝ))) (calls : List (WCall k m n)) (final : Vec n)
    (h : SampleOk bp method H T bits zErrors own sigma rounds log calls final) (w : ℕ) (hw : w * T + (k + 1) = rounds.length)
    (c : WCall k m n) (hc : calls[w]? = some c) (hl : c.last = true) :
    wt final ≤ (∑ r, wt (dataFaults bp T log calls w r)) + ∑ r, wt (fun q => spaceCorrection (m := m) (answerOf bp c) q r) := by
  have hT : 0 < T := by omega
  have hfin : final = (∑ r, dataFaults bp T log calls w r) + ∑ r, (fun q => spaceCorrection (m := m) (answerOf bp c) q r) := by
    rw [h.after, ← accumulated_all, accumulated_faults bp T log calls w k (by omega)]
    have hr1 : rounds.length = rounds.length - 1 + 1 := by omega
    rw [hr1]
    simp only [residualBefore]
    have hj : w * T + k = rounds.length - 1 := by omega
    congr 1
    · unfold presentError
      rw [if_neg (by omega), add_zero, hj]
    · unfold correctionAt
      have e : rounds.length - 1 - k = w * T := by omega
      rw [if_pos ⟨by omega, by rw [e]; exact Dvd.intro_left _ rfl⟩, e, Nat.mul_div_cancel _ hT, hc]
      funext q
      simp only [Option.map_some, Option.getD_some, correction]
      rw [Finset.sum_apply]
      exact Finset.sum_congr rfl fun r _ => if_pos (.inl hl)
  rw [hfin]
  exact (Kunneth.wt_add_le _ _).trans (Nat.add_le_add (Kunneth.wt_sum_le _ _) (Kunneth.wt_sum_le _ _))

/-- **C138**, in any last window: when the effective faults of this window (the data errors that the earlier corrections left, the new
ones, the wrong syndrome bits, and the bits that are flipped once more, C116) are fewer than half the distance and the decoder gives a
lightest explanation, no logical error remains. -/
theorem C138_last_window (bp : Solver) (method : Method) (H : Mat m n) (T : ℕ) (hk : k + 1 = 2 * T) (bits : ℝ × ℝ × ℝ) (zErrors : Bool)
    (own sigma : ℝ) (rounds : List (Draws m n)) (log : List (Vec n × (Fin m → ℝ))) (calls : List (WCall k m n)) (final : Vec n)
    (h : SampleOk bp method H T bits zErrors own sigma rounds log calls final) (w : ℕ) (hw : w * T + (k + 1) = rounds.length)
    (L : List (Vec n)) (d : ℕ) (hd : LogicalsAtLeast H L d) :
    ∃ c, calls[w]? = some c ∧ c.last = true ∧ (Lightest c (answerOf bp c) →
      2 * ((∑ r, wt (dataFaults bp T log calls w r)) + ∑ r, wt (effective bp H T log calls w r)) < d →
      apply H final = 0 ∧ isLogicalErr L final = false) := by
  have hT : 0 < T := by omega
  obtain ⟨c, hc, hl, hend⟩ := C116_end bp method H T hk bits zErrors own sigma rounds log calls final h w hw
  refine ⟨c, hc, hl, ?_⟩
  rintro ⟨l1, l2, l3⟩ hfew
  have hsyn : apply H final = 0 := by
    funext i
    rw [hend l1 i, l2 i]
    rfl
  refine ⟨hsyn, ?_⟩
  have hq := C116_question bp method H T hT bits zErrors own sigma rounds log calls final h w c hc
  obtain ⟨a1, a2, -, -⟩ := h.asked w c hc
  have hcand := l3 (pack (dataFaults bp T log calls w) (effective bp H T log calls w)) (by rw [hq, a2]; rfl) (by
    intro i
    rw [time_pack]
    rw [effective_last bp method H T hk bits zErrors own sigma rounds log calls final h w hw]
    rfl)
  rw [wt_pack] at hcand
  by_contra hlog
  rw [Bool.not_eq_false] at hlog
  have h1 := hd final hsyn hlog
  have h2 := final_le bp method H T hk bits zErrors own sigma rounds log calls final h w hw c hc hl
  have h3 : (∑ r, wt (fun q => spaceCorrection (m := m) (answerOf bp c) q r)) ≤ wt (answerOf bp c) := by
    conv_rhs => rw [← pack_corrections (answerOf bp c), wt_pack]
    exact Nat.le_add_right _ _
  omega

/-- The total weight of the ones of `v`. -/
noncomputable def weightBy {N : ℕ} (W : Fin N → ℝ) (v : Vec N) : ℝ := ∑ j, if v j ≠ 0 then W j else 0

/-- `a` is an explanation of the question `c` of least total weight among those without wrong syndrome bits in the last round. -/
def LightestBy (W : Fin ((k + 1) * n + (k + 1) * m) → ℝ) (c : WCall k m n) (a : Vec ((k + 1) * n + (k + 1) * m)) : Prop :=
  apply c.pcm a = c.syn ∧ (∀ i, timeCorrection a i (Fin.last k) = 0) ∧
    ∀ b, apply c.pcm b = c.syn → (∀ i, timeCorrection b i (Fin.last k) = 0) → weightBy W a ≤ weightBy W b

theorem weightBy_pack (W : Fin ((k + 1) * n + (k + 1) * m) → ℝ) (w0 : ℝ) (hW : ∀ i, W (Fin.castAdd _ i) = w0)
    (e : Fin (k + 1) → Vec n) (s : Fin (k + 1) → Vec m) :
    weightBy W (pack e s) = w0 * ((∑ r, wt (e r) : ℕ) : ℝ) +
      ∑ r, ∑ i, if s r i ≠ 0 then W (Fin.natAdd _ (finProdFinEquiv (r, i))) else 0 := by
  unfold weightBy
  rw [Fin.sum_univ_add]
  congr 1
  · rw [← finProdFinEquiv.sum_comp, Fintype.sum_prod_type, Nat.cast_sum, Finset.mul_sum]
    refine Finset.sum_congr rfl fun r _ => ?_
    rw [ProductRank.wt_sum, Nat.cast_sum, Finset.mul_sum]
    refine Finset.sum_congr rfl fun i _ => ?_
    unfold pack
    rw [Fin.append_left, divNat_pair, modNat_pair, hW]
    split <;> simp
  · rw [← finProdFinEquiv.sum_comp, Fintype.sum_prod_type]
    refine Finset.sum_congr rfl fun r _ => Finset.sum_congr rfl fun i _ => ?_
    unfold pack
    rw [Fin.append_right, divNat_pair, modNat_pair]

/-- **C138**, with the weights of analog information: all data bits have the same weight `w0`, as in the priors of C116, and the syndrome
bits have any weights that are not negative.  When twice the weight of the data errors plus the weight of the wrong syndrome bits is less
than `w0` times the distance, and the decoder gives an explanation of least weight, no logical error remains. -/
theorem C138_weighted (bp : Solver) (method : Method) (H : Mat m n) (T : ℕ) (hk : k + 1 = 2 * T) (bits : ℝ × ℝ × ℝ) (zErrors : Bool)
    (own sigma : ℝ) (rounds : List (Draws m n)) (log : List (Vec n × (Fin m → ℝ))) (calls : List (WCall k m n)) (final : Vec n)
    (h : SampleOk bp method H T bits zErrors own sigma rounds log calls final) (w : ℕ) (hw : w * T + (k + 1) = rounds.length)
    (L : List (Vec n)) (d : ℕ) (hd : LogicalsAtLeast H L d) (W : Fin ((k + 1) * n + (k + 1) * m) → ℝ) (w0 : ℝ) (hw0 : 0 < w0)
    (hW : ∀ i, W (Fin.castAdd _ i) = w0) (hW0 : ∀ j, 0 ≤ W j) :
    ∃ c, calls[w]? = some c ∧ c.last = true ∧ (LightestBy W c (answerOf bp c) →
      2 * w0 * ((∑ r, wt (dataFaults bp T log calls w r) : ℕ) : ℝ) +
        (∑ r, ∑ i, if effective bp H T log calls w r i ≠ 0 then W (Fin.natAdd _ (finProdFinEquiv (r, i))) else 0) < w0 * d →
      apply H final = 0 ∧ isLogicalErr L final = false) := by
  obtain ⟨c, hc, hl, hend⟩ := C116_end bp method H T hk bits zErrors own sigma rounds log calls final h w hw
  refine ⟨c, hc, hl, ?_⟩
  rintro ⟨l1, l2, l3⟩ hfew
  have hsyn : apply H final = 0 := by
    funext i
    rw [hend l1 i, l2 i]
    rfl
  refine ⟨hsyn, ?_⟩
  have hq := C116_question bp method H T (by omega) bits zErrors own sigma rounds log calls final h w c hc
  obtain ⟨a1, a2, -, -⟩ := h.asked w c hc
  have hcand := l3 (pack (dataFaults bp T log calls w) (effective bp H T log calls w)) (by rw [hq, a2]; rfl) (by
    intro i
    rw [time_pack, effective_last bp method H T hk bits zErrors own sigma rounds log calls final h w hw]
    rfl)
  rw [weightBy_pack W w0 hW] at hcand
  by_contra hlog
  rw [Bool.not_eq_false] at hlog
  have h1 := hd final hsyn hlog
  have h2 := final_le bp method H T hk bits zErrors own sigma rounds log calls final h w hw c hc hl
  have h3 : w0 * ((∑ r, wt (fun q => spaceCorrection (m := m) (answerOf bp c) q r) : ℕ) : ℝ) ≤ weightBy W (answerOf bp c) := by
    conv_rhs => rw [← pack_corrections (answerOf bp c), weightBy_pack W w0 hW]
    refine le_add_of_nonneg_right (Finset.sum_nonneg fun r _ => Finset.sum_nonneg fun i _ => ?_)
    split
    · exact hW0 _
    · exact le_rfl
  have h4 : (d : ℝ) ≤ ((∑ r, wt (dataFaults bp T log calls w r) : ℕ) : ℝ) +
      ((∑ r, wt (fun q => spaceCorrection (m := m) (answerOf bp c) q r) : ℕ) : ℝ) := by exact_mod_cast h1.trans h2
  have h5 := mul_le_mul_of_nonneg_left h4 hw0.le
  rw [mul_add] at h5
  linarith

/-- **C138**: a sample of one window in which fewer than half the distance many faults happen (data errors and wrong syndrome bits, in any
rounds) is always reported as a success, when the decoder answers its question with a lightest explanation. -/
theorem C138_one_window (hf : IsErfcInv f) (bp : Solver) (a : Args m n) (s : Sim k m n) (h : Reached bp f a s) (ha : a.analogTg = true)
    (h0 : 0 < a.syn) (h1 : a.syn < 1 / 2) (rounds : List (Draws m n)) (hr : rounds.length = k + 1) (d : ℕ)
    (hd : LogicalsAtLeast a.H a.L d) :
    ∃ q success c, s.sample bp rounds = .ok (q, success) ∧ q.log.length = rounds.length ∧ q.calls = [c] ∧
      (Lightest c (answerOf bp c) → 2 * faultCount a.H q.log < d → success = true ∧ apply a.H q.err = 0) := by
  obtain ⟨method, sigma, q, -, -, -, hs, hok⟩ := C116_sample hf bp a s h ha h0 h1 rounds
  have hk : k + 1 = 2 * ((k + 1) / 2) := by
    obtain ⟨s0, hist, fl, hn, -⟩ := h
    have := (new_eq hn).1
    omega
  obtain ⟨c, hc, -, hlast⟩ := C138_last_window bp method a.H _ hk _ _ _ _ rounds q.log q.calls q.err hok 0 (by omega) a.L d hd
  have hcalls : q.calls = [c] := by
    have h1 := (hok.windows 1).1
    have hlen : q.calls.length = 1 := by
      have := (hok.windows 0).2 (by omega)
      by_contra hne
      have := (hok.windows 1).1 (by omega)
      omega
    match hq : q.calls, hlen with
    | [c0], _ =>
      rw [hq] at hc
      simpa using hc
  refine ⟨q, _, c, hs, hok.length, hcalls, fun hl hfew => ?_⟩
  obtain ⟨r1, r2⟩ := hlast hl (by
    refine lt_of_eq_of_lt ?_ hfew
    congr 1
    unfold faultCount
    rw [hok.length, hr, ← Finset.sum_add_distrib, ← Fin.sum_univ_eq_sum_range (fun j => wt (newError q.log j) + wt (wrongBits a.H q.log j))]
    refine Finset.sum_congr rfl fun r _ => ?_
    have e1 : dataFaults bp ((k + 1) / 2) q.log q.calls 0 r = newError q.log r.val := by
      unfold dataFaults presentError newError
      simp [before]
    have e2 : effective bp a.H ((k + 1) / 2) q.log q.calls 0 r = wrongBits a.H q.log r.val := by
      unfold effective
      simp [blamed]
    rw [e1, e2])
  exact ⟨by rw [r2]; rfl, r1⟩

/-! ### The hypotheses can be met -/

theorem timeCorrection_last (b : Vec ((k + 1) * n + (k + 1) * m)) :
    (∀ i, timeCorrection b i (Fin.last k) = 0) ↔ ∀ j, (k + 1) * n + (k + 1) * m ≤ j.val + m → b j = 0 := by
  unfold timeCorrection
  constructor
  · intro h j hj
    have hj2 := j.isLt
    have h1 : (k + 1) * m = k * m + m := by ring
    have := h ⟨j.val - ((k + 1) * n + k * m), by omega⟩
    rw [← this]
    congr 1
    apply Fin.ext
    simp [finProdFinEquiv]
    have : m * k = k * m := Nat.mul_comm _ _
    omega
  · intro h i
    apply h
    simp [finProdFinEquiv]
    have : (k + 1) * m = k * m + m := by ring
    have : m * k = k * m := Nat.mul_comm _ _
    omega

/-- There is a decoder that gives lightest explanations for all codes with `m` checks. -/
theorem lightest_solver (m : ℕ) : ∃ bp : Solver, ∀ (k n : ℕ) (c : WCall k m n),
    (∃ b, apply c.pcm b = c.syn ∧ ∀ i, timeCorrection b i (Fin.last k) = 0) → Lightest c (answerOf bp c) := by
  classical
  have hex : ∀ (N M : ℕ) (pcm : Mat N M) (syn : Vec N), ∃ a : Vec M,
      (∃ b : Vec M, apply pcm b = syn ∧ ∀ j, M ≤ j.val + m → b j = 0) →
      (apply pcm a = syn ∧ ∀ j, M ≤ j.val + m → a j = 0) ∧ ∀ b, (apply pcm b = syn ∧ ∀ j, M ≤ j.val + m → b j = 0) → wt a ≤ wt b := by
    intro N M pcm syn
    by_cases h : ∃ b : Vec M, apply pcm b = syn ∧ ∀ j, M ≤ j.val + m → b j = 0
    · have hn : ∃ w, ∃ b : Vec M, (apply pcm b = syn ∧ ∀ j, M ≤ j.val + m → b j = 0) ∧ wt b = w := by
        obtain ⟨b, hb⟩ := h
        exact ⟨_, b, hb, rfl⟩
      obtain ⟨a, ha, hw⟩ := Nat.find_spec hn
      refine ⟨a, fun _ => ⟨ha, fun b hb => ?_⟩⟩
      rw [hw]
      exact Nat.find_min' hn ⟨b, hb, rfl⟩
    · exact ⟨0, fun h' => absurd h' h⟩
  choose g hg using hex
  refine ⟨fun N M pcm _ syn => g N M pcm syn, fun k n c ⟨b, hb1, hb2⟩ => ?_⟩
  obtain ⟨⟨r1, r2⟩, r3⟩ := hg _ _ c.pcm c.syn ⟨b, hb1, (timeCorrection_last b).1 hb2⟩
  exact ⟨r1, (timeCorrection_last _).2 r2, fun b h1 h2 => r3 b ⟨h1, (timeCorrection_last b).1 h2⟩⟩

/-- The repetition code of distance three with windows of four rounds: with a lightest-explanation decoder, every sample of four rounds
with at most one fault is a success. -/
example (hf : IsErfcInv f) : ∃ bp : Solver, ∃ s : Sim 3 2 3, ∀ rounds : List (Draws 2 3), rounds.length = 4 →
    ∃ q success, s.sample bp rounds = .ok (q, success) ∧ (faultCount ![![1, 1, 0], ![0, 1, 1]] q.log ≤ 1 → success = true) := by
  obtain ⟨bp, hbp⟩ := lightest_solver 2
  obtain ⟨s, h1, h2, h3⟩ := repetition_reached (f := f) bp ['b', 'p', 'o', 's', 'd'] (.inl rfl)
  refine ⟨bp, s, fun rounds hr => ?_⟩
  have hd : LogicalsAtLeast (![![1, 1, 0], ![0, 1, 1]] : Mat 2 3) [![1, 0, 0]] 3 := by unfold LogicalsAtLeast; decide +kernel
  obtain ⟨q, success, c, e1, e2, e3, e4⟩ := C138_one_window hf bp (repetition ['b', 'p', 'o', 's', 'd']) s h1 rfl (by rw [h3]; norm_num)
    (by rw [h3]; norm_num) rounds hr 3 hd
  refine ⟨q, success, e1, fun hfc => (e4 (hbp _ _ c ?_) ?_).1⟩
  · obtain ⟨method, sigma, q', -, -, -, hs, hok⟩ := C116_sample hf bp (repetition ['b', 'p', 'o', 's', 'd']) s h1 rfl (by rw [h3]; norm_num)
      (by rw [h3]; norm_num) rounds
    rw [e1] at hs
    obtain ⟨rfl, -⟩ := Prod.mk.inj (Except.ok.inj hs)
    have hc : q.calls[0]? = some c := by rw [e3]; rfl
    exact candidate bp method _ 2 rfl _ _ _ _ rounds q.log q.calls q.err hok 0 (by omega) c hc
  · change 2 * faultCount ![![1, 1, 0], ![0, 1, 1]] q.log < 3
    omega

end Verif.Qss
