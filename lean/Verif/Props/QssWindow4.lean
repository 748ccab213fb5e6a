import Verif.Props.QssWindow3

/-!
# C138: in a sample with several windows, fewer faults than half the distance are not enough
-/

namespace Verif.Qss
open Verif Analog AnalogTanner Gauss

variable {f : ℝ → ℝ}

/-! ### Specification -/

/-- The bound of one window, claimed for samples of any number of windows: fewer faults than half the distance and lightest explanations
make the sample a success. -/
def C138_claim : Prop := ∀ (f : ℝ → ℝ) (k m n : ℕ), IsErfcInv f → ∀ (bp : Solver) (a : Args m n) (s : Sim k m n), Reached bp f a s →
  a.analogTg = true → 0 < a.syn → a.syn < 1 / 2 → ∀ (rounds : List (Draws m n)) (q : State k m n) (success : Bool),
  s.sample bp rounds = .ok (q, success) → ∀ d, LogicalsAtLeast a.H a.L d →
  (∃ W, rounds.length = (W + 2) * ((k + 1) / 2)) → (∀ c ∈ q.calls, LightestAnswer c (answerOf bp c)) →
  2 * (∑ j ∈ Finset.range rounds.length, roundFaults bp a.H ((k + 1) / 2) q.log q.calls j) < d → success = true

/-! ### Lemmas -/

theorem apply_support {a b : ℕ} (P : Mat a b) (v : Vec b) (r : Fin a) : apply P v r = ∑ i ∈ Finset.univ.filter (fun i => v i ≠ 0), P r i := by
  unfold apply
  rw [Finset.sum_filter]
  refine Finset.sum_congr rfl fun i _ => ?_
  have h01 : ∀ x : ZMod 2, x = 0 ∨ x = 1 := by decide
  rcases h01 (v i) with h | h
  · rw [h, if_neg (by simp), mul_zero]
  · rw [h, if_pos (by decide), mul_one]

theorem apply_wt {a b : ℕ} (P : Mat a b) (v : Vec b) :
    (wt v = 0 → apply P v = 0) ∧ (wt v = 1 → ∃ i, v i ≠ 0 ∧ apply P v = fun r => P r i) ∧
      (wt v = 2 → ∃ i j, v i ≠ 0 ∧ v j ≠ 0 ∧ apply P v = fun r => P r i + P r j) := by
  refine ⟨fun h => ?_, fun h => ?_, fun h => ?_⟩
  · unfold wt at h
    rw [Finset.card_eq_zero] at h
    funext r
    rw [apply_support, h]
    rfl
  · unfold wt at h
    obtain ⟨i, hi⟩ := Finset.card_eq_one.1 h
    have : i ∈ Finset.univ.filter (fun i => v i ≠ 0) := by rw [hi]; exact Finset.mem_singleton_self i
    refine ⟨i, (Finset.mem_filter.1 this).2, funext fun r => ?_⟩
    rw [apply_support, hi, Finset.sum_singleton]
  · unfold wt at h
    obtain ⟨i, j, hij, hi⟩ := Finset.card_eq_two.1 h
    have m1 : i ∈ Finset.univ.filter (fun i => v i ≠ 0) := by rw [hi]; simp
    have m2 : j ∈ Finset.univ.filter (fun i => v i ≠ 0) := by rw [hi]; simp
    refine ⟨i, j, (Finset.mem_filter.1 m1).2, (Finset.mem_filter.1 m2).2, funext fun r => ?_⟩
    rw [apply_support, hi, Finset.sum_pair hij]

/-- The repetition code of seven bits. -/
def seven : Mat 6 7 := fun i q => if q.val = i.val ∨ q.val = i.val + 1 then 1 else 0

/-- Its constructor arguments: bit flips of rate `1 / 10`, wrong syndrome bits of rate `1 / 5`. -/
noncomputable def sevenArgs : Args 6 7 where
  H := seven
  per := 1 / 10
  ser := 1 / 5
  L := [![1, 0, 0, 0, 0, 0, 0]]
  bx := none
  bY := some 0
  bz := some 0
  method := ['b', 'p', 'o', 's', 'd']
  xSide := false
  analogTg := true

/-- A decoder that knows four questions. -/
def tricky : Solver := fun N _ _ _ syn j =>
  let q := ((List.finRange N).filter fun i => decide (syn i ≠ 0)).map Fin.val
  let l : List ℕ := if q = [1] then [0, 1] else if q = [7, 9] then [21, 23] else if q = [1, 3, 9] then [2, 3, 23] else if q = [3] then [4, 5, 6] else []
  if j.val ∈ l then 1 else 0

/-- The wrong syndrome bits: bit one in the rounds zero and one, bit three in round two. -/
def wrong (j : ℕ) : Vec 6 := fun i => if (j = 0 ∧ i.val = 1) ∨ (j = 1 ∧ i.val = 1) ∨ (j = 2 ∧ i.val = 3) then 1 else 0

/-- The draws of round `j`: no data errors. -/
noncomputable def trickyDraw (sigma : ℝ) (j : ℕ) : Draws 6 7 where
  u := fun _ => 1
  g := fun i => if wrong j i ≠ 0 then -2 / sigma else 0

theorem measured_bits {sigma : ℝ} (hs : 0 < sigma) (v : Vec 6) (j : ℕ) (h : ∀ i, wrong j i ≠ 0 → v i = 0) :
    binaryFromAnalog (noisyAnalog v sigma (trickyDraw sigma j).g) = v + wrong j := by
  have h01 : ∀ x : ZMod 2, x = 0 ∨ x = 1 := by decide
  have key : ∀ (x : ℝ) (b : ZMod 2), (x ≤ 0 ↔ b = 1) → (if x ≤ 0 then (1 : ZMod 2) else 0) = b := by
    intro x b hx
    by_cases h : x ≤ 0
    · rw [if_pos h, hx.1 h]
    · rw [if_neg h, (h01 b).resolve_right fun hb => h (hx.2 hb)]
  funext i
  refine key _ _ ?_
  unfold noisyAnalog trickyDraw
  simp only [Pi.add_apply]
  by_cases hw : wrong j i = 0
  · rw [if_neg (not_not.2 hw), hw, mul_zero, add_zero, add_zero]
    rcases h01 (v i) with h | h <;> rw [h] <;> norm_num
  · rw [h i hw, if_pos hw, (h01 (wrong j i)).resolve_left hw, if_pos rfl, mul_div_cancel₀ _ hs.ne']
    norm_num

theorem no_data (x z : Vec 7) : generateErr (fun _ => ((1 / 10 : ℝ), (0 : ℝ), (0 : ℝ)).1) (fun _ => ((1 / 10 : ℝ), (0 : ℝ), (0 : ℝ)).2.1)
    (fun _ => ((1 / 10 : ℝ), (0 : ℝ), (0 : ℝ)).2.2) (fun _ => 1) x z = (x, z) := by
  unfold generateErr stepErr
  norm_num

/-- The residual error of round `j`. -/
def residual (j : ℕ) : Vec 7 := fun q => if (2 ≤ j ∧ q.val < 2) ∨ (4 ≤ j ∧ q.val < 4) then 1 else 0

/-- The question of window `w`. -/
def question (w : ℕ) : Vec (2 * 6) := fun x =>
  if x.val ∈ (match w with | 0 => [1] | 1 => [7, 9] | 2 => [1, 3, 9] | _ => [3] : List ℕ) then 1 else 0

/-- The answer to window `w`. -/
def reply (w : ℕ) : Vec (2 * 7 + 2 * 6) := fun x =>
  if x.val ∈ (match w with | 0 => [0, 1] | 1 => [21, 23] | 2 => [2, 3, 23] | _ => [4, 5, 6] : List ℕ) then 1 else 0

theorem reply_eq : ∀ w < 4, ∀ (P : Mat (2 * 6) (2 * 7 + 2 * 6)) (s : Soft (2 * 7 + 2 * 6)), tricky (2 * 6) (2 * 7 + 2 * 6) P s (question w) = reply w := by
  intro w hw P s
  interval_cases w <;> funext x <;> unfold tricky <;> revert x <;> decide +kernel

theorem reply_ok : ∀ w < 4, apply (buildMultiroundPcm seven 1) (reply w) = question w := by
  decide +kernel

theorem pairs : (∀ i j : Fin (2 * 7 + 2 * 6), (fun r => buildMultiroundPcm seven 1 r i + buildMultiroundPcm seven 1 r j) ≠ question 2) ∧
    (∀ i j : Fin (2 * 7 + 2 * 6), i.val < 20 → j.val < 20 → (fun r => buildMultiroundPcm seven 1 r i + buildMultiroundPcm seven 1 r j) ≠ question 3) ∧
    (∀ w < 3, ∀ i : Fin (2 * 7 + 2 * 6), (fun r => buildMultiroundPcm seven 1 r i) ≠ question w) ∧
    (∀ i : Fin (2 * 7 + 2 * 6), i.val < 20 → (fun r => buildMultiroundPcm seven 1 r i) ≠ question 3) ∧ ∀ w < 4, question w ≠ 0 := by
  decide +kernel

theorem reply_light (w : ℕ) (hw : w < 4) (c : WCall 1 6 7) (hl : c.last = decide (w = 3)) (hp : c.pcm = buildMultiroundPcm seven 1)
    (hs : c.syn = question w) : answerOf tricky c = reply w ∧ LightestAnswer c (answerOf tricky c) := by
  obtain ⟨p2, p3, p1, p1', p0⟩ := pairs
  have ha : answerOf tricky c = reply w := by
    unfold answerOf
    rw [hs]
    exact reply_eq w hw _ _
  refine ⟨ha, ?_⟩
  rw [ha]
  have ok := reply_ok w hw
  have hn : ∀ b, apply (buildMultiroundPcm seven 1) b = question w → wt b ≠ 0 := fun b hb h0 =>
    p0 w hw (hb.symm.trans ((apply_wt _ b).1 h0))
  unfold LightestAnswer Lightest
  rw [hp, hs, hl]
  interval_cases w
  · rw [if_neg (by decide)]
    refine ⟨ok, fun b hb => ?_⟩
    have h1 : wt b ≠ 1 := fun h1 => by
      obtain ⟨i, -, hi⟩ := (apply_wt (buildMultiroundPcm seven 1) b).2.1 h1
      exact p1 0 (by omega) i (hi.symm.trans hb)
    have e : wt (reply 0) = 2 := by decide +kernel
    have := hn b hb
    omega
  · rw [if_neg (by decide)]
    refine ⟨ok, fun b hb => ?_⟩
    have h1 : wt b ≠ 1 := fun h1 => by
      obtain ⟨i, -, hi⟩ := (apply_wt (buildMultiroundPcm seven 1) b).2.1 h1
      exact p1 1 (by omega) i (hi.symm.trans hb)
    have e : wt (reply 1) = 2 := by decide +kernel
    have := hn b hb
    omega
  · rw [if_neg (by decide)]
    refine ⟨ok, fun b hb => ?_⟩
    have h1 : wt b ≠ 1 := fun h1 => by
      obtain ⟨i, -, hi⟩ := (apply_wt (buildMultiroundPcm seven 1) b).2.1 h1
      exact p1 2 (by omega) i (hi.symm.trans hb)
    have h2 : wt b ≠ 2 := fun h1 => by
      obtain ⟨i, j, -, -, hi⟩ := (apply_wt (buildMultiroundPcm seven 1) b).2.2 h1
      exact p2 i j (hi.symm.trans hb)
    have e : wt (reply 2) = 3 := by decide +kernel
    have := hn b hb
    omega
  · rw [if_pos (by decide)]
    refine ⟨ok, by decide +kernel, fun b hb hr => ?_⟩
    have hz := (timeCorrection_last b).1 hr
    have hlt : ∀ i : Fin (2 * 7 + 2 * 6), b i ≠ 0 → i.val < 20 := fun i hi => by
      by_contra hge
      exact hi (hz i (by omega))
    have h1 : wt b ≠ 1 := fun h1 => by
      obtain ⟨i, g1, hi⟩ := (apply_wt (buildMultiroundPcm seven 1) b).2.1 h1
      exact p1' i (hlt i g1) (hi.symm.trans hb)
    have h2 : wt b ≠ 2 := fun h1 => by
      obtain ⟨i, j, g1, g2, hi⟩ := (apply_wt (buildMultiroundPcm seven 1) b).2.2 h1
      exact p3 i j (hlt i g1) (hlt j g2) (hi.symm.trans hb)
    have e : wt (reply 3) = 3 := by decide +kernel
    have := hn b hb
    omega

/-- What happens in the sample. -/
theorem tricky_sample (method : Method) (own sigma : ℝ) (hs : 0 < sigma) (log : List (Vec 7 × (Fin 6 → ℝ))) (calls : List (WCall 1 6 7))
    (final : Vec 7) (h : SampleOk tricky method seven 1 (1 / 10, 0, 0) false own sigma ((List.range 5).map (trickyDraw sigma)) log calls final) :
    (∀ c ∈ calls, LightestAnswer c (answerOf tricky c)) ∧ final = (fun _ => 1) ∧
      ∀ j < 5, freshError tricky 1 log calls j = 0 ∧ wrongBits seven log j = wrong j := by
  have hlen : calls.length = 4 := by
    have a1 := h.windows 3
    have a2 := h.windows 4
    simp only [List.length_map, List.length_range] at a1 a2
    omega
  obtain ⟨c0, c1, c2, c3, hc⟩ : ∃ c0 c1 c2 c3, calls = [c0, c1, c2, c3] := by
    match calls, hlen with
    | [c0, c1, c2, c3], _ => exact ⟨c0, c1, c2, c3, rfl⟩
  have hcalls : ∀ w (hw : w < 4), ∃ c, calls[w]? = some c := fun w hw => ⟨calls[w], List.getElem?_eq_getElem (by omega)⟩
  have hd : ∀ j < 5, ((List.range 5).map (trickyDraw sigma))[j]? = some (trickyDraw sigma j) := by
    intro j hj
    simp [List.getElem?_range hj]
  have hfresh : ∀ j < 5, errorAt log j = residualBefore tricky 1 log calls j := by
    intro j hj
    have := h.errors j _ (hd j hj)
    rw [this]
    exact congrArg Prod.fst (no_data _ _)
  have hval : ∀ j < 5, ∀ e, errorAt log j = e → (∀ i, wrong j i ≠ 0 → apply seven e i = 0) →
      binaryFromAnalog (valuesAt log j) = apply seven e + wrong j := by
    intro j hj e he hz
    rw [h.values j _ (hd j hj), he]
    split
    · rename_i h5
      simp only [List.length_map, List.length_range] at h5
      have : j = 4 := by omega
      subst this
      rw [binary_noiseless]
      have : wrong 4 = 0 := by decide +kernel
      rw [this, add_zero]
    · exact measured_bits hs _ _ hz
  have hcor : ∀ j, correctionAt tricky 1 calls (j + 1) = ((calls[j]?).map (correction tricky 1)).getD 0 := by
    intro j
    unfold correctionAt
    rw [if_pos ⟨by omega, one_dvd _⟩]
    simp
  have hask : ∀ w (hw : w < 4) c, calls[w]? = some c → c.last = decide (w = 3) ∧ c.pcm = buildMultiroundPcm seven 1 ∧
      c.syn = flattenF (diffSyndrome (windowBits tricky seven 1 log calls w)) := by
    intro w hw c hcw
    obtain ⟨b1, b2, -, b4⟩ := h.asked w c hcw
    refine ⟨?_, b2, b4⟩
    rw [b1]
    simp only [List.length_map, List.length_range]
    congr 1
    apply propext
    omega
  have k0 : calls[0]? = some c0 := by rw [hc]; rfl
  have k1 : calls[1]? = some c1 := by rw [hc]; rfl
  have k2 : calls[2]? = some c2 := by rw [hc]; rfl
  have k3 : calls[3]? = some c3 := by rw [hc]; rfl
  have step : ∀ w (hw : w < 4) c, calls[w]? = some c → ∀ v0 v1 : Vec 6, binaryFromAnalog (valuesAt log w) = v0 →
      binaryFromAnalog (valuesAt log (w + 1)) = v1 →
      (flattenF (diffSyndrome (fun i (r : Fin 2) => if r.val = 0 then v0 i + carried tricky seven 1 calls 0 w i else v1 i)) : Vec (2 * 6)) = question w →
      answerOf tricky c = reply w ∧ LightestAnswer c (answerOf tricky c) ∧ c.last = decide (w = 3) := by
    intro w hw c hcw v0 v1 hv0 hv1 hq
    obtain ⟨b1, b2, b3⟩ := hask w hw c hcw
    obtain ⟨r1, r2⟩ := reply_light w hw c b1 b2 (by
      rw [b3, ← hq]
      congr 2
      funext i r
      unfold windowBits
      obtain ⟨r, hr⟩ := r
      simp only
      rcases (show r = 0 ∨ r = 1 by omega) with rfl | rfl
      · rw [if_pos (by omega), if_pos rfl, ← hv0]
        simp
      · rw [if_neg (by omega), if_neg (by omega), ← hv1]
        simp)
    exact ⟨r1, r2, b1⟩
  have cor : ∀ c w, answerOf tricky c = reply w → c.last = decide (w = 3) → correction tricky 1 c =
      fun q => ∑ r : Fin 2, if decide (w = 3) = true ∨ r.val < 1 then spaceCorrection (m := 6) (reply w) q r else 0 := by
    intro c w h1 h2
    unfold correction
    rw [h1, h2]
  have flip : ∀ c w, answerOf tricky c = reply w → timeFlip tricky 1 c =
      fun i => ∑ r : Fin 2, if r.val + 1 = 1 then timeCorrection (n := 7) (reply w) i r else 0 := by
    intro c w h1
    unfold timeFlip
    rw [h1]
  have car : ∀ w c, calls[w]? = some c → carried tricky seven 1 calls 0 (w + 1) = apply seven (correction tricky 1 c) + timeFlip tricky 1 c := by
    intro w c hcw
    simp only [carried, hcw, if_true]
  -- round by round
  have e0 : errorAt log 0 = 0 := hfresh 0 (by omega)
  have e1 : errorAt log 1 = 0 := by
    rw [hfresh 1 (by omega)]
    simp only [residualBefore, e0, correctionAt]
    rfl
  have v0 := hval 0 (by omega) 0 e0 (by decide +kernel)
  have v1 := hval 1 (by omega) 0 e1 (by decide +kernel)
  obtain ⟨a0, l0, t0⟩ := step 0 (by omega) c0 k0 _ _ v0 v1 (by simp only [carried]; decide +kernel)
  have e2 : errorAt log 2 = residual 2 := by
    rw [hfresh 2 (by omega)]
    simp only [residualBefore]
    rw [e1, hcor 0, k0, Option.map_some, Option.getD_some, cor c0 0 a0 t0]
    decide +kernel
  have v2 := hval 2 (by omega) _ e2 (by decide +kernel)
  obtain ⟨a1, l1, t1⟩ := step 1 (by omega) c1 k1 _ _ v1 v2 (by
    rw [car 0 c0 k0, cor c0 0 a0 t0, flip c0 0 a0]; decide +kernel)
  have e3 : errorAt log 3 = residual 3 := by
    rw [hfresh 3 (by omega)]
    simp only [residualBefore]
    rw [e2, hcor 1, k1, Option.map_some, Option.getD_some, cor c1 1 a1 t1]
    decide +kernel
  have v3 := hval 3 (by omega) _ e3 (by decide +kernel)
  obtain ⟨a2, l2, t2⟩ := step 2 (by omega) c2 k2 _ _ v2 v3 (by
    rw [car 1 c1 k1, cor c1 1 a1 t1, flip c1 1 a1]; decide +kernel)
  have e4 : errorAt log 4 = residual 4 := by
    rw [hfresh 4 (by omega)]
    simp only [residualBefore]
    rw [e3, hcor 2, k2, Option.map_some, Option.getD_some, cor c2 2 a2 t2]
    decide +kernel
  have v4 := hval 4 (by omega) _ e4 (by decide +kernel)
  obtain ⟨a3, l3, t3⟩ := step 3 (by omega) c3 k3 _ _ v3 v4 (by
    rw [car 2 c2 k2, cor c2 2 a2 t2, flip c2 2 a2]; decide +kernel)
  refine ⟨?_, ?_, ?_⟩
  · intro c hm
    rw [hc] at hm
    simp only [List.mem_cons, List.not_mem_nil, or_false] at hm
    rcases hm with rfl | rfl | rfl | rfl
    · exact l0
    · exact l1
    · exact l2
    · exact l3
  · rw [h.after]
    simp only [List.length_map, List.length_range, residualBefore]
    rw [e4, hcor 3, k3, Option.map_some, Option.getD_some, cor c3 3 a3 t3]
    decide +kernel
  · intro j hj
    refine ⟨?_, ?_⟩
    · unfold freshError
      rw [hfresh j hj]
      funext q
      exact add_self_eq_zero' _
    · unfold wrongBits
      have c2 : ∀ x y : ZMod 2, x + y + x = y := by decide
      interval_cases j
      · rw [v0, e0]; funext i; exact c2 _ _
      · rw [v1, e1]; funext i; exact c2 _ _
      · rw [v2, e2]; funext i; exact c2 _ _
      · rw [v3, e3]; funext i; exact c2 _ _
      · rw [v4, e4]; funext i; exact c2 _ _

/-- **C138** does not hold with the bound of one window when there are several windows: for the repetition code of distance seven with
windows of two rounds, three wrong syndrome bits in five rounds, no data errors, and lightest explanations of every window end in a
logical error. -/
theorem C138_violated_windows : ¬ C138_claim := by
  intro hC
  obtain ⟨f, hf⟩ := exists_isErfcInv
  have hsyn : sevenArgs.syn = 1 / 5 := by norm_num [Args.syn, sevenArgs, channelSetup]
  obtain ⟨sigma, p1, p2, -⟩ := sigma_pos hf (r := sevenArgs.syn) (by rw [hsyn]; norm_num) (by rw [hsyn]; norm_num)
  obtain ⟨s0, hs0⟩ : ∃ s0 : Sim 1 6 7, Sim.new f 1 sevenArgs = .ok s0 := by
    unfold Sim.new
    exact ⟨_, rfl⟩
  have hre : Reached tricky f sevenArgs s0 := ⟨s0, [], [], hs0, rfl⟩
  obtain ⟨method, q, -, hs, hok⟩ := sample_ok tricky sevenArgs s0 hre rfl sigma p1 p2 ((List.range 5).map (trickyDraw sigma))
  change SampleOk tricky method seven 1 (1 / 10, 0, 0) false sevenArgs.own sigma _ q.log q.calls q.err at hok
  obtain ⟨r1, r2, r3⟩ := tricky_sample method _ sigma p1 _ _ _ hok
  have hd : LogicalsAtLeast seven [![1, 0, 0, 0, 0, 0, 0]] 7 := by unfold LogicalsAtLeast; decide +kernel
  have := hC f 1 6 7 hf tricky sevenArgs s0 hre rfl (by rw [hsyn]; norm_num) (by rw [hsyn]; norm_num) _ q _ hs 7 hd ⟨3, rfl⟩ r1 (by
    change 2 * (∑ j ∈ Finset.range _, roundFaults tricky seven 1 q.log q.calls j) < 7
    have : ∀ j < 5, roundFaults tricky seven 1 q.log q.calls j = wt (wrong j) := by
      intro j hj
      unfold roundFaults
      rw [(r3 j hj).1, (r3 j hj).2, show wt (0 : Vec 7) = 0 by decide, zero_add]
    simp only [List.length_map, List.length_range]
    rw [Finset.sum_congr rfl fun j hj => this j (Finset.mem_range.1 hj)]
    decide +kernel)
  rw [r2] at this
  revert this
  change (!isLogicalErr [![1, 0, 0, 0, 0, 0, 0]] (fun _ => 1 : Vec 7)) ≠ true
  decide

end Verif.Qss
