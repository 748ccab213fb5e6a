import Verif.Props.Analog
import Mathlib.LinearAlgebra.Matrix.Rank

/-! # C41 - C44: noise, syndromes, logical errors of the analog simulators -/

namespace Verif.Analog
open Verif

variable {m n l : ℕ}

/-- The four Pauli letters. -/
inductive Letter
  | I | X | Y | Z
deriving DecidableEq

/-- Does the letter flip in the X (bit-flip) part? -/
def Letter.x : Letter → ZMod 2
  | .X | .Y => 1
  | _ => 0

/-- Does the letter flip in the Z (phase-flip) part? -/
def Letter.z : Letter → ZMod 2
  | .Z | .Y => 1
  | _ => 0

/-- **C41**: for every draw, `generate_err` adds to the residual one Pauli letter per qubit; the letter is Z, X, Y or I
according to consecutive intervals of lengths `pz`, `px`, `py` and the rest. -/
theorem C41_generate_err (px py pz u : Fin n → ℚ) (x z : Vec n) (hx : ∀ i, 0 ≤ px i) (hy : ∀ i, 0 ≤ py i) :
    ∃ P : Fin n → Letter,
      generateErr px py pz u x z = (fun i => x i + (P i).x, fun i => z i + (P i).z) ∧
      ∀ i, (P i = .Z ↔ u i < pz i) ∧ (P i = .X ↔ pz i ≤ u i ∧ u i < pz i + px i) ∧
        (P i = .Y ↔ pz i + px i ≤ u i ∧ u i < pz i + px i + py i) ∧ (P i = .I ↔ pz i + px i + py i ≤ u i) := by
  refine ⟨fun i => if u i < pz i then .Z else if u i < pz i + px i then .X
    else if u i < pz i + px i + py i then .Y else .I, ?_, ?_⟩
  · unfold generateErr
    refine Prod.ext ?_ ?_
    all_goals
      funext i
      simp only [stepErr]
      have e : px i + py i + pz i = pz i + px i + py i := by ring
      rw [e]
      by_cases h1 : u i < pz i
      · simp [h1, Letter.x, Letter.z]
      · by_cases h2 : u i < pz i + px i
        · have : pz i ≤ u i := not_lt.1 h1
          simp [h1, h2, this, Letter.x, Letter.z]
        · by_cases h3 : u i < pz i + px i + py i
          · have h4 : pz i + px i ≤ u i := not_lt.1 h2
            simp [h1, h2, h3, h4, Letter.x, Letter.z]
          · simp [h1, h2, h3, Letter.x, Letter.z]
  · intro i
    have hx := hx i
    have hy := hy i
    simp only
    by_cases h1 : u i < pz i
    · rw [if_pos h1]
      refine ⟨⟨fun _ => h1, fun _ => rfl⟩, ⟨fun h => by simp at h, fun h => absurd h1 (not_lt.2 h.1)⟩,
        ⟨fun h => by simp at h, fun h => by linarith [h.1]⟩, ⟨fun h => by simp at h, fun h => by linarith⟩⟩
    · rw [if_neg h1]
      have h1' := not_lt.1 h1
      by_cases h2 : u i < pz i + px i
      · rw [if_pos h2]
        refine ⟨⟨fun h => by simp at h, fun h => absurd h h1⟩, ⟨fun _ => ⟨h1', h2⟩, fun _ => rfl⟩,
          ⟨fun h => by simp at h, fun h => by linarith [h.1]⟩, ⟨fun h => by simp at h, fun h => by linarith⟩⟩
      · rw [if_neg h2]
        have h2' := not_lt.1 h2
        by_cases h3 : u i < pz i + px i + py i
        · rw [if_pos h3]
          refine ⟨⟨fun h => by simp at h, fun h => absurd h h1⟩, ⟨fun h => by simp at h, fun h => absurd h.2 h2⟩,
            ⟨fun _ => ⟨h2', h3⟩, fun _ => rfl⟩, ⟨fun h => by simp at h, fun h => by linarith⟩⟩
        · rw [if_neg h3]
          refine ⟨⟨fun h => by simp at h, fun h => absurd h h1⟩, ⟨fun h => by simp at h, fun h => absurd h.2 h2⟩,
            ⟨fun h => by simp at h, fun h => absurd h.2 h3⟩, ⟨fun _ => not_lt.1 h3, fun _ => rfl⟩⟩

example : generateErr (K := ℚ) (n := 4) (fun _ => 3 / 10) (fun _ => 3 / 10) (fun _ => 3 / 10) ![1 / 10, 4 / 10, 8 / 10, 95 / 100]
    ![0, 1, 1, 1] 0 = (![0, 0, 0, 1], ![1, 0, 1, 0]) := by
  decide +kernel

/-- **C41**: `error_channel_setup` splits the rate in proportion to finite biases; the shares add up to the rate. -/
theorem C41_channel_finite (rate x y z : ℚ) (h : x + y + z ≠ 0) :
    ∃ px py pz, channelSetup rate (some x) (some y) (some z) = (px, py, pz) ∧ px + py + pz = rate ∧
      px * (x + y + z) = rate * x ∧ py * (x + y + z) = rate * y ∧ pz * (x + y + z) = rate * z := by
  refine ⟨_, _, _, rfl, ?_, ?_, ?_, ?_⟩
  · rw [← add_div, ← add_div, div_eq_iff h]; ring
  all_goals rw [div_mul_cancel₀ _ h]

/-- **C41**: non-negative rates from non-negative biases. -/
theorem C41_channel_nonneg (rate : ℚ) (hr : 0 ≤ rate) (bx bY bz : Option ℚ) (hx : ∀ b ∈ bx, 0 ≤ b) (hy : ∀ b ∈ bY, 0 ≤ b)
    (hz : ∀ b ∈ bz, 0 ≤ b) :
    0 ≤ (channelSetup rate bx bY bz).1 ∧ 0 ≤ (channelSetup rate bx bY bz).2.1 ∧ 0 ≤ (channelSetup rate bx bY bz).2.2 := by
  cases bx with
  | none => exact ⟨hr, le_refl _, le_refl _⟩
  | some x =>
    cases bY with
    | none => exact ⟨le_refl _, hr, le_refl _⟩
    | some y =>
      cases bz with
      | none => exact ⟨le_refl _, le_refl _, hr⟩
      | some z =>
        have h1 := hx x rfl
        have h2 := hy y rfl
        have h3 := hz z rfl
        have hs : 0 ≤ x + y + z := by linarith
        exact ⟨div_nonneg (mul_nonneg hr h1) hs, div_nonneg (mul_nonneg hr h2) hs, div_nonneg (mul_nonneg hr h3) hs⟩

/-- **C41**: an infinite bias gives the whole rate to one error type (the first infinite one in the order X, Y, Z). -/
theorem C41_channel_infinite (rate : ℚ) (bY bz : Option ℚ) (x y : ℚ) :
    channelSetup rate none bY bz = (rate, 0, 0) ∧ channelSetup rate (some x) none bz = (0, rate, 0) ∧
      channelSetup rate (some x) (some y) none = (0, 0, rate) := ⟨rfl, rfl, rfl⟩

example : channelSetup (K := ℚ) (3 / 10) (some 1) (some 2) (some 3) = (1 / 20, 1 / 10, 3 / 20) := by decide +kernel

/-- **C41**: a syndrome bit is flipped exactly when its draw is below its rate. -/
theorem C41_syndrome_noise (p u : Fin m → ℚ) (i : Fin m) : generateSyndrErr p u i = 1 ↔ u i < p i := by
  unfold generateSyndrErr
  split <;> simp [*]

/-- **C42**: thresholding the signed form of a binary syndrome gives it back. -/
theorem C42_roundtrip (s : Vec m) : binaryFromAnalog (fun i => (signedFromBinary s i : ℚ)) = s := by
  funext i
  unfold binaryFromAnalog signedFromBinary
  rcases zmod2_cases (s i) with h | h
  · simp [h]
  · simp [h]

/-- **C42**: signed entries are +1 for satisfied and -1 for violated checks. -/
theorem C42_signed (s : Vec m) (i : Fin m) : (signedFromBinary s i = 1 ↔ s i = 0) ∧ (signedFromBinary s i = -1 ↔ s i = 1) := by
  unfold signedFromBinary
  rcases zmod2_cases (s i) with h | h <;> rw [h] <;> simp

/-- **C42**: the sign of an analog value decides the bit. -/
theorem C42_sign (a : Fin m → ℚ) (i : Fin m) : (binaryFromAnalog a i = 0 ↔ 0 < a i) ∧ (binaryFromAnalog a i = 1 ↔ a i ≤ 0) := by
  unfold binaryFromAnalog
  by_cases h : a i ≤ 0
  · rw [if_pos h]; simp [h, not_lt.2 h]
  · rw [if_neg h]; simp [h, lt_of_not_ge h]

/-- **C42**: the binary version of a noisy analog syndrome differs from the true bit exactly when the noise carries the
value across zero. -/
theorem C42_noisy (s : Vec m) (sigma : ℚ) (g : Fin m → ℚ) (i : Fin m) :
    binaryFromAnalog (noisyAnalog s sigma g) i = s i ↔ if s i = 0 then -1 < sigma * g i else sigma * g i ≤ 1 := by
  unfold binaryFromAnalog noisyAnalog
  rcases zmod2_cases (s i) with h | h
  · simp only [h, if_pos]
    by_cases h2 : 1 + sigma * g i ≤ 0
    · rw [if_pos h2]; simp; linarith
    · rw [if_neg h2]; simp; linarith
  · simp only [h, one_ne_zero, if_false]
    by_cases h2 : -1 + sigma * g i ≤ 0
    · rw [if_pos h2]; simp; linarith
    · rw [if_neg h2]; simp; linarith

/-- **C42**: without noise the syndrome is exact. -/
theorem C42_noiseless (s : Vec m) (g : Fin m → ℚ) : binaryFromAnalog (noisyAnalog s 0 g) = s := by
  funext i
  rw [C42_noisy]
  split <;> norm_num

example : binaryFromAnalog (m := 3) (noisyAnalog (K := ℚ) ![0, 1, 1] (1 / 2) ![1, -3, 5]) = ![0, 1, 0] := by decide +kernel

theorem apply_eye (v : Vec m) (i : Fin m) : apply (eye m) v i = v i := by
  unfold apply eye
  rw [Finset.sum_eq_single i]
  · simp
  · intro j _ hj; simp [hj.symm]
  · simp

/-- **C43**: `(e, f)` explains the syndrome `s` with the analog Tanner graph `[H | I]` exactly when `H e + f = s`. -/
theorem C43_analog_pcm (H : Mat m n) (e : Vec n) (f s : Vec m) :
    apply (analogPcm H) (Fin.append e f) = s ↔ ∀ i, apply H e i + f i = s i := by
  rw [funext_iff]
  refine forall_congr' fun i => ?_
  unfold analogPcm
  rw [apply_append, apply_eye]

/-- **C43**: `(e, f)` explains the syndrome `s` and meta-syndrome `t` with the single-stage matrix exactly when
`H e + f = s` and `M f = t`. -/
theorem C43_single_stage (H : Mat m n) (M : Mat l m) (e : Vec n) (f s : Vec m) (t : Vec l) :
    apply (singleStagePcm H M) (Fin.append e f) = Fin.append s t ↔
      (∀ i, apply H e i + f i = s i) ∧ ∀ i, apply M f i = t i := by
  have h1 : ∀ i : Fin m, apply (singleStagePcm H M) (Fin.append e f) (Fin.castAdd l i) = apply H e i + f i := by
    intro i
    have := apply_append H (eye m) e f i
    rw [apply_eye] at this
    rw [← this]
    unfold apply singleStagePcm
    simp only [Fin.append_left]
  have h2 : ∀ i : Fin l, apply (singleStagePcm H M) (Fin.append e f) (Fin.natAdd m i) = apply M f i := by
    intro i
    have := apply_append (fun _ => 0 : Mat l n) M e f i
    have z : apply (fun _ => 0 : Mat l n) e i = 0 := by simp [apply]
    rw [z, zero_add] at this
    rw [← this]
    unfold apply singleStagePcm
    simp only [Fin.append_right]
  constructor
  · intro h
    refine ⟨fun i => ?_, fun i => ?_⟩
    · rw [← h1, h, Fin.append_left]
    · rw [← h2, h, Fin.append_right]
  · rintro ⟨h3, h4⟩
    funext k
    refine Fin.addCases (fun i => ?_) (fun i => ?_) k
    · rw [h1, h3, Fin.append_left]
    · rw [h2, h4, Fin.append_right]

/-- **C43**: if the meta-checks annihilate all syndromes, the meta-syndrome of the measured syndrome is that of the flips
alone. -/
theorem C43_meta (H : Mat m n) (M : Mat l m) (hM : ∀ v i, apply M (apply H v) i = 0) (e : Vec n) (f s : Vec m)
    (h : ∀ i, apply H e i + f i = s i) : apply M s = apply M f := by
  funext i
  have : s = apply H e + f := by funext i; rw [← h i]; rfl
  rw [this, apply_add, hM, zero_add]

example : apply (singleStagePcm (![![1, 1, 0], ![0, 1, 1], ![1, 0, 1]] : Mat 3 3) (![![1, 1, 1]] : Mat 1 3))
    (Fin.append ![1, 0, 0] ![0, 1, 0]) = Fin.append ![1, 1, 1] ![1] := by decide +kernel

example : ∀ v i, apply (![![1, 1, 1]] : Mat 1 3) (apply (![![1, 1, 0], ![0, 1, 1], ![1, 0, 1]] : Mat 3 3) v) i = 0 := by
  decide +kernel

/-! ## Rank test -/

theorem rowSpan_ofFn {a b : ℕ} (A : Mat a b) : rowSpan (List.ofFn A) = Submodule.span (ZMod 2) (Set.range A) := by
  unfold rowSpan
  congr 1
  ext v
  simp [List.mem_ofFn]

theorem rank_ofFn {a b : ℕ} (A : Mat a b) : rank (List.ofFn A) = (Matrix.of A).rank := by
  rw [rank_eq_finrank, rowSpan_ofFn, Matrix.rank_eq_finrank_span_row]
  rfl

theorem rank_transpose_ofFn {a b : ℕ} (A : Mat a b) : rank (List.ofFn fun j i => A i j) = rank (List.ofFn A) := by
  rw [rank_ofFn, rank_ofFn, ← Matrix.rank_transpose (Matrix.of A)]
  rfl

theorem rank_appendResidual (H : Mat m n) (r : Vec n) : rank (appendResidual H r) = rank (List.ofFn H ++ [r]) := by
  have h := rank_transpose_ofFn (fun i : Fin (m + 1) => (Fin.append H (fun _ : Fin 1 => r) i : Vec n))
  have e1 : appendResidual H r = List.ofFn fun (j : Fin n) (i : Fin (m + 1)) => Fin.append H (fun _ : Fin 1 => r) i j := by
    unfold appendResidual
    congr 1
    funext q i
    refine Fin.addCases (fun a => ?_) (fun a => ?_) i
    · rw [Fin.append_left, Fin.append_left]
    · rw [Fin.append_right, Fin.append_right]
  have e2 : (List.ofFn fun i : Fin (m + 1) => (Fin.append H (fun _ : Fin 1 => r) i : Vec n)) = List.ofFn H ++ [r] := by
    rw [List.ofFn_fin_append]
    simp
  rw [e1, h, e2]

/-- **C44**: `check_logical_err_h` is true exactly when the residual is not a sum of rows of the check matrix. -/
theorem C44_rank_test (H : Mat m n) (original estimate : Vec n) :
    checkLogicalErrH H original estimate = true ↔
      ¬ ∃ c : Fin m → ZMod 2, ∀ q, original q + estimate q = ∑ i, c i * H i q := by
  unfold checkLogicalErrH
  rw [decide_eq_true_iff, rank_appendResidual]
  have h1 : (∃ c : Fin m → ZMod 2, ∀ q, original q + estimate q = ∑ i, c i * H i q) ↔
      original + estimate ∈ rowSpan (List.ofFn H) := by
    rw [rowSpan_ofFn, Submodule.mem_span_range_iff_exists_fun]
    refine exists_congr fun c => ?_
    rw [funext_iff]
    refine forall_congr' fun q => ?_
    simp only [Finset.sum_apply, Pi.smul_apply, smul_eq_mul, Pi.add_apply]
    exact eq_comm
  rw [h1, ← rank_append_singleton_eq_iff]
  have h2 : rank (List.ofFn H) ≤ rank (List.ofFn H ++ [original + estimate]) := by
    rw [rank_eq_finrank, rank_eq_finrank]
    apply Submodule.finrank_mono
    rw [rowSpan_append]
    exact le_sup_left
  omega

example : checkLogicalErrH (![![1, 1, 0], ![0, 1, 1]] : Mat 2 3) ![1, 0, 0] ![0, 0, 1] = false ∧
    checkLogicalErrH (![![1, 1, 0], ![0, 1, 1]] : Mat 2 3) ![1, 0, 0] ![0, 1, 1] = true := by decide +kernel

/-- **C44**: `is_logical_err` is true exactly when the residual has odd overlap with one of the logical operators. -/
theorem C44_is_logical (L : List (Vec n)) (r : Vec n) : isLogicalErr L r = true ↔ ∃ v ∈ L, ∑ q, v q * r q ≠ 0 := by
  unfold isLogicalErr mulVec
  simp [dot]

example : isLogicalErr ([![1, 0, 0]] : List (Vec 3)) ![1, 1, 1] = true := by decide +kernel

end Verif.Analog
