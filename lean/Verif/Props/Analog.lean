import Verif.Model.Analog
import Verif.LinalgLemmas
import Mathlib.Tactic.Ring
import Mathlib.Tactic.Linarith

/-! # C39, C40, C76: multi-round decoding -/

namespace Verif.Analog
open Verif

variable {m n R : ℕ}

/-- A space-time error: data error `e r` before and measurement flips `s r` in round `r`, laid out as the decoder
returns it. -/
def pack (e : Fin R → Vec n) (s : Fin R → Vec m) : Vec (R * n + R * m) :=
  Fin.append (fun k => e k.divNat k.modNat) (fun k => s k.divNat k.modNat)

/-- The data error accumulated up to and including round `r`. -/
def accumulated (e : Fin R → Vec n) (r : ℕ) : Vec n := fun q => ∑ t : Fin R, if t.val ≤ r then e t q else 0

theorem divNat_pair {a b : ℕ} (r : Fin a) (i : Fin b) : (finProdFinEquiv (r, i)).divNat = r := by
  have := finProdFinEquiv.symm_apply_apply (r, i)
  exact congrArg Prod.fst this

theorem modNat_pair {a b : ℕ} (r : Fin a) (i : Fin b) : (finProdFinEquiv (r, i)).modNat = i := by
  have := finProdFinEquiv.symm_apply_apply (r, i)
  exact congrArg Prod.snd this

theorem sum_pairs {a b : ℕ} (f : Fin (a * b) → ZMod 2) : ∑ k, f k = ∑ r : Fin a, ∑ i : Fin b, f (finProdFinEquiv (r, i)) := by
  rw [← Fintype.sum_prod_type' (f := fun r i => f (finProdFinEquiv (r, i)))]
  exact (Equiv.sum_comp finProdFinEquiv f).symm

theorem apply_blockDiag (H : Mat m n) (v : Vec (R * n)) (r : Fin R) (i : Fin m) :
    apply (blockDiag H R) v (finProdFinEquiv (r, i)) = ∑ q, H i q * v (finProdFinEquiv (r, q)) := by
  unfold apply blockDiag
  rw [sum_pairs]
  simp only [divNat_pair, modNat_pair]
  rw [Finset.sum_eq_single r]
  · simp
  · intro t _ ht; apply Finset.sum_eq_zero; intro q _; simp [Ne.symm ht]
  · simp

theorem pair_val {a b : ℕ} (r : Fin a) (i : Fin b) : (finProdFinEquiv (r, i)).val = i.val + b * r.val := rfl

theorem pair_shift {a b : ℕ} (r t : Fin a) (i j : Fin b) :
    (finProdFinEquiv (r, i)).val = (finProdFinEquiv (t, j)).val + b ↔ r.val = t.val + 1 ∧ i = j := by
  rw [pair_val, pair_val]
  constructor
  · intro h
    have hb : 0 < b := i.pos
    have h1 : i.val + b * r.val = j.val + b * (t.val + 1) := by rw [h]; ring
    have h2 := congrArg (· / b) h1
    have h3 := congrArg (· % b) h1
    simp only [Nat.add_mul_div_left _ _ hb, Nat.div_eq_of_lt i.isLt, Nat.div_eq_of_lt j.isLt,
      Nat.add_mul_mod_self_left, Nat.mod_eq_of_lt i.isLt, Nat.mod_eq_of_lt j.isLt, Nat.zero_add] at h2 h3
    exact ⟨h2, Fin.ext h3⟩
  · rintro ⟨h, rfl⟩
    rw [h]; ring

theorem apply_eyeBelow (v : Vec (R * m)) (r : Fin R) (i : Fin m) :
    apply (eyeBelow (R * m) m) v (finProdFinEquiv (r, i)) =
      if h : r.val = 0 then 0 else v (finProdFinEquiv (⟨r.val - 1, by omega⟩, i)) := by
  unfold apply eyeBelow
  rw [sum_pairs]
  simp only [pair_shift]
  split
  · rename_i h
    apply Finset.sum_eq_zero; intro t _; apply Finset.sum_eq_zero; intro j _
    rw [if_neg (by omega), zero_mul]
  · rename_i h
    rw [Finset.sum_eq_single (⟨r.val - 1, by omega⟩ : Fin R)]
    · rw [Finset.sum_eq_single i]
      · rw [if_pos ⟨by simp only; omega, rfl⟩, one_mul]
      · intro j _ hj; rw [if_neg (fun h => hj h.2.symm), zero_mul]
      · simp
    · intro t _ ht; apply Finset.sum_eq_zero; intro j _
      rw [if_neg, zero_mul]
      rintro ⟨h1, -⟩; apply ht; apply Fin.ext; simp only; omega
    · simp

theorem apply_append {a b c : ℕ} (A : Mat a b) (B : Mat a c) (v : Vec b) (w : Vec c) (i : Fin a) :
    apply (fun i => Fin.append (A i) (B i) : Mat a (b + c)) (Fin.append v w) i = apply A v i + apply B w i := by
  unfold apply
  rw [Fin.sum_univ_add]
  simp

theorem apply_add_mat {a b : ℕ} (A B : Mat a b) (v : Vec b) (i : Fin a) :
    apply (fun i j => A i j + B i j) v i = apply A v i + apply B v i := by
  unfold apply
  rw [← Finset.sum_add_distrib]
  exact Finset.sum_congr rfl fun q _ => by ring

/-- Row `(r, i)` of the multi-round matrix. -/
theorem row_multiround (H : Mat m n) (k : ℕ) (e : Fin (k + 1) → Vec n) (s : Fin (k + 1) → Vec m) (r : Fin (k + 1))
    (i : Fin m) :
    apply (buildMultiroundPcm H k) (pack e s) (finProdFinEquiv (r, i)) =
      apply H (e r) i + s r i + (if h : r.val = 0 then 0 else s ⟨r.val - 1, by omega⟩ i) := by
  unfold buildMultiroundPcm pack
  rw [apply_append, apply_add_mat, apply_blockDiag, apply_blockDiag, apply_eyeBelow]
  simp only [divNat_pair, modNat_pair]
  have : ∑ q, eye m i q * s r q = s r i := by
    rw [Finset.sum_eq_single i]
    · simp [eye]
    · intro j _ hj; simp [eye, hj.symm]
    · simp
  rw [this, ← add_assoc]
  rfl

theorem apply_add (H : Mat m n) (v w : Vec n) (i : Fin m) : apply H (v + w) i = apply H v i + apply H w i := by
  unfold apply
  rw [← Finset.sum_add_distrib]
  exact Finset.sum_congr rfl fun q _ => by simp only [Pi.add_apply]; ring

theorem apply_zero (H : Mat m n) : apply H 0 = 0 := by
  funext i; simp [apply]

theorem accumulated_zero (e : Fin R → Vec n) (h : 0 < R) : accumulated e 0 = e ⟨0, h⟩ := by
  funext q
  unfold accumulated
  rw [Finset.sum_eq_single (⟨0, h⟩ : Fin R)]
  · simp
  · intro t _ ht
    rw [if_neg]
    intro h0; apply ht; apply Fin.ext; simp only; omega
  · simp

theorem accumulated_succ (e : Fin R → Vec n) (r : ℕ) (h : r + 1 < R) :
    accumulated e (r + 1) = accumulated e r + e ⟨r + 1, h⟩ := by
  funext q
  simp only [Pi.add_apply, accumulated]
  have h1 : e ⟨r + 1, h⟩ q = ∑ t : Fin R, if t.val = r + 1 then e t q else 0 := by
    rw [Finset.sum_eq_single (⟨r + 1, h⟩ : Fin R)]
    · simp
    · intro t _ ht
      rw [if_neg]
      intro h0; exact ht (Fin.ext h0)
    · simp
  rw [h1, ← Finset.sum_add_distrib]
  refine Finset.sum_congr rfl fun t _ => ?_
  rcases Nat.lt_trichotomy t.val (r + 1) with hlt | heq | hgt
  · rw [if_pos (by omega), if_pos (by omega), if_neg (by omega), add_zero]
  · rw [if_pos (by omega), if_neg (by omega), if_pos heq, zero_add]
  · rw [if_neg (by omega), if_neg (by omega), if_neg (by omega), add_zero]

theorem eq_flatten_iff (v : Vec (R * m)) (M : Mat m R) :
    v = flattenF M ↔ ∀ r i, v (finProdFinEquiv (r, i)) = M i r := by
  constructor
  · rintro rfl r i
    unfold flattenF
    rw [divNat_pair, modNat_pair]
  · intro h
    funext k
    have := h k.divNat k.modNat
    rw [show finProdFinEquiv (k.divNat, k.modNat) = k from finProdFinEquiv.apply_symm_apply k] at this
    exact this

/-- **C39**: a space-time error solves the multi-round matrix for the difference syndromes exactly when, in every
round, the syndrome of the accumulated data error plus the flips of that round is the measured syndrome. -/
theorem C39_multiround (H : Mat m n) (repetitions : ℕ) (S : Mat m (repetitions + 1)) (e : Fin (repetitions + 1) → Vec n)
    (s : Fin (repetitions + 1) → Vec m) :
    apply (buildMultiroundPcm H repetitions) (pack e s) = flattenF (diffSyndrome S) ↔
      ∀ r : Fin (repetitions + 1), ∀ i, apply H (accumulated e r.val) i + s r i = S i r := by
  rw [eq_flatten_iff]
  simp only [row_multiround]
  constructor
  · intro h
    have key : ∀ (r : ℕ) (hr : r < repetitions + 1) (i : Fin m),
        apply H (accumulated e r) i + s ⟨r, hr⟩ i = S i ⟨r, hr⟩ := by
      intro r
      induction r with
      | zero =>
        intro hr i
        have h0 := h ⟨0, hr⟩ i
        simp only [diffSyndrome, dif_pos, if_pos, add_zero] at h0
        rw [accumulated_zero e hr, h0]
      | succ r ih =>
        intro hr i
        have h1 := h ⟨r + 1, hr⟩ i
        have h2 := ih (by omega) i
        simp only [diffSyndrome, Nat.add_sub_cancel, Nat.add_eq_zero_iff, one_ne_zero, and_false, dif_neg, if_neg,
          not_false_eq_true] at h1
        rw [accumulated_succ e r hr, apply_add]
        rw [← h2] at h1
        rw [eq_sub_iff_add_eq] at h1
        rw [← h1]
        have c : s ⟨r, by omega⟩ i + s ⟨r, by omega⟩ i = 0 := add_self_eq_zero' _
        linear_combination (-1 : ZMod 2) * c
    exact fun r i => key r.val r.isLt i
  · intro h r i
    unfold diffSyndrome
    by_cases h0 : r.val = 0
    · rw [dif_pos h0, if_pos h0, add_zero, ← h r i]
      have : accumulated e r.val = e r := by
        rw [h0, accumulated_zero e (by omega)]
        exact congrArg e (Fin.ext h0.symm)
      rw [this]
    · rw [dif_neg h0, if_neg h0, ← h r i, ← h ⟨r.val - 1, by omega⟩ i]
      have hs : accumulated e r.val = accumulated e (r.val - 1) + e r := by
        have := accumulated_succ e (r.val - 1) (by omega)
        have e1 : r.val - 1 + 1 = r.val := by omega
        simp only [e1] at this
        exact this
      rw [hs, apply_add]
      have c : s ⟨r.val - 1, by omega⟩ i + s ⟨r.val - 1, by omega⟩ i = 0 := add_self_eq_zero' _
      simp only
      linear_combination c

/-- The repetition code, three rounds: a data error in round 0 and a measurement flip in round 1. -/
example : apply (buildMultiroundPcm (![![1, 1, 0], ![0, 1, 1]] : Mat 2 3) 2)
      (pack ![![1, 0, 0], 0, 0] ![0, ![0, 1], 0]) = flattenF (diffSyndrome (![![1, 1, 1], ![0, 1, 0]] : Mat 2 3)) := by
  decide +kernel

/-- Every difference syndrome has a solution: the rows of the multi-round matrix are independent. -/
theorem C39_solvable (H : Mat m n) (repetitions : ℕ) (S : Mat m (repetitions + 1)) :
    ∃ d, apply (buildMultiroundPcm H repetitions) d = flattenF (diffSyndrome S) := by
  refine ⟨pack (fun _ => 0) (fun r i => S i r), (C39_multiround H repetitions S _ _).2 fun r i => ?_⟩
  have : accumulated (fun _ : Fin (repetitions + 1) => (0 : Vec n)) r.val = 0 := by
    funext q; simp [accumulated]
  rw [this, apply_zero]
  simp

/-- **C40**: the difference syndromes up to round `r` add up to the measured syndrome of round `r`. -/
theorem C40_telescopes (S : Mat m R) (r : Fin R) (i : Fin m) :
    ∑ t : Fin R, (if t.val ≤ r.val then diffSyndrome S i t else 0) = S i r := by
  have key : ∀ (k : ℕ) (hk : k < R), accumulated (fun t i => diffSyndrome S i t) k i = S i ⟨k, hk⟩ := by
    intro k
    induction k with
    | zero => intro hk; rw [accumulated_zero _ hk]; simp [diffSyndrome]
    | succ k ih =>
      intro hk
      rw [accumulated_succ _ k hk, Pi.add_apply, ih (by omega)]
      simp [diffSyndrome]
  exact key r.val r.isLt

/-- **C40**: for an even number of rounds, moving the window puts the second half first and zeros after it. -/
theorem C40_move (T : ℕ) (S : Mat m (2 * T)) :
    ∃ S', moveSyndrome S = .ok S' ∧ (∀ i (r : Fin T), S' i ⟨r.val, by omega⟩ = S i ⟨T + r.val, by omega⟩) ∧
      ∀ i (r : Fin (2 * T)), T ≤ r.val → S' i r = 0 := by
  refine ⟨_, if_pos (by omega), ?_, ?_⟩
  · intro i r
    simp only
    rw [dif_pos (by omega)]
    congr 1
    apply Fin.ext
    simp only
    omega
  · intro i r hr
    rw [dif_neg (by omega)]

/-- **C40**: an odd number of rounds is rejected. -/
theorem C40_odd (T : ℕ) (S : Mat m (2 * T + 1)) : moveSyndrome S = .error .valueError := if_neg (by omega)

example : moveSyndrome (![![1, 0, 1, 1], ![0, 0, 1, 0]] : Mat 2 4) = .ok ![![1, 1, 0, 0], ![1, 0, 0, 0]] := by
  refine congrArg Except.ok ?_
  decide

/-! ## C76: committing a window -/

/-- The decoder's output explains its input. -/
def Consistent (H : Mat m n) (k : ℕ) (dec : Vec ((k + 1) * m) → Vec ((k + 1) * n + (k + 1) * m)) : Prop :=
  ∀ S : Mat m (k + 1), apply (buildMultiroundPcm H k) (dec (flattenF (diffSyndrome S))) = flattenF (diffSyndrome S)

theorem pack_corrections (d : Vec (R * n + R * m)) : pack (fun r q => spaceCorrection (m := m) d q r)
    (fun r i => timeCorrection (n := n) d i r) = d := by
  funext k
  refine Fin.addCases (fun j => ?_) (fun j => ?_) k
  · unfold pack spaceCorrection
    rw [Fin.append_left]
    simp only
    rw [show finProdFinEquiv (j.divNat, j.modNat) = j from finProdFinEquiv.apply_symm_apply j]
  · unfold pack timeCorrection
    rw [Fin.append_right]
    simp only
    rw [show finProdFinEquiv (j.divNat, j.modNat) = j from finProdFinEquiv.apply_symm_apply j]

/-- What the decoder's answer says about the measured syndromes: round `r` is explained by the data errors up to
`r` and the flips of round `r`. -/
theorem explained (H : Mat m n) (k : ℕ) (dec : Vec ((k + 1) * m) → Vec ((k + 1) * n + (k + 1) * m))
    (hd : Consistent H k dec) (S : Mat m (k + 1)) (r : Fin (k + 1)) (i : Fin m) :
    apply H (cumsumCol (spaceCorrection (m := m) (dec (flattenF (diffSyndrome S)))) r.val) i +
      timeCorrection (n := n) (dec (flattenF (diffSyndrome S))) i r = S i r := by
  have h' := (C39_multiround H k S _ _).1 (by
    rw [pack_corrections]; exact hd S) r i
  exact h'

/-- The full claim: after a commit of the first region the stored syndromes of the later rounds are those that
would have been measured had the committed correction been applied to the data before. -/
def C76_claim : Prop :=
  ∀ (m n T : ℕ) (H : Mat m n) (dec : Vec ((2 * T + 1 + 1) * m) → Vec ((2 * T + 1 + 1) * n + (2 * T + 1 + 1) * m))
    (S : Mat m (2 * T + 1 + 1)), Consistent H (2 * T + 1) dec →
    ∀ i (r : Fin (2 * T + 1 + 1)), T + 1 ≤ r.val →
      (decodeMultiround H dec S false).2 i r = S i r + apply H (decodeMultiround H dec S false).1 i

/-- **C76**, exact behaviour: every later round is as claimed, except that in the first round after the commit region the
flips which the decoder attributed to the last committed round are added once more. -/
theorem C76_commit_partial (H : Mat m n) (dec : Vec (R * m) → Vec (R * n + R * m)) (S : Mat m R) (_hR : 2 ≤ R)
    (i : Fin m) (r : Fin R) (hr : R / 2 ≤ r.val) :
    (decodeMultiround H dec S false).2 i r = S i r + apply H (decodeMultiround H dec S false).1 i +
      if r.val = R / 2 then timeCorrection (n := n) (dec (flattenF (diffSyndrome S))) i ⟨R / 2 - 1, by omega⟩ else 0 := by
  have hs : (∑ t : Fin R, if t.val = R / 2 - 1 then
      timeCorrection (n := n) (dec (flattenF (diffSyndrome S))) i t else 0) =
      timeCorrection (n := n) (dec (flattenF (diffSyndrome S))) i ⟨R / 2 - 1, by omega⟩ := by
    rw [Finset.sum_eq_single (⟨R / 2 - 1, by omega⟩ : Fin R)]
    · simp
    · intro t _ ht; rw [if_neg]; intro h0; exact ht (Fin.ext h0)
    · simp
  simp only [decodeMultiround, Bool.false_eq_true, if_false, commit]
  rw [hs]
  by_cases h : r.val = R / 2
  · rw [if_pos h, if_pos h]
  · rw [if_neg h, if_neg h, if_pos hr, add_zero]

/-- Earlier rounds are left alone, and the last-round variant commits all rounds and leaves the syndromes alone. -/
theorem C76_commit_early (H : Mat m n) (dec : Vec (R * m) → Vec (R * n + R * m)) (S : Mat m R)
    (i : Fin m) (r : Fin R) (hr : r.val < R / 2) : (decodeMultiround H dec S false).2 i r = S i r := by
  simp only [decodeMultiround, Bool.false_eq_true, if_false, commit]
  rw [if_neg (by omega), if_neg (by omega)]

/-- A consistent decoder that blames the measurements. -/
def blameMeasurements (m n R : ℕ) : Vec (R * m) → Vec (R * n + R * m) := fun d =>
  pack (fun _ => 0) fun r i => ∑ t : Fin R, if t.val ≤ r.val then d (finProdFinEquiv (t, i)) else 0

theorem blameMeasurements_consistent (H : Mat m n) (k : ℕ) : Consistent H k (blameMeasurements m n (k + 1)) := by
  intro S
  unfold blameMeasurements
  rw [C39_multiround]
  intro r i
  have : accumulated (fun _ : Fin (k + 1) => (0 : Vec n)) r.val = 0 := by
    funext q; simp [accumulated]
  rw [this, apply_zero, Pi.zero_apply, zero_add, ← C40_telescopes S r i]
  refine Finset.sum_congr rfl fun t _ => ?_
  unfold flattenF
  rw [divNat_pair, modNat_pair]

/-- **C76 is violated**: one check, two rounds, a measurement flip in round 0 recognised by the decoder: the flip is
stored as the syndrome of the next window although no data error is left. -/
theorem C76_violated : ¬ C76_claim := by
  intro h
  have := h 1 1 0 (fun _ _ => 1) (blameMeasurements 1 1 2) (![![1, 0]] : Mat 1 2)
    (blameMeasurements_consistent _ 1) 0 1 (by decide)
  revert this
  decide +kernel

/-- The claim holds when the decoder sees no flip in the last committed round. -/
theorem C76_commit_no_flip (H : Mat m n) (dec : Vec (R * m) → Vec (R * n + R * m)) (S : Mat m R) (hR : 2 ≤ R)
    (hno : ∀ i, timeCorrection (n := n) (dec (flattenF (diffSyndrome S))) i ⟨R / 2 - 1, by omega⟩ = 0)
    (i : Fin m) (r : Fin R) (hr : R / 2 ≤ r.val) :
    (decodeMultiround H dec S false).2 i r = S i r + apply H (decodeMultiround H dec S false).1 i := by
  rw [C76_commit_partial H dec S hR i r hr, hno i]
  split <;> simp

end Verif.Analog
