import Verif.Props.SingleShot
import Verif.Props.ProductMeta

/-!
# C139: metachecks keep the residual error of two-stage decoding bounded
-/

namespace Verif.Analog
open Verif

variable {m n l : ℕ}

/-! ### Specification -/

/-- The bits read from a measured syndrome: signs of analog values, or the values themselves. -/
def readBits (c : SSConfig) (s : Fin m → ℚ) : Vec m := if c.analog then binaryFromAnalog s else bitsOf s

/-- A vector of weight below `d` that passes the metachecks `M` is the syndrome of some error. -/
def NoBlindBelow (H : Mat m n) (M : Mat l m) (d : ℕ) : Prop := ∀ v, apply M v = 0 → wt v < d → ∃ e, apply H e = v

/-- The decoder of the metacode returns a lightest explanation of every metasyndrome. -/
def LightestMeta (M : Mat l m) (mdec : Vec l → Vec m) : Prop :=
  ∀ v, apply M (mdec (apply M v)) = apply M v ∧ ∀ b, apply M b = apply M v → wt (mdec (apply M v)) ≤ wt b

/-- Two-stage decoding with metachecks `A`, a lightest-explanation decoder for them, and a decoder for the data whose answer to any
true syndrome of an error has this syndrome. -/
structure TwoStage (u : SSSetup m n l) (A : Mat l m) : Prop where
  two : u.cfg.singleStage = false
  checks : u.M = some A
  meta_of : ∀ e, apply A (apply u.H e) = 0
  lightest : LightestMeta A u.mdec
  exact_ : ∀ q e, Asks (apply u.H e) q → apply u.H (u.answer q) = apply u.H e

/-! ### C139 -/

/-- **C139**: with fewer wrong syndrome bits than half the weight below which metachecks are conclusive, the repaired syndrome is the
syndrome of an error, and after the correction the residual error violates at most twice as many checks as there were wrong bits,
whatever errors were present before. -/
theorem C139_round (u : SSSetup m n l) (A : Mat l m) (h : TwoStage u A) (d : ℕ) (hd : NoBlindBelow u.H A d) (residual : Vec n)
    (r : SSRound m n) (wrong : Vec m)
    (hw : readBits u.cfg (noisySyndrome u.cfg u.ser u.sigma r.noise r.flips (apply u.H (residual + r.dataErr))) =
      apply u.H (residual + r.dataErr) + wrong) (hfew : 2 * wt wrong < d) :
    ∃ after, ssRound u residual r = .ok after ∧ wt (apply u.H after) ≤ 2 * wt wrong := by
  set e := residual + r.dataErr with he
  set s := noisySyndrome u.cfg u.ser u.sigma r.noise r.flips (apply u.H e) with hs
  have hmr : metaRepair u.cfg A u.mdec s = readBits u.cfg s + u.mdec (apply A (readBits u.cfg s)) := by
    unfold metaRepair readBits metaOf
    split <;> rfl
  have hM : apply A (readBits u.cfg s) = apply A wrong := by
    rw [hw]
    funext i
    rw [apply_add, h.meta_of]
    simp
  set v := u.mdec (apply A wrong) with hv
  obtain ⟨l1, l2⟩ := h.lightest wrong
  have hwt : wt (wrong + v) ≤ 2 * wt wrong := by
    have := Kunneth.wt_add_le wrong v
    have h2 := l2 wrong rfl
    rw [← hv] at h2
    omega
  have hzero : apply A (wrong + v) = 0 := by
    funext i
    rw [apply_add, hv, l1]
    exact add_self_eq_zero' _
  obtain ⟨f, hf⟩ := hd (wrong + v) hzero (by omega)
  have hrep : metaRepair u.cfg A u.mdec s = apply u.H (e + f) := by
    rw [hmr, hM, hw, add_assoc, ← hf]
    funext i
    rw [apply_add]
    rfl
  have hq : ∃ q, question u.cfg u.M u.mdec u.own u.other s = .ok q ∧ Asks (apply u.H (e + f)) q := by
    unfold question
    rw [h.two, h.checks]
    simp only [Bool.false_eq_true, if_false]
    refine ⟨_, rfl, ?_⟩
    unfold twoStageQuestion
    split
    · show repaired _ _ _ _ = _
      unfold repaired
      simp only
      rw [hrep]
    · show repaired _ _ _ _ = _
      unfold repaired
      simp only
      rw [hrep]
  obtain ⟨q, hq1, hq2⟩ := hq
  refine ⟨e + u.answer q, ?_, ?_⟩
  · unfold ssRound
    rw [← he, ← hs, hq1]
    rfl
  · have : apply u.H (e + u.answer q) = wrong + v := by
      rw [← hf]
      funext i
      rw [apply_add u.H e (u.answer q), h.exact_ q (e + f) hq2, apply_add u.H e f, ← add_assoc, add_self_eq_zero', zero_add]
    rw [this]
    exact hwt

/-- With hard decisions the wrong bits are the flips. -/
theorem readBits_hard (c : SSConfig) (hc : c.analog = false) (ser sigma : ℚ) (hs : ser ≠ 0) (g : Fin m → ℚ) (flips s : Vec m) :
    readBits c (noisySyndrome c ser sigma g flips s) = s + flips := by
  unfold readBits noisySyndrome
  rw [hc, if_pos hs]
  simp only [Bool.false_eq_true, if_false]
  exact bitsOf_toRat _

/-- **C139**: syndrome errors do not accumulate: after any number of noisy rounds with hard decisions, each with few wrong bits, the
residual error violates at most twice as many checks as there were wrong bits in the *last* round, whatever the data errors were. -/
theorem C139_rounds (u : SSSetup m n l) (A : Mat l m) (h : TwoStage u A) (hc : u.cfg.analog = false) (hser : u.ser ≠ 0) (d : ℕ)
    (hd : NoBlindBelow u.H A d) (rounds : List (SSRound m n)) (r : SSRound m n) (start : Vec n)
    (hfew : ∀ x ∈ rounds ++ [r], 2 * wt x.flips < d) :
    ∃ residual, ssRounds u start (rounds ++ [r]) = .ok residual ∧ wt (apply u.H residual) ≤ 2 * wt r.flips := by
  induction rounds generalizing start with
  | nil =>
    obtain ⟨a, h1, h2⟩ := C139_round u A h d hd start r r.flips (readBits_hard _ hc _ _ hser _ _ _) (hfew r (by simp))
    exact ⟨a, by simp [ssRounds, h1, Except.bind], h2⟩
  | cons x xs ih =>
    obtain ⟨a, h1, -⟩ := C139_round u A h d hd start x x.flips (readBits_hard _ hc _ _ hser _ _ _) (hfew x (by simp))
    obtain ⟨b, h3, h4⟩ := ih a fun y hy => hfew y (by simp only [List.cons_append, List.mem_cons]; exact .inr hy)
    exact ⟨b, by rw [List.cons_append, ssRounds, h1]; exact h3, h4⟩

/-- The binary matrix of an integer matrix. -/
def mod2 {a b : ℕ} (H : Matrix (Fin a) (Fin b) ℤ) : Mat a b := fun i j => ((H i j : ℤ) : ZMod 2)

theorem noBlind_of {a b c : ℕ} (M : Matrix (Fin a) (Fin b) ℤ) (H : Matrix (Fin b) (Fin c) ℤ) (d : ℕ)
    (h : ProductRank.blindDistance M H = d) : NoBlindBelow (mod2 H) (mod2 M) d := by
  intro v hv hw
  by_contra hne
  push Not at hne
  have : ProductRank.blindDistance M H ≤ wt v := iInf_le _ (⟨v, hv, hne⟩ : {s : Vec b // ProductRank.syndrome M s = 0 ∧ ∀ e, ProductRank.syndrome H e ≠ s})
  rw [h] at this
  have := Nat.cast_le.1 this
  omega

theorem meta_mod2 {a b c : ℕ} (M : Matrix (Fin a) (Fin b) ℤ) (H : Matrix (Fin b) (Fin c) ℤ) (h : Product.Even2 (M * H)) (e : Vec c) :
    apply (mod2 M) (apply (mod2 H) e) = 0 := by
  funext i
  have h1 : ∀ k, (∑ j, mod2 M i j * mod2 H j k) = 0 := by
    intro k
    have h2 : ((((M * H) i k : ℤ)) : ZMod 2) = 0 := (ZMod.intCast_zmod_eq_zero_iff_dvd _ 2).2 (h i k)
    rw [Matrix.mul_apply, Int.cast_sum] at h2
    rw [← h2]
    exact Finset.sum_congr rfl fun j _ => by rw [Int.cast_mul]; rfl
  unfold apply
  calc ∑ j, mod2 M i j * ∑ k, mod2 H j k * e k = ∑ j, ∑ k, mod2 M i j * mod2 H j k * e k :=
        Finset.sum_congr rfl fun j _ => by rw [Finset.mul_sum]; exact Finset.sum_congr rfl fun k _ => (mul_assoc _ _ _).symm
    _ = ∑ k, (∑ j, mod2 M i j * mod2 H j k) * e k := by
        rw [Finset.sum_comm]
        exact Finset.sum_congr rfl fun k _ => (Finset.sum_mul _ _ _).symm
    _ = 0 := Finset.sum_eq_zero fun k _ => by rw [h1 k, zero_mul]

/-- Two-stage decoding with hard decisions, a lightest-explanation decoder for the metachecks `M` and an exact decoder for the checks `H`. -/
structure HardTwoStage (u : SSSetup m n l) (H : Mat m n) (M : Mat l m) : Prop where
  two : u.cfg = ⟨false, false, false⟩
  data : u.H = H
  checks : u.M = some M
  rate : u.ser ≠ 0
  lightest : LightestMeta M u.mdec
  exact_ : ∀ q e, Asks (apply H e) q → apply H (u.answer q) = apply H e

theorem rounds_of {a b c : ℕ} (M : Matrix (Fin a) (Fin b) ℤ) (H : Matrix (Fin b) (Fin c) ℤ) (h : Product.Even2 (M * H)) (d : ℕ)
    (hb : ProductRank.blindDistance M H = d) (u : SSSetup b c a) (hu : HardTwoStage u (mod2 H) (mod2 M)) (rounds : List (SSRound b c))
    (r : SSRound b c) (start : Vec c) (hfew : ∀ x ∈ rounds ++ [r], 2 * wt x.flips < d) :
    ∃ residual, ssRounds u start (rounds ++ [r]) = .ok residual ∧ wt (apply (mod2 H) residual) ≤ 2 * wt r.flips := by
  have h1 : TwoStage u (mod2 M) := ⟨by rw [hu.two], hu.checks, by rw [hu.data]; exact meta_mod2 M H h, hu.lightest, by rw [hu.data]; exact hu.exact_⟩
  have := C139_rounds u (mod2 M) h1 (by rw [hu.two]; rfl) hu.rate d (by rw [hu.data]; exact noBlind_of M H d hb) rounds r start hfew
  rw [hu.data] at this
  exact this

open Product CodeFiles ProductRank in
/-- **C139** on the 4D toric codes of the repository: for both kinds of checks, with fewer wrong bits than half the shortest length in
every round, the residual error after any number of rounds violates at most twice as many checks as bits were wrong in the last round. -/
theorem C139_toric (l0 l1 l2 l3 : ℕ) (h0 : 2 ≤ l0) (h1 : 2 ≤ l1) (h2 : 2 ≤ l2) (h3 : 2 ≤ l3) (checks : Bool) :
    ∃ MX HX HZ MZ, createCode (hgpX (ringCode l0) (ringCode l1)) (hgpZ (ringCode l0) (ringCode l1)) (ringCode l2) (ringCode l3) checks =
        .ok (MX, HX, HZ, MZ) ∧
      (∀ u, HardTwoStage u (mod2 HX) (mod2 MX) → ∀ rounds r start, (∀ x ∈ rounds ++ [r], 2 * wt x.flips < min (min (min l0 l1) l2) l3) →
        ∃ residual, ssRounds u start (rounds ++ [r]) = .ok residual ∧ wt (apply (mod2 HX) residual) ≤ 2 * wt r.flips) ∧
      (∀ u, HardTwoStage u (mod2 HZ) (mod2 MZ) → ∀ rounds r start, (∀ x ∈ rounds ++ [r], 2 * wt x.flips < min (min (min l0 l1) l2) l3) →
        ∃ residual, ssRounds u start (rounds ++ [r]) = .ok residual ∧ wt (apply (mod2 HZ) residual) ≤ 2 * wt r.flips) := by
  obtain ⟨MX, HX, HZ, MZ, h, e1, -, e3⟩ := C19_create_code (hgpX (ringCode l0) (ringCode l1)) (hgpZ (ringCode l0) (ringCode l1)) (ringCode l2)
    (ringCode l3) checks (hgp_even _ _)
  obtain ⟨b1, b2⟩ := (ProductRank.C136_toric l0 l1 l2 l3 h0 h1 h2 h3).2 checks MX HX HZ MZ h
  exact ⟨MX, HX, HZ, MZ, h, fun u hu => rounds_of MX HX e1 _ b1 u hu, fun u hu => rounds_of MZ HZ e3 _ b2 u hu⟩

/-! ### The hypotheses can be met -/

/-- There are decoders as required for all checks `H` and metachecks `M`. -/
theorem hardTwoStage_exists (H : Mat m n) (M : Mat l m) : ∃ u : SSSetup m n l, HardTwoStage u H M := by
  classical
  have hm : ∀ t : Vec l, ∃ v : Vec m, (∃ b, apply M b = t) → apply M v = t ∧ ∀ b, apply M b = t → wt v ≤ wt b := by
    intro t
    by_cases h : ∃ b, apply M b = t
    · have hn : ∃ w, ∃ b, apply M b = t ∧ wt b = w := by
        obtain ⟨b, hb⟩ := h
        exact ⟨_, b, hb, rfl⟩
      obtain ⟨a, ha, hw⟩ := Nat.find_spec hn
      refine ⟨a, fun _ => ⟨ha, fun b hb => ?_⟩⟩
      rw [hw]
      exact Nat.find_min' hn ⟨b, hb, rfl⟩
    · exact ⟨0, fun h' => absurd h' h⟩
  choose mdec hmdec using hm
  have ha : ∀ q : Question m l, ∃ v : Vec n, ∀ e, Asks (apply H e) q → apply H v = apply H e := by
    intro q
    by_cases h : ∃ e, Asks (apply H e) q
    · obtain ⟨e, he⟩ := h
      refine ⟨e, fun e' he' => ?_⟩
      have inj : ∀ a b : Vec m, toRat a = toRat b → a = b := fun a b hab => by
        have := congrArg bitsOf hab
        rwa [bitsOf_toRat, bitsOf_toRat] at this
      cases q with
      | plain s => exact inj _ _ (he.symm.trans he')
      | analog s rate => exact inj _ _ (he.symm.trans he')
      | stage s rate =>
        have h1 : Fin.append (toRat (apply H e)) (toRat (0 : Vec l)) = Fin.append (toRat (apply H e')) (toRat 0) := he.symm.trans he'
        apply inj
        funext i
        have := congrFun h1 (Fin.castAdd l i)
        rwa [Fin.append_left, Fin.append_left] at this
    · exact ⟨0, fun e he => absurd ⟨e, he⟩ h⟩
  choose ans hans using ha
  exact ⟨⟨⟨false, false, false⟩, H, some M, mdec, ans, 1 / 10, 0, 1 / 10, 1 / 10⟩, rfl, rfl, rfl, by norm_num,
    fun v => hmdec _ ⟨v, rfl⟩, hans⟩

open Product CodeFiles ProductRank in
/-- The 4D toric code of length five: up to two wrong bits in every round. -/
example : ∃ MX HX HZ MZ, createCode (hgpX (ringCode 5) (ringCode 5)) (hgpZ (ringCode 5) (ringCode 5)) (ringCode 5) (ringCode 5) true =
      .ok (MX, HX, HZ, MZ) ∧ ∃ u, HardTwoStage u (mod2 HX) (mod2 MX) ∧ ∀ rounds r, (∀ x ∈ rounds ++ [r], wt x.flips ≤ 2) →
        ∃ residual, ssRounds u 0 (rounds ++ [r]) = .ok residual ∧ wt (apply (mod2 HX) residual) ≤ 4 := by
  obtain ⟨MX, HX, HZ, MZ, h, h1, -⟩ := C139_toric 5 5 5 5 (by omega) (by omega) (by omega) (by omega) true
  obtain ⟨u, hu⟩ := hardTwoStage_exists (mod2 HX) (mod2 MX)
  refine ⟨MX, HX, HZ, MZ, h, u, hu, fun rounds r hr => ?_⟩
  obtain ⟨res, e1, e2⟩ := h1 u hu rounds r 0 fun x hx => by have := hr x hx; omega
  have := hr r (by simp)
  exact ⟨res, e1, by omega⟩

end Verif.Analog
