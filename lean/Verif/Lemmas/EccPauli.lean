import Verif.Spec.EccState
import Mathlib.Data.Nat.Bitwise

/-! # Pauli words acting on states -/

namespace Verif.Ecc
variable {R : Type} [CommRing R]

@[simp] theorem sgn_false : (sgn false : R) = 1 := rfl
@[simp] theorem sgn_true : (sgn true : R) = -1 := rfl
theorem sgn_xor (a b : Bool) : (sgn (a ^^ b) : R) = sgn a * sgn b := by cases a <;> cases b <;> simp
theorem sgn_not (a : Bool) : (sgn (!a) : R) = -sgn a := by cases a <;> simp
theorem sgn_mul_self (a : Bool) : (sgn a * sgn a : R) = 1 := by cases a <;> simp
theorem sgn_pow_four (a : Bool) : (sgn a : R) ^ 4 = 1 := by cases a <;> simp [pow_succ]

@[simp] theorem flip_same (x : Bits) (q : ℕ) : flip x q q = !x q := by simp [flip]
theorem flip_other {x : Bits} {q p : ℕ} (h : p ≠ q) : flip x q p = x p := by simp [flip, h]
theorem flip_apply (x : Bits) (q p : ℕ) : flip x q p = (x p ^^ decide (p = q)) := by
  by_cases h : p = q
  · subst h; simp
  · simp [flip_other h, h]
theorem flip_flip (x : Bits) (q : ℕ) : flip (flip x q) q = x := by funext p; simp [flip_apply]
theorem flip_comm (x : Bits) (q p : ℕ) : flip (flip x q) p = flip (flip x p) q := by
  funext r; simp only [flip_apply]; cases x r <;> simp [Bool.xor_comm]

/-- A letter: X (`true`) or Z on a qubit. -/
abbrev Word := List (Bool × ℕ)

def actL (l : Bool × ℕ) (ψ : State R) : State R :=
  if l.1 then fun x => ψ (flip x l.2) else fun x => sgn (x l.2) * ψ x

/-- The product of the letters; the last letter acts first. -/
def act (w : Word) (ψ : State R) : State R := w.foldr actL ψ

@[simp] theorem act_nil (ψ : State R) : act [] ψ = ψ := rfl
@[simp] theorem act_cons (l : Bool × ℕ) (w : Word) (ψ : State R) : act (l :: w) ψ = actL l (act w ψ) := rfl
theorem act_append (u w : Word) (ψ : State R) : act (u ++ w) ψ = act u (act w ψ) := by simp [act]

theorem actL_smul (l : Bool × ℕ) (c : R) (ψ : State R) : actL l (c • ψ) = c • actL l ψ := by
  funext x
  unfold actL
  split
  · rfl
  · simp only [Pi.smul_apply, smul_eq_mul]; ring
theorem act_smul (w : Word) (c : R) (ψ : State R) : act w (c • ψ) = c • act w ψ := by
  induction w with
  | nil => rfl
  | cons l w ih => rw [act_cons, ih, actL_smul, act_cons]

/-- The letters anticommute. -/
def antiL (l m : Bool × ℕ) : Bool := (l.1 != m.1) && decide (l.2 = m.2)
/-- The number of anticommuting pairs is odd. -/
def anti1 (l : Bool × ℕ) (w : Word) : Bool := w.foldr (fun m b => antiL l m ^^ b) false
def anti (u w : Word) : Bool := u.foldr (fun l b => anti1 l w ^^ b) false

theorem actL_comm (l m : Bool × ℕ) (ψ : State R) : actL l (actL m ψ) = (sgn (antiL l m) : R) • actL m (actL l ψ) := by
  obtain ⟨a, p⟩ := l
  obtain ⟨b, q⟩ := m
  funext x
  cases a <;> cases b
  · simp only [actL, antiL, Pi.smul_apply, smul_eq_mul, bne_self_eq_false, Bool.false_and, sgn_false, Bool.false_eq_true, if_false]
    ring
  · simp only [actL, antiL, Pi.smul_apply, smul_eq_mul, Bool.false_eq_true, if_false, if_true, flip_apply, sgn_xor]
    simp only [bne, show ((false : Bool) == true) = false from rfl, Bool.not_false, Bool.true_and]
    have := sgn_mul_self (R := R) (decide (p = q))
    linear_combination (-sgn (x p) * ψ (flip x q)) * this
  · simp only [actL, antiL, Pi.smul_apply, smul_eq_mul, Bool.false_eq_true, if_false, if_true, flip_apply, sgn_xor]
    simp only [bne, show ((true : Bool) == false) = false from rfl, Bool.not_false, Bool.true_and]
    rw [show decide (q = p) = decide (p = q) from decide_eq_decide.2 eq_comm]
    ring
  · simp only [actL, antiL, Pi.smul_apply, smul_eq_mul, bne_self_eq_false, Bool.false_and, sgn_false, if_true, one_mul]
    rw [flip_comm]

theorem actL_act (l : Bool × ℕ) (w : Word) (ψ : State R) : actL l (act w ψ) = (sgn (anti1 l w) : R) • act w (actL l ψ) := by
  induction w with
  | nil => simp [anti1]
  | cons m w ih =>
    rw [act_cons, actL_comm, ih, actL_smul, smul_smul]
    rw [← act_cons]
    congr 1
    show _ = sgn (antiL l m ^^ anti1 l w)
    rw [sgn_xor]

theorem act_act (u w : Word) (ψ : State R) : act u (act w ψ) = (sgn (anti u w) : R) • act w (act u ψ) := by
  induction u with
  | nil => simp [anti]
  | cons l u ih =>
    rw [act_cons, ih, actL_smul, actL_act, smul_smul, ← act_cons]
    congr 1
    show _ = sgn (anti1 l w ^^ anti u w)
    rw [sgn_xor, mul_comm]

/-! ## Placement -/

/-- A word on the qubits of a block. -/
def place (d : ℕ → ℕ) (w : Word) : Word := w.map fun l => (l.1, d l.2)

@[simp] theorem place_nil (d : ℕ → ℕ) : place d [] = [] := rfl
@[simp] theorem place_cons (d : ℕ → ℕ) (l : Bool × ℕ) (w : Word) : place d (l :: w) = (l.1, d l.2) :: place d w := rfl
theorem place_append (d : ℕ → ℕ) (u w : Word) : place d (u ++ w) = place d u ++ place d w := List.map_append

/-- All letters are on qubits below `r`. -/
def Within (r : ℕ) (w : Word) : Prop := ∀ l ∈ w, l.2 < r

instance (r : ℕ) (w : Word) : Decidable (Within r w) := by unfold Within; infer_instance

theorem Within.append {r : ℕ} {u w : Word} (hu : Within r u) (hw : Within r w) : Within r (u ++ w) := fun l hl =>
  (List.mem_append.1 hl).elim (hu l) (hw l)

theorem anti_place {r : ℕ} {d : ℕ → ℕ} (hd : ∀ i < r, ∀ j < r, d i = d j → i = j) {u w : Word} (hu : Within r u)
    (hw : Within r w) : anti (place d u) (place d w) = anti u w := by
  induction u with
  | nil => rfl
  | cons l u ih =>
    have h1 : ∀ w, Within r w → anti1 (l.1, d l.2) (place d w) = anti1 l w := by
      intro w hw
      induction w with
      | nil => rfl
      | cons m w ihw =>
        show (antiL _ _ ^^ anti1 _ (place d w)) = (antiL l m ^^ anti1 l w)
        rw [ihw fun x hx => hw x (List.mem_cons_of_mem _ hx)]
        congr 1
        unfold antiL
        congr 1
        refine decide_eq_decide.2 ⟨fun h => hd _ (hu l List.mem_cons_self) _ (hw m List.mem_cons_self) h, fun h => ?_⟩
        show d l.2 = d m.2
        rw [h]
    show (anti1 _ _ ^^ anti (place d u) (place d w)) = (anti1 l w ^^ anti u w)
    rw [h1 w hw, ih fun x hx => hu x (List.mem_cons_of_mem _ hx)]

theorem anti_disjoint {u w : Word} (h : ∀ l ∈ u, ∀ m ∈ w, l.2 ≠ m.2) : anti u w = false := by
  induction u with
  | nil => rfl
  | cons l u ih =>
    have h1 : ∀ w : Word, (∀ m ∈ w, l.2 ≠ m.2) → anti1 l w = false := by
      intro w hw
      induction w with
      | nil => rfl
      | cons m w ihw =>
        show (antiL l m ^^ anti1 l w) = false
        rw [ihw fun x hx => hw x (List.mem_cons_of_mem _ hx)]
        simp [antiL, hw m List.mem_cons_self]
    show (anti1 l w ^^ anti u w) = false
    rw [h1 w (h l List.mem_cons_self), ih fun x hx => h x (List.mem_cons_of_mem _ hx)]
    rfl

theorem anti_append_right (u v w : Word) : anti u (v ++ w) = (anti u v ^^ anti u w) := by
  have h1 : ∀ l, anti1 l (v ++ w) = (anti1 l v ^^ anti1 l w) := by
    intro l
    induction v with
    | nil => simp [anti1]
    | cons m v ih =>
      show (antiL l m ^^ anti1 l (v ++ w)) = ((antiL l m ^^ anti1 l v) ^^ anti1 l w)
      rw [ih, Bool.xor_assoc]
  induction u with
  | nil => rfl
  | cons l u ih =>
    show (anti1 l (v ++ w) ^^ anti u (v ++ w)) = ((anti1 l v ^^ anti u v) ^^ (anti1 l w ^^ anti u w))
    rw [ih, h1]
    cases anti1 l v <;> cases anti1 l w <;> cases anti u v <;> cases anti u w <;> rfl

/-! ## Normal forms -/

/-- Sign, qubits with an X, qubits with a Z (as bit masks): the operator `± Z… X…`. -/
structure NF where
  neg : Bool
  x : ℕ
  z : ℕ
deriving DecidableEq

def nfL (l : Bool × ℕ) (f : NF) : NF :=
  if l.1 then ⟨f.neg ^^ f.z.testBit l.2, f.x ^^^ (1 <<< l.2), f.z⟩ else ⟨f.neg, f.x, f.z ^^^ (1 <<< l.2)⟩

def nf (w : Word) : NF := w.foldr nfL ⟨false, 0, 0⟩

/-- Parity of the bits in the mask. -/
def par (z : ℕ) (y : Bits) : ℕ → Bool
  | 0 => false
  | r + 1 => par z y r ^^ (z.testBit r && y r)

/-- Flip the qubits in the mask. -/
def flips (d : ℕ → ℕ) (m : ℕ) : ℕ → Bits → Bits
  | 0, x => x
  | r + 1, x => flips d m r (if m.testBit r then flip x (d r) else x)

def actNF (d : ℕ → ℕ) (r : ℕ) (f : NF) (ψ : State R) : State R :=
  fun x => sgn (f.neg ^^ par f.z (fun j => x (d j)) r) * ψ (flips d f.x r x)

theorem testBit_xor_shift (m q j : ℕ) : (m ^^^ (1 <<< q)).testBit j = (m.testBit j ^^ decide (j = q)) := by
  rw [Nat.testBit_xor, Nat.one_shiftLeft, Nat.testBit_two_pow]
  congr 1
  exact decide_eq_decide.2 eq_comm

theorem par_toggle (z q : ℕ) (y : Bits) (r : ℕ) : par (z ^^^ (1 <<< q)) y r = (par z y r ^^ (decide (q < r) && y q)) := by
  induction r with
  | zero => simp [par]
  | succ r ih =>
    show (par _ y r ^^ _) = ((par z y r ^^ _) ^^ _)
    rw [ih, testBit_xor_shift]
    by_cases h : r = q
    · subst h; simp; cases par z y r <;> cases z.testBit r <;> cases y r <;> rfl
    · have : decide (q < r + 1) = decide (q < r) := decide_eq_decide.2 (by omega)
      rw [this]
      simp only [h, decide_false, Bool.xor_false]
      cases par z y r <;> cases (decide (q < r) && y q) <;> cases (z.testBit r && y r) <;> rfl

theorem par_flip {d : ℕ → ℕ} (z : ℕ) (x : Bits) {q : ℕ} {r : ℕ} (hd : ∀ i < r, d i = d q → i = q) :
    par z (fun j => flip x (d q) (d j)) r = (par z (fun j => x (d j)) r ^^ (decide (q < r) && z.testBit q)) := by
  induction r with
  | zero => simp [par]
  | succ r ih =>
    show (par _ _ r ^^ _) = ((par _ _ r ^^ _) ^^ _)
    rw [ih fun i hi => hd i (by omega)]
    simp only [flip_apply]
    by_cases h : r = q
    · subst h; simp; cases z.testBit r <;> cases x (d r) <;> cases par z (fun j => x (d j)) r <;> rfl
    · have : decide (q < r + 1) = decide (q < r) := decide_eq_decide.2 (by omega)
      have h2 : d r ≠ d q := fun hh => h (hd r (by omega) hh)
      rw [this]
      simp only [h2, decide_false, Bool.xor_false]
      cases par z (fun j => x (d j)) r <;> cases (decide (q < r) && z.testBit q) <;> cases (z.testBit r && x (d r)) <;> rfl

theorem flips_flip (d : ℕ → ℕ) (m p : ℕ) (r : ℕ) (x : Bits) : flips d m r (flip x p) = flip (flips d m r x) p := by
  induction r generalizing x with
  | zero => rfl
  | succ r ih =>
    show flips d m r _ = flip (flips d m r _) p
    split
    · rw [flip_comm, ih]
    · rw [ih]

theorem flips_toggle (d : ℕ → ℕ) (m q : ℕ) (r : ℕ) (x : Bits) (h : q < r) :
    flips d (m ^^^ (1 <<< q)) r x = flips d m r (flip x (d q)) := by
  induction r generalizing x with
  | zero => omega
  | succ r ih =>
    show flips d _ r _ = flips d m r _
    rw [testBit_xor_shift]
    by_cases e : r = q
    · subst e
      have hs : ∀ r' ≤ r, ∀ x, flips d (m ^^^ (1 <<< r)) r' x = flips d m r' x := by
        intro r' hr'
        induction r' with
        | zero => intro x; rfl
        | succ r' ih' =>
          intro x
          show flips d _ r' _ = flips d m r' _
          rw [testBit_xor_shift, ih' (by omega)]
          have : decide (r' = r) = false := decide_eq_false (by omega)
          rw [this, Bool.xor_false]
      rw [hs r (Nat.le_refl _)]
      cases m.testBit r
      · simp
      · simp [flip_flip]
    · rw [ih _ (by omega)]
      simp only [e, decide_false, Bool.xor_false]
      cases m.testBit r
      · rfl
      · simp only [if_true]; rw [flip_comm]

theorem actL_nf {d : ℕ → ℕ} {r : ℕ} (hd : ∀ i < r, ∀ j < r, d i = d j → i = j) (l : Bool × ℕ) (hl : l.2 < r) (f : NF)
    (ψ : State R) : actL (l.1, d l.2) (actNF d r f ψ) = actNF d r (nfL l f) ψ := by
  obtain ⟨a, q⟩ := l
  funext x
  cases a
  · show sgn (x (d q)) * (sgn (f.neg ^^ par f.z _ r) * ψ (flips d f.x r x)) =
      sgn (f.neg ^^ par (f.z ^^^ (1 <<< q)) _ r) * ψ (flips d f.x r x)
    have hq : decide (q < r) = true := decide_eq_true hl
    rw [par_toggle, hq, Bool.true_and]
    simp only [sgn_xor]
    ring
  · show sgn (f.neg ^^ par f.z (fun j => flip x (d q) (d j)) r) * ψ (flips d f.x r (flip x (d q))) =
      sgn ((f.neg ^^ f.z.testBit q) ^^ par f.z _ r) * ψ (flips d (f.x ^^^ (1 <<< q)) r x)
    have hq : decide (q < r) = true := decide_eq_true hl
    rw [par_flip f.z x (fun i hi h => hd i hi q hl h), hq, Bool.true_and, flips_toggle d f.x q r x hl]
    simp only [sgn_xor]
    ring

theorem par_zero (y : Bits) (r : ℕ) : par 0 y r = false := by
  induction r with
  | zero => rfl
  | succ r ih => show (par 0 y r ^^ _) = false; rw [ih]; simp

theorem flips_zero (d : ℕ → ℕ) (r : ℕ) (x : Bits) : flips d 0 r x = x := by
  induction r generalizing x with
  | zero => rfl
  | succ r ih => show flips d 0 r _ = x; simp [ih]

theorem act_nf {d : ℕ → ℕ} {r : ℕ} (hd : ∀ i < r, ∀ j < r, d i = d j → i = j) {w : Word} (hw : Within r w) (ψ : State R) :
    act (place d w) ψ = actNF d r (nf w) ψ := by
  induction w with
  | nil => funext x; simp [nf, actNF, par_zero, flips_zero]
  | cons l w ih =>
    rw [place_cons, act_cons, ih fun x hx => hw x (List.mem_cons_of_mem _ hx), actL_nf hd l (hw l List.mem_cons_self)]
    rfl

/-- Words with the same normal form up to sign act equally up to sign. -/
theorem act_eq_of_nf {d : ℕ → ℕ} {r : ℕ} (hd : ∀ i < r, ∀ j < r, d i = d j → i = j) {u w : Word} (hu : Within r u)
    (hw : Within r w) (hx : (nf u).x = (nf w).x) (hz : (nf u).z = (nf w).z) (ψ : State R) :
    act (place d u) ψ = (sgn ((nf u).neg ^^ (nf w).neg) : R) • act (place d w) ψ := by
  rw [act_nf hd hu, act_nf hd hw]
  funext x
  simp only [actNF, hx, hz, Pi.smul_apply, smul_eq_mul, sgn_xor]
  have := sgn_mul_self (R := R) (nf w).neg
  linear_combination (-sgn (nf u).neg * sgn (par (nf w).z (fun j => x (d j)) r) * ψ (flips d (nf w).x r x)) * this

end Verif.Ecc
