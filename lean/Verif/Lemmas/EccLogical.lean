import Verif.Lemmas.EccTrack
import Verif.Lemmas.EccExample
import Verif.Spec.EccLogical
import Mathlib.Algebra.BigOperators.Ring.Finset
import Mathlib.Algebra.BigOperators.Fin

/-! # Logical gates: reduction to one block -/

namespace Verif.Ecc
open scoped BigOperators
variable {R : Type} [CommRing R] (k : Consts R)

/-! ## Circuits without measurements -/

/-- Gates and swaps only. -/
def Instr.Unitary : Instr → Bool
  | .gate _ _ _ | .swap _ _ => true
  | _ => false

def uactI : Instr → State R → State R
  | .gate op cs t => gateAct k op cs t
  | .swap a b => swapAct a b
  | _ => id

/-- The effect of a circuit of gates. -/
def uact (l : List Instr) (ψ : State R) : State R := l.foldl (fun ψ i => uactI k i ψ) ψ

@[simp] theorem uact_nil (ψ : State R) : uact k [] ψ = ψ := rfl
@[simp] theorem uact_cons (i : Instr) (l : List Instr) (ψ : State R) : uact k (i :: l) ψ = uact k l (uactI k i ψ) := rfl
theorem uact_append (l l' : List Instr) (ψ : State R) : uact k (l ++ l') ψ = uact k l' (uact k l ψ) := by
  simp [uact]

theorem branch_unitary {l : List Instr} (hl : ∀ i ∈ l, i.Unitary = true) (c c' : Config R) :
    Branch k l c c' ↔ c' = (uact k l c.1, c.2) := by
  induction l generalizing c with
  | nil => exact Iff.rfl
  | cons i l ih =>
    rw [branch_cons]
    have hi := hl i (by simp)
    have key : ∀ d, Step k i c d ↔ d = (uactI k i c.1, c.2) := by
      intro d
      cases i <;> simp only [Instr.Unitary, Bool.false_eq_true] at hi <;> rfl
    constructor
    · rintro ⟨d, h1, h2⟩
      rw [(key d).1 h1, ih fun x hx => hl x (by simp [hx])] at h2
      exact h2
    · intro h
      exact ⟨_, (key _).2 rfl, (ih (fun x hx => hl x (by simp [hx])) _).2 h⟩

theorem opAct_smul (op : Op) (t : ℕ) (u : R) (ψ : State R) : opAct k op t (u • ψ) = u • opAct k op t ψ := by
  have := gateAct_smul k op [] t u ψ
  rwa [gateAct_nil, gateAct_nil] at this

theorem uactI_smul (i : Instr) (u : R) (ψ : State R) : uactI k i (u • ψ) = u • uactI k i ψ := by
  cases i <;> simp only [uactI, id]
  · exact gateAct_smul k _ _ _ u ψ
  · rfl

theorem uact_smul (l : List Instr) (u : R) (ψ : State R) : uact k l (u • ψ) = u • uact k l ψ := by
  induction l generalizing ψ with
  | nil => rfl
  | cons i l ih => rw [uact_cons, uact_cons, uactI_smul, ih]

/-! ## Blocks -/

/-- The bits of block `t`. -/
def blk (n t : ℕ) (x : Bits) : Bits := fun j => x (dat n t j)

/-- The bits of block `t` replaced. -/
def setBlk (n t : ℕ) (y x : Bits) : Bits := fun q => if q % n = t then y (q / n) else x q

theorem blk_set {n t : ℕ} (ht : t < n) (y x : Bits) : blk n t (setBlk n t y x) = y := by
  funext j
  have h1 : dat n t j % n = t := by unfold dat; rw [Nat.add_mul_mod_self_right, Nat.mod_eq_of_lt ht]
  have h2 : dat n t j / n = j := by
    unfold dat
    rw [Nat.add_mul_div_right _ _ (by omega), Nat.div_eq_of_lt ht, Nat.zero_add]
  simp [blk, setBlk, h1, h2]

theorem blk_set_other {n t i : ℕ} (hi : i < n) (h : i ≠ t) (y x : Bits) : blk n i (setBlk n t y x) = blk n i x := by
  funext j
  have h1 : dat n i j % n = i := by unfold dat; rw [Nat.add_mul_mod_self_right, Nat.mod_eq_of_lt hi]
  simp [blk, setBlk, h1, h]

theorem set_set (n t : ℕ) (y y' x : Bits) : setBlk n t y (setBlk n t y' x) = setBlk n t y x := by
  funext q
  simp only [setBlk]
  split <;> rfl

theorem set_blk (n t : ℕ) (x : Bits) : setBlk n t (blk n t x) x = x := by
  funext q
  simp only [setBlk, blk, dat]
  split
  · rename_i h
    rw [← h, Nat.mod_add_div']
  · rfl

theorem flip_dat {n t : ℕ} (ht : t < n) (j : ℕ) (x : Bits) : flip x (dat n t j) = setBlk n t (flip (blk n t x) j) x := by
  funext q
  by_cases h : q % n = t
  · have hq : q = dat n t (q / n) := by unfold dat; rw [← h, Nat.mod_add_div']
    have : setBlk n t (flip (blk n t x) j) x q = flip (blk n t x) j (q / n) := by simp [setBlk, h]
    rw [this, flip_apply, flip_apply]
    congr 1
    · rw [blk, ← hq]
    · refine decide_eq_decide.2 ⟨fun e => ?_, fun e => ?_⟩
      · exact ((dat_inj ht ht (e.symm.trans hq)).2).symm
      · rw [hq, e]
  · have h1 : dat n t j % n = t := by unfold dat; rw [Nat.add_mul_mod_self_right, Nat.mod_eq_of_lt ht]
    have : q ≠ dat n t j := fun e => h (by rw [e, h1])
    rw [flip_other this]
    simp [setBlk, h]

/-! ## Monomial operations on one block -/

/-- An operation that permutes basis states up to powers of `ω`. -/
def Op.mono : Op → Bool
  | .H => false
  | _ => true

/-- The power of `ω`. -/
def Op.expo : Op → Bool → ℕ
  | .Y, b => if b then 2 else 6
  | .Z, true => 4
  | .S, true => 2
  | .Sdg, true => 6
  | .T, true => 1
  | .Tdg, true => 7
  | _, _ => 0

def Op.flips : Op → Bool
  | .X | .Y => true
  | _ => false

theorem omega8 : k.ω ^ 8 = 1 := by
  rw [show (8 : ℕ) = 4 * 2 from rfl, pow_mul, k.hω]; ring

theorem omega_mod {a b : ℕ} (h : a % 8 = b % 8) : k.ω ^ a = k.ω ^ b := by
  rw [← Nat.div_add_mod a 8, ← Nat.div_add_mod b 8, pow_add, pow_mul, omega8, one_pow, pow_add, pow_mul, omega8, one_pow, h]

theorem opAct_mono {op : Op} (h : op.mono = true) (t : ℕ) (ψ : State R) (x : Bits) :
    opAct k op t ψ x = k.ω ^ op.expo (x t) * ψ (if op.flips then flip x t else x) := by
  have h4 := k.hω
  cases op <;> simp only [Op.mono, Bool.false_eq_true] at h <;> cases hx : x t <;>
    simp only [opAct, Op.expo, Op.flips, hx, Bool.false_eq_true, if_false, if_true, pow_zero, one_mul, sgn_false, sgn_true,
      Consts.im, pow_one]
  · linear_combination (-(k.ω ^ 2) * ψ (flip x t)) * h4
  · ring
  · linear_combination (-ψ x) * h4
  · linear_combination (-(k.ω ^ 2) * ψ x) * h4

/-- A gate inside a block: operation, controls and target, as positions in the block. -/
abbrev LGate := Op × List (ℕ × Bool) × ℕ

def LGate.at (n t : ℕ) (g : LGate) : Instr := .gate g.1 (g.2.1.map fun c => (dat n t c.1, c.2)) (dat n t g.2.2)

def LGate.expo (g : LGate) (y : Bits) : ℕ := if holds g.2.1 y then g.1.expo (y g.2.2) else 0
def LGate.perm (g : LGate) (y : Bits) : Bits := if holds g.2.1 y && g.1.flips then flip y g.2.2 else y

/-- Exponent and permutation of a list of gates. -/
def locP : List LGate → Bits → Bits
  | [], y => y
  | g :: l, y => g.perm (locP l y)
def locE : List LGate → Bits → ℕ
  | [], _ => 0
  | g :: l, y => locE l y + g.expo (locP l y)

theorem holds_at (n t : ℕ) (cs : List (ℕ × Bool)) (x : Bits) :
    holds (cs.map fun c => (dat n t c.1, c.2)) x = holds cs (blk n t x) := by
  simp [holds, blk, List.all_map, Function.comp_def]

theorem lgate_act {n t : ℕ} (ht : t < n) {g : LGate} (hg : g.1.mono = true) (ψ : State R) (x : Bits) :
    uactI k (g.at n t) ψ x = k.ω ^ g.expo (blk n t x) * ψ (setBlk n t (g.perm (blk n t x)) x) := by
  show gateAct k _ _ _ ψ x = _
  unfold gateAct LGate.expo LGate.perm
  rw [holds_at]
  split
  · rename_i hh
    rw [opAct_mono k hg, hh, Bool.true_and]
    show k.ω ^ g.1.expo (blk n t x g.2.2) * _ = _
    congr 2
    split
    · exact flip_dat ht _ _
    · exact (set_blk n t x).symm
  · rename_i hh
    have : (false && g.1.flips) = false := rfl
    rw [show holds g.2.1 (blk n t x) = false from by simpa using hh, this, if_neg Bool.false_ne_true, set_blk, pow_zero, one_mul]

theorem loc_act {n t : ℕ} (ht : t < n) {l : List LGate} (hl : ∀ g ∈ l, g.1.mono = true) (ψ : State R) (x : Bits) :
    uact k (l.map (LGate.at n t)) ψ x = k.ω ^ locE l (blk n t x) * ψ (setBlk n t (locP l (blk n t x)) x) := by
  induction l generalizing ψ with
  | nil => simp [locE, locP, set_blk]
  | cons g l ih =>
    rw [List.map_cons, uact_cons, ih fun y hy => hl y (by simp [hy]), lgate_act k ht (hl g (by simp)), blk_set ht, set_set]
    show _ = k.ω ^ (locE l _ + g.expo (locP l _)) * ψ (setBlk n t (g.perm (locP l _)) x)
    rw [pow_add, mul_assoc]

/-! ## Encoded states -/

/-- The product of the amplitudes. -/
def prodW (R : Type) [CommRing R] (W : CodeWords) (n : ℕ) (b : Fin n → Bool) (x : Bits) : R :=
  ∏ i : Fin n, ((W (b i) (blk n i x) : ℤ) : R)

theorem encoded_apply (W : CodeWords) (n : ℕ) (φ : State R) (x : Bits) :
    encoded W n φ x = ∑ b : Fin n → Bool, prodW R W n b x * φ (ext b) := rfl

theorem prodW_split (W : CodeWords) {n : ℕ} (t : Fin n) (b : Fin n → Bool) (x : Bits) :
    prodW R W n b x = (W (b t) (blk n t x) : R) * ∏ i ∈ Finset.univ.erase t, ((W (b i) (blk n i x) : ℤ) : R) :=
  (Finset.mul_prod_erase _ _ (Finset.mem_univ t)).symm

/-- Both sides are monomial: the terms are compared one by one. -/
theorem encoded_mono {W : CodeWords} {n : ℕ} {U G : State R → State R} {c : Bits → R} {π : Bits → Bits}
    (hU : ∀ ψ x, U ψ x = c x * ψ (π x)) {d : (Fin n → Bool) → R} {ρ : (Fin n → Bool) → Fin n → Bool}
    (hρ : Function.Involutive ρ) (hG : ∀ φ b, G φ (ext b) = d b * φ (ext (ρ b))) {u : R}
    (h : ∀ x b, c x * prodW R W n b (π x) = u * (prodW R W n (ρ b) x * d (ρ b))) (φ : State R) :
    U (encoded W n φ) = u • encoded W n (G φ) := by
  funext x
  rw [hU, encoded_apply, Finset.mul_sum, Pi.smul_apply, encoded_apply, smul_eq_mul, Finset.mul_sum]
  rw [← Equiv.sum_comp hρ.toPerm fun b => u * (prodW R W n b x * G φ (ext b))]
  refine Finset.sum_congr rfl fun b _ => ?_
  show _ = u * (prodW R W n (ρ b) x * G φ (ext (ρ b)))
  rw [hG, hρ b, ← mul_assoc, h]
  ring

theorem ext_fin {n : ℕ} (b : Fin n → Bool) (t : Fin n) : ext b t = b t := by
  simp [ext]

theorem ext_update {n : ℕ} (b : Fin n → Bool) (t : Fin n) (v : Bool) : ext (Function.update b t v) = Function.update (ext b) t v := by
  funext q
  by_cases h : q = t
  · subst h; simp [ext]
  · rw [Function.update_of_ne h]
    unfold ext
    split
    · rename_i hq
      rw [Function.update_of_ne fun e => h (by rw [← e])]
    · rfl

theorem ext_flip {n : ℕ} (b : Fin n → Bool) (t : Fin n) : flip (ext b) t = ext (Function.update b t (!b t)) := by
  rw [ext_update, flip, ext_fin]

/-- The values after an operation on `t`. -/
def flipAt {n : ℕ} (f : Bool) (t : Fin n) (b : Fin n → Bool) : Fin n → Bool := Function.update b t (b t ^^ f)

theorem flipAt_inv {n : ℕ} (f : Bool) (t : Fin n) : Function.Involutive (flipAt f t) := fun b => by
  unfold flipAt
  simp

theorem flipAt_false {n : ℕ} (t : Fin n) (b : Fin n → Bool) : flipAt false t b = b := by
  unfold flipAt; simp

theorem ext_flipAt {n : ℕ} (f : Bool) (t : Fin n) (b : Fin n → Bool) : ext (flipAt f t b) = if f then flip (ext b) t else ext b := by
  cases f
  · rw [flipAt_false]; rfl
  · rw [if_pos rfl, ext_flip]; unfold flipAt; simp

/-- The words have length `r`. -/
def CodeWords.Local (W : CodeWords) (r : ℕ) : Prop := ∀ b y z, (∀ j < r, y j = z j) → W b y = W b z

/-- The comparison of the terms, for one block: `ω ^ e₁ * v₁ = ω ^ e₂ * v₂`. -/
def sameTerm (e₁ : ℕ) (v₁ : ℤ) (e₂ : ℕ) (v₂ : ℤ) : Bool :=
  (v₁ == 0 && v₂ == 0) || (e₁ % 8 == e₂ % 8 && v₁ == v₂) || (e₁ % 8 == (e₂ + 4) % 8 && v₁ == -v₂)

theorem sameTerm_sound {e₁ e₂ : ℕ} {v₁ v₂ : ℤ} (h : sameTerm e₁ v₁ e₂ v₂ = true) : k.ω ^ e₁ * (v₁ : R) = k.ω ^ e₂ * (v₂ : R) := by
  simp only [sameTerm, Bool.or_eq_true, Bool.and_eq_true, beq_iff_eq] at h
  rcases h with (⟨rfl, rfl⟩ | ⟨h, rfl⟩) | ⟨h, rfl⟩
  · simp
  · rw [omega_mod k h]
  · rw [omega_mod k h, pow_add, k.hω, Int.cast_neg]
    ring

/-- The gates of `l` act on the code words as `op`, with the phase `ω ^ u`. -/
def checkBlock (W : CodeWords) (r : ℕ) (l : List LGate) (op : Op) (u : ℕ) : Bool :=
  l.all (fun g => g.1.mono && decide (g.2.2 < r) && g.2.1.all fun c => decide (c.1 < r)) && op.mono &&
  (List.range (2 ^ r)).all fun m => [false, true].all fun b =>
    sameTerm (locE l m.testBit) (W b (locP l m.testBit)) (u + op.expo (b ^^ op.flips)) (W (b ^^ op.flips) m.testBit)

theorem holds_local {r : ℕ} {cs : List (ℕ × Bool)} (hcs : ∀ c ∈ cs, c.1 < r) {y z : Bits} (h : ∀ j < r, y j = z j) :
    holds cs y = holds cs z := holds_congr fun c hc => h _ (hcs c hc)

theorem loc_local {r : ℕ} {l : List LGate} (hl : ∀ g ∈ l, g.2.2 < r ∧ ∀ c ∈ g.2.1, c.1 < r) {y z : Bits} (h : ∀ j < r, y j = z j) :
    (∀ j < r, locP l y j = locP l z j) ∧ locE l y = locE l z := by
  induction l with
  | nil => exact ⟨h, rfl⟩
  | cons g l ih =>
    obtain ⟨h1, h2⟩ := ih fun x hx => hl x (by simp [hx])
    obtain ⟨h3, h4⟩ := hl g (by simp)
    have hh := holds_local h4 h1
    constructor
    · intro j hj
      show g.perm _ j = g.perm _ j
      unfold LGate.perm
      rw [hh]
      split
      · rw [flip_apply, flip_apply, h1 j hj]
      · exact h1 j hj
    · show locE l y + g.expo _ = locE l z + g.expo _
      unfold LGate.expo
      rw [h2, hh, h1 _ h3]

theorem checkBlock_sound {W : CodeWords} {r : ℕ} (hW : W.Local r) {l : List LGate} {op : Op} {u : ℕ}
    (h : checkBlock W r l op u = true) (y : Bits) (b : Bool) :
    k.ω ^ locE l y * (W b (locP l y) : R) = k.ω ^ u * ((W (b ^^ op.flips) y : R) * k.ω ^ op.expo (b ^^ op.flips)) := by
  unfold checkBlock at h
  simp only [Bool.and_eq_true, List.all_eq_true, decide_eq_true_eq, List.mem_range] at h
  obtain ⟨⟨h1, h2⟩, h3⟩ := h
  have hb : ∀ j < r, y j = (maskOf y r).testBit j := fun j hj => by rw [testBit_maskOf, decide_eq_true hj, Bool.true_and]
  have hc := sameTerm_sound (R := R) k (h3 _ (maskOf_lt y r) b (by cases b <;> simp))
  obtain ⟨h4, h5⟩ := loc_local (fun g hg => ⟨(h1 g hg).1.2, (h1 g hg).2⟩) hb
  rw [h5, hW _ _ _ h4, hW (b ^^ op.flips) y _ hb, hc, pow_add]
  ring

/-- One block. -/
theorem block_gate {W : CodeWords} {r : ℕ} (hW : W.Local r) {l : List LGate} {op : Op} {u : ℕ}
    (h : checkBlock W r l op u = true) {n t : ℕ} (ht : t < n) (φ : State R) :
    uact k (l.map (LGate.at n t)) (encoded W n φ) = k.ω ^ u • encoded W n (opAct k op t φ) := by
  have hmono : (∀ g ∈ l, g.1.mono = true) ∧ op.mono = true := by
    unfold checkBlock at h
    simp only [Bool.and_eq_true, List.all_eq_true] at h
    exact ⟨fun g hg => ((h.1.1 g hg).1).1, h.1.2⟩
  refine encoded_mono (G := opAct k op t) (c := fun x => k.ω ^ locE l (blk n t x)) (π := fun x => setBlk n t (locP l (blk n t x)) x)
    (d := fun b => k.ω ^ op.expo (b ⟨t, ht⟩)) (ρ := flipAt op.flips ⟨t, ht⟩) (fun ψ x => loc_act k ht hmono.1 ψ x)
    (flipAt_inv _ _) (fun φ b => ?_) (fun x b => ?_) φ
  · rw [opAct_mono k hmono.2, ext_flipAt]
    exact congrArg (fun z => k.ω ^ op.expo z * _) (ext_fin b ⟨t, ht⟩)
  · rw [prodW_split W ⟨t, ht⟩, prodW_split W ⟨t, ht⟩ _ x]
    have e1 : ∏ i ∈ Finset.univ.erase (⟨t, ht⟩ : Fin n), ((W (b i) (blk n i (setBlk n t (locP l (blk n t x)) x)) : ℤ) : R) =
        ∏ i ∈ Finset.univ.erase (⟨t, ht⟩ : Fin n), ((W (flipAt op.flips ⟨t, ht⟩ b i) (blk n i x) : ℤ) : R) := by
      refine Finset.prod_congr rfl fun i hi => ?_
      have hne : i ≠ ⟨t, ht⟩ := (Finset.mem_erase.1 hi).1
      have hne' : (i : ℕ) ≠ t := fun e => hne (Fin.ext e)
      rw [blk_set_other i.2 hne', flipAt, Function.update_of_ne hne]
    rw [e1]
    have e2 : flipAt op.flips ⟨t, ht⟩ b ⟨t, ht⟩ = (b ⟨t, ht⟩ ^^ op.flips) := by simp [flipAt]
    simp only [e2]
    show _ * ((W (b ⟨t, ht⟩) (blk n t _) : R) * _) = _
    rw [blk_set ht]
    have := checkBlock_sound (R := R) k hW h (blk n t x) (b ⟨t, ht⟩)
    linear_combination (∏ i ∈ Finset.univ.erase (⟨t, ht⟩ : Fin n), ((W (flipAt op.flips ⟨t, ht⟩ b i) (blk n i x) : ℤ) : R)) * this

end Verif.Ecc
