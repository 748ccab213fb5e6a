import Verif.Lemmas.EccCodes
import Mathlib.Analysis.Real.Sqrt
import Mathlib.Data.Complex.Basic

/-! # The complex numbers, and code states given by tables -/

namespace Verif.Ecc
variable {R : Type} [CommRing R] (k : Consts R)

/-- `1/√2` and `e^{iπ/4}`. -/
noncomputable def complexConsts : Consts ℂ where
  s := ((Real.sqrt 2 / 2 : ℝ) : ℂ)
  ω := ⟨Real.sqrt 2 / 2, Real.sqrt 2 / 2⟩
  hs := by
    have h : (2 : ℝ) * (Real.sqrt 2 / 2) * (Real.sqrt 2 / 2) = 1 := by
      have := Real.mul_self_sqrt (show (0 : ℝ) ≤ 2 by norm_num)
      linarith
    exact_mod_cast congrArg (fun x : ℝ => (x : ℂ)) h
  hω := by
    have h := Real.mul_self_sqrt (show (0 : ℝ) ≤ 2 by norm_num)
    have h2 : (⟨Real.sqrt 2 / 2, Real.sqrt 2 / 2⟩ : ℂ) ^ 2 = Complex.I := by
      rw [pow_two]
      apply Complex.ext <;> simp [Complex.mul_re, Complex.mul_im] <;> linarith
    rw [show (4 : ℕ) = 2 * 2 from rfl, pow_mul, h2, Complex.I_sq]

/-- The state with amplitude `tab m` for the bits of `m` on the qubits below `r`. -/
def tabState (R : Type) [CommRing R] (r : ℕ) (tab : ℕ → ℤ) : State R := fun x => ((tab (maskOf x r) : ℤ) : R)

theorem maskOf_congr {v w : ℕ → Bool} {r : ℕ} (h : ∀ j < r, v j = w j) : maskOf v r = maskOf w r := by
  induction r with
  | zero => rfl
  | succ r ih =>
    show maskOf v r ||| _ = maskOf w r ||| _
    rw [ih fun j hj => h j (by omega), h r (by omega)]

theorem par_congr {z : ℕ} {v w : ℕ → Bool} {r : ℕ} (h : ∀ j < r, v j = w j) : par z v r = par z w r := by
  induction r with
  | zero => rfl
  | succ r ih =>
    show (par z v r ^^ _) = (par z w r ^^ _)
    rw [ih fun j hj => h j (by omega), h r (by omega)]

theorem flips_bit (m : ℕ) (r : ℕ) (x : Bits) (j : ℕ) : flips id m r x j = (x j ^^ (decide (j < r) && m.testBit j)) := by
  induction r generalizing x with
  | zero => simp [flips]
  | succ r ih =>
    show flips id m r (if m.testBit r then flip x (id r) else x) j = _
    rw [ih]
    by_cases hj : j = r
    · subst hj
      cases m.testBit j <;> simp
    · have h1 : (if m.testBit r = true then flip x (id r) else x) j = x j := by
        split
        · exact flip_other hj
        · rfl
      have h2 : decide (j < r + 1) = decide (j < r) := decide_eq_decide.2 (by omega)
      rw [h1, h2]

/-- The table is fixed by the operator. -/
def tabOK (r : ℕ) (f : NF) (tab : ℕ → ℤ) : Prop :=
  ∀ m < 2 ^ r, (if f.neg ^^ par f.z m.testBit r then -1 else 1) * tab (maskOf (fun j => m.testBit j ^^ f.x.testBit j) r) = tab m

instance (r : ℕ) (f : NF) (tab : ℕ → ℤ) : Decidable (tabOK r f tab) := by unfold tabOK; infer_instance

theorem tabState_fixed {r : ℕ} {w : Word} (hw : Within r w) {tab : ℕ → ℤ} (h : tabOK r (nf w) tab) :
    act (place id w) (tabState R r tab) = tabState R r tab := by
  rw [act_nf (d := id) (fun i _ j _ e => e) hw]
  funext x
  have hb : ∀ j < r, (maskOf x r).testBit j = x j := fun j hj => by rw [testBit_maskOf, decide_eq_true hj, Bool.true_and]
  have hx := h _ (maskOf_lt x r)
  have h1 : par (nf w).z (maskOf x r).testBit r = par (nf w).z (fun j => x (id j)) r := par_congr hb
  have h2 : maskOf (fun j => (maskOf x r).testBit j ^^ (nf w).x.testBit j) r = maskOf (flips id (nf w).x r x) r :=
    maskOf_congr fun j hj => by rw [hb j hj, flips_bit, decide_eq_true hj, Bool.true_and]
  rw [h1, h2] at hx
  show sgn _ * ((tab _ : ℤ) : R) = ((tab _ : ℤ) : R)
  rw [← hx]
  cases (nf w).neg ^^ par (nf w).z (fun j => x (id j)) r <;> simp

theorem tabState_code {r : ℕ} {gens : List (List Op)} (hlet : ∀ g ∈ gens, ∀ o ∈ g, o = .I ∨ o = .X ∨ o = .Z)
    (hlen : ∀ g ∈ gens, Within r (stringWord g)) {tab : ℕ → ℤ} (h : ∀ g ∈ gens, tabOK r (nf (stringWord g)) tab) :
    CodeState k 1 id gens (tabState R r tab) := by
  intro i hi g hg
  obtain rfl : i = 0 := by omega
  rw [stringAct_word k g (hlet g hg)]
  have : (fun j => dat 1 0 (id j)) = id := by funext j; simp [dat]
  rw [this]
  exact tabState_fixed (hlen g hg) (h g hg)

theorem tabState_free {r : ℕ} {tab : ℕ → ℤ} {q : ℕ} (hq : r ≤ q) : Free (tabState R r tab) q := fun x b => by
  show ((tab _ : ℤ) : R) = ((tab _ : ℤ) : R)
  rw [maskOf_congr fun j hj => Function.update_of_ne (by omega : j ≠ q) _ _]

theorem tabState_ne {r : ℕ} {tab : ℕ → ℤ} (h1 : (1 : R) ≠ 0) (h : tab 0 = 1) : tabState R r tab ≠ 0 := fun e => by
  have := congrFun e fun _ => false
  have hm : maskOf (fun _ => false) r = 0 := by
    clear e this
    induction r with
    | zero => rfl
    | succ r ih => show maskOf _ r ||| _ = 0; rw [ih]; simp
  change ((tab (maskOf (fun _ => false) r) : ℤ) : R) = 0 at this
  rw [hm, h, Int.cast_one] at this
  exact h1 this

theorem shared_free {n r K : ℕ} {ψ : State R} (h : ∀ q, n * r ≤ q → Free ψ q) : ∀ q ∈ sharedAnc n r K, Free ψ q := fun q hq => by
  obtain ⟨j, _, rfl⟩ := List.mem_map.1 hq
  exact h _ (by omega)

end Verif.Ecc
