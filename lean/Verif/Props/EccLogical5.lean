import Verif.Props.EccLogical4

/-! # Written gates that leave the code (C103) -/

namespace Verif.Ecc
open scoped BigOperators
variable {R : Type} [CommRing R] (k : Consts R)

/-! ## Conjugation of Pauli strings by circuits -/

def swapPos (a b q : ℕ) : ℕ := if q = a then b else if q = b then a else q

def swapBits (a b : ℕ) (x : Bits) : Bits := Function.update (Function.update x a (x b)) b (x a)

theorem swapBits_apply {a b : ℕ} (h : a ≠ b) (x : Bits) (q : ℕ) : swapBits a b x q = x (swapPos a b q) := by
  unfold swapBits swapPos
  by_cases h1 : q = a
  · subst h1; rw [if_pos rfl, Function.update_of_ne h, Function.update_self]
  · rw [if_neg h1]
    by_cases h2 : q = b
    · subst h2; rw [if_pos rfl, Function.update_self]
    · rw [if_neg h2, Function.update_of_ne h2, Function.update_of_ne h1]

theorem swapPos_inv {a b : ℕ} (q : ℕ) : swapPos a b (swapPos a b q) = q := by
  unfold swapPos
  grind

theorem swapAct_letter {a b : ℕ} (h : a ≠ b) (l : Bool × ℕ) (ψ : State R) :
    swapAct a b (actL l ψ) = actL (l.1, swapPos a b l.2) (swapAct a b ψ) := by
  obtain ⟨c, q⟩ := l
  funext x
  cases c
  · show sgn (swapBits a b x q) * ψ (swapBits a b x) = sgn (x (swapPos a b q)) * ψ (swapBits a b x)
    rw [swapBits_apply h]
  · show ψ (flip (swapBits a b x) q) = ψ (swapBits a b (flip x (swapPos a b q)))
    refine congrArg ψ (funext fun j => ?_)
    rw [flip_apply, swapBits_apply h, swapBits_apply h, flip_apply]
    congr 1
    refine decide_eq_decide.2 ⟨fun e => by rw [e], fun e => ?_⟩
    rw [← swapPos_inv (a := a) (b := b) j, e, swapPos_inv]

theorem swapAct_word {a b : ℕ} (h : a ≠ b) (w : Word) (ψ : State R) :
    swapAct a b (act w ψ) = act (w.map fun l => (l.1, swapPos a b l.2)) (swapAct a b ψ) := by
  induction w with
  | nil => rfl
  | cons l w ih =>
    rw [act_cons, swapAct_letter h, ih]
    rfl

/-- Conjugation by one instruction. -/
def conjI : Instr → Word → Option (Bool × Word)
  | .gate op cs t, w => if t ∈ cs.map Prod.fst then none else conjW op cs t w
  | .swap a b, w => if a = b then none else some (false, w.map fun l => (l.1, swapPos a b l.2))
  | _, _ => none

/-- Conjugation by a circuit. -/
def conjList : List Instr → Word → Option (Bool × Word)
  | [], w => some (false, w)
  | i :: l, w => (conjI i w).bind fun p => (conjList l p.2).map fun q => (p.1 ^^ q.1, q.2)

theorem conjI_sound {i : Instr} {w : Word} {p : Bool × Word} (h : conjI i w = some p) (ψ : State R) :
    uactI k i (act w ψ) = (sgn p.1 : R) • act p.2 (uactI k i ψ) := by
  cases i with
  | gate op cs t =>
    simp only [conjI] at h
    split at h
    · cases h
    · exact conjW_sound k ‹_› h ψ
  | swap a b =>
    simp only [conjI] at h
    split at h
    · cases h
    · rename_i hab
      cases h
      rw [sgn_false, one_smul]
      exact swapAct_word hab w ψ
  | _ => cases h

theorem conjList_sound {l : List Instr} {w : Word} {p : Bool × Word} (h : conjList l w = some p) (ψ : State R) :
    uact k l (act w ψ) = (sgn p.1 : R) • act p.2 (uact k l ψ) := by
  induction l generalizing w p ψ with
  | nil => cases h; rw [sgn_false, one_smul]; rfl
  | cons i l ih =>
    unfold conjList at h
    cases h1 : conjI i w with
    | none => rw [h1] at h; cases h
    | some p1 =>
      rw [h1, Option.bind_some] at h
      cases h2 : conjList l p1.2 with
      | none => rw [h2] at h; cases h
      | some p2 =>
        rw [h2] at h
        cases h
        rw [uact_cons, uact_cons, conjI_sound k h1, uact_smul, ih h2, smul_smul, sgn_xor]

/-- A circuit that maps a generator to a string that anticommutes with a generator does not act as a gate. -/
theorem refute_stab [Nontrivial R] {W : CodeWords} {n : ℕ} {l : List Instr} {g : Gate} (hl : ∀ i ∈ l, i.Unitary = true)
    (hg : ∀ i ∈ g.instrs, i.Unitary = true) {w₁ w₂ : Word} {p : Bool × Word}
    (h1 : ∀ φ : State R, act w₁ (encoded W n φ) = encoded W n φ) (h2 : ∀ φ : State R, act w₂ (encoded W n φ) = encoded W n φ)
    (hp : conjList l w₁ = some p) (ha : anti w₂ p.2 = true) (h : ActsAs k W n l g) (φ : State R) :
    encoded W n (uact k g.instrs φ) = 0 := by
  obtain ⟨u, hu, h⟩ := actsAs_uact k hl hg h
  have e1 := conjList_sound k hp (encoded W n φ)
  rw [h1] at e1
  have e2 : act w₂ (uact k l (encoded W n φ)) = uact k l (encoded W n φ) := by rw [h, act_smul, h2]
  have e3 := act_act w₂ p.2 (uact k l (encoded W n φ))
  rw [ha, e2] at e3
  have e4 := congrArg (act w₂) e1
  rw [act_smul, e2, e3, smul_smul, mul_comm, mul_smul, ← e1] at e4
  have e5 : ∀ x, (2 * u) * encoded W n (uact k g.instrs φ) x = 0 := by
    intro x
    have := congrFun e4 x
    rw [h, sgn_true, Pi.smul_apply, Pi.smul_apply, Pi.smul_apply, smul_eq_mul, smul_eq_mul] at this
    linear_combination this
  funext x
  have h3 := k.hs
  show _ = (0 : R)
  linear_combination (-encoded W n (uact k g.instrs φ) x) * h3 + (-(2 * k.s * k.s * encoded W n (uact k g.instrs φ) x)) * hu +
    (k.s * k.s * u ^ 3) * e5 x

theorem encoded_stab {W : CodeWords} {gens : List (List Op)} {n : ℕ} {φ : State R} (h : CodeState k n id gens (encoded W n φ)) {i : ℕ} (hi : i < n)
    {g : List Op} (hg : g ∈ gens) (hlet : ∀ o ∈ g, o = .I ∨ o = .X ∨ o = .Z) :
    act (place (dat n i) (stringWord g)) (encoded W n φ) = encoded W n φ := by
  have := h i hi g hg
  rwa [stringAct_word k g hlet] at this

theorem encoded_zero (W : CodeWords) (n : ℕ) : encoded W n (0 : State R) = 0 := by
  funext x
  rw [encoded_apply]
  exact Finset.sum_eq_zero fun b _ => mul_zero _

/-! ## Q9Shor: Z with a control -/

/-- **C103** fails for Q9Shor: what is written for Z with a control leaves the code. -/
theorem C103_violated_q9 [Nontrivial R] :
    ¬ MapsGate k q9Shor q9Words 2 0 { op := .Z, targets := [1], controls := [(0, true)] } := by
  intro h
  obtain ⟨l, hl, h⟩ := h { isDecoded := false } _ rfl rfl
  have hl : Q9.transversal 2 { op := .Z, targets := [1], controls := [(0, true)] } = l := hl
  subst hl
  have hz := refute_stab k (by decide) (by decide)
    (fun φ => encoded_stab k (C103_codes k 2 φ φ).1.2.2.2.1 (i := 0) (by decide) (g := [.Z, .Z, .I, .I, .I, .I, .I, .I, .I]) (by decide) (by decide))
    (fun φ => encoded_stab k (C103_codes k 2 φ φ).1.2.2.2.1 (i := 1) (by decide) (g := [.I, .Z, .Z, .I, .I, .I, .I, .I, .I]) (by decide) (by decide))
    (p := (false, [(false, 0), (true, 1), (false, 2), (true, 3)])) (by decide +kernel) (by decide +kernel) h (delta R ![false, false])
  rw [← encoded_zero q9Words 2] at hz
  have h0 := (C103_codes k 2 _ _).2 q9Words (by simp) hz ![false, false]
  have e : uact k (Gate.instrs { op := .Z, targets := [1], controls := [(0, true)] }) (delta R ![false, false]) (ext ![false, false]) = 1 := by
    have : uact k (Gate.instrs { op := .Z, targets := [1], controls := [(0, true)] }) (delta R ![false, false]) =
        gateAct k .Z [(0, true)] 1 (delta R ![false, false]) := rfl
    rw [this]
    unfold gateAct
    rw [if_neg (by decide), delta_ext, if_pos rfl]
  rw [e] at h0
  exact one_ne_zero h0

/-! ## Q9Surface: H -/

/-- **C103** fails for Q9Surface: what is written for H leaves the code. -/
theorem C103_violated_s9 [Nontrivial R] : ¬ MapsGate k q9Surface s9Words 1 0 { op := .H, targets := [0] } := by
  intro h
  obtain ⟨l, hl, h⟩ := h { isDecoded := false } _ rfl rfl
  have hl : S9.hadamard (List.range 9) S9.swaps (dat 1 0) ++ [] = l := hl
  rw [List.append_nil] at hl
  subst hl
  have hz := refute_stab k (by decide) (by decide)
    (fun φ => encoded_stab k (C103_codes k 1 φ φ).1.2.2.2.2 (i := 0) (by decide) (g := [.X, .X, .I, .X, .X, .I, .I, .I, .I]) (by decide) (by decide))
    (fun φ => encoded_stab k (C103_codes k 1 φ φ).1.2.2.2.2 (i := 0) (by decide) (g := [.I, .I, .I, .I, .X, .X, .I, .X, .X]) (by decide) (by decide))
    (p := (false, [(false, 6), (false, 5), (false, 7), (false, 4)])) (by decide +kernel) (by decide +kernel) h (delta R ![false])
  rw [← encoded_zero s9Words 1] at hz
  have h0 := (C103_codes k 1 _ _).2 s9Words (by simp) hz ![false]
  have e : uact k (Gate.instrs { op := .H, targets := [0] }) (delta R ![false]) (ext ![false]) = k.s := by
    show gateAct k .H [] 0 _ _ = _
    rw [gateAct_nil]
    simp [opAct, delta, ext, sgn]
  rw [e] at h0
  have h3 := k.hs
  rw [h0] at h3
  simp at h3

/-! ## Q18Surface: X and Z commute -/

/-- **C103** fails for Q18Surface, whatever the code words: what is written for X and for Z commutes, so that only the zero state
has an encoding on which both act as the gates. -/
theorem C103_violated_s18 (W : CodeWords) (hx : MapsGate k q18Surface W 1 0 { op := .X, targets := [0] })
    (hz : MapsGate k q18Surface W 1 0 { op := .Z, targets := [0] }) (φ : State R) : encoded W 1 φ = 0 := by
  obtain ⟨lx, hlx, hx⟩ := hx { isDecoded := false } _ rfl rfl
  obtain ⟨lz, hlz, hz⟩ := hz { isDecoded := false } _ rfl rfl
  have hlx : S9.pauli S18.logicalX S18.logicalZ .X (dat 1 0) ++ [] = lx := hlx
  have hlz : S9.pauli S18.logicalX S18.logicalZ .Z (dat 1 0) ++ [] = lz := hlz
  rw [List.append_nil] at hlx hlz
  subst hlx
  subst hlz
  obtain ⟨u, hu, hx⟩ := actsAs_uact k (by decide) (by decide) hx
  obtain ⟨v, hv, hz⟩ := actsAs_uact k (by decide) (by decide) hz
  have hX : ∀ φ : State R, uact k (Gate.instrs { op := .X, targets := [0] }) φ = act [(true, 0)] φ := by
    intro φ
    show gateAct k .X [] 0 φ = _
    rw [gateAct_nil]
    rfl
  have hZ : ∀ φ : State R, uact k (Gate.instrs { op := .Z, targets := [0] }) φ = act [(false, 0)] φ := by
    intro φ
    show gateAct k .Z [] 0 φ = _
    rw [gateAct_nil]
    rfl
  have hzw : ∀ ψ : State R, uact k (S9.pauli S18.logicalX S18.logicalZ .Z (dat 1 0)) ψ = act [(false, 30), (false, 25), (false, 20)] ψ := by
    intro ψ
    show gateAct k .Z [] 30 (gateAct k .Z [] 25 (gateAct k .Z [] 20 ψ)) = _
    rw [gateAct_nil, gateAct_nil, gateAct_nil]
    rfl
  have hc : ∀ ψ : State R, uact k (S9.pauli S18.logicalX S18.logicalZ .X (dat 1 0)) (act [(false, 30), (false, 25), (false, 20)] ψ) =
      act [(false, 30), (false, 25), (false, 20)] (uact k (S9.pauli S18.logicalX S18.logicalZ .X (dat 1 0)) ψ) := by
    intro ψ
    rw [conjList_sound k (p := (false, [(false, 30), (false, 25), (false, 20)])) (by decide) ψ, sgn_false, one_smul]
  have h1 : ∀ φ : State R, uact k (S9.pauli S18.logicalX S18.logicalZ .X (dat 1 0)) (encoded W 1 φ) = u • encoded W 1 (act [(true, 0)] φ) := by
    intro φ; rw [hx, hX]
  have h2 : ∀ φ : State R, act [(false, 30), (false, 25), (false, 20)] (encoded W 1 φ) = v • encoded W 1 (act [(false, 0)] φ) := by
    intro φ; rw [← hzw, hz, hZ]
  have key := hc (encoded W 1 (act [(true, 0)] (act [(false, 0)] φ)))
  rw [h2, uact_smul, h1, h1, act_smul, h2, smul_smul, smul_smul, act_act [(true, 0)] [(false, 0)] (act [(true, 0)] _)] at key
  have e1 : (sgn (anti [(true, 0)] [(false, 0)]) : R) = -1 := by
    rw [show anti [(true, 0)] [(false, 0)] = true from by decide, sgn_true]
  have e2 : act [(false, 0)] (act [(true, 0)] (act [(true, 0)] (act [(false, 0)] φ))) = φ := by
    funext x
    simp only [act_cons, act_nil, actL_apply_false, actL_apply_true, flip_flip]
    cases x 0 <;> simp
  rw [e1, e2] at key
  funext x
  have := congrFun key x
  rw [Pi.smul_apply, Pi.smul_apply, smul_eq_mul, smul_eq_mul, encoded_smul, Pi.smul_apply, smul_eq_mul] at this
  have h3 := k.hs
  show _ = (0 : R)
  have e3 : u ^ 4 * v ^ 4 = 1 := by rw [hu, hv, one_mul]
  linear_combination (-encoded W 1 φ x) * h3 + (-(2 * k.s * k.s * encoded W 1 φ x)) * e3 - (k.s * k.s * u ^ 3 * v ^ 3) * this

/-- The claim fails for every choice of code words that has a state. -/
theorem C103_violated_s18_claim (W : CodeWords) (φ : State R) (h0 : encoded W 1 φ ≠ 0) : ¬ C103_claim R k q18Surface W := fun h =>
  h0 (C103_violated_s18 k W (h 1 0 _ (by simp [Gate.WF]) (by decide)) (h 1 0 _ (by simp [Gate.WF]) (by decide)) φ)

example [Nontrivial R] : encoded (R := R) q3Words 1 (fun _ => 1) ≠ 0 := by
  intro h
  have h1 := (C103_codes k 1 (fun _ => 1) 0).2 q3Words (by simp) (h.trans (encoded_zero _ _).symm) ![false]
  exact one_ne_zero h1

end Verif.Ecc
