import Verif.Props.EccLogical

/-! # Logical gates of Q7Steane, Q9Shor and Q9Surface (C103) -/

namespace Verif.Ecc
open scoped BigOperators
variable {R : Type} [CommRing R] (k : Consts R)

/-! ## Q7Steane -/

/-- The gates on a block for an operation without controls. -/
def q7Local : Op → List LGate
  | .S => (List.range 7).flatMap fun j => List.replicate 3 (.S, [], j)
  | .Sdg => (List.range 7).flatMap fun j => List.replicate 3 (.Sdg, [], j)
  | .T => [(.X, [(6, true)], 5), (.X, [(5, true)], 0), (.T, [], 0), (.X, [(5, true)], 0), (.X, [(6, true)], 5)]
  | .Tdg => [(.X, [(6, true)], 5), (.X, [(5, true)], 0), (.Tdg, [], 0), (.X, [(5, true)], 0), (.X, [(6, true)], 5)]
  | op => (List.range 7).map fun j => (op, [], j)

/-- The phase. -/
def q7Phase : Op → ℕ
  | .Y => 4
  | _ => 0

theorem q7_check : ∀ op ∈ [Op.X, .Y, .Z, .S, .Sdg, .T, .Tdg], checkBlock q7Words 7 (q7Local op) op (q7Phase op) = true := by
  decide +kernel

/-- Hadamard transform of an integer function. -/
def hadZ : List ℕ → (Bits → ℤ) → Bits → ℤ
  | [], f => f
  | j :: l, f => hadZ l fun y => f (Function.update y j false) + (if y j then -1 else 1) * f (Function.update y j true)

theorem hadZ_sound (L : List ℕ) (f : Bits → ℤ) (y : Bits) :
    uact k (L.map fun j => .gate .H [] j) (fun y => (f y : R)) y = k.s ^ L.length * (hadZ L f y : R) := by
  induction L generalizing f with
  | nil => simp [hadZ]
  | cons j L ih =>
    rw [List.map_cons, uact_cons]
    have e : uactI k (.gate .H [] j) (fun y => (f y : R)) =
        k.s • fun y : Bits => ((f (Function.update y j false) + (if y j then -1 else 1) * f (Function.update y j true) : ℤ) : R) := by
      funext y
      show gateAct k .H [] j _ y = _
      rw [gateAct_nil]
      simp only [opAct, Pi.smul_apply, smul_eq_mul]
      cases y j <;> push_cast <;> simp
    rw [e, uact_smul, Pi.smul_apply, ih, smul_eq_mul, List.length_cons, pow_succ', mul_assoc]
    rfl

theorem hadZ_congr {r : ℕ} {L : List ℕ} (f : Bits → ℤ) (hf : ∀ y z : Bits, (∀ j < r, y j = z j) → f y = f z)
    (hL : ∀ j ∈ L, j < r) {y z : Bits} (h : ∀ j < r, y j = z j) : hadZ L f y = hadZ L f z := by
  induction L generalizing f with
  | nil => exact hf y z h
  | cons i L ih =>
    refine ih _ (fun y z h => ?_) fun j hj => hL j (by simp [hj])
    have hu : ∀ (v : Bool), ∀ j < r, Function.update y i v j = Function.update z i v j := fun v j hj => by
      by_cases e : j = i
      · subst e; simp
      · rw [Function.update_of_ne e, Function.update_of_ne e, h j hj]
    rw [hf _ _ (hu false), hf _ _ (hu true), h i (hL i (by simp))]

theorem q7_had : ∀ m < 2 ^ 7, ∀ β ∈ [false, true],
    hadZ (List.range 7) (q7Words β) (Nat.testBit m) =
      8 * (q7Words false m.testBit + (if β then -1 else 1) * q7Words true m.testBit) := by decide +kernel

theorem q7_h {n t : ℕ} (ht : t < n) (φ : State R) :
    uact k ((List.range 7).map fun j => .gate .H [] (dat n t j)) (encoded q7Words n φ) = encoded q7Words n (opAct k .H t φ) := by
  refine hadamard_gate k (fun β y => ?_) ht φ
  rw [hadZ_sound]
  have hb : ∀ j < 7, y j = (maskOf y 7).testBit j := fun j hj => by rw [testBit_maskOf, decide_eq_true hj, Bool.true_and]
  have := q7_had _ (maskOf_lt y 7) β (by cases β <;> simp)
  rw [hadZ_congr (q7Words β) (q7_local β) (by decide) hb, this, q7_local false _ _ hb, q7_local true _ _ hb, List.length_range]
  have hs := k.hs
  have h6 : 8 * k.s ^ 7 = k.s := by
    linear_combination (4 * k.s ^ 5 + 2 * k.s ^ 3 + k.s) * hs
  push_cast
  have e : ((if β then -1 else 1 : ℤ) : R) = sgn β := by cases β <;> simp
  push_cast at e
  rw [e]
  linear_combination ((q7Words false (maskOf y 7).testBit : R) + sgn β * (q7Words true (maskOf y 7).testBit : R)) * h6

theorem q7_ne {β : Bool} {y : Bits} (h : q7Words β y ≠ 0) (p : Bool) (γ : Bool) (z : Bits) :
    q7Words γ (fun j => z j ^^ (y j == p)) = q7Words (γ ^^ (β == p)) z := css_add (by decide) (by decide) h p γ z

theorem q7_cx {n c t : ℕ} (hc : c < n) (ht : t < n) (hct : c ≠ t) (p : Bool) (φ : State R) :
    uact k ((List.range 7).map fun j => .gate .X (Q3.copyControls n j [(c, p)]) (dat n t j)) (encoded q7Words n φ) =
      encoded q7Words n (gateAct k .X [(c, p)] t φ) := by
  rw [← one_smul R (encoded q7Words n (gateAct k .X [(c, p)] t φ))]
  refine pair_gate (c := ⟨c, hc⟩) (t := ⟨t, ht⟩) (fun e => hct (congrArg Fin.val e)) (G := gateAct k .X [(c, p)] t) (cf := fun _ _ => 1)
    (pc := fun yc _ => yc) (pt := fun yc yt j => yt j ^^ (decide (j ∈ List.range 7) && (yc j == p)))
    (f := fun b => b == p) (d := fun _ _ => 1) (fun ψ x => ?_) (fun φ b => logical_cx k (c := ⟨c, hc⟩) (t := ⟨t, ht⟩) p φ b) (fun yc yt βc βt => ?_) φ
  · rw [transversal_x k ht (fun c' hc' => by rw [List.mem_singleton.1 hc']; exact ⟨hc, hct⟩) List.nodup_range, one_mul]
    congr 1
    have e : condX n t [(c, p)] (List.range 7) x = fun j => blk n t x j ^^ (decide (j ∈ List.range 7) && (blk n c x j == p)) := by
      funext j
      simp [condX, holds_copy]
    rw [e]
    have := set_blk n c (setBlk n t (fun j => blk n t x j ^^ (decide (j ∈ List.range 7) && (blk n c x j == p))) x)
    rw [blk_set_other hc hct] at this
    exact this.symm
  · rw [one_mul, one_mul, mul_one]
    by_cases h0 : q7Words βc yc = 0
    · rw [h0]; simp
    · rw [← q7_ne h0 p βt yt]
      refine congrArg (fun z : ℤ => (q7Words βc yc : R) * (z : R)) (q7_local _ _ _ fun j hj => ?_)
      rw [decide_eq_true (List.mem_range.2 hj), Bool.true_and]

/-- Signs of pairs of code words. -/
def pairSign (p : Bool) (yc yt : Bits) (r : ℕ) : Bool := (List.range r).foldr (fun j b => ((yc j == p) && yt j) ^^ b) false

theorem q7_cz_check : ∀ m < 2 ^ 7, ∀ βc ∈ [false, true], (q7Words βc (Nat.testBit m) == 0 ||
    (List.range (2 ^ 7)).all fun m' => [false, true].all fun βt => (q7Words βt (Nat.testBit m') == 0 ||
      [false, true].all fun p => pairSign p (Nat.testBit m) (Nat.testBit m') 7 == ((βc == p) && βt))) = true := by
  decide +kernel

theorem pairSign_prod (p : Bool) (yc yt : Bits) (L : List ℕ) :
    (L.map fun j => (sgn ((yc j == p) && yt j) : R)).prod = sgn (L.foldr (fun j b => ((yc j == p) && yt j) ^^ b) false) := by
  induction L with
  | nil => simp
  | cons j L ih => rw [List.map_cons, List.prod_cons, ih, List.foldr_cons, sgn_xor]

theorem q7_cz {n c t : ℕ} (hc : c < n) (ht : t < n) (hct : c ≠ t) (p : Bool) (φ : State R) :
    uact k ((List.range 7).map fun j => .gate .Z (Q3.copyControls n j [(c, p)]) (dat n t j)) (encoded q7Words n φ) =
      encoded q7Words n (gateAct k .Z [(c, p)] t φ) := by
  rw [← one_smul R (encoded q7Words n (gateAct k .Z [(c, p)] t φ))]
  refine pair_gate (c := ⟨c, hc⟩) (t := ⟨t, ht⟩) (fun e => hct (congrArg Fin.val e)) (G := gateAct k .Z [(c, p)] t)
    (cf := fun yc yt => sgn (pairSign p yc yt 7)) (pc := fun yc _ => yc) (pt := fun _ yt => yt)
    (f := fun _ => false) (d := fun a b => sgn ((a == p) && b)) (fun ψ x => ?_) (fun φ b => logical_cz k (c := ⟨c, hc⟩) (t := ⟨t, ht⟩) p φ b) (fun yc yt βc βt => ?_) φ
  · rw [transversal_z]
    have e2 : setBlk n c (blk n c x) (setBlk n t (blk n t x) x) = x := by rw [set_blk n t x, set_blk n c x]
    show _ = sgn _ * ψ (setBlk n c (blk n c x) (setBlk n t (blk n t x) x))
    rw [e2]
    congr 1
    rw [pairSign, ← pairSign_prod]
    simp [holds_copy]
  · rw [one_mul, Bool.xor_false]
    by_cases h0 : q7Words βc yc = 0
    · rw [h0]; simp
    by_cases h1 : q7Words βt yt = 0
    · rw [h1]; simp
    have hb : ∀ y : Bits, ∀ j < 7, y j = (maskOf y 7).testBit j := fun y j hj => by
      rw [testBit_maskOf, decide_eq_true hj, Bool.true_and]
    have h := q7_cz_check _ (maskOf_lt yc 7) βc (by cases βc <;> simp)
    rw [q7_local _ _ _ (hb yc)] at h0
    rw [q7_local _ _ _ (hb yt)] at h1
    rw [Bool.or_eq_true, beq_iff_eq] at h
    have h := h.resolve_left h0
    have h := List.all_eq_true.1 (List.all_eq_true.1 h _ (List.mem_range.2 (maskOf_lt yt 7))) βt (by cases βt <;> simp)
    rw [Bool.or_eq_true, beq_iff_eq] at h
    have h := List.all_eq_true.1 (h.resolve_left h1) p (by cases p <;> simp)
    rw [beq_iff_eq] at h
    have e : pairSign p yc yt 7 = ((βc == p) && βt) := by
      rw [← h]
      unfold pairSign
      simp only [List.range_succ, List.range_zero, List.nil_append, List.cons_append, List.foldr_cons, List.foldr_nil,
        ← hb yc _ (show (0 : ℕ) < 7 by decide), ← hb yc _ (show (1 : ℕ) < 7 by decide), ← hb yc _ (show (2 : ℕ) < 7 by decide),
        ← hb yc _ (show (3 : ℕ) < 7 by decide), ← hb yc _ (show (4 : ℕ) < 7 by decide), ← hb yc _ (show (5 : ℕ) < 7 by decide),
        ← hb yc _ (show (6 : ℕ) < 7 by decide),
        ← hb yt _ (show (0 : ℕ) < 7 by decide), ← hb yt _ (show (1 : ℕ) < 7 by decide), ← hb yt _ (show (2 : ℕ) < 7 by decide),
        ← hb yt _ (show (3 : ℕ) < 7 by decide), ← hb yt _ (show (4 : ℕ) < 7 by decide), ← hb yt _ (show (5 : ℕ) < 7 by decide),
        ← hb yt _ (show (6 : ℕ) < 7 by decide)]
    rw [e]
    ring

theorem flatMap_unitary {α : Type} {l : List α} {f : α → List Instr} (h : ∀ a ∈ l, ∀ i ∈ f a, i.Unitary = true) :
    ∀ i ∈ l.flatMap f, i.Unitary = true := fun i hi => by
  obtain ⟨a, ha, hi⟩ := List.mem_flatMap.1 hi
  exact h a ha i hi

theorem q7_one (n : ℕ) (g : Gate) (t : ℕ) : ((List.range 7).flatMap fun j =>
    List.replicate 1 (Instr.gate g.op (Q3.copyControls n j g.controls) (dat n t j))) =
      (List.range 7).map fun j => .gate g.op (Q3.copyControls n j g.controls) (dat n t j) := rfl

/-- **C103**, Q7Steane.  What is missing: two or more controls, and controls on Y, H, S and S†; the claim fails for Y with one
control (`C103_violated_q7`). -/
theorem C103_q7_partial (n m : ℕ) (g : Gate) (hg : g.WF n m) (hm : g.op ≠ .measure)
    (hc : g.controls = [] ∨ ((g.op = .X ∨ g.op = .Z) ∧ g.controls.length = 1)) : MapsGate k q7Steane q7Words n m g := by
  intro s s' hs h
  change Q7.mapGate n m _ g s = _ at h
  unfold Q7.mapGate at h
  rw [hs, Bool.false_and] at h
  simp only [Bool.false_eq_true, if_false] at h
  have hrep : ∀ (r : ℕ) (t : ℕ), ∀ i ∈ ((List.range 7).flatMap fun j => List.replicate r (Instr.gate g.op (Q3.copyControls n j g.controls) (dat n t j))),
      i.Unitary = true := fun r t => flatMap_unitary fun j _ i hi => by rw [List.eq_of_mem_replicate hi]; rfl
  have local_case : g.controls = [] → ∀ (op : Op), g.op = op → op ∈ [Op.X, .Y, .Z, .S, .Sdg, .T, .Tdg] → ∀ (b : ℕ → List Instr),
      (∀ t, b t = (q7Local op).map (LGate.at n t)) → s' = s.emit (g.targets.flatMap b) →
      ∃ l, s'.out = s.out ++ l ∧ ActsAs k q7Words n l g := by
    rintro hcs op rfl hop b hb rfl
    refine ⟨_, rfl, actsAs_targets k (by rw [List.mem_cons] at hop; refine ⟨?_, ?_, ?_⟩ <;> intro e <;> rw [e] at hop <;> revert hop <;> decide)
      (u := k.ω ^ q7Phase g.op) (omega4 k (by cases g.op <;> rfl)) (fun t _ i hi => ?_) fun t ht φ => ?_⟩
    · rw [hb, List.mem_map] at hi
      obtain ⟨j, -, rfl⟩ := hi
      rfl
    · rw [hcs, gateAct_nil, hb, block_gate k q7_local (q7_check _ hop) (hg.1 t ht)]
  have ctrl : g.controls ≠ [] → ∃ c p, g.controls = [(c, p)] ∧ c < n ∧ ∀ t ∈ g.targets, c ≠ t := by
    intro hne
    obtain ⟨-, hlen⟩ := hc.resolve_left hne
    obtain ⟨⟨c, p⟩, hcp⟩ := List.length_eq_one_iff.1 hlen
    have := hg.2.1 (c, p) (by rw [hcp]; simp)
    exact ⟨c, p, hcp, this.1, fun t ht e => this.2 (show c ∈ g.targets from e ▸ ht)⟩
  have single : ∀ op, g.op = op → op = .X ∨ op = .Y ∨ op = .Z ∨ op = .H → Except.ok (s.emit (Q7.transversal 1 n g)) = Except.ok (ε := EccErr) s' →
      ∃ l, s'.out = s.out ++ l ∧ ActsAs k q7Words n l g := by
    rintro op rfl hop h
    obtain rfl := Except.ok.inj h
    by_cases hcs : g.controls = []
    · rcases hop with e | e | e | e
      · exact local_case hcs _ e (by decide) _ (fun t => by rw [q7_one, hcs, e]; rfl) rfl
      · exact local_case hcs _ e (by decide) _ (fun t => by rw [q7_one, hcs, e]; rfl) rfl
      · exact local_case hcs _ e (by decide) _ (fun t => by rw [q7_one, hcs, e]; rfl) rfl
      · refine ⟨_, rfl, actsAs_targets k (by rw [e]; decide) (u := 1) (one_pow 4) (fun t _ => hrep 1 t) fun t ht φ => ?_⟩
        rw [hcs, gateAct_nil, one_smul, e]
        exact q7_h k (hg.1 t ht) φ
    · obtain ⟨c, p, hcp, hcn, hct⟩ := ctrl hcs
      have hop' := (hc.resolve_left hcs).1
      refine ⟨_, rfl, actsAs_targets k (by rcases hop' with e | e <;> rw [e] <;> decide) (u := 1) (one_pow 4) (fun t _ => hrep 1 t) fun t ht φ => ?_⟩
      rw [one_smul, q7_one, hcp]
      rcases hop' with e | e <;> rw [e]
      · exact q7_cx k hcn (hg.1 t ht) (hct t ht) p φ
      · exact q7_cz k hcn (hg.1 t ht) (hct t ht) p φ
  have nocontrol : ∀ op, g.op = op → op ≠ .X → op ≠ .Z → g.controls = [] := by
    rintro op rfl h1 h2
    rcases hc with h | ⟨h | h, -⟩
    · exact h
    · exact absurd h h1
    · exact absurd h h2
  split at h
  · rename_i e; exact ⟨[], by obtain rfl := Except.ok.inj h; simp, actsAs_nil k _ (.inl e)⟩
  · rename_i e; exact ⟨[], by obtain rfl := Except.ok.inj h; simp, actsAs_nil k _ (.inr e)⟩
  · rename_i e; exact single _ e (.inl rfl) h
  · rename_i e; exact single _ e (.inr (.inr (.inr rfl))) h
  · rename_i e; exact single _ e (.inr (.inl rfl)) h
  · rename_i e; exact single _ e (.inr (.inr (.inl rfl))) h
  · rename_i e
    have hcs := nocontrol _ e (by decide) (by decide)
    exact local_case hcs _ e (by decide) _ (fun t => by rw [hcs, e]; rfl) (Except.ok.inj h).symm
  · rename_i e
    have hcs := nocontrol _ e (by decide) (by decide)
    exact local_case hcs _ e (by decide) _ (fun t => by rw [hcs, e]; rfl) (Except.ok.inj h).symm
  · exact absurd ‹_› hm
  · rename_i e
    have hcs := nocontrol _ e (by decide) (by decide)
    rw [hcs] at h
    simp only [ne_eq, not_true, and_false, if_false] at h
    exact local_case hcs _ e (by decide) _ (fun t => by rw [e]; simp [Q7.tBlock, q7Local, LGate.at, cx]) (Except.ok.inj h).symm
  · rename_i e
    have hcs := nocontrol _ e (by decide) (by decide)
    rw [hcs] at h
    simp only [ne_eq, not_true, and_false, if_false] at h
    exact local_case hcs _ e (by decide) _ (fun t => by rw [e]; simp [Q7.tBlock, q7Local, LGate.at, cx]) (Except.ok.inj h).symm
  · cases h

/-- A T gate and a Hadamard gate. -/
example : (∃ s', (q7Steane 2 0).mapGate { op := .T, targets := [1] } { isDecoded := false } = .ok s' ∧
      ∃ l, s'.out = [] ++ l ∧ ActsAs k q7Words 2 l { op := .T, targets := [1] }) ∧
    ∃ s', (q7Steane 2 0).mapGate { op := .H, targets := [0, 1] } { isDecoded := false } = .ok s' ∧
      ∃ l, s'.out = [] ++ l ∧ ActsAs k q7Words 2 l { op := .H, targets := [0, 1] } :=
  ⟨⟨_, rfl, C103_q7_partial k 2 0 _ (by simp [Gate.WF]) (by decide) (.inl rfl) { isDecoded := false } _ rfl rfl⟩,
    ⟨_, rfl, C103_q7_partial k 2 0 _ (by simp [Gate.WF]) (by decide) (.inl rfl) { isDecoded := false } _ rfl rfl⟩⟩

end Verif.Ecc
