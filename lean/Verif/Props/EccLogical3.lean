import Verif.Props.EccLogical2

/-! # Logical gates of Q9Shor and Q9Surface (C103) -/

namespace Verif.Ecc
open scoped BigOperators
variable {R : Type} [CommRing R] (k : Consts R)

/-! ## Q9Shor -/

def q9Phase : Op → ℕ
  | .Y => 4
  | _ => 0

theorem q9_check : ∀ op ∈ [Op.X, .Y, .Z],
    checkBlock q9Words 9 ((List.range 9).map fun j => (Q9.physical op, [], j)) op (q9Phase op) = true := by
  decide +kernel

theorem update_update_flip (x : Bits) (a : ℕ) (v : Bool) : Function.update x a v = if x a = v then x else flip x a := by
  split
  · rename_i h
    rw [← h, Function.update_eq_self]
  · rename_i h
    unfold flip
    congr 1
    cases v <;> cases hx : x a <;> simp_all

theorem hh_id (a : ℕ) (ψ : State R) : opAct k .H a (opAct k .H a ψ) = ψ := by
  funext x
  have hs := k.hs
  simp only [opAct, Function.update_idem, Function.update_self, sgn_false, sgn_true]
  cases hx : x a
  · have : Function.update x a false = x := by rw [← hx, Function.update_eq_self]
    rw [this, sgn_false]
    linear_combination ψ x * hs
  · have : Function.update x a true = x := by rw [← hx, Function.update_eq_self]
    rw [this, sgn_true]
    linear_combination ψ x * hs

/-- Hadamard, controlled Z, Hadamard. -/
theorem hczh {a b : ℕ} (hab : a ≠ b) (p : Bool) (ψ : State R) (x : Bits) :
    uact k [h a, .gate .Z [(a, p)] b, h a] ψ x = sgn (!p && x b) * ψ (if x b then flip x a else x) := by
  show gateAct k .H [] a (gateAct k .Z [(a, p)] b (gateAct k .H [] a ψ)) x = _
  rw [gateAct_nil, gateAct_nil]
  have hs := k.hs
  have hh : ∀ y : Bits, holds [(a, p)] y = (y a == p) := fun y => by simp [holds]
  have hz : ∀ (v : Bool), gateAct k .Z [(a, p)] b (opAct k .H a ψ) (Function.update x a v) =
      (if v = p then sgn (x b) else 1) * (k.s * (ψ (Function.update x a false) + sgn v * ψ (Function.update x a true))) := by
    intro v
    unfold gateAct
    rw [hh]
    simp only [opAct, Function.update_self, Function.update_idem, Function.update_of_ne hab.symm]
    by_cases e : v = p <;> simp [e]
  have : opAct k .H a (gateAct k .Z [(a, p)] b (opAct k .H a ψ)) x =
      k.s * (gateAct k .Z [(a, p)] b (opAct k .H a ψ) (Function.update x a false) +
        sgn (x a) * gateAct k .Z [(a, p)] b (opAct k .H a ψ) (Function.update x a true)) := rfl
  rw [this, hz, hz, update_update_flip x a false, update_update_flip x a true]
  cases hxb : x b <;> cases hxa : x a <;> cases p <;>
    simp only [Bool.not_true, Bool.not_false, Bool.true_and, Bool.false_and, sgn_false, sgn_true, Bool.false_eq_true, if_false, if_true,
      reduceCtorEq] <;> first
      | linear_combination ψ x * hs
      | linear_combination ψ (flip x a) * hs
      | linear_combination (-ψ (flip x a)) * hs

theorem q9_copies {n c t : ℕ} (hc : c < n) (ht : t < n) (hct : c ≠ t) (p : Bool) {L : List ℕ} (hL : L.Nodup) (ψ : State R) (x : Bits) :
    uact k (L.flatMap fun j => [h (dat n c j), .gate .Z [(dat n c j, p)] (dat n t j), h (dat n c j)]) ψ x =
      (L.map fun j => (sgn (!p && blk n t x j) : R)).prod *
        ψ (setBlk n c (fun j => blk n c x j ^^ (decide (j ∈ L) && blk n t x j)) x) := by
  induction L generalizing ψ with
  | nil =>
    have : (fun j => blk n c x j ^^ (decide (j ∈ ([] : List ℕ)) && blk n t x j)) = blk n c x := by funext j; simp
    rw [this, set_blk]
    simp
  | cons j L ih =>
    obtain ⟨hj, hL⟩ := List.nodup_cons.1 hL
    rw [List.flatMap_cons, uact_append, ih hL, hczh k fun e => hct (dat_inj hc ht e).1]
    have hb : ∀ y : Bits, setBlk n c y x (dat n t j) = blk n t x j := fun y => congrFun (blk_set_other ht hct.symm y x) j
    rw [hb, flip_dat hc, blk_set hc, set_set, List.map_cons, List.prod_cons]
    have key : (fun i => blk n c x i ^^ (decide (i ∈ j :: L) && blk n t x i)) =
        if blk n t x j then flip (fun i => blk n c x i ^^ (decide (i ∈ L) && blk n t x i)) j
        else fun i => blk n c x i ^^ (decide (i ∈ L) && blk n t x i) := by
      funext i
      by_cases hij : i = j
      · subst hij
        cases hh : blk n t x i <;> simp [hh, hj]
      · cases hh : blk n t x j <;> simp [hij, flip_other hij]
    rw [key]
    cases blk n t x j
    · simp
    · simp only [if_true]
      ring

/-- The checks of Shor's code on a word. -/
def q9Checks (y : Bits) : Bool :=
  (y 0 == y 1) && (y 1 == y 2) && (y 3 == y 4) && (y 4 == y 5) && (y 6 == y 7) && (y 7 == y 8)

theorem q9_eq (β : Bool) (y : Bits) : q9Words β y = if q9Checks y then (if β && parity [0, 3, 6] y then -1 else 1) else 0 := rfl

theorem q9_checks {y : Bits} (hy : q9Checks y = true) : y 1 = y 0 ∧ y 2 = y 0 ∧ y 4 = y 3 ∧ y 5 = y 3 ∧ y 7 = y 6 ∧ y 8 = y 6 := by
  simp only [q9Checks, Bool.and_eq_true, beq_iff_eq] at hy
  obtain ⟨⟨⟨⟨⟨h1, h2⟩, h3⟩, h4⟩, h5⟩, h6⟩ := hy
  exact ⟨h1.symm, by rw [h1, h2], h3.symm, by rw [h3, h4], h5.symm, by rw [h5, h6]⟩

theorem q9_checks_add {y z : Bits} (hy : q9Checks y = true) : q9Checks (fun j => z j ^^ y j) = q9Checks z := by
  obtain ⟨h1, h2, h3, h4, h5, h6⟩ := q9_checks hy
  simp only [q9Checks, h1, h2, h3, h4, h5, h6]
  have : ∀ a b c : Bool, ((a ^^ c) == (b ^^ c)) = (a == b) := by decide
  simp only [this]

theorem q9_parity {y : Bits} (hy : q9Checks y = true) : parity (List.range 9) y = parity [0, 3, 6] y := by
  obtain ⟨h1, h2, h3, h4, h5, h6⟩ := q9_checks hy
  have e : List.range 9 = [0, 1, 2, 3, 4, 5, 6, 7, 8] := rfl
  rw [e]
  simp only [parity, List.foldr_cons, List.foldr_nil, h1, h2, h3, h4, h5, h6]
  cases y 0 <;> cases y 3 <;> cases y 6 <;> rfl

theorem sgn_parity (p : Bool) (y : Bits) (L : List ℕ) : (L.map fun j => (sgn (p && y j) : R)).prod = sgn (p && parity L y) := by
  induction L with
  | nil => simp [parity]
  | cons j L ih =>
    rw [List.map_cons, List.prod_cons, ih, ← sgn_xor]
    show _ = sgn (p && (y j ^^ parity L y))
    cases p <;> simp

theorem q9_cx {n c t : ℕ} (hc : c < n) (ht : t < n) (hct : c ≠ t) (p : Bool) (φ : State R) :
    uact k ((List.range 9).flatMap fun j => [h (dat n c j), .gate .Z [(dat n c j, p)] (dat n t j), h (dat n c j)]) (encoded q9Words n φ) =
      encoded q9Words n (gateAct k .X [(c, p)] t φ) := by
  rw [← one_smul R (encoded q9Words n (gateAct k .X [(c, p)] t φ))]
  refine pair_gate (c := ⟨c, hc⟩) (t := ⟨t, ht⟩) (fun e => hct (congrArg Fin.val e)) (G := gateAct k .X [(c, p)] t)
    (cf := fun _ yt => sgn (!p && parity (List.range 9) yt))
    (pc := fun yc yt j => yc j ^^ (decide (j ∈ List.range 9) && yt j)) (pt := fun _ yt => yt)
    (f := fun b => b == p) (d := fun _ _ => 1) (fun ψ x => ?_) (fun φ b => logical_cx k (c := ⟨c, hc⟩) (t := ⟨t, ht⟩) p φ b)
    (fun yc yt βc βt => ?_) φ
  · rw [q9_copies k hc ht hct p List.nodup_range, sgn_parity, set_blk n t x]
  · rw [one_mul, mul_one]
    have e1 : q9Words βc (fun j => yc j ^^ (decide (j ∈ List.range 9) && yt j)) = q9Words βc (fun j => yc j ^^ yt j) :=
      q9_local _ _ _ fun j hj => by rw [decide_eq_true (List.mem_range.2 hj), Bool.true_and]
    rw [e1, q9_eq βt, q9_eq _ yt]
    by_cases hy : q9Checks yt = true
    · rw [q9_parity hy, q9_eq, q9_eq βc yc, q9_checks_add hy, parity_xor, hy]
      simp only [if_true]
      cases q9Checks yc
      · simp
      · cases parity [0, 3, 6] yt <;> cases parity [0, 3, 6] yc <;> cases βc <;> cases βt <;> cases p <;> simp
    · rw [if_neg hy, if_neg hy]
      simp

theorem q9_ident {n c t : ℕ} (p : Bool) (L : List ℕ) (ψ : State R) :
    uact k (L.flatMap fun j => [h (dat n c j), .gate .I [(dat n c j, p)] (dat n t j), h (dat n c j)]) ψ = ψ := by
  induction L with
  | nil => rfl
  | cons j L ih =>
    rw [List.flatMap_cons, uact_append]
    have : uact k [h (dat n c j), .gate .I [(dat n c j, p)] (dat n t j), h (dat n c j)] ψ = ψ := by
      show gateAct k .H [] _ (gateAct k .I _ _ (gateAct k .H [] _ ψ)) = ψ
      have hI : ∀ φ : State R, gateAct k .I [(dat n c j, p)] (dat n t j) φ = φ := fun φ => by
        funext x
        unfold gateAct
        split <;> rfl
      rw [hI, gateAct_nil, gateAct_nil, hh_id]
    rw [this, ih]

theorem q9_ident0 (n t : ℕ) (L : List ℕ) (ψ : State R) : uact k (L.map fun j => .gate .I [] (dat n t j)) ψ = ψ := by
  induction L with
  | nil => rfl
  | cons j L ih =>
    rw [List.map_cons, uact_cons]
    have : uactI k (.gate .I [] (dat n t j)) ψ = ψ := by
      show gateAct k .I [] _ ψ = ψ
      rw [gateAct_nil]
      rfl
    rw [this, ih]

theorem copy_nil {n t j : ℕ} {g : Gate} (h : g.controls = []) : Q9.copyGate n g t j = [.gate (Q9.physical g.op) [] (dat n t j)] := by
  simp [Q9.copyGate, h, Q3.copyControls]

theorem copy_one {n t j : ℕ} {g : Gate} {c : ℕ} {p : Bool} (hg : g.controls = [(c, p)]) :
    Q9.copyGate n g t j = [h (dat n c j), .gate (Q9.physical g.op) [(dat n c j, p)] (dat n t j), h (dat n c j)] := by
  simp [Q9.copyGate, hg, Q3.copyControls]

theorem copies_nil {n t : ℕ} {g : Gate} (h : g.controls = []) (L : List ℕ) :
    L.flatMap (Q9.copyGate n g t) = L.map fun j => .gate (Q9.physical g.op) [] (dat n t j) := by
  induction L with
  | nil => rfl
  | cons j L ih => rw [List.flatMap_cons, ih, copy_nil h]; rfl

theorem copies_one {n t : ℕ} {g : Gate} {c : ℕ} {p : Bool} (hg : g.controls = [(c, p)]) (L : List ℕ) :
    L.flatMap (Q9.copyGate n g t) =
      L.flatMap fun j => [h (dat n c j), .gate (Q9.physical g.op) [(dat n c j, p)] (dat n t j), h (dat n c j)] := by
  congr 1
  funext j
  exact copy_one hg

theorem copy_unitary {n t : ℕ} {g : Gate} (L : List ℕ) : ∀ i ∈ L.flatMap (Q9.copyGate n g t), i.Unitary = true :=
  flatMap_unitary fun j _ i hi => by
    simp only [Q9.copyGate, List.mem_append, List.mem_map, List.mem_singleton] at hi
    rcases hi with (⟨_, _, rfl⟩ | rfl) | ⟨_, _, rfl⟩ <;> rfl

/-- **C103**, Q9Shor.  What is missing: two or more controls, and controls on Y and Z; the claim fails for Z with one control
(`C103_violated_q9`). -/
theorem C103_q9_partial (n m : ℕ) (g : Gate) (hg : g.WF n m) (hm : g.op ≠ .measure)
    (hc : g.controls = [] ∨ (g.op ≠ .Y ∧ g.op ≠ .Z ∧ g.controls.length = 1)) : MapsGate k q9Shor q9Words n m g := by
  intro s s' hs hmap
  change Q9.mapGate n _ g s = _ at hmap
  unfold Q9.mapGate at hmap
  rw [hs, Bool.false_and, Bool.false_and] at hmap
  simp only [Bool.false_eq_true, if_false] at hmap
  have ctrl : g.controls ≠ [] → ∃ c p, g.controls = [(c, p)] ∧ c < n ∧ ∀ t ∈ g.targets, c ≠ t := by
    intro hne
    obtain ⟨-, -, hlen⟩ := hc.resolve_left hne
    obtain ⟨⟨c, p⟩, hcp⟩ := List.length_eq_one_iff.1 hlen
    have := hg.2.1 (c, p) (by rw [hcp]; simp)
    exact ⟨c, p, hcp, this.1, fun t ht e => this.2 (show c ∈ g.targets from e ▸ ht)⟩
  have pauli : g.op ∈ [Op.X, .Y, .Z] → ∃ l, (s.emit (Q9.transversal n g)).out = s.out ++ l ∧ ActsAs k q9Words n l g := by
    intro hop
    have hne : g.op ≠ .I ∧ g.op ≠ .barrier ∧ g.op ≠ .measure := by
      refine ⟨?_, ?_, ?_⟩ <;> intro e <;> rw [e] at hop <;> revert hop <;> decide
    by_cases hcs : g.controls = []
    · refine ⟨_, rfl, actsAs_targets k hne (u := k.ω ^ q9Phase g.op) (omega4 k (by cases g.op <;> rfl)) (fun t _ => copy_unitary _) fun t ht φ => ?_⟩
      rw [copies_nil hcs, hcs, gateAct_nil]
      have e : ((List.range 9).map fun j => Instr.gate (Q9.physical g.op) [] (dat n t j)) =
          ((List.range 9).map fun j => ((Q9.physical g.op, [], j) : LGate)).map (LGate.at n t) := rfl
      rw [e, block_gate k q9_local (q9_check _ hop) (hg.1 t ht)]
    · obtain ⟨c, p, hcp, hcn, hct⟩ := ctrl hcs
      obtain ⟨h1, h2, -⟩ := hc.resolve_left hcs
      have hX : g.op = .X := by
        simp only [List.mem_cons, List.not_mem_nil, or_false] at hop
        rcases hop with e | e | e
        · exact e
        · exact absurd e h1
        · exact absurd e h2
      refine ⟨_, rfl, actsAs_targets k hne (u := 1) (one_pow 4) (fun t _ => copy_unitary _) fun t ht φ => ?_⟩
      rw [copies_one hcp, one_smul, hcp, hX]
      exact q9_cx k hcn (hg.1 t ht) (hct t ht) p φ
  have ident : g.op = .I ∨ g.op = .barrier → ∃ l, (s.emit (Q9.transversal n g)).out = s.out ++ l ∧ ActsAs k q9Words n l g := by
    intro hop
    have hph : Q9.physical g.op = .I := by rcases hop with e | e <;> rw [e] <;> rfl
    have hin : g.instrs = [] := by unfold Gate.instrs; rcases hop with e | e <;> rw [e]
    have hid : ∀ ψ : State R, uact k (Q9.transversal n g) ψ = ψ := by
      unfold Q9.transversal
      induction g.targets with
      | nil => intro ψ; rfl
      | cons t ts ih =>
        intro ψ
        rw [List.flatMap_cons, uact_append]
        have : uact k ((List.range 9).flatMap (Q9.copyGate n g t)) ψ = ψ := by
          by_cases hcs : g.controls = []
          · rw [copies_nil hcs, hph, q9_ident0]
          · obtain ⟨c, p, hcp, -, -⟩ := ctrl hcs
            rw [copies_one hcp, hph, q9_ident]
        rw [this, ih]
    refine ⟨_, rfl, 1, one_pow 4, fun φ φ' cl cl' hbr c' => ?_⟩
    rw [hin] at hbr
    obtain ⟨rfl, rfl⟩ := Prod.mk.inj (show (φ', cl') = (φ, cl) from hbr)
    have hun : ∀ i ∈ Q9.transversal n g, i.Unitary = true := flatMap_unitary fun t _ => copy_unitary _
    rw [branch_unitary k hun, one_smul]
    show c' = (uact k (Q9.transversal n g) (encoded q9Words n φ'), cl') ↔ _
    rw [hid]
  split at hmap
  · rename_i e; obtain rfl := Except.ok.inj hmap; exact ident (.inl e)
  · rename_i e; obtain rfl := Except.ok.inj hmap; exact ident (.inr e)
  · rename_i e; obtain rfl := Except.ok.inj hmap; exact pauli (by rw [e]; decide)
  · rename_i e; obtain rfl := Except.ok.inj hmap; exact pauli (by rw [e]; decide)
  · rename_i e; obtain rfl := Except.ok.inj hmap; exact pauli (by rw [e]; decide)
  · exact absurd ‹_› hm
  · cases hmap

example : ∃ s', (q9Shor 2 0).mapGate { op := .X, controls := [(1, false)], targets := [0] } { isDecoded := false } = .ok s' ∧
    ∃ l, s'.out = [] ++ l ∧ ActsAs k q9Words 2 l { op := .X, controls := [(1, false)], targets := [0] } :=
  ⟨_, rfl, C103_q9_partial k 2 0 _ (by simp [Gate.WF]) (by decide) (.inr (by simp)) { isDecoded := false } _ rfl rfl⟩

/-! ## Q9Surface -/

/-- The gates on a block. -/
def s9Local : Op → List LGate
  | .X => [2, 4, 6].map fun j => (.X, [], j)
  | .Z => [0, 4, 8].map fun j => (.Z, [], j)
  | _ => ([0, 4, 8].map fun j => (.Z, [], j)) ++ [2, 4, 6].map fun j => (.X, [], j)

def s9Phase : Op → ℕ
  | .Y => 6
  | _ => 0

theorem s9_check : ∀ op ∈ [Op.X, .Y, .Z], checkBlock s9Words 9 (s9Local op) op (s9Phase op) = true := by
  decide +kernel

/-- **C103**, Q9Surface.  What is missing: H; the claim fails there (`C103_violated_s9`). -/
theorem C103_s9_partial (n m : ℕ) (g : Gate) (hg : g.WF n m) (hm : g.op ≠ .measure) (hh : g.op ≠ .H) :
    MapsGate k q9Surface s9Words n m g := by
  intro s s' hs h
  change S9.mapGate n _ g s = _ at h
  unfold S9.mapGate at h
  rw [hs, Bool.false_and] at h
  simp only [Bool.false_eq_true, if_false] at h
  split at h
  · cases h
  rename_i hcm
  have hcs : g.controls = [] := by
    by_contra hne
    exact hcm ⟨hne, hm⟩
  have pauli : g.op ∈ [Op.X, .Y, .Z] → ∃ l, (s.emit (g.targets.flatMap fun t => S9.pauli S9.logicalX S9.logicalZ g.op (dat n t))).out = s.out ++ l ∧
      ActsAs k s9Words n l g := by
    intro hop
    have hne : g.op ≠ .I ∧ g.op ≠ .barrier ∧ g.op ≠ .measure := by
      refine ⟨?_, ?_, ?_⟩ <;> intro e <;> rw [e] at hop <;> revert hop <;> decide
    have hb : ∀ t, S9.pauli S9.logicalX S9.logicalZ g.op (dat n t) = (s9Local g.op).map (LGate.at n t) := by
      intro t
      simp only [List.mem_cons, List.not_mem_nil, or_false] at hop
      rcases hop with e | e | e <;> rw [e] <;> rfl
    refine ⟨_, rfl, actsAs_targets k hne (u := k.ω ^ s9Phase g.op) (omega4 k (by cases g.op <;> rfl)) (fun t _ i hi => ?_) fun t ht φ => ?_⟩
    · rw [hb, List.mem_map] at hi
      obtain ⟨j, -, rfl⟩ := hi
      rfl
    · rw [hcs, gateAct_nil, hb, block_gate k s9_local (s9_check _ hop) (hg.1 t ht)]
  split at h
  · rename_i e; exact ⟨[], by obtain rfl := Except.ok.inj h; simp, actsAs_nil k _ (.inl e)⟩
  · rename_i e; exact ⟨[], by obtain rfl := Except.ok.inj h; simp, actsAs_nil k _ (.inr e)⟩
  · rename_i e; obtain rfl := Except.ok.inj h; exact pauli (by rw [e]; decide)
  · rename_i e; obtain rfl := Except.ok.inj h; exact pauli (by rw [e]; decide)
  · rename_i e; obtain rfl := Except.ok.inj h; exact pauli (by rw [e]; decide)
  · exact absurd ‹_› hh
  · exact absurd ‹_› hm
  · cases h

example : ∃ s', (q9Surface 2 0).mapGate { op := .Y, targets := [1] } { isDecoded := false } = .ok s' ∧
    ∃ l, s'.out = [] ++ l ∧ ActsAs k s9Words 2 l { op := .Y, targets := [1] } :=
  ⟨_, rfl, C103_s9_partial k 2 0 _ (by simp [Gate.WF]) (by decide) (by decide) { isDecoded := false } _ rfl rfl⟩

end Verif.Ecc
