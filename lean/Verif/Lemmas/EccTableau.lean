import Verif.Lemmas.EccPauli
import Verif.Lemmas.EccMachine
import Verif.Spec.EccNoise

/-!
# A verified simulator of closed circuits

A state is described by signed Pauli operators that fix it.  `sim` follows one branch of a circuit; `sim_sound` says that this
branch exists and has a nonzero state.  Used to exhibit results of concrete encoded circuits.
-/

namespace Verif.Ecc
variable {R : Type} [CommRing R] (k : Consts R)

/-- Flip the qubits in the mask. -/
def xorMask (x : ℕ) (b : Bits) : Bits := fun q => b q ^^ x.testBit q

/-- `± Z… X…` on qubits below `N`. -/
def NF.act (N : ℕ) (f : NF) (ψ : State R) : State R := fun b => sgn (f.neg ^^ par f.z b N) * ψ (xorMask f.x b)

theorem xorMask_zero (b : Bits) : xorMask 0 b = b := by funext q; simp [xorMask]

theorem xorMask_xor (x y : ℕ) (b : Bits) : xorMask (x ^^^ y) b = xorMask y (xorMask x b) := by
  funext q; simp [xorMask, Nat.testBit_xor]

theorem par_xor (z z' : ℕ) (b : Bits) (N : ℕ) : par (z ^^^ z') b N = (par z b N ^^ par z' b N) := by
  induction N with
  | zero => rfl
  | succ N ih =>
    simp only [par, ih, Nat.testBit_xor]
    cases z.testBit N <;> cases z'.testBit N <;> cases b N <;> cases par z b N <;> cases par z' b N <;> rfl

theorem par_mask (z x : ℕ) (b : Bits) (N : ℕ) : par z (xorMask x b) N = (par z b N ^^ par z (fun q => x.testBit q) N) := by
  induction N with
  | zero => rfl
  | succ N ih =>
    simp only [par, ih, xorMask]
    cases z.testBit N <;> cases x.testBit N <;> cases b N <;> cases par z b N <;> cases par z (fun q => x.testBit q) N <;> rfl

/-- A mask with one bit. -/
theorem par_single (q : ℕ) (b : Bits) (N : ℕ) : par (1 <<< q) b N = (decide (q < N) && b q) := by
  have := par_toggle 0 q b N
  rw [Nat.zero_xor, par_zero, Bool.false_xor] at this
  exact this

theorem testBit_one_shift (q j : ℕ) : (1 <<< q : ℕ).testBit j = decide (j = q) := by
  have := testBit_xor_shift 0 q j
  rw [Nat.zero_xor, Nat.zero_testBit, Bool.false_xor] at this
  exact this

/-- Product. -/
def NF.mul (N : ℕ) (f g : NF) : NF := ⟨f.neg ^^ g.neg ^^ par g.z (fun q => f.x.testBit q) N, f.x ^^^ g.x, f.z ^^^ g.z⟩

theorem NF.act_mul (N : ℕ) (f g : NF) (ψ : State R) : (f.mul N g).act N ψ = f.act N (g.act N ψ) := by
  funext b
  simp only [NF.act, NF.mul, par_xor, par_mask, xorMask_xor, sgn_xor]
  ring

theorem NF.act_smul (N : ℕ) (f : NF) (c : R) (ψ : State R) : f.act N (c • ψ) = c • f.act N ψ := by
  funext b
  simp only [NF.act, Pi.smul_apply, smul_eq_mul]
  ring

/-- The mask with bit `q` toggled if `v`. -/
def tog (m q : ℕ) (v : Bool) : ℕ := if v then m ^^^ (1 <<< q) else m

theorem tog_testBit (m q : ℕ) (v : Bool) (j : ℕ) : (tog m q v).testBit j = (m.testBit j ^^ (v && decide (j = q))) := by
  unfold tog
  cases v
  · simp
  · rw [if_pos rfl, testBit_xor_shift]; simp

theorem par_tog (m q : ℕ) (v : Bool) (b : Bits) (N : ℕ) (hq : q < N) : par (tog m q v) b N = (par m b N ^^ (v && b q)) := by
  unfold tog
  cases v
  · simp
  · rw [if_pos rfl, par_toggle]; simp [hq]

theorem xorMask_tog (m q : ℕ) (v : Bool) (b : Bits) : xorMask (tog m q v) b = if v then flip (xorMask m b) q else xorMask m b := by
  funext j
  simp only [xorMask, tog_testBit]
  cases v
  · simp [xorMask]
  · simp [flip_apply, xorMask]

theorem par_flip' (z : ℕ) (b : Bits) {q N : ℕ} (hq : q < N) : par z (flip b q) N = (par z b N ^^ z.testBit q) := by
  have := par_flip (d := id) z b (q := q) (r := N) (fun i _ h => h)
  simp only [id] at this
  rw [this]
  simp [hq]

theorem xorMask_flip (m q : ℕ) (b : Bits) : xorMask m (flip b q) = flip (xorMask m b) q := by
  funext j
  simp only [xorMask, flip_apply]
  cases b j <;> cases m.testBit j <;> cases decide (j = q) <;> rfl

/-! ## Gates -/

def conjX (q : ℕ) (f : NF) : NF := ⟨f.neg ^^ f.z.testBit q, f.x, f.z⟩
def conjZ (q : ℕ) (f : NF) : NF := ⟨f.neg ^^ f.x.testBit q, f.x, f.z⟩
def conjY (q : ℕ) (f : NF) : NF := ⟨f.neg ^^ (f.x.testBit q ^^ f.z.testBit q), f.x, f.z⟩
def conjH (q : ℕ) (f : NF) : NF :=
  let v := f.x.testBit q ^^ f.z.testBit q
  ⟨f.neg ^^ (f.x.testBit q && f.z.testBit q), tog f.x q v, tog f.z q v⟩
def conjCX (c t : ℕ) (f : NF) : NF := ⟨f.neg, tog f.x t (f.x.testBit c), tog f.z c (f.z.testBit t)⟩
def conjCZ (c t : ℕ) (f : NF) : NF :=
  ⟨f.neg ^^ (f.x.testBit c && f.x.testBit t), f.x, tog (tog f.z c (f.x.testBit t)) t (f.x.testBit c)⟩
def conjSwap (a b : ℕ) (f : NF) : NF :=
  let vx := f.x.testBit a ^^ f.x.testBit b
  let vz := f.z.testBit a ^^ f.z.testBit b
  ⟨f.neg, tog (tog f.x a vx) b vx, tog (tog f.z a vz) b vz⟩

variable {N : ℕ}

theorem act_conjX {q : ℕ} (hq : q < N) (f : NF) (ψ : State R) : opAct k .X q (f.act N ψ) = (conjX q f).act N (opAct k .X q ψ) := by
  funext b
  simp only [opAct, NF.act, conjX, par_flip' f.z b hq, xorMask_flip, sgn_xor]
  ring

theorem act_conjZ {q : ℕ} (f : NF) (ψ : State R) : opAct k .Z q (f.act N ψ) = (conjZ q f).act N (opAct k .Z q ψ) := by
  funext b
  simp only [opAct, NF.act, conjZ, xorMask, sgn_xor]
  linear_combination (-(sgn (b q) * sgn f.neg * sgn (par f.z b N) * ψ (xorMask f.x b))) * sgn_mul_self (R := R) (f.x.testBit q)

theorem act_conjY {q : ℕ} (hq : q < N) (f : NF) (ψ : State R) : opAct k .Y q (f.act N ψ) = (conjY q f).act N (opAct k .Y q ψ) := by
  funext b
  simp only [opAct, NF.act, conjY, par_flip' f.z b hq, xorMask_flip, sgn_xor]
  simp only [xorMask, sgn_xor]
  linear_combination (k.im * sgn (b q) * sgn f.neg * sgn (par f.z b N) * sgn (f.z.testBit q) * ψ (flip (xorMask f.x b) q)) * sgn_mul_self (R := R) (f.x.testBit q)

theorem update_cases (b : Bits) (q : ℕ) (v : Bool) : Function.update b q v = if b q = v then b else flip b q := by
  split
  · rename_i h; rw [← h]; simp
  · rename_i h
    unfold flip
    congr 1
    cases hb : b q <;> cases v <;> simp_all

theorem act_conjH {q : ℕ} (hq : q < N) (f : NF) (ψ : State R) : opAct k .H q (f.act N ψ) = (conjH q f).act N (opAct k .H q ψ) := by
  funext b
  have e1 : ∀ v, par f.z (Function.update b q v) N = (par f.z b N ^^ (f.z.testBit q && (b q ^^ v))) := by
    intro v
    rw [update_cases]
    cases hb : b q <;> cases v <;> simp [par_flip' f.z b hq]
  have e2 : ∀ v, xorMask f.x (Function.update b q v) = Function.update (xorMask f.x b) q (v ^^ f.x.testBit q) := by
    intro v
    funext j
    by_cases h : j = q
    · subst h; simp [xorMask]
    · simp [xorMask, Function.update_of_ne h]
  have e3 : ∀ v, Function.update (xorMask (conjH q f).x b) q v = Function.update (xorMask f.x b) q v := by
    intro v
    funext j
    by_cases h : j = q
    · subst h; simp
    · simp [Function.update_of_ne h, xorMask, conjH, tog_testBit, h]
  simp only [opAct, NF.act, e1, e2, e3]
  simp only [conjH, par_tog _ _ _ _ _ hq, xorMask, tog_testBit]
  cases hx : f.x.testBit q <;> cases hz : f.z.testBit q <;> cases hb : b q <;> cases hn : f.neg <;> cases hp : par f.z b N <;>
    simp [sgn] <;> ring

theorem act_conjCX {c t : ℕ} (hc : c < N) (ht : t < N) (hct : c ≠ t) (f : NF) (ψ : State R) :
    gateAct k .X [(c, true)] t (f.act N ψ) = (conjCX c t f).act N (gateAct k .X [(c, true)] t ψ) := by
  funext b
  have h1 : holds [(c, true)] b = b c := by simp [holds]
  have h2 : holds [(c, true)] (xorMask (conjCX c t f).x b) = (b c ^^ f.x.testBit c) := by
    simp [holds, xorMask, conjCX, tog_testBit, hct]
  simp only [gateAct, opAct, NF.act, h1, h2]
  simp only [conjCX, par_tog _ _ _ _ _ hc, par_flip' f.z b ht, xorMask_tog, xorMask_flip]
  cases hx : f.x.testBit c <;> cases hz : f.z.testBit t <;> cases hb : b c <;> cases hn : f.neg <;> cases hp : par f.z b N <;>
    simp [sgn, flip_flip]

theorem act_conjCZ {c t : ℕ} (hc : c < N) (ht : t < N) (f : NF) (ψ : State R) :
    gateAct k .Z [(c, true)] t (f.act N ψ) = (conjCZ c t f).act N (gateAct k .Z [(c, true)] t ψ) := by
  funext b
  have h1 : holds [(c, true)] b = b c := by simp [holds]
  have h2 : holds [(c, true)] (xorMask (conjCZ c t f).x b) = (b c ^^ f.x.testBit c) := by
    simp [holds, xorMask, conjCZ]
  simp only [gateAct, opAct, NF.act, h1, h2]
  simp only [conjCZ, par_tog _ _ _ _ _ hc, par_tog _ _ _ _ _ ht, xorMask]
  cases hx : f.x.testBit c <;> cases hz : f.x.testBit t <;> cases hb : b c <;> cases hb' : b t <;> cases hn : f.neg <;> cases hp : par f.z b N <;>
    simp [sgn]

theorem act_conjSwap {a c : ℕ} (ha : a < N) (hc : c < N) (hac : a ≠ c) (f : NF) (ψ : State R) :
    swapAct a c (f.act N ψ) = (conjSwap a c f).act N (swapAct a c ψ) := by
  funext b
  have e1 : Function.update (Function.update b a (b c)) c (b a) = if b a = b c then b else flip (flip b a) c := by
    funext j
    by_cases h : j = c
    · subst h
      simp only [Function.update_self]
      split
      · assumption
      · rename_i h; rw [flip_apply, flip_apply]; have hja : ¬ j = a := fun e => hac e.symm; cases h1 : b a <;> cases h2 : b j <;> simp_all
    · rw [Function.update_of_ne h]
      by_cases h' : j = a
      · subst h'
        simp only [Function.update_self]
        split
        · rename_i h; exact h.symm
        · rename_i h; rw [flip_apply, flip_apply]; cases h1 : b j <;> cases h2 : b c <;> simp_all
      · rw [Function.update_of_ne h']
        split
        · rfl
        · rw [flip_other h, flip_other h']
  have e2 : xorMask f.x (Function.update (Function.update b a (b c)) c (b a)) =
      Function.update (Function.update (xorMask (conjSwap a c f).x b) a (xorMask (conjSwap a c f).x b c)) c (xorMask (conjSwap a c f).x b a) := by
    funext j
    by_cases h : j = c
    · subst h
      simp only [xorMask, Function.update_self, conjSwap, tog_testBit]
      simp [hac]
    · by_cases h' : j = a
      · subst h'
        simp only [xorMask, Function.update_of_ne h, Function.update_self, conjSwap, tog_testBit]
        simp only [Ne.symm hac, h, decide_true, decide_false, Bool.and_true, Bool.and_false, Bool.xor_false]
        cases f.x.testBit c <;> cases f.x.testBit j <;> cases b c <;> simp [Ne.symm hac]
      · simp only [xorMask, Function.update_of_ne h, Function.update_of_ne h', conjSwap, tog_testBit]
        simp [h, h']
  have e3 : par f.z (Function.update (Function.update b a (b c)) c (b a)) N = par (conjSwap a c f).z b N := by
    rw [e1]
    simp only [conjSwap, par_tog _ _ _ _ _ ha, par_tog _ _ _ _ _ hc]
    split
    · rename_i h; rw [h]; cases par f.z b N <;> cases f.z.testBit a <;> cases f.z.testBit c <;> cases b c <;> rfl
    · rename_i h
      rw [par_flip' _ _ hc, par_flip' _ _ ha]
      revert h
      cases par f.z b N <;> cases f.z.testBit a <;> cases f.z.testBit c <;> cases b c <;> cases b a <;> simp
  show sgn (f.neg ^^ par f.z _ N) * ψ (xorMask f.x _) = sgn ((conjSwap a c f).neg ^^ par (conjSwap a c f).z b N) * ψ _
  rw [e2, e3]
  rfl

/-! ## Measurements -/

/-- Operators come with a partner (the destabiliser), used only to find products quickly. -/
abbrev Row := NF × NF

/-- The first row whose operator anticommutes with Z on `q`, and the others. -/
def extract (q : ℕ) : List Row → Option (Row × List Row)
  | [] => none
  | r :: l => if r.2.x.testBit q then some (r, l) else (extract q l).map fun p => (p.1, r :: p.2)

/-- The product of the operators whose partner anticommutes with Z on `q`. -/
def product (N q : ℕ) (rows : List Row) : NF := rows.foldr (fun r f => if r.1.x.testBit q then r.2.mul N f else f) ⟨false, 0, 0⟩

def adjust (N q : ℕ) (p : NF) (f : NF) : NF := if f.x.testBit q then f.mul N p else f

/-- Rows after a measurement with outcome; `choice` is the outcome if it is not determined. -/
def measureRows (N q : ℕ) (choice : Bool) (rows : List Row) : Option (Bool × List Row) :=
  match extract q rows with
  | some (p, rest) => some (choice, (p.2, ⟨choice, 0, 1 <<< q⟩) :: rest.map fun r => (adjust N q p.2 r.1, adjust N q p.2 r.2))
  | none =>
    let f := product N q rows
    if f.x = 0 ∧ f.z = 1 <<< q then some (f.neg, rows) else none

def Holds (N : ℕ) (rows : List Row) (ψ : State R) : Prop := ∀ r ∈ rows, r.2.act N ψ = ψ

theorem extract_spec {q : ℕ} {rows : List Row} {p : Row} {rest : List Row} (h : extract q rows = some (p, rest)) :
    p.2.x.testBit q = true ∧ p ∈ rows ∧ ∀ r ∈ rest, r ∈ rows := by
  induction rows generalizing p rest with
  | nil => cases h
  | cons r l ih =>
    unfold extract at h
    split at h
    · rename_i hr
      cases h
      exact ⟨hr, by simp, fun r h => by simp [h]⟩
    · cases he : extract q l with
      | none => rw [he] at h; cases h
      | some pr =>
        rw [he] at h
        cases h
        obtain ⟨h1, h2, h3⟩ := ih (p := pr.1) (rest := pr.2) he
        refine ⟨h1, by simp [h2], fun r' h' => ?_⟩
        rcases List.mem_cons.1 h' with rfl | h'
        · simp
        · simp [h3 _ h']

theorem act_one (ψ : State R) : (⟨false, 0, 0⟩ : NF).act N ψ = ψ := by
  funext b; simp [NF.act, par_zero, xorMask_zero, sgn]

theorem product_fixes {q : ℕ} {rows : List Row} {ψ : State R} (h : Holds N rows ψ) : (product N q rows).act N ψ = ψ := by
  induction rows with
  | nil => exact act_one ψ
  | cons r l ih =>
    have hl := ih fun r hr => h r (by simp [hr])
    show (if r.1.x.testBit q then r.2.mul N (product N q l) else product N q l).act N ψ = ψ
    split
    · rw [NF.act_mul, hl]; exact h r (by simp)
    · exact hl

/-- A projection commutes with an operator that commutes with Z. -/
theorem project_comm {q : ℕ} {o : Bool} {f : NF} (hf : f.x.testBit q = false) (ψ : State R) :
    f.act N (project q o ψ) = project q o (f.act N ψ) := by
  funext b
  simp only [NF.act, project, xorMask, hf, Bool.xor_false]
  split <;> simp

theorem project_anti {q : ℕ} {o : Bool} {f : NF} (hf : f.x.testBit q = true) (ψ : State R) :
    f.act N (project q o ψ) = project q (!o) (f.act N ψ) := by
  funext b
  simp only [NF.act, project, xorMask, hf, Bool.xor_true]
  cases b q <;> cases o <;> simp

theorem project_split {q : ℕ} (ψ : State R) : project q false ψ + project q true ψ = ψ := by
  funext b
  simp only [Pi.add_apply, project]
  cases b q <;> simp

theorem single_act {q : ℕ} (hq : q < N) (s : Bool) (ψ : State R) (b : Bits) :
    (⟨s, 0, 1 <<< q⟩ : NF).act N ψ b = sgn (s ^^ b q) * ψ b := by
  simp [NF.act, par_single, hq, xorMask_zero]

include k in
theorem determined {q : ℕ} (hq : q < N) {s : Bool} {ψ : State R} (h : (⟨s, 0, 1 <<< q⟩ : NF).act N ψ = ψ) : project q s ψ = ψ := by
  funext b
  unfold project
  split
  · rfl
  · rename_i hb
    have := congrFun h b
    rw [single_act hq] at this
    have hs : (s ^^ b q) = true := by cases s <;> cases hb' : b q <;> simp_all
    rw [hs] at this
    simp only [sgn, if_true, neg_one_mul] at this
    exact (two_cancel k _ this).symm

include k in
theorem measureRows_sound {q : ℕ} (hq : q < N) {choice o : Bool} {rows rows' : List Row} {ψ : State R} (h : Holds N rows ψ)
    (hne : ψ ≠ 0) (hm : measureRows N q choice rows = some (o, rows')) : Holds N rows' (project q o ψ) ∧ project q o ψ ≠ 0 := by
  unfold measureRows at hm
  cases he : extract q rows with
  | some pr =>
    rw [he] at hm
    simp only [Option.some.injEq, Prod.mk.injEq] at hm
    obtain ⟨rfl, rfl⟩ := hm
    obtain ⟨h1, h2, h3⟩ := extract_spec he
    have hp := h _ h2
    refine ⟨fun r hr => ?_, fun h0 => hne ?_⟩
    · rcases List.mem_cons.1 hr with rfl | hr
      · funext b
        rw [single_act hq]
        unfold project
        split
        · rename_i hb; rw [hb]; simp [sgn]
        · simp
      · obtain ⟨r', hr', rfl⟩ := List.mem_map.1 hr
        show (adjust N q pr.1.2 r'.2).act N _ = _
        have hr'' := h _ (h3 _ hr')
        unfold adjust
        split
        · rename_i hx
          rw [NF.act_mul, project_anti h1, hp, project_anti hx, hr'', Bool.not_not]
        · rename_i hx
          rw [project_comm (by simpa using hx), hr'']
    · have h4 : project q (!choice) ψ = 0 := by
        rw [← hp, ← project_anti h1, h0]
        funext b; simp [NF.act]
      have := project_split (q := q) ψ
      cases choice
      · rw [← this, h0]; simp at h4; rw [h4, add_zero]
      · rw [← this, h0]; simp at h4; rw [h4, add_zero]
  | none =>
    rw [he] at hm
    simp only at hm
    split at hm
    · rename_i hf
      simp only [Option.some.injEq, Prod.mk.injEq] at hm
      obtain ⟨rfl, rfl⟩ := hm
      have hp := product_fixes (q := q) h
      have e : product N q rows = ⟨(product N q rows).neg, 0, 1 <<< q⟩ := by
        cases hpr : product N q rows
        rw [hpr] at hf
        simp_all
      rw [e] at hp
      rw [determined k hq hp]
      exact ⟨h, hne⟩
    · cases hm

/-! ## The simulator -/

/-- The effect of a gate on operators, if it is one of the supported gates on qubits below `N`. -/
def conjGate (N : ℕ) (op : Op) (cs : List (ℕ × Bool)) (t : ℕ) : Option (NF → NF) :=
  if t < N then
    match op, cs with
    | .X, [] => some (conjX t)
    | .Y, [] => some (conjY t)
    | .Z, [] => some (conjZ t)
    | .H, [] => some (conjH t)
    | .I, [] => some id
    | .X, [(c, true)] => if c < N ∧ c ≠ t then some (conjCX c t) else none
    | .Z, [(c, true)] => if c < N ∧ c ≠ t then some (conjCZ c t) else none
    | _, _ => none
  else none

theorem flip_update (b : Bits) (t : ℕ) (v : Bool) : flip (Function.update b t v) t = Function.update b t (!v) := by
  unfold flip; simp

theorem opAct_ne {op : Op} {t : ℕ} {ψ : State R} (hop : op ∈ [Op.X, .Y, .Z, .H, .I]) (h : opAct k op t ψ = 0) : ψ = 0 := by
  have him : k.im * k.im = -1 := by unfold Consts.im; rw [← k.hω]; ring
  simp only [List.mem_cons, List.not_mem_nil, or_false] at hop
  rcases hop with rfl | rfl | rfl | rfl | rfl
  · funext b
    have := congrFun h (flip b t)
    simp only [opAct, flip_flip] at this
    exact this
  · funext b
    have := congrFun h (flip b t)
    simp only [opAct, flip_flip, Pi.zero_apply] at this
    have h2 := sgn_mul_self (R := R) (flip b t t)
    show ψ b = 0
    linear_combination (k.im * sgn (flip b t t)) * this + (ψ b) * (k.im * k.im) * h2 + ψ b * him
  · funext b
    have := congrFun h b
    simp only [opAct, Pi.zero_apply] at this
    have h2 := sgn_mul_self (R := R) (b t)
    show ψ b = 0
    linear_combination sgn (b t) * this - ψ b * h2
  · funext b
    have h0 := congrFun h (Function.update b t false)
    have h1 := congrFun h (Function.update b t true)
    simp only [opAct, Pi.zero_apply, Function.update_idem, Function.update_self, sgn, if_true, Bool.false_eq_true, if_false] at h0 h1
    have hs := k.hs
    have e0 : ψ (Function.update b t false) = 0 := by
      linear_combination k.s * h0 + k.s * h1 - ψ (Function.update b t false) * hs
    have e1 : ψ (Function.update b t true) = 0 := by
      linear_combination k.s * h0 - k.s * h1 - ψ (Function.update b t true) * hs
    show ψ b = 0
    cases hb : b t
    · rw [← e0]; congr 1; rw [← hb]; simp
    · rw [← e1]; congr 1; rw [← hb]; simp
  · exact h

theorem gateAct_ne {op : Op} {c t : ℕ} {ψ : State R} (hct : c ≠ t) (hop : op ∈ [Op.X, .Z]) (h : gateAct k op [(c, true)] t ψ = 0) : ψ = 0 := by
  have hh : ∀ b : Bits, holds [(c, true)] b = b c := fun b => by simp [holds]
  simp only [List.mem_cons, List.not_mem_nil, or_false] at hop
  rcases hop with rfl | rfl
  · funext b
    cases hb : b c
    · have := congrFun h b
      simp only [gateAct, hh, hb] at this
      simpa using this
    · have := congrFun h (flip b t)
      simp only [gateAct, hh, flip_other hct, hb, opAct, flip_flip] at this
      simpa using this
  · funext b
    have := congrFun h b
    simp only [gateAct, hh, opAct] at this
    cases hb : b c
    · rw [hb] at this; simpa using this
    · rw [hb] at this
      cases ht : b t <;> simpa [ht, sgn] using this

theorem conjGate_sound {op : Op} {cs : List (ℕ × Bool)} {t : ℕ} {f : NF → NF} (h : conjGate N op cs t = some f) (ψ : State R) :
    (∀ g, gateAct k op cs t (NF.act N g ψ) = (f g).act N (gateAct k op cs t ψ)) ∧ (ψ ≠ 0 → gateAct k op cs t ψ ≠ 0) := by
  unfold conjGate at h
  split at h
  · rename_i ht
    split at h
    · cases h; exact ⟨fun g => by simp only [gateAct_nil]; exact act_conjX k ht g ψ, fun hn e => hn (opAct_ne k (op := .X) (by simp) (by rw [← gateAct_nil]; exact e))⟩
    · cases h; exact ⟨fun g => by simp only [gateAct_nil]; exact act_conjY k ht g ψ, fun hn e => hn (opAct_ne k (op := .Y) (by simp) (by rw [← gateAct_nil]; exact e))⟩
    · cases h; exact ⟨fun g => by simp only [gateAct_nil]; exact act_conjZ k g ψ, fun hn e => hn (opAct_ne k (op := .Z) (by simp) (by rw [← gateAct_nil]; exact e))⟩
    · cases h; exact ⟨fun g => by simp only [gateAct_nil]; exact act_conjH k ht g ψ, fun hn e => hn (opAct_ne k (op := .H) (by simp) (by rw [← gateAct_nil]; exact e))⟩
    · cases h; exact ⟨fun g => by simp only [gateAct_nil]; rfl, fun hn e => hn (opAct_ne k (op := .I) (by simp) (by rw [← gateAct_nil]; exact e))⟩
    · split at h
      · rename_i hc; cases h; exact ⟨fun g => act_conjCX k hc.1 ht hc.2 g ψ, fun hn e => hn (gateAct_ne k hc.2 (by simp) e)⟩
      · cases h
    · split at h
      · rename_i hc; cases h; exact ⟨fun g => act_conjCZ k hc.1 ht g ψ, fun hn e => hn (gateAct_ne k hc.2 (by simp) e)⟩
      · cases h
    · cases h
  · cases h

/-- Toffoli gate with a control of known value. -/
def conjCCX (N c₁ c₂ t : ℕ) (rows : List Row) : Option (NF → NF) :=
  if c₁ < N ∧ c₂ < N ∧ t < N ∧ c₁ ≠ t ∧ c₂ ≠ t then
    match measureRows N c₁ false rows, (extract c₁ rows).isNone, measureRows N c₂ false rows, (extract c₂ rows).isNone with
    | some (false, _), true, _, _ => some id
    | some (true, _), true, _, _ => some (conjCX c₂ t)
    | _, _, some (false, _), true => some id
    | _, _, some (true, _), true => some (conjCX c₁ t)
    | _, _, _, _ => none
  else none

include k in
theorem known {q : ℕ} (hq : q < N) {o : Bool} {rows rows' : List Row} {ψ : State R} (h : Holds N rows ψ)
    (hm : measureRows N q false rows = some (o, rows')) (hn : (extract q rows).isNone = true) (b : Bits) (hb : b q ≠ o) : ψ b = 0 := by
  unfold measureRows at hm
  rw [Option.isNone_iff_eq_none.1 hn] at hm
  simp only at hm
  split at hm
  · rename_i hf
    simp only [Option.some.injEq, Prod.mk.injEq] at hm
    obtain ⟨rfl, rfl⟩ := hm
    have hp := product_fixes (q := q) h
    have e : product N q rows = ⟨(product N q rows).neg, 0, 1 <<< q⟩ := by
      cases hpr : product N q rows
      rw [hpr] at hf
      simp_all
    rw [e] at hp
    have := congrFun (determined k hq hp) b
    unfold project at this
    rw [if_neg hb] at this
    exact this.symm
  · cases hm

theorem ccx_zero {c₁ c₂ t : ℕ} (h1 : c₁ ≠ t) (h2 : c₂ ≠ t) {ψ : State R}
    (h : (∀ b, b c₁ ≠ false → ψ b = 0) ∨ ∀ b, b c₂ ≠ false → ψ b = 0) : gateAct k .X [(c₁, true), (c₂, true)] t ψ = ψ := by
  funext b
  unfold gateAct
  split
  · rename_i hh
    have hh : b c₁ = true ∧ b c₂ = true := by simpa [holds] using hh
    show ψ (flip b t) = ψ b
    rcases h with h | h
    · rw [h _ (by rw [flip_other h1, hh.1]; decide), h _ (by rw [hh.1]; decide)]
    · rw [h _ (by rw [flip_other h2, hh.2]; decide), h _ (by rw [hh.2]; decide)]
  · rfl

theorem ccx_one {c₁ c₂ t : ℕ} (h1 : c₁ ≠ t) {ψ : State R} (h : ∀ b, b c₁ ≠ true → ψ b = 0) :
    gateAct k .X [(c₁, true), (c₂, true)] t ψ = gateAct k .X [(c₂, true)] t ψ := by
  funext b
  have e1 : holds [(c₁, true), (c₂, true)] b = (b c₁ && b c₂) := by simp [holds]
  have e2 : holds [(c₂, true)] b = b c₂ := by simp [holds]
  simp only [gateAct, e1, e2, opAct]
  cases hb : b c₁
  · cases b c₂
    · simp
    · simp [h b (by simp [hb]), h (flip b t) (by rw [flip_other h1]; simp [hb])]
  · simp

theorem ccx_swap (c₁ c₂ t : ℕ) (ψ : State R) :
    gateAct k .X [(c₁, true), (c₂, true)] t ψ = gateAct k .X [(c₂, true), (c₁, true)] t ψ := by
  funext b
  have e1 : holds [(c₁, true), (c₂, true)] b = holds [(c₂, true), (c₁, true)] b := by simp [holds, Bool.and_comm]
  simp only [gateAct, e1]

theorem conjCCX_sound {c₁ c₂ t : ℕ} {rows : List Row} {f : NF → NF} (h : conjCCX N c₁ c₂ t rows = some f) {ψ : State R}
    (hh : Holds N rows ψ) (hne : ψ ≠ 0) :
    Holds N (rows.map fun r => (f r.1, f r.2)) (gateAct k .X [(c₁, true), (c₂, true)] t ψ) ∧ gateAct k .X [(c₁, true), (c₂, true)] t ψ ≠ 0 := by
  have cx_ok : ∀ c, c < N → t < N → c ≠ t →
      Holds N (rows.map fun r => (conjCX c t r.1, conjCX c t r.2)) (gateAct k .X [(c, true)] t ψ) ∧ gateAct k .X [(c, true)] t ψ ≠ 0 := by
    intro c hc ht hct
    refine ⟨fun r hr => ?_, fun e => hne (gateAct_ne k hct (by simp) e)⟩
    obtain ⟨r', hr', rfl⟩ := List.mem_map.1 hr
    show (conjCX c t r'.2).act N _ = _
    rw [← act_conjCX k hc ht hct, hh r' hr']
  have id_ok : Holds N (rows.map fun r => (id r.1, id r.2)) ψ := by simpa using hh
  unfold conjCCX at h
  split at h
  · rename_i hc
    obtain ⟨l1, l2, l3, n1, n2⟩ := hc
    split at h
    · rename_i e1 e2
      cases h
      rw [ccx_zero k n1 n2 (.inl (known k l1 hh e1 e2))]
      exact ⟨id_ok, hne⟩
    · rename_i e1 e2
      cases h
      rw [ccx_one k n1 (known k l1 hh e1 e2)]
      exact cx_ok c₂ l2 l3 n2
    · rename_i e1 e2 _ _
      cases h
      rw [ccx_zero k n1 n2 (.inr (known k l2 hh e1 e2))]
      exact ⟨id_ok, hne⟩
    · rename_i e1 e2 _ _
      cases h
      rw [ccx_swap, ccx_one k n2 (known k l2 hh e1 e2)]
      exact cx_ok c₁ l1 l3 n1
    · cases h
  · cases h

/-- Rows, classical bits as a mask, outcomes to choose. -/
structure Sim where
  rows : List Row
  cl : ℕ
  choices : List Bool

def mapRows (f : NF → NF) (rows : List Row) : List Row := rows.map fun r => (f r.1, f r.2)

def setBit (cl b : ℕ) (o : Bool) : ℕ := tog cl b (cl.testBit b ^^ o)

/-- The value of the register. -/
def maskValue (cl start : ℕ) : ℕ → ℕ
  | 0 => 0
  | len + 1 => maskValue cl start len + (if cl.testBit (start + len) then 2 ^ len else 0)

def simStep (N : ℕ) (i : Instr) (s : Sim) : Option Sim :=
  match i with
  | .gate .X [(c₁, true), (c₂, true)] t => (conjCCX N c₁ c₂ t s.rows).map fun f => { s with rows := mapRows f s.rows }
  | .gate op cs t => (conjGate N op cs t).map fun f => { s with rows := mapRows f s.rows }
  | .swap a b => if a < N ∧ b < N ∧ a ≠ b then some { s with rows := mapRows (conjSwap a b) s.rows } else none
  | .measure q b =>
    if q < N then
      (measureRows N q (s.choices.headD false) s.rows).map fun p => ⟨p.2, setBit s.cl b p.1, s.choices.tail⟩
    else none
  | .reset q =>
    if q < N then
      (measureRows N q (s.choices.headD false) s.rows).map fun p =>
        ⟨if p.1 then mapRows (conjX q) p.2 else p.2, s.cl, s.choices.tail⟩
    else none
  | .cc op q start len v =>
    if maskValue s.cl start len = v then (conjGate N op [] q).map fun f => { s with rows := mapRows f s.rows } else some s
  | .clone _ => none

/-- The outcome of the instruction is determined. -/
def simKnown (i : Instr) (s : Sim) : Bool :=
  match i with
  | .measure q _ | .reset q => (extract q s.rows).isNone
  | _ => true

def sim (N : ℕ) : List Instr → Sim → Option Sim
  | [], s => some s
  | i :: l, s =>
    match simStep N i s with
    | none => none
    | some s' => sim N l s'

def clBits (cl : ℕ) : Bits := fun b => cl.testBit b

theorem setBit_bits (cl b : ℕ) (o : Bool) : clBits (setBit cl b o) = Function.update (clBits cl) b o := by
  funext j
  unfold clBits setBit
  rw [tog_testBit]
  by_cases h : j = b
  · subst h
    simp only [Function.update_self, decide_true, Bool.and_true]
    cases cl.testBit j <;> cases o <;> rfl
  · simp [Function.update_of_ne h, h]

theorem maskValue_eq (cl start len : ℕ) : maskValue cl start len = regValue (clBits cl) start len := by
  induction len with
  | zero => rfl
  | succ len ih => simp only [maskValue, regValue, ih]; rfl

theorem holds_map {f : NF → NF} {rows : List Row} {ψ ψ' : State R} (U : State R → State R) (hU : ∀ g, U (NF.act N g ψ) = (f g).act N (U ψ))
    (e : ψ' = U ψ) (h : Holds N rows ψ) : Holds N (mapRows f rows) ψ' := by
  intro r hr
  obtain ⟨r', hr', rfl⟩ := List.mem_map.1 hr
  show (f r'.2).act N ψ' = ψ'
  rw [e, ← hU, h r' hr']

theorem simStep_sound {i : Instr} {s s' : Sim} (h : simStep N i s = some s') {ψ : State R} (hh : Holds N s.rows ψ) (hne : ψ ≠ 0) :
    ∃ ψ', Step k i (ψ, clBits s.cl) (ψ', clBits s'.cl) ∧ Holds N s'.rows ψ' ∧ ψ' ≠ 0 := by
  cases i with
  | gate op cs t =>
    unfold simStep at h
    split at h
    · rename_i he
      cases he
      obtain ⟨f, hf, rfl⟩ := Option.map_eq_some_iff.1 h
      exact ⟨_, rfl, conjCCX_sound k hf hh hne⟩
    · rename_i he
      cases he
      obtain ⟨f, hf, rfl⟩ := Option.map_eq_some_iff.1 h
      obtain ⟨h1, h2⟩ := conjGate_sound k hf ψ
      exact ⟨_, rfl, holds_map _ h1 rfl hh, h2 hne⟩
    all_goals (rename_i he; cases he)
  | swap a b =>
    simp only [simStep] at h
    split at h
    · rename_i hc
      cases h
      refine ⟨_, rfl, holds_map _ (act_conjSwap hc.1 hc.2.1 hc.2.2 · ψ) rfl hh, fun e => hne ?_⟩
      funext x
      have := congrFun e (Function.update (Function.update x a (x b)) b (x a))
      simp only [swapAct] at this
      rw [show Function.update _ b _ = x from ?_] at this
      · exact this
      · funext j
        by_cases h1 : j = b
        · subst h1; simp [Function.update_of_ne hc.2.2]
        · rw [Function.update_of_ne h1]
          by_cases h2 : j = a
          · subst h2; simp
          · rw [Function.update_of_ne h2, Function.update_of_ne h1, Function.update_of_ne h2]
    · cases h
  | measure q b =>
    simp only [simStep] at h
    split at h
    · rename_i hq
      obtain ⟨p, hp, rfl⟩ := Option.map_eq_some_iff.1 h
      obtain ⟨h1, h2⟩ := measureRows_sound k hq hh hne hp
      exact ⟨_, ⟨p.1, by rw [setBit_bits]⟩, h1, h2⟩
    · cases h
  | reset q =>
    simp only [simStep] at h
    split at h
    · rename_i hq
      obtain ⟨p, hp, rfl⟩ := Option.map_eq_some_iff.1 h
      obtain ⟨h1, h2⟩ := measureRows_sound k hq hh hne hp
      refine ⟨resetAct q p.1 ψ, ⟨p.1, rfl⟩, ?_⟩
      cases ho : p.1
      · have e : resetAct q false ψ = project q false ψ := by
          funext x
          unfold resetAct project
          cases hx : x q
          · simp only [if_true, Bool.false_eq_true, if_false]; congr 1; rw [← hx]; simp
          · simp
        rw [e]
        rw [ho] at h1 h2
        exact ⟨h1, h2⟩
      · have e : resetAct q true ψ = opAct k .X q (project q true ψ) := by
          funext x
          simp only [resetAct, project, opAct, flip, Function.update_self]
          cases hx : x q <;> simp
        rw [ho] at h1 h2
        simp only [if_true]
        exact ⟨holds_map _ (act_conjX k hq · _) e h1, fun h0 => h2 (opAct_ne k (op := .X) (by simp) (e ▸ h0))⟩
    · cases h
  | cc op q start len v =>
    simp only [simStep] at h
    split at h
    · rename_i hv
      obtain ⟨f, hf, rfl⟩ := Option.map_eq_some_iff.1 h
      obtain ⟨h1, h2⟩ := conjGate_sound k hf ψ
      rw [maskValue_eq] at hv
      refine ⟨opAct k op q ψ, ?_, ?_⟩
      · show _ = _
        rw [if_pos hv]
      · rw [← gateAct_nil]
        exact ⟨holds_map _ h1 rfl hh, h2 hne⟩
    · rename_i hv
      cases h
      rw [maskValue_eq] at hv
      refine ⟨ψ, ?_, hh, hne⟩
      show _ = _
      rw [if_neg hv]
  | clone g => cases h

theorem sim_sound {l : List Instr} {s s' : Sim} (h : sim N l s = some s') {ψ : State R} (hh : Holds N s.rows ψ) (hne : ψ ≠ 0) :
    ∃ ψ', Branch k l (ψ, clBits s.cl) (ψ', clBits s'.cl) ∧ Holds N s'.rows ψ' ∧ ψ' ≠ 0 := by
  induction l generalizing s ψ with
  | nil => cases h; exact ⟨ψ, rfl, hh, hne⟩
  | cons i l ih =>
    unfold sim at h
    cases hs : simStep N i s with
    | none => rw [hs] at h; cases h
    | some s₁ =>
      rw [hs] at h
      obtain ⟨ψ₁, h1, h2, h3⟩ := simStep_sound k hs hh hne
      obtain ⟨ψ', h4, h5⟩ := ih h h2 h3
      exact ⟨ψ', ⟨_, h1, h4⟩, h5⟩

/-- The same, requiring that all outcomes are determined. -/
def simDet (N : ℕ) : List Instr → Sim → Option Sim
  | [], s => some s
  | i :: l, s =>
    if simKnown i s then
      match simStep N i s with
      | none => none
      | some s' => simDet N l s'
    else none

theorem simDet_step {i : Instr} {s s' : Sim} (h : simStep N i s = some s') (hk : simKnown i s = true) {ψ : State R}
    (hh : Holds N s.rows ψ) (hne : ψ ≠ 0) :
    ∃ ψ', Det k [i] (ψ, clBits s.cl) (ψ', clBits s'.cl) ∧ Holds N s'.rows ψ' ∧ ψ' ≠ 0 := by
  obtain ⟨ψ', h1, h2, h3⟩ := simStep_sound k h hh hne
  refine ⟨ψ', det_one k h1 fun c' h' => ?_, h2, h3⟩
  have hz : ∀ q, q < N → (extract q s.rows).isNone = true → ∀ p, measureRows N q (s.choices.headD false) s.rows = some p →
      ∀ b, b q ≠ p.1 → ψ b = 0 := by
    intro q hq hn p hp b hb
    refine known k hq hh (o := p.1) (rows' := p.2) ?_ hn b hb
    rw [← hp]
    unfold measureRows
    rw [Option.isNone_iff_eq_none.1 hn]
  cases i with
  | gate op cs t => left; rw [show c' = _ from h', show (ψ', clBits s'.cl) = _ from h1]
  | swap a b => left; rw [show c' = _ from h', show (ψ', clBits s'.cl) = _ from h1]
  | cc op q st len v => left; rw [show c' = _ from h', show (ψ', clBits s'.cl) = _ from h1]
  | clone g => exact h'.elim
  | measure q b =>
    simp only [simStep] at h
    split at h
    · rename_i hq
      obtain ⟨p, hp, rfl⟩ := Option.map_eq_some_iff.1 h
      have hz := hz q hq hk p hp
      obtain ⟨o, ho⟩ := h1
      obtain ⟨o', rfl⟩ := h'
      by_cases e : o' = o
      · subst e; exact .inl ho.symm
      · right
        have hop : o = p.1 := by
          by_contra hne'
          apply h3
          rw [show ψ' = project q o ψ from congrArg Prod.fst ho]
          funext x
          unfold project
          split
          · rename_i hx; exact hz x (by rw [hx]; exact hne')
          · rfl
        funext x
        show (if x q = o' then ψ x else 0) = 0
        split
        · rename_i hx; exact hz x (by rw [hx, ← hop]; exact e)
        · rfl
    · cases h
  | reset q =>
    simp only [simStep] at h
    split at h
    · rename_i hq
      obtain ⟨p, hp, rfl⟩ := Option.map_eq_some_iff.1 h
      have hz := hz q hq hk p hp
      obtain ⟨o, ho⟩ := h1
      obtain ⟨o', rfl⟩ := h'
      by_cases e : o' = o
      · subst e; exact .inl ho.symm
      · right
        have hop : o = p.1 := by
          by_contra hne'
          apply h3
          rw [show ψ' = resetAct q o ψ from congrArg Prod.fst ho]
          funext x
          unfold resetAct
          split
          · rfl
          · exact hz _ (by simpa using hne')
        funext x
        show (if x q then 0 else ψ (Function.update x q o')) = 0
        split
        · rfl
        · exact hz _ (by simp [← hop, e])
    · cases h

theorem simDet_sound {l : List Instr} {s s' : Sim} (h : simDet N l s = some s') {ψ : State R} (hh : Holds N s.rows ψ) (hne : ψ ≠ 0) :
    ∃ ψ', Det k l (ψ, clBits s.cl) (ψ', clBits s'.cl) ∧ Holds N s'.rows ψ' ∧ ψ' ≠ 0 := by
  induction l generalizing s ψ with
  | nil => cases h; exact ⟨ψ, Det.nil k _, hh, hne⟩
  | cons i l ih =>
    unfold simDet at h
    split at h
    · rename_i hk
      cases hs : simStep N i s with
      | none => rw [hs] at h; cases h
      | some s₁ =>
        rw [hs] at h
        obtain ⟨ψ₁, h1, h2, h3⟩ := simDet_step k hs hk hh hne
        obtain ⟨ψ', h4, h5⟩ := ih h h2 h3
        exact ⟨ψ', Det.append k (l₁ := [i]) h1 h4, h5⟩
    · cases h

/-- All qubits 0; the partners are X operators. -/
def startRows (N : ℕ) : List Row := (List.range N).map fun q => (⟨false, 1 <<< q, 0⟩, ⟨false, 0, 1 <<< q⟩)

theorem start_holds (N : ℕ) : Holds N (startRows N) (ket N fun _ => false : State R) := by
  intro r hr
  obtain ⟨q, hq, rfl⟩ := List.mem_map.1 hr
  have hq := List.mem_range.1 hq
  funext b
  show (⟨false, 0, 1 <<< q⟩ : NF).act N _ b = _
  rw [single_act hq]
  unfold ket
  split
  · rename_i h; rw [h q hq]; simp [sgn]
  · simp

/-- The simulator shows a result of a circuit. -/
theorem sim_result [Nontrivial R] {l : List Instr} {choices : List Bool} {s : Sim}
    (h : sim N (expand l) ⟨startRows N, 0, choices⟩ = some s) : MappedResult R k N l (fun _ => false) (clBits s.cl) := by
  have hne : (ket N fun _ => false : State R) ≠ 0 := fun e => by
    have := congrFun e fun _ => false
    unfold ket at this
    simp at this
  obtain ⟨ψ, h1, -, h2⟩ := sim_sound k h (start_holds N) hne
  refine ⟨(ψ, clBits s.cl), ?_, h2, rfl⟩
  have e : clBits 0 = fun _ => false := by funext b; simp [clBits]
  rw [e] at h1
  exact h1

/-- One bit of a result. -/
def simBit (N : ℕ) (l : List Instr) (choices : List Bool) (b : ℕ) : Option Bool :=
  (sim N (expand l) ⟨startRows N, 0, choices⟩).map fun s => s.cl.testBit b

theorem simBit_result [Nontrivial R] {l : List Instr} {choices : List Bool} {b : ℕ} {v : Bool} (h : simBit N l choices b = some v) :
    ∃ r, MappedResult R k N l (fun _ => false) r ∧ r b = v := by
  obtain ⟨s, hs, rfl⟩ := Option.map_eq_some_iff.1 h
  exact ⟨_, sim_result k hs, rfl⟩

/-- A bit that is the same in all results. -/
def detBit (N : ℕ) (l : List Instr) (b : ℕ) : Option Bool :=
  (simDet N (expand l) ⟨startRows N, 0, []⟩).map fun s => s.cl.testBit b

theorem detBit_result [Nontrivial R] {l : List Instr} {b : ℕ} {v : Bool} (h : detBit N l b = some v) :
    (∃ r, MappedResult R k N l (fun _ => false) r) ∧ ∀ r, MappedResult R k N l (fun _ => false) r → r b = v := by
  obtain ⟨s, hs, rfl⟩ := Option.map_eq_some_iff.1 h
  have hne : (ket N fun _ => false : State R) ≠ 0 := fun e => by
    have := congrFun e fun _ => false
    unfold ket at this
    simp at this
  obtain ⟨ψ, ⟨h1, h2⟩, -, h3⟩ := simDet_sound k hs (start_holds N) hne
  have e : clBits 0 = fun _ => false := by funext b; simp [clBits]
  rw [e] at h1 h2
  refine ⟨⟨_, (ψ, clBits s.cl), h1, h3, rfl⟩, ?_⟩
  rintro r ⟨c, hc, hcn, rfl⟩
  rcases h2 c hc with rfl | h0
  · rfl
  · exact absurd h0 hcn

end Verif.Ecc
