import Verif.Props.EccShor9
import Mathlib.Tactic.Abel

/-!
# C100: the operation X with two controls does not survive Q9Shor

Each of the nine copies of the controls is random in the basis in which it controls the copy of the target; only the parity of
a group is determined, and the parity of the products of two random values is not.
-/

namespace Verif.Ecc
variable {R : Type} [CommRing R] (k : Consts R)

/-! ## Branches are linear -/

theorem opAct_add (op : Op) (t : ℕ) (ψ φ : State R) : opAct k op t (ψ + φ) = opAct k op t ψ + opAct k op t φ := by
  funext x
  cases op <;> simp only [opAct, Pi.add_apply] <;> ring

theorem gateAct_add (op : Op) (cs : List (ℕ × Bool)) (t : ℕ) (ψ φ : State R) :
    gateAct k op cs t (ψ + φ) = gateAct k op cs t ψ + gateAct k op cs t φ := by
  funext x
  simp only [gateAct, Pi.add_apply]
  rw [opAct_add]
  split <;> rfl

theorem opAct_smul (op : Op) (t : ℕ) (u : R) (ψ : State R) : opAct k op t (u • ψ) = u • opAct k op t ψ := by
  rw [← gateAct_nil, gateAct_smul, gateAct_nil]

theorem step_add {i : Instr} {ψ φ : State R} {cl : Bits} {c' : Config R} (hb : Step k i (ψ + φ, cl) c') :
    ∃ a b : State R, Step k i (ψ, cl) (a, c'.2) ∧ Step k i (φ, cl) (b, c'.2) ∧ c'.1 = a + b := by
  cases i with
  | gate op cs t => have hb : c' = _ := hb; subst hb; exact ⟨_, _, rfl, rfl, gateAct_add k op cs t ψ φ⟩
  | swap a b => have hb : c' = _ := hb; subst hb; exact ⟨_, _, rfl, rfl, rfl⟩
  | clone g => exact hb.elim
  | measure q b =>
    obtain ⟨o, rfl⟩ := hb
    refine ⟨_, _, ⟨o, rfl⟩, ⟨o, rfl⟩, ?_⟩
    funext x
    simp only [project, Pi.add_apply]
    split <;> simp
  | reset q =>
    obtain ⟨o, rfl⟩ := hb
    refine ⟨_, _, ⟨o, rfl⟩, ⟨o, rfl⟩, ?_⟩
    funext x
    simp only [resetAct, Pi.add_apply]
    split <;> simp
  | cc op q start len v =>
    have hb : c' = _ := hb
    subst hb
    refine ⟨_, _, rfl, rfl, ?_⟩
    simp only
    split
    · exact opAct_add k op q ψ φ
    · rfl

theorem branch_add {l : List Instr} {ψ φ : State R} {cl : Bits} {c' : Config R} (hb : Branch k l (ψ + φ, cl) c') :
    ∃ a b : State R, Branch k l (ψ, cl) (a, c'.2) ∧ Branch k l (φ, cl) (b, c'.2) ∧ c'.1 = a + b := by
  induction l generalizing ψ φ cl with
  | nil => cases hb; exact ⟨_, _, rfl, rfl, rfl⟩
  | cons i l ih =>
    obtain ⟨c₁, h1, h2⟩ := hb
    obtain ⟨a, b, ha, hb, e⟩ := step_add k h1
    have : c₁ = (a + b, c₁.2) := by rw [← e]
    rw [this] at h2
    obtain ⟨a', b', ha', hb', e'⟩ := ih h2
    exact ⟨a', b', ⟨_, ha, ha'⟩, ⟨_, hb, hb'⟩, e'⟩

theorem step_smul {i : Instr} {u : R} {ψ : State R} {cl : Bits} {c' : Config R} (hb : Step k i (u • ψ, cl) c') :
    ∃ a : State R, Step k i (ψ, cl) (a, c'.2) ∧ c'.1 = u • a := by
  cases i with
  | gate op cs t => have hb : c' = _ := hb; subst hb; exact ⟨_, rfl, gateAct_smul k op cs t u ψ⟩
  | swap a b => have hb : c' = _ := hb; subst hb; exact ⟨_, rfl, rfl⟩
  | clone g => exact hb.elim
  | measure q b => obtain ⟨o, rfl⟩ := hb; exact ⟨_, ⟨o, rfl⟩, project_smul q o u ψ⟩
  | reset q => obtain ⟨o, rfl⟩ := hb; exact ⟨_, ⟨o, rfl⟩, resetAct_smul q o u ψ⟩
  | cc op q start len v =>
    have hb : c' = _ := hb
    subst hb
    refine ⟨_, rfl, ?_⟩
    simp only
    split
    · exact opAct_smul k op q u ψ
    · rfl

theorem branch_smul {l : List Instr} {u : R} {ψ : State R} {cl : Bits} {c' : Config R} (hb : Branch k l (u • ψ, cl) c') :
    ∃ a : State R, Branch k l (ψ, cl) (a, c'.2) ∧ c'.1 = u • a := by
  induction l generalizing ψ cl with
  | nil => cases hb; exact ⟨_, rfl, rfl⟩
  | cons i l ih =>
    obtain ⟨c₁, h1, h2⟩ := hb
    obtain ⟨a, ha, e⟩ := step_smul k h1
    have : c₁ = (u • a, c₁.2) := by rw [← e]
    rw [this] at h2
    obtain ⟨a', ha', e'⟩ := ih h2
    exact ⟨a', ⟨_, ha, ha'⟩, e'⟩

/-! ## Projections on eigenspaces -/

theorem act_zero (w : Word) : act w (0 : State R) = 0 := by
  have := act_smul w (0 : R) (0 : State R)
  rwa [zero_smul, zero_smul] at this

/-- Twice the projection on the eigenspace of `w` for the sign `v`. -/
def pw (w : Word) (v : Bool) (ψ : State R) : State R := ψ + (sgn v : R) • act w ψ

theorem pw_add (w : Word) (v : Bool) (ψ φ : State R) : pw w v (ψ + φ) = pw w v ψ + pw w v φ := by
  unfold pw
  rw [act_add, smul_add]
  abel

theorem pw_smul (w : Word) (v : Bool) (u : R) (ψ : State R) : pw w v (u • ψ) = u • pw w v ψ := by
  unfold pw
  rw [act_smul, smul_add, smul_comm u]

theorem pw_sum (w : Word) (ψ : State R) : ψ + ψ = pw w false ψ + pw w true ψ := by
  unfold pw
  rw [sgn_false, sgn_true, one_smul, neg_one_smul]
  abel

theorem act_pw {u w : Word} (h : anti u w = false) (v : Bool) (ψ : State R) : act u (pw w v ψ) = pw w v (act u ψ) := by
  unfold pw
  have := act_act u w ψ
  rw [h, sgn_false, one_smul] at this
  rw [act_add, act_smul, this]

theorem pw_comm {u w : Word} (h : anti u w = false) (a b : Bool) (ψ : State R) : pw u a (pw w b ψ) = pw w b (pw u a ψ) := by
  rw [show pw u a (pw w b ψ) = pw w b ψ + (sgn a : R) • act u (pw w b ψ) from rfl, act_pw h, ← pw_smul, ← pw_add]
  rfl

/-- A fact stays. -/
theorem pw_keep {u w : Word} (h : anti u w = false) {s v : Bool} {ψ : State R} (hE : act u ψ = (sgn s : R) • ψ) :
    act u (pw w v ψ) = (sgn s : R) • pw w v ψ := by
  rw [act_pw h, hE, pw_smul]

/-- Words of X letters. -/
def XWord (w : Word) : Prop := ∀ l ∈ w, l.1 = true

instance (w : Word) : Decidable (XWord w) := by unfold XWord; infer_instance

theorem anti_X {u w : Word} (hu : XWord u) (hw : XWord w) : anti u w = false := by
  induction u with
  | nil => rfl
  | cons l u ih =>
    have h1 : anti1 l w = false := by
      have hl := hu l (by simp)
      clear ih
      induction w with
      | nil => rfl
      | cons m w ihw =>
        show (antiL l m ^^ anti1 l w) = false
        rw [ihw fun m hm => hw m (by simp [hm])]
        simp [antiL, hl, hw m (by simp)]
    show (anti1 l w ^^ anti u w) = false
    rw [h1, ih fun m hm => hu m (by simp [hm])]
    rfl

theorem X_sq {w : Word} (hw : XWord w) (ψ : State R) : act w (act w ψ) = ψ := by
  induction w generalizing ψ with
  | nil => rfl
  | cons l w ih =>
    have hw' : XWord w := fun m hm => hw m (by simp [hm])
    have hl : XWord [l] := fun m hm => by simp at hm; subst hm; exact hw m (by simp)
    have := act_act w [l] (act w ψ)
    rw [anti_X hw' hl, sgn_false, one_smul] at this
    show actL l (act w (act [l] (act w ψ))) = ψ
    rw [this, ih hw']
    obtain ⟨b, q⟩ := l
    have hb : b = true := hw (b, q) (by simp)
    subst hb
    funext x
    show ψ (flip (flip x q) q) = ψ x
    rw [flip_flip]

theorem pw_own {w : Word} (hw : XWord w) (v : Bool) (ψ : State R) : act w (pw w v ψ) = (sgn v : R) • pw w v ψ := by
  unfold pw
  rw [act_add, act_smul, X_sq hw, smul_add, smul_smul, sgn_mul_self, one_smul, add_comm]

include k in
/-- A projection does not vanish if an anticommuting operator leaves the state as it is. -/
theorem pw_ne {u w : Word} (h : anti u w = true) {v : Bool} {ψ : State R} (hE : act u ψ = ψ) (h0 : ψ ≠ 0) : pw w v ψ ≠ 0 := by
  intro hp
  apply h0
  have h1 : act u (pw w v ψ) = 0 := by rw [hp]; exact act_zero u
  have h2 := act_act u w ψ
  rw [h, hE, sgn_true, neg_one_smul] at h2
  unfold pw at h1 hp
  rw [act_add, act_smul, hE, h2] at h1
  funext x
  have e1 := congrFun h1 x
  have e2 := congrFun hp x
  simp only [Pi.add_apply, Pi.smul_apply, Pi.neg_apply, smul_eq_mul, Pi.zero_apply] at e1 e2
  have hs := k.hs
  show ψ x = 0
  linear_combination (k.s * k.s) * e1 + (k.s * k.s) * e2 - ψ x * hs

theorem pw_zero (w : Word) (v : Bool) : pw w v (0 : State R) = 0 := by
  unfold pw
  rw [act_zero, smul_zero, add_zero]

/-! ## The circuit -/

namespace Toffoli

open Q9

def g : Gate := { op := .X, controls := [(0, true), (1, true)], targets := [2] }
def gates : List Gate := [g, meas 2 0]

def enc : List Instr := blocks 3 fun i => encodeBlock (dat 3 i)
def trans : List Instr := transversal 3 g
def rest : List Instr := (blocks 3 fun i => correctBlock (dat 3 i) (fun j => 3 * 9 + j) 1) ++ (blocks 3 fun i => decodeBlock (dat 3 i)) ++ [.measure 2 0]

theorem apply_eq : (q9Shor 3 1).apply 0 gates = .ok (enc ++ trans ++ rest) := by decide +kernel

/-! ### After the encoding -/

def zero : TS := ⟨(List.range 27).map fun q => ([(false, q)], false), []⟩

def encCmds : List Cmd := (List.range 3).flatMap fun i =>
  let l := encodeBlock (dat 3 i)
  (l.take 1).map .run ++ [.mul (dat 3 i 3) (dat 3 i 0)] ++ ((l.drop 1).take 1).map .run ++ [.mul (dat 3 i 6) (dat 3 i 0)] ++ (l.drop 2).map .run

theorem encCmds_instr : encCmds.flatMap Cmd.instr = enc := by decide +kernel

/-- XXX on group `b` of logical qubit `i`. -/
def xw (i b : ℕ) : Word := place (dat 3 i) (xxx b)

/-- Z on the first qubit and on qubit `j` of group `b` of logical qubit `i`. -/
def zw (i b j : ℕ) : Word := [(false, dat 3 i (3 * b)), (false, dat 3 i (3 * b + j))]

theorem enc_track : ∃ s', track 27 encCmds zero = some s' ∧ (∀ i < 3, ∀ b < 3, (xw i b, false) ∈ s'.facts) ∧
    ∀ i < 3, ∀ b < 3, (zw i b 1, false) ∈ s'.facts ∧ (zw i b 2, false) ∈ s'.facts := by
  have key : (match track 27 encCmds zero with
      | some s' => (List.range 3).all fun i => (List.range 3).all fun b =>
          s'.facts.contains (xw i b, false) && (s'.facts.contains (zw i b 1, false) && s'.facts.contains (zw i b 2, false))
      | none => false) = true := by decide +kernel
  split at key
  · rename_i s' h
    have key : ∀ i < 3, ∀ b < 3, (xw i b, false) ∈ s'.facts ∧ (zw i b 1, false) ∈ s'.facts ∧ (zw i b 2, false) ∈ s'.facts := by
      intro i hi b hb
      have := List.all_eq_true.1 (List.all_eq_true.1 key i (List.mem_range.2 hi)) b (List.mem_range.2 hb)
      simpa only [Bool.and_eq_true, List.contains_iff_mem] using this
    exact ⟨s', h, fun i hi b hb => (key i hi b hb).1, fun i hi b hb => (key i hi b hb).2⟩
  · cases key

/-! ### Projection of the controls -/

/-- Projections on X values of qubits, with the operators that show that they do not vanish. -/
def projections : List (ℕ × Bool × Word) :=
  [0, 1].flatMap fun i => (List.range 3).flatMap fun b =>
    [(dat 3 i (3 * b + 1), decide (i = 0), zw i b 1), (dat 3 i (3 * b + 2), decide (i = 1), zw i b 2)]

def projAll : List (ℕ × Bool × Word) → State R → State R
  | [], ψ => ψ
  | e :: L, ψ => projAll L (pw [(true, e.1)] e.2.1 ψ)

include k in
theorem projAll_ne : ∀ (L : List (ℕ × Bool × Word)) (ψ : State R), (∀ e ∈ L, act e.2.2 ψ = ψ) →
    (∀ e ∈ L, anti e.2.2 [(true, e.1)] = true) → L.Pairwise (fun e e' => anti e'.2.2 [(true, e.1)] = false) → ψ ≠ 0 → projAll L ψ ≠ 0
  | [], _, _, _, _, h => h
  | e :: L, ψ, h1, h2, h3, h => by
    obtain ⟨h4, h5⟩ := List.pairwise_cons.1 h3
    refine projAll_ne L _ (fun e' he' => ?_) (fun e' he' => h2 e' (by simp [he'])) h5 (pw_ne k (h2 e (by simp)) (h1 e (by simp)) h)
    have := pw_keep (ψ := ψ) (w := [(true, e.1)]) (s := false) (v := e.2.1) (h4 e' he') (by rw [sgn_false, one_smul]; exact h1 e' (by simp [he']))
    rwa [sgn_false, one_smul] at this

theorem projAll_keep {w : Word} {s : Bool} : ∀ (L : List (ℕ × Bool × Word)) (ψ : State R), (∀ e ∈ L, anti w [(true, e.1)] = false) →
    act w ψ = (sgn s : R) • ψ → act w (projAll L ψ) = (sgn s : R) • projAll L ψ
  | [], _, _, h => h
  | e :: L, _, h1, h => projAll_keep L _ (fun e' he' => h1 e' (by simp [he'])) (pw_keep (h1 e (by simp)) h)

theorem X_single (q : ℕ) : XWord [(true, q)] := fun l hl => by simp at hl; subst hl; rfl

theorem projAll_own : ∀ (L : List (ℕ × Bool × Word)) (ψ : State R), ∀ e ∈ L,
    act [(true, e.1)] (projAll L ψ) = (sgn e.2.1 : R) • projAll L ψ
  | e :: L, ψ, e', he' => by
    rcases List.mem_cons.1 he' with rfl | he'
    · exact projAll_keep L _ (fun e _ => anti_X (X_single _) (X_single _)) (pw_own (X_single _) _ _)
    · exact projAll_own L _ e' he'

theorem projAll_pw {w : Word} (hw : XWord w) (v : Bool) : ∀ (L : List (ℕ × Bool × Word)) (ψ : State R),
    projAll L (pw w v ψ) = pw w v (projAll L ψ)
  | [], _ => rfl
  | e :: L, ψ => by
    unfold projAll
    rw [pw_comm (anti_X (X_single _) hw), projAll_pw hw v L]

theorem projAll_zero : ∀ L : List (ℕ × Bool × Word), projAll L (0 : State R) = 0
  | [] => rfl
  | e :: L => by unfold projAll; rw [pw_zero, projAll_zero L]

/-! ### The gate -/

/-- The effect of the nine copies. -/
def tf (k : Consts R) : List ℕ → State R → State R
  | [], ψ => ψ
  | j :: l, ψ => tf k l (copyFun k 3 g 2 j ψ)

theorem branch_tf (l : List ℕ) {c c' : Config R} (hb : Branch k (l.flatMap (copyGate 3 g 2)) c c') : c' = (tf k l c.1, c.2) := by
  induction l generalizing c with
  | nil => cases hb; rfl
  | cons j l ih =>
    rw [List.flatMap_cons, branch_append] at hb
    obtain ⟨c₁, h1, h2⟩ := hb
    have h1 := branch_copy k h1
    subst h1
    exact ih h2

theorem trans_eq : trans = (List.range 9).flatMap (copyGate 3 g 2) := rfl

theorem hAll_add (qs : List ℕ) (ψ φ : State R) : hAll k qs (ψ + φ) = hAll k qs ψ + hAll k qs φ := by
  induction qs generalizing ψ φ with
  | nil => rfl
  | cons q qs ih => unfold hAll; rw [gateAct_add, ih]

theorem copy_pw {j q : ℕ} (hq : q ≠ dat 3 2 j) (v : Bool) (ψ : State R) :
    copyFun k 3 g 2 j (pw [(true, q)] v ψ) = pw [(true, q)] v (copyFun k 3 g 2 j ψ) := by
  have ha : ∀ ψ φ : State R, copyFun k 3 g 2 j (ψ + φ) = copyFun k 3 g 2 j ψ + copyFun k 3 g 2 j φ := by
    intro ψ φ
    unfold copyFun
    simp only
    rw [hAll_add, gateAct_add, hAll_add]
  have := copyFun_letter k (n := 3) (t := 2) (j := j) (g := g) (by decide) (by decide) (by decide) q ψ (.inl hq)
  unfold pw
  rw [ha, copyFun_smul]
  exact congrArg (fun z => copyFun k 3 g 2 j ψ + (sgn v : R) • z) this

theorem tf_projAll {L : List (ℕ × Bool × Word)} (hL : ∀ e ∈ L, ∀ j < 9, e.1 ≠ dat 3 2 j) (l : List ℕ) (hl : ∀ j ∈ l, j < 9) (ψ : State R) :
    tf k l (projAll L ψ) = projAll L (tf k l ψ) := by
  have key : ∀ (L : List (ℕ × Bool × Word)), (∀ e ∈ L, ∀ j < 9, e.1 ≠ dat 3 2 j) → ∀ j < 9, ∀ ψ : State R,
      copyFun k 3 g 2 j (projAll L ψ) = projAll L (copyFun k 3 g 2 j ψ) := by
    intro L
    induction L with
    | nil => intro _ _ _ _; rfl
    | cons e L ih =>
      intro hL j hj ψ
      unfold projAll
      rw [ih (fun e he => hL e (by simp [he])) j hj, copy_pw k (hL e (by simp) j hj)]
  induction l generalizing ψ with
  | nil => rfl
  | cons j l ih =>
    unfold tf
    rw [key L hL j (hl j (by simp)), ih (fun j hj => hl j (by simp [hj]))]

/-- What is known of the projected state before the gate. -/
def before : TS := ⟨((List.range 3).flatMap fun i => (List.range 3).map fun b => (xw i b, false)) ++
  projections.map fun e => ([(true, e.1)], e.2.1), []⟩

def transCmds : List Cmd :=
  ((List.range 6).flatMap fun a => [.mul a (9 + 2 * a), .mul a (9 + 2 * a + 1)]) ++ trans.map .run

theorem trans_track : ∃ s', track 27 transCmds before = some s' ∧ ∀ b < 3, (xw 2 b, true) ∈ s'.facts := by
  have key : (match track 27 transCmds before with
      | some s' => (List.range 3).all fun b => s'.facts.contains (xw 2 b, true)
      | none => false) = true := by decide +kernel
  split at key
  · rename_i s' h
    refine ⟨s', h, fun b hb => ?_⟩
    simpa only [List.contains_iff_mem] using List.all_eq_true.1 key b (List.mem_range.2 hb)
  · cases key

/-! ### The rest of the circuit -/

/-- The values of the groups: 0 for the controls, `s` for the target. -/
def vals (s : ℕ → Bool) (i b : ℕ) : Bool := if i = 2 then s b else false

theorem rest_run {s : ℕ → Bool} {c c' : Config R} (h : Sec 3 (vals s) c.1) (hb : Branch k rest c c') :
    c'.1 = 0 ∨ (c'.2 7 = (s 0 ^^ s 1) ∧ c'.2 8 = (s 1 ^^ s 2) ∧ c'.2 0 = majority (s 0) (s 1) (s 2)) := by
  unfold rest at hb
  rw [branch_append] at hb
  obtain ⟨c₂, h12, h3⟩ := hb
  rw [branch_append] at h12
  obtain ⟨c₁, h1, h2⟩ := h12
  rcases (correct_run k h h1).1 with r | ⟨r1, r2⟩
  · exact .inl (branch_zero k h3 (branch_zero k h2 r))
  · obtain ⟨d1, d2⟩ := decode_run k (m := 9) (o := fun i => majority (vals s i 0) (vals s i 1) (vals s i 2)) (fun _ _ _ _ => rfl) r1 h2
    rcases d1 with d1 | d1
    · exact .inl (branch_zero k h3 d1)
    · rcases measure_run k (m := 9) [2] [0] (by decide) d1 (fun _ _ => rfl) h3 with e | ⟨-, e⟩
      · exact .inl e
      · right
        obtain ⟨a, b⟩ := r2 2 rfl
        rw [e 7 (by decide), e 8 (by decide), e 0 (by decide)]
        refine ⟨?_, ?_, rfl⟩
        · show c₂.2 7 = _
          rw [d2 7 (by decide)]; exact a
        · show c₂.2 8 = _
          rw [d2 8 (by decide)]; exact b

theorem rest_fine : ∀ i ∈ rest, i.Fine := by decide +kernel
theorem enc_fine : ∀ i ∈ enc, i.Fine := by decide +kernel
theorem trans_fine : ∀ i ∈ trans, i.Fine := by decide +kernel

/-- No branch from here ends with a syndrome that shows equal groups and the result 1. -/
def Dead (k : Consts R) (cl : Bits) (ψ : State R) : Prop :=
  ∀ c', Branch k rest (ψ, cl) c' → c'.2 7 = false → c'.2 8 = false → c'.2 0 = true → c'.1 = 0

variable {k}

theorem Dead.add {cl : Bits} {ψ φ : State R} (h : Dead k cl ψ) (h' : Dead k cl φ) : Dead k cl (ψ + φ) := by
  intro c' hb h1 h2 h3
  obtain ⟨a, b, ha, hb, e⟩ := branch_add k hb
  rw [e, show a = 0 from h _ ha h1 h2 h3, show b = 0 from h' _ hb h1 h2 h3, add_zero]

theorem Dead.smul {cl : Bits} {ψ : State R} (h : Dead k cl ψ) (u : R) : Dead k cl (u • ψ) := by
  intro c' hb h1 h2 h3
  obtain ⟨a, ha, e⟩ := branch_smul k hb
  rw [e, show a = 0 from h _ ha h1 h2 h3, smul_zero]

theorem Dead.half {cl : Bits} {ψ : State R} (h : Dead k cl (ψ + ψ)) : Dead k cl ψ := by
  have := h.smul (k.s * k.s)
  have e : (k.s * k.s) • (ψ + ψ) = ψ := by
    funext x
    have hs := k.hs
    show k.s * k.s * (ψ x + ψ x) = ψ x
    linear_combination ψ x * hs
  rwa [e] at this

theorem Dead.split {cl : Bits} {ψ : State R} (w : Word) (h : Dead k cl (pw w false ψ)) (h' : Dead k cl (pw w true ψ)) : Dead k cl ψ := by
  apply Dead.half
  rw [pw_sum w]
  exact h.add h'

theorem Dead.other {cl : Bits} {ψ : State R} (w : Word) (h : Dead k cl ψ) (h' : Dead k cl (pw w false ψ)) : Dead k cl (pw w true ψ) := by
  have e : pw w true ψ = (ψ + ψ) + (-1 : R) • pw w false ψ := by
    rw [pw_sum w, neg_one_smul]
    abel
  rw [e]
  exact (h.add h).add (h'.smul _)

theorem xw_X (i b : ℕ) : XWord (xw i b) := fun l hl => by
  obtain ⟨l', hl', rfl⟩ := List.mem_map.1 hl
  simp only [xxx, List.mem_cons, List.not_mem_nil, or_false] at hl'
  rcases hl' with rfl | rfl | rfl <;> rfl

/-- A state with definite values of the groups. -/
theorem sec_of {s : ℕ → Bool} {ψ : State R} (hc : ∀ i < 2, ∀ b < 3, act (xw i b) ψ = ψ) (h : ∀ b < 3, act (xw 2 b) ψ = (sgn (s b) : R) • ψ) :
    Sec 3 (vals s) ψ := by
  intro i hi b hb
  unfold vals Eig
  by_cases e : i = 2
  · subst e
    exact h b hb
  · simp only [e, if_false, sgn_false, one_smul]
    exact hc i (by omega) b hb

theorem dead_leaf {cl : Bits} {s : ℕ → Bool} {ψ : State R} (h : Sec 3 (vals s) ψ) (hs : ¬ (s 0 = true ∧ s 1 = true ∧ s 2 = true)) :
    Dead k cl ψ := by
  intro c' hb h1 h2 h3
  rcases rest_run k h hb with e | ⟨e1, e2, e3⟩
  · exact e
  · exfalso
    rw [h1] at e1
    rw [h2] at e2
    rw [h3] at e3
    apply hs
    revert e1 e2 e3
    cases s 0 <;> cases s 1 <;> cases s 2 <;> decide

theorem live {cl : Bits} {s : ℕ → Bool} {ψ : State R} (h : Sec 3 (vals s) ψ) (hs : s 0 = true ∧ s 1 = true ∧ s 2 = true) (hd : Dead k cl ψ) :
    ψ = 0 := by
  by_contra h0
  obtain ⟨c', hb, hne⟩ := branch_exists k rest_fine (c := (ψ, cl)) h0
  rcases rest_run k h hb with e | ⟨e1, e2, e3⟩
  · exact hne e
  · refine hne (hd c' hb ?_ ?_ ?_)
    · rw [e1, hs.1, hs.2.1]; rfl
    · rw [e2, hs.2.1, hs.2.2]; rfl
    · rw [e3, hs.1, hs.2.1, hs.2.2]; rfl

/-- If the wrong result is impossible, nothing is left in the sector with value 1. -/
theorem sector_zero {cl : Bits} {φ : State R} (hc : ∀ i < 2, ∀ b < 3, act (xw i b) φ = φ) (hd : Dead k cl φ) :
    pw (xw 2 2) true (pw (xw 2 1) true (pw (xw 2 0) true φ)) = 0 := by
  have leaf : ∀ s0 s1 s2 : Bool, Sec 3 (vals fun b => if b = 0 then s0 else if b = 1 then s1 else s2)
      (pw (xw 2 2) s2 (pw (xw 2 1) s1 (pw (xw 2 0) s0 φ))) := by
    intro s0 s1 s2
    apply sec_of
    · intro i hi b hb
      rw [act_pw (anti_X (xw_X _ _) (xw_X _ _)), act_pw (anti_X (xw_X _ _) (xw_X _ _)), act_pw (anti_X (xw_X _ _) (xw_X _ _)), hc i hi b hb]
    · intro b hb
      have : b = 0 ∨ b = 1 ∨ b = 2 := by omega
      rcases this with rfl | rfl | rfl
      · exact pw_keep (anti_X (xw_X _ _) (xw_X _ _)) (pw_keep (anti_X (xw_X _ _) (xw_X _ _)) (pw_own (xw_X _ _) _ _))
      · exact pw_keep (anti_X (xw_X _ _) (xw_X _ _)) (pw_own (xw_X _ _) _ _)
      · exact pw_own (xw_X _ _) _ _
  have dl : ∀ s0 s1 s2 : Bool, ¬ (s0 = true ∧ s1 = true ∧ s2 = true) → Dead k cl (pw (xw 2 2) s2 (pw (xw 2 1) s1 (pw (xw 2 0) s0 φ))) :=
    fun s0 s1 s2 h => dead_leaf (leaf s0 s1 s2) (by simpa using h)
  have d0 : Dead k cl (pw (xw 2 0) false φ) := Dead.split (xw 2 1)
    (Dead.split (xw 2 2) (dl false false false (by decide)) (dl false false true (by decide)))
    (Dead.split (xw 2 2) (dl false true false (by decide)) (dl false true true (by decide)))
  have d1 := hd.other (xw 2 0) d0
  have d2 := d1.other (xw 2 1) (Dead.split (xw 2 2) (dl true false false (by decide)) (dl true false true (by decide)))
  have d3 := d2.other (xw 2 2) (dl true true false (by decide))
  exact live (leaf true true true) (by decide) d3

variable (k)

theorem tf_xw {i b : ℕ} (hi : i < 2) (l : List ℕ) {ψ : State R} (h : act (xw i b) ψ = ψ) : act (xw i b) (tf k l ψ) = tf k l ψ := by
  induction l generalizing ψ with
  | nil => exact h
  | cons j l ih =>
    unfold tf
    refine ih ?_
    have : ∀ w : Word, (∀ l ∈ w, l.1 = true ∧ l.2 ≠ dat 3 2 j) → ∀ ψ : State R, copyFun k 3 g 2 j (act w ψ) = act w (copyFun k 3 g 2 j ψ) := by
      intro w hw ψ
      induction w with
      | nil => rfl
      | cons a w ihw =>
        obtain ⟨a1, a2⟩ := a
        have h := hw (a1, a2) (by simp)
        have : a1 = true := h.1
        subst this
        show copyFun k 3 g 2 j (actL (true, a2) (act w ψ)) = actL (true, a2) (act w (copyFun k 3 g 2 j ψ))
        rw [copyFun_letter k (by decide) (by decide) (by decide) _ _ (.inl h.2), ihw fun l hl => hw l (by simp [hl])]
    rw [← this (xw i b) ?_, h]
    intro l hl
    refine ⟨xw_X i b l hl, ?_⟩
    obtain ⟨l', -, rfl⟩ := List.mem_map.1 hl
    exact fun e => absurd (dat_inj (show i < 3 by omega) (show 2 < 3 by decide) e).1 (by omega)

theorem place_id (w : Word) : place id w = w := by
  unfold place
  simp

theorem rename_id (l : List Instr) : l.map (Instr.rename id (0 + ·)) = l := by
  have : ∀ i : Instr, i.rename id (0 + ·) = i := by
    intro i
    cases i <;> simp [Instr.rename]
  exact (List.map_congr_left fun i _ => this i).trans (List.map_id' l)

/-- The gate can give the result 1 although the controls are 0. -/
theorem wrong [Nontrivial R] (cl : Bits) : ∃ c' : Config R, Branch k (enc ++ trans ++ rest) (ket 35 fun _ => false, cl) c' ∧ c'.1 ≠ 0 ∧ c'.2 0 = true := by
  by_contra hcon
  push Not at hcon
  have hk : (ket 35 fun _ => false : State R) ≠ 0 := by
    have := ket_ne_zero (R := R) 35 (fun _ => false) 1 (one_pow 8)
    rwa [one_smul] at this
  obtain ⟨c₁, h1, n1⟩ := branch_exists k enc_fine (c := (ket 35 fun _ => false, cl)) hk
  -- the encoded state
  obtain ⟨s', ht, hx, hz⟩ := enc_track
  have hzero : zero.Sat id 27 0 ((ket 35 fun _ => false, cl) : Config R) := by
    refine ⟨fun f hf => ?_, fun f hf => ?_, fun p hp => by cases hp⟩
    · obtain ⟨q, hq, rfl⟩ := List.mem_map.1 hf
      intro l hl
      simp at hl
      subst hl
      exact List.mem_range.1 hq
    · obtain ⟨q, hq, rfl⟩ := List.mem_map.1 hf
      have hq := List.mem_range.1 hq
      unfold Eig
      rw [sgn_false, one_smul]
      funext x
      show sgn (x q) * ket _ _ x = ket _ _ x
      by_cases hx : Agree 35 x fun _ => false
      · rw [hx q (by omega), sgn_false, one_mul]
      · rw [ket_not hx, mul_zero]
  have hb1 := h1
  rw [← encCmds_instr, ← rename_id (encCmds.flatMap Cmd.instr)] at hb1
  have inj : ∀ r, Inj r id := fun r a _ b _ h => h
  have sat := (track_sound k (inj 27) ht hzero hb1).resolve_left n1
  have plus : ∀ w, (w, false) ∈ s'.facts → act w c₁.1 = c₁.1 := by
    intro w hw
    have := sat.eig _ hw
    unfold Eig at this
    rwa [place_id, sgn_false, one_smul] at this
  -- the projected state
  have hpne : projAll projections c₁.1 ≠ 0 := by
    refine projAll_ne k projections c₁.1 (fun e he => ?_) (by decide +kernel) (by decide +kernel) n1
    simp only [projections, List.mem_flatMap, List.mem_cons, List.not_mem_nil, or_false] at he
    obtain ⟨i, hi, b, hb, he⟩ := he
    have hi : i < 3 := by omega
    have hb := List.mem_range.1 hb
    rcases he with rfl | rfl
    · exact plus _ (hz i hi b hb).1
    · exact plus _ (hz i hi b hb).2
  have hbef : before.Sat id 27 0 ((projAll projections c₁.1, c₁.2) : Config R) := by
    refine ⟨?_, fun f hf => ?_, fun p hp => by cases hp⟩
    · unfold before Within
      decide +kernel
    · unfold Eig
      rw [place_id]
      rcases List.mem_append.1 hf with hf | hf
      · obtain ⟨i, hi, hf⟩ := List.mem_flatMap.1 hf
        obtain ⟨b, hb, rfl⟩ := List.mem_map.1 hf
        refine projAll_keep _ _ (fun e _ => anti_X (xw_X _ _) (X_single _)) ?_
        rw [sgn_false, one_smul]
        exact plus _ (hx i (List.mem_range.1 hi) b (List.mem_range.1 hb))
      · obtain ⟨e, he, rfl⟩ := List.mem_map.1 hf
        exact projAll_own _ _ e he
  obtain ⟨c₂, h2, n2⟩ := branch_exists k trans_fine (c := (projAll projections c₁.1, c₁.2)) hpne
  have e2 := branch_tf k _ (trans_eq ▸ h2)
  obtain ⟨s₂, ht2, hx2⟩ := trans_track
  have hb2 := h2
  rw [← rename_id trans, show trans = transCmds.flatMap Cmd.instr by
    unfold transCmds
    rw [List.flatMap_append, run_instr]
    rfl] at hb2
  have sat2 := (track_sound k (inj 27) ht2 hbef hb2).resolve_left n2
  have minus : ∀ b < 3, act (xw 2 b) c₂.1 = -c₂.1 := by
    intro b hb
    have := sat2.eig _ (hx2 b hb)
    unfold Eig at this
    rwa [place_id, sgn_true, neg_one_smul] at this
  have e3 : c₂.1 = projAll projections (tf k (List.range 9) c₁.1) := by
    rw [e2]
    exact tf_projAll k (by decide +kernel) _ (fun j hj => List.mem_range.1 hj) _
  -- the state after the gate
  have hd : Dead k c₁.2 (tf k (List.range 9) c₁.1) := by
    intro c' hb _ _ h3
    by_contra hne
    refine hcon c' ?_ hne h3
    rw [branch_append]
    refine ⟨(tf k (List.range 9) c₁.1, c₁.2), ?_, hb⟩
    rw [branch_append]
    refine ⟨c₁, h1, ?_⟩
    obtain ⟨c₃, h3, -⟩ := branch_exists k trans_fine (c := c₁) n1
    have := branch_tf k _ (trans_eq ▸ h3)
    rwa [← this]
  have z := sector_zero (k := k) (cl := c₁.2) (φ := tf k (List.range 9) c₁.1)
    (fun i hi b hb => tf_xw k hi _ (plus _ (hx i (by omega) b hb))) hd
  have z2 := congrArg (projAll projections) z
  rw [projAll_zero, projAll_pw (xw_X _ _), projAll_pw (xw_X _ _), projAll_pw (xw_X _ _), ← e3] at z2
  have dbl : ∀ b < 3, ∀ u : R, pw (xw 2 b) true (u • c₂.1) = (u + u) • c₂.1 := by
    intro b hb u
    rw [pw_smul]
    unfold pw
    rw [minus b hb, sgn_true, neg_one_smul, neg_neg, smul_add, add_smul]
  have d1 := dbl 0 (by decide) 1
  rw [one_smul] at d1
  rw [d1, dbl 1 (by decide), dbl 2 (by decide)] at z2
  apply n2
  funext x
  have hx8 := congrFun z2 x
  have hx8 : (1 + 1 + (1 + 1) + (1 + 1 + (1 + 1))) * c₂.1 x = 0 := hx8
  have hs := k.hs
  show c₂.1 x = 0
  have e8 : (8 : R) * (k.s * k.s) * (k.s * k.s) * (k.s * k.s) = 1 := by
    have : (8 : R) * (k.s * k.s) * (k.s * k.s) * (k.s * k.s) = (2 * k.s * k.s) * (2 * k.s * k.s) * (2 * k.s * k.s) := by ring
    rw [this, hs]; ring
  linear_combination (k.s * k.s) * (k.s * k.s) * (k.s * k.s) * hx8 - c₂.1 x * e8

end Toffoli

/-- **C100** fails for Q9Shor: X on qubit 2, controlled by qubits 0 and 1, which are 0: the mapped circuit can give 1 for
qubit 2. -/
theorem C100_violated_q9 (R : Type) [CommRing R] (k : Consts R) [Nontrivial R] : ¬ C100_claim R k q9Shor := by
  intro h
  obtain ⟨c', h1, h2, h3⟩ := Toffoli.wrong k fun _ => false
  have hfine := Q9.fine_append (Q9.fine_append Toffoli.enc_fine Toffoli.trans_fine) Toffoli.rest_fine
  have hw : ∀ i ∈ Toffoli.gates.flatMap Gate.instrs, i.WF 3 1 ∧ i.Classical := by
    simp [Toffoli.gates, Toffoli.g, meas, Gate.instrs, Instr.WF, Instr.Classical]
  obtain ⟨r, h4, h5⟩ := (h 3 1 0 Toffoli.gates _ (by simp [Toffoli.gates, Toffoli.g, meas, Gate.WF]) Toffoli.apply_eq fun _ => false).2 c'.2
    ⟨c', by rw [fine_expand hfine]; exact h1, h2, rfl⟩
  obtain ⟨-, o2⟩ := classical_result k hw fun _ => false
  have hor := fun r => mapped_original k (n := 3) (expand_id fun g hg => (hw _ hg).2) (fun _ => false) r
  simp only [hor] at o2
  have := h5 0 (by decide)
  rw [o2 r h4, h3] at this
  revert this
  decide

end Verif.Ecc
