import Verif.Lemmas.EccTableau
import Verif.Lemmas.EccClassical
import Verif.Lemmas.EccRename

/-! # Following eigenvalue equations of Pauli strings through circuits, in all branches -/

namespace Verif.Ecc
variable {R : Type} [CommRing R] (k : Consts R)

/-! ## Conjugation of letters -/

/-- The letter commutes with the operation on the same qubit. -/
def commutes (op : Op) (x : Bool) : Bool :=
  match op with
  | .X => x
  | .Z | .S | .Sdg | .T | .Tdg => !x
  | .I => true
  | _ => false

/-- Gate times letter is sign times word times gate. -/
def conjL (op : Op) (cs : List (ℕ × Bool)) (t : ℕ) (l : Bool × ℕ) : Option (Bool × Word) :=
  if l.2 = t then
    if commutes op l.1 then some (false, [l])
    else match op, cs with
      | .X, [] | .Y, [] | .Z, [] => some (true, [l])
      | .H, [] => some (false, [(!l.1, l.2)])
      | .X, [(c, p)] | .Y, [(c, p)] | .Z, [(c, p)] => some (!p, [(false, c), l])
      | _, _ => none
  else if l.2 ∈ cs.map Prod.fst then
    if l.1 then
      match op, cs with
      | .X, [_] => some (false, [l, (true, t)])
      | .Z, [_] => some (false, [l, (false, t)])
      | _, _ => none
    else some (false, [l])
  else some (false, [l])

def conjW (op : Op) (cs : List (ℕ × Bool)) (t : ℕ) : Word → Option (Bool × Word)
  | [] => some (false, [])
  | l :: w =>
    match conjL op cs t l, conjW op cs t w with
    | some p, some q => some (p.1 ^^ q.1, p.2 ++ q.2)
    | _, _ => none

theorem gateAct_smul (op : Op) (cs : List (ℕ × Bool)) (t : ℕ) (u : R) (ψ : State R) :
    gateAct k op cs t (u • ψ) = u • gateAct k op cs t ψ := by
  funext x
  simp only [gateAct, Pi.smul_apply, smul_eq_mul]
  split
  · cases op <;> simp only [opAct, Pi.smul_apply, smul_eq_mul] <;> ring
  · rfl

theorem holds_flip {cs : List (ℕ × Bool)} {t : ℕ} (h : t ∉ cs.map Prod.fst) (x : Bits) : holds cs (flip x t) = holds cs x := by
  refine holds_congr fun c hc => flip_other fun e => h ?_
  rw [← e]
  exact List.mem_map_of_mem hc

theorem sgn_flip (x : Bits) (t : ℕ) : (sgn (flip x t t) : R) = -sgn (x t) := by
  rw [flip_same, sgn_not]

theorem update_flip_same (x : Bits) (t : ℕ) (b : Bool) : Function.update (flip x t) t b = Function.update x t b := by
  unfold flip; simp

theorem update_flip_other {x : Bits} {t q : ℕ} (h : q ≠ t) (b : Bool) : Function.update (flip x q) t b = flip (Function.update x t b) q := by
  unfold flip
  rw [Function.update_of_ne h, Function.update_comm h]

/-- A letter on another qubit. -/
theorem opAct_letter_other (op : Op) {t q : ℕ} (h : q ≠ t) (b : Bool) (ψ : State R) :
    opAct k op t (actL (b, q) ψ) = actL (b, q) (opAct k op t ψ) := by
  have h' : t ≠ q := fun e => h e.symm
  funext x
  cases b
  · cases op <;> simp only [opAct, actL, Bool.false_eq_true, if_false, flip_other h, Function.update_of_ne h] <;> ring
  · cases op <;> simp only [opAct, actL, if_true, flip_other h', update_flip_other h, flip_comm x t q]

theorem opAct_letter_same {op : Op} {t : ℕ} {b : Bool} (h : commutes op b = true) (ψ : State R) :
    opAct k op t (actL (b, t) ψ) = actL (b, t) (opAct k op t ψ) := by
  funext x
  cases op <;> cases b <;> simp only [commutes, Bool.not_true, Bool.not_false, Bool.false_eq_true, reduceCtorEq] at h <;>
    simp only [opAct, actL, Bool.false_eq_true, if_false, if_true] <;> ring

theorem opAct_letter_anti {op : Op} (ho : op = .X ∨ op = .Y ∨ op = .Z) {t : ℕ} {b : Bool} (h : commutes op b = false) (ψ : State R) :
    opAct k op t (actL (b, t) ψ) = (sgn true : R) • actL (b, t) (opAct k op t ψ) := by
  funext x
  rcases ho with rfl | rfl | rfl <;> cases b <;> simp only [commutes, Bool.not_true, Bool.not_false, Bool.true_eq_false, reduceCtorEq] at h <;>
    simp only [opAct, actL, Bool.false_eq_true, if_false, if_true, Pi.smul_apply, smul_eq_mul, flip_same, sgn_not, sgn_true] <;> ring

theorem opAct_letter_H (t : ℕ) (b : Bool) (ψ : State R) :
    opAct k .H t (actL (b, t) ψ) = actL (!b, t) (opAct k .H t ψ) := by
  funext x
  cases b
  · simp only [opAct, actL, Bool.false_eq_true, if_false, if_true, Bool.not_false, Function.update_self, sgn_false, sgn_true,
      flip_same, update_flip_same, sgn_not]
    ring
  · simp only [opAct, actL, Bool.not_true, Bool.false_eq_true, if_false, if_true, flip_update, Bool.not_false]
    have := sgn_mul_self (R := R) (x t)
    linear_combination (-k.s * ψ (Function.update x t true)) * this

theorem actL_apply_false (q : ℕ) (ψ : State R) (x : Bits) : actL (false, q) ψ x = sgn (x q) * ψ x := rfl
theorem actL_apply_true (q : ℕ) (ψ : State R) (x : Bits) : actL (true, q) ψ x = ψ (flip x q) := rfl

theorem opAct_local {op : Op} {t : ℕ} {ψ φ : State R} (x : Bits) (h : ∀ b, ψ (Function.update x t b) = φ (Function.update x t b)) :
    opAct k op t ψ x = opAct k op t φ x := by
  have e1 : ψ x = φ x := by have := h (x t); simpa using this
  have e2 : ψ (flip x t) = φ (flip x t) := h _
  cases op <;> simp only [opAct, e1, e2, h]

theorem conjL_sound {op : Op} {cs : List (ℕ × Bool)} {t : ℕ} (ht : t ∉ cs.map Prod.fst) {l : Bool × ℕ} {p : Bool × Word}
    (h : conjL op cs t l = some p) (ψ : State R) :
    gateAct k op cs t (actL l ψ) = (sgn p.1 : R) • act p.2 (gateAct k op cs t ψ) := by
  obtain ⟨b, q⟩ := l
  unfold conjL at h
  simp only at h
  split at h
  · rename_i e
    subst e
    split at h
    · rename_i hcm
      cases h
      rw [sgn_false, one_smul]
      show _ = actL (b, q) (gateAct k op cs q ψ)
      have key := opAct_letter_same k (t := q) hcm ψ
      funext x
      simp only [gateAct]
      rw [key]
      cases b
      · simp only [actL_apply_false, gateAct]
        split <;> rfl
      · simp only [actL_apply_true, gateAct, holds_flip ht]
    · rename_i hcm
      have hcm : commutes op b = false := by simpa using hcm
      have plain : op = .X ∨ op = .Y ∨ op = .Z → cs = [] → p = (true, [(b, q)]) → gateAct k op cs q (actL (b, q) ψ) =
          (sgn p.1 : R) • act p.2 (gateAct k op cs q ψ) := by
        rintro ho rfl rfl
        rw [gateAct_nil, gateAct_nil]
        exact opAct_letter_anti k ho hcm ψ
      have ctrl : ∀ c pol, op = .X ∨ op = .Y ∨ op = .Z → cs = [(c, pol)] → p = (!pol, [(false, c), (b, q)]) →
          gateAct k op cs q (actL (b, q) ψ) = (sgn p.1 : R) • act p.2 (gateAct k op cs q ψ) := by
        rintro c pol ho rfl rfl
        have hqc : c ≠ q := fun e => ht (by simp [e])
        have key := opAct_letter_anti k ho (t := q) hcm ψ
        have hh : ∀ x : Bits, holds [(c, pol)] x = (x c == pol) := fun x => by simp [holds]
        funext x
        show gateAct k op _ q _ x = (sgn !pol : R) * (sgn (x c) * actL (b, q) (gateAct k op [(c, pol)] q ψ) x)
        have e : actL (b, q) (gateAct k op [(c, pol)] q ψ) x = if x c == pol then actL (b, q) (opAct k op q ψ) x else actL (b, q) ψ x := by
          cases b
          · simp only [actL_apply_false, gateAct, hh]; split <;> rfl
          · simp only [actL_apply_true, gateAct, hh, flip_other hqc]
        rw [e]
        simp only [gateAct, hh]
        rw [key]
        cases x c <;> cases pol <;> simp
      split at h
      · cases h; exact plain (.inl rfl) rfl rfl
      · cases h; exact plain (.inr (.inl rfl)) rfl rfl
      · cases h; exact plain (.inr (.inr rfl)) rfl rfl
      · cases h
        rw [gateAct_nil, gateAct_nil, sgn_false, one_smul]
        exact opAct_letter_H k q b ψ
      · cases h; exact ctrl _ _ (.inl rfl) rfl rfl
      · cases h; exact ctrl _ _ (.inr (.inl rfl)) rfl rfl
      · cases h; exact ctrl _ _ (.inr (.inr rfl)) rfl rfl
      · cases h
  · rename_i hqt
    have key := opAct_letter_other k op hqt b ψ
    have zcase : b = false → gateAct k op cs t (actL (b, q) ψ) = actL (b, q) (gateAct k op cs t ψ) := by
      rintro rfl
      funext x
      simp only [gateAct]
      rw [key]
      simp only [actL_apply_false, gateAct]
      split <;> rfl
    split at h
    · rename_i hqc
      split at h
      · rename_i hb
        subst hb
        have ctrl : ∀ (c : ℕ × Bool) (pb : Bool), op = (if pb then .X else .Z) → cs = [c] → p = (false, [(true, q), (pb, t)]) →
            gateAct k op cs t (actL (true, q) ψ) = (sgn p.1 : R) • act p.2 (gateAct k op cs t ψ) := by
          rintro ⟨c, pol⟩ pb ho rfl rfl
          have hqc : q = c := by simpa using hqc
          subst hqc
          rw [sgn_false, one_smul]
          have hh : ∀ x : Bits, holds [(q, pol)] x = (x q == pol) := fun x => by simp [holds]
          funext x
          show gateAct k op _ t _ x = actL (pb, t) (gateAct k op [(q, pol)] t ψ) (flip x q)
          have e : actL (pb, t) (gateAct k op [(q, pol)] t ψ) (flip x q) =
              if x q == pol then actL (pb, t) ψ (flip x q) else actL (pb, t) (opAct k op t ψ) (flip x q) := by
            cases pb
            · simp only [actL_apply_false, gateAct, hh, flip_same]
              cases x q <;> cases pol <;> simp
            · simp only [actL_apply_true, gateAct, hh, flip_other hqt, flip_same]
              cases x q <;> cases pol <;> simp
          rw [e]
          simp only [gateAct, hh]
          rw [key]
          subst ho
          have ht' : t ≠ q := fun e => hqt e.symm
          cases pb
          · simp only [actL_apply_false, actL_apply_true, Bool.false_eq_true, if_false, opAct, flip_other ht']
            split
            · rfl
            · rw [← mul_assoc, sgn_mul_self, one_mul]
          · simp only [actL_apply_true, if_true, opAct, flip_flip]
        split at h
        · cases h; exact ctrl _ true rfl rfl rfl
        · cases h; exact ctrl _ false rfl rfl rfl
        · cases h
      · rename_i hb
        cases h
        rw [sgn_false, one_smul]
        exact zcase (by simpa using hb)
    · rename_i hqc
      cases h
      rw [sgn_false, one_smul]
      show _ = actL (b, q) (gateAct k op cs t ψ)
      cases b
      · exact zcase rfl
      · funext x
        simp only [gateAct]
        rw [key]
        simp only [actL_apply_true, gateAct]
        rw [holds_flip hqc]

theorem conjW_sound {op : Op} {cs : List (ℕ × Bool)} {t : ℕ} (ht : t ∉ cs.map Prod.fst) {w : Word} {p : Bool × Word}
    (h : conjW op cs t w = some p) (ψ : State R) :
    gateAct k op cs t (act w ψ) = (sgn p.1 : R) • act p.2 (gateAct k op cs t ψ) := by
  induction w generalizing p with
  | nil => cases h; rw [sgn_false, one_smul]; rfl
  | cons l w ih =>
    unfold conjW at h
    split at h
    · rename_i p1 p2 h1 h2
      cases h
      show gateAct k op cs t (actL l (act w ψ)) = _
      rw [conjL_sound k ht h1, ih h2, act_smul, smul_smul, act_append, sgn_xor]
    · cases h

theorem mem_rename {r : ℕ} {e : ℕ → ℕ} (he : Inj r e) {cs : List (ℕ × Bool)} (hc : ∀ c ∈ cs, c.1 < r) {q : ℕ} (hq : q < r) :
    e q ∈ (cs.map fun c => (e c.1, c.2)).map Prod.fst ↔ q ∈ cs.map Prod.fst := by
  simp only [List.mem_map]
  constructor
  · rintro ⟨_, ⟨c, hcs, rfl⟩, h⟩
    exact ⟨c, hcs, he _ (hc c hcs) _ hq h⟩
  · rintro ⟨c, hcs, rfl⟩
    exact ⟨_, ⟨c, hcs, rfl⟩, rfl⟩

theorem conjL_rename {r : ℕ} {e : ℕ → ℕ} (he : Inj r e) {op : Op} {cs : List (ℕ × Bool)} {t : ℕ} (ht : t < r)
    (hc : ∀ c ∈ cs, c.1 < r) {l : Bool × ℕ} (hl : l.2 < r) :
    conjL op (cs.map fun c => (e c.1, c.2)) (e t) (l.1, e l.2) = (conjL op cs t l).map fun p => (p.1, place e p.2) := by
  obtain ⟨b, q⟩ := l
  unfold conjL
  simp only [mem_rename he hc hl]
  have h1 : e q = e t ↔ q = t := ⟨he _ hl _ ht, fun h => by rw [h]⟩
  simp only [h1]
  by_cases hqt : q = t
  · simp only [hqt, if_true]
    by_cases hb : commutes op b = true
    · simp [hb, place]
    · simp only [hb, if_false]
      rcases cs with _ | ⟨c, _ | ⟨c', cs⟩⟩ <;> cases op <;> simp [place]
  · simp only [hqt, if_false]
    by_cases hm : q ∈ cs.map Prod.fst
    · simp only [hm, if_true]
      cases b
      · simp [place]
      · simp only [if_true]
        rcases cs with _ | ⟨c, _ | ⟨c', cs⟩⟩ <;> cases op <;> simp [place]
    · simp only [hm, if_false]
      simp [place]

theorem conjW_rename {r : ℕ} {e : ℕ → ℕ} (he : Inj r e) {op : Op} {cs : List (ℕ × Bool)} {t : ℕ} (ht : t < r)
    (hc : ∀ c ∈ cs, c.1 < r) {w : Word} (hw : Within r w) :
    conjW op (cs.map fun c => (e c.1, c.2)) (e t) (place e w) = (conjW op cs t w).map fun p => (p.1, place e p.2) := by
  induction w with
  | nil => rfl
  | cons l w ih =>
    have h1 := conjL_rename (op := op) he ht hc (hw l (by simp))
    have h2 := ih fun l hl => hw l (by simp [hl])
    show (match conjL op _ (e t) (l.1, e l.2), conjW op _ (e t) (place e w) with | some p, some q => _ | _, _ => _) = _
    rw [h1, h2]
    simp only [conjW]
    cases conjL op cs t l <;> cases conjW op cs t w <;> simp [place_append]

/-! ## Facts -/

/-- A fact: the state is an eigenvector of the word, for the sign. -/
def Eig (e : ℕ → ℕ) (f : Word × Bool) (ψ : State R) : Prop := act (place e f.1) ψ = (sgn f.2 : R) • ψ

/-- Facts about the state and about classical bits, in local numbers. -/
structure TS where
  facts : List (Word × Bool)
  bits : List (ℕ × Bool)

structure TS.Sat (e : ℕ → ℕ) (r cl : ℕ) (s : TS) (c : Config R) : Prop where
  within : ∀ f ∈ s.facts, Within r f.1
  eig : ∀ f ∈ s.facts, Eig e f c.1
  bits : ∀ p ∈ s.bits, c.2 (cl + p.1) = p.2

def canon (r : ℕ) (f : NF) : Word :=
  ((List.range r).filter fun j => f.x.testBit j).map (true, ·) ++ ((List.range r).filter fun j => f.z.testBit j).map (false, ·)

/-- Letters sorted and cancelled. -/
def norm (r : ℕ) (f : Word × Bool) : Word × Bool :=
  let w := canon r (nf f.1)
  if (nf w).x = (nf f.1).x ∧ (nf w).z = (nf f.1).z ∧ Within r w then (w, f.2 ^^ ((nf f.1).neg ^^ (nf w).neg)) else f

theorem norm_sound {r : ℕ} {e : ℕ → ℕ} (he : Inj r e) {f : Word × Bool} (hw : Within r f.1) {ψ : State R} (h : Eig e f ψ) :
    Within r (norm r f).1 ∧ Eig e (norm r f) ψ := by
  unfold norm
  simp only
  split
  · rename_i hc
    refine ⟨hc.2.2, ?_⟩
    have := act_eq_of_nf (R := R) he hc.2.2 hw hc.1 hc.2.1 ψ
    unfold Eig at h ⊢
    rw [h, smul_smul, ← sgn_xor] at this
    show act (place e (canon r (nf f.1))) ψ = _
    rw [this]
    congr 2
    cases f.2 <;> cases (nf f.1).neg <;> cases (nf (canon r (nf f.1))).neg <;> rfl
  · exact ⟨hw, h⟩

/-- Facts after a gate; facts that cannot be followed are dropped. -/
def gateFacts (r : ℕ) (op : Op) (cs : List (ℕ × Bool)) (t : ℕ) (F : List (Word × Bool)) : List (Word × Bool) :=
  F.filterMap fun f => (conjW op cs t f.1).map fun p => norm r (p.2, f.2 ^^ p.1)

theorem conjL_within {r : ℕ} {op : Op} {cs : List (ℕ × Bool)} {t : ℕ} (ht : t < r) (hc : ∀ c ∈ cs, c.1 < r) {l : Bool × ℕ}
    (hl : l.2 < r) {p : Bool × Word} (h : conjL op cs t l = some p) : Within r p.2 := by
  unfold conjL at h
  split at h
  · rename_i e
    split at h
    · cases h; intro m hm; simp at hm; subst hm; exact hl
    · split at h
      all_goals first
        | (cases h; done)
        | (cases h; intro m hm; simp at hm; subst hm; exact hl)
        | (cases h
           intro m hm
           simp only [List.mem_cons, List.not_mem_nil, or_false] at hm
           rcases hm with rfl | rfl
           · exact hc _ (List.mem_singleton_self _)
           · exact hl)
  · split at h
    · split at h
      · split at h
        all_goals first
          | (cases h; done)
          | (cases h
             intro m hm
             simp only [List.mem_cons, List.not_mem_nil, or_false] at hm
             rcases hm with rfl | rfl
             · exact hl
             · exact ht)
      · cases h; intro m hm; simp at hm; subst hm; exact hl
    · cases h; intro m hm; simp at hm; subst hm; exact hl

theorem conjW_within {r : ℕ} {op : Op} {cs : List (ℕ × Bool)} {t : ℕ} (ht : t < r) (hc : ∀ c ∈ cs, c.1 < r) {w : Word}
    (hw : Within r w) {p : Bool × Word} (h : conjW op cs t w = some p) : Within r p.2 := by
  induction w generalizing p with
  | nil => cases h; intro m hm; cases hm
  | cons l w ih =>
    unfold conjW at h
    split at h
    · rename_i p1 p2 h1 h2
      cases h
      exact (conjL_within ht hc (hw l (by simp)) h1).append (ih (fun m hm => hw m (by simp [hm])) h2)
    · cases h

theorem gateFacts_sound {r : ℕ} {e : ℕ → ℕ} (he : Inj r e) {op : Op} {cs : List (ℕ × Bool)} {t : ℕ} (ht : t < r)
    (hc : ∀ c ∈ cs, c.1 < r ∧ c.1 ≠ t) {F : List (Word × Bool)} {ψ : State R} (hw : ∀ f ∈ F, Within r f.1) (h : ∀ f ∈ F, Eig e f ψ) :
    ∀ f ∈ gateFacts r op cs t F, Within r f.1 ∧ Eig e f (gateAct k op (cs.map fun c => (e c.1, c.2)) (e t) ψ) := by
  intro f hf
  obtain ⟨f', hf', h1⟩ := List.mem_filterMap.1 hf
  obtain ⟨p, hp, rfl⟩ := Option.map_eq_some_iff.1 h1
  have hc1 : ∀ c ∈ cs, c.1 < r := fun c h => (hc c h).1
  refine norm_sound he (conjW_within ht hc1 (hw f' hf') hp) ?_
  have ht' : e t ∉ (cs.map fun c => (e c.1, c.2)).map Prod.fst := by
    rw [mem_rename he hc1 ht]
    intro hm
    obtain ⟨c, hcs, rfl⟩ := List.mem_map.1 hm
    exact (hc c hcs).2 rfl
  have hr := conjW_rename (op := op) he ht hc1 (hw f' hf')
  rw [hp] at hr
  have hs := conjW_sound k ht' hr ψ
  have hf := h f' hf'
  unfold Eig at hf ⊢
  rw [hf, gateAct_smul] at hs
  simp only at hs ⊢
  rw [sgn_xor, mul_comm, mul_smul, hs, smul_smul, sgn_mul_self, one_smul]

/-! ## Measurement, reset, classical control -/

theorem act_add (w : Word) (ψ φ : State R) : act w (ψ + φ) = act w ψ + act w φ := by
  induction w with
  | nil => rfl
  | cons l w ih =>
    show actL l (act w (ψ + φ)) = actL l (act w ψ) + actL l (act w φ)
    rw [ih]
    funext x
    obtain ⟨b, q⟩ := l
    cases b
    · simp only [actL_apply_false, Pi.add_apply]; ring
    · simp only [actL_apply_true, Pi.add_apply]

include k in
theorem project_eq (q : ℕ) (o : Bool) (ψ : State R) : project q o ψ = (k.s * k.s) • (ψ + (sgn o : R) • actL (false, q) ψ) := by
  funext x
  have hs := k.hs
  simp only [project, Pi.smul_apply, Pi.add_apply, smul_eq_mul, actL_apply_false]
  cases hx : x q <;> cases o <;> simp <;> linear_combination (-ψ x) * hs

include k in
theorem project_act {w : Word} {q : ℕ} (h : anti w [(false, q)] = false) (o : Bool) (ψ : State R) :
    project q o (act w ψ) = act w (project q o ψ) := by
  rw [project_eq k, project_eq k, act_smul, act_add, act_smul]
  have := act_act w [(false, q)] ψ
  rw [h, sgn_false, one_smul] at this
  rw [show actL (false, q) ψ = act [(false, q)] ψ from rfl, this]
  rfl

theorem project_smul (q : ℕ) (o : Bool) (u : R) (ψ : State R) : project q o (u • ψ) = u • project q o ψ := by
  funext x
  simp only [project, Pi.smul_apply]
  split <;> simp

theorem resetAct_smul (q : ℕ) (o : Bool) (u : R) (ψ : State R) : resetAct q o (u • ψ) = u • resetAct q o ψ := by
  funext x
  simp only [resetAct, Pi.smul_apply]
  split <;> simp

theorem resetAct_letter {q p : ℕ} (h : p ≠ q) (b o : Bool) (ψ : State R) : resetAct q o (actL (b, p) ψ) = actL (b, p) (resetAct q o ψ) := by
  funext x
  cases b
  · simp only [resetAct, actL_apply_false, Function.update_of_ne h]
    split <;> simp
  · simp only [resetAct, actL_apply_true, flip_other h.symm, update_flip_other h]

theorem resetAct_act {q : ℕ} {w : Word} (h : ∀ l ∈ w, l.2 ≠ q) (o : Bool) (ψ : State R) : resetAct q o (act w ψ) = act w (resetAct q o ψ) := by
  induction w with
  | nil => rfl
  | cons l w ih =>
    show resetAct q o (actL l (act w ψ)) = actL l (act w (resetAct q o ψ))
    rw [← ih fun m hm => h m (by simp [hm])]
    exact resetAct_letter (h l (by simp)) l.1 o _

/-- The value of a qubit in the facts. -/
def value (q : ℕ) (F : List (Word × Bool)) : Option Bool := (F.find? fun f => f.1 = [(false, q)]).map (·.2)

include k in
theorem value_sound {e : ℕ → ℕ} {q : ℕ} {F : List (Word × Bool)} {v : Bool} (h : value q F = some v) {ψ : State R}
    (hF : ∀ f ∈ F, Eig e f ψ) (x : Bits) (hx : x (e q) ≠ v) : ψ x = 0 := by
  obtain ⟨f, hf, rfl⟩ := Option.map_eq_some_iff.1 h
  have h1 := List.find?_some hf
  have h2 := hF f (List.mem_of_find?_eq_some hf)
  obtain ⟨w, s⟩ := f
  have h1 : w = [(false, q)] := by simpa using h1
  subst h1
  have h3 := congrFun h2 x
  have h3 : sgn (x (e q)) * ψ x = sgn s * ψ x := h3
  apply two_cancel k
  revert h3 hx
  cases x (e q) <;> cases s <;> simp
  all_goals
    intro h3
    first
      | exact h3
      | exact h3.symm

def dropBit (b : ℕ) (l : List (ℕ × Bool)) : List (ℕ × Bool) := l.filter fun p => p.1 ≠ b

/-- The value of a register. -/
def knownValue (bits : List (ℕ × Bool)) (start : ℕ) : ℕ → Option ℕ
  | 0 => some 0
  | len + 1 =>
    match knownValue bits start len, (bits.find? fun p => p.1 = start + len).map (·.2) with
    | some v, some b => some (v + if b then 2 ^ len else 0)
    | _, _ => none

theorem knownValue_sound {bits : List (ℕ × Bool)} {cl : ℕ} {c : Bits} (h : ∀ p ∈ bits, c (cl + p.1) = p.2) {start len v : ℕ}
    (hv : knownValue bits start len = some v) : regValue c (cl + start) len = v := by
  induction len generalizing v with
  | zero => cases hv; rfl
  | succ len ih =>
    unfold knownValue at hv
    split at hv
    · rename_i v' b h1 h2
      cases hv
      obtain ⟨p, hp, rfl⟩ := Option.map_eq_some_iff.1 h2
      have h3 := List.find?_some hp
      have h3 : p.1 = start + len := by simpa using h3
      have h4 := h p (List.mem_of_find?_eq_some hp)
      rw [h3] at h4
      unfold regValue
      rw [ih h1, Nat.add_assoc, h4]
    · cases hv

/-- One instruction. -/
def trackStep (r : ℕ) (i : Instr) (s : TS) : Option TS :=
  match i with
  | .gate op cs t =>
    if t < r ∧ ∀ c ∈ cs, c.1 < r ∧ c.1 ≠ t then
      match cs with
      | [(c₁, true), (c₂, true)] =>
        match value c₁ s.facts, value c₂ s.facts with
        | some a, some b => some { s with facts := if a && b then gateFacts r op [] t s.facts else s.facts }
        | _, _ => some { s with facts := gateFacts r op cs t s.facts }
      | _ => some { s with facts := gateFacts r op cs t s.facts }
    else none
  | .measure q b =>
    if q < r then
      some ⟨s.facts.filter fun f => !anti f.1 [(false, q)],
        match value q s.facts with | some v => (b, v) :: dropBit b s.bits | none => dropBit b s.bits⟩
    else none
  | .reset q => if q < r then some { s with facts := ([(false, q)], false) :: s.facts.filter fun f => f.1.all fun l => l.2 ≠ q } else none
  | .cc op q start len v =>
    if q < r then
      match knownValue s.bits start len with
      | some v' => some { s with facts := if v' = v then gateFacts r op [] q s.facts else s.facts }
      | none => some { s with facts := s.facts.filter fun f => conjW op [] q f.1 = some (false, f.1) }
    else none
  | _ => none

theorem ccx_known (op : Op) {c₁ c₂ t : ℕ} (h1 : c₁ ≠ t) (h2 : c₂ ≠ t) {a b : Bool} {ψ : State R} (ha : ∀ x, x c₁ ≠ a → ψ x = 0)
    (hb : ∀ x, x c₂ ≠ b → ψ x = 0) :
    gateAct k op [(c₁, true), (c₂, true)] t ψ = if a && b then gateAct k op [] t ψ else ψ := by
  funext x
  have hh : holds [(c₁, true), (c₂, true)] x = (x c₁ && x c₂) := by simp [holds]
  have hz : (x c₁ ≠ a ∨ x c₂ ≠ b) → ψ x = 0 ∧ opAct k op t ψ x = 0 := by
    intro h
    have key : ∀ v, ψ (Function.update x t v) = (0 : State R) (Function.update x t v) := by
      intro v
      rcases h with h | h
      · exact ha _ (by rw [Function.update_of_ne h1]; exact h)
      · exact hb _ (by rw [Function.update_of_ne h2]; exact h)
    refine ⟨h.elim (ha x) (hb x), ?_⟩
    rw [opAct_local k x key]
    exact congrFun (opAct_zero k op t) x
  have e : (if a && b then gateAct k op [] t ψ else ψ) x = if a && b then opAct k op t ψ x else ψ x := by
    split
    · rw [gateAct_nil]
    · rfl
  rw [e]
  simp only [gateAct, hh]
  by_cases hx : x c₁ = a ∧ x c₂ = b
  · rw [hx.1, hx.2]
  · obtain ⟨z1, z2⟩ := hz (by by_contra hcon; push Not at hcon; exact hx hcon)
    rw [z1, z2]
    simp

theorem trackStep_sound {r cl : ℕ} {e : ℕ → ℕ} (he : Inj r e) {i : Instr} {s s' : TS} (h : trackStep r i s = some s') {c c' : Config R}
    (hs : s.Sat e r cl c) (hb : Step k (i.rename e (cl + ·)) c c') : c'.1 = 0 ∨ s'.Sat e r cl c' := by
  cases i with
  | gate op cs t =>
    have hb : c' = _ := hb
    subst hb
    right
    unfold trackStep at h
    simp only at h
    split at h
    · rename_i hc
      obtain ⟨ht, hcs⟩ := hc
      have general : ({ s with facts := gateFacts r op cs t s.facts } : TS).Sat e r cl
          (gateAct k op (cs.map fun c => (e c.1, c.2)) (e t) c.1, c.2) :=
        ⟨fun f hf => (gateFacts_sound k he ht hcs hs.within hs.eig f hf).1, fun f hf => (gateFacts_sound k he ht hcs hs.within hs.eig f hf).2, hs.bits⟩
      split at h
      · split at h
        · rename_i c₁ c₂ _ _ a b h1 h2
          cases h
          have n1 : e c₁ ≠ e t := fun h => (hcs (c₁, true) (by simp)).2 (he _ (hcs (c₁, true) (by simp)).1 _ ht h)
          have n2 : e c₂ ≠ e t := fun h => (hcs (c₂, true) (by simp)).2 (he _ (hcs (c₂, true) (by simp)).1 _ ht h)
          have key := ccx_known k op n1 n2 (value_sound k h1 hs.eig) (value_sound k h2 hs.eig)
          simp only [List.map_cons, List.map_nil]
          rw [key]
          cases a && b
          · exact hs
          · have := gateFacts_sound k (op := op) (cs := []) he ht (by simp) hs.within hs.eig
            exact ⟨fun f hf => (this f hf).1, fun f hf => (this f hf).2, hs.bits⟩
        · cases h; exact general
      · cases h; exact general
    · cases h
  | measure q b =>
    unfold trackStep at h
    simp only at h
    split at h
    · rename_i hq
      cases h
      obtain ⟨o, rfl⟩ := hb
      by_cases h0 : project (e q) o c.1 = 0
      · exact .inl h0
      · right
        refine ⟨fun f hf => hs.within f (List.mem_filter.1 hf).1, fun f hf => ?_, ?_⟩
        · obtain ⟨hf, ha⟩ := List.mem_filter.1 hf
          have ha : anti f.1 [(false, q)] = false := by simpa using ha
          have hw := hs.within f hf
          have ha' : anti (place e f.1) [(false, e q)] = false := by
            rw [show ([(false, e q)] : Word) = place e [(false, q)] from rfl, anti_place he hw (fun l hl => by simp at hl; subst hl; exact hq), ha]
          have hE := hs.eig f hf
          unfold Eig at hE ⊢
          rw [← project_act k ha', hE, project_smul]
        · have hdrop : ∀ p ∈ dropBit b s.bits, (Function.update c.2 (cl + b) o) (cl + p.1) = p.2 := by
            intro p hp
            obtain ⟨hp, hpb⟩ := List.mem_filter.1 hp
            have hpb : p.1 ≠ b := by simpa using hpb
            rw [Function.update_of_ne (by omega)]
            exact hs.bits p hp
          cases hv : value q s.facts with
          | none => exact hdrop
          | some v =>
            intro p hp
            rcases List.mem_cons.1 hp with rfl | hp
            · show Function.update c.2 (cl + b) o (cl + b) = v
              rw [Function.update_self]
              by_contra hne
              apply h0
              funext x
              show (if x (e q) = o then c.1 x else 0) = 0
              split
              · rename_i hx
                exact value_sound k hv hs.eig x (by rw [hx]; exact hne)
              · rfl
            · exact hdrop p hp
    · cases h
  | reset q =>
    unfold trackStep at h
    simp only at h
    split at h
    · rename_i hq
      cases h
      obtain ⟨o, rfl⟩ := hb
      right
      refine ⟨fun f hf => ?_, fun f hf => ?_, hs.bits⟩
      · rcases List.mem_cons.1 hf with rfl | hf
        · intro l hl; simp at hl; subst hl; exact hq
        · exact hs.within f (List.mem_filter.1 hf).1
      · rcases List.mem_cons.1 hf with rfl | hf
        · unfold Eig
          rw [sgn_false, one_smul]
          funext x
          show sgn (x (e q)) * (if x (e q) then 0 else _) = (if x (e q) then 0 else _)
          cases x (e q) <;> simp
        · obtain ⟨hf, ha⟩ := List.mem_filter.1 hf
          have hw := hs.within f hf
          have ha : ∀ l ∈ place e f.1, l.2 ≠ e q := by
            intro l hl
            obtain ⟨l', hl', rfl⟩ := List.mem_map.1 hl
            have := List.all_eq_true.1 ha l' hl'
            intro hcon
            simp only [ne_eq, decide_not, Bool.not_eq_true', decide_eq_false_iff_not] at this
            exact this (he _ (hw l' hl') _ hq hcon)
          have hE := hs.eig f hf
          unfold Eig at hE ⊢
          show act _ (resetAct (e q) o c.1) = _ • resetAct (e q) o c.1
          rw [← resetAct_act ha, hE, resetAct_smul]
    · cases h
  | cc op q start len v =>
    unfold trackStep at h
    simp only at h
    split at h
    · rename_i hq
      have hb : c' = _ := hb
      subst hb
      right
      split at h
      · rename_i v' hv
        cases h
        have := knownValue_sound hs.bits hv
        simp only
        rw [this]
        by_cases hvv : v' = v
        · rw [if_pos hvv, if_pos hvv, ← gateAct_nil]
          have := gateFacts_sound k (op := op) (cs := []) he hq (by simp) hs.within hs.eig
          exact ⟨fun f hf => (this f hf).1, fun f hf => (this f hf).2, hs.bits⟩
        · rw [if_neg hvv, if_neg hvv]
          exact hs
      · cases h
        refine ⟨fun f hf => hs.within f (List.mem_filter.1 hf).1, fun f hf => ?_, hs.bits⟩
        obtain ⟨hf, ha⟩ := List.mem_filter.1 hf
        have ha : conjW op [] q f.1 = some (false, f.1) := by simpa using ha
        have hw := hs.within f hf
        simp only
        split
        · have hr := conjW_rename (op := op) (cs := []) he hq (by simp) hw
          rw [ha] at hr
          have hs' := conjW_sound k (cs := []) (by simp) hr c.1
          have hE := hs.eig f hf
          unfold Eig at hE ⊢
          rw [hE, gateAct_smul, gateAct_nil, sgn_false, one_smul] at hs'
          exact hs'.symm
        · exact hs.eig f hf
    · cases h
  | swap a b => cases h
  | clone g => cases h

/-- Commands for the tracker: instructions, and multiplication of fact `a` with fact `b`. -/
inductive Cmd
  | run (i : Instr)
  | mul (a b : ℕ)

def Cmd.instr : Cmd → List Instr
  | .run i => [i]
  | .mul _ _ => []

def Cmd.step (r : ℕ) (s : TS) : Cmd → Option TS
  | .run i => trackStep r i s
  | .mul a b =>
    match s.facts[a]?, s.facts[b]? with
    | some f, some g => some { s with facts := s.facts.set a (norm r (f.1 ++ g.1, f.2 ^^ g.2)) }
    | _, _ => none

def track (r : ℕ) : List Cmd → TS → Option TS
  | [], s => some s
  | c :: l, s =>
    match c.step r s with
    | some s' => track r l s'
    | none => none

theorem Eig.mul {e : ℕ → ℕ} {f g : Word × Bool} {ψ : State R} (hf : Eig e f ψ) (hg : Eig e g ψ) :
    Eig e (f.1 ++ g.1, f.2 ^^ g.2) ψ := by
  unfold Eig at *
  simp only
  rw [place_append, act_append, hg, act_smul, hf, smul_smul, sgn_xor, mul_comm]

theorem track_sound {r cl : ℕ} {e : ℕ → ℕ} (he : Inj r e) {l : List Cmd} {s s' : TS} (h : track r l s = some s') {c c' : Config R}
    (hs : s.Sat e r cl c) (hb : Branch k ((l.flatMap Cmd.instr).map (Instr.rename e (cl + ·))) c c') :
    c'.1 = 0 ∨ s'.Sat e r cl c' := by
  induction l generalizing s c with
  | nil => cases h; cases hb; exact .inr hs
  | cons d l ih =>
    unfold track at h
    cases hd : d.step r s with
    | none => rw [hd] at h; cases h
    | some s₁ =>
      rw [hd] at h
      cases d with
      | run i =>
        obtain ⟨c₁, h1, h2⟩ := hb
        rcases trackStep_sound k he hd hs h1 with h0 | h3
        · exact .inl (branch_zero k h2 h0)
        · exact ih h h3 h2
      | mul a b =>
        refine ih h ?_ hb
        unfold Cmd.step at hd
        simp only at hd
        split at hd
        · rename_i f g hf hg
          cases hd
          have mf := List.mem_of_getElem? hf
          have mg := List.mem_of_getElem? hg
          have key := norm_sound he (Within.append (hs.within f mf) (hs.within g mg)) (Eig.mul (hs.eig f mf) (hs.eig g mg))
          refine ⟨fun x hx => ?_, fun x hx => ?_, hs.bits⟩
          · rcases List.mem_or_eq_of_mem_set hx with hx | rfl
            · exact hs.within x hx
            · exact key.1
          · rcases List.mem_or_eq_of_mem_set hx with hx | rfl
            · exact hs.eig x hx
            · exact key.2
        · cases hd

end Verif.Ecc
