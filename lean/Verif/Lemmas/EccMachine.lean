import Verif.Lemmas.EccBlock

/-! # An abstract run of extraction and correction on one logical qubit -/

namespace Verif.Ecc
open scoped BigOperators
variable {R : Type} [CommRing R] (k : Consts R)

/-- A piece of a correction circuit: on ancillas, data qubits and classical bits of one block. -/
inductive Chunk
  | reset (j : ℕ)
  | h (j : ℕ)
  | meas (j c : ℕ)
  | ctrl (L : List CLetter) (gens : List Word)
  | parity (L : List (ℕ × ℕ))
  | cc (op : Op) (q start len v : ℕ)

def Chunk.instrs (d a : ℕ → ℕ) (cl : ℕ) : Chunk → List Instr
  | .reset j => [.reset (a j)]
  | .h j => [Ecc.h (a j)]
  | .meas j c => [.measure (a j) (cl + c)]
  | .ctrl L _ => L.map (CLetter.instr d a)
  | .parity L => L.map fun p => cx (d p.1) (a p.2)
  | .cc op q start len v => [.cc op (d q) (cl + start) len v]

/-- What is known: ancillas (`none`: some basis state), classical bits, the error on the data. -/
structure Abs where
  st : List (Option AncSt)
  bits : List (Option Bool)
  e : Word
deriving DecidableEq

/-- The Z letters on the data qubits added to ancilla `i`. -/
def parityWord (L : List (ℕ × ℕ)) (i : ℕ) : Word := (L.filter fun p => p.2 == i).map fun p => (false, p.1)

/-- Ancilla `i` after an eigenvalue was written into it. -/
def kick (phase : Bool) (g : Word) (e : Word) (s : Option AncSt) : Option (Option AncSt) :=
  if g = [] then some s
  else match s with
    | some (p, b) => if p = phase then some (some (p, b ^^ anti g e)) else none
    | none => none

def kicks (phase : Bool) (g : ℕ → Word) (e : Word) (st : List (Option AncSt)) : ℕ → Option (List (Option AncSt))
  | 0 => some []
  | K + 1 =>
    match kicks phase g e st K, kick phase (g K) e (st.getD K none) with
    | some l, some s => some (l ++ [s])
    | _, _ => none

/-- The value of known classical bits. -/
def absValue (bits : List (Option Bool)) (start : ℕ) : ℕ → Option ℕ
  | 0 => some 0
  | len + 1 =>
    match absValue bits start len, bits.getD (start + len) none with
    | some v, some b => some (v + if b then 2 ^ len else 0)
    | _, _ => none

def opWord (op : Op) (q : ℕ) : Option Word :=
  match op with
  | .X => some [(true, q)]
  | .Z => some [(false, q)]
  | .Y => some [(true, q), (false, q)]
  | _ => none

def Chunk.run (r K : ℕ) (s : Abs) : Chunk → Option Abs
  | .reset j =>
    if j < K ∧ j < s.st.length then
      match s.st.getD j none with
      | some (true, _) => none
      | _ => some { s with st := s.st.set j (some (false, false)) }
    else none
  | .h j =>
    if j < K ∧ j < s.st.length then
      match s.st.getD j none with
      | some (p, b) => some { s with st := s.st.set j (some (!p, b)) }
      | none => none
    else none
  | .meas j c =>
    if j < K ∧ c < s.bits.length then
      match s.st.getD j none with
      | some (false, b) => some { s with bits := s.bits.set c (some b) }
      | _ => none
    else none
  | .ctrl _ gens => (kicks true (fun i => gens.getD i []) s.e s.st K).map fun st => { s with st := st }
  | .parity L => (kicks false (parityWord L) s.e s.st K).map fun st => { s with st := st }
  | .cc op q start len v =>
    match absValue s.bits start len, opWord op q with
    | some w, some u => if q < r then some (if w = v then { s with e := u ++ s.e } else s) else none
    | _, _ => none

/-- Conditions that do not depend on the state. -/
def Chunk.OK (r K : ℕ) (S : List Word) : Chunk → Prop
  | .ctrl L gens => LWithin r K L ∧ ctrlOK K L gens ∧ ∀ g ∈ gens, g = [] ∨ g ∈ S
  | .parity L => (∀ p ∈ L, p.1 < r ∧ p.2 < K) ∧ ∀ i < K, parityWord L i = [] ∨ parityWord L i ∈ S
  | _ => True

instance (r K : ℕ) (S : List Word) (c : Chunk) : Decidable (c.OK r K S) := by
  cases c <;> unfold Chunk.OK <;> infer_instance

/-- The configuration is described by the abstract state. -/
def Rep (r K : ℕ) (d a : ℕ → ℕ) (cl : ℕ) (φ : State R) (s : Abs) (c : Config R) : Prop :=
  ∃ (st : ℕ → AncSt) (u : R), u ^ 4 = 1 ∧ c.1 = tens k a K st (u • act (place d s.e) φ) ∧ Within r s.e ∧
    (∀ j < K, ∀ v, s.st.getD j none = some v → st j = v) ∧ (∀ j < K, s.st.getD j none = none → (st j).1 = false) ∧
    ∀ j b, s.bits.getD j none = some b → c.2 (cl + j) = b

theorem getD_set {α : Type} (l : List α) (j i : ℕ) (v x : α) (hj : j < l.length) :
    (l.set j v).getD i x = if i = j then v else l.getD i x := by
  rw [List.getD_eq_getElem?_getD, List.getElem?_set, List.getD_eq_getElem?_getD]
  by_cases h : j = i
  · subst h; simp [hj]
  · simp [h, Ne.symm h]

theorem free_act' {w : Word} {φ : State R} {q : ℕ} (hw : ∀ l ∈ w, l.2 ≠ q) (hf : Free φ q) : Free (act w φ) q := by
  induction w with
  | nil => exact hf
  | cons l w ih =>
    have ih := ih fun x hx => hw x (List.mem_cons_of_mem _ hx)
    have hne := hw l List.mem_cons_self
    intro x b
    rw [act_cons]
    unfold actL
    split
    · show act _ φ (flip (Function.update x q b) l.2) = act _ φ (flip x l.2)
      have : flip (Function.update x q b) l.2 = Function.update (flip x l.2) q b := by
        funext p
        by_cases hp : p = q
        · subst hp; rw [flip_other hne.symm]; simp
        · rw [flip_apply, Function.update_of_ne hp, Function.update_of_ne hp, flip_apply]
      rw [this, ih]
    · show sgn (Function.update x q b l.2) * act _ φ (Function.update x q b) = sgn (x l.2) * act _ φ x
      rw [ih, Function.update_of_ne hne]

theorem free_act {r K : ℕ} {d a : ℕ → ℕ} (hda : Apart r K d a) {e : Word} (he : Within r e) {φ : State R} {j : ℕ} (hj : j < K)
    (hf : Free φ (a j)) : Free (act (place d e) φ) (a j) := free_act' (fun l hl => by
  obtain ⟨l', hl', rfl⟩ := List.mem_map.1 hl
  exact hda _ (he l' hl') j hj) hf

theorem free_smul {φ : State R} {q : ℕ} (u : R) (h : Free φ q) : Free (u • φ) q := fun x b => by
  show u * φ _ = u * φ x
  rw [h]

/-- Eigenvalues of stabilizers in a corrupted state. -/
theorem eigen {r : ℕ} {d : ℕ → ℕ} (hd : Inj r d) {g e : Word} (hg : Within r g) (he : Within r e) {φ : State R} (u : R)
    (h : act (place d g) φ = φ) : act (place d g) (u • act (place d e) φ) = (sgn (anti g e) : R) • (u • act (place d e) φ) := by
  rw [act_smul, act_act, h, anti_place hd hg he, smul_comm]

theorem kicks_spec {phase : Bool} {g : ℕ → Word} {e : Word} {st st' : List (Option AncSt)} {K : ℕ}
    (h : kicks phase g e st K = some st') :
    st'.length = K ∧ ∀ j < K, kick phase (g j) e (st.getD j none) = some (st'.getD j none) := by
  induction K generalizing st' with
  | zero => cases h; exact ⟨rfl, fun j hj => by omega⟩
  | succ K ih =>
    unfold kicks at h
    cases h1 : kicks phase g e st K with
    | none => rw [h1] at h; cases h
    | some l =>
      cases h2 : kick phase (g K) e (st.getD K none) with
      | none => rw [h1, h2] at h; cases h
      | some s =>
        rw [h1, h2] at h
        cases h
        obtain ⟨hl, hk⟩ := ih h1
        refine ⟨by simp [hl], fun j hj => ?_⟩
        by_cases e1 : j = K
        · subst e1
          rw [h2, List.getD_eq_getElem?_getD, List.getElem?_append_right (by omega), hl]
          simp
        · rw [hk j (by omega), List.getD_eq_getElem?_getD, List.getD_eq_getElem?_getD, List.getElem?_append_left (by omega)]

theorem absValue_sound {bits : List (Option Bool)} {cl : ℕ} {c : Bits} (h : ∀ j b, bits.getD j none = some b → c (cl + j) = b)
    (start len v : ℕ) (hv : absValue bits start len = some v) : regValue c (cl + start) len = v := by
  induction len generalizing v with
  | zero => cases hv; rfl
  | succ len ih =>
    unfold absValue at hv
    cases h1 : absValue bits start len with
    | none => rw [h1] at hv; cases hv
    | some w =>
      cases h2 : bits.getD (start + len) none with
      | none => rw [h1, h2] at hv; cases hv
      | some b =>
        rw [h1, h2] at hv
        cases hv
        show regValue c (cl + start) len + _ = _
        rw [ih w h1, Nat.add_assoc cl start len, h _ _ h2]

theorem opAct_word {op : Op} {q : ℕ} {u : Word} (h : opWord op q = some u) (d : ℕ → ℕ) :
    ∃ c : R, c ^ 4 = 1 ∧ ∀ ψ : State R, opAct k op (d q) ψ = c • act (place d u) ψ := by
  cases op <;> simp only [opWord, reduceCtorEq, Option.some.injEq] at h
  · subst h; exact ⟨1, by ring, fun ψ => by rw [one_smul]; rfl⟩
  · subst h
    refine ⟨k.im, ?_, fun ψ => ?_⟩
    · have := k.hω
      show (k.ω ^ 2) ^ 4 = 1
      linear_combination (k.ω ^ 4 - 1) * this
    · funext x
      show -k.im * sgn (x (d q)) * ψ (flip x (d q)) = k.im * (sgn (flip x (d q) (d q)) * ψ (flip x (d q)))
      rw [flip_same, sgn_not]
      ring
  · subst h; exact ⟨1, by ring, fun ψ => by rw [one_smul]; rfl⟩

theorem opWord_within {op : Op} {q r : ℕ} {u : Word} (h : opWord op q = some u) (hq : q < r) : Within r u := by
  intro l hl
  cases op <;> simp only [opWord, reduceCtorEq, Option.some.injEq] at h <;> subst h
  all_goals simp at hl; rcases hl with rfl | rfl <;> exact hq

theorem actL_tens {r K : ℕ} {d a : ℕ → ℕ} (hda : Apart r K d a) (st : ℕ → AncSt) (l : Bool × ℕ) (hl : l.2 < r) (φ : State R) :
    actL (l.1, d l.2) (tens k a K st φ) = tens k a K st (actL (l.1, d l.2) φ) :=
  actL_apart hda l hl (fun v => ∏ j ∈ Finset.range K, amp k (st j) (v j))
    (fun v w h => Finset.prod_congr rfl fun j hj => by rw [h j (Finset.mem_range.1 hj)]) φ

theorem act_tens {r K : ℕ} {d a : ℕ → ℕ} (hda : Apart r K d a) (st : ℕ → AncSt) {w : Word} (hw : Within r w) (φ : State R) :
    act (place d w) (tens k a K st φ) = tens k a K st (act (place d w) φ) := by
  induction w with
  | nil => rfl
  | cons l w ih =>
    rw [place_cons, act_cons, ih fun x hx => hw x (List.mem_cons_of_mem _ hx), actL_tens k hda st l (hw l List.mem_cons_self)]
    rfl

theorem tens_smul (a : ℕ → ℕ) (K : ℕ) (st : ℕ → AncSt) (u : R) (φ : State R) :
    tens k a K st (u • φ) = u • tens k a K st φ := by
  funext x
  show _ * (u * φ x) = u * (_ * φ x)
  ring

/-! ## Parities -/

/-- The parity added to ancilla `i`. -/
def parityOf (d : ℕ → ℕ) (L : List (ℕ × ℕ)) (i : ℕ) (x : Bits) : Bool :=
  L.foldr (fun p b => (decide (p.2 = i) && x (d p.1)) ^^ b) false

theorem act_parityWord (d : ℕ → ℕ) (L : List (ℕ × ℕ)) (i : ℕ) (χ : State R) (x : Bits) :
    act (place d (parityWord L i)) χ x = sgn (parityOf d L i x) * χ x := by
  induction L with
  | nil => simp [parityWord, parityOf]
  | cons p L ih =>
    show _ = sgn ((decide (p.2 = i) && x (d p.1)) ^^ parityOf d L i x) * χ x
    by_cases h : p.2 = i
    · have : parityWord (p :: L) i = (false, p.1) :: parityWord L i := by simp [parityWord, h]
      rw [this, place_cons, act_cons]
      show sgn (x (d p.1)) * act (place d (parityWord L i)) χ x = _
      rw [ih, sgn_xor, decide_eq_true h, Bool.true_and]
      ring
    · have : parityWord (p :: L) i = parityWord L i := by simp [parityWord, h]
      rw [this, ih, decide_eq_false h, Bool.false_and, Bool.false_xor]

theorem run_parity {r K : ℕ} {d a : ℕ → ℕ} (ha : Inj K a) (hda : Apart r K d a) (st : ℕ → AncSt) {χ : State R}
    (hf : ∀ j < K, Free χ (a j)) (L : List (ℕ × ℕ)) (hL : ∀ p ∈ L, p.1 < r ∧ p.2 < K) (p : ℕ → Bits → Bool)
    (hp : ∀ j x, ∀ i < K, p j (flip x (a i)) = p j x) :
    (L.map fun q => cx (d q.1) (a q.2)).foldl (fun φ i => match i with | .gate op cs t => gateAct k op cs t φ | _ => φ)
        (fun x => (∏ j ∈ Finset.range K, amp k (st j) (x (a j) ^^ p j x)) * χ x) =
      fun x => (∏ j ∈ Finset.range K, amp k (st j) (x (a j) ^^ (p j x ^^ parityOf d L j x))) * χ x := by
  induction L generalizing p with
  | nil => funext x; simp [parityOf]
  | cons l L ih =>
    obtain ⟨hl1, hl2⟩ := hL l List.mem_cons_self
    rw [List.map_cons, List.foldl_cons]
    have e : (match cx (d l.1) (a l.2) with
        | .gate op cs t => gateAct k op cs t fun x => (∏ j ∈ Finset.range K, amp k (st j) (x (a j) ^^ p j x)) * χ x
        | _ => fun x => (∏ j ∈ Finset.range K, amp k (st j) (x (a j) ^^ p j x)) * χ x) =
        fun x => (∏ j ∈ Finset.range K, amp k (st j) (x (a j) ^^ (p j x ^^ (decide (l.2 = j) && x (d l.1))))) * χ x := by
      funext x
      show (if holds [(d l.1, true)] x then
          (∏ j ∈ Finset.range K, amp k (st j) (flip x (a l.2) (a j) ^^ p j (flip x (a l.2)))) * χ (flip x (a l.2)) else
          (∏ j ∈ Finset.range K, amp k (st j) (x (a j) ^^ p j x)) * χ x) = _
      have hh : holds [(d l.1, true)] x = x (d l.1) := by simp [holds]
      rw [hh]
      cases hx : x (d l.1)
      · simp
      · rw [if_pos rfl, show χ (flip x (a l.2)) = χ x from hf _ hl2 x _]
        congr 1
        refine Finset.prod_congr rfl fun j hj => ?_
        rw [hp j x _ hl2, flip_apply]
        have : decide (a j = a l.2) = decide (l.2 = j) :=
          decide_eq_decide.2 ⟨fun h => (ha j (Finset.mem_range.1 hj) _ hl2 h).symm, fun h => by rw [h]⟩
        rw [this, Bool.and_true]
        congr 1
        cases x (a j) <;> cases p j x <;> cases decide (l.2 = j) <;> rfl
    rw [e, ih (fun q hq => hL q (List.mem_cons_of_mem _ hq)) (fun j x => p j x ^^ (decide (l.2 = j) && x (d l.1)))
      (fun j x i hi => by show (p j (flip x (a i)) ^^ _) = _; rw [hp j x i hi, flip_other (hda _ hl1 i hi)])]
    funext x
    congr 1
    refine Finset.prod_congr rfl fun j _ => ?_
    show amp k (st j) (x (a j) ^^ ((p j x ^^ (decide (l.2 = j) && x (d l.1))) ^^ parityOf d L j x)) =
      amp k (st j) (x (a j) ^^ (p j x ^^ ((decide (l.2 = j) && x (d l.1)) ^^ parityOf d L j x)))
    rw [Bool.xor_assoc]

include k in
theorem two_cancel (u : R) (h : -u = u) : u = 0 := by
  have h2 : (2 : R) * u = 0 := by linear_combination -h
  have := k.hs
  linear_combination (k.s * k.s) * h2 - u * this

theorem det_parity {r K : ℕ} {d a : ℕ → ℕ} (ha : Inj K a) (hda : Apart r K d a) {L : List (ℕ × ℕ)}
    (hL : ∀ p ∈ L, p.1 < r ∧ p.2 < K) {st : ℕ → AncSt} {χ : State R} (hf : ∀ j < K, Free χ (a j)) {σ : ℕ → Bool}
    (hσ : ∀ i < K, act (place d (parityWord L i)) χ = (sgn (σ i) : R) • χ)
    (hp : ∀ i < K, (st i).1 = true → parityWord L i = [] ∧ σ i = false) (cl : Bits) :
    Det k (L.map fun q => cx (d q.1) (a q.2)) (tens k a K st χ, cl)
      (tens k a K (fun i => ((st i).1, (st i).2 ^^ σ i)) χ, cl) := by
  refine det_list_gates k (fun i hi => ?_) ?_
  · obtain ⟨l, _, rfl⟩ := List.mem_map.1 hi
    exact ⟨_, _, _, rfl⟩
  · have h := run_parity k (d := d) (a := a) ha hda st hf L hL (fun _ _ => false) (fun _ _ _ _ => rfl)
    simp only [Bool.xor_false, Bool.false_xor] at h
    refine Eq.trans h ?_
    funext x
    show _ * χ x = (∏ j ∈ Finset.range K, _) * χ x
    by_cases h0 : ∀ i < K, parityOf d L i x = σ i
    · congr 1
      refine Finset.prod_congr rfl fun j hj => ?_
      have hj := Finset.mem_range.1 hj
      rw [h0 j hj]
      have := hp j hj
      show amp k (st j) _ = amp k ((st j).1, (st j).2 ^^ σ j) _
      rcases hst : st j with ⟨p, b⟩
      rw [hst] at this
      cases p
      · simp only [amp, Bool.false_eq_true, if_false]
        cases x (a j) <;> cases σ j <;> cases b <;> rfl
      · rw [(this rfl).2, Bool.xor_false, Bool.xor_false]
    · push Not at h0
      obtain ⟨i, hi, hne⟩ := h0
      have h1 := congrFun (hσ i hi) x
      rw [act_parityWord] at h1
      have h2 : χ x = 0 := by
        refine two_cancel k _ ?_
        change sgn (parityOf d L i x) * χ x = sgn (σ i) * χ x at h1
        cases hA : parityOf d L i x <;> cases hB : σ i <;> rw [hA, hB] at h1 hne
        · exact absurd rfl hne
        · simpa using h1.symm
        · simpa using h1
        · exact absurd rfl hne
      rw [h2, mul_zero, mul_zero]

/-! ## Soundness -/

/-- What the block is: different data and ancilla qubits, a state stabilised by `S` that does not involve the ancillas. -/
structure BlockOK (r K : ℕ) (d a : ℕ → ℕ) (S : List Word) (φ : State R) : Prop where
  hd : Inj r d
  ha : Inj K a
  hda : Apart r K d a
  hS : ∀ g ∈ S, Within r g
  hφ : ∀ g ∈ S, act (place d g) φ = φ
  hf : ∀ j < K, Free φ (a j)

theorem BlockOK.free {r K : ℕ} {d a : ℕ → ℕ} {S : List Word} {φ : State R} (hb : BlockOK r K d a S φ) {e : Word}
    (he : Within r e) (u : R) {j : ℕ} (hj : j < K) : Free (u • act (place d e) φ) (a j) :=
  free_smul u (free_act hb.hda he hj (hb.hf j hj))

theorem rep_update {r K : ℕ} {d a : ℕ → ℕ} {cl : ℕ} {φ : State R} {s : Abs} {st : ℕ → AncSt} {u : R} {c : Bits}
    (hu : u ^ 4 = 1) (he : Within r s.e) (h1 : ∀ j < K, ∀ v, s.st.getD j none = some v → st j = v)
    (h2 : ∀ j < K, s.st.getD j none = none → (st j).1 = false) (h3 : ∀ j b, s.bits.getD j none = some b → c (cl + j) = b)
    {i : ℕ} (hi : i < s.st.length) (v : AncSt) :
    Rep k r K d a cl φ { s with st := s.st.set i (some v) }
      (tens k a K (Function.update st i v) (u • act (place d s.e) φ), c) := by
  refine ⟨_, u, hu, rfl, he, fun j hj w hw => ?_, fun j hj hw => ?_, h3⟩
  · rw [getD_set _ _ _ _ _ hi] at hw
    by_cases e : j = i
    · subst e
      rw [if_pos rfl] at hw
      cases hw
      exact Function.update_self _ _ _
    · rw [if_neg e] at hw
      rw [Function.update_of_ne e]
      exact h1 j hj w hw
  · rw [getD_set _ _ _ _ _ hi] at hw
    by_cases e : j = i
    · rw [if_pos e] at hw; cases hw
    · rw [if_neg e] at hw
      rw [Function.update_of_ne e]
      exact h2 j hj hw

theorem rep_kicks {r K : ℕ} {d a : ℕ → ℕ} {cl : ℕ} {φ : State R} {s : Abs} {st : ℕ → AncSt} {u : R} {c : Bits}
    (hu : u ^ 4 = 1) (he : Within r s.e) (h1 : ∀ j < K, ∀ v, s.st.getD j none = some v → st j = v)
    (h2 : ∀ j < K, s.st.getD j none = none → (st j).1 = false) (h3 : ∀ j b, s.bits.getD j none = some b → c (cl + j) = b)
    {phase : Bool} {g : ℕ → Word} {st' : List (Option AncSt)} (hk : kicks phase g s.e s.st K = some st') :
    Rep k r K d a cl φ { s with st := st' }
      (tens k a K (fun i => ((st i).1, (st i).2 ^^ anti (g i) s.e)) (u • act (place d s.e) φ), c) := by
  obtain ⟨hl, hk⟩ := kicks_spec hk
  refine ⟨_, u, hu, rfl, he, fun j hj w hw => ?_, fun j hj hw => ?_, h3⟩
  · have hkj := hk j hj
    change st'.getD j none = some w at hw
    unfold kick at hkj
    by_cases hg : g j = []
    · rw [if_pos hg] at hkj
      have h := h1 j hj w (by rw [Option.some.inj hkj, hw])
      show ((st j).1, (st j).2 ^^ anti (g j) s.e) = w
      rw [hg, h]
      show (w.1, w.2 ^^ false) = w
      rw [Bool.xor_false]
    · rw [if_neg hg] at hkj
      cases hs : s.st.getD j none with
      | none => rw [hs] at hkj; cases hkj
      | some v =>
        rw [hs] at hkj
        obtain ⟨p, b⟩ := v
        have h := h1 j hj _ hs
        simp only at hkj
        split at hkj
        · have := Option.some.inj hkj
          rw [hw] at this
          have := Option.some.inj this
          rw [← this]
          show ((st j).1, (st j).2 ^^ anti (g j) s.e) = _
          rw [h]
        · cases hkj
  · have hkj := hk j hj
    change st'.getD j none = none at hw
    unfold kick at hkj
    by_cases hg : g j = []
    · rw [if_pos hg] at hkj
      exact h2 j hj (by rw [Option.some.inj hkj, hw])
    · rw [if_neg hg] at hkj
      cases hs : s.st.getD j none with
      | none => rw [hs] at hkj; cases hkj
      | some v =>
        rw [hs] at hkj
        obtain ⟨p, b⟩ := v
        simp only at hkj
        split at hkj
        · rw [hw] at hkj; cases hkj
        · cases hkj

/-- If ancilla `j` is touched it is known and of the right kind. -/
theorem kicks_phase {phase : Bool} {g : ℕ → Word} {e : Word} {st st' : List (Option AncSt)} {K : ℕ}
    (h : kicks phase g e st K = some st') {j : ℕ} (hj : j < K) (hg : g j ≠ []) :
    ∃ b, st.getD j none = some (phase, b) := by
  have hk := (kicks_spec h).2 j hj
  unfold kick at hk
  rw [if_neg hg] at hk
  cases hs : st.getD j none with
  | none => rw [hs] at hk; cases hk
  | some v =>
    obtain ⟨p, b⟩ := v
    rw [hs] at hk
    simp only at hk
    split at hk
    · rename_i hp; exact ⟨b, by rw [hp]⟩
    · cases hk

theorem Chunk.sound {r K : ℕ} {d a : ℕ → ℕ} {S : List Word} {φ : State R} (hb : BlockOK r K d a S φ) {cl : ℕ} {s s' : Abs}
    {ch : Chunk} (hok : ch.OK r K S) (hrun : ch.run r K s = some s') {c : Config R} (hc : Rep k r K d a cl φ s c) :
    ∃ c', Det k (ch.instrs d a cl) c c' ∧ Rep k r K d a cl φ s' c' := by
  obtain ⟨ψ, bits⟩ := c
  obtain ⟨st, u, hu, rfl, he, h1, h2, h3⟩ := hc
  cases ch with
  | reset j =>
    simp only [Chunk.run] at hrun
    split at hrun
    · rename_i hj
      have hbasis : (st j).1 = false ∧ s' = { s with st := s.st.set j (some (false, false)) } := by
        cases hs : s.st.getD j none with
        | none => rw [hs] at hrun; cases hrun; exact ⟨h2 j hj.1 hs, rfl⟩
        | some v =>
          obtain ⟨p, b⟩ := v
          cases p
          · rw [hs] at hrun; cases hrun; exact ⟨by rw [h1 j hj.1 _ hs], rfl⟩
          · rw [hs] at hrun; cases hrun
      obtain ⟨hb1, rfl⟩ := hbasis
      refine ⟨_, det_reset k (o := (st j).2) (fun x hx => tens_support k hj.1 hb1 x hx), ?_⟩
      rw [tens_reset k hb.ha st hj.1 hb1 (hb.free he u hj.1)]
      exact rep_update k hu he h1 h2 h3 hj.2 _
    · cases hrun
  | h j =>
    simp only [Chunk.run] at hrun
    split at hrun
    · rename_i hj
      cases hs : s.st.getD j none with
      | none => rw [hs] at hrun; cases hrun
      | some v =>
        rw [hs] at hrun
        cases hrun
        refine ⟨_, det_gate k .H [] (a j) _, ?_⟩
        show Rep k r K d a cl φ _ (gateAct k .H [] (a j) (tens k a K st _), bits)
        rw [gateAct_nil, tens_h k hb.ha st hj.1 (hb.free he u hj.1)]
        rw [h1 j hj.1 _ hs]
        exact rep_update k hu he h1 h2 h3 hj.2 _
    · cases hrun
  | meas j c =>
    simp only [Chunk.run] at hrun
    split at hrun
    · rename_i hj
      cases hs : s.st.getD j none with
      | none => rw [hs] at hrun; cases hrun
      | some v =>
        obtain ⟨p, b⟩ := v
        rw [hs] at hrun
        cases p
        · cases hrun
          have hst := h1 j hj.1 _ hs
          refine ⟨_, det_measure k (o := b) (fun x hx => tens_support k hj.1 (by rw [hst]) x (by rw [hst]; exact hx)), ?_⟩
          refine ⟨st, u, hu, rfl, he, h1, h2, fun i b' hb' => ?_⟩
          change (s.bits.set c (some b)).getD i none = some b' at hb'
          rw [getD_set _ _ _ _ _ hj.2] at hb'
          show Function.update bits (cl + c) b (cl + i) = b'
          by_cases e : i = c
          · subst e
            rw [if_pos rfl] at hb'
            cases hb'
            exact Function.update_self _ _ _
          · rw [if_neg e] at hb'
            rw [Function.update_of_ne (by omega)]
            exact h3 i b' hb'
        · cases hrun
    · cases hrun
  | ctrl L gens =>
    obtain ⟨hL, hctrl, hg⟩ := hok
    change (kicks true (fun i => gens.getD i []) s.e s.st K).map _ = some s' at hrun
    cases hk : kicks true (fun i => gens.getD i []) s.e s.st K with
    | none => rw [hk] at hrun; cases hrun
    | some st' =>
      rw [hk] at hrun
      cases hrun
      have hgw : ∀ g ∈ gens, Within r g := fun g hgm => by
        rcases hg g hgm with rfl | h
        · intro l hl; cases hl
        · exact hb.hS g h
      have hgi : ∀ i, gens.getD i [] = [] ∨ gens.getD i [] ∈ S := fun i => by
        rw [List.getD_eq_getElem?_getD]
        by_cases hi : i < gens.length
        · rw [List.getElem?_eq_getElem hi]; exact hg _ (List.getElem_mem hi)
        · rw [List.getElem?_eq_none (by omega)]; exact .inl rfl
      refine ⟨_, det_ctrl k hb.hd hb.hda hL hgw hctrl (σ := fun i => anti (gens.getD i []) s.e) (fun i hi => ?_)
        (fun i hi hp => ?_) bits, rep_kicks k hu he h1 h2 h3 hk⟩
      · rcases hgi i with h | h
        · rw [h]
          show _ = (sgn false : R) • _
          rw [sgn_false, one_smul]
          rfl
        · exact eigen hb.hd (hb.hS _ h) he u (hb.hφ _ h)
      · by_contra hne
        have hne' : gens.getD i [] ≠ [] := fun h => hne (by show anti _ _ = _; rw [h]; rfl)
        obtain ⟨b, hs⟩ := kicks_phase hk hi hne'
        rw [h1 i hi _ hs] at hp
        cases hp
  | parity L =>
    obtain ⟨hL, hg⟩ := hok
    change (kicks false (parityWord L) s.e s.st K).map _ = some s' at hrun
    cases hk : kicks false (parityWord L) s.e s.st K with
    | none => rw [hk] at hrun; cases hrun
    | some st' =>
      rw [hk] at hrun
      cases hrun
      refine ⟨_, det_parity k hb.ha hb.hda hL (fun j hj => hb.free he u hj) (σ := fun i => anti (parityWord L i) s.e)
        (fun i hi => ?_) (fun i hi hp => ?_) bits, rep_kicks k hu he h1 h2 h3 hk⟩
      · rcases hg i hi with h | h
        · rw [h]
          show _ = (sgn false : R) • _
          rw [sgn_false, one_smul]
          rfl
        · exact eigen hb.hd (hb.hS _ h) he u (hb.hφ _ h)
      · have : parityWord L i = [] := by
          by_contra hne
          obtain ⟨b, hs⟩ := kicks_phase hk hi hne
          rw [h1 i hi _ hs] at hp
          cases hp
        exact ⟨this, by show anti _ _ = _; rw [this]; rfl⟩
  | cc op q start len v =>
    change (match absValue s.bits start len, opWord op q with
      | some w, some u => if q < r then some (if w = v then { s with e := u ++ s.e } else s) else none
      | _, _ => none) = some s' at hrun
    cases ha : absValue s.bits start len with
    | none => rw [ha] at hrun; cases hrun
    | some w =>
      cases hw : opWord op q with
      | none => rw [ha, hw] at hrun; cases hrun
      | some o =>
        rw [ha, hw] at hrun
        simp only at hrun
        split at hrun
        · rename_i hq
          cases hrun
          have hval := absValue_sound h3 start len w ha
          refine ⟨_, det_one k rfl fun _ h => .inl h, ?_⟩
          show Rep k r K d a cl φ _ (if regValue bits (cl + start) len = v then opAct k op (d q) (tens k a K st _) else tens k a K st _, bits)
          rw [hval]
          by_cases hv : w = v
          · rw [if_pos hv, if_pos hv]
            obtain ⟨z, hz, hop⟩ := opAct_word k hw d
            have how := opWord_within hw hq
            rw [hop, act_tens k hb.hda st how, act_smul, ← act_append, ← place_append, ← tens_smul, smul_smul]
            exact ⟨st, z * u, by rw [mul_pow, hz, hu, one_mul], rfl, how.append he, h1, h2, h3⟩
          · rw [if_neg hv, if_neg hv]
            exact ⟨st, u, hu, rfl, he, h1, h2, h3⟩
        · cases hrun

/-- A list of chunks. -/
def runAll (r K : ℕ) : List Chunk → Abs → Option Abs
  | [], s => some s
  | c :: l, s => match c.run r K s with | some s' => runAll r K l s' | none => none

def chunkInstrs (d a : ℕ → ℕ) (cl : ℕ) (l : List Chunk) : List Instr := l.flatMap (Chunk.instrs d a cl)

theorem runAll_sound {r K : ℕ} {d a : ℕ → ℕ} {S : List Word} {φ : State R} (hb : BlockOK r K d a S φ) {cl : ℕ}
    {l : List Chunk} (hok : ∀ c ∈ l, c.OK r K S) {s s' : Abs} (hrun : runAll r K l s = some s') {c : Config R}
    (hc : Rep k r K d a cl φ s c) : ∃ c', Det k (chunkInstrs d a cl l) c c' ∧ Rep k r K d a cl φ s' c' := by
  induction l generalizing s c with
  | nil => cases hrun; exact ⟨c, Det.nil k c, hc⟩
  | cons ch l ih =>
    unfold runAll at hrun
    cases h1 : ch.run r K s with
    | none => rw [h1] at hrun; cases hrun
    | some s₁ =>
      rw [h1] at hrun
      obtain ⟨c₁, hd₁, hr₁⟩ := ch.sound k hb (hok ch List.mem_cons_self) h1 hc
      obtain ⟨c₂, hd₂, hr₂⟩ := ih (fun x hx => hok x (List.mem_cons_of_mem _ hx)) hrun hr₁
      exact ⟨c₂, hd₁.append k hd₂, hr₂⟩

end Verif.Ecc
