import Verif.Model.Stabilizer
import Verif.Spec.Pauli
import Verif.LinalgLemmas
import Mathlib.Tactic.Ring

/-! Helper lemmas for the stabilizer-code model. -/

namespace Verif.Stab
open Verif Verif.Spec

/-! ### Lemmas -/

@[simp] theorem lettersToBinary_length (p : Str) (ph : ZMod 2) :
    (lettersToBinary p ph).length = 2 * p.length + 1 := by
  simp [lettersToBinary]; omega

theorem not_sign_of_letter {c : Char} (h : c ∈ letters) : ¬ (c = '+' ∨ c = '-') := by
  simp only [letters, List.mem_cons, List.not_mem_nil, or_false] at h
  rcases h with rfl | rfl | rfl | rfl <;> decide

/-- Case analysis of valid strings. -/
theorem validStr_cases {s : Str} (h : ValidStr s) :
    (∃ b, s = '+' :: b ∧ ∀ c ∈ b, c ∈ letters) ∨ (∃ b, s = '-' :: b ∧ ∀ c ∈ b, c ∈ letters) ∨
    (∃ c b, s = c :: b ∧ c ∈ letters ∧ ∀ d ∈ b, d ∈ letters) := by
  obtain ⟨hne, sgn, b, rfl, hs, hb⟩ := h
  rcases hs with rfl | rfl | rfl
  · cases b with
    | nil => exact absurd rfl hne
    | cons c b => exact Or.inr (Or.inr ⟨c, b, rfl, hb c (by simp), fun d hd => hb d (by simp [hd])⟩)
  · exact Or.inl ⟨b, rfl, hb⟩
  · exact Or.inr (Or.inl ⟨b, rfl, hb⟩)

theorem isPauliString_iff {s : Str} : isPauliString s = true ↔ ValidStr s := by
  constructor
  · intro h
    cases s with
    | nil => simp [isPauliString] at h
    | cons c cs =>
      simp only [isPauliString, Bool.and_eq_true, List.all_eq_true, decide_eq_true_eq] at h
      obtain ⟨h1, h2⟩ := h
      refine ⟨by simp, ?_⟩
      by_cases hc : c = '+' ∨ c = '-'
      · refine ⟨[c], cs, rfl, ?_, h1⟩
        rcases hc with rfl | rfl <;> simp
      · refine ⟨[], c :: cs, rfl, Or.inl rfl, ?_⟩
        intro d hd
        rcases List.mem_cons.1 hd with rfl | hd
        · push Not at hc
          simp only [List.mem_cons, List.not_mem_nil, or_false, hc.1, hc.2, false_or] at h2
          simp only [letters, List.mem_cons, List.not_mem_nil, or_false]; exact h2
        · exact h1 d hd
  · intro h
    rcases validStr_cases h with ⟨b, rfl, hb⟩ | ⟨b, rfl, hb⟩ | ⟨c, b, rfl, hc, hb⟩
    · simp only [isPauliString, Bool.and_eq_true, List.all_eq_true, decide_eq_true_eq]
      exact ⟨hb, by decide⟩
    · simp only [isPauliString, Bool.and_eq_true, List.all_eq_true, decide_eq_true_eq]
      exact ⟨hb, by decide⟩
    · simp only [isPauliString, Bool.and_eq_true, List.all_eq_true, decide_eq_true_eq]
      refine ⟨hb, ?_⟩
      simp only [letters, List.mem_cons, List.not_mem_nil, or_false] at hc ⊢
      tauto

theorem body_letters {s : Str} (h : ValidStr s) : ∀ c ∈ body s, c ∈ letters := by
  rcases validStr_cases h with ⟨b, rfl, hb⟩ | ⟨b, rfl, hb⟩ | ⟨c, b, rfl, hc, hb⟩
  · exact hb
  · exact hb
  · have hns := not_sign_of_letter hc
    push Not at hns
    have : body (c :: b) = c :: b := by
      rw [body] <;> · intro s hs; simp_all
    rw [this]; intro d hd
    rcases List.mem_cons.1 hd with rfl | hd
    · exact hc
    · exact hb d hd

/-- `pauli_to_binary` on valid strings. -/
theorem pauliToBinary_valid {s : Str} (h : ValidStr s) :
    pauliToBinary (.str s) = .ok (lettersToBinary (body s) (if s.head? = some '-' then 1 else 0)) := by
  rcases validStr_cases h with ⟨b, rfl, hb⟩ | ⟨b, rfl, hb⟩ | ⟨c, b, rfl, hc, hb⟩
  · simp [pauliToBinary, body]
  · simp [pauliToBinary, body]
  · have hns := not_sign_of_letter hc
    have : body (c :: b) = c :: b := by
      push Not at hns
      rw [body] <;> · intro s hs; simp_all
    rw [this]
    push Not at hns
    simp [pauliToBinary, hns.1, hns.2]

theorem letterOf_ind {c : Char} (h : c ∈ letters) :
    letterOf (ind 'X' c + ind 'Y' c) (ind 'Z' c + ind 'Y' c) = c := by
  simp only [letters, List.mem_cons, List.not_mem_nil, or_false] at h
  rcases h with rfl | rfl | rfl | rfl <;> decide

theorem take_letters (p : Str) (ph : ZMod 2) :
    (lettersToBinary p ph).take p.length = p.map fun c => ind 'X' c + ind 'Y' c := by
  simp [lettersToBinary, List.append_assoc]

theorem drop_letters (p : Str) (ph : ZMod 2) :
    ((lettersToBinary p ph).drop p.length).dropLast = p.map fun c => ind 'Z' c + ind 'Y' c := by
  rw [lettersToBinary, List.append_assoc, List.drop_left' (by simp), List.dropLast_concat]

theorem zipWith_map_map_self {α β γ δ : Type*} (f : α → β) (g : α → γ) (h : β → γ → δ) (l : List α) :
    List.zipWith h (l.map f) (l.map g) = l.map fun a => h (f a) (g a) := by
  induction l with
  | nil => rfl
  | cons a l ih => simp [ih]

theorem binaryToPauliString_letters {p : Str} (hp : ∀ c ∈ p, c ∈ letters) (ph : ZMod 2) :
    binaryToPauliString (lettersToBinary p ph) = .ok ((if ph = 0 then [] else ['-']) ++ p) := by
  have hl : (lettersToBinary p ph).getLast? = some ph := by simp [lettersToBinary]
  have hh : (lettersToBinary p ph).length / 2 = p.length := by
    rw [lettersToBinary_length]; omega
  simp only [binaryToPauliString, hl, hh, take_letters, drop_letters, zipWith_map_map_self]
  congr 2
  conv_rhs => rw [← List.map_id p]
  exact List.map_congr_left fun c hc => letterOf_ind (hp c hc)

/-- Symplectic product of the binary forms of two letter strings. -/
theorem ldot_map (p q : Str) (hl : p.length = q.length) (f g : Char → ZMod 2) :
    ldot (p.map f) (q.map g) = .ok ((List.zipWith (fun a b => f a * g b) p q).sum) := by
  rw [ldot, if_pos (by simpa using hl)]
  congr 2
  rw [List.zipWith_map]

def sx (c : Char) : ZMod 2 := ind 'X' c + ind 'Y' c
def sz (c : Char) : ZMod 2 := ind 'Z' c + ind 'Y' c

theorem clash_letter {a b : Char} (ha : a ∈ letters) (hb : b ∈ letters) :
    sx a * sz b + sz a * sx b = (((if a ≠ 'I' ∧ b ≠ 'I' ∧ a ≠ b then 1 else 0 : ℕ)) : ZMod 2) := by
  simp only [letters, List.mem_cons, List.not_mem_nil, or_false] at ha hb
  rcases ha with rfl | rfl | rfl | rfl <;> rcases hb with rfl | rfl | rfl | rfl <;> decide

theorem clash_sum {p q : Str} (hp : ∀ c ∈ p, c ∈ letters) (hq : ∀ c ∈ q, c ∈ letters) :
    (List.zipWith (fun a b => sx a * sz b) p q).sum + (List.zipWith (fun a b => sz a * sx b) p q).sum
      = ((clashes p q : ℕ) : ZMod 2) := by
  induction p generalizing q with
  | nil => simp [clashes]
  | cons a p ih =>
    cases q with
    | nil => simp [clashes]
    | cons b q =>
      have h1 := ih (q := q) (fun c hc => hp c (by simp [hc])) (fun c hc => hq c (by simp [hc]))
      have h2 := clash_letter (hp a (by simp)) (hq b (by simp))
      simp only [List.zipWith_cons_cons, List.sum_cons, clashes, Nat.cast_add]
      rw [← h1, ← h2]; ring

theorem dropLast_letters (p : Str) (ph : ZMod 2) :
    (lettersToBinary p ph).dropLast = (p.map sx) ++ (p.map sz) := by
  rw [lettersToBinary, List.dropLast_concat]; rfl

theorem symplecticInner_letters {p q : Str} (hp : ∀ c ∈ p, c ∈ letters) (hq : ∀ c ∈ q, c ∈ letters)
    (hl : p.length = q.length) (a b : ZMod 2) :
    symplecticInner (lettersToBinary p a).dropLast (lettersToBinary q b).dropLast
      = .ok ((clashes p q : ℕ) : ZMod 2) := by
  rw [dropLast_letters, dropLast_letters]
  have hn : (p.map sx ++ p.map sz).length / 2 = p.length := by simp; omega
  have hp' : (p.map sx).length = p.length := by simp
  have hq' : (q.map sx).length = p.length := by simp [hl]
  simp only [symplecticInner, hn]
  rw [List.take_left' hp', List.drop_left' hp', List.take_left' hq', List.drop_left' hq',
    ldot_map _ _ hl, ldot_map _ _ hl]
  change Except.ok _ = _
  congr 1
  exact clash_sum hp hq

theorem natCast_zmod2 (m : ℕ) : (m : ZMod 2) = if m % 2 = 1 then 1 else 0 := by
  rcases Nat.mod_two_eq_zero_or_one m with h | h
  · rw [if_neg (by omega)]
    rw [(ZMod.natCast_eq_zero_iff m 2)]; omega
  · rw [if_pos h]
    have : (m : ZMod 2) = ((m % 2 : ℕ) : ZMod 2) := by simp
    rw [this, h]; rfl

/-! ### mapM in `Except` -/

theorem mapM_ok_of_forall {α β : Type} {f : α → Except Err β} {g : α → β} {l : List α}
    (h : ∀ a ∈ l, f a = .ok (g a)) : l.mapM f = .ok (l.map g) := by
  induction l with
  | nil => rfl
  | cons a l ih =>
    rw [List.mapM_cons, h a (by simp), ih fun b hb => h b (by simp [hb])]
    rfl

theorem mapM_ok_forall₂ {α β : Type} {f : α → Except Err β} {l : List α} {r : List β}
    (h : l.mapM f = .ok r) : List.Forall₂ (fun a b => f a = .ok b) l r := by
  induction l generalizing r with
  | nil =>
    have : r = [] := by simpa [List.mapM_nil, pure, Except.pure] using h.symm
    subst this; exact .nil
  | cons a l ih =>
    rw [List.mapM_cons] at h
    cases hf : f a with
    | error e => rw [hf] at h; simp [bind, Except.bind] at h
    | ok b =>
      rw [hf] at h
      cases hm : l.mapM f with
      | error e => rw [hm] at h; simp [bind, Except.bind] at h
      | ok bs =>
        rw [hm] at h
        simp only [bind, Except.bind, pure, Except.pure, Except.ok.injEq] at h
        subst h
        exact .cons hf (ih hm)

theorem mapM_ok_length {α β : Type} {f : α → Except Err β} {l : List α} {r : List β}
    (h : l.mapM f = .ok r) : r.length = l.length := (mapM_ok_forall₂ h).length_eq.symm

/-! ### inversion of the constructor -/

theorem mkCode_ok_iff {gens : Paulis} {d : Option ℤ} {lz lx : Option Paulis} {c : Code} :
    mkCode gens d lz lx = .ok c ↔
    checkGenerators gens = .ok () ∧ firstNQubits gens.toList = .ok c.n ∧
    paulisToBinary gens.toList = .ok c.generators ∧
    c.k = (c.n : ℤ) - matRank c.generators ∧ checkDistance d = .ok () ∧ c.distance = d.getD 1 ∧
    logicalArg lz = .ok c.lz ∧ logicalArg lx = .ok c.lx ∧ checkCodeCorrect c = .ok () := by
  simp only [mkCode, bind_eq_ok, pure, Except.pure]
  constructor
  · rintro ⟨⟨⟩, h1, n, h2, g, h3, ⟨⟩, h4, a, h5, b, h6, ⟨⟩, h7, h8⟩
    cases h8
    exact ⟨h1, h2, h3, rfl, h4, rfl, h5, h6, h7⟩
  · rintro ⟨h1, h2, h3, h4, h5, h6, h7, h8, h9⟩
    obtain ⟨n, g, k, dist, lz', lx'⟩ := c
    simp only at *
    subst h4 h6
    exact ⟨(), h1, n, h2, g, h3, (), h5, lz', h7, lx', h8, (), h9, rfl⟩

theorem checkDistance_ok_iff {d : Option ℤ} :
    checkDistance d = .ok () ↔ ∀ x, d = some x → 0 < x := by
  cases d with
  | none => simp [checkDistance]
  | some x => simp [checkDistance]

theorem npArray_ok {rows m : Mat} (h : npArray rows = .ok m) :
    m = rows ∧ ∀ r ∈ m, r.length = width m := by
  unfold npArray at h
  split at h
  · rename_i hall
    cases h
    refine ⟨rfl, fun r hr => ?_⟩
    simpa using List.all_eq_true.1 hall r hr
  · simp at h

theorem paulisToBinary_ok {ps : List Pauli} {m : Mat} (h : paulisToBinary ps = .ok m) :
    List.Forall₂ (fun a b => pauliToBinary a = .ok b) ps m ∧ ∀ r ∈ m, r.length = width m := by
  simp only [paulisToBinary, bind, Except.bind] at h
  split at h
  · simp at h
  rename_i rows hr
  obtain ⟨rfl, h2⟩ := npArray_ok h
  exact ⟨mapM_ok_forall₂ hr, h2⟩

theorem checkGenerators_ok {g : Paulis} (h : checkGenerators g = .ok ()) :
    g.toList ≠ [] ∧ (∀ p ∈ g.toList, ∀ q ∈ g.toList, p.len = q.len) ∧
    (∀ l, g = .strs l → ∀ s ∈ l, ValidStr s) := by
  unfold checkGenerators at h
  split at h
  · simp at h
  rename_i p ps hg
  split at h
  · simp at h
  rename_i hall
  rw [Bool.not_eq_true, Bool.not_eq_false'] at hall
  have hlen : ∀ q ∈ p :: ps, p.len = q.len := by
    intro q hq; simpa using List.all_eq_true.1 hall q hq
  refine ⟨by simp [hg], ?_, ?_⟩
  · rw [hg]; intro a ha b hb; rw [← hlen a ha, ← hlen b hb]
  · rintro l rfl s hs
    simp only at h
    split at h
    · rename_i hv; exact isPauliString_iff.1 (List.all_eq_true.1 hv s hs)
    · simp at h

theorem getNQubits_valid {s : Str} (h : ValidStr s) : getNQubits (.str s) = .ok (body s).length := by
  rcases validStr_cases h with ⟨b, rfl, hb⟩ | ⟨b, rfl, hb⟩ | ⟨c, b, rfl, hc, hb⟩
  · simp [getNQubits, body]
  · simp [getNQubits, body]
  · have hns := not_sign_of_letter hc
    push Not at hns
    have : body (c :: b) = c :: b := by
      rw [body] <;> · intro s hs; simp_all
    rw [this]
    simp [getNQubits, hns.1, hns.2]

/-- The binary row of a valid string. -/
def binRow (s : Str) : Row := lettersToBinary (body s) (if s.head? = some '-' then 1 else 0)

theorem binRow_length (s : Str) : (binRow s).length = 2 * (body s).length + 1 := by
  simp [binRow]

theorem paulisToBinary_strs {l : List Str} {m : Mat} (hv : ∀ s ∈ l, ValidStr s)
    (h : paulisToBinary (l.map .str) = .ok m) :
    m = l.map binRow ∧ ∀ s ∈ l, 2 * (body s).length + 1 = width m := by
  obtain ⟨hf, hw⟩ := paulisToBinary_ok h
  have hm : m = l.map binRow := by
    clear h hw
    induction l generalizing m with
    | nil => cases hf; rfl
    | cons s l ih =>
      cases hf with
      | cons h1 h2 =>
        rw [pauliToBinary_valid (hv s (by simp))] at h1
        cases h1
        rw [ih (fun t ht => hv t (by simp [ht])) h2]; rfl
  refine ⟨hm, fun s hs => ?_⟩
  rw [← binRow_length]
  exact hw _ (by rw [hm]; exact List.mem_map_of_mem hs)

/-- All facts about a code built from strings. -/
theorem mkCode_strs {l : List Str} {d : Option ℤ} {lz lx : Option Paulis} {c : Code}
    (h : mkCode (.strs l) d lz lx = .ok c) :
    l ≠ [] ∧ (∀ s ∈ l, ValidStr s) ∧ (∀ s ∈ l, (body s).length = c.n) ∧
    c.generators = l.map binRow ∧ width c.generators = 2 * c.n + 1 := by
  obtain ⟨hcg, hn, hp, -⟩ := mkCode_ok_iff.1 h
  obtain ⟨hne, -, hv⟩ := checkGenerators_ok hcg
  replace hv := hv l rfl
  obtain ⟨hm, hw⟩ := paulisToBinary_strs hv hp
  cases l with
  | nil => simp [Paulis.toList] at hne
  | cons s l =>
    simp only [Paulis.toList, List.map_cons, firstNQubits] at hn
    rw [getNQubits_valid (hv s (by simp))] at hn
    have hn' : (body s).length = c.n := Except.ok.inj hn
    have hw1 := hw s (by simp)
    refine ⟨by simp, hv, ?_, hm, by omega⟩
    intro t ht
    have := hw t ht
    omega

theorem clashes_mul {g a b : Str} (hg : ∀ c ∈ g, c ∈ letters) (ha : ∀ c ∈ a, c ∈ letters)
    (hb : ∀ c ∈ b, c ∈ letters) (h1 : g.length = a.length) (h2 : g.length = b.length) :
    ((clashes g (List.zipWith mulLetter a b) : ℕ) : ZMod 2)
      = (clashes g a : ℕ) + (clashes g b : ℕ) := by
  induction g generalizing a b with
  | nil => simp [clashes]
  | cons x g ih =>
    cases a with
    | nil => simp at h1
    | cons y a =>
      cases b with
      | nil => simp at h2
      | cons z b =>
        have h := ih (a := a) (b := b) (fun c hc => hg c (by simp [hc]))
          (fun c hc => ha c (by simp [hc])) (fun c hc => hb c (by simp [hc]))
          (by simpa using h1) (by simpa using h2)
        have hx := hg x (by simp); have hy := ha y (by simp); have hz := hb z (by simp)
        have key : (((if x ≠ 'I' ∧ mulLetter y z ≠ 'I' ∧ x ≠ mulLetter y z then 1 else 0 : ℕ)) : ZMod 2)
            = ((if x ≠ 'I' ∧ y ≠ 'I' ∧ x ≠ y then 1 else 0 : ℕ) : ZMod 2)
              + ((if x ≠ 'I' ∧ z ≠ 'I' ∧ x ≠ z then 1 else 0 : ℕ) : ZMod 2) := by
          simp only [letters, List.mem_cons, List.not_mem_nil, or_false] at hx hy hz
          rcases hx with rfl | rfl | rfl | rfl <;> rcases hy with rfl | rfl | rfl | rfl <;>
            rcases hz with rfl | rfl | rfl | rfl <;> decide
        simp only [List.zipWith_cons_cons, clashes, Nat.cast_add]
        rw [h, key]; ring

theorem mulLetter_mem {a b : Char} (ha : a ∈ letters) (hb : b ∈ letters) :
    mulLetter a b ∈ letters := by
  simp only [letters, List.mem_cons, List.not_mem_nil, or_false] at ha hb
  rcases ha with rfl | rfl | rfl | rfl <;> rcases hb with rfl | rfl | rfl | rfl <;> decide

theorem zipWith_mulLetter_mem {a b : Str} (ha : ∀ c ∈ a, c ∈ letters) (hb : ∀ c ∈ b, c ∈ letters) :
    ∀ c ∈ List.zipWith mulLetter a b, c ∈ letters := by
  intro c hc
  rw [List.mem_iff_getElem] at hc
  obtain ⟨i, hi, rfl⟩ := hc
  rw [List.getElem_zipWith]
  exact mulLetter_mem (ha _ (List.getElem_mem _)) (hb _ (List.getElem_mem _))

theorem body_of_letters {s : Str} (h : ∀ c ∈ s, c ∈ letters) : body s = s := by
  cases s with
  | nil => rfl
  | cons c b =>
    have hns := not_sign_of_letter (h c (by simp))
    push Not at hns
    rw [body] <;> · intro s hs; simp_all

end Verif.Stab
