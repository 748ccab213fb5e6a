import Verif.Model.CodeFiles
import Verif.LinalgLemmas

/-! Lemmas about the texts of code files. -/

namespace Verif.CodeFiles
open Verif Verif.Product

/-! ### Numbers -/

theorem digit_ne {c : Char} (h : c.isDigit = true) : c ≠ '-' ∧ c ≠ '+' ∧ isBlank c = false ∧ c ≠ '#' ∧ c ≠ '=' := by
  have h' : 48 ≤ c.toNat ∧ c.toNat ≤ 57 := by
    simp only [Char.isDigit, Bool.and_eq_true, decide_eq_true_eq] at h
    exact ⟨h.1, h.2⟩
  have key : ∀ d : Char, (d.toNat < 48 ∨ 57 < d.toNat) → c ≠ d := by
    rintro d hd rfl; omega
  refine ⟨key _ (by decide), key _ (by decide), ?_, key _ (by decide), key _ (by decide)⟩
  simp only [isBlank, Bool.or_eq_false_iff, decide_eq_false_iff_not]
  refine ⟨⟨⟨⟨⟨key _ (by decide), key _ (by decide)⟩, key _ (by decide)⟩, key _ (by decide)⟩, by omega⟩, by omega⟩

theorem digits_all (n : ℕ) : ∀ c ∈ Nat.toDigits 10 n, c.isDigit = true :=
  fun _ hc => Nat.isDigit_of_mem_toDigits (by decide) (by decide) hc

theorem digits_ne_nil (n : ℕ) : Nat.toDigits 10 n ≠ [] := by
  have := @Nat.length_toDigits_pos 10 n
  intro h; rw [h] at this; simp at this

theorem showInt_ne_nil (z : ℤ) : showInt z ≠ [] := by
  cases z with
  | ofNat n => exact digits_ne_nil n
  | negSucc n => simp [showInt]

theorem showInt_mem {z : ℤ} {c : Char} (h : c ∈ showInt z) : c = '-' ∨ c.isDigit = true := by
  cases z with
  | ofNat n => exact .inr (digits_all _ _ h)
  | negSucc n =>
    rcases List.mem_cons.1 h with h | h
    · exact .inl h
    · exact .inr (digits_all _ _ h)

theorem showInt_clean {z : ℤ} {c : Char} (h : c ∈ showInt z) : isBlank c = false ∧ c ≠ '#' := by
  rcases showInt_mem h with rfl | h
  · exact ⟨by decide, by decide⟩
  · exact ⟨(digit_ne h).2.2.1, (digit_ne h).2.2.2.1⟩

theorem newline_not_mem (z : ℤ) : '\n' ∉ showInt z := by
  intro h
  have := (showInt_clean h).1
  simp [isBlank] at this

theorem sign_digits {c : Char} {cs : Text} (h : c.isDigit = true) : sign (c :: cs) = (false, c :: cs) := by
  obtain ⟨h1, h2, -⟩ := digit_ne h
  unfold sign
  split
  · rename_i heq; exact absurd (List.cons.inj heq).1 h1
  · rename_i heq; exact absurd (List.cons.inj heq).1 h2
  · rfl

/-- The sign and the digits of a written number. -/
theorem sign_showInt (z : ℤ) (rest : Text) : ∃ (b : Bool) (n : ℕ),
    sign (showInt z ++ rest) = (b, Nat.toDigits 10 n ++ rest) ∧ z = if b then -(n : ℤ) else n := by
  cases z with
  | ofNat n =>
    refine ⟨false, n, ?_, rfl⟩
    simp only [showInt]
    cases hd : Nat.toDigits 10 n with
    | nil => exact absurd hd (digits_ne_nil n)
    | cons c cs =>
      have : c.isDigit = true := digits_all n c (by rw [hd]; exact List.mem_cons_self ..)
      exact sign_digits this
  | negSucc n => exact ⟨true, n + 1, rfl, rfl⟩

theorem takeWhile_digits {ds rest : Text} (h : ∀ c ∈ ds, c.isDigit = true) (hr : ∀ c ∈ rest.head?, c.isDigit = false) :
    (ds ++ rest).takeWhile Char.isDigit = ds ∧ (ds ++ rest).dropWhile Char.isDigit = rest := by
  induction ds with
  | nil =>
    cases rest with
    | nil => exact ⟨rfl, rfl⟩
    | cons c cs =>
      have hc := hr c (by simp)
      simp [hc]
  | cons d ds ih =>
    have hd := h d (List.mem_cons_self ..)
    obtain ⟨h1, h2⟩ := ih fun c hc => h c (List.mem_cons_of_mem _ hc)
    simp [hd, h1, h2]

/-- The range of a C++ `int`. -/
def InInt (z : ℤ) : Prop := -2147483648 ≤ z ∧ z ≤ 2147483647

theorem dropBlank_showInt (z : ℤ) (rest : Text) : (showInt z ++ rest).dropWhile isBlank = showInt z ++ rest := by
  cases h : showInt z with
  | nil => exact absurd h (showInt_ne_nil z)
  | cons c cs =>
    have hc := (showInt_clean (z := z) (c := c) (by rw [h]; exact List.mem_cons_self ..)).1
    rw [List.cons_append, List.dropWhile_cons, if_neg (by rw [hc]; decide)]

theorem readInt_showInt {z : ℤ} (hz : InInt z) {rest : Text} (hr : ∀ c ∈ rest.head?, c.isDigit = false) :
    readInt (showInt z ++ rest) = some (z, rest) := by
  obtain ⟨b, n, h1, h2⟩ := sign_showInt z rest
  obtain ⟨h3, h4⟩ := takeWhile_digits (digits_all n) hr
  simp only [readInt]
  rw [dropBlank_showInt, h1]
  simp only
  rw [h3, h4, Nat.ofDigitChars_ten_toDigits, ← h2, if_pos ⟨digits_ne_nil n, hz⟩]

theorem readInt_blank (cs : Text) : readInt (' ' :: cs) = readInt cs := by
  have h : List.dropWhile isBlank (' ' :: cs) = List.dropWhile isBlank cs := by
    rw [List.dropWhile_cons, if_pos (by decide)]
  unfold readInt
  rw [h]

theorem readInt_nil : readInt [] = none := by
  simp [readInt, sign]

/-! ### Lines -/

theorem getlines_append {l t : Text} (h : '\n' ∉ l) : getlines (l ++ '\n' :: t) = l :: getlines t := by
  induction l with
  | nil => simp [getlines]
  | cons c cs ih =>
    have hc : c ≠ '\n' := fun e => h (by rw [e]; exact List.mem_cons_self ..)
    have ih' := ih fun e => h (List.mem_cons_of_mem _ e)
    rw [List.cons_append, getlines, if_neg hc, ih']

theorem pyLines_append {l t : Text} (h : '\n' ∉ l) : pyLines (l ++ '\n' :: t) = (l ++ ['\n']) :: pyLines t := by
  induction l with
  | nil => simp [pyLines]
  | cons c cs ih =>
    have hc : c ≠ '\n' := fun e => h (by rw [e]; exact List.mem_cons_self ..)
    have ih' := ih fun e => h (List.mem_cons_of_mem _ e)
    rw [List.cons_append, pyLines, if_neg hc, ih']
    rfl

/-- The text of a row without its newline. -/
def rowText (r : List ℤ) : Text := [' '].intercalate (r.map showInt)

theorem rowText_nil : rowText [] = [] := rfl

theorem rowText_single (z : ℤ) : rowText [z] = showInt z := by
  simp [rowText, List.intercalate]

theorem rowText_cons (z y : ℤ) (r : List ℤ) : rowText (z :: y :: r) = showInt z ++ ' ' :: rowText (y :: r) := by
  simp [rowText, List.intercalate]

theorem newline_not_mem_row (r : List ℤ) : '\n' ∉ rowText r := by
  induction r with
  | nil => simp [rowText_nil]
  | cons z r ih =>
    cases r with
    | nil => rw [rowText_single]; exact newline_not_mem z
    | cons y r =>
      rw [rowText_cons, List.mem_append, List.mem_cons]
      rintro (h | h | h)
      · exact newline_not_mem z h
      · exact absurd h (by decide)
      · exact ih h

theorem length_rowText (r : List ℤ) : r.length ≤ (rowText r).length := by
  induction r with
  | nil => simp
  | cons z r ih =>
    have hz : 0 < (showInt z).length := List.length_pos_iff.2 (showInt_ne_nil z)
    cases r with
    | nil => rw [rowText_single]; simp only [List.length_cons, List.length_nil]; omega
    | cons y r =>
      rw [rowText_cons]
      simp only [List.length_append, List.length_cons] at ih ⊢
      omega

theorem readWords_blank (k : ℕ) (cs : Text) : readWords k (' ' :: cs) = readWords k cs := by
  cases k with
  | zero => rfl
  | succ k => simp only [readWords, readInt_blank]

theorem readWords_row {r : List ℤ} (hr : ∀ z ∈ r, InInt z) (k : ℕ) (hk : r.length ≤ k) :
    readWords k (rowText r) = r.map fun z => decide (z ≠ 0) := by
  induction r generalizing k with
  | nil =>
    cases k with
    | zero => rfl
    | succ k => simp only [readWords, rowText_nil, readInt_nil, List.map_nil]
  | cons z r ih =>
    have hz := hr z (List.mem_cons_self ..)
    have ih' := ih fun y hy => hr y (List.mem_cons_of_mem _ hy)
    cases k with
    | zero => simp at hk
    | succ k =>
      have hk' : r.length ≤ k := by simpa using hk
      cases r with
      | nil =>
        have h := readInt_showInt hz (rest := []) (by simp)
        rw [List.append_nil] at h
        have h0 := ih' k hk'
        rw [rowText_nil] at h0
        simp only [readWords, rowText_single, h, h0, List.map_cons]
      | cons y r =>
        have h := readInt_showInt hz (rest := ' ' :: rowText (y :: r)) (by simp)
        rw [rowText_cons]
        simp only [readWords, h, readWords_blank]
        rw [ih' k hk']; rfl

theorem readMatrix_savetxt {rows : List (List ℤ)} (h : ∀ r ∈ rows, ∀ z ∈ r, InInt z) :
    readMatrix (savetxt rows) = rows.map fun r => r.map fun z => decide (z ≠ 0) := by
  induction rows with
  | nil => rfl
  | cons r rows ih =>
    have e : savetxt (r :: rows) = rowText r ++ '\n' :: savetxt rows := by
      simp [savetxt, showRow, rowText]
    have ih' := ih fun s hs => h s (List.mem_cons_of_mem _ hs)
    unfold readMatrix at ih' ⊢
    rw [e, getlines_append (newline_not_mem_row r), List.map_cons, ih', List.map_cons]
    rw [readWords_row (h r (List.mem_cons_self ..)) _ (length_rowText r)]

/-! ### The info file -/

theorem mem_infoName {name : Text} {v : ℤ} {c : Char} (hn : ∀ c ∈ name, isBlank c = false ∧ c ≠ '#')
    (h : c ∈ name ++ [' ', '=', ' '] ++ showInt v) : c ≠ '\n' ∧ c ≠ '#' := by
  simp only [List.mem_append, List.mem_cons, List.not_mem_nil, or_false] at h
  have key : isBlank c = false ∧ c ≠ '#' → c ≠ '\n' ∧ c ≠ '#' := by
    rintro ⟨h1, h2⟩
    refine ⟨?_, h2⟩
    rintro rfl; revert h1; decide
  rcases h with (h | rfl | rfl | rfl) | h
  · exact key (hn c h)
  · decide
  · decide
  · decide
  · exact key (showInt_clean h)

theorem splitEq_cons {c : Char} {cs h : Text} {t : List Text} (hc : c ≠ ' ') (e : splitEq cs = h :: t) :
    splitEq (c :: cs) = (c :: h) :: t := by
  rw [splitEq, e]
  intro cs' heq
  exact absurd heq hc

theorem splitEq_plain {l : Text} (h : ' ' ∉ l) : splitEq l = [l] := by
  induction l with
  | nil => rfl
  | cons c cs ih =>
    exact splitEq_cons (fun e => h (by rw [e]; exact List.mem_cons_self ..)) (ih fun e => h (List.mem_cons_of_mem _ e))

theorem splitEq_pair {k v : Text} (hk : ' ' ∉ k) (hv : ' ' ∉ v) : splitEq (k ++ [' ', '=', ' '] ++ v) = [k, v] := by
  induction k with
  | nil => simp only [List.nil_append, List.cons_append, splitEq]; rw [splitEq_plain hv]
  | cons c cs ih =>
    exact splitEq_cons (fun e => hk (by rw [e]; exact List.mem_cons_self ..)) (ih fun e => hk (List.mem_cons_of_mem _ e))

theorem not_mem_space_of_clean {l : Text} (h : ∀ c ∈ l, isBlank c = false ∧ c ≠ '#') : ' ' ∉ l := by
  intro hs
  have := (h _ hs).1
  revert this; decide

/-- One entry of the dictionary per line that is written. -/
theorem parseInfo_cons {name t : Text} {v : ℤ} (hne : name ≠ []) (hn : ∀ c ∈ name, isBlank c = false ∧ c ≠ '#') :
    parseInfo (infoLine name v ++ t) = (parseInfo t).map fun d => (name, showInt v) :: d := by
  have hmem : ∀ c ∈ name ++ [' ', '=', ' '] ++ showInt v, c ≠ '\n' ∧ c ≠ '#' := fun c => mem_infoName hn
  have e : infoLine name v ++ t = (name ++ [' ', '=', ' '] ++ showInt v) ++ '\n' :: t := by
    simp [infoLine]
  have hl := pyLines_append (l := name ++ [' ', '=', ' '] ++ showInt v) (t := t) (fun h => (hmem _ h).1 rfl)
  unfold parseInfo
  rw [e, hl]
  have hkeep : decide ((name ++ [' ', '=', ' '] ++ showInt v ++ ['\n']).head? ≠ some '#' ∧
      (name ++ [' ', '=', ' '] ++ showInt v ++ ['\n']).any (fun c => !isBlank c) = true) = true := by
    rw [decide_eq_true_eq]
    cases name with
    | nil => exact absurd rfl hne
    | cons c cs =>
      have hc := hn c (List.mem_cons_self ..)
      refine ⟨?_, ?_⟩
      · simp only [List.cons_append, List.head?_cons, ne_eq, Option.some.injEq]; exact hc.2
      · simp only [List.cons_append, List.any_cons, hc.1]; rfl
  rw [List.filter_cons, if_pos hkeep, List.mapM_cons]
  have hcut : cutComment (name ++ [' ', '=', ' '] ++ showInt v ++ ['\n']) = name ++ [' ', '=', ' '] ++ showInt v := by
    rw [cutComment, if_neg]
    · exact List.dropLast_concat
    · intro h
      rcases List.mem_append.1 h with h | h
      · exact (hmem _ h).2 rfl
      · revert h; decide
  rw [hcut, splitEq_pair (not_mem_space_of_clean hn) (not_mem_space_of_clean fun c hc => showInt_clean hc)]
  simp only [bind, Except.bind, pure, Except.pure]
  cases (List.mapM _ _ : Except CErr (List (Text × Text))) <;> rfl

theorem parseInfo_nil : parseInfo [] = .ok [] := rfl

theorem pyInt_showInt (z : ℤ) : pyInt (showInt z) = .ok z := by
  have h1 : (showInt z).dropWhile isBlank = showInt z := by
    have := dropBlank_showInt z []
    rwa [List.append_nil] at this
  have h2 : ((showInt z).reverse.dropWhile isBlank).reverse = showInt z := by
    have : (showInt z).reverse.dropWhile isBlank = (showInt z).reverse := by
      cases hr : (showInt z).reverse with
      | nil => rfl
      | cons c cs =>
        have hc := (showInt_clean (z := z) (c := c) (List.mem_reverse.1 (by rw [hr]; exact List.mem_cons_self ..))).1
        rw [List.dropWhile_cons, if_neg (by rw [hc]; decide)]
    rw [this, List.reverse_reverse]
  obtain ⟨b, n, h3, h4⟩ := sign_showInt z []
  rw [List.append_nil, List.append_nil] at h3
  unfold pyInt
  rw [h1, h2, h3]
  simp only
  rw [Nat.ofDigitChars_ten_toDigits, ← h4, if_pos ⟨digits_ne_nil n, List.all_eq_true.2 (digits_all n)⟩]

/-! ### Binary arrays -/

/-- All entries are zero or one. -/
def Binary {a b : ℕ} (M : Matrix (Fin a) (Fin b) ℤ) : Prop := ∀ i j, M i j = 0 ∨ M i j = 1

theorem binary_one (n : ℕ) : Binary (1 : Matrix (Fin n) (Fin n) ℤ) := by
  intro i j
  rw [Matrix.one_apply]
  by_cases h : i = j
  · exact .inr (if_pos h)
  · exact .inl (if_neg h)

theorem binary_zero (a b : ℕ) : Binary (0 : Matrix (Fin a) (Fin b) ℤ) := fun _ _ => .inl rfl

theorem binary_transpose {a b : ℕ} {M : Matrix (Fin a) (Fin b) ℤ} (h : Binary M) : Binary M.transpose := fun i j => h j i

theorem binary_kron {a b c d : ℕ} {A : Matrix (Fin a) (Fin b) ℤ} {B : Matrix (Fin c) (Fin d) ℤ} (hA : Binary A)
    (hB : Binary B) : Binary (kron A B) := by
  intro i j
  unfold kron
  rcases hA i.divNat j.divNat with h | h <;> rcases hB i.modNat j.modNat with h' | h' <;> rw [h, h'] <;> decide

theorem binary_hstack {r a b : ℕ} {A : Matrix (Fin r) (Fin a) ℤ} {B : Matrix (Fin r) (Fin b) ℤ} (hA : Binary A)
    (hB : Binary B) : Binary (hstack A B) := by
  intro i j
  unfold hstack
  refine Fin.addCases (fun k => ?_) (fun k => ?_) j
  · rw [Fin.append_left]; exact hA i k
  · rw [Fin.append_right]; exact hB i k

theorem binary_vstack {a b c : ℕ} {A : Matrix (Fin a) (Fin c) ℤ} {B : Matrix (Fin b) (Fin c) ℤ} (hA : Binary A)
    (hB : Binary B) : Binary (vstack A B) := by
  intro i j
  unfold vstack
  refine Fin.addCases (fun k => ?_) (fun k => ?_) i
  · rw [Fin.append_left]; exact hA k j
  · rw [Fin.append_right]; exact hB k j

theorem binary_d1 {n0 n1 r c : ℕ} {a1 : Matrix (Fin n0) (Fin n1) ℤ} {p : Matrix (Fin r) (Fin c) ℤ} (h1 : Binary a1)
    (hp : Binary p) : Binary (d1 a1 p) :=
  binary_hstack (binary_kron h1 (binary_one _)) (binary_kron (binary_one _) hp)

theorem binary_d2 {n0 n1 n2 r c : ℕ} {a1 : Matrix (Fin n0) (Fin n1) ℤ} {a2 : Matrix (Fin n1) (Fin n2) ℤ}
    {p : Matrix (Fin r) (Fin c) ℤ} (h1 : Binary a1) (h2 : Binary a2) (hp : Binary p) : Binary (d2 a1 a2 p) :=
  binary_vstack (binary_hstack (binary_kron h2 (binary_one _)) (binary_kron (binary_one _) hp))
    (binary_hstack (binary_zero _ _) (binary_kron h1 (binary_one _)))

theorem binary_dLast {n1 n2 r c : ℕ} {a2 : Matrix (Fin n1) (Fin n2) ℤ} {p : Matrix (Fin r) (Fin c) ℤ} (h2 : Binary a2)
    (hp : Binary p) : Binary (dLast a2 p) :=
  binary_vstack (binary_kron (binary_one _) hp) (binary_kron h2 (binary_one _))

theorem binary_hgpX {m1 n1 m2 n2 : ℕ} {h1 : Matrix (Fin m1) (Fin n1) ℤ} {h2 : Matrix (Fin m2) (Fin n2) ℤ} (b1 : Binary h1)
    (b2 : Binary h2) : Binary (hgpX h1 h2) :=
  binary_hstack (binary_kron b1 (binary_one _)) (binary_kron (binary_one _) (binary_transpose b2))

theorem binary_hgpZ {m1 n1 m2 n2 : ℕ} {h1 : Matrix (Fin m1) (Fin n1) ℤ} {h2 : Matrix (Fin m2) (Fin n2) ℤ} (b1 : Binary h1)
    (b2 : Binary h2) : Binary (hgpZ h1 h2) :=
  binary_hstack (binary_kron (binary_one _) b2) (binary_kron (binary_transpose b1) (binary_one _))

theorem generate3d_eq {n0 n1 n2 r c : ℕ} {a1 : Matrix (Fin n0) (Fin n1) ℤ} {a2 : Matrix (Fin n1) (Fin n2) ℤ}
    {p : Matrix (Fin r) (Fin c) ℤ} {D1 D2 D3} (h : generate3d a1 a2 p = .ok (D1, D2, D3)) :
    D1 = d1 a1 p ∧ D2 = d2 a1 a2 p ∧ D3 = dLast a2 p := by
  unfold generate3d at h
  split at h
  · cases h; exact ⟨rfl, rfl, rfl⟩
  · cases h

theorem generate4d_eq {n0 n1 n2 n3 r c : ℕ} {a1 : Matrix (Fin n0) (Fin n1) ℤ} {a2 : Matrix (Fin n1) (Fin n2) ℤ}
    {a3 : Matrix (Fin n2) (Fin n3) ℤ} {p : Matrix (Fin r) (Fin c) ℤ} {checks : Bool} {D1 D2 D3 D4}
    (h : generate4d a1 a2 a3 p checks = .ok (D1, D2, D3, D4)) :
    D1 = d1 a1 p ∧ D2 = d2 a1 a2 p ∧ D3 = d2 a2 a3 p ∧ D4 = dLast a3 p := by
  unfold generate4d at h
  split at h
  · cases h
  · cases h; exact ⟨rfl, rfl, rfl, rfl⟩

theorem createCode_binary {n0 n1 n2 r c r' c' : ℕ} {hx : Matrix (Fin n0) (Fin n1) ℤ} {hz : Matrix (Fin n2) (Fin n1) ℤ}
    {p : Matrix (Fin r) (Fin c) ℤ} {q : Matrix (Fin r') (Fin c') ℤ} {checks : Bool} {MX HX HZ MZ}
    (h : createCode hx hz p q checks = .ok (MX, HX, HZ, MZ)) (bx : Binary hx) (bz : Binary hz) (bp : Binary p) (bq : Binary q) :
    Binary MX ∧ Binary HX ∧ Binary HZ ∧ Binary MZ := by
  unfold createCode at h
  cases h3 : generate3d hx hz.transpose p with
  | error e => rw [h3] at h; cases h
  | ok res =>
    obtain ⟨D1, D2, D3⟩ := res
    rw [h3] at h
    cases h4 : generate4d D1 D2 D3 q checks with
    | error e => simp only [bind, Except.bind] at h; rw [h4] at h; cases h
    | ok out =>
      obtain ⟨E1, E2, E3, E4⟩ := out
      simp only [bind, Except.bind] at h
      rw [h4] at h
      simp only at h
      split at h
      · cases h
      · cases h
        obtain ⟨rfl, rfl, rfl⟩ := generate3d_eq h3
        obtain ⟨rfl, rfl, rfl, rfl⟩ := generate4d_eq h4
        have b1 := binary_d1 bx bp
        have b2 := binary_d2 bx (binary_transpose bz) bp
        have b3 := binary_dLast (binary_transpose bz) bp
        exact ⟨binary_d1 b1 bq, binary_d2 b1 b2 bq, binary_transpose (binary_d2 b2 b3 bq), binary_transpose (binary_dLast b3 bq)⟩

end Verif.CodeFiles
