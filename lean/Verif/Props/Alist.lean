import Verif.Model.Alist
import Verif.Lemmas.CodeFiles

/-!
# C113: reading alist files
-/

namespace Verif.Alist
open Verif Verif.CodeFiles

/-! ### Specification: the text of an alist file -/

/-- Numbers with a blank between them. -/
def numbers (r : List ℕ) : Text := [' '].intercalate (r.map fun k => Nat.toDigits 10 k)

/-- The lines, each ended by a newline. -/
def unlines (ls : List Text) : Text := ls.flatMap fun l => l ++ ['\n']

/-- The text of an alist file: the numbers of rows and columns, three lines about weights, then, for each row, the numbers of the
columns (counted from 1) of its ones, and further lines (the columns). -/
def alistText (m n : ℕ) (header : List Text) (rows : List (List ℕ)) (rest : List Text) : Text :=
  unlines (numbers [m, n] :: header ++ rows.map numbers ++ rest)

/-- A line of the file: not empty, no newline, no comment, no comma. -/
def Plain (l : Text) : Prop := l ≠ [] ∧ '\n' ∉ l ∧ '#' ∉ l ∧ ',' ∉ l

instance : DecidablePred Plain := fun l => by unfold Plain; infer_instance

/-- The numbers (from 1) of the columns with a one. -/
def ones {n : ℕ} (v : Fin n → Bool) : List ℕ := ((List.finRange n).filter fun j => v j).map fun j => j.val + 1

/-! ### Words -/

theorem wordsFrom_word (w t : Text) (hw : ∀ c ∈ w, isBlank c = false) :
    wordsFrom (w ++ t) = (w ++ (wordsFrom t).1, (wordsFrom t).2) := by
  induction w with
  | nil => rfl
  | cons c w ih =>
    rw [List.cons_append, wordsFrom, ih fun d hd => hw d (by simp [hd])]
    simp [hw c (by simp)]

theorem splitWs_word (w t : Text) (hw : ∀ c ∈ w, isBlank c = false) (h0 : w ≠ []) : splitWs (w ++ ' ' :: t) = w :: splitWs t := by
  have hb : isBlank ' ' = true := by decide
  have : wordsFrom (' ' :: t) = ([], splitWs t) := by
    rw [wordsFrom]; simp [hb, splitWs]
  unfold splitWs
  rw [wordsFrom_word w _ hw, this]
  simp [h0, splitWs]

theorem splitWs_last (w : Text) (hw : ∀ c ∈ w, isBlank c = false) (h0 : w ≠ []) : splitWs w = [w] := by
  have := wordsFrom_word w [] hw
  rw [List.append_nil] at this
  unfold splitWs
  rw [this]
  simp [wordsFrom, h0]

theorem digits_blank (k : ℕ) : ∀ c ∈ Nat.toDigits 10 k, isBlank c = false := fun c hc => (digit_ne (digits_all k c hc)).2.2.1

theorem numbers_cons (a b : ℕ) (r : List ℕ) : numbers (a :: b :: r) = Nat.toDigits 10 a ++ ' ' :: numbers (b :: r) := by
  simp [numbers, List.intercalate]

theorem numbers_single (a : ℕ) : numbers [a] = Nat.toDigits 10 a := by simp [numbers, List.intercalate]

theorem splitWs_numbers (r : List ℕ) : splitWs (numbers r) = r.map fun k => Nat.toDigits 10 k := by
  induction r with
  | nil => rfl
  | cons a r ih =>
    cases r with
    | nil => rw [numbers_single, splitWs_last _ (digits_blank a) (digits_ne_nil a)]; rfl
    | cons b r => rw [numbers_cons, splitWs_word _ _ (digits_blank a) (digits_ne_nil a), ih]; rfl

theorem mem_numbers (r : List ℕ) : ∀ c ∈ numbers r, c = ' ' ∨ c.isDigit = true := by
  induction r with
  | nil => intro c hc; simp [numbers, List.intercalate] at hc
  | cons a r ih =>
    intro c hc
    cases r with
    | nil => rw [numbers_single] at hc; exact .inr (digits_all a c hc)
    | cons b r =>
      rw [numbers_cons, List.mem_append, List.mem_cons] at hc
      rcases hc with hc | hc | hc
      · exact .inr (digits_all a c hc)
      · exact .inl hc
      · exact ih c hc

theorem numbers_plain (r : List ℕ) (hr : r ≠ []) : Plain (numbers r) := by
  have hno : ∀ d : Char, d ≠ ' ' → d.isDigit = false → d ∉ numbers r := by
    intro d h1 h2 h
    rcases mem_numbers r d h with h | h
    · exact h1 h
    · rw [h2] at h; cases h
  refine ⟨?_, hno _ (by decide) (by decide), hno _ (by decide) (by decide), hno _ (by decide) (by decide)⟩
  cases r with
  | nil => exact absurd rfl hr
  | cons a r =>
    cases r with
    | nil => rw [numbers_single]; exact digits_ne_nil a
    | cons b r => rw [numbers_cons]; simp

/-! ### Lines -/

theorem getlines_unlines (ls : List Text) (h : ∀ l ∈ ls, '\n' ∉ l) : getlines (unlines ls) = ls := by
  induction ls with
  | nil => rfl
  | cons l ls ih =>
    have : unlines (l :: ls) = l ++ '\n' :: unlines ls := by simp [unlines]
    rw [this, getlines_append (h l (by simp)), ih fun l' hl' => h l' (by simp [hl'])]

theorem loadLines_unlines (ls : List Text) (h : ∀ l ∈ ls, Plain l) : loadLines (unlines ls) = .ok ls := by
  unfold loadLines
  rw [getlines_unlines ls fun l hl => (h l hl).2.1]
  have h1 : ls.map (fun l => l.takeWhile (· ≠ '#')) = ls := by
    conv_rhs => rw [← List.map_id ls]
    refine List.map_congr_left fun l hl => ?_
    have hno : '#' ∉ l := (h l hl).2.2.1
    clear hl
    induction l with
    | nil => rfl
    | cons c l ih =>
      have hc : c ≠ '#' := fun e => hno (by simp [e])
      rw [List.takeWhile_cons, if_pos (by simpa using hc), ih fun e => hno (by simp [e])]
      rfl
  have h2 : ls.filter (· ≠ []) = ls := by
    rw [List.filter_eq_self]
    intro l hl
    simpa using (h l hl).1
  simp only [h1, h2]
  rw [if_pos]
  rw [List.all_eq_true]
  intro l hl
  simpa using List.count_eq_zero_of_not_mem (h l hl).2.2.2

theorem ofDigits_toDigits (k : ℕ) : Nat.ofDigitChars 10 (Nat.toDigits 10 k) 0 = k := by
  have := pyInt_showInt (k : ℤ)
  have e : showInt (k : ℤ) = Nat.toDigits 10 k := rfl
  simp

/-- The column a number of a line stands for. -/
def colOf (n k : ℕ) : ℕ := if k = 0 then n - 1 else k - 1

theorem column_digits (n k : ℕ) (hn : 1 ≤ n) (hk : k ≤ n) (hi : n ≤ 2147483647) : column n (Nat.toDigits 10 k) = .ok (colOf n k) := by
  unfold column colOf
  rw [ofDigits_toDigits]
  simp only
  rw [if_neg (by omega)]
  by_cases h0 : k = 0
  · simp only [h0, if_true]; rw [if_neg (by omega)]
  · rw [if_neg h0, if_neg h0, if_pos (by omega)]

theorem columns_digits (n : ℕ) (hn : 1 ≤ n) (hi : n ≤ 2147483647) (r : List ℕ) (hr : ∀ k ∈ r, k ≤ n) :
    (r.map fun k => Nat.toDigits 10 k).mapM (column n) = .ok (r.map (colOf n)) := by
  induction r with
  | nil => rfl
  | cons k r ih =>
    rw [List.map_cons, List.mapM_cons, column_digits n k hn (hr k (by simp)) hi, ih fun j hj => hr j (by simp [hj])]
    rfl

theorem readRow_numbers (n : ℕ) (hn : 1 ≤ n) (hi : n ≤ 2147483647) (r : List ℕ) (hr : ∀ k ∈ r, k ≤ n) :
    readRow n (numbers r) = .ok ((List.range n).map fun j => decide (j + 1 ∈ r ∨ (j + 1 = n ∧ 0 ∈ r))) := by
  unfold readRow
  have hf : (splitWs (numbers r)).filter (fun w => w.all Char.isDigit) = r.map fun k => Nat.toDigits 10 k := by
    rw [splitWs_numbers, List.filter_eq_self]
    intro w hw
    obtain ⟨k, -, rfl⟩ := List.mem_map.1 hw
    rw [List.all_eq_true]; exact digits_all k
  rw [hf, columns_digits n hn hi r hr]
  show Except.ok _ = _
  congr 1
  refine List.map_congr_left fun j hj => ?_
  rw [List.mem_range] at hj
  rw [decide_eq_decide, List.mem_map]
  constructor
  · rintro ⟨k, hk, h⟩
    unfold colOf at h
    split at h
    · next h0 => subst h0; exact .inr ⟨by omega, hk⟩
    · exact .inl (by rw [← h, show k - 1 + 1 = k by omega]; exact hk)
  · rintro (h | ⟨h1, h2⟩)
    · exact ⟨j + 1, h, by simp [colOf]⟩
    · exact ⟨0, h2, by simp [colOf]; omega⟩

theorem readRows_ok (n : ℕ) (hn : 1 ≤ n) (hi : n ≤ 2147483647) (ls : List Text) (rows : List (List ℕ)) (o : ℕ)
    (h : ∀ i, rows[i]? = none ∨ ∃ r, rows[i]? = some r ∧ ls[o + i + 4]? = some (numbers r))
    (hr : ∀ r ∈ rows, ∀ k ∈ r, k ≤ n) :
    readRows n ls (List.range' o rows.length) =
      .ok (rows.map fun r => (List.range n).map fun j => decide (j + 1 ∈ r ∨ (j + 1 = n ∧ 0 ∈ r))) := by
  induction rows generalizing o with
  | nil => rfl
  | cons r rows ih =>
    rw [List.length_cons, List.range'_succ, readRows]
    rcases h 0 with h0 | ⟨r', h0, h1⟩
    · simp at h0
    · simp only [List.getElem?_cons_zero, Option.some.injEq] at h0
      subst h0
      rw [show o + 0 + 4 = o + 4 by omega] at h1
      rw [h1]
      simp only
      rw [readRow_numbers n hn hi r (hr r (by simp)), ih (o + 1) (fun i => by
        have := h (i + 1)
        rw [List.getElem?_cons_succ, show o + (i + 1) + 4 = o + 1 + i + 4 by omega] at this
        exact this) fun r' hr' => hr r' (by simp [hr'])]
      rfl

/-- **C113**: what is read from an alist file whose rows all have at least one number: entry `(i, j)` is one exactly if the
number of column `j` (counted from 1) is in line `i`, or the line contains a 0 and `j` is the last column. -/
theorem C113_read (n : ℕ) (hn : 1 ≤ n) (hi : n ≤ 2147483647) (header rest : List Text) (hh : header.length = 3)
    (rows : List (List ℕ)) (hr : ∀ r ∈ rows, r ≠ [] ∧ ∀ k ∈ r, k ≤ n)
    (hp : ∀ l ∈ header ++ rest, Plain l) :
    alist2numpy (alistText rows.length n header rows rest) =
      .ok (rows.length, n, rows.map fun r => (List.range n).map fun j => decide (j + 1 ∈ r ∨ (j + 1 = n ∧ 0 ∈ r))) := by
  have hplain : ∀ l ∈ numbers [rows.length, n] :: header ++ rows.map numbers ++ rest, Plain l := by
    intro l hl
    simp only [List.cons_append, List.mem_cons, List.mem_append, List.mem_map] at hl
    rcases hl with rfl | (hl | ⟨r, hrm, rfl⟩) | hl
    · exact numbers_plain _ (by simp)
    · exact hp l (by simp [hl])
    · exact numbers_plain r (hr r hrm).1
    · exact hp l (by simp [hl])
  have hdim : ∀ i, (i = 0 ∨ i = 1) → dim (splitWs (numbers [rows.length, n])) i = .ok (if i = 0 then (rows.length : ℤ) else n) := by
    intro i hi
    rw [splitWs_numbers]
    rcases hi with rfl | rfl
    · show (match pyInt (showInt (rows.length : ℤ)) with | .ok z => _ | .error _ => _) = _
      rw [pyInt_showInt]; rfl
    · show (match pyInt (showInt (n : ℤ)) with | .ok z => _ | .error _ => _) = _
      rw [pyInt_showInt]; rfl
  unfold alist2numpy alistText
  rw [loadLines_unlines _ hplain]
  simp only [bind, Except.bind, pure, Except.pure]
  have hlen : 2 ≤ (numbers [rows.length, n] :: header ++ rows.map numbers ++ rest).length := by
    simp [hh]; omega
  have hhead : (numbers [rows.length, n] :: header ++ rows.map numbers ++ rest).headD [] = numbers [rows.length, n] := rfl
  rw [hhead, hdim 0 (.inl rfl), hdim 1 (.inr rfl)]
  simp only [require, if_pos hlen, if_true, one_ne_zero, if_false]
  rw [if_pos ⟨by positivity, by positivity⟩]
  simp only [Int.toNat_natCast]
  have hrows := readRows_ok n hn hi (numbers [rows.length, n] :: header ++ rows.map numbers ++ rest) rows 0 (fun i => by
    by_cases hi' : i < rows.length
    · right
      refine ⟨rows[i], List.getElem?_eq_getElem hi', ?_⟩
      have : (numbers [rows.length, n] :: header ++ rows.map numbers ++ rest) =
          (numbers [rows.length, n] :: header) ++ (rows.map numbers ++ rest) := by simp
      rw [this, List.getElem?_append_right (by simp only [List.length_cons, hh]; omega), List.getElem?_append_left (by simp only [List.length_cons, List.length_map, hh]; omega),
        List.getElem?_map]
      simp only [List.length_cons, hh]
      rw [show 0 + i + 4 - (3 + 1) = i by omega, List.getElem?_eq_getElem hi']
      rfl
    · exact .inl (List.getElem?_eq_none (by omega))) fun r hrm => (hr r hrm).2
  rw [List.range_eq_range', hrows]

/-- **C113 (partial)**: a matrix without zero rows, written with the numbers of the columns of the ones of each row and nothing
else, is read back.  Missing: zero rows (`C113_violated_zero_row`) and lines padded with zeros (`C113_violated_padded`). -/
theorem C113_round_trip_partial (m n : ℕ) (hi : n ≤ 2147483647) (M : Fin m → Fin n → Bool) (hM : ∀ i, ∃ j, M i j = true) (hn : 1 ≤ n)
    (header rest : List Text) (hh : header.length = 3) (hp : ∀ l ∈ header ++ rest, Plain l) :
    alist2numpy (alistText m n header (List.ofFn fun i => ones (M i)) rest) =
      .ok (m, n, List.ofFn fun i => List.ofFn (M i)) := by
  have hmem : ∀ (v : Fin n → Bool) (k : ℕ), k ∈ ones v ↔ ∃ j : Fin n, v j = true ∧ j.val + 1 = k := by
    intro v k
    simp [ones]
  have := C113_read n hn hi header rest hh (List.ofFn fun i => ones (M i)) (by
    intro r hr
    rw [List.mem_ofFn] at hr
    obtain ⟨i, rfl⟩ := hr
    constructor
    · obtain ⟨j, hj⟩ := hM i
      intro h0
      have := (hmem (M i) (j.val + 1)).2 ⟨j, hj, rfl⟩
      rw [h0] at this
      cases this
    · intro k hk
      obtain ⟨j, -, rfl⟩ := (hmem _ _).1 hk
      exact j.isLt) hp
  rw [List.length_ofFn] at this
  rw [this]
  congr 3
  rw [List.map_ofFn]
  congr 1
  funext i
  simp only [Function.comp]
  apply List.ext_getElem
  · simp
  · intro j h1 h2
    simp only [List.length_ofFn] at h2
    rw [List.getElem_map, List.getElem_range, List.getElem_ofFn]
    have h0 : 0 ∉ ones (M i) := by
      intro h
      obtain ⟨j, -, h⟩ := (hmem _ _).1 h
      omega
    have : (j + 1 ∈ ones (M i) ∨ (j + 1 = n ∧ 0 ∈ ones (M i))) ↔ M i ⟨j, h2⟩ = true := by
      rw [hmem]
      constructor
      · rintro (⟨j', hj', h⟩ | ⟨-, h⟩)
        · rw [show (⟨j, h2⟩ : Fin n) = j' from Fin.ext (by simp only; omega)]; exact hj'
        · exact absurd h h0
      · intro h; exact .inl ⟨⟨j, h2⟩, h, rfl⟩
    cases hv : M i ⟨j, h2⟩ <;> simp [this, hv]

/-- The round trip for the three checks of the Hamming code. -/
example : alist2numpy (alistText 3 7 ["4 3".toList, "4 4 4".toList, "1 1 2 1 2 2 3".toList] [[4, 5, 6, 7], [2, 3, 6, 7], [1, 3, 5, 7]] []) =
    .ok (3, 7, [[false, false, false, true, true, true, true], [false, true, true, false, false, true, true],
      [true, false, true, false, true, false, true]]) := by decide +kernel

/-- The full claim: every binary matrix is read back from its alist file, in which the lines may be padded with zeros to a common
length. -/
def C113_claim : Prop :=
  ∀ (m n : ℕ) (M : Fin m → Fin n → Bool) (header rest : List Text) (pad : Fin m → ℕ), 1 ≤ n → n ≤ 2147483647 → header.length = 3 →
    (∀ l ∈ header ++ rest, Plain l) →
    alist2numpy (alistText m n header (List.ofFn fun i => ones (M i) ++ List.replicate (pad i) 0) rest) =
      .ok (m, n, List.ofFn fun i => List.ofFn (M i))

/-- **C113 fails** for padded lines: the number 0 sets the last column. -/
theorem C113_violated_padded : ¬ C113_claim := by
  intro h
  have := h 2 3 ![![true, true, false], ![true, false, false]] [['2', ' ', '2'], ['2', ' ', '1'], ['2', ' ', '1', ' ', '0']] [] ![0, 1]
    (by decide) (by decide) (by decide) (by decide)
  revert this
  decide +kernel

/-- **C113 fails** for a zero row without padding: its line is empty and skipped, and the next line is read instead; here there is
none. -/
theorem C113_violated_zero_row :
    alist2numpy (alistText 2 2 [['1', ' ', '1'], ['1', ' ', '0'], ['0', ' ', '1']] [[], [1]] []) = .error .indexError ∧
    alist2numpy (alistText 2 2 [['1', ' ', '1'], ['1', ' ', '0'], ['0', ' ', '1']] [[], [1]] [['2']]) =
      .ok (2, 2, [[true, false], [false, true]]) := by decide +kernel

end Verif.Alist
