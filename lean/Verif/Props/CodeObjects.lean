import Verif.Model.CodeObjects
import Mathlib.Data.List.Basic

/-!
# C124, C125: code objects changed by setters, and printed code objects
-/

namespace Verif.CppObj
open Verif Verif.Cpp

/-! ## C124 -/

/-- The last matrix that a history hands to `setHx`. -/
def lastHx (ops : List CodeOp) : Option Gf2Mat := (ops.filterMap fun | .setHx M => some M | _ => none).getLast?
/-- The last matrix that a history hands to `setHz`. -/
def lastHz (ops : List CodeOp) : Option Gf2Mat := (ops.filterMap fun | .setHz M => some M | _ => none).getLast?

/-- The history assigns no number of qubits. -/
def NoSetN (ops : List CodeOp) : Prop := ∀ m, CodeOp.setN m ∉ ops

/-- Two objects give the same answers. -/
def SameAnswers (o o' : CodeObj) : Prop :=
  (∀ e, o.getXSyndrome e = o'.getXSyndrome e) ∧ (∀ x z, o.getSyndrome x z = o'.getSyndrome x z) ∧
  (∀ x z, o.isStabilizer2 x z = o'.isStabilizer2 x z) ∧ ∀ e, o.isStabilizer e = o'.isStabilizer e

/-- **C124, the full claim**: after every history of `setHx` and `setHz` that leaves a matrix `hZ`, the object answers as one that was
constructed from its matrices. -/
def C124_claim : Prop :=
  ∀ (ops : List CodeOp) (hZ : Gf2Mat), NoSetN ops → (CodeObj.steps {} ops).hZ = some hZ →
    SameAnswers (CodeObj.steps {} ops) (CodeObj.make (CodeObj.steps {} ops).hX hZ)

theorem steps_append (o : CodeObj) (ops : List CodeOp) (op : CodeOp) : o.steps (ops ++ [op]) = (o.steps ops).step op := by
  simp [CodeObj.steps]

/-- **C124.** After every history of changes of an object, `getHx` and `getHz` return the last matrices set (those of the constructor if none were
set; a null dereference if there are none). -/
theorem C124_getters (o : CodeObj) (ops : List CodeOp) :
    (o.steps ops).getHx = ((lastHx ops).or o.hX) ∧ (o.steps ops).getHz = ((lastHz ops).or o.hZ) := by
  induction ops using List.reverseRecOn with
  | nil => exact ⟨rfl, rfl⟩
  | append_singleton ops op ih =>
    rw [steps_append]
    unfold lastHx lastHz at ih ⊢
    simp only [CodeObj.getHx, CodeObj.getHz] at ih ⊢
    cases op <;> simp [CodeObj.step, List.filterMap_append, ih]

theorem steps_n (o : CodeObj) (ops : List CodeOp) (h : NoSetN ops) : (o.steps ops).n = o.n := by
  induction ops using List.reverseRecOn with
  | nil => rfl
  | append_singleton ops op ih =>
    rw [steps_append]
    have ih' := ih fun m hm => h m (List.mem_append_left _ hm)
    cases op with
    | setN m => exact absurd (List.mem_append_right _ List.mem_cons_self) (h m)
    | _ => exact ih'

/-- **C124, proved part.** An object whose attribute `n` is the number of columns of its `hZ` answers as one that was constructed from its
matrices, whatever its history.  Missing from the claim: the setters do not keep `n` up to date. -/
theorem C124_answers_partial (o : CodeObj) (ops : List CodeOp) (hZ : Gf2Mat) (h : (o.steps ops).hZ = some hZ)
    (hn : (o.steps ops).n = cols hZ) : SameAnswers (o.steps ops) (CodeObj.make (o.steps ops).hX hZ) := by
  generalize o.steps ops = o' at h hn
  obtain ⟨hX, hZ', n, k, d⟩ := o'
  simp only at h hn
  subst h hn
  exact ⟨fun _ => rfl, fun _ _ => rfl, fun _ _ => rfl, fun _ => rfl⟩

/-- **C124, proved part.** In particular after `setHx`, `setHz` and an assignment `n = <number of columns>`, in this order or with the assignment
anywhere after the start. -/
theorem C124_assigned_partial (pre post : List CodeOp) (hZ : Gf2Mat) (h : (CodeObj.steps {} (pre ++ CodeOp.setN (cols hZ) :: post)).hZ = some hZ)
    (hp : NoSetN post) : SameAnswers (CodeObj.steps {} (pre ++ CodeOp.setN (cols hZ) :: post))
      (CodeObj.make (CodeObj.steps {} (pre ++ CodeOp.setN (cols hZ) :: post)).hX hZ) := by
  apply C124_answers_partial {} _ hZ h
  have e : CodeObj.steps {} (pre ++ CodeOp.setN (cols hZ) :: post) = ((CodeObj.steps {} pre).step (.setN (cols hZ))).steps post := by
    simp [CodeObj.steps]
  rw [e, steps_n _ _ hp]
  rfl

example : SameAnswers (CodeObj.steps {} ([.setHz [[true, true, false]]] ++ CodeOp.setN (cols [[true, true, false]]) :: [.setHx [[true, true, true]]]))
    (CodeObj.make (some [[true, true, true]]) [[true, true, false]]) :=
  C124_assigned_partial [.setHz [[true, true, false]]] [.setHx [[true, true, true]]] [[true, true, false]] rfl (by intro m; simp)

/-- **C124.** An object constructed from two matrices answers as the code of C87 (`mkCode`) does: its syndrome is that of the X errors (for `hZ`)
followed by that of the Z errors (for `hX`), and so on. -/
theorem C124_constructed (hX hZ : Gf2Mat) :
    (∀ e, (CodeObj.make (some hX) hZ).getXSyndrome e = (mkCode (some hX) hZ).getXSyndrome e) ∧
    (∀ x z, (CodeObj.make (some hX) hZ).getSyndrome x z = (mkCode (some hX) hZ).getSyndrome x z) ∧
    (∀ x z, (CodeObj.make (some hX) hZ).isStabilizer2 x z = (mkCode (some hX) hZ).isStabilizer2 x z) ∧
    ∀ e, (CodeObj.make (some hX) hZ).isStabilizer e = (mkCode (some hX) hZ).isStabilizer e := by
  have hs : ∀ x z, (CodeObj.make (some hX) hZ).getSyndrome x z = (mkCode (some hX) hZ).getSyndrome x z := by
    intro x z
    unfold CodeObj.getSyndrome Code.getSyndrome
    by_cases hc : x = [] ∨ z = [] ∨ x.length ≠ cols hZ ∨ z.length ≠ cols hZ
    · rw [if_pos (show x = [] ∨ z = [] ∨ x.length ≠ (CodeObj.make (some hX) hZ).n ∨ z.length ≠ (CodeObj.make (some hX) hZ).n from hc),
        if_pos (show x = [] ∨ z = [] ∨ x.length ≠ (mkCode (some hX) hZ).n ∨ z.length ≠ (mkCode (some hX) hZ).n from hc)]
    · rw [if_neg (show ¬ (x = [] ∨ z = [] ∨ x.length ≠ (CodeObj.make (some hX) hZ).n ∨ z.length ≠ (CodeObj.make (some hX) hZ).n) from hc),
        if_neg (show ¬ (x = [] ∨ z = [] ∨ x.length ≠ (mkCode (some hX) hZ).n ∨ z.length ≠ (mkCode (some hX) hZ).n) from hc)]
      simp only [CodeObj.make, mkCode, Option.map_some, bind, Except.bind, pure, Except.pure]
      cases rectMatrixMultiply hZ x (List.replicate hZ.length false) with
      | error e => rfl
      | ok xs => cases rectMatrixMultiply hX z (List.replicate hX.length false) <;> rfl
  have h2 : ∀ x z, (CodeObj.make (some hX) hZ).isStabilizer2 x z = (mkCode (some hX) hZ).isStabilizer2 x z := by
    intro x z
    simp only [CodeObj.isStabilizer2, Code.isStabilizer2, CodeObj.make, mkCode, Option.map_some, bind, Except.bind, pure, Except.pure]
    cases isVectorInRowspace hX x with
    | error e => rfl
    | ok b => cases b <;> rfl
  refine ⟨fun e => ?_, hs, h2, fun e => ?_⟩
  · simp only [CodeObj.getXSyndrome, Code.getXSyndrome, hs]
    rfl
  · simp only [CodeObj.isStabilizer, Code.isStabilizer, h2]
    rfl

/-- The checks `11` and `11`: the X error comes first. -/
example : (CodeObj.make (some [[true, true]]) [[true, true]]).getSyndrome [true, false] [true, true] = some (.ok [true, false]) := by
  rw [(C124_constructed _ _).2.1]
  decide +kernel

/-- **C124 is violated in general**: an object that starts empty and gets its matrices from the setters computes no syndrome at all; both
functions raise an exception for every error. -/
theorem C124_violated_syndrome (ops : List CodeOp) (h : NoSetN ops) :
    (∀ e, (CodeObj.steps {} ops).getXSyndrome e = some (.error .qecc)) ∧
    ∀ x z, (CodeObj.steps {} ops).getSyndrome x z = some (.error .qecc) := by
  have hn : (CodeObj.steps {} ops).n = 0 := steps_n {} ops h
  have hs : ∀ x z, (CodeObj.steps {} ops).getSyndrome x z = some (.error .qecc) := by
    intro x z
    unfold CodeObj.getSyndrome
    rw [hn, if_pos]
    by_cases hx : x = []
    · exact .inl hx
    · exact .inr (.inr (.inl fun h0 => hx (List.length_eq_zero_iff.1 h0)))
  refine ⟨fun e => ?_, hs⟩
  unfold CodeObj.getXSyndrome
  by_cases he : e = []
  · rw [if_pos he]
  · have hpos : e.length > (CodeObj.steps {} ops).n := by rw [hn]; exact List.length_pos_iff.2 he
    rw [if_neg he, if_pos hpos, hs]

/-- **C124 is violated in general**: such an object raises an exception for every vector on its qubits, except the zero vector, when it is asked
whether the vector is a stabilizer. -/
theorem C124_violated_stabilizer (ops : List CodeOp) (h : NoSetN ops) (hX hZ : Gf2Mat) (h1 : (CodeObj.steps {} ops).hX = some hX)
    (h2 : (CodeObj.steps {} ops).hZ = some hZ) (hc : cols hX = cols hZ) (e : List Bool) (he : e.any id = true) (hl : e.length = cols hZ) :
    (CodeObj.steps {} ops).isStabilizer e = some (.error .qecc) := by
  have hn : (CodeObj.steps {} ops).n = 0 := steps_n {} ops h
  have hpos : 0 < e.length := by
    cases e with
    | nil => cases he
    | cons a l => simp
  have err : ∀ (M : Gf2Mat) v, cols M = cols hZ → v.length ≤ e.length - 1 → v.any id = true → isVectorInRowspace M v = .error .qecc := by
    intro M v hM hv hany
    unfold isVectorInRowspace
    split_ifs with a1 a2 a3
    · rfl
    · rw [hany] at a2
      exact absurd a2 (by decide)
    · rfl
    · exact absurd (not_not.1 a3) (by omega)
  have zero : ∀ (M : Gf2Mat) v, v.any id = false → isVectorInRowspace M v = .error .qecc ∨ isVectorInRowspace M v = .ok true := by
    intro M v hany
    unfold isVectorInRowspace
    split_ifs with a1 a2
    · exact .inl rfl
    · exact .inr rfl
    · rw [hany] at a2
      exact absurd rfl a2
    · rw [hany] at a2
      exact absurd rfl a2
  unfold CodeObj.isStabilizer
  rw [if_neg (by rw [he]; decide), hn, if_pos hpos]
  unfold CodeObj.isStabilizer2
  rw [h1, h2]
  simp only
  have hsplit : (e.take (e.length / 2)).any id = true ∨ ((e.take (e.length / 2)).any id = false ∧ (e.drop (e.length / 2)).any id = true) := by
    rw [← List.take_append_drop (e.length / 2) e, List.any_append, Bool.or_eq_true] at he
    rcases he with he | he
    · exact .inl he
    · cases ht : (e.take (e.length / 2)).any id with
      | true => exact .inl rfl
      | false => exact .inr ⟨rfl, he⟩
  rcases hsplit with h3 | ⟨h3, h4⟩
  · rw [err hX _ hc (by rw [List.length_take]; omega) h3]
  · rcases zero hX _ h3 with h5 | h5
    · rw [h5]
    · rw [h5]
      simp only [Option.map_some]
      have hdrop : (e.drop (e.length / 2)).length ≤ e.length - 1 ∨ e.length = 1 := by
        rw [List.length_drop]
        omega
      rcases hdrop with h6 | h6
      · rw [err hZ _ rfl h6 h4]
      · have h7 : e.take (e.length / 2) = [] := by
          rw [h6]
          rfl
        rw [h7] at h5
        unfold isVectorInRowspace at h5
        rw [if_pos (by simp)] at h5
        cases h5

/-- **C124 is violated**: the syndrome of `[1,0]` for the check `[1,1]`. -/
theorem C124_violated : ¬ C124_claim := by
  intro h
  have h1 := (h [.setHz [[true, true]]] [[true, true]] (by intro m; simp) rfl).1 [true, false]
  rw [(C124_violated_syndrome [.setHz [[true, true]]] (by intro m; simp)).1] at h1
  revert h1
  decide +kernel

example : (CodeObj.steps {} [.setHx [[true, true, false]], .setHz [[true, true, true]]]).isStabilizer [true, true, false] = some (.error .qecc) ∧
    (CodeObj.make (some [[true, true, false]]) [[true, true, true]]).isStabilizer [true, true, false] = some (.ok true) :=
  ⟨C124_violated_stabilizer _ (by intro m; simp) [[true,true,false]] [[true,true,true]] rfl rfl rfl _ rfl rfl, by decide +kernel⟩

/-! ## C125 -/

/-- All rows have the length of the first one. -/
def Rect (M : Gf2Mat) : Prop := ∀ r ∈ M, r.length = cols M

/-- **C125, the full claim**: codes with different matrices (on the same number of qubits) are printed differently. -/
def C125_claim : Prop :=
  ∀ (hX hX' : Option Gf2Mat) (hZ hZ' : Gf2Mat) (s : Text), Rect hZ → Rect hZ' → (∀ M, hX = some M → Rect M) → (∀ M, hX' = some M → Rect M) →
    cols hZ = cols hZ' → printCode hX hZ = .ok s → printCode hX' hZ' = .ok s → hX = hX' ∧ hZ = hZ'

/-- Entries with commas between them. -/
def sep : List Bool → Text
  | [] => []
  | [b] => [bitText b]
  | b :: c :: r => bitText b :: ',' :: sep (c :: r)

theorem rowText_eq (row : List Bool) (todo j : ℕ) (h : j + todo ≤ row.length) : rowText row todo j = .ok (sep ((row.drop j).take todo)) := by
  induction todo generalizing j with
  | zero => simp [rowText, sep]
  | succ t ih =>
    have hj : j < row.length := by omega
    have hd : row.drop j = row[j] :: row.drop (j + 1) := List.drop_eq_getElem_cons hj
    simp only [rowText, List.getElem?_eq_getElem hj, ih (j + 1) (by omega), hd, List.take_succ_cons]
    cases t with
    | zero => simp [sep]
    | succ t =>
      have hj' : j + 1 < row.length := by omega
      rw [List.drop_eq_getElem_cons hj', List.take_succ_cons]
      simp only [sep, reduceCtorEq, if_false, Nat.succ_ne_zero]
      rfl

theorem bitChar_inj {a b : Bool} (h : bitText a = bitText b) : a = b := by
  revert h
  cases a <;> cases b <;> decide

theorem sep_inj {l l' : List Bool} (h : sep l = sep l') : l = l' := by
  induction l using sep.induct generalizing l' with
  | case1 =>
    match l', h with
    | [], _ => rfl
    | [b], h => simp [sep] at h
    | b :: c :: r, h => simp [sep] at h
  | case2 a =>
    match l', h with
    | [], h => simp [sep] at h
    | [b], h =>
      simp only [sep, List.cons.injEq, and_true] at h
      rw [bitChar_inj h]
    | b :: c :: r, h => simp [sep] at h
  | case3 a a' l ih =>
    match l', h with
    | [], h => simp [sep] at h
    | [b], h => simp [sep] at h
    | b :: c :: r, h =>
      simp only [sep, List.cons.injEq, true_and] at h
      rw [bitChar_inj h.1, ih h.2]

theorem sep_chars (l : List Bool) : ']' ∉ sep l := by
  induction l using sep.induct with
  | case1 => simp [sep]
  | case2 a => cases a <;> decide
  | case3 a a' l ih =>
    rw [sep, List.mem_cons, List.mem_cons]
    rintro (h | h | h)
    · cases a <;> revert h <;> decide
    · revert h; decide
    · exact ih h

theorem split_at {c : Char} {a b x y : Text} (ha : c ∉ a) (hb : c ∉ b) (h : a ++ c :: x = b ++ c :: y) : a = b ∧ x = y := by
  induction a generalizing b with
  | nil =>
    cases b with
    | nil => simpa using h
    | cons d b =>
      simp only [List.nil_append, List.cons_append, List.cons.injEq] at h
      exact absurd (h.1 ▸ List.mem_cons_self) hb
  | cons d a ih =>
    cases b with
    | nil =>
      simp only [List.nil_append, List.cons_append, List.cons.injEq] at h
      exact absurd (h.1 ▸ List.mem_cons_self) ha
    | cons d' b =>
      simp only [List.cons_append, List.cons.injEq] at h
      obtain ⟨h1, h2⟩ := ih (fun h => ha (List.mem_cons_of_mem _ h)) (fun h => hb (List.mem_cons_of_mem _ h)) h.2
      exact ⟨by rw [h.1, h1], h2⟩

/-- The lines of the rows. -/
def body : Gf2Mat → Text
  | [] => []
  | r :: rest => '[' :: (sep r ++ (']' :: ((if rest = [] then [] else [',']) ++ ('\n' :: body rest))))

theorem rowsText_eq (n : ℕ) (M : Gf2Mat) (h : ∀ r ∈ M, r.length = n) : rowsText n M = .ok (body M) := by
  induction M with
  | nil => rfl
  | cons r M ih =>
    have hr := h r List.mem_cons_self
    simp only [rowsText, rowText_eq r n 0 (by omega), ih fun r hr => h r (List.mem_cons_of_mem _ hr), List.drop_zero, body]
    rw [← hr, List.take_length]

theorem body_inj {M M' : Gf2Mat} (h : body M = body M') : M = M' := by
  induction M generalizing M' with
  | nil =>
    cases M' with
    | nil => rfl
    | cons r M' => simp [body] at h
  | cons r M ih =>
    cases M' with
    | nil => simp [body] at h
    | cons r' M' =>
      simp only [body, List.cons.injEq, true_and] at h
      obtain ⟨h1, h2⟩ := split_at (sep_chars r) (sep_chars r') h
      by_cases hm : M = [] <;> by_cases hm' : M' = []
      · rw [sep_inj h1, hm, hm']
      · rw [if_pos hm, if_neg hm'] at h2
        simp at h2
      · rw [if_neg hm, if_pos hm'] at h2
        simp at h2
      · rw [if_neg hm, if_neg hm'] at h2
        simp only [List.cons_append, List.nil_append, List.cons.injEq, true_and] at h2
        rw [sep_inj h1, ih h2]

theorem matString_eq (M : Gf2Mat) (h : Rect M) : matString M = .ok (if M = [] then "[]".toList else
    Nat.toDigits 10 M.length ++ ('x' :: (Nat.toDigits 10 (cols M) ++ ("matrix [\n".toList ++ (body M ++ [']']))))) := by
  unfold matString
  by_cases hm : M = []
  · rw [if_pos hm, if_pos hm]
  · rw [if_neg hm, if_neg hm, rowsText_eq (cols M) M h]

theorem digit_char {n : ℕ} {c : Char} (hc : c.isDigit = false) : c ∉ Nat.toDigits 10 n := fun h => by
  have := Nat.isDigit_of_mem_toDigits (by decide) (by decide) h
  rw [hc] at this
  cases this

/-- **C125.** Every rectangular matrix has a text, and different rectangular matrices have different texts. -/
theorem C125_matrix_text (M M' : Gf2Mat) (h : Rect M) (h' : Rect M') :
    (∃ s, matString M = .ok s) ∧ (matString M = matString M' → M = M') := by
  refine ⟨⟨_, matString_eq M h⟩, fun he => ?_⟩
  rw [matString_eq M h, matString_eq M' h'] at he
  have he := Except.ok.inj he
  have key : ∀ N : Gf2Mat, ∀ t : Text, "[]".toList ≠ Nat.toDigits 10 N.length ++ t := by
    intro N t hb
    cases hd : Nat.toDigits 10 N.length with
    | nil =>
      have := @Nat.length_toDigits_pos 10 N.length
      rw [hd] at this
      exact absurd this (by decide)
    | cons c l =>
      rw [hd] at hb
      have hc : c = '[' := by
        have := congrArg List.head? hb
        simpa [eq_comm] using this
      have : c ∈ Nat.toDigits 10 N.length := by rw [hd]; exact List.mem_cons_self
      rw [hc] at this
      exact digit_char (by decide) this
  by_cases hm : M = [] <;> by_cases hm' : M' = []
  · rw [hm, hm']
  · rw [if_pos hm, if_neg hm'] at he
    exact absurd he (key _ _)
  · rw [if_neg hm, if_pos hm'] at he
    exact absurd he.symm (key _ _)
  · rw [if_neg hm, if_neg hm'] at he
    obtain ⟨-, h2⟩ := split_at (digit_char (by decide)) (digit_char (by decide)) he
    have e : ∀ t : Text, "matrix [\n".toList ++ t = 'm' :: ("atrix [\n".toList ++ t) := fun t => rfl
    rw [e, e] at h2
    obtain ⟨-, h3⟩ := split_at (digit_char (by decide)) (digit_char (by decide)) h2
    exact body_inj (List.append_cancel_right (List.append_cancel_left h3))

example : matString [[true, false], [false, true]] = .ok "2x2matrix [\n[1,0],\n[0,1]\n]".toList := by decide +kernel

theorem mapM_ok {A B : Type} (f : A → Except CppErr B) (g : A → B) (l : List A) (h : ∀ a ∈ l, f a = .ok (g a)) : l.mapM f = .ok (l.map g) := by
  induction l with
  | nil => rfl
  | cons a l ih =>
    rw [List.mapM_cons, h a List.mem_cons_self, ih fun a ha => h a (List.mem_cons_of_mem _ ha)]
    rfl

theorem mapM_error {A B : Type} (f : A → Except CppErr B) (l : List A) (a : A) (ha : a ∈ l) (h : ∀ b ∈ l, f b = .error .outOfRange ∨ ∃ v, f b = .ok v)
    (he : f a = .error .outOfRange) : l.mapM f = .error .outOfRange := by
  induction l with
  | nil => cases ha
  | cons b l ih =>
    rw [List.mapM_cons]
    rcases h b List.mem_cons_self with hb | ⟨v, hb⟩
    · rw [hb]; rfl
    · rw [hb]
      rcases List.mem_cons.1 ha with rfl | ha
      · rw [he] at hb; cases hb
      · simp only [bind, Except.bind]
        rw [ih ha fun b hb => h b (List.mem_cons_of_mem _ hb)]

theorem atAt_ok {M : Gf2Mat} (h : Rect M) {i j : ℕ} (hi : i < M.length) (hj : j < cols M) : atAt M i j = .ok (entry M i j) := by
  have hr : M[i].length = cols M := h _ (List.getElem_mem hi)
  have hj' : j < M[i].length := by omega
  simp [atAt, entry, List.getElem?_eq_getElem hi, List.getElem?_eq_getElem hj', List.getD]

theorem atAt_cases (M : Gf2Mat) (i j : ℕ) : atAt M i j = .error .outOfRange ∨ ∃ v, atAt M i j = .ok v := by
  unfold atAt
  cases M[i]? with
  | none => exact .inl rfl
  | some r =>
    simp only
    cases r[j]? with
    | none => exact .inl rfl
    | some b => exact .inr ⟨b, rfl⟩

/-- The adjacency matrix of the Tanner graph. -/
def adjacency (M : Gf2Mat) (checks data : ℕ) : Gf2Mat :=
  (List.range (checks + data)).map fun i =>
    if i < data then List.replicate data false ++ (List.range checks).map fun j => entry M j i
    else ((List.range data).map fun j => entry M (i - data) j) ++ List.replicate checks false

theorem printMat_ok {M : Gf2Mat} (h : Rect M) (checks : ℕ) (hc : checks ≤ M.length) :
    printMat M checks (cols M) = .ok (adjacency M checks (cols M)) := by
  unfold printMat adjacency
  apply mapM_ok
  intro i hi
  rw [List.mem_range] at hi
  unfold printRow
  by_cases hd : i < cols M
  · rw [if_pos hd, if_pos hd, mapM_ok _ (fun j => entry M j i)]
    · rfl
    · intro j hj
      rw [List.mem_range] at hj
      exact atAt_ok h (by omega) hd
  · rw [if_neg hd, if_neg hd, mapM_ok _ (fun j => entry M (i - cols M) j)]
    · rfl
    · intro j hj
      rw [List.mem_range] at hj
      exact atAt_ok h (by omega) hj

theorem printMat_error {M : Gf2Mat} (checks data : ℕ) (hd : 0 < data) (hc : M.length < checks) :
    printMat M checks data = .error .outOfRange := by
  unfold printMat
  apply mapM_error _ _ 0 (List.mem_range.2 (by omega))
  · intro i _
    unfold printRow
    have : ∀ (l : List ℕ) (f : ℕ → Except CppErr Bool), (∀ b ∈ l, f b = .error .outOfRange ∨ ∃ v, f b = .ok v) →
        l.mapM f = .error .outOfRange ∨ ∃ v, l.mapM f = .ok v := by
      intro l f hf
      induction l with
      | nil => exact .inr ⟨[], rfl⟩
      | cons b l ih =>
        rw [List.mapM_cons]
        rcases hf b List.mem_cons_self with hb | ⟨v, hb⟩
        · rw [hb]; exact .inl rfl
        · rw [hb]
          rcases ih fun b hb => hf b (List.mem_cons_of_mem _ hb) with h | ⟨w, h⟩
          · rw [h]; exact .inl rfl
          · rw [h]; exact .inr ⟨v :: w, rfl⟩
    split_ifs
    · rcases this (List.range checks) (fun j => atAt M j i) fun b _ => atAt_cases _ _ _ with h | ⟨v, h⟩
      · rw [h]; exact .inl rfl
      · rw [h]; exact .inr ⟨_, rfl⟩
    · rcases this (List.range data) (fun j => atAt M (i - data) j) fun b _ => atAt_cases _ _ _ with h | ⟨v, h⟩
      · rw [h]; exact .inl rfl
      · rw [h]; exact .inr ⟨_, rfl⟩
  · unfold printRow
    rw [if_pos hd, mapM_error _ _ M.length (List.mem_range.2 hc) (fun b _ => atAt_cases _ _ _)]
    · rfl
    · simp [atAt]

theorem adjacency_rect (M : Gf2Mat) (checks data : ℕ) : ∀ r ∈ adjacency M checks data, r.length = checks + data := by
  intro r hr
  obtain ⟨i, -, rfl⟩ := List.mem_map.1 hr
  split_ifs <;> simp <;> omega

theorem rect_of {M : Gf2Mat} {n : ℕ} (h : ∀ r ∈ M, r.length = n) : Rect M := by
  cases M with
  | nil => intro r hr; cases hr
  | cons a M =>
    intro r hr
    rw [h r hr, show cols (a :: M) = a.length from rfl, h a List.mem_cons_self]

/-- **C125.** What printing a code does, for rectangular matrices with the same number of columns: without `hX` only the heading is printed; with
`hX`, the adjacency matrix of the Tanner graph of `hZ` and both headings, but nothing of `hX`; if `hX` has fewer rows than `hZ`, an exception. -/
theorem C125_printed (hX : Option Gf2Mat) (hZ : Gf2Mat) (hz : Rect hZ) :
    (hX = none → printCode hX hZ = .ok "hZ:\n".toList) ∧
    (∀ M, hX = some M → Rect M → cols M = cols hZ → hZ.length ≤ M.length → ∃ s, matString (adjacency hZ hZ.length (cols hZ)) = .ok s ∧
      printCode hX hZ = .ok ("hZ:\n".toList ++ (s ++ "hX:\n".toList))) ∧
    (∀ M, hX = some M → 0 < cols hZ → M.length < hZ.length → printCode hX hZ = .error .outOfRange) := by
  have hp := printMat_ok hz hZ.length le_rfl
  refine ⟨?_, ?_, ?_⟩
  · rintro rfl
    simp only [printCode, hp]
  · rintro M rfl hM hc hl
    obtain ⟨s, hs⟩ := (C125_matrix_text _ [] (rect_of (adjacency_rect hZ hZ.length (cols hZ))) (fun r hr => by cases hr)).1
    have hp' := printMat_ok hM hZ.length hl
    rw [hc] at hp'
    exact ⟨s, hs, by simp only [printCode, hp, hs, hp']⟩
  · rintro M rfl hc hl
    obtain ⟨s, hs⟩ := (C125_matrix_text _ [] (rect_of (adjacency_rect hZ hZ.length (cols hZ))) (fun r hr => by cases hr)).1
    simp only [printCode, hp, hs, printMat_error _ _ hc hl]

example : printCode (some [[true, true]]) [[true, false]] = .ok "hZ:\n3x3matrix [\n[0,0,1],\n[0,0,0],\n[1,0,0]\n]hX:\n".toList := by decide +kernel

theorem entries_ext {M M' : Gf2Mat} (h : Rect M) (h' : Rect M') (hl : M.length = M'.length) (hc : cols M = cols M')
    (he : ∀ i < M.length, ∀ j < cols M, entry M i j = entry M' i j) : M = M' := by
  apply List.ext_getElem hl
  intro i h1 h2
  have r1 : M[i].length = cols M := h _ (List.getElem_mem h1)
  have r2 : M'[i].length = cols M' := h' _ (List.getElem_mem h2)
  apply List.ext_getElem (by omega)
  intro j h3 h4
  have := he i h1 j (by omega)
  simpa [entry, List.getD, List.getElem?_eq_getElem, h1, h2, h3, h4] using this

/-- **C125, proved part.** For codes with both matrices (not fewer rows in `hX`), on the same number of qubits, the text determines `hZ`.  Missing
from the claim: `hX`, and codes without `hX`. -/
theorem C125_hz_partial (hX hX' hZ hZ' : Gf2Mat) (s : Text) (hx : Rect hX) (hx' : Rect hX') (hz : Rect hZ) (hz' : Rect hZ')
    (hc : cols hX = cols hZ) (hc' : cols hX' = cols hZ') (hl : hZ.length ≤ hX.length) (hl' : hZ'.length ≤ hX'.length)
    (hn : cols hZ = cols hZ') (h : printCode (some hX) hZ = .ok s) (h' : printCode (some hX') hZ' = .ok s) : hZ = hZ' := by
  obtain ⟨t, h1, h2⟩ := (C125_printed (some hX) hZ hz).2.1 hX rfl hx hc hl
  obtain ⟨t', h3, h4⟩ := (C125_printed (some hX') hZ' hz').2.1 hX' rfl hx' hc' hl'
  rw [h2] at h
  rw [h4] at h'
  have e := (Except.ok.inj h).trans (Except.ok.inj h').symm
  have e := List.append_cancel_right (List.append_cancel_left e)
  have ha := (C125_matrix_text _ _ (rect_of (adjacency_rect hZ hZ.length (cols hZ))) (rect_of (adjacency_rect hZ' hZ'.length (cols hZ')))).2
    (by rw [h1, h3, e])
  have hlen : hZ.length = hZ'.length := by
    have := congrArg List.length ha
    simp only [adjacency, List.length_map, List.length_range] at this
    omega
  apply entries_ext hz hz' hlen hn
  intro i hi j hj
  have h5 := congrArg (fun A : Gf2Mat => entry A (cols hZ + i) j) ha
  have key : ∀ M : Gf2Mat, i < M.length → j < cols M → entry (adjacency M M.length (cols M)) (cols M + i) j = entry M i j := by
    intro M hi hj
    have hlt : cols M + i < M.length + cols M := by omega
    simp only [adjacency]
    unfold entry
    simp only [List.getD, List.getElem?_map, List.getElem?_range hlt, Option.map_some, Option.getD_some]
    rw [if_neg (by omega), List.getElem?_append_left (by simpa using hj)]
    simp [List.getElem?_range hj]
  beta_reduce at h5
  rw [key hZ hi hj, hn, key hZ' (by omega) (by omega)] at h5
  exact h5

/-- **C125 is violated**: the text does not depend on `hX`, and not on `hZ` either if there is no `hX`. -/
theorem C125_violated : ¬ C125_claim ∧
    (∀ (hX hX' hZ : Gf2Mat), Rect hX → Rect hX' → Rect hZ → cols hX = cols hZ → cols hX' = cols hZ → hZ.length ≤ hX.length → hZ.length ≤ hX'.length →
      printCode (some hX) hZ = printCode (some hX') hZ) ∧
    ∀ hZ hZ' : Gf2Mat, Rect hZ → Rect hZ' → printCode none hZ = printCode none hZ' := by
  refine ⟨fun h => ?_, fun hX hX' hZ h1 h2 h3 h4 h5 h6 h7 => ?_, fun hZ hZ' h h' => ?_⟩
  · have := (h none none [[true]] [[false]] "hZ:\n".toList (by simp [Rect, cols]) (by simp [Rect, cols]) (by simp) (by simp) rfl
      ((C125_printed none _ (by simp [Rect, cols])).1 rfl) ((C125_printed none _ (by simp [Rect, cols])).1 rfl)).2
    revert this
    decide
  · obtain ⟨t, e1, e2⟩ := (C125_printed (some hX) hZ h3).2.1 hX rfl h1 h4 h6
    obtain ⟨t', e3, e4⟩ := (C125_printed (some hX') hZ h3).2.1 hX' rfl h2 h5 h7
    rw [e1] at e3
    rw [e2, e4, Except.ok.inj e3]
  · rw [(C125_printed none hZ h).1 rfl, (C125_printed none hZ' h').1 rfl]

example : ([[true, false]] : Gf2Mat) = [[true, false]] :=
  C125_hz_partial [[true, true]] [[false, false]] _ _ "hZ:\n3x3matrix [\n[0,0,1],\n[0,0,0],\n[1,0,0]\n]hX:\n".toList
    (by simp [Rect, cols]) (by simp [Rect, cols]) (by simp [Rect, cols]) (by simp [Rect, cols]) rfl rfl le_rfl le_rfl rfl
    (by decide +kernel) (by decide +kernel)

end Verif.CppObj
