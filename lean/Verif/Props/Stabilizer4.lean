import Verif.Props.Stabilizer3

/-!
# Properties C07, C58, C59: logical operators and the signed stabilizer group
-/

namespace Verif.Stab
open Verif Verif.Spec

/-- Two Pauli strings commute: they clash on an even number of qubits. -/
def Commutes (s t : Str) : Prop := clashes (body s) (body t) % 2 = 0

instance (s t : Str) : Decidable (Commutes s t) := by unfold Commutes; infer_instance

/-- Product of letter rows with a matrix of string rows. -/
theorem matrixMul_strs {s : Str} {l : List Str} {n : ℕ} (hs : ValidStr s) (hl : ∀ t ∈ l, ValidStr t)
    (hsn : (body s).length = n) (hln : ∀ t ∈ l, (body t).length = n) :
    symplecticMatrixMul (symplecticMatrix (l.map binRow)) (binRow s).dropLast
      = .ok (l.map fun t => ((clashes (body t) (body s) : ℕ) : ZMod 2)) := by
  rw [symplecticMatrixMul, symplecticMatrix, List.map_map]
  induction l with
  | nil => rfl
  | cons t l ih =>
    rw [List.map_cons, List.mapM_cons, ih (fun t ht => hl t (by simp [ht])) (fun t ht => hln t (by simp [ht]))]
    have := symplecticInner_letters (body_letters (hl t (by simp))) (body_letters hs)
      ((hln t (by simp)).trans hsn.symm) (if t.head? = some '-' then 1 else 0)
      (if s.head? = some '-' then 1 else 0)
    simp only [Function.comp, binRow] at this ⊢
    rw [this]; rfl

theorem matrixProduct_strs {l l' : List Str} {n : ℕ} (hl : ∀ t ∈ l, ValidStr t)
    (hl' : ∀ t ∈ l', ValidStr t) (hn : ∀ t ∈ l, (body t).length = n)
    (hn' : ∀ t ∈ l', (body t).length = n) :
    symplecticMatrixProduct (symplecticMatrix (l.map binRow)) (symplecticMatrix (l'.map binRow))
      = .ok (l.map fun s => l'.map fun t => ((clashes (body t) (body s) : ℕ) : ZMod 2)) := by
  rw [symplecticMatrixProduct]
  have : symplecticMatrix (l.map binRow) = l.map fun s => (binRow s).dropLast := by
    simp [symplecticMatrix]
  rw [this]
  induction l with
  | nil => rfl
  | cons s l ih =>
    rw [List.map_cons, List.mapM_cons, ih (fun t ht => hl t (by simp [ht])) (fun t ht => hn t (by simp [ht]))
      (by simp [symplecticMatrix]),
      matrixMul_strs (hl s (by simp)) hl' (hn s (by simp)) hn']
    rfl

theorem clashes_comm (a b : Str) : clashes a b = clashes b a := by
  induction a generalizing b with
  | nil => cases b <;> rfl
  | cons x a ih =>
    cases b with
    | nil => rfl
    | cons y b =>
      simp only [clashes, ih b]
      congr 1
      by_cases h : x ≠ 'I' ∧ y ≠ 'I' ∧ x ≠ y
      · rw [if_pos h, if_pos ⟨h.2.1, h.1, h.2.2.symm⟩]
      · rw [if_neg h, if_neg fun h' => h ⟨h'.2.1, h'.1, h'.2.2.symm⟩]

theorem allCommute_strs {l l' : List Str} {n : ℕ} (hl : ∀ t ∈ l, ValidStr t)
    (hl' : ∀ t ∈ l', ValidStr t) (hn : ∀ t ∈ l, (body t).length = n)
    (hn' : ∀ t ∈ l', (body t).length = n) :
    ∃ r, allCommute (symplecticMatrix (l.map binRow)) (symplecticMatrix (l'.map binRow)) = .ok r ∧
      (r = true ↔ ∀ s ∈ l, ∀ t ∈ l', Commutes s t) := by
  refine ⟨_, by rw [allCommute, matrixProduct_strs hl hl' hn hn']; rfl, ?_⟩
  simp only [List.all_map, List.all_eq_true, Function.comp, decide_eq_true_eq]
  refine forall₂_congr fun s _ => forall₂_congr fun t _ => ?_
  rw [natCast_zmod2, Commutes, clashes_comm (body s)]
  split <;> rename_i h
  · simp [h]
  · simp; omega

/-- C07: given generators accepted by the constructor (code `c₀` without logicals), the logical
operators `lz`, `lx` (valid strings) are accepted exactly when both lists are non-empty, act on
`n` qubits, have at most `k` elements, commute with all generators, and every Z-logical
anti-commutes with exactly one X-logical. -/
theorem C07_logicals_accepted_iff (l : List Str) (d : Option ℤ) (c₀ : Code)
    (h₀ : mkCode (.strs l) d none none = .ok c₀) (lz lx : List Str)
    (hz : ∀ s ∈ lz, ValidStr s) (hx : ∀ s ∈ lx, ValidStr s) :
    (∃ c, mkCode (.strs l) d (some (.strs lz)) (some (.strs lx)) = .ok c) ↔
      lz ≠ [] ∧ lx ≠ [] ∧ (∀ s ∈ lz, (body s).length = c₀.n) ∧ (∀ s ∈ lx, (body s).length = c₀.n) ∧
      (lz.length : ℤ) ≤ c₀.k ∧ (lx.length : ℤ) ≤ c₀.k ∧
      (∀ s ∈ lz, ∀ g ∈ l, Commutes s g) ∧ (∀ s ∈ lx, ∀ g ∈ l, Commutes s g) ∧
      (∀ s ∈ lz, lx.countP (fun t => decide (¬ Commutes s t)) = 1) := by
  obtain ⟨hne, hv, hn, hg, -⟩ := mkCode_strs h₀
  obtain ⟨b1, b2, b3, b4, b5, b6, -⟩ := mkCode_ok_iff.1 h₀
  have larg : ∀ (ls : List Str), (∀ s ∈ ls, ValidStr s) → ∀ m, logicalArg (some (.strs ls)) = .ok m ↔
      ls ≠ [] ∧ (∀ s ∈ ls, ∀ t ∈ ls, (body s).length = (body t).length) ∧ m = some (ls.map binRow) := by
    intro ls hls m
    simp only [logicalArg, bind_eq_ok, Paulis.toList]
    constructor
    · rintro ⟨a, ha, hm⟩
      obtain ⟨rfl, hw⟩ := paulisToBinary_strs hls ha
      split at hm
      · simp at hm
      · rename_i he
        cases hm
        refine ⟨by simpa using he, ?_, rfl⟩
        intro s hs t ht; have := hw s hs; have := hw t ht; omega
    · rintro ⟨hne', hl', rfl⟩
      refine ⟨ls.map binRow, ?_, ?_⟩
      · cases ls with
        | nil => exact absurd rfl hne'
        | cons s ls =>
          have h1 : ((s :: ls).map Pauli.str).mapM pauliToBinary = .ok ((s :: ls).map binRow) := by
            have := mapM_ok_of_forall (l := (s :: ls).map Pauli.str) (f := pauliToBinary)
              (g := fun p => match p with | .str s => binRow s | .arr r => r) (by
                intro a ha
                obtain ⟨s, hs, rfl⟩ := List.mem_map.1 ha
                exact pauliToBinary_valid (hls s hs))
            rw [this]; simp
          rw [paulisToBinary, h1]
          change npArray _ = _
          rw [npArray, if_pos]
          rw [List.all_eq_true]
          intro r hr
          obtain ⟨t, ht, rfl⟩ := List.mem_map.1 hr
          simp only [List.map_cons, width, binRow_length, hl' t ht s (by simp), beq_self_eq_true]
      · have : (ls.map binRow).isEmpty = false := by
          cases ls with
          | nil => exact absurd rfl hne'
          | cons s ls => rfl
        rw [this]; rfl
  have wid : ∀ ls : List Str, ls ≠ [] → (∀ s ∈ ls, ∀ t ∈ ls, (body s).length = (body t).length) →
      (width (ls.map binRow) / 2 = c₀.n ↔ ∀ s ∈ ls, (body s).length = c₀.n) := by
    intro ls hne' hl'
    cases ls with
    | nil => exact absurd rfl hne'
    | cons s ls =>
      simp only [List.map_cons, width, binRow_length]
      constructor
      · intro h t ht; rw [hl' t ht s (by simp)]; omega
      · intro h; rw [h s (by simp)]; omega
  constructor
  · rintro ⟨c, hc⟩
    obtain ⟨d1, d2, d3, d4, d5, d6, d7, d8, d9⟩ := mkCode_ok_iff.1 hc
    obtain ⟨zne, zl, hcz⟩ := (larg lz hz _).1 d7
    obtain ⟨xne, xl, hcx⟩ := (larg lx hx _).1 d8
    have hcn : c.n = c₀.n := by rw [b2] at d2; exact (Except.ok.inj d2).symm
    have hcg : c.generators = c₀.generators := by rw [b3] at d3; exact (Except.ok.inj d3).symm
    have hck : c.k = c₀.k := by rw [d4, b4, hcn, hcg]
    simp only [checkCodeCorrect, hcz, hcx, bind_eq_ok, hcn, hck, hcg, hg, require_ok] at d9
    obtain ⟨-, e1', -, e2', -, e3', -, e4', r1, e5, -, e6, r2, e7, -, e8, m, e9, e10⟩ := d9
    rw [List.length_map] at e2' e4'
    have zn := (wid lz zne zl).1 e1'
    have xn := (wid lx xne xl).1 e3'
    obtain ⟨q1, f1, g1⟩ := allCommute_strs hz hv zn hn
    obtain ⟨q2, f2, g2⟩ := allCommute_strs hx hv xn hn
    rw [f1] at e5; cases e5
    rw [f2] at e7; cases e7
    rw [matrixProduct_strs hz hx zn xn] at e9; cases e9
    refine ⟨zne, xne, zn, xn, e2', e4', g1.1 e6, g2.1 e8, ?_⟩
    intro s hs
    rw [List.all_map, List.all_eq_true] at e10
    have := e10 s hs
    simp only [Function.comp, List.countP_map, decide_eq_true_eq] at this
    rw [← this]
    congr 1
    funext t
    simp only [Function.comp, Commutes, clashes_comm (body t), natCast_zmod2]
    by_cases hc : clashes (body s) (body t) % 2 = 1
    · simp [hc]
    · simp [hc]
  · rintro ⟨zne, xne, zn, xn, hkz, hkx, cz, cx, hone⟩
    refine ⟨{ c₀ with lz := some (lz.map binRow), lx := some (lx.map binRow) }, ?_⟩
    rw [mkCode_ok_iff]
    have zl : ∀ s ∈ lz, ∀ t ∈ lz, (body s).length = (body t).length :=
      fun s hs t ht => (zn s hs).trans (zn t ht).symm
    have xl : ∀ s ∈ lx, ∀ t ∈ lx, (body s).length = (body t).length :=
      fun s hs t ht => (xn s hs).trans (xn t ht).symm
    refine ⟨b1, b2, b3, b4, b5, b6, (larg lz hz _).2 ⟨zne, zl, rfl⟩, (larg lx hx _).2 ⟨xne, xl, rfl⟩, ?_⟩
    obtain ⟨q1, f1, g1⟩ := allCommute_strs hz hv zn hn
    obtain ⟨q2, f2, g2⟩ := allCommute_strs hx hv xn hn
    have e6' : q1 = true := g1.2 cz
    have e8' : q2 = true := g2.2 cx
    subst e6' e8'
    simp only [checkCodeCorrect, bind_eq_ok, hg, require_ok]
    refine ⟨(), (wid lz zne zl).2 zn, (), by simpa using hkz, (), (wid lx xne xl).2 xn, (),
      by simpa using hkx, true, f1, (), rfl, true, f2, (), rfl, _,
      matrixProduct_strs hz hx zn xn, ?_⟩
    rw [List.all_map, List.all_eq_true]
    intro s hs
    simp only [Function.comp, List.countP_map, decide_eq_true_eq]
    rw [← hone s hs]
    congr 1
    funext t
    simp only [Function.comp, Commutes, clashes_comm (body t), natCast_zmod2]
    by_cases hc : clashes (body s) (body t) % 2 = 1
    · simp [hc]
    · simp [hc]

/-- C07: giving only one kind of logical operators is rejected. -/
theorem C07_one_kind_rejected (g : Paulis) (d : Option ℤ) (p : Paulis) (c : Code) :
    mkCode g d (some p) none ≠ .ok c ∧ mkCode g d none (some p) ≠ .ok c := by
  constructor
  · intro h
    obtain ⟨-, -, -, -, -, -, h1, h2, h3⟩ := mkCode_ok_iff.1 h
    have hx : c.lx = none := (Except.ok.inj h2).symm
    simp only [logicalArg, bind_eq_ok] at h1
    obtain ⟨m, -, hm⟩ := h1
    split at hm
    · simp at hm
    · have hz : c.lz = some m := (Except.ok.inj hm).symm
      simp [checkCodeCorrect, hx, hz] at h3
  · intro h
    obtain ⟨-, -, -, -, -, -, h1, h2, h3⟩ := mkCode_ok_iff.1 h
    have hx : c.lz = none := (Except.ok.inj h1).symm
    simp only [logicalArg, bind_eq_ok] at h2
    obtain ⟨m, -, hm⟩ := h2
    split at hm
    · simp at hm
    · have hz : c.lx = some m := (Except.ok.inj hm).symm
      simp [checkCodeCorrect, hx, hz] at h3

example : ∃ c, mkCode (.strs ["XZZXI".toList, "IXZZX".toList, "XIXZZ".toList, "ZXIXZ".toList])
    (some 3) (some (.strs ["ZZZZZ".toList])) (some (.strs ["XXXXX".toList])) = .ok c := by
  have h₀ : ∃ c₀, mkCode (.strs ["XZZXI".toList, "IXZZX".toList, "XIXZZ".toList, "ZXIXZ".toList])
    (some 3) none none = .ok c₀ ∧ c₀.n = 5 ∧ c₀.k = 1 := ⟨_, rfl, rfl, by decide⟩
  obtain ⟨c₀, h₀, hn, hk⟩ := h₀
  rw [C07_logicals_accepted_iff _ _ c₀ h₀]
  · rw [hn, hk]; decide
  · intro s hs; rw [List.mem_singleton.1 hs]; exact isPauliString_iff.1 (by decide)
  · intro s hs; rw [List.mem_singleton.1 hs]; exact isPauliString_iff.1 (by decide)

/-! ## C59  Are accepted logical operators independent? -/

/-- C59, full claim: accepted Z-logicals are linearly independent modulo signs
(no two rows are the same operator). -/
def AcceptedLogicalsDistinct : Prop :=
  ∀ (l lz lx : List Str) d c, mkCode (.strs l) d (some (.strs lz)) (some (.strs lx)) = .ok c →
    lz.Nodup

/-- C59 is violated: the same Z-logical twice is accepted. -/
theorem C59_violated : ¬ AcceptedLogicalsDistinct := by
  intro h
  have := h ["IIZ".toList] ["ZII".toList, "ZII".toList] ["XII".toList, "IXI".toList] none _ rfl
  revert this; decide

/-- C59 (partial: missing is independence of the Z-logicals; it does not hold, see above):
distinctness of Z-logicals holds if every X-logical also anti-commutes with exactly one Z-logical. -/
theorem C59_distinct_partial (l lz lx : List Str) (d : Option ℤ) (c₀ c : Code)
    (h₀ : mkCode (.strs l) d none none = .ok c₀)
    (hz : ∀ s ∈ lz, ValidStr s) (hx : ∀ s ∈ lx, ValidStr s)
    (h : mkCode (.strs l) d (some (.strs lz)) (some (.strs lx)) = .ok c)
    (hcol : ∀ t ∈ lx, lz.countP (fun s => decide (¬ Commutes s t)) = 1) : lz.Nodup := by
  have hh := (C07_logicals_accepted_iff l d c₀ h₀ lz lx hz hx).1 ⟨c, h⟩
  obtain ⟨-, -, -, -, -, -, -, -, hone⟩ := hh
  rw [List.nodup_iff_count_le_one]
  intro s
  by_contra hcount
  have hs : s ∈ lz := List.count_pos_iff.1 (by omega)
  have h1 : 0 < lx.countP (fun t => decide (¬ Commutes s t)) := by rw [hone s hs]; omega
  obtain ⟨t, ht, hst⟩ := List.countP_pos_iff.1 h1
  have h2 := hcol t ht
  have h3 : lz.count s ≤ lz.countP (fun s => decide (¬ Commutes s t)) := by
    rw [List.count_eq_countP]
    apply List.countP_mono_left
    intro a _ ha
    have : a = s := by simpa using ha
    subst this; simpa using hst
  omega

end Verif.Stab
