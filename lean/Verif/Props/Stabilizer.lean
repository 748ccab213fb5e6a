import Verif.Lemmas.Stabilizer

/-!
# Properties C01–C07: stabilizer codes (`stabilizer_code.py`)
-/

namespace Verif.Stab
open Verif Verif.Spec

/-! ## C01  Pauli strings round-trip -/

/-- C01: every valid Pauli string survives conversion to binary and back, up to a leading '+'. -/
theorem C01_pauli_roundtrip (s : Str) (h : ValidStr s) :
    ∃ b, pauliToBinary (.str s) = .ok b ∧ binaryToPauliString b = .ok (dropPlus s) := by
  refine ⟨_, pauliToBinary_valid h, ?_⟩
  rw [binaryToPauliString_letters (body_letters h)]
  rcases validStr_cases h with ⟨b, rfl, hb⟩ | ⟨b, rfl, hb⟩ | ⟨c, b, rfl, hc, hb⟩
  · simp [body, dropPlus]
  · simp [body, dropPlus]
  · have hns := not_sign_of_letter hc
    push Not at hns
    have h1 : body (c :: b) = c :: b := by rw [body] <;> · intro s hs; simp_all
    have h2 : dropPlus (c :: b) = c :: b := by rw [dropPlus]; intro s hs; simp_all
    rw [h1, h2]; simp [hns.2]

example : ValidStr "-XZZXI".toList := isPauliString_iff.1 (by decide)
example : ValidStr "+YIX".toList := isPauliString_iff.1 (by decide)

/-- C01: the validity test used by the constructor is exactly validity. -/
theorem C01_is_pauli_string (s : Str) : isPauliString s = true ↔ ValidStr s := isPauliString_iff

/-- C01: conversion of valid strings to binary is injective up to a leading '+'. -/
theorem C01_binary_injective (s t : Str) (hs : ValidStr s) (ht : ValidStr t)
    (h : pauliToBinary (.str s) = pauliToBinary (.str t)) : dropPlus s = dropPlus t := by
  obtain ⟨b, h1, h2⟩ := C01_pauli_roundtrip s hs
  obtain ⟨b', h1', h2'⟩ := C01_pauli_roundtrip t ht
  rw [h1, h1'] at h
  cases h
  rw [h2] at h2'
  exact Except.ok.inj h2'

/-- C01: `stabs_as_pauli_strings` of a code built from strings gives back the strings. -/
theorem C01_stabs_as_pauli_strings (l : List Str) (d : Option ℤ) (lz lx : Option Paulis) (c : Code)
    (h : mkCode (.strs l) d lz lx = .ok c) : stabsAsPauliStrings c = .ok (l.map dropPlus) := by
  obtain ⟨hcg, -, hp, -⟩ := mkCode_ok_iff.1 h
  obtain ⟨-, -, hv⟩ := checkGenerators_ok hcg
  replace hv := hv l rfl
  obtain ⟨hf, -⟩ := paulisToBinary_ok hp
  rw [stabsAsPauliStrings]
  generalize c.generators = m at hf
  simp only [Paulis.toList] at hf
  clear h hcg hp
  induction l generalizing m with
  | nil => cases hf; rfl
  | cons s l ih =>
    cases hf with
    | cons h1 h2 =>
      rename_i b bs
      obtain ⟨b', hb1, hb2⟩ := C01_pauli_roundtrip s (hv s (by simp))
      rw [hb1] at h1; cases h1
      rw [List.mapM_cons, hb2, ih (fun t ht => hv t (by simp [ht])) bs h2]
      rfl

example : ∃ c, mkCode (.strs ["+XZZXI".toList, "-IXZZX".toList, "+XIXZZ".toList, "-ZXIXZ".toList])
    (some 3) none none = .ok c := ⟨_, rfl⟩

/-! ## C02  Syndromes and commutation -/

/-- C02: bit `i` of the syndrome is 1 exactly when generator `i` and the error act differently and
non-trivially on an odd number of qubits, i.e. anti-commute. -/
theorem C02_syndrome_spec (l : List Str) (d : Option ℤ) (lz lx : Option Paulis) (c : Code)
    (h : mkCode (.strs l) d lz lx = .ok c) (e : Str) (he : ValidStr e)
    (hn : (body e).length = c.n) :
    getSyndrome c (.str e)
      = .ok (l.map fun g => if clashes (body g) (body e) % 2 = 1 then 1 else 0) := by
  obtain ⟨-, hv, hlen, hg, -⟩ := mkCode_strs h
  simp only [getSyndrome, pauliToSymplecticVec, pauliToBinary_valid he, symplecticMatrixMul,
    symplecticMatrix, hg]
  change List.mapM _ _ = _
  have : ((l.map binRow).map List.dropLast) = l.map fun s => (binRow s).dropLast := by simp
  rw [this]
  rw [mapM_ok_of_forall (l := l.map fun s => (binRow s).dropLast)
    (g := fun r => (match symplecticInner r (binRow e).dropLast with | .ok x => x | .error _ => 0))]
  · congr 1
    rw [List.map_map]
    apply List.map_congr_left
    intro s hs
    have := symplecticInner_letters (body_letters (hv s hs)) (body_letters he)
      ((hlen s hs).trans hn.symm) (if s.head? = some '-' then 1 else 0)
      (if e.head? = some '-' then 1 else 0)
    simp only [Function.comp, binRow, this]
    exact natCast_zmod2 _
  · intro r hr
    obtain ⟨s, hs, rfl⟩ := List.mem_map.1 hr
    have := symplecticInner_letters (body_letters (hv s hs)) (body_letters he)
      ((hlen s hs).trans hn.symm) (if s.head? = some '-' then 1 else 0)
      (if e.head? = some '-' then 1 else 0)
    simp only [binRow] at this ⊢
    rw [this]

/-- C02: syndromes are additive under (phaseless) multiplication of Pauli errors. -/
theorem C02_syndrome_additive (l : List Str) (d : Option ℤ) (lz lx : Option Paulis) (c : Code)
    (h : mkCode (.strs l) d lz lx = .ok c) (e f : Str) (hne : e ≠ [])
    (he : ∀ a ∈ e, a ∈ letters) (hf : ∀ a ∈ f, a ∈ letters)
    (hn : e.length = c.n) (hn' : f.length = c.n) :
    ∃ s t, getSyndrome c (.str e) = .ok s ∧ getSyndrome c (.str f) = .ok t ∧
      getSyndrome c (.str (List.zipWith mulLetter e f)) = .ok (List.zipWith (· + ·) s t) := by
  have hve : ValidStr e := ⟨hne, [], e, rfl, Or.inl rfl, he⟩
  have hnf : f ≠ [] := by
    intro hf0; subst hf0; apply hne; apply List.length_eq_zero_iff.1; rw [hn, ← hn']; rfl
  have hvf : ValidStr f := ⟨hnf, [], f, rfl, Or.inl rfl, hf⟩
  have hp := zipWith_mulLetter_mem he hf
  have hpl : (List.zipWith mulLetter e f).length = c.n := by simp [hn, hn']
  have hvp : ValidStr (List.zipWith mulLetter e f) := by
    refine ⟨?_, [], _, rfl, Or.inl rfl, hp⟩
    intro h0
    rw [h0] at hpl
    apply hne; apply List.length_eq_zero_iff.1; rw [hn, ← hpl]; rfl
  refine ⟨_, _, C02_syndrome_spec l d lz lx c h e hve (by rw [body_of_letters he, hn]),
    C02_syndrome_spec l d lz lx c h f hvf (by rw [body_of_letters hf, hn']), ?_⟩
  rw [C02_syndrome_spec l d lz lx c h _ hvp (by rw [body_of_letters hp, hpl]), zipWith_map_map_self]
  congr 1
  apply List.map_congr_left
  intro g hg
  obtain ⟨-, hv, hlen, -, -⟩ := mkCode_strs h
  rw [body_of_letters hp, body_of_letters he, body_of_letters hf, ← natCast_zmod2, ← natCast_zmod2,
    ← natCast_zmod2]
  exact clashes_mul (body_letters (hv g hg)) he hf (by rw [hlen g hg, hn]) (by rw [hlen g hg, hn'])

/-- C02: `anti_commute` / `commute` on the symplectic vectors of two strings. -/
theorem C02_anti_commute (p q : Str) (hp : ValidStr p) (hq : ValidStr q)
    (hl : (body p).length = (body q).length) :
    ∃ v w, pauliToSymplecticVec (.str p) = .ok v ∧ pauliToSymplecticVec (.str q) = .ok w ∧
      antiCommute v w = .ok (decide (clashes (body p) (body q) % 2 = 1)) ∧
      commute v w = .ok (decide (clashes (body p) (body q) % 2 = 0)) := by
  refine ⟨_, _, by rw [pauliToSymplecticVec, pauliToBinary_valid hp]; rfl,
    by rw [pauliToSymplecticVec, pauliToBinary_valid hq]; rfl, ?_, ?_⟩
  · simp only [antiCommute, commute]
    rw [symplecticInner_letters (body_letters hp) (body_letters hq) hl]
    change Except.ok _ = _
    rw [natCast_zmod2]
    congr 1
    split <;> rename_i h <;> simp [h]
  · simp only [commute]
    rw [symplecticInner_letters (body_letters hp) (body_letters hq) hl]
    change Except.ok _ = _
    rw [natCast_zmod2]
    congr 1
    split <;> rename_i h
    · simp [h]
    · have : clashes (body p) (body q) % 2 = 0 := by omega
      simp [this]

/-- C02: an error on a different number of qubits is rejected (numpy ValueError). -/
theorem C02_wrong_length (l : List Str) (d : Option ℤ) (lz lx : Option Paulis) (c : Code)
    (h : mkCode (.strs l) d lz lx = .ok c) (e : Str) (he : ValidStr e)
    (hn : (body e).length ≠ c.n) : getSyndrome c (.str e) = .error .value := by
  obtain ⟨hne, hv, hlen, hg, -⟩ := mkCode_strs h
  cases l with
  | nil => exact absurd rfl hne
  | cons s l =>
    have hs := hlen s (by simp)
    simp only [getSyndrome, pauliToSymplecticVec, pauliToBinary_valid he, symplecticMatrixMul,
      symplecticMatrix, hg]
    change List.mapM _ _ = _
    rw [List.map_cons, List.map_cons, List.mapM_cons]
    have : symplecticInner (binRow s).dropLast
        (lettersToBinary (body e) (if e.head? = some '-' then 1 else 0)).dropLast = .error .value := by
      simp only [symplecticInner, ldot]
      have h1 : (binRow s).dropLast.length = 2 * c.n := by simp [binRow_length, hs]
      rw [if_neg]
      · rfl
      · simp only [List.length_take, List.length_drop, h1, List.length_dropLast,
          lettersToBinary_length]
        omega
    rw [this]; rfl

example : ∃ c, mkCode (.strs ["XZZXI".toList, "IXZZX".toList, "XIXZZ".toList, "ZXIXZ".toList])
    (some 3) none none = .ok c ∧ ValidStr "-IIYII".toList ∧ (body "-IIYII".toList).length = c.n ∧
    getSyndrome c (.str "-IIYII".toList) = .ok [1, 1, 1, 0] :=
  ⟨_, rfl, isPauliString_iff.1 (by decide), rfl, by decide⟩

end Verif.Stab
