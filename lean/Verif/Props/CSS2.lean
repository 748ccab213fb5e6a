import Verif.Props.CSS

/-!
# Property C12: the CSS and the stabilizer view of a code agree
-/

namespace Verif.CSS
open Verif Verif.Spec

theorem Built.stab_eq {c : Code} (h : Built c) :
    c.stab.n = c.n ∧ c.stab.generators = generatorRows c.hx c.hz := by
  obtain ⟨lib, hlib, d, hx, hz, xd, zd, h⟩ := h
  obtain ⟨-, -, -, -, -, -, h7⟩ := mkCSS_ok h
  rw [build_ok] at h7
  obtain ⟨-, -, -, -, h12⟩ := h7
  rw [h12]; exact ⟨rfl, rfl⟩

theorem zipWith_replicate_right {α β γ : Type*} (f : α → β → γ) (b : β) (l : List α) :
    List.zipWith f l (List.replicate l.length b) = l.map fun a => f a b := by
  induction l with
  | nil => rfl
  | cons a l ih => simp [List.replicate_succ, ih]

theorem zipWith_replicate_left {α β γ : Type*} (f : α → β → γ) (a : α) (l : List β) :
    List.zipWith f (List.replicate l.length a) l = l.map fun b => f a b := by
  induction l with
  | nil => rfl
  | cons b l ih => simp [List.replicate_succ, ih]

theorem string_padX {n : ℕ} (r : Vec n) :
    Stab.binaryToPauliString (List.ofFn r ++ List.replicate n 0 ++ [0])
      = .ok ((List.ofFn r).map fun b => if b = 1 then 'X' else 'I') := by
  have hl : (List.ofFn r ++ List.replicate n 0 ++ [0]).length / 2 = n := by simp; omega
  have hlast : (List.ofFn r ++ List.replicate n 0 ++ [(0 : ZMod 2)]).getLast? = some 0 := by simp
  simp only [Stab.binaryToPauliString, hlast, hl]
  rw [List.append_assoc, List.take_left' (by simp), List.drop_left' (by simp), List.dropLast_concat]
  have : List.replicate n (0 : ZMod 2) = List.replicate (List.ofFn r).length 0 := by simp
  rw [this, zipWith_replicate_right]
  simp only [if_true, List.nil_append]
  congr 1
  apply List.map_congr_left
  intro b _
  rcases zmod2_cases b with rfl | rfl <;> decide

theorem string_padZ {n : ℕ} (r : Vec n) :
    Stab.binaryToPauliString (List.replicate n 0 ++ List.ofFn r ++ [0])
      = .ok ((List.ofFn r).map fun b => if b = 1 then 'Z' else 'I') := by
  have hl : (List.replicate n 0 ++ List.ofFn r ++ [0]).length / 2 = n := by simp; omega
  have hlast : (List.replicate n 0 ++ List.ofFn r ++ [(0 : ZMod 2)]).getLast? = some 0 := by simp
  simp only [Stab.binaryToPauliString, hlast, hl]
  rw [List.append_assoc, List.take_left' (by simp), List.drop_left' (by simp), List.dropLast_concat]
  have : List.replicate n (0 : ZMod 2) = List.replicate (List.ofFn r).length 0 := by simp
  rw [this, zipWith_replicate_left]
  simp only [if_true, List.nil_append]
  congr 1
  apply List.map_congr_left
  intro b _
  rcases zmod2_cases b with rfl | rfl <;> decide

/-- C12: the stabilizer strings of a CSS code are its X-check strings followed by its Z-check
strings. -/
theorem C12_strings (c : Code) (h : Built c) :
    Stab.stabsAsPauliStrings c.stab = .ok (c.xChecksAsPauliStrings ++ c.zChecksAsPauliStrings) := by
  rw [Stab.stabsAsPauliStrings, h.stab_eq.2, generatorRows]
  have hx : ∀ l : List (Vec c.n), (l.map fun r => List.ofFn r ++ List.replicate c.n 0 ++ [0]).mapM
      Stab.binaryToPauliString = .ok (l.map fun r => (List.ofFn r).map fun b => if b = 1 then 'X' else 'I') := by
    intro l
    induction l with
    | nil => rfl
    | cons r l ih => rw [List.map_cons, List.mapM_cons, ih, string_padX]; rfl
  have hz : ∀ l : List (Vec c.n), (l.map fun r => List.replicate c.n 0 ++ List.ofFn r ++ [0]).mapM
      Stab.binaryToPauliString = .ok (l.map fun r => (List.ofFn r).map fun b => if b = 1 then 'Z' else 'I') := by
    intro l
    induction l with
    | nil => rfl
    | cons r l ih => rw [List.map_cons, List.mapM_cons, ih, string_padZ]; rfl
  rw [List.mapM_append, hx, hz]
  rfl

/-- C12: the number of clashes of an X string and a Z string is the overlap of the rows. -/
theorem clashes_xz {n : ℕ} (r s : Vec n) :
    ((clashes ((List.ofFn r).map fun b => if b = 1 then 'X' else 'I')
      ((List.ofFn s).map fun b => if b = 1 then 'Z' else 'I') : ℕ) : ZMod 2) = dot r s := by
  have hx : ∀ c ∈ (List.ofFn r).map (fun b => if b = 1 then 'X' else 'I'), c ∈ letters := by
    intro c hc
    obtain ⟨b, -, rfl⟩ := List.mem_map.1 hc
    split <;> decide
  have hz : ∀ c ∈ (List.ofFn s).map (fun b => if b = 1 then 'Z' else 'I'), c ∈ letters := by
    intro c hc
    obtain ⟨b, -, rfl⟩ := List.mem_map.1 hc
    split <;> decide
  rw [← Stab.clash_sum hx hz, Stab.sum_zipWith_eq (n := n) (by simp) (by simp),
    Stab.sum_zipWith_eq (n := n) (by simp) (by simp), ← Finset.sum_add_distrib, dot]
  apply Finset.sum_congr rfl
  intro i _
  simp only [List.getElem_map, List.getElem_ofFn]
  rcases zmod2_cases (r i) with h1 | h1 <;> rcases zmod2_cases (s i) with h2 | h2 <;>
    simp only [Fin.eta, h1, h2] <;> decide

theorem clashes_same (L : Char) {n : ℕ} (r s : Vec n) :
    clashes ((List.ofFn r).map fun b => if b = 1 then L else 'I')
      ((List.ofFn s).map fun b => if b = 1 then L else 'I') = 0 := by
  generalize List.ofFn r = a
  generalize List.ofFn s = b
  induction a generalizing b with
  | nil => rfl
  | cons x a ih =>
    cases b with
    | nil => rfl
    | cons y b =>
      simp only [List.map_cons, clashes, ih b, add_zero]
      rw [if_neg]
      rintro ⟨h1, h2, h3⟩
      by_cases hx : x = 1 <;> by_cases hy : y = 1 <;> simp_all

/-- C12: the stabilizer strings of a CSS code commute pairwise. -/
theorem C12_strings_commute (c : Code) (h : Built c) :
    ∀ s ∈ c.xChecksAsPauliStrings ++ c.zChecksAsPauliStrings,
    ∀ t ∈ c.xChecksAsPauliStrings ++ c.zChecksAsPauliStrings, clashes s t % 2 = 0 := by
  obtain ⟨horth, -⟩ := h.facts
  have hxz : ∀ r ∈ c.hx, ∀ s ∈ c.hz, clashes ((List.ofFn r).map fun b => if b = 1 then 'X' else 'I')
      ((List.ofFn s).map fun b => if b = 1 then 'Z' else 'I') % 2 = 0 := by
    intro r hr s hs
    have := clashes_xz r s
    rw [horth r hr s hs, Stab.natCast_zmod2] at this
    split at this
    · exact absurd this (by decide)
    · omega
  intro s hs t ht
  simp only [Code.xChecksAsPauliStrings, Code.zChecksAsPauliStrings, List.mem_append, List.mem_map] at hs ht
  rcases hs with ⟨r, hr, rfl⟩ | ⟨r, hr, rfl⟩ <;> rcases ht with ⟨q, hq, rfl⟩ | ⟨q, hq, rfl⟩
  · rw [clashes_same]
  · exact hxz r hr q hq
  · rw [Stab.clashes_comm]; exact hxz q hq r hr
  · rw [clashes_same]

/-- C12: the strings of the logical operators consist of the right letters, one for each logical qubit, and commute with all check strings; an
X logical string and a Z logical string clash as often as their rows overlap. -/
theorem C12_logical_strings (c : Code) (h : Built c) :
    ((c.xLogicalsAsPauliStrings.length : ℤ) = c.stab.k ∧ (c.zLogicalsAsPauliStrings.length : ℤ) = c.stab.k) ∧
    (∀ s ∈ c.xLogicalsAsPauliStrings, ∀ a ∈ s, a = 'I' ∨ a = 'X') ∧ (∀ s ∈ c.zLogicalsAsPauliStrings, ∀ a ∈ s, a = 'I' ∨ a = 'Z') ∧
    (∀ s ∈ c.xLogicalsAsPauliStrings ++ c.zLogicalsAsPauliStrings, ∀ t ∈ c.xChecksAsPauliStrings ++ c.zChecksAsPauliStrings,
      clashes s t % 2 = 0) ∧
    (∀ l ∈ c.lx, ∃ s ∈ c.xLogicalsAsPauliStrings, ∀ m ∈ c.lz, ∃ t ∈ c.zLogicalsAsPauliStrings, ((clashes s t : ℕ) : ZMod 2) = dot l m) := by
  obtain ⟨x1, -, x3, -⟩ := C09_logical_x c h
  obtain ⟨z1, -, z3, -⟩ := C09_logical_z c h
  have letter : ∀ (a' : Char) (r : Vec c.n), ∀ a ∈ (List.ofFn r).map (fun b => if b = 1 then a' else 'I'), a = 'I' ∨ a = a' := by
    intro a' r a ha
    obtain ⟨b, -, rfl⟩ := List.mem_map.1 ha
    split
    · exact .inr rfl
    · exact .inl rfl
  have even : ∀ r s : Vec c.n, dot r s = 0 → clashes ((List.ofFn r).map fun b => if b = 1 then 'X' else 'I')
      ((List.ofFn s).map fun b => if b = 1 then 'Z' else 'I') % 2 = 0 := by
    intro r s hd
    have := clashes_xz r s
    rw [hd, Stab.natCast_zmod2] at this
    split at this
    · exact absurd this (by decide)
    · omega
  refine ⟨⟨?_, ?_⟩, ?_, ?_, ?_, ?_⟩
  · rw [← x3]; simp [Code.xLogicalsAsPauliStrings]
  · rw [← z3]; simp [Code.zLogicalsAsPauliStrings]
  · intro s hs
    obtain ⟨r, -, rfl⟩ := List.mem_map.1 hs
    exact letter _ r
  · intro s hs
    obtain ⟨r, -, rfl⟩ := List.mem_map.1 hs
    exact letter _ r
  · intro s hs t ht
    simp only [Code.xChecksAsPauliStrings, Code.zChecksAsPauliStrings, Code.xLogicalsAsPauliStrings, Code.zLogicalsAsPauliStrings,
      List.mem_append, List.mem_map] at hs ht
    rcases hs with ⟨r, hr, rfl⟩ | ⟨r, hr, rfl⟩ <;> rcases ht with ⟨q, hq, rfl⟩ | ⟨q, hq, rfl⟩
    · rw [clashes_same]
    · exact even r q (by rw [dot_comm]; exact x1 r hr q hq)
    · rw [Stab.clashes_comm]; exact even q r (z1 r hr q hq)
    · rw [clashes_same]
  · intro l hl
    refine ⟨_, List.mem_map_of_mem hl, fun m hm => ⟨_, List.mem_map_of_mem hm, clashes_xz l m⟩⟩

theorem ldot_ofFn {n : ℕ} (a b : Vec n) : Stab.ldot (List.ofFn a) (List.ofFn b) = .ok (dot a b) := by
  rw [Stab.ldot, if_pos (by simp), dot]
  congr 1
  have : List.zipWith (· * ·) (List.ofFn a) (List.ofFn b) = List.ofFn fun i => a i * b i := by
    apply List.ext_getElem
    · simp
    · intro i h1 h2; simp
  rw [this, List.sum_ofFn]

theorem replicate_eq_ofFn (n : ℕ) : List.replicate n (0 : ZMod 2) = List.ofFn (0 : Vec n) := by
  apply List.ext_getElem
  · simp
  · intro i h1 h2; simp

theorem inner_pads {n : ℕ} (x z ex ez : Vec n) (p q : ZMod 2) :
    Stab.symplecticInner (List.ofFn x ++ List.ofFn z ++ [p]).dropLast
      (List.ofFn ex ++ List.ofFn ez ++ [q]).dropLast = .ok (dot x ez + dot z ex) := by
  rw [List.dropLast_concat, List.dropLast_concat, Stab.symplecticInner]
  have hl : (List.ofFn x ++ List.ofFn z).length / 2 = n := by simp; omega
  simp only [hl]
  rw [List.take_left' (by simp), List.drop_left' (by simp), List.take_left' (by simp),
    List.drop_left' (by simp), ldot_ofFn, ldot_ofFn]
  rfl

/-- C12: the stabilizer-code syndrome of an error with X part `ex` and Z part `ez` is the CSS
X-syndrome of `ez` followed by the CSS Z-syndrome of `ex`. -/
theorem C12_syndrome (c : Code) (h : Built c) (ex ez : Vec c.n) (phase : ZMod 2) :
    Stab.getSyndrome c.stab (.arr (List.ofFn ex ++ List.ofFn ez ++ [phase]))
      = .ok (c.getXSyndrome ez ++ c.getZSyndrome ex) := by
  simp only [Stab.getSyndrome, Stab.pauliToSymplecticVec, Stab.pauliToBinary, Stab.symplecticMatrixMul,
    Stab.symplecticMatrix, h.stab_eq.2, generatorRows, List.map_append]
  change List.mapM _ _ = _
  rw [List.mapM_append]
  have hx : ∀ l : List (Vec c.n), ((l.map fun r => List.ofFn r ++ List.replicate c.n 0 ++ [0]).map
      List.dropLast).mapM (fun r => Stab.symplecticInner r
        (List.ofFn ex ++ List.ofFn ez ++ [phase]).dropLast) = .ok (mulVec l ez) := by
    intro l
    induction l with
    | nil => rfl
    | cons r l ih =>
      rw [List.map_cons, List.map_cons, List.mapM_cons, ih, replicate_eq_ofFn, inner_pads, dot_zero_left,
        add_zero]
      rfl
  have hz : ∀ l : List (Vec c.n), ((l.map fun r => List.replicate c.n 0 ++ List.ofFn r ++ [0]).map
      List.dropLast).mapM (fun r => Stab.symplecticInner r
        (List.ofFn ex ++ List.ofFn ez ++ [phase]).dropLast) = .ok (mulVec l ex) := by
    intro l
    induction l with
    | nil => rfl
    | cons r l ih =>
      rw [List.map_cons, List.map_cons, List.mapM_cons, ih, replicate_eq_ofFn, inner_pads, dot_zero_left,
        zero_add]
      rfl
  rw [hx, hz]
  rfl

example : ∃ c, Built c ∧ c.n = 7 := by
  obtain ⟨c, h1, h2, -⟩ := built_steane; exact ⟨c, h1, h2⟩

end Verif.CSS
