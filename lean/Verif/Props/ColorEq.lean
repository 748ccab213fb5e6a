import Verif.Model.ColorEq
import Verif.Props.ColorLattice2
import Verif.Props.Stabilizer2
import Verif.Props.CSS

/-! # C128: comparison and hashing of color codes -/

namespace Verif.ColorEq
open Verif Verif.Lattice

/-! ## Specification -/

/-- The full claim: among objects made by the constructors, `==` is an equivalence that respects the hash, for one iteration order of sets. -/
def Made (lib : CSS.Mod2) (order : List Pt → List Pt) (a : Obj) : Prop :=
  (∃ d : ℕ, hexObj lib order d = .ok a) ∨ (∃ d : ℕ, soObj lib order d = .ok a) ∨ ∃ (d : ℤ) (m : CSS.NpMat), cssObj lib d m = .ok a

def C128_claim : Prop := ∀ (lib : CSS.Mod2) (order : List Pt → List Pt), (∀ l, IsOrder (order l) l) →
  ∀ a b, Made lib order a → Made lib order b → pyEq a b = .ok true → pyEq b a = .ok true ∧ hashKey a = hashKey b

/-! ## Proofs -/

theorem arrayEqual_iff (a b : CSS.NpMat) : arrayEqual a b = true ↔ a = b := by
  obtain ⟨n, r⟩ := a
  obtain ⟨m, s⟩ := b
  unfold arrayEqual
  by_cases h : n = m
  · subst h; simp
  · simp [h]

theorem pyEq_color (a b : Obj) (ha : a.cls.isColor = true) (hb : b.cls.isColor = true) : pyEq a b = .ok (arrayEqual a.H b.H) := by
  have : b.cls.sub a.cls = false := by
    cases h1 : a.cls <;> cases h2 : b.cls <;> simp_all [Cls.isColor, Cls.sub]
  simp [pyEq, this, eqMethod, ha, hb]

theorem pyEq_color_plain (a b : Obj) (ha : a.cls.isColor = true) (hb : b.cls.isColor = false) :
    pyEq a b = Stab.codeEq b.code a.code ∧ pyEq b a = Stab.codeEq b.code a.code := by
  constructor
  · simp [pyEq, eqMethod, ha, hb]
  · unfold pyEq eqMethod
    split_ifs <;> simp_all

/-- C128: two color codes are equal exactly if their check matrices have the same shape and entries, comparison never raises, and equal ones
have the same hash. -/
theorem C128_color_codes (a b : Obj) (ha : a.cls.isColor = true) (hb : b.cls.isColor = true) :
    ∃ r, pyEq a b = .ok r ∧ (r = true ↔ a.H = b.H) ∧ (r = true → hashKey a = hashKey b) := by
  refine ⟨_, pyEq_color a b ha hb, arrayEqual_iff _ _, fun h => ?_⟩
  rw [arrayEqual_iff] at h
  simp only [hashKey, ha, hb, if_true]
  rw [h]

theorem hexObj_ok (lib : CSS.Mod2) (order : List Pt → List Pt) (ho : ∀ l, IsOrder (order l) l) (d : ℕ) (hodd : d % 2 = 1) (h3 : 3 ≤ d) :
    ∃ a, hexObj lib order d = .ok a ∧ a.cls = .hexagonal ∧ 4 * a.H.cols = 3 * d ^ 2 + 1 ∧
      a.H = ⟨_, checkMatrix (order (hexData d)) ((order (hexAncilla d)).map hexNbrs)⟩ := by
  obtain ⟨h1, -, -, c, h2, -⟩ := C15_hexagonal lib d hodd h3 _ _ (ho _) (ho _)
  exact ⟨⟨.hexagonal, c.stab, ⟨_, checkMatrix (order (hexData d)) ((order (hexAncilla d)).map hexNbrs)⟩⟩,
    by simp only [hexObj, h2]; rfl, rfl, h1, rfl⟩

theorem soObj_ok (lib : CSS.Mod2) (order : List Pt → List Pt) (ho : ∀ l, IsOrder (order l) l) (d : ℕ) (hodd : d % 2 = 1) (h3 : 3 ≤ d) :
    ∃ a, soObj lib order d = .ok a ∧ a.cls = .squareOctagon ∧ 2 * a.H.cols + 1 = d ^ 2 + 2 * d ∧
      a.H = ⟨_, checkMatrix (order (soOf .data d)) (soFaces (order (soOf .square d)) (order (soOf .octagon d)))⟩ := by
  obtain ⟨h1, -, -, -, c, h2, -⟩ := C16_square_octagon lib d hodd h3 _ _ _ (ho _) (ho _) (ho _)
  exact ⟨⟨.squareOctagon, c.stab, ⟨_, checkMatrix (order (soOf .data d)) (soFaces (order (soOf .square d)) (order (soOf .octagon d)))⟩⟩,
    by simp only [soObj, h2]; rfl, rfl, h1, rfl⟩

/-- C128: hexagonal color codes of odd distances are equal exactly if the distances are, and then have the same hash. -/
theorem C128_hexagonal (lib : CSS.Mod2) (order : List Pt → List Pt) (ho : ∀ l, IsOrder (order l) l) (d d' : ℕ) (hd : d % 2 = 1) (h3 : 3 ≤ d)
    (hd' : d' % 2 = 1) (h3' : 3 ≤ d') :
    ∃ a b r, hexObj lib order d = .ok a ∧ hexObj lib order d' = .ok b ∧ pyEq a b = .ok r ∧ (r = true ↔ d = d') ∧
      (r = true → hashKey a = hashKey b) := by
  obtain ⟨a, a1, a2, a3, -⟩ := hexObj_ok lib order ho d hd h3
  obtain ⟨b, b1, b2, b3, -⟩ := hexObj_ok lib order ho d' hd' h3'
  obtain ⟨r, r1, r2, r3⟩ := C128_color_codes a b (by rw [a2]; rfl) (by rw [b2]; rfl)
  refine ⟨a, b, r, a1, b1, r1, r2.trans ⟨fun h => ?_, fun h => ?_⟩, r3⟩
  · rw [h, b3] at a3
    exact (Nat.pow_left_injective (show 2 ≠ 0 by decide) (show d' ^ 2 = d ^ 2 by omega)).symm
  · subst h
    rw [a1] at b1
    rw [Except.ok.inj b1]

/-- C128: the same for square-octagon color codes. -/
theorem C128_square_octagon (lib : CSS.Mod2) (order : List Pt → List Pt) (ho : ∀ l, IsOrder (order l) l) (d d' : ℕ) (hd : d % 2 = 1)
    (h3 : 3 ≤ d) (hd' : d' % 2 = 1) (h3' : 3 ≤ d') :
    ∃ a b r, soObj lib order d = .ok a ∧ soObj lib order d' = .ok b ∧ pyEq a b = .ok r ∧ (r = true ↔ d = d') ∧
      (r = true → hashKey a = hashKey b) := by
  obtain ⟨a, a1, a2, a3, -⟩ := soObj_ok lib order ho d hd h3
  obtain ⟨b, b1, b2, b3, -⟩ := soObj_ok lib order ho d' hd' h3'
  obtain ⟨r, r1, r2, r3⟩ := C128_color_codes a b (by rw [a2]; rfl) (by rw [b2]; rfl)
  refine ⟨a, b, r, a1, b1, r1, r2.trans ⟨fun h => ?_, fun h => ?_⟩, r3⟩
  · rw [h, b3] at a3
    have : (d' + 1) ^ 2 = (d + 1) ^ 2 := by
      have e1 : (d' + 1) ^ 2 = d' ^ 2 + 2 * d' + 1 := by ring
      have e2 : (d + 1) ^ 2 = d ^ 2 + 2 * d + 1 := by ring
      omega
    have := Nat.pow_left_injective (show 2 ≠ 0 by decide) this
    simp only [Nat.add_right_cancel_iff] at this
    exact this.symm
  · subst h
    rw [a1] at b1
    rw [Except.ok.inj b1]

theorem codeEq_mem (a b : Stab.Code) (h : ∀ r, r ∈ a.generators ↔ r ∈ b.generators) (hw : Stab.width a.generators = Stab.width b.generators)
    (hne : a.generators ≠ []) : Stab.codeEq a b = .ok true := by
  have hv : Stab.vstack a.generators b.generators = .ok (a.generators ++ b.generators) := by
    rw [Stab.vstack, if_pos hw]
  have hw' : Stab.width (a.generators ++ b.generators) = Stab.width a.generators := Stab.width_append hne
  have := (@rank_three_iff _ _ _ _ (a.generators.map (Stab.toVec (Stab.width a.generators)))
    (b.generators.map (Stab.toVec (Stab.width a.generators)))).2 (by
      unfold rowSpan
      congr 1
      ext v
      simp [h])
  unfold Stab.codeEq
  rw [hv, Stab.matRank_eq rfl, Stab.matRank_eq hw.symm, if_pos this.1]
  simp only [bind, Except.bind, pure, Except.pure]
  rw [Stab.matRank_eq hw', List.map_append, decide_eq_true this.2]

theorem codeEq_same (a b : Stab.Code) (h : a.generators = b.generators) (hne : a.generators ≠ []) : Stab.codeEq a b = .ok true :=
  codeEq_mem a b (by simp [h]) (by rw [h]) hne

theorem mkCSS_same {lib : CSS.Mod2} {d : ℤ} {m : CSS.NpMat} {c : CSS.Code} (h : CSS.mkCSS lib d (some m) (some m) none none = .ok c) :
    c.stab.generators = CSS.generatorRows m.rows m.rows ∧ c.stab.generators ≠ [] := by
  simp only [CSS.mkCSS, dite_true] at h
  rw [bind_eq_ok] at h
  obtain ⟨-, -, h⟩ := h
  obtain ⟨h1, -, -, -, rfl⟩ := CSS.build_ok.1 h
  refine ⟨rfl, ?_⟩
  simpa [CSS.generatorRows] using h1

/-- C128 is violated between classes: for every hexagonal color code of odd distance the plain CSS code with the same check matrices and
distance is equal to it, in both orders of the operands, but what is hashed are bytes for one and an integer for the other. -/
theorem C128_violated_css (lib : CSS.Mod2) (order : List Pt → List Pt) (ho : ∀ l, IsOrder (order l) l) (d : ℕ) (hd : d % 2 = 1) (h3 : 3 ≤ d) :
    ∃ a b, hexObj lib order d = .ok a ∧ cssObj lib d a.H = .ok b ∧ pyEq a b = .ok true ∧ pyEq b a = .ok true ∧ hashKey a ≠ hashKey b := by
  obtain ⟨-, -, -, c, h2, -⟩ := C15_hexagonal lib d hd h3 _ _ (ho _) (ho _)
  have h2' := h2
  unfold colorCode at h2'
  obtain ⟨g1, g2⟩ := mkCSS_same h2'
  refine ⟨⟨.hexagonal, c.stab, ⟨_, checkMatrix (order (hexData d)) ((order (hexAncilla d)).map hexNbrs)⟩⟩, ⟨.css, c.stab, ⟨0, []⟩⟩,
    by simp only [hexObj, h2]; rfl, by simp only [cssObj, h2']; rfl, ?_, ?_, ?_⟩
  · rw [(pyEq_color_plain _ _ rfl rfl).1]
    exact codeEq_same _ _ rfl g2
  · rw [(pyEq_color_plain _ _ rfl rfl).2]
    exact codeEq_same _ _ rfl g2
  · simp [hashKey, Cls.isColor]

theorem order_dedup (l : List Pt) : IsOrder l.dedup l := ⟨List.nodup_dedup l, fun _ => List.mem_dedup⟩

/-- The full claim is false. -/
theorem C128_violated : ¬ C128_claim := by
  intro h
  obtain ⟨a, b, h1, h2, h3, -, h4⟩ := C128_violated_css CSS.refLib List.dedup order_dedup 3 (by decide) (by decide)
  exact h4 (h CSS.refLib List.dedup order_dedup a b (.inl ⟨3, h1⟩) (.inr (.inr ⟨_, _, h2⟩)) h3).2

/-- Concrete cases: distances 3 and 5. -/
example : ∃ a b, hexObj CSS.refLib List.dedup 3 = .ok a ∧ hexObj CSS.refLib List.dedup 5 = .ok b ∧ pyEq a b = .ok false := by
  obtain ⟨a, b, r, h1, h2, h3, h4, -⟩ := C128_hexagonal CSS.refLib List.dedup order_dedup 3 5 (by decide) (by decide) (by decide) (by decide)
  refine ⟨a, b, h1, h2, ?_⟩
  rw [h3]
  cases r with
  | false => rfl
  | true => exact absurd (h4.1 rfl) (by decide)

/-- An iteration order of sets: the one of insertion, except for the data qubits of the square-octagon code of distance 3. -/
def someOrder (l : List Pt) : List Pt :=
  if l = soOf .data 3 then [(0, 1), (2, 1), (6, 1), (3, 4), (3, 2), (5, 2), (5, 4)] else l.dedup

theorem someOrder_isOrder (l : List Pt) : IsOrder (someOrder l) l := by
  unfold someOrder
  split
  · rename_i h
    rw [h, show soOf .data 3 = [(0, 1), (2, 1), (6, 1), (3, 2), (5, 2), (3, 4), (5, 4)] by decide]
    refine ⟨by decide, fun p => ?_⟩
    simp only [List.mem_cons, List.not_mem_nil, or_false]
    tauto
  · exact order_dedup l

/-- `==` between code objects is not transitive: for some iteration order of sets the CSS code with the check matrices of the hexagonal color
code of distance 3 is equal to it and to the square-octagon color code of distance 3, but these two are not equal. -/
theorem C128_violated_transitive : ∃ (lib : CSS.Mod2) (order : List Pt → List Pt) (a b c : Obj), (∀ l, IsOrder (order l) l) ∧
    hexObj lib order 3 = .ok a ∧ soObj lib order 3 = .ok b ∧ cssObj lib 3 a.H = .ok c ∧
    pyEq a c = .ok true ∧ pyEq c b = .ok true ∧ pyEq a b = .ok false := by
  obtain ⟨-, -, -, c, h2, -⟩ := C15_hexagonal CSS.refLib 3 (by decide) (by decide) _ _ (someOrder_isOrder _) (someOrder_isOrder _)
  obtain ⟨-, -, -, -, c', h3, -⟩ := C16_square_octagon CSS.refLib 3 (by decide) (by decide) _ _ _ (someOrder_isOrder _) (someOrder_isOrder _)
    (someOrder_isOrder _)
  have h2' := h2
  have h3' := h3
  unfold colorCode at h2' h3'
  obtain ⟨g1, g2⟩ := mkCSS_same h2'
  obtain ⟨g3, g4⟩ := mkCSS_same h3'
  refine ⟨CSS.refLib, someOrder, ⟨.hexagonal, c.stab, ⟨_, checkMatrix (someOrder (hexData 3)) ((someOrder (hexAncilla 3)).map hexNbrs)⟩⟩,
    ⟨.squareOctagon, c'.stab, ⟨_, checkMatrix (someOrder (soOf .data 3)) (soFaces (someOrder (soOf .square 3)) (someOrder (soOf .octagon 3)))⟩⟩,
    ⟨.css, c.stab, ⟨0, []⟩⟩, someOrder_isOrder, by simp only [hexObj, h2]; rfl, by simp only [soObj, h3]; rfl,
    by simp only [cssObj]; rw [show ((3 : ℤ)) = ((3 : ℕ) : ℤ) from rfl, h2']; rfl, ?_, ?_, ?_⟩
  · rw [(pyEq_color_plain _ _ rfl rfl).1]
    exact codeEq_same _ _ rfl g2
  · rw [(pyEq_color_plain _ _ rfl rfl).2]
    have key : (∀ r ∈ c.stab.generators, r ∈ c'.stab.generators) ∧ (∀ r ∈ c'.stab.generators, r ∈ c.stab.generators) ∧
        Stab.width c.stab.generators = Stab.width c'.stab.generators := by
      rw [g1, g3]
      decide +kernel
    exact codeEq_mem _ _ (fun r => ⟨key.1 r, key.2.1 r⟩) key.2.2 g2
  · rw [pyEq_color _ _ rfl rfl]
    congr 1

end Verif.ColorEq
