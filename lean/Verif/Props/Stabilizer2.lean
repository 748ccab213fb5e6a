import Verif.Props.Stabilizer

/-!
# Properties C03–C07: equality, hashing, equivalence and the constructor of stabilizer codes
-/

namespace Verif.Stab
open Verif Verif.Spec

/-- Specification: the space spanned by the generators of a code on `n` qubits, sign column
included (x part, z part, sign). -/
def signedSpan (c : Code) (n : ℕ) : Submodule (ZMod 2) (Vec (2 * n + 1)) :=
  rowSpan (c.generators.map (toVec (2 * n + 1)))

/-- A code object obtained from Pauli strings by a successful constructor call. -/
def Built (c : Code) : Prop := ∃ l d lz lx, mkCode (.strs l) d lz lx = .ok c

theorem Built.width {c : Code} (h : Built c) : width c.generators = 2 * c.n + 1 := by
  obtain ⟨l, d, lz, lx, h⟩ := h
  exact (mkCode_strs h).2.2.2.2

theorem Built.ne_nil {c : Code} (h : Built c) : c.generators ≠ [] := by
  obtain ⟨l, d, lz, lx, h⟩ := h
  obtain ⟨h1, -, -, h2, -⟩ := mkCode_strs h
  rw [h2]; simpa using h1

theorem width_append {a b : Mat} (h : a ≠ []) : width (a ++ b) = width a := by
  cases a with
  | nil => exact absurd rfl h
  | cons r a => rfl

theorem matRank_eq {m : Mat} {w : ℕ} (h : width m = w) : matRank m = rank (m.map (toVec w)) := by
  subst h; rfl

/-! ## C03  Equality -/

/-- C03: two codes on the same number of qubits compare equal exactly when their generators span
the same (signed) space; the comparison never raises in this case. -/
theorem C03_eq_iff_same_span (a b : Code) (ha : Built a) (hb : Built b) (hn : a.n = b.n) :
    ∃ r, codeEq a b = .ok r ∧ (r = true ↔ signedSpan a a.n = signedSpan b a.n) := by
  have wa := ha.width
  have wb := hb.width
  rw [← hn] at wb
  have key := @rank_three_iff _ _ _ _ (a.generators.map (toVec (2 * a.n + 1)))
    (b.generators.map (toVec (2 * a.n + 1)))
  have ws : Stab.width (a.generators ++ b.generators) = 2 * a.n + 1 := by
    rw [width_append ha.ne_nil, wa]
  have hv : vstack a.generators b.generators = .ok (a.generators ++ b.generators) := by
    rw [vstack, if_pos (by rw [wa, wb])]
  unfold codeEq
  rw [hv, matRank_eq wa, matRank_eq wb]
  by_cases h1 : rank (a.generators.map (toVec (2 * a.n + 1)))
      = rank (b.generators.map (toVec (2 * a.n + 1)))
  · refine ⟨_, by rw [if_pos h1]; rfl, ?_⟩
    rw [decide_eq_true_iff, matRank_eq ws, List.map_append, signedSpan, signedSpan, ← key]
    simp [h1]
  · refine ⟨false, by rw [if_neg h1], ?_⟩
    constructor
    · intro h; simp at h
    · intro h; exact absurd (key.2 h).1 h1

/-- C03: reflexivity. -/
theorem C03_refl (a : Code) (ha : Built a) : codeEq a a = .ok true := by
  obtain ⟨r, h1, h2⟩ := C03_eq_iff_same_span a a ha ha rfl
  rw [h1, h2.2 rfl]

/-- C03: symmetry. -/
theorem C03_symm (a b : Code) (ha : Built a) (hb : Built b) (hn : a.n = b.n)
    (h : codeEq a b = .ok true) : codeEq b a = .ok true := by
  obtain ⟨r, h1, h2⟩ := C03_eq_iff_same_span a b ha hb hn
  obtain ⟨r', h1', h2'⟩ := C03_eq_iff_same_span b a hb ha hn.symm
  rw [h1] at h; cases h
  rw [h1', h2'.2]
  rw [← hn]; exact (h2.1 rfl).symm

/-- C03: transitivity. -/
theorem C03_trans (a b c : Code) (ha : Built a) (hb : Built b) (hc : Built c) (hn : a.n = b.n)
    (hn' : b.n = c.n) (h : codeEq a b = .ok true) (h' : codeEq b c = .ok true) :
    codeEq a c = .ok true := by
  obtain ⟨r, h1, h2⟩ := C03_eq_iff_same_span a b ha hb hn
  obtain ⟨r', h1', h2'⟩ := C03_eq_iff_same_span b c hb hc hn'
  obtain ⟨r'', h1'', h2''⟩ := C03_eq_iff_same_span a c ha hc (hn.trans hn')
  rw [h1] at h; cases h
  rw [h1'] at h'; cases h'
  rw [h1'', h2''.2]
  have e1 := h2.1 rfl
  have e2 := h2'.1 rfl
  rw [← hn] at e2
  exact e1.trans e2

/-- C03: codes on different numbers of qubits never compare equal. -/
theorem C03_different_n (a b : Code) (ha : Built a) (hb : Built b) (hn : a.n ≠ b.n) :
    codeEq a b = .ok false ∨ codeEq a b = .error .value := by
  have wa := ha.width
  have wb := hb.width
  unfold codeEq
  split
  · right
    rw [vstack, if_neg (by omega)]; rfl
  · left; rfl

/-- C03, full claim for codes of different size: comparison returns `False`. -/
def EqReturnsFalseForDifferentN : Prop :=
  ∀ a b : Code, Built a → Built b → a.n ≠ b.n → codeEq a b = .ok false

def codeXX : Code := { n := 2, generators := [[1, 1, 0, 0, 0]], k := 1, distance := 1, lz := none, lx := none }
def codeXXX : Code :=
  { n := 3, generators := [[1, 1, 1, 0, 0, 0, 0]], k := 2, distance := 1, lz := none, lx := none }

theorem built_codeXX : Built codeXX := ⟨["XX".toList], none, none, none, rfl⟩
theorem built_codeXXX : Built codeXXX := ⟨["XXX".toList], none, none, none, rfl⟩

/-- C03 is violated for codes on different numbers of qubits with equal rank: `==` raises
(`np.vstack` of arrays of different width) instead of returning `False`. -/
theorem C03_violated_different_n : ¬ EqReturnsFalseForDifferentN := by
  intro h
  have := h codeXX codeXXX built_codeXX built_codeXXX (by decide)
  revert this; decide

/-! ## C04  Hash/equality consistency -/

/-- C04, full claim. -/
def EqualCodesHashEqual : Prop :=
  ∀ a b : Code, Built a → Built b → codeEq a b = .ok true → hashKey a = hashKey b

def codeA : Code :=
  { n := 2, generators := [[1, 1, 0, 0, 0], [0, 0, 1, 1, 0]], k := 0, distance := 1, lz := none, lx := none }
def codeB : Code :=
  { n := 2, generators := [[0, 0, 1, 1, 0], [1, 1, 0, 0, 0]], k := 0, distance := 1, lz := none, lx := none }

theorem built_codeA : Built codeA := ⟨["XX".toList, "ZZ".toList], none, none, none, rfl⟩
theorem built_codeB : Built codeB := ⟨["ZZ".toList, "XX".toList], none, none, none, rfl⟩

/-- C04 is violated: reordering the generators gives an equal code with different hash input. -/
theorem C04_hash_violated : ¬ EqualCodesHashEqual := by
  intro h
  have := h codeA codeB built_codeA built_codeB (by decide)
  revert this; decide

/-- C04 (partial; what is missing is every pair of equal codes with different generator
matrices): codes with identical generator matrices are equal and hash equally. -/
theorem C04_hash_partial (a b : Code) (ha : Built a) (hb : Built b) (h : a.generators = b.generators) :
    codeEq a b = .ok true ∧ hashKey a = hashKey b := by
  have hn : a.n = b.n := by
    have h1 := ha.width; have h2 := hb.width; rw [h] at h1; omega
  obtain ⟨r, h1, h2⟩ := C03_eq_iff_same_span a b ha hb hn
  refine ⟨by rw [h1, h2.2 (by rw [signedSpan, signedSpan, h])], by rw [hashKey, hashKey, h]⟩

example : Built codeA ∧ codeA.generators = codeA.generators := ⟨built_codeA, rfl⟩

/-! ## C05  Stabilizer equivalence -/

/-- The signed binary vector of a valid Pauli string on `n` qubits. -/
def vecOf (n : ℕ) (s : Str) : Vec (2 * n + 1) := toVec (2 * n + 1) (binRow s)

/-- C05, full claim: `stabilizer_equivalent` decides whether two Paulis differ by an element of
the span of the generators. -/
def StabilizerEquivalentCorrect : Prop :=
  ∀ (c : Code) (p q : Str), Built c → ValidStr p → ValidStr q → (body p).length = c.n →
    (body q).length = c.n →
    ∃ r, stabilizerEquivalent c (.str p) (.str q) = .ok r ∧
      (r = true ↔ vecOf c.n p + vecOf c.n q ∈ signedSpan c c.n)

/-- What the code really decides: `q` is in the span, or differs from `p` by the span. -/
theorem C05_exact (c : Code) (p q : Str) (hc : Built c) (hp : ValidStr p) (hq : ValidStr q)
    (hpn : (body p).length = c.n) (hqn : (body q).length = c.n) :
    ∃ r, stabilizerEquivalent c (.str p) (.str q) = .ok r ∧
      (r = true ↔ vecOf c.n q ∈ signedSpan c c.n ∨ vecOf c.n p + vecOf c.n q ∈ signedSpan c c.n) := by
  have w := hc.width
  have wp : width [binRow p] = 2 * c.n + 1 := by simp [width, binRow_length, hpn]
  have wq : width [binRow q] = 2 * c.n + 1 := by simp [width, binRow_length, hqn]
  have e1 : pauliToBinary (.str p) = .ok (binRow p) := pauliToBinary_valid hp
  have e2 : pauliToBinary (.str q) = .ok (binRow q) := pauliToBinary_valid hq
  have e3 : vstack c.generators [binRow p] = .ok (c.generators ++ [binRow p]) := by
    rw [vstack, if_pos (by rw [w, wp])]
  have w3 : width (c.generators ++ [binRow p]) = 2 * c.n + 1 := by rw [width_append hc.ne_nil, w]
  have e4 : vstack (c.generators ++ [binRow p]) [binRow q]
      = .ok (c.generators ++ [binRow p] ++ [binRow q]) := by
    rw [vstack, if_pos (by rw [w3, wq])]
  have w4 : width (c.generators ++ [binRow p] ++ [binRow q]) = 2 * c.n + 1 := by
    rw [width_append (by simp), w3]
  refine ⟨_, by simp only [stabilizerEquivalent, e1, e2, e3, e4, bind, Except.bind]; rfl, ?_⟩
  rw [decide_eq_true_iff, matRank_eq w3, matRank_eq w4, List.map_append (l₂ := [binRow q]), List.map_singleton,
    rank_append_singleton_eq_iff, List.map_append, rowSpan_append, sup_comm, ← rowSpan_append,
    List.map_singleton, List.singleton_append, mem_rowSpan_cons]
  change _ ∨ vecOf c.n q + vecOf c.n p ∈ _ ↔ _
  rw [add_comm (vecOf c.n q)]
  rfl

def codeZZ : Code := { n := 2, generators := [[0, 0, 1, 1, 0]], k := 1, distance := 1, lz := none, lx := none }
theorem built_codeZZ : Built codeZZ := ⟨["ZZ".toList], none, none, none, rfl⟩

/-- C05 is violated: with stabilizer ZZ, the Paulis XI and ZZ are reported equivalent. -/
theorem C05_violated : ¬ StabilizerEquivalentCorrect := by
  intro h
  obtain ⟨r, h1, h2⟩ := h codeZZ "XI".toList "ZZ".toList built_codeZZ
    (isPauliString_iff.1 (by decide)) (isPauliString_iff.1 (by decide)) rfl rfl
  have hr : stabilizerEquivalent codeZZ (.str "XI".toList) (.str "ZZ".toList) = .ok true := by decide
  rw [hr] at h1; cases h1
  have : vecOf codeZZ.n "XI".toList + vecOf codeZZ.n "ZZ".toList ∉ signedSpan codeZZ codeZZ.n := by
    rw [signedSpan, ← inSpan_iff]; decide
  exact this (h2.1 rfl)

/-- C05 is violated: the answer depends on the order of the arguments. -/
theorem C05_not_symmetric :
    stabilizerEquivalent codeZZ (.str "XI".toList) (.str "ZZ".toList) = .ok true ∧
    stabilizerEquivalent codeZZ (.str "ZZ".toList) (.str "XI".toList) = .ok false := by decide

/-- C05 (partial: missing is the case that the second Pauli is itself in the span while the first
is not): the test is correct whenever the second Pauli is not a stabilizer, or the first one is. -/
theorem C05_equivalent_partial (c : Code) (p q : Str) (hc : Built c) (hp : ValidStr p)
    (hq : ValidStr q) (hpn : (body p).length = c.n) (hqn : (body q).length = c.n)
    (h : vecOf c.n q ∉ signedSpan c c.n ∨ vecOf c.n p ∈ signedSpan c c.n) :
    ∃ r, stabilizerEquivalent c (.str p) (.str q) = .ok r ∧
      (r = true ↔ vecOf c.n p + vecOf c.n q ∈ signedSpan c c.n) := by
  obtain ⟨r, h1, h2⟩ := C05_exact c p q hc hp hq hpn hqn
  refine ⟨r, h1, h2.trans ⟨?_, Or.inr⟩⟩
  rintro (hq' | h')
  · rcases h with h | h
    · exact absurd hq' h
    · exact Submodule.add_mem _ h hq'
  · exact h'

example : vecOf codeZZ.n "XX".toList ∉ signedSpan codeZZ codeZZ.n := by
  rw [signedSpan, ← inSpan_iff]; decide

end Verif.Stab
