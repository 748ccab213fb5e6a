import Verif.Lemmas.EccExample

/-!
# One correction step removes one error from every logical qubit (C56)

`Corrects` (Verif/Spec/EccCode.lean) is about the state-vector semantics of Verif/Spec/EccState.lean.  The generators below
are those of the codes in the literature: the repetition code, the five-qubit code, Steane's code, Shor's code and the rotated
surface code of distance three.
-/

namespace Verif.Ecc
variable {R : Type} [CommRing R] (k : Consts R)

/-- The bit-flip code. -/
def q3Gens : List (List Op) := [[.Z, .Z, .I], [.I, .Z, .Z]]
/-- The five-qubit code. -/
def q5Gens : List (List Op) := [[.X, .Z, .Z, .X, .I], [.I, .X, .Z, .Z, .X], [.X, .I, .X, .Z, .Z], [.Z, .X, .I, .X, .Z]]
/-- Steane's code. -/
def q7Gens : List (List Op) :=
  [[.X, .I, .X, .I, .X, .I, .X], [.I, .X, .X, .I, .I, .X, .X], [.I, .I, .I, .X, .X, .X, .X],
   [.Z, .I, .Z, .I, .Z, .I, .Z], [.I, .Z, .Z, .I, .I, .Z, .Z], [.I, .I, .I, .Z, .Z, .Z, .Z]]
/-- Shor's code. -/
def q9Gens : List (List Op) :=
  [[.Z, .Z, .I, .I, .I, .I, .I, .I, .I], [.I, .Z, .Z, .I, .I, .I, .I, .I, .I],
   [.I, .I, .I, .Z, .Z, .I, .I, .I, .I], [.I, .I, .I, .I, .Z, .Z, .I, .I, .I],
   [.I, .I, .I, .I, .I, .I, .Z, .Z, .I], [.I, .I, .I, .I, .I, .I, .I, .Z, .Z],
   [.X, .X, .X, .X, .X, .X, .I, .I, .I], [.I, .I, .I, .X, .X, .X, .X, .X, .X]]
/-- The rotated surface code on a 3 × 3 grid. -/
def s9Gens : List (List Op) :=
  [[.I, .X, .X, .I, .I, .I, .I, .I, .I], [.X, .X, .I, .X, .X, .I, .I, .I, .I],
   [.I, .I, .I, .I, .X, .X, .I, .X, .X], [.I, .I, .I, .I, .I, .I, .X, .X, .I],
   [.Z, .I, .I, .Z, .I, .I, .I, .I, .I], [.I, .Z, .Z, .I, .Z, .Z, .I, .I, .I],
   [.I, .I, .I, .Z, .Z, .I, .Z, .Z, .I], [.I, .I, .I, .I, .I, .Z, .I, .I, .Z]]

/-- At most one error per logical qubit, with the given operations, on the given physical qubits. -/
def SingleErrors (n : ℕ) (ops : List Op) (qs : List ℕ) (err : ℕ → Option (Op × ℕ)) : Prop :=
  ∀ i < n, ∀ o q, err i = some (o, q) → o ∈ ops ∧ q ∈ qs

theorem single_mem {n : ℕ} {ops : List Op} {qs : List ℕ} {err : ℕ → Option (Op × ℕ)} (h : SingleErrors n ops qs err) (i : ℕ)
    (hi : i < n) : err i ∈ allErrs ops qs ∧ err i = (err i).map fun p => (p.1, id p.2) :=
  ⟨mem_allErrs (h i hi), by cases err i <;> rfl⟩

/-! ## Q3Shor -/

def q3Chunks : List Chunk :=
  [.reset 0, .reset 1, .parity [(0, 0), (1, 0), (1, 1), (2, 1)], .meas 0 0, .meas 1 1,
   .cc .X 0 0 2 1, .cc .X 2 0 2 2, .cc .X 1 0 2 3]

/-- One call of `measureAndCorrect` of the bit-flip code removes one X per logical qubit. -/
theorem C56_q3_corrects (n m : ℕ) {ψ : State R} (hψ : CodeState k n id q3Gens ψ) (hf : ∀ q ∈ sharedAnc n 3 2, Free ψ q)
    {err : ℕ → Option (Op × ℕ)} (herr : SingleErrors n [.X] (List.range 3) err) (s : St) (hd : s.isDecoded = false)
    (hw : s.gatesWritten = true) :
    ∃ l, ((q3Shor n m).measureAndCorrect s).out = s.out ++ l ∧ Corrects k (sharedAnc n 3 2) m l (corrupt k n err ψ) ψ := by
  refine ⟨blocks n fun i => Q3.correctBlock (dat n i) (fun j => n * 3 + j) m, ?_, ?_⟩
  · show (Q3.correct n m s).out = _
    unfold Q3.correct
    rw [hd, hw]
    rfl
  · exact corrects_one k (C := 2) (ch := q3Chunks) (shared_layout n 3 2) (by decide) (by decide) hψ hf (by decide)
      (errs := allErrs [.X] (List.range 3)) (by decide) (by decide) (single_mem herr) (fun i _ => rfl)

example (h1 : (1 : R) ≠ 0) : ∃ ψ : State R, ψ ≠ 0 ∧ CodeState k 1 id q3Gens ψ ∧ ∀ q ∈ sharedAnc 1 3 2, Free ψ q :=
  ⟨tabState R 3 (fun m => if m = 0 then 1 else 0), tabState_ne h1 (by decide), tabState_code k (by decide) (by decide +kernel) (by decide +kernel),
    shared_free fun q hq => tabState_free (by omega)⟩

/-! ## Q5Laflamme -/

def q5Chunks : List Chunk :=
  [.reset 0, .h 0, .reset 1, .h 1, .reset 2, .h 2, .reset 3, .h 3,
   .ctrl [(0, true, 0), (0, false, 1), (0, false, 2), (0, true, 3), (1, true, 1), (1, false, 2), (1, false, 3), (1, true, 4),
     (2, true, 0), (2, true, 2), (2, false, 3), (2, false, 4), (3, false, 0), (3, true, 1), (3, true, 3), (3, false, 4)]
     (q5Gens.map stringWord),
   .h 0, .meas 0 0, .h 1, .meas 1 1, .h 2, .meas 2 2, .h 3, .meas 3 3] ++
  (List.range 5).flatMap fun q => [Op.X, Op.Y, Op.Z].map fun op => .cc op q 0 4 (Q5.value op q)

/-- One call of `measureAndCorrect` of the five-qubit code removes any Pauli error on one qubit of every logical qubit. -/
theorem C56_q5_corrects (n m : ℕ) {ψ : State R} (hψ : CodeState k n id q5Gens ψ) (hf : ∀ q ∈ sharedAnc n 5 4, Free ψ q)
    {err : ℕ → Option (Op × ℕ)} (herr : SingleErrors n [.X, .Y, .Z] (List.range 5) err) (s : St) (hd : s.isDecoded = false) :
    ∃ l, ((q5Laflamme n m).measureAndCorrect s).out = s.out ++ l ∧ Corrects k (sharedAnc n 5 4) m l (corrupt k n err ψ) ψ := by
  refine ⟨blocks n fun i => Q5.correctBlock (dat n i) (fun j => n * 5 + j) m, ?_, ?_⟩
  · show (Q5.correct n m s).out = _
    unfold Q5.correct
    rw [hd]
    rfl
  · exact corrects_one k (C := 4) (ch := q5Chunks) (shared_layout n 5 4) (by decide) (by decide +kernel) hψ hf (by decide +kernel)
      (errs := allErrs [.X, .Y, .Z] (List.range 5)) (by decide) (by decide +kernel) (single_mem herr) (fun i _ => rfl)

example (h1 : (1 : R) ≠ 0) : ∃ ψ : State R, ψ ≠ 0 ∧ CodeState k 1 id q5Gens ψ ∧ ∀ q ∈ sharedAnc 1 5 4, Free ψ q :=
  ⟨tabState R 5 (fun m => if [0, 5, 9, 10, 18, 20].contains m then 1 else if [3, 6, 12, 15, 17, 23, 24, 27, 29, 30].contains m then -1 else 0), tabState_ne h1 (by decide), tabState_code k (by decide) (by decide +kernel) (by decide +kernel),
    shared_free fun q hq => tabState_free (by omega)⟩

/-! ## Q7Steane -/

/-- One pass over a block: `x` for the X checks. -/
def q7Chunks (x : Bool) : List Chunk :=
  [.reset 0, .reset 1, .reset 2, .h 0, .h 1, .h 2,
   .ctrl [(0, x, 0), (0, x, 2), (0, x, 4), (0, x, 6), (1, x, 1), (1, x, 2), (1, x, 5), (1, x, 6), (2, x, 3), (2, x, 4), (2, x, 5),
     (2, x, 6)] (((if x then q7Gens.take 3 else q7Gens.drop 3)).map stringWord),
   .h 0, .meas 0 0, .h 1, .meas 1 1, .h 2, .meas 2 2] ++
  (List.range 7).map fun j => .cc (if x then .Z else .X) j 0 3 (j + 1)

/-- One call of `measureAndCorrect` of Steane's code removes any Pauli error on one qubit of every logical qubit. -/
theorem C56_q7_corrects (n m : ℕ) {ψ : State R} (hψ : CodeState k n id q7Gens ψ) (hf : ∀ q ∈ sharedAnc n 7 3, Free ψ q)
    {err : ℕ → Option (Op × ℕ)} (herr : SingleErrors n [.X, .Y, .Z] (List.range 7) err) (s : St) (hd : s.isDecoded = false)
    (hw : s.gatesWritten = true) :
    ∃ l, ((q7Steane n m).measureAndCorrect s).out = s.out ++ l ∧ Corrects k (sharedAnc n 7 3) m l (corrupt k n err ψ) ψ := by
  refine ⟨blocks n (fun i => Q7.resets (fun j => n * 7 + j) ++ Q7.singleBlock true (dat n i) (fun j => n * 7 + j) m) ++
    blocks n fun i => Q7.resets (fun j => n * 7 + j) ++ Q7.singleBlock false (dat n i) (fun j => n * 7 + j) m, ?_, ?_⟩
  · show (Q7.correct n m s).out = _
    unfold Q7.correct Q7.single
    rw [hd, hw]
    simp [St.emit, List.append_assoc]
  · exact corrects_two k (C := 3) (ch₁ := q7Chunks true) (ch₂ := q7Chunks false) (shared_layout n 7 3) (by decide)
      (by decide +kernel) hψ hf (by decide +kernel) (by decide +kernel)
      (errs := allErrs [.X, .Y, .Z] (List.range 7)) (by decide) (by decide +kernel) (single_mem herr) (fun i _ => rfl)
      (fun i _ => rfl)

example (h1 : (1 : R) ≠ 0) : ∃ ψ : State R, ψ ≠ 0 ∧ CodeState k 1 id q7Gens ψ ∧ ∀ q ∈ sharedAnc 1 7 3, Free ψ q :=
  ⟨tabState R 7 (fun m => if [0, 30, 45, 51, 75, 85, 102, 120].contains m then 1 else 0), tabState_ne h1 (by decide), tabState_code k (by decide) (by decide +kernel) (by decide +kernel),
    shared_free fun q hq => tabState_free (by omega)⟩

/-! ## Q9Shor -/

def q9Chunks : List Chunk :=
  ((List.range 8).map .reset) ++ ((List.range 8).map .h) ++
  [.ctrl (((List.range 3).flatMap fun j =>
      [(2 * j, false, 3 * j), (2 * j, false, 3 * j + 1), (2 * j + 1, false, 3 * j + 1), (2 * j + 1, false, 3 * j + 2)]) ++
    (List.range 6).flatMap fun j => [(6, true, j), (7, true, 3 + j)]) (q9Gens.map stringWord)] ++
  ((List.range 8).map .h) ++ ((List.range 8).map fun j => .meas j j) ++
  ((List.range 3).flatMap fun j =>
    [.cc .X (3 * j) (2 * j) 2 1, .cc .X (3 * j + 2) (2 * j) 2 2, .cc .X (3 * j + 1) (2 * j) 2 3]) ++
  [.cc .Z 0 6 2 1, .cc .Z 6 6 2 2, .cc .Z 3 6 2 3]

/-- One call of `measureAndCorrect` of Shor's code removes any Pauli error on one qubit of every logical qubit. -/
theorem C56_q9_corrects (n m : ℕ) {ψ : State R} (hψ : CodeState k n id q9Gens ψ) (hf : ∀ q ∈ sharedAnc n 9 8, Free ψ q)
    {err : ℕ → Option (Op × ℕ)} (herr : SingleErrors n [.X, .Y, .Z] (List.range 9) err) (s : St) (hd : s.isDecoded = false) :
    ∃ l, ((q9Shor n m).measureAndCorrect s).out = s.out ++ l ∧ Corrects k (sharedAnc n 9 8) m l (corrupt k n err ψ) ψ := by
  refine ⟨blocks n fun i => Q9.correctBlock (dat n i) (fun j => n * 9 + j) m, ?_, ?_⟩
  · show (Q9.correct n m s).out = _
    unfold Q9.correct
    rw [hd]
    rfl
  · exact corrects_one k (C := 8) (ch := q9Chunks) (shared_layout n 9 8) (by decide) (by decide +kernel) hψ hf (by decide +kernel)
      (errs := allErrs [.X, .Y, .Z] (List.range 9)) (by decide) (by decide +kernel) (single_mem herr) (fun i _ => rfl)

example (h1 : (1 : R) ≠ 0) : ∃ ψ : State R, ψ ≠ 0 ∧ CodeState k 1 id q9Gens ψ ∧ ∀ q ∈ sharedAnc 1 9 8, Free ψ q :=
  ⟨tabState R 9 (fun m => if [0, 7, 56, 63, 448, 455, 504, 511].contains m then 1 else 0), tabState_ne h1 (by decide), tabState_code k (by decide) (by decide +kernel) (by decide +kernel),
    shared_free fun q hq => tabState_free (by omega)⟩

/-! ## Q9Surface -/

def s9Chunks : List Chunk :=
  ((List.range 8).map .reset) ++ (S9.ancZ.map .h) ++
  [.ctrl ((List.range 9).flatMap fun q => (S9.corrZ.getD q []).map fun c => (c, true, q))
     ([s9Gens.getD 0 [], [], s9Gens.getD 1 [], [], [], s9Gens.getD 2 [], [], s9Gens.getD 3 []].map stringWord),
   .parity ((List.range 9).flatMap fun q => (S9.corrX.getD q []).map fun c => (q, c))] ++
  ((List.range 4).flatMap fun j =>
    [.h (S9.ancZ.getD j 0), .meas (S9.ancZ.getD j 0) j, .meas (S9.ancX.getD j 0) (4 + j)]) ++
  (((List.range 9).filter fun q => !S9.uncorrectedZ.contains q).map fun q => .cc .Z q 0 4 (S9.mask S9.ancZ (S9.corrZ.getD q []))) ++
  (((List.range 9).filter fun q => !S9.uncorrectedX.contains q).map fun q => .cc .X q 4 4 (S9.mask S9.ancX (S9.corrX.getD q [])))

/-- One call of `measureAndCorrect` of the surface code removes any Pauli error on one data qubit of every logical qubit. -/
theorem C56_surface9_corrects (n m : ℕ) {ψ : State R} (hψ : CodeState k n id s9Gens ψ) (hf : ∀ q ∈ sharedAnc n 9 8, Free ψ q)
    {err : ℕ → Option (Op × ℕ)} (herr : SingleErrors n [.X, .Y, .Z] (List.range 9) err) (s : St) (hd : s.isDecoded = false)
    (hw : s.gatesWritten = true) :
    ∃ l, ((q9Surface n m).measureAndCorrect s).out = s.out ++ l ∧ Corrects k (sharedAnc n 9 8) m l (corrupt k n err ψ) ψ := by
  refine ⟨blocks n fun i => S9.resets (fun j => n * 9 + j) ++ S9.correctBlock (dat n i) (fun j => n * 9 + j) m, ?_, ?_⟩
  · show (S9.correct n m s).out = _
    unfold S9.correct
    rw [hd, hw]
    rfl
  · exact corrects_one k (C := 8) (ch := s9Chunks) (shared_layout n 9 8) (by decide) (by decide +kernel) hψ hf (by decide +kernel)
      (errs := allErrs [.X, .Y, .Z] (List.range 9)) (by decide) (by decide +kernel) (single_mem herr) (fun i _ => rfl)

example (h1 : (1 : R) ≠ 0) : ∃ ψ : State R, ψ ≠ 0 ∧ CodeState k 1 id s9Gens ψ ∧ ∀ q ∈ sharedAnc 1 9 8, Free ψ q :=
  ⟨tabState R 9 (fun m => if [0, 6, 27, 29, 192, 198, 219, 221, 363, 365, 368, 374, 427, 429, 432, 438].contains m then 1 else 0), tabState_ne h1 (by decide), tabState_code k (by decide) (by decide +kernel) (by decide +kernel),
    shared_free fun q hq => tabState_free (by omega)⟩

example : SingleErrors 2 [.X, .Y, .Z] (List.range 9) fun i => if i = 0 then some (.Y, 4) else some (.Z, 0) := by
  intro i _ o q h
  simp only at h
  split at h <;> cases h <;> decide

/-- The complex numbers are an instance. -/
noncomputable example : Consts ℂ := complexConsts

end Verif.Ecc
