import Verif.Lemmas.CodeFiles
import Verif.Lemmas.CSS
import Verif.Props.Product

/-! # C108: generated code files -/

namespace Verif.CodeFiles
open Verif Verif.Product

/-! ## Specification -/

/-- The bits of a binary array. -/
def bitsOf {a b : ℕ} (M : Matrix (Fin a) (Fin b) ℤ) : List (List Bool) := List.ofFn fun i => List.ofFn fun j => decide (M i j = 1)

/-- The bits of vectors over GF(2). -/
def vecBits {b : ℕ} (vs : List (Vec b)) : List (List Bool) := vs.map fun v => List.ofFn fun j => decide (v j = 1)

/-- `LX` and `LZ` are logical operators of the CSS code: with the stabilizers they span the operators that commute with the other
stabilizers, and there are as many as logical qubits. -/
structure Logicals {b : ℕ} (HX HZ LX LZ : List (Vec b)) : Prop where
  x_span : rowSpan (HX ++ LX) = kerOf HZ
  z_span : rowSpan (HZ ++ LZ) = kerOf HX
  x_count : LX.length + rank HX + rank HZ = b
  z_count : LZ.length + rank HX + rank HZ = b

/-- What the folder `dir` holds after a successful run on the file system `fs`. -/
structure Stored {a b c d e : ℕ} (logicals : Bool) (fs out : FS) (dir : Text) (MX : Matrix (Fin d) (Fin a) ℤ)
    (HX : Matrix (Fin a) (Fin b) ℤ) (HZ : Matrix (Fin c) (Fin b) ℤ) (MZ : Matrix (Fin e) (Fin c) ℤ) : Prop where
  binary : Binary MX ∧ Binary HX ∧ Binary HZ ∧ Binary MZ
  css : Even2 (HX * HZ.transpose)
  metachecks : Even2 (MX * HX) ∧ Even2 (MZ * HZ)
  hx : importGf2 out (matPath dir .hx) = .ok (bitsOf HX)
  hz : importGf2 out (matPath dir .hz) = .ok (bitsOf HZ)
  mx : importGf2 out (matPath dir .mx) = .ok (bitsOf MX)
  mz : importGf2 out (matPath dir .mz) = .ok (bitsOf MZ)
  logical : logicals = true → ∃ LX LZ : List (Vec b), Logicals (rowsMod2 HX) (rowsMod2 HZ) LX LZ ∧
    importGf2 out (matPath dir .lx) = .ok (vecBits LX) ∧ importGf2 out (matPath dir .lz) = .ok (vecBits LZ)
  no_logical : logicals = false → out (matPath dir .lx) = fs (matPath dir .lx) ∧ out (matPath dir .lz) = fs (matPath dir .lz)
  code : 0 < a → 0 < b → 0 < c →
    codeFromFiles out (matPath dir .hx) (matPath dir .hz) = .ok ⟨some (bitsOf HX), bitsOf HZ, b⟩
  others : ∀ p, (∀ m, p ≠ matPath dir m) → out p = fs p

/-! ## Text round trip -/

/-- C108: the C++ readers recover, from the text that numpy writes, exactly which entries of the integer matrix are not zero, whatever its
size. -/
theorem C108_text_round_trip (rows : List (List ℤ)) (h : ∀ r ∈ rows, ∀ z ∈ r, -2147483648 ≤ z ∧ z ≤ 2147483647) :
    readMatrix (savetxt rows) = rows.map fun r => r.map fun z => decide (z ≠ 0) :=
  readMatrix_savetxt h

example : readMatrix (savetxt [[1, 0, -12], [], [0, 7]]) = [[true, false, true], [], [false, true]] := by decide +kernel

theorem inInt_binary {a b : ℕ} {M : Matrix (Fin a) (Fin b) ℤ} (h : Binary M) : ∀ r ∈ rowsOf M, ∀ z ∈ r, InInt z := by
  intro r hr z hz
  simp only [rowsOf, List.mem_ofFn] at hr
  obtain ⟨i, rfl⟩ := hr
  simp only [List.mem_ofFn] at hz
  obtain ⟨j, rfl⟩ := hz
  rcases h i j with e | e <;> rw [e] <;> exact ⟨by decide, by decide⟩

theorem read_binary {a b : ℕ} {M : Matrix (Fin a) (Fin b) ℤ} (h : Binary M) :
    readMatrix (savetxt (rowsOf M)) = bitsOf M := by
  rw [readMatrix_savetxt (inInt_binary h)]
  simp only [rowsOf, bitsOf, List.map_ofFn]
  congr 1; funext i
  simp only [Function.comp, List.map_ofFn]
  congr 1; funext j
  rcases h i j with e | e <;> simp [e]

theorem read_bits {b : ℕ} (vs : List (Vec b)) : readMatrix (savetxt (bitRows vs)) = vecBits vs := by
  have hv : ∀ x : ZMod 2, InInt (x.val : ℤ) ∧ decide ((x.val : ℤ) ≠ 0) = decide (x = 1) := by
    unfold InInt; decide
  rw [readMatrix_savetxt]
  · simp only [bitRows, vecBits, List.map_map]
    congr 1; funext v
    simp only [Function.comp, List.map_ofFn]
    congr 1; funext j
    exact (hv (v j)).2
  · intro r hr z hz
    simp only [bitRows, List.mem_map] at hr
    obtain ⟨v, -, rfl⟩ := hr
    simp only [List.mem_ofFn] at hz
    obtain ⟨j, rfl⟩ := hz
    exact (hv (v j)).1

/-! ## Code objects from files -/

theorem headD_bitsOf {a b : ℕ} (M : Matrix (Fin a) (Fin b) ℤ) (ha : 0 < a) : ((bitsOf M).headD []).length = b := by
  cases a with
  | zero => exact absurd ha (Nat.lt_irrefl 0)
  | succ a => rw [bitsOf, List.ofFn_succ]; simp

theorem blank_bitsOf {a b : ℕ} (M : Matrix (Fin a) (Fin b) ℤ) (ha : 0 < a) (hb : 0 < b) : blank (bitsOf M) = false := by
  have h := headD_bitsOf M ha
  rw [blank, Bool.or_eq_false_iff]
  constructor
  · cases hM : bitsOf M with
    | nil => rw [hM] at h; simp at h; omega
    | cons r rs => rfl
  · cases hM : (bitsOf M).headD [] with
    | nil => rw [hM] at h; simp at h; omega
    | cons r rs => rfl

/-- C108: a `Code` built from the files of two binary matrices with the same number of columns holds these matrices. -/
theorem C108_code_object {a b c : ℕ} (fs : FS) (px pz : Text) (HX : Matrix (Fin a) (Fin b) ℤ) (HZ : Matrix (Fin c) (Fin b) ℤ)
    (bx : Binary HX) (bz : Binary HZ) (hx : fs px = some (savetxt (rowsOf HX))) (hz : fs pz = some (savetxt (rowsOf HZ)))
    (px0 : px ≠ []) (pz0 : pz ≠ []) (ha : 0 < a) (hb : 0 < b) (hc : 0 < c) :
    codeFromFiles fs px pz = .ok ⟨some (bitsOf HX), bitsOf HZ, b⟩ ∧ codeFromFile fs pz = .ok ⟨none, bitsOf HZ, b⟩ := by
  have h1 : pcmFromFile fs px = .ok (bitsOf HX) := by
    rw [pcmFromFile, if_neg px0, hx]; exact congrArg Except.ok (read_binary bx)
  have h2 : pcmFromFile fs pz = .ok (bitsOf HZ) := by
    rw [pcmFromFile, if_neg pz0, hz]; exact congrArg Except.ok (read_binary bz)
  constructor
  · unfold codeFromFiles
    rw [h1, h2]
    simp only [bind, Except.bind, require, blank_bitsOf HX ha hb, blank_bitsOf HZ hc hb, headD_bitsOf HX ha, headD_bitsOf HZ hc]
    rfl
  · unfold codeFromFile
    rw [h2]
    simp only [bind, Except.bind, require, blank_bitsOf HZ hc hb, headD_bitsOf HZ hc]
    rfl

example : codeFromFiles (fun p => if p = ['x'] then some ['1', ' ', '1', '\n'] else if p = ['z'] then some ['0', ' ', '1'] else none)
    ['x'] ['z'] = .ok ⟨some [[true, true]], [[false, true]], 2⟩ := by rfl

/-- C108: missing files, empty paths, empty matrices and matrices with different numbers of columns are refused with the library's
exception. -/
theorem C108_code_refused (fs : FS) (px pz : Text) :
    (px = [] ∨ fs px = none → codeFromFiles fs px pz = .error .qecc ∧ codeFromFile fs px = .error .qecc) ∧
    (pz = [] ∨ fs pz = none → codeFromFiles fs px pz = .error .qecc) ∧
    (∀ hx hz, fs px = some hx → fs pz = some hz →
      ((readMatrix hx).headD []).length ≠ ((readMatrix hz).headD []).length → codeFromFiles fs px pz = .error .qecc) := by
  have key : ∀ p, p = [] ∨ fs p = none → pcmFromFile fs p = .error .qecc ∨ pcmFromFile fs p = .ok [] := by
    rintro p (h | h)
    · left; rw [pcmFromFile, if_pos h]
    · by_cases hp : p = []
      · left; rw [pcmFromFile, if_pos hp]
      · right; rw [pcmFromFile, if_neg hp, h]; rfl
  have all : ∀ p, pcmFromFile fs p = .error .qecc ∨ ∃ M, pcmFromFile fs p = .ok M := by
    intro p
    by_cases hp : p = []
    · left; rw [pcmFromFile, if_pos hp]
    · right; exact ⟨_, by rw [pcmFromFile, if_neg hp]⟩
  refine ⟨fun h => ⟨?_, ?_⟩, fun h => ?_, fun hx hz ex ez hl => ?_⟩
  · unfold codeFromFiles
    rcases key px h with e | e
    · rw [e]; rfl
    · rw [e]
      rcases all pz with e' | ⟨M, e'⟩
      · rw [e']; rfl
      · rw [e']
        have : ¬ (blank M = false ∧ blank [] = false) := fun h => absurd h.2 (by decide)
        simp only [bind, Except.bind, require, if_neg this]
  · unfold codeFromFile
    rcases key px h with e | e <;> rw [e] <;> rfl
  · unfold codeFromFiles
    rcases all px with e' | ⟨M, e'⟩
    · rw [e']; rfl
    · rw [e']
      rcases key pz h with e | e
      · rw [e]; rfl
      · rw [e]
        have : ¬ (blank [] = false ∧ blank M = false) := fun h => absurd h.1 (by decide)
        simp only [bind, Except.bind, require, if_neg this]
  · unfold codeFromFiles pcmFromFile
    rw [ex, ez]
    by_cases h1 : px = []
    · rw [if_pos h1]; rfl
    by_cases h2 : pz = []
    · rw [if_neg h1, if_pos h2]; rfl
    rw [if_neg h1, if_neg h2]
    simp only [bind, Except.bind, require, Option.getD_some]
    by_cases hb : blank (readMatrix hz) = false ∧ blank (readMatrix hx) = false
    · rw [if_pos hb]; simp only [if_neg hl]
    · rw [if_neg hb]

/-- C108: files with rows of different lengths, or with text that is no number, are accepted without an error. -/
theorem C108_violated_malformed :
    readMatrix ['1', ' ', '0', '\n', '1', '\n'] = [[true, false], [true]] ∧
    readMatrix ['1', ',', '0', '\n', '0', ' ', 'x', ' ', '1', '\n'] = [[true], [false]] ∧
    (∃ fs px pz, codeFromFiles fs px pz = .ok ⟨some [[true, false], [true]], [[true, false], [true]], 2⟩) := by
  refine ⟨by decide +kernel, by decide +kernel, fun _ => some ['1', ' ', '0', '\n', '1', '\n'], ['x'], ['z'], by rfl⟩

/-! ## The dense constructor -/

theorem matPath_inj {dir : Text} {m m' : MatName} : matPath dir m = matPath dir m' ↔ m = m' := by
  constructor
  · intro h
    cases m <;> cases m' <;> first | rfl | (exact absurd (List.append_cancel_left h) (by decide))
  · rintro rfl; rfl

theorem rowsMod2_orth {a b c : ℕ} {HX : Matrix (Fin a) (Fin b) ℤ} {HZ : Matrix (Fin c) (Fin b) ℤ}
    (h : Even2 (HX * HZ.transpose)) : ∀ r ∈ rowsMod2 HX, ∀ s ∈ rowsMod2 HZ, dot r s = 0 := by
  intro r hr s hs
  simp only [rowsMod2, List.mem_ofFn] at hr hs
  obtain ⟨i, rfl⟩ := hr
  obtain ⟨j, rfl⟩ := hs
  have := h i j
  rw [Matrix.mul_apply] at this
  have h2 := (ZMod.intCast_zmod_eq_zero_iff_dvd _ 2).2 this
  rw [Int.cast_sum] at h2
  rw [dot, ← h2]
  refine Finset.sum_congr rfl fun k _ => ?_
  rw [Int.cast_mul]; rfl

theorem logicals_of_orth {a b c : ℕ} {lib : CSS.Mod2} (hlib : lib.Correct) {HX : Matrix (Fin a) (Fin b) ℤ}
    {HZ : Matrix (Fin c) (Fin b) ℤ} (h : Even2 (HX * HZ.transpose)) :
    Logicals (rowsMod2 HX) (rowsMod2 HZ) (computeLogicals lib HX HZ).1 (computeLogicals lib HX HZ).2 := by
  have o1 := rowsMod2_orth h
  have o2 : ∀ r ∈ rowsMod2 HZ, ∀ s ∈ rowsMod2 HX, dot r s = 0 := fun r hr s hs => by rw [dot_comm]; exact o1 s hs r hr
  obtain ⟨x1, x2⟩ := CSS.computeLogical_facts hlib o2
  obtain ⟨z1, z2⟩ := CSS.computeLogical_facts hlib o1
  refine ⟨x1, z1, ?_, ?_⟩
  · have := finrank_kerOf (rowsMod2 HZ)
    have hle := rank_le (rowsMod2 HZ)
    rw [← x1, ← rank_eq_finrank, x2] at this
    change (CSS.computeLogical lib (rowsMod2 HZ) (rowsMod2 HX)).length + _ + _ = _
    omega
  · have := finrank_kerOf (rowsMod2 HX)
    have hle := rank_le (rowsMod2 HX)
    rw [← z1, ← rank_eq_finrank, z2] at this
    change (CSS.computeLogical lib (rowsMod2 HX) (rowsMod2 HZ)).length + _ + _ = _
    omega

theorem importGf2_of {fs : FS} {p : Text} {t : Text} {M : List (List Bool)} (h : fs p = some t) (hM : readMatrix t = M) :
    importGf2 fs p = .ok M := by
  rw [importGf2, h]; exact congrArg Except.ok hM

theorem stored_filesOf {a b c d e : ℕ} {lib : CSS.Mod2} (hlib : lib.Correct) (logicals : Bool) (fs : FS) (dir : Text)
    {MX : Matrix (Fin d) (Fin a) ℤ} {HX : Matrix (Fin a) (Fin b) ℤ} {HZ : Matrix (Fin c) (Fin b) ℤ} {MZ : Matrix (Fin e) (Fin c) ℤ}
    (hb : Binary MX ∧ Binary HX ∧ Binary HZ ∧ Binary MZ) (css : Even2 (HX * HZ.transpose)) (m : Even2 (MX * HX) ∧ Even2 (MZ * HZ)) :
    Stored logicals fs (filesOf lib logicals fs dir MX HX HZ MZ) dir MX HX HZ MZ := by
  have hx : filesOf lib logicals fs dir MX HX HZ MZ (matPath dir .hx) = some (savetxt (rowsOf HX)) := by
    cases logicals <;> simp [filesOf, saveCode, FS.write, matPath_inj]
  have hz : filesOf lib logicals fs dir MX HX HZ MZ (matPath dir .hz) = some (savetxt (rowsOf HZ)) := by
    cases logicals <;> simp [filesOf, saveCode, FS.write, matPath_inj]
  have hmx : filesOf lib logicals fs dir MX HX HZ MZ (matPath dir .mx) = some (savetxt (rowsOf MX)) := by
    cases logicals <;> simp [filesOf, saveCode, FS.write, matPath_inj]
  have hmz : filesOf lib logicals fs dir MX HX HZ MZ (matPath dir .mz) = some (savetxt (rowsOf MZ)) := by
    cases logicals <;> simp [filesOf, saveCode, FS.write, matPath_inj]
  have hne : ∀ m, matPath dir m ≠ [] := by
    intro m; cases m <;> simp [matPath]
  refine ⟨hb, css, m, importGf2_of hx (read_binary hb.2.1), importGf2_of hz (read_binary hb.2.2.1),
    importGf2_of hmx (read_binary hb.1), importGf2_of hmz (read_binary hb.2.2.2), ?_, ?_, ?_, ?_⟩
  · rintro rfl
    refine ⟨_, _, logicals_of_orth hlib css, importGf2_of ?_ (read_bits _), importGf2_of ?_ (read_bits _)⟩
    · simp [filesOf, saveCode, FS.write, matPath_inj]
    · simp [filesOf, saveCode, FS.write, matPath_inj]
  · rintro rfl
    constructor <;> simp [filesOf, saveCode, FS.write, matPath_inj]
  · intro h1 h2 h3
    exact (C108_code_object _ _ _ HX HZ hb.2.1 hb.2.2.1 hx hz (hne _) (hne _) h1 h2 h3).1
  · intro p hp
    cases logicals <;> simp [filesOf, saveCode, FS.write, hp]

/-- The hypergraph product of any two integer matrices is a CSS code modulo two. -/
theorem hgp_even {m1 n1 m2 n2 : ℕ} (h1 : Matrix (Fin m1) (Fin n1) ℤ) (h2 : Matrix (Fin m2) (Fin n2) ℤ) :
    Even2 (hgpX h1 h2 * (hgpZ h1 h2).transpose) := by
  have ht : (hgpZ h1 h2).transpose =
      vstack (kron (1 : Matrix (Fin n1) (Fin n1) ℤ) h2).transpose (kron h1.transpose (1 : Matrix (Fin m2) (Fin m2) ℤ)).transpose := by
    ext i j
    refine Fin.addCases (fun k => ?_) (fun k => ?_) i <;>
      simp only [hgpZ, hstack, vstack, Matrix.transpose_apply, Fin.append_left, Fin.append_right]
  have k1 : (kron (1 : Matrix (Fin n1) (Fin n1) ℤ) h2).transpose = kron (1 : Matrix (Fin n1) (Fin n1) ℤ) h2.transpose := by
    ext i j
    simp only [kron, Matrix.transpose_apply, Matrix.one_apply]
    congr 1
    by_cases h : j.divNat = i.divNat
    · rw [if_pos h, if_pos h.symm]
    · rw [if_neg h, if_neg fun e => h e.symm]
  have k2 : (kron h1.transpose (1 : Matrix (Fin m2) (Fin m2) ℤ)).transpose = kron h1 (1 : Matrix (Fin m2) (Fin m2) ℤ) := by
    ext i j
    simp only [kron, Matrix.transpose_apply, Matrix.one_apply]
    congr 1
    by_cases h : j.modNat = i.modNat
    · rw [if_pos h, if_pos h.symm]
    · rw [if_neg h, if_neg fun e => h e.symm]
  rw [ht, k1, k2, hgpX, hstack_mul_vstack, kron_mul, kron_mul, Matrix.mul_one, Matrix.one_mul, Matrix.mul_one, Matrix.one_mul]
  intro i j
  rw [Matrix.add_apply]
  exact ⟨_, (two_mul _).symm⟩

/-- C108: with binary seed codes and no distances, `create_code` succeeds, and the files hold a CSS code with metachecks and, if they are
requested, its logical operators, in a form that the C++ classes read back without change; no other file is touched. -/
theorem C108_dense_files {m0 n0 m1 n1 m2 n2 m3 n3 : ℕ} (lib : CSS.Mod2) (hlib : lib.Correct) (s0 : Matrix (Fin m0) (Fin n0) ℤ)
    (s1 : Matrix (Fin m1) (Fin n1) ℤ) (s2 : Matrix (Fin m2) (Fin n2) ℤ) (s3 : Matrix (Fin m3) (Fin n3) ℤ) (codename : Text)
    (logicals checks : Bool) (script : Option Text) (fs : FS) (b0 : Binary s0) (b1 : Binary s1) (b2 : Binary s2) (b3 : Binary s3) :
    ∃ MX HX HZ MZ out, createCode (hgpX s0 s1) (hgpZ s0 s1) s2 s3 checks = .ok (MX, HX, HZ, MZ) ∧
      create lib ['h', 'g', 'p'] s0 s1 s2 s3 codename ⟨false, logicals, checks⟩ script fs = (out, .ok none) ∧
      Stored logicals fs out (outDir codename) MX HX HZ MZ := by
  obtain ⟨MX, HX, HZ, MZ, h, e1, e2, e3⟩ := C19_create_code (hgpX s0 s1) (hgpZ s0 s1) s2 s3 checks (hgp_even s0 s1)
  refine ⟨MX, HX, HZ, MZ, filesOf lib logicals fs (outDir codename) MX HX HZ MZ, h, ?_, ?_⟩
  · simp only [create, if_true, h]; rfl
  · exact stored_filesOf hlib logicals fs _ (createCode_binary h (binary_hgpX b0 b1) (binary_hgpZ b0 b1) b2 b3) e2 ⟨e1, e3⟩

/-- A seed code and a library that meet the hypotheses. -/
example : Binary (fun _ _ => 1 : Matrix (Fin 1) (Fin 2) ℤ) ∧ CSS.refLib.Correct := ⟨fun _ _ => .inr rfl, CSS.refLib_correct⟩

/-- C108: other constructors are refused and nothing is written. -/
theorem C108_other_constructor {m0 n0 m1 n1 m2 n2 m3 n3 : ℕ} (lib : CSS.Mod2) (constructor : Text) (s0 : Matrix (Fin m0) (Fin n0) ℤ)
    (s1 : Matrix (Fin m1) (Fin n1) ℤ) (s2 : Matrix (Fin m2) (Fin n2) ℤ) (s3 : Matrix (Fin m3) (Fin n3) ℤ) (codename : Text)
    (o : Options) (d l : Bool) (script : Option Text) (fs : FS) (h : constructor ≠ ['h', 'g', 'p']) :
    create lib constructor s0 s1 s2 s3 codename o script fs = (fs, .error .valueError) ∧
    createSparse lib constructor s0 s1 s2 codename d l script fs = (fs, .error .valueError) := by
  simp only [create, createSparse, if_neg h, and_self]

example : (['l', 'p'] : Text) ≠ ['h', 'g', 'p'] := by decide

/-! ## Distances -/

theorem lookup_script4d {k : Text} (v1 v2 v3 v4 : ℤ) (h : k ∉ [['d', 'Z'], ['d', 'X'], ['d', 'M', 'x'], ['d', 'M', 'z']]) :
    dictGet [(['d', 'Z'], showInt v1), (['d', 'X'], showInt v2), (['d', 'M', 'x'], showInt v3), (['d', 'M', 'z'], showInt v4)] k
      = .error .keyError := by
  simp only [List.mem_cons, List.not_mem_nil, or_false, not_or] at h
  obtain ⟨h1, h2, h3, h4⟩ := h
  simp [dictGet, List.lookup, beq_eq_false_iff_ne.2 h1, beq_eq_false_iff_ne.2 h2, beq_eq_false_iff_ne.2 h3,
    beq_eq_false_iff_ne.2 h4]

theorem parse_script4d (dZ dX dMx dMz : ℤ) : parseInfo (script4d dZ dX dMx dMz) =
    .ok [(['d', 'Z'], showInt dZ), (['d', 'X'], showInt dX), (['d', 'M', 'x'], showInt dMx), (['d', 'M', 'z'], showInt dMz)] := by
  have e : script4d dZ dX dMx dMz = infoLine ['d', 'Z'] dZ ++ (infoLine ['d', 'X'] dX ++ (infoLine ['d', 'M', 'x'] dMx ++
      (infoLine ['d', 'M', 'z'] dMz ++ []))) := by simp [script4d]
  rw [e, parseInfo_cons (by simp) (by decide), parseInfo_cons (by simp) (by decide), parseInfo_cons (by simp) (by decide),
    parseInfo_cons (by simp) (by decide), parseInfo_nil]
  rfl

theorem parse_script3d (dZ dX : ℤ) : parseInfo (script3d dZ dX) =
    .ok [(['d', 'Z'], showInt dZ), (['d', 'X'], showInt dX)] := by
  have e : script3d dZ dX = infoLine ['d', 'Z'] dZ ++ (infoLine ['d', 'X'] dX ++ []) := by simp [script3d]
  rw [e, parseInfo_cons (by simp) (by decide), parseInfo_cons (by simp) (by decide), parseInfo_nil]
  rfl

/-- C108: the dense constructor never stores distances: the script shipped with it writes the keys `dMx` and `dMz`, and `create_code`
looks for `dMX` and `dMZ`, so that it ends with a `KeyError`, whatever the seed codes and the distances. -/
theorem C108_violated_dense_distances {m0 n0 m1 n1 m2 n2 m3 n3 : ℕ} (lib : CSS.Mod2) (s0 : Matrix (Fin m0) (Fin n0) ℤ)
    (s1 : Matrix (Fin m1) (Fin n1) ℤ) (s2 : Matrix (Fin m2) (Fin n2) ℤ) (s3 : Matrix (Fin m3) (Fin n3) ℤ) (codename : Text)
    (logicals checks : Bool) (dZ dX dMx dMz : ℤ) (fs : FS) :
    (create lib ['h', 'g', 'p'] s0 s1 s2 s3 codename ⟨true, logicals, checks⟩ (some (script4d dZ dX dMx dMz)) fs).2 =
      .error .keyError := by
  obtain ⟨MX, HX, HZ, MZ, h, -⟩ := C19_create_code (hgpX s0 s1) (hgpZ s0 s1) s2 s3 checks (hgp_even s0 s1)
  have hd : ∀ fs' : FS, fs' (outDir codename ++ ['i', 'n', 'f', 'o', '.', 't', 'x', 't']) = some (script4d dZ dX dMx dMz) →
      computeDistances [keyDX, keyDZ, keyDMX, keyDMZ] fs' (outDir codename) HX HZ = .error .keyError := by
    intro fs' hfs
    simp only [computeDistances, hfs, parse_script4d, bind, Except.bind]
    have k1 : dictGet [(['d', 'Z'], showInt dZ), (['d', 'X'], showInt dX), (['d', 'M', 'x'], showInt dMx),
        (['d', 'M', 'z'], showInt dMz)] keyDX = .ok (showInt dX) := rfl
    have k2 : dictGet [(['d', 'Z'], showInt dZ), (['d', 'X'], showInt dX), (['d', 'M', 'x'], showInt dMx),
        (['d', 'M', 'z'], showInt dMz)] keyDZ = .ok (showInt dZ) := rfl
    have k3 := lookup_script4d (k := keyDMX) dZ dX dMx dMz (by decide)
    simp only [readKeys, List.mapM_cons, k1, k2, k3, bind, Except.bind, pyInt_showInt, pure, Except.pure]
  simp only [create, if_true, h]
  rw [hd _ (by simp [FS.write])]

/-! ## The sparse constructor -/

/-- C108: without distances the sparse constructor always fails, whatever the seed codes: `_store_code_params` calls `todense` on
matrices that are dense already. -/
theorem C108_violated_sparse_default {m0 n0 m1 n1 m2 n2 : ℕ} (lib : CSS.Mod2) (s0 : Matrix (Fin m0) (Fin n0) ℤ)
    (s1 : Matrix (Fin m1) (Fin n1) ℤ) (s2 : Matrix (Fin m2) (Fin n2) ℤ) (codename : Text) (logicals : Bool) (script : Option Text)
    (fs : FS) : (createSparse lib ['h', 'g', 'p'] s0 s1 s2 codename false logicals script fs).2 = .error .attributeError := by
  obtain ⟨D1, D2, D3, h, -⟩ := C18_product3d (hgpX s0 s1) (hgpZ s0 s1).transpose s2 (hgp_even s0 s1)
  simp only [createSparse, if_true, h]
  rfl

/-- C108: with distances and logical operators, the sparse constructor stores a CSS code with metachecks for the Z checks, its logical
operators, and its parameters. -/
theorem C108_sparse_files {m0 n0 m1 n1 m2 n2 : ℕ} (lib : CSS.Mod2) (hlib : lib.Correct) (s0 : Matrix (Fin m0) (Fin n0) ℤ)
    (s1 : Matrix (Fin m1) (Fin n1) ℤ) (s2 : Matrix (Fin m2) (Fin n2) ℤ) (codename : Text) (dZ dX : ℤ) (fs : FS)
    (b0 : Binary s0) (b1 : Binary s1) (b2 : Binary s2) :
    ∃ HX HZT MZT out LX LZ, generate3d (hgpX s0 s1) (hgpZ s0 s1).transpose s2 = .ok (HX, HZT, MZT) ∧
      Even2 (HX * HZT) ∧ Even2 (HZT * MZT) ∧ Logicals (rowsMod2 HX) (rowsMod2 HZT.transpose) LX LZ ∧
      createSparse lib ['h', 'g', 'p'] s0 s1 s2 codename true true (some (script3d dZ dX)) fs =
        (out, .ok (some ⟨(n0 * n1 + m0 * m1) * m2 + m0 * n1 * n2, LX.length, [(keyDX, dX), (keyDZ, dZ)]⟩)) ∧
      importGf2 out (matPath (outDirSparse codename) .hx) = .ok (bitsOf HX) ∧
      importGf2 out (matPath (outDirSparse codename) .hz) = .ok (bitsOf HZT.transpose) ∧
      importGf2 out (matPath (outDirSparse codename) .mz) = .ok (bitsOf MZT.transpose) ∧
      importGf2 out (matPath (outDirSparse codename) .lx) = .ok (vecBits LX) ∧
      importGf2 out (matPath (outDirSparse codename) .lz) = .ok (vecBits LZ) := by
  obtain ⟨D1, D2, D3, h, e1, e2⟩ := C18_product3d (hgpX s0 s1) (hgpZ s0 s1).transpose s2 (hgp_even s0 s1)
  obtain ⟨r1, r2, r3⟩ := generate3d_eq h
  have bx := binary_hgpX b0 b1
  have bz := binary_transpose (binary_hgpZ b0 b1)
  have c1 : Binary D1 := by rw [r1]; exact binary_d1 bx b2
  have c2 : Binary D2 := by rw [r2]; exact binary_d2 bx bz b2
  have c3 : Binary D3 := by rw [r3]; exact binary_dLast bz b2
  have hL := logicals_of_orth hlib (HX := D1) (HZ := D2.transpose) (by rwa [Matrix.transpose_transpose])
  clear r1 r2 r3
  have hk : codeK D1 D2.transpose = ((computeLogicals lib D1 D2.transpose).1.length : ℤ) := by
    have := hL.x_count
    unfold codeK
    omega
  have hd : ∀ fs' : FS, fs' (outDirSparse codename ++ ['i', 'n', 'f', 'o', '.', 't', 'x', 't']) = some (script3d dZ dX) →
      computeDistances [keyDX, keyDZ] fs' (outDirSparse codename) D1 D2.transpose =
        .ok ⟨(n0 * n1 + m0 * m1) * m2 + m0 * n1 * n2, codeK D1 D2.transpose, [(keyDX, dX), (keyDZ, dZ)]⟩ := by
    intro fs' hfs
    simp only [computeDistances, hfs, parse_script3d, bind, Except.bind]
    have k1 : dictGet [(['d', 'Z'], showInt dZ), (['d', 'X'], showInt dX)] keyDX = .ok (showInt dX) := rfl
    have k2 : dictGet [(['d', 'Z'], showInt dZ), (['d', 'X'], showInt dX)] keyDZ = .ok (showInt dZ) := rfl
    simp only [readKeys, List.mapM_cons, List.mapM_nil, k1, k2, bind, Except.bind, pyInt_showInt, pure, Except.pure]
  have hinfo : ∀ m, matPath (outDirSparse codename) m ≠ outDirSparse codename ++ ['i', 'n', 'f', 'o', '.', 't', 'x', 't'] := by
    intro m
    cases m <;> exact fun h => absurd (List.append_cancel_left h) (by decide)
  refine ⟨D1, D2, D3, (saveCode fs (outDirSparse codename) [(MatName.hx, rowsOf D1), (.hz, rowsOf D2.transpose), (.mz, rowsOf D3.transpose),
      (.lx, bitRows (computeLogicals lib D1 D2.transpose).1), (.lz, bitRows (computeLogicals lib D1 D2.transpose).2)]).write
        (outDirSparse codename ++ ['i', 'n', 'f', 'o', '.', 't', 'x', 't']) (script3d dZ dX), _, _, h, e1, e2, hL, ?_, ?_, ?_, ?_, ?_, ?_⟩
  · simp only [createSparse, if_true, h]
    rw [hd _ (by simp [FS.write]), hk]
  · exact importGf2_of (by simp [saveCode, FS.write, matPath_inj, hinfo]) (read_binary c1)
  · exact importGf2_of (by simp [saveCode, FS.write, matPath_inj, hinfo]) (read_binary (binary_transpose c2))
  · exact importGf2_of (by simp [saveCode, FS.write, matPath_inj, hinfo]) (read_binary (binary_transpose c3))
  · exact importGf2_of (by simp [saveCode, FS.write, matPath_inj, hinfo]) (read_bits _)
  · exact importGf2_of (by simp [saveCode, FS.write, matPath_inj, hinfo]) (read_bits _)

/-- C108: without logical operators the sparse constructor writes no matrix at all. -/
theorem C108_violated_sparse_no_matrices {m0 n0 m1 n1 m2 n2 : ℕ} (lib : CSS.Mod2) (s0 : Matrix (Fin m0) (Fin n0) ℤ)
    (s1 : Matrix (Fin m1) (Fin n1) ℤ) (s2 : Matrix (Fin m2) (Fin n2) ℤ) (codename : Text) (distance : Bool) (script : Option Text)
    (fs : FS) (m : MatName) :
    (createSparse lib ['h', 'g', 'p'] s0 s1 s2 codename distance false script fs).1 (matPath (outDirSparse codename) m) =
      fs (matPath (outDirSparse codename) m) := by
  have hinfo : matPath (outDirSparse codename) m ≠ outDirSparse codename ++ ['i', 'n', 'f', 'o', '.', 't', 'x', 't'] := by
    cases m <;> exact fun h => absurd (List.append_cancel_left h) (by decide)
  obtain ⟨D1, D2, D3, h, -⟩ := C18_product3d (hgpX s0 s1) (hgpZ s0 s1).transpose s2 (hgp_even s0 s1)
  simp only [createSparse, if_true, h]
  cases distance with
  | false => rfl
  | true =>
    cases script with
    | none =>
      simp only [if_true, Bool.false_eq_true, if_false]
      split <;> rfl
    | some t =>
      simp only [if_true, Bool.false_eq_true, if_false]
      split <;> simp [FS.write, hinfo]

end Verif.CodeFiles
