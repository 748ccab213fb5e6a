import Verif.Model.Product
import Verif.Model.CSS
import Verif.Model.Gf2

/-!
# Code files: `create_code` of both code constructors, and the C++ reader

`analog_information_decoding/code_construction/code_constructor.py`, `sparse_code_constructor.py`, `compute_distances.sh`,
`compute_distances_3D.sh`, and the constructors of `include/Code.hpp` that read parity-check matrices from files.

A text is a list of characters and the file system maps the texts of paths to the texts of files; failures of the file system other than a
missing file are not modelled.  The `.mtx` copies of the matrices, which only GAP reads, are not modelled.
-/

namespace Verif.CodeFiles
open Verif Verif.Product

/-- Texts (the files of code_constructor.py:127-161 and include/Code.hpp:41-67). -/
abbrev Text := List Char

/-- The file system (code_constructor.py:127-161, include/Code.hpp:41-67). -/
abbrev FS := Text → Option Text

/-- Writing a file (code_constructor.py:129). -/
def FS.write (fs : FS) (path content : Text) : FS := fun p => if p = path then some content else fs p

/-- `"%i" % z` for an integer (the format of `np.savetxt`, code_constructor.py:129). -/
def showInt : ℤ → Text
  | .ofNat n => Nat.toDigits 10 n
  | .negSucc n => '-' :: Nat.toDigits 10 (n + 1)

/-- One line written by `np.savetxt`: the entries with a blank between them, and a newline (code_constructor.py:129). -/
def showRow (r : List ℤ) : Text := [' '].intercalate (r.map showInt) ++ ['\n']

/-- `np.savetxt(path, mat, fmt="%i")` (code_constructor.py:129, sparse_code_constructor.py:135-137): the text. -/
def savetxt (rows : List (List ℤ)) : Text := rows.flatMap showRow

/-- The rows of an array (code_constructor.py:129). -/
def rowsOf {a b : ℕ} (M : Matrix (Fin a) (Fin b) ℤ) : List (List ℤ) := List.ofFn fun i => List.ofFn (M i)

/-- The array modulo two, as rows over GF(2): what `ldpc.mod2` works on (code_constructor.py:147, 164-180). -/
def rowsMod2 {a b : ℕ} (M : Matrix (Fin a) (Fin b) ℤ) : List (Vec b) := List.ofFn fun i j => ((M i j : ℤ) : ZMod 2)

/-- The rows of a binary array as integers (code_constructor.py:164-180). -/
def bitRows {b : ℕ} (vs : List (Vec b)) : List (List ℤ) := vs.map fun v => List.ofFn fun j => ((v j).val : ℤ)

/-! ## The C++ reader -/

/-- `getline` until the end of the text: a newline at the end of the file does not start another line (include/Code.hpp:50, src/Utils.cpp:170). -/
def getlines : Text → List Text
  | [] => []
  | c :: cs =>
    if c = '\n' then [] :: getlines cs
    else
      match getlines cs with
      | [] => [[c]]
      | l :: ls => (c :: l) :: ls

/-- `std::isspace` in the C locale (`>>`, include/Code.hpp:53-56). -/
def isBlank (c : Char) : Bool := c = ' ' || c = '\t' || c = '\n' || c = '\r' || c.toNat = 11 || c.toNat = 12

/-- An optional sign (`>>`, include/Code.hpp:53-56). -/
def sign : Text → Bool × Text
  | '-' :: cs => (true, cs)
  | '+' :: cs => (false, cs)
  | cs => (false, cs)

/-- `instream >> word` for an `int` of 32 bits: blanks are skipped; no digits, or a number outside of the range, is a failure (include/Code.hpp:53-56, src/Utils.cpp:171-175). -/
def readInt (cs : Text) : Option (ℤ × Text) :=
  let s := sign (cs.dropWhile isBlank)
  let ds := s.2.takeWhile Char.isDigit
  let v : ℤ := if s.1 then -(Nat.ofDigitChars 10 ds 0 : ℤ) else Nat.ofDigitChars 10 ds 0
  if ds ≠ [] ∧ -2147483648 ≤ v ∧ v ≤ 2147483647 then some (v, s.2.dropWhile Char.isDigit) else none

/-- `while (instream >> word) tempVec.push_back(static_cast<bool>(word))` (include/Code.hpp:53-56, src/Utils.cpp:171-175); every
round consumes a character, so that the length of the line bounds the number of rounds. -/
def readWords : ℕ → Text → List Bool
  | 0, _ => []
  | k + 1, cs =>
    match readInt cs with
    | none => []
    | some (v, rest) => decide (v ≠ 0) :: readWords k rest

/-- The matrix read from the text of a file (include/Code.hpp:50-59, src/Utils.cpp:170-178). -/
def readMatrix (t : Text) : Cpp.Gf2Mat := (getlines t).map fun l => readWords l.length l

/-- `ParityCheckMatrix(filePath)` (include/Code.hpp:41-67): a file that cannot be opened gives an empty matrix. -/
def pcmFromFile (fs : FS) (path : Text) : Except Cpp.CppErr Cpp.Gf2Mat :=
  if path = [] then .error .qecc else .ok (readMatrix ((fs path).getD []))

/-- `Utils::importGf2MatrixFromFile` (src/Utils.cpp:160-179): a file that cannot be opened is an error. -/
def importGf2 (fs : FS) (path : Text) : Except Cpp.CppErr Cpp.Gf2Mat :=
  match fs path with
  | none => .error .qecc
  | some t => .ok (readMatrix t)

/-- `pcm->empty() || pcm->front().empty()` (include/Code.hpp:172, 179). -/
def blank (M : Cpp.Gf2Mat) : Bool := M.isEmpty || (M.headD []).isEmpty

/-- `Code(pathToPcm)` (include/Code.hpp:171-176). -/
def codeFromFile (fs : FS) (path : Text) : Except Cpp.CppErr Cpp.Code := do
  let hz ← pcmFromFile fs path
  require (blank hz = false) .qecc
  return ⟨none, hz, (hz.headD []).length⟩

/-- `Code(pathTohX, pathTohZ)` (include/Code.hpp:178-188): only the lengths of the first rows are compared. -/
def codeFromFiles (fs : FS) (pathX pathZ : Text) : Except Cpp.CppErr Cpp.Code := do
  let hx ← pcmFromFile fs pathX
  let hz ← pcmFromFile fs pathZ
  require (blank hz = false ∧ blank hx = false) .qecc
  require ((hx.headD []).length = (hz.headD []).length) .qecc
  return ⟨some hx, hz, (hz.headD []).length⟩

/-! ## The info file -/

/-- The lines of a text file, as Python's iteration yields them: with the newline (code_constructor.py:149-151). -/
def pyLines : Text → List Text
  | [] => []
  | c :: cs =>
    if c = '\n' then ['\n'] :: pyLines cs
    else
      match pyLines cs with
      | [] => [[c]]
      | l :: ls => (c :: l) :: ls

/-- `line[: line.rfind("#")]` (code_constructor.py:150): without `#`, the index is -1 and the last character is cut off. -/
def cutComment (l : Text) : Text :=
  if '#' ∈ l then ((l.reverse.dropWhile (· ≠ '#')).drop 1).reverse else l.dropLast

/-- `text.split(" = ")` (code_constructor.py:150). -/
def splitEq : Text → List Text
  | [] => [[]]
  | ' ' :: '=' :: ' ' :: cs => [] :: splitEq cs
  | c :: cs =>
    match splitEq cs with
    | [] => [[c]]
    | h :: t => (c :: h) :: t

/-- Exceptions (raised in code_constructor.py:107-224 and sparse_code_constructor.py:111-213). -/
inductive CErr
  | valueError
  | runtimeError
  | keyError
  | fileNotFound
  | attributeError
deriving DecidableEq

/-- `dict(...)` of the pieces (code_constructor.py:149-151): a line that is not split into two is an error.  The entries are in the
order of the lines. -/
def parseInfo (t : Text) : Except CErr (List (Text × Text)) :=
  ((pyLines t).filter fun l => l.head? ≠ some '#' ∧ l.any (fun c => !isBlank c)).mapM fun l =>
    match splitEq (cutComment l) with
    | [k, v] => .ok (k, v)
    | _ => .error .valueError

/-- `d[key]` of the dictionary: the last entry wins (code_constructor.py:152-158). -/
def dictGet (d : List (Text × Text)) (k : Text) : Except CErr Text :=
  match d.reverse.lookup k with
  | none => .error .keyError
  | some v => .ok v

/-- `int(text)`; underscores and digits of other scripts are not modelled (code_constructor.py:152-158). -/
def pyInt (t : Text) : Except CErr ℤ :=
  let s := sign ((t.dropWhile isBlank).reverse.dropWhile isBlank).reverse
  if s.2 ≠ [] ∧ s.2.all Char.isDigit then
    .ok (if s.1 then -(Nat.ofDigitChars 10 s.2 0 : ℤ) else Nat.ofDigitChars 10 s.2 0)
  else .error .valueError

/-- The content of `code_params.txt`: the number of qubits, of logical qubits, and the distances, if computed (code_constructor.py:143-161). -/
structure Params where
  n : ℕ
  k : ℤ
  distances : List (Text × ℤ)
deriving DecidableEq

/-- Reading the integers under some keys (code_constructor.py:152-158). -/
def readKeys (d : List (Text × Text)) (keys : List Text) : Except CErr (List (Text × ℤ)) :=
  keys.mapM fun k => do
    let t ← dictGet d k
    let v ← pyInt t
    return (k, v)

/-- `n - mod2.rank(hx) - mod2.rank(hz)` (code_constructor.py:147). -/
def codeK {a c b : ℕ} (hx : Matrix (Fin a) (Fin b) ℤ) (hz : Matrix (Fin c) (Fin b) ℤ) : ℤ :=
  b - rank (rowsMod2 hx) - rank (rowsMod2 hz)

/-- `"dX"` (code_constructor.py:155). -/
def keyDX : Text := ['d', 'X']

/-- `"dZ"` (code_constructor.py:156). -/
def keyDZ : Text := ['d', 'Z']

/-- `"dMX"` (code_constructor.py:157). -/
def keyDMX : Text := ['d', 'M', 'X']

/-- `"dMZ"` (code_constructor.py:158). -/
def keyDMZ : Text := ['d', 'M', 'Z']

/-- The text of one `Print(name, " = ", value, "\n")` of the GAP scripts (compute_distances.sh:10-11, 50-51). -/
def infoLine (name : Text) (v : ℤ) : Text := name ++ [' ', '=', ' '] ++ showInt v ++ ['\n']

/-- The file `info.txt` that compute_distances.sh:4-53 writes, for the four distances found by GAP. -/
def script4d (dZ dX dMx dMz : ℤ) : Text :=
  infoLine ['d', 'Z'] dZ ++ infoLine ['d', 'X'] dX ++ infoLine ['d', 'M', 'x'] dMx ++ infoLine ['d', 'M', 'z'] dMz

/-- The file `info.txt` that compute_distances_3D.sh:4-13 writes. -/
def script3d (dZ dX : ℤ) : Text := infoLine ['d', 'Z'] dZ ++ infoLine ['d', 'X'] dX

/-- `_compute_distances` (code_constructor.py:143-161, sparse_code_constructor.py:152-167) after the script has been run; `keys` are the
keys that are converted. -/
def computeDistances {a c b : ℕ} (keys : List Text) (fs : FS) (dir : Text) (hx : Matrix (Fin a) (Fin b) ℤ)
    (hz : Matrix (Fin c) (Fin b) ℤ) : Except CErr Params :=
  match fs (dir ++ ['i', 'n', 'f', 'o', '.', 't', 'x', 't']) with
  | none => .error .fileNotFound
  | some t => do
    let d ← parseInfo t
    let ds ← readKeys d keys
    return ⟨b, codeK hx hz, ds⟩

/-! ## `create_code` -/

/-- The names of the matrices (code_constructor.py:114-134). -/
inductive MatName
  | hx | hz | mx | mz | lx | lz
deriving DecidableEq

/-- `path + name + ".txt"` (code_constructor.py:129). -/
def matPath (dir : Text) : MatName → Text
  | .hx => dir ++ ['h', 'x', '.', 't', 'x', 't']
  | .hz => dir ++ ['h', 'z', '.', 't', 'x', 't']
  | .mx => dir ++ ['m', 'x', '.', 't', 'x', 't']
  | .mz => dir ++ ['m', 'z', '.', 't', 'x', 't']
  | .lx => dir ++ ['l', 'x', '.', 't', 'x', 't']
  | .lz => dir ++ ['l', 'z', '.', 't', 'x', 't']

/-- The loop of `save_code` (code_constructor.py:127-134, sparse_code_constructor.py:131-143). -/
def saveCode (fs : FS) (dir : Text) (ms : List (MatName × List (List ℤ))) : FS :=
  ms.foldl (fun fs p => fs.write (matPath dir p.1) (savetxt p.2)) fs

/-- `create_outpath` (code_constructor.py:107-111): the folder, relative to the working directory. -/
def outDir (codename : Text) : Text := "generated_codes/".toList ++ codename ++ ['/']

/-- `create_outpath` of the sparse version (sparse_code_constructor.py:111-115). -/
def outDirSparse (codename : Text) : Text := "/codes/generated_codes/".toList ++ codename ++ ['/']

/-- `hgp(h1, h2).hx` of the external `bposd` (called in code_constructor.py:183-211). -/
def hgpX {m1 n1 m2 n2 : ℕ} (h1 : Matrix (Fin m1) (Fin n1) ℤ) (h2 : Matrix (Fin m2) (Fin n2) ℤ) :
    Matrix (Fin (m1 * n2)) (Fin (n1 * n2 + m1 * m2)) ℤ :=
  hstack (kron h1 (1 : Matrix (Fin n2) (Fin n2) ℤ)) (kron (1 : Matrix (Fin m1) (Fin m1) ℤ) h2.transpose)

/-- `hgp(h1, h2).hz` of the external `bposd` (called in code_constructor.py:183-211). -/
def hgpZ {m1 n1 m2 n2 : ℕ} (h1 : Matrix (Fin m1) (Fin n1) ℤ) (h2 : Matrix (Fin m2) (Fin n2) ℤ) :
    Matrix (Fin (n1 * m2)) (Fin (n1 * n2 + m1 * m2)) ℤ :=
  hstack (kron (1 : Matrix (Fin n1) (Fin n1) ℤ) h2) (kron h1.transpose (1 : Matrix (Fin m2) (Fin m2) ℤ))

/-- The exceptions of the checks of the construction (code_constructor.py:183-211). -/
def liftErr : Product.Err → CErr
  | .runtimeError => .runtimeError
  | .valueError => .valueError

/-- The options of `create_code` (code_constructor.py:183-192). -/
structure Options where
  distance : Bool
  logicals : Bool
  checks : Bool

/-- `_compute_logicals(hx, hz)` (code_constructor.py:164-180): `lx` and `lz`. -/
def computeLogicals {a c b : ℕ} (lib : CSS.Mod2) (hx : Matrix (Fin a) (Fin b) ℤ) (hz : Matrix (Fin c) (Fin b) ℤ) :
    List (Vec b) × List (Vec b) :=
  (CSS.computeLogical lib (rowsMod2 hz) (rowsMod2 hx), CSS.computeLogical lib (rowsMod2 hx) (rowsMod2 hz))

/-- The files written by the dense `create_code` once the matrices are known (code_constructor.py:214-221). -/
def filesOf {a c b d e : ℕ} (lib : CSS.Mod2) (logicals : Bool) (fs : FS) (dir : Text) (mx : Matrix (Fin d) (Fin a) ℤ)
    (hx : Matrix (Fin a) (Fin b) ℤ) (hz : Matrix (Fin c) (Fin b) ℤ) (mz : Matrix (Fin e) (Fin c) ℤ) : FS :=
  let four := [(MatName.hx, rowsOf hx), (.hz, rowsOf hz), (.mx, rowsOf mx), (.mz, rowsOf mz)]
  let fs1 := saveCode fs dir four
  if logicals then
    saveCode fs1 dir (four ++ [(.lx, bitRows (computeLogicals lib hx hz).1), (.lz, bitRows (computeLogicals lib hx hz).2)])
  else saveCode fs1 dir four

/-- `create_code` (code_constructor.py:183-224) with four seed codes: the file system afterwards, and the exception or the content of
`code_params.txt` (`none`: not written).  `script` is what the distance script writes to `info.txt`, `none` if it writes nothing. -/
def create {m0 n0 m1 n1 m2 n2 m3 n3 : ℕ} (lib : CSS.Mod2) (constructor : Text) (s0 : Matrix (Fin m0) (Fin n0) ℤ)
    (s1 : Matrix (Fin m1) (Fin n1) ℤ) (s2 : Matrix (Fin m2) (Fin n2) ℤ) (s3 : Matrix (Fin m3) (Fin n3) ℤ) (codename : Text)
    (o : Options) (script : Option Text) (fs : FS) : FS × Except CErr (Option Params) :=
  if constructor = ['h', 'g', 'p'] then
    match createCode (hgpX s0 s1) (hgpZ s0 s1) s2 s3 o.checks with
    | .error e => (fs, .error (liftErr e))
    | .ok (mx, hx, hz, mz) =>
      let fs1 := filesOf lib o.logicals fs (outDir codename) mx hx hz mz
      if o.distance then
        let fs2 := match script with
          | none => fs1
          | some t => fs1.write (outDir codename ++ ['i', 'n', 'f', 'o', '.', 't', 'x', 't']) t
        match computeDistances [keyDX, keyDZ, keyDMX, keyDMZ] fs2 (outDir codename) hx hz with
        | .error e => (fs2, .error e)
        | .ok p => (fs2, .ok (some p))
      else (fs1, .ok none)
  else (fs, .error .valueError)

/-- An array in the sparse constructor: a scipy matrix or the `numpy.matrix` that `todense` gives (sparse_code_constructor.py:170-213). -/
inductive Arr (a b : ℕ)
  | sparse (M : Matrix (Fin a) (Fin b) ℤ)
  | dense (M : Matrix (Fin a) (Fin b) ℤ)

/-- `x.todense()`: a `numpy.matrix` has no such attribute (sparse_code_constructor.py:170-179). -/
def Arr.todense {a b : ℕ} : Arr a b → Except CErr (Arr a b)
  | .sparse M => .ok (.dense M)
  | .dense _ => .error .attributeError

/-- The entries (sparse_code_constructor.py:170-179). -/
def Arr.get {a b : ℕ} : Arr a b → Matrix (Fin a) (Fin b) ℤ
  | .sparse M => M
  | .dense M => M

/-- `_store_code_params` (sparse_code_constructor.py:170-179). -/
def storeCodeParams {a c b : ℕ} (hx : Arr a b) (hz : Arr c b) : Except CErr Params := do
  let hx ← hx.todense
  let hz ← hz.todense
  return ⟨b, codeK hx.get hz.get, []⟩

/-- `create_code` of the sparse constructor (sparse_code_constructor.py:182-213). -/
def createSparse {m0 n0 m1 n1 m2 n2 : ℕ} (lib : CSS.Mod2) (constructor : Text) (s0 : Matrix (Fin m0) (Fin n0) ℤ)
    (s1 : Matrix (Fin m1) (Fin n1) ℤ) (s2 : Matrix (Fin m2) (Fin n2) ℤ) (codename : Text) (distance logicals : Bool)
    (script : Option Text) (fs : FS) : FS × Except CErr (Option Params) :=
  if constructor = ['h', 'g', 'p'] then
    match generate3d (hgpX s0 s1) (hgpZ s0 s1).transpose s2 with
    | .error e => (fs, .error (liftErr e))
    | .ok (hx, hzT, mzT) =>
      let dir := outDirSparse codename
      let fs1 := if logicals then
          saveCode fs dir [(MatName.hx, rowsOf hx), (.hz, rowsOf hzT.transpose), (.mz, rowsOf mzT.transpose),
            (.lx, bitRows (computeLogicals lib hx hzT.transpose).1), (.lz, bitRows (computeLogicals lib hx hzT.transpose).2)]
        else fs
      if distance then
        let fs2 := match script with
          | none => fs1
          | some t => fs1.write (dir ++ ['i', 'n', 'f', 'o', '.', 't', 'x', 't']) t
        match computeDistances [keyDX, keyDZ] fs2 dir hx hzT.transpose with
        | .error e => (fs2, .error e)
        | .ok p => (fs2, .ok (some p))
      else
        match storeCodeParams (Arr.dense hx) (Arr.dense hzT.transpose) with
        | .error e => (fs1, .error e)
        | .ok p => (fs1, .ok (some p))
  else (fs, .error .valueError)

end Verif.CodeFiles
