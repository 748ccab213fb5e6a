import Verif.Common

/-!
# Model of the circuit encoders (`include/ecc/*.hpp`, `src/ecc/*.cpp`)

A circuit is the list of its operations.  `n` is the number of qubits and `m` the number of classical bits of the original
circuit after `stripIdleQubits` (a function of the mqt-core library, not modelled); the mapped circuit is the list of
instructions appended to it.  Qubits and classical bits are numbered as in the mapped circuit; static casts between integer
types are the identity.
-/

namespace Verif.Ecc

/-- The operation types the encoders distinguish (`qc::OpType`); everything else is `other` (tested in `mapGate` of src/ecc/Q3Shor.cpp, Q5Laflamme.cpp, Q7Steane.cpp, Q9Shor.cpp, Q9Surface.cpp, Q18Surface.cpp). -/
inductive Op
  | I | X | Y | Z | H | S | Sdg | T | Tdg | barrier | measure | other
deriving DecidableEq, Repr

/-- An operation of the original circuit: a control is a qubit with `true` for a positive control; the targets of a
measurement are the measured qubits, `classics` the bits (the argument of `mapGate`, include/ecc/Ecc.hpp:114). -/
structure Gate where
  op : Op
  controls : List (ℕ × Bool) := []
  targets : List ℕ := []
  classics : List ℕ := []
deriving DecidableEq

/-- An instruction of the mapped circuit.  `cc` is `classicControlled`: applied if the `len` bits from `start` have the
value `value`, the first bit being the least significant (appended to `qcMapped`, include/ecc/Ecc.hpp:76). -/
inductive Instr
  | reset (q : ℕ)
  | gate (op : Op) (controls : List (ℕ × Bool)) (t : ℕ)
  | swap (a b : ℕ)
  | measure (q c : ℕ)
  | cc (op : Op) (q start len value : ℕ)
  | clone (g : Gate)
deriving DecidableEq

/-- Exceptions: `gateNotAvailableError` (include/ecc/Ecc.hpp:115-120), `std::out_of_range` of `at`. -/
inductive EccErr
  | gateNotAvailable
  | outOfRange
deriving DecidableEq

/-- `qcMapped->h` (for example src/ecc/Q9Shor.cpp:31). -/
def h (q : ℕ) : Instr := .gate .H [] q
/-- `qcMapped->cx` (for example src/ecc/Q9Shor.cpp:27). -/
def cx (c t : ℕ) : Instr := .gate .X [(c, true)] t
/-- `qcMapped->cz` (for example src/ecc/Q9Shor.cpp:76). -/
def cz (c t : ℕ) : Instr := .gate .Z [(c, true)] t
/-- `qcMapped->mcx` with two controls (src/ecc/Q9Shor.cpp:137). -/
def ccx (c₁ c₂ t : ℕ) : Instr := .gate .X [(c₁, true), (c₂, true)] t

/-- The mutable part of an encoder object (include/ecc/Ecc.hpp:72-76). -/
structure St where
  isDecoded : Bool := true
  gatesWritten : Bool := false
  out : List Instr := []
deriving DecidableEq

/-- Append to `qcMapped` (include/ecc/Ecc.hpp:76). -/
def St.emit (s : St) (l : List Instr) : St := { s with out := s.out ++ l }

/-- A scheme: its sizes (`Ecc::Info`, include/ecc/Ecc.hpp:35-43) and its virtual methods. -/
structure Scheme where
  redundant : ℕ
  correcting : ℕ
  classical : ℕ
  writeEncoding : St → St
  measureAndCorrect : St → St
  writeDecoding : St → St
  mapGate : Gate → St → Except EccErr St

/-- `getNOutputQubits` (include/ecc/Ecc.hpp:66-68). -/
def Scheme.outputQubits (s : Scheme) (n : ℕ) : ℕ := n * s.redundant + s.correcting

/-- The classical bits of the mapped circuit (src/ecc/Ecc.cpp:12-18). -/
def Scheme.outputBits (s : Scheme) (m : ℕ) : ℕ := m + s.classical

/-- The correction after a gate (src/ecc/Ecc.cpp:31-33). -/
def periodic {σ : Type} (correct : σ → σ) (freq k : ℕ) (s : σ) : σ := if 0 < freq ∧ k % freq = 0 then correct s else s

/-- The loop over the gates (src/ecc/Ecc.cpp:27-34); `k` gates were read before. -/
def loop {σ : Type} (mapGate : Gate → σ → Except EccErr σ) (correct : σ → σ) (freq : ℕ) :
    ℕ → List Gate → σ → Except EccErr σ
  | _, [], s => .ok s
  | k, g :: gs, s =>
    match mapGate g s with
    | .error e => .error e
    | .ok s' => loop mapGate correct freq (k + 1) gs (periodic correct freq (k + 1) s')

/-- `isDecoded = true`, `isDecoded = false` (include/ecc/Ecc.hpp:78, 93). -/
def St.decoded (b : Bool) (s : St) : St := { s with isDecoded := b }

/-- The end of `apply` (src/ecc/Ecc.cpp:36-41). -/
def Scheme.finish (s : Scheme) (st : St) : St :=
  if !st.isDecoded then (s.writeDecoding (s.measureAndCorrect st)).decoded true else st

/-- `Ecc::apply` (src/ecc/Ecc.cpp:21-44) on a new object. -/
def Scheme.apply (s : Scheme) (freq : ℕ) (gates : List Gate) : Except EccErr (List Instr) :=
  (loop s.mapGate s.measureAndCorrect freq 0 gates ((s.writeEncoding {}).decoded false)).map fun st => (s.finish st).out

/-- A block of instructions for every logical qubit (the loops over `nQubits`, for example src/ecc/Q9Surface.cpp:21). -/
def blocks (n : ℕ) (b : ℕ → List Instr) : List Instr := (List.range n).flatMap b

/-- The physical qubit `j` of logical qubit `i`: `i + j * nQubits` (for example src/ecc/Q9Surface.cpp:27). -/
def dat (n i j : ℕ) : ℕ := i + j * n

/-- `measureGate->getTargets()[j]` to `measureGate->getClassics()[j]` for all classical bits (e.g. src/ecc/Q3Shor.cpp:131-134). -/
def userMeasure (g : Gate) : Except EccErr (List Instr) :=
  if g.classics.length ≤ g.targets.length then .ok (List.zipWith Instr.measure g.targets g.classics)
  else .error .outOfRange

/-- The same with the arguments of `measure` exchanged (src/ecc/Q5Laflamme.cpp:163-166, src/ecc/Q7Steane.cpp:204-216; for
an original circuit with one classical register, where both calls there mean the same). -/
def userMeasureSwapped (g : Gate) : Except EccErr (List Instr) :=
  if g.classics.length ≤ g.targets.length then .ok (List.zipWith Instr.measure g.classics g.targets)
  else .error .outOfRange

/-- The measurement case of `mapGate`: correct and decode unless decoded (e.g. src/ecc/Q3Shor.cpp:124-127). -/
def beforeMeasure (correct decode : St → St) (s : St) : St := if !s.isDecoded then decode (correct s) else s

/-! ## Id -/

/-- `Id` (include/ecc/Id.hpp). -/
def idScheme : Scheme where
  redundant := 1
  correcting := 0
  classical := 0
  writeEncoding := id
  measureAndCorrect := id
  writeDecoding := id
  mapGate := fun g s => .ok (s.emit [.clone g])

/-! ## Q3Shor -/

namespace Q3

/-- `writeEncoding` (src/ecc/Q3Shor.cpp:15-28). -/
def encode (n : ℕ) (s : St) : St :=
  if !s.isDecoded || !s.gatesWritten then { s with gatesWritten := true }
  else (s.decoded false).emit (blocks n fun i => [cx (dat n i 0) (dat n i 1), cx (dat n i 0) (dat n i 2)])

/-- One logical qubit with data qubits `d`, ancillas `a`, classical bits from `cl` (src/ecc/Q3Shor.cpp:41-58). -/
def correctBlock (d a : ℕ → ℕ) (cl : ℕ) : List Instr :=
  [.reset (a 0), .reset (a 1),
   cx (d 0) (a 0), cx (d 1) (a 0), cx (d 1) (a 1), cx (d 2) (a 1),
   .measure (a 0) cl, .measure (a 1) (cl + 1),
   .cc .X (d 0) cl 2 1, .cc .X (d 2) cl 2 2, .cc .X (d 1) cl 2 3]

/-- `measureAndCorrect` (src/ecc/Q3Shor.cpp:30-60). -/
def correct (n m : ℕ) (s : St) : St :=
  if s.isDecoded || !s.gatesWritten then s
  else s.emit (blocks n fun i => correctBlock (dat n i) (fun j => n * 3 + j) m)

/-- One logical qubit of `writeDecoding` (src/ecc/Q3Shor.cpp:68-73). -/
def decodeBlock (d : ℕ → ℕ) : List Instr := [cx (d 0) (d 1), cx (d 0) (d 2), ccx (d 1) (d 2) (d 0)]

/-- `writeDecoding` (src/ecc/Q3Shor.cpp:62-76). -/
def decode (n : ℕ) (s : St) : St :=
  if s.isDecoded then s else (s.emit (blocks n fun i => decodeBlock (dat n i))).decoded true

/-- Controls moved to copy `j` (src/ecc/Q3Shor.cpp:89-94; also src/ecc/Q7Steane.cpp, src/ecc/Q9Shor.cpp). -/
def copyControls (n j : ℕ) (controls : List (ℕ × Bool)) : List (ℕ × Bool) := controls.map fun c => (dat n c.1 j, c.2)

/-- `addOperation` (src/ecc/Q3Shor.cpp:78-107): both branches are the same for an empty list of controls. -/
def addOperation (n : ℕ) (g : Gate) : List Instr :=
  g.targets.flatMap fun t => (List.range 3).map fun j => .gate g.op (copyControls n j g.controls) (dat n t j)

/-- `mapGate` (src/ecc/Q3Shor.cpp:109-144).  `correct` is the virtual method. -/
def mapGate (n : ℕ) (correct : St → St) (g : Gate) (s : St) : Except EccErr St :=
  let s := if s.isDecoded && g.op ≠ .measure && g.op ≠ .H then encode n s else s
  match g.op with
  | .I | .barrier => .ok s
  | .X | .Y | .Z | .S | .Sdg | .T | .Tdg => .ok (s.emit (addOperation n g))
  | .measure => (userMeasure g).map fun l => (beforeMeasure correct (decode n) s).emit l
  | _ => .error .gateNotAvailable

end Q3

/-- `Q3Shor` with a given `measureAndCorrect` (include/ecc/Q3Shor.hpp, src/ecc/Q3Shor.cpp). -/
def q3With (n : ℕ) (correct : St → St) : Scheme where
  redundant := 3
  correcting := 2
  classical := 2
  writeEncoding := Q3.encode n
  measureAndCorrect := correct
  writeDecoding := Q3.decode n
  mapGate := Q3.mapGate n correct

/-- `Q3Shor` (include/ecc/Q3Shor.hpp). -/
def q3Shor (n m : ℕ) : Scheme := q3With n (Q3.correct n m)

/-! ## Q5Laflamme -/

namespace Q5

/-- `STABILIZER_MATRIX` (include/ecc/Q5Laflamme.hpp:36-42). -/
def stabilizers : List (List Op) :=
  [[.X, .Z, .Z, .X, .I], [.I, .X, .Z, .Z, .X], [.X, .I, .X, .Z, .Z], [.Z, .X, .I, .X, .Z]]

/-- A controlled operation of the extraction (src/ecc/Q5Laflamme.cpp:66-78). -/
def controlled (op : Op) (a q : ℕ) : List Instr :=
  match op with
  | .X => [cx a q]
  | .Z => [cz a q]
  | _ => []

/-- The value of the syndrome register for error `op` on qubit `q` (src/ecc/Q5Laflamme.cpp:93-99). -/
def value (op : Op) (q : ℕ) : ℕ :=
  (List.range 4).foldl (fun v c =>
    if (stabilizers.getD c []).getD q .I ≠ .I ∧ (stabilizers.getD c []).getD q .I ≠ op then v ||| (1 <<< c) else v) 0

/-- One logical qubit of `measureAndCorrect` (src/ecc/Q5Laflamme.cpp:50-103). -/
def correctBlock (d a : ℕ → ℕ) (cl : ℕ) : List Instr :=
  ((List.range 4).flatMap fun j => [.reset (a j), h (a j)]) ++
  ((List.range 4).flatMap fun c => (List.range 5).flatMap fun q =>
    controlled ((stabilizers.getD c []).getD q .I) (a c) (d q)) ++
  ((List.range 4).flatMap fun j => [h (a j), .measure (a j) (cl + j)]) ++
  ((List.range 5).flatMap fun q => [Op.X, Op.Y, Op.Z].map fun op => .cc op (d q) cl 4 (value op q))

/-- `measureAndCorrect` (src/ecc/Q5Laflamme.cpp:41-105). -/
def correct (n m : ℕ) (s : St) : St :=
  if s.isDecoded then s else s.emit (blocks n fun i => correctBlock (dat n i) (fun j => n * 5 + j) m)

/-- One logical qubit of the encoding (src/ecc/Q5Laflamme.cpp:26-37); `ce` is the bit of the register `encode`. -/
def encodeBlock (d : ℕ → ℕ) (a ce : ℕ) : List Instr :=
  [h a] ++ ((List.range 5).map fun j => cz a (d j)) ++ [h a, .measure a ce] ++
    (List.range 5).map fun j => .cc .X (d j) ce 1 1

/-- `Ecc::writeEncoding` (include/ecc/Ecc.hpp:88-94). -/
def baseEncode (correct : St → St) (s : St) : St := if !s.isDecoded then s else correct (s.decoded false)

/-- `writeEncoding` (src/ecc/Q5Laflamme.cpp:14-39). -/
def encode (n m : ℕ) (correct : St → St) (s : St) : St :=
  { (baseEncode correct s).emit ((List.range n).map (fun _ => .reset (n * 5)) ++
      blocks n fun i => encodeBlock (dat n i) (n * 5) (m + 4)) with gatesWritten := true }

/-- `DECODING_CORRECTION_VALUES` (include/ecc/Q5Laflamme.hpp:43-44). -/
def decodingValues : List ℕ := [1, 2, 4, 7, 8, 11, 13, 14]

/-- One logical qubit of `writeDecoding` (src/ecc/Q5Laflamme.cpp:115-129). -/
def decodeBlock (d : ℕ → ℕ) (cl : ℕ) : List Instr :=
  ((List.range 4).map fun j => .measure (d (j + 1)) (cl + j)) ++ decodingValues.map fun v => .cc .X (d 0) cl 4 v

/-- `writeDecoding` (src/ecc/Q5Laflamme.cpp:107-131). -/
def decode (n m : ℕ) (s : St) : St :=
  if s.isDecoded then s else (s.emit (blocks n fun i => decodeBlock (dat n i) m)).decoded true

/-- Transversal gate (src/ecc/Q5Laflamme.cpp:146-149). -/
def transversal (n : ℕ) (g : Gate) : List Instr :=
  g.targets.flatMap fun t => (List.range 5).map fun j => .gate g.op [] (dat n t j)

/-- `mapGate` (src/ecc/Q5Laflamme.cpp:133-174).  For a controlled gate without targets the loop over the targets does not
run. -/
def mapGate (n m : ℕ) (correct : St → St) (g : Gate) (s : St) : Except EccErr St :=
  let s := if s.isDecoded && g.op ≠ .measure && g.op ≠ .H then encode n m correct s else s
  match g.op with
  | .I | .barrier => .ok s
  | .X | .Y | .Z =>
    if g.targets ≠ [] ∧ g.controls ≠ [] then .error .gateNotAvailable else .ok (s.emit (transversal n g))
  | .measure => (userMeasureSwapped g).map fun l => (beforeMeasure correct (decode n m) s).emit l
  | _ => .error .gateNotAvailable

end Q5

/-- `Q5Laflamme` (include/ecc/Q5Laflamme.hpp). -/
def q5Laflamme (n m : ℕ) : Scheme where
  redundant := 5
  correcting := 4
  classical := 5
  writeEncoding := Q5.encode n m (Q5.correct n m)
  measureAndCorrect := Q5.correct n m
  writeDecoding := Q5.decode n m
  mapGate := Q5.mapGate n m (Q5.correct n m)

/-! ## Q7Steane -/

namespace Q7

/-- Whether check `c` acts on qubit `q` (src/ecc/Q7Steane.cpp:68): bit `c` of `q + 1`. -/
def inCheck (c q : ℕ) : Bool := ((q + 1) &&& (1 <<< c)) ≠ 0

/-- One logical qubit of `measureAndCorrectSingle` without the resets (src/ecc/Q7Steane.cpp:57-91). -/
def singleBlock (x : Bool) (d a : ℕ → ℕ) (cl : ℕ) : List Instr :=
  ((List.range 3).map fun j => h (a j)) ++
  ((List.range 3).flatMap fun c => ((List.range 7).filter (inCheck c)).map fun q => if x then cx (a c) (d q) else cz (a c) (d q)) ++
  ((List.range 3).flatMap fun j => [h (a j), .measure (a j) (cl + j)]) ++
  (List.range 7).map fun j => .cc (if x then .Z else .X) (d j) cl 3 (j + 1)

/-- The resets (src/ecc/Q7Steane.cpp:51-55). -/
def resets (a : ℕ → ℕ) : List Instr := (List.range 3).map fun j => .reset (a j)

/-- `measureAndCorrectSingle` (src/ecc/Q7Steane.cpp:43-94): no resets before the first logical qubit of the first use. -/
def single (n m : ℕ) (x : Bool) (s : St) : St :=
  { s.emit (blocks n fun i => (if s.gatesWritten || i ≠ 0 then resets fun j => n * 7 + j else []) ++
      singleBlock x (dat n i) (fun j => n * 7 + j) m) with gatesWritten := s.gatesWritten || n ≠ 0 }

/-- `measureAndCorrect` (src/ecc/Q7Steane.cpp:35-41). -/
def correct (n m : ℕ) (s : St) : St := if s.isDecoded then s else single n m false (single n m true s)

/-- The resets of the data qubits (src/ecc/Q7Steane.cpp:25-31). -/
def dataResets (n : ℕ) : List Instr := (List.range n).flatMap fun i => (List.range 6).map fun j => .reset (dat n i (j + 1))

/-- `writeEncoding` (src/ecc/Q7Steane.cpp:17-33). -/
def encode (n m : ℕ) (s : St) : St :=
  if !s.isDecoded then s
  else single n m true ((s.decoded false).emit (if s.gatesWritten then dataResets n else []))

/-- `DECODING_CORRECTION_VALUES` (include/ecc/Q7Steane.hpp:41-42). -/
def decodingValues : List ℕ := [1, 2, 4, 7]

/-- One logical qubit of `writeDecoding` (src/ecc/Q7Steane.cpp:107-126). -/
def decodeBlock (d : ℕ → ℕ) (cl : ℕ) : List Instr :=
  [.measure (d 1) cl, .measure (d 2) (cl + 1), .measure (d 3) (cl + 2)] ++
  (decodingValues.map fun v => .cc .X (d 0) cl 3 v) ++
  [.measure (d 4) cl, .measure (d 5) (cl + 1), .measure (d 6) (cl + 2)] ++
  decodingValues.map fun v => .cc .X (d 0) cl 3 v

/-- `writeDecoding` (src/ecc/Q7Steane.cpp:96-128). -/
def decode (n m : ℕ) (s : St) : St :=
  if s.isDecoded then s else (s.emit (blocks n fun i => decodeBlock (dat n i) m)).decoded true

/-- Transversal gates (src/ecc/Q7Steane.cpp:174-194); `r` repetitions per qubit (three for S, src/ecc/Q7Steane.cpp:130-163). -/
def transversal (r n : ℕ) (g : Gate) : List Instr :=
  g.targets.flatMap fun t => (List.range 7).flatMap fun j =>
    List.replicate r (.gate g.op (Q3.copyControls n j g.controls) (dat n t j))

/-- T and its inverse on one logical qubit (src/ecc/Q7Steane.cpp:229-240). -/
def tBlock (op : Op) (d : ℕ → ℕ) : List Instr :=
  [cx (d 6) (d 5), cx (d 5) (d 0), .gate op [] (d 0), cx (d 5) (d 0), cx (d 6) (d 5)]

/-- `mapGate` (src/ecc/Q7Steane.cpp:165-249). -/
def mapGate (n m : ℕ) (correct : St → St) (g : Gate) (s : St) : Except EccErr St :=
  let s := if s.isDecoded && g.op ≠ .measure then encode n m s else s
  match g.op with
  | .I | .barrier => .ok s
  | .X | .H | .Y | .Z => .ok (s.emit (transversal 1 n g))
  | .S | .Sdg => .ok (s.emit (transversal 3 n g))
  | .measure => (userMeasureSwapped g).map fun l => (beforeMeasure correct (decode n m) s).emit l
  | .T | .Tdg =>
    if g.targets ≠ [] ∧ g.controls ≠ [] then .error .gateNotAvailable
    else .ok (s.emit (g.targets.flatMap fun t => tBlock g.op (dat n t)))
  | _ => .error .gateNotAvailable

end Q7

/-- `Q7Steane` (include/ecc/Q7Steane.hpp). -/
def q7Steane (n m : ℕ) : Scheme where
  redundant := 7
  correcting := 3
  classical := 3
  writeEncoding := Q7.encode n m
  measureAndCorrect := Q7.correct n m
  writeDecoding := Q7.decode n m
  mapGate := Q7.mapGate n m (Q7.correct n m)

/-! ## Q9Shor -/

namespace Q9

/-- One logical qubit of `writeEncoding` (src/ecc/Q9Shor.cpp:21-36). -/
def encodeBlock (d : ℕ → ℕ) : List Instr :=
  [cx (d 0) (d 3), cx (d 0) (d 6)] ++
    (List.range 3).flatMap fun j => [h (d (3 * j)), cx (d (3 * j)) (d (3 * j + 1)), cx (d (3 * j)) (d (3 * j + 2))]

/-- `writeEncoding` (src/ecc/Q9Shor.cpp:14-39). -/
def encode (n : ℕ) (s : St) : St :=
  if !s.isDecoded then s
  else { (s.decoded false).emit (blocks n fun i => encodeBlock (dat n i)) with gatesWritten := true }

/-- One logical qubit of `measureAndCorrect` (src/ecc/Q9Shor.cpp:47-115). -/
def correctBlock (d a : ℕ → ℕ) (cl : ℕ) : List Instr :=
  ((List.range 8).map fun j => .reset (a j)) ++ ((List.range 8).map fun j => h (a j)) ++
  ((List.range 3).flatMap fun j =>
    [cz (a (2 * j)) (d (3 * j)), cz (a (2 * j)) (d (3 * j + 1)),
     cz (a (2 * j + 1)) (d (3 * j + 1)), cz (a (2 * j + 1)) (d (3 * j + 2))]) ++
  ((List.range 6).flatMap fun j => [cx (a 6) (d j), cx (a 7) (d (3 + j))]) ++
  ((List.range 8).map fun j => h (a j)) ++ ((List.range 8).map fun j => .measure (a j) (cl + j)) ++
  ((List.range 3).flatMap fun j =>
    [.cc .X (d (3 * j)) (cl + 2 * j) 2 1, .cc .X (d (3 * j + 2)) (cl + 2 * j) 2 2, .cc .X (d (3 * j + 1)) (cl + 2 * j) 2 3]) ++
  [.cc .Z (d 0) (cl + 6) 2 1, .cc .Z (d 6) (cl + 6) 2 2, .cc .Z (d 3) (cl + 6) 2 3]

/-- `measureAndCorrect` (src/ecc/Q9Shor.cpp:41-117). -/
def correct (n m : ℕ) (s : St) : St :=
  if s.isDecoded then s else s.emit (blocks n fun i => correctBlock (dat n i) (fun j => n * 9 + j) m)

/-- One logical qubit of `writeDecoding` (src/ecc/Q9Shor.cpp:125-146). -/
def decodeBlock (d : ℕ → ℕ) : List Instr :=
  ((List.range 3).flatMap fun j =>
    [cx (d (3 * j)) (d (3 * j + 1)), cx (d (3 * j)) (d (3 * j + 2)), ccx (d (3 * j + 1)) (d (3 * j + 2)) (d (3 * j)),
     h (d (3 * j))]) ++
  [cx (d 0) (d 3), cx (d 0) (d 6), ccx (d 3) (d 6) (d 0)]

/-- `writeDecoding` (src/ecc/Q9Shor.cpp:119-149). -/
def decode (n : ℕ) (s : St) : St :=
  if s.isDecoded then s else (s.emit (blocks n fun i => decodeBlock (dat n i))).decoded true

/-- The physical operation for a logical one (src/ecc/Q9Shor.cpp:156-170). -/
def physical : Op → Op
  | .X => .Z
  | .Y => .Y
  | .Z => .X
  | _ => .I

/-- The operations on copy `j` for one target (src/ecc/Q9Shor.cpp:190-210); without controls only the gate itself. -/
def copyGate (n : ℕ) (g : Gate) (t j : ℕ) : List Instr :=
  (g.controls.map fun c => h (dat n c.1 j)) ++ [.gate (physical g.op) (Q3.copyControls n j g.controls) (dat n t j)] ++
    g.controls.map fun c => h (dat n c.1 j)

/-- The loop over targets and copies (src/ecc/Q9Shor.cpp:187-211). -/
def transversal (n : ℕ) (g : Gate) : List Instr := g.targets.flatMap fun t => (List.range 9).flatMap (copyGate n g t)

/-- `mapGate` (src/ecc/Q9Shor.cpp:151-212).  Identity and barrier leave the switch and reach the loop, which writes identity
gates (with Hadamard pairs around them if there are controls). -/
def mapGate (n : ℕ) (correct : St → St) (g : Gate) (s : St) : Except EccErr St :=
  let s := if s.isDecoded && g.op ≠ .measure && g.op ≠ .H then encode n s else s
  match g.op with
  | .I | .barrier | .X | .Y | .Z => .ok (s.emit (transversal n g))
  | .measure => (userMeasure g).map fun l => (beforeMeasure correct (decode n) s).emit l
  | _ => .error .gateNotAvailable

end Q9

/-- `Q9Shor` (include/ecc/Q9Shor.hpp). -/
def q9Shor (n m : ℕ) : Scheme where
  redundant := 9
  correcting := 8
  classical := 8
  writeEncoding := Q9.encode n
  measureAndCorrect := Q9.correct n m
  writeDecoding := Q9.decode n
  mapGate := Q9.mapGate n (Q9.correct n m)

/-! ## Q9Surface -/

namespace S9

/-- `qubitCorrectionX` (include/ecc/Q9Surface.hpp:38-39). -/
def corrX : List (List ℕ) := [[1], [3], [3], [1, 4], [3, 4], [3, 6], [4], [4], [6]]
/-- `qubitCorrectionZ` (include/ecc/Q9Surface.hpp:40-41). -/
def corrZ : List (List ℕ) := [[2], [0, 2], [0], [2], [2, 5], [5], [7], [5, 7], [5]]
/-- `X_ANCILLA_QUBITS` (include/ecc/Q9Surface.hpp:42). -/
def ancX : List ℕ := [1, 3, 4, 6]
/-- `Z_ANCILLA_QUBITS` (include/ecc/Q9Surface.hpp:44). -/
def ancZ : List ℕ := [0, 2, 5, 7]
/-- `uncorrectedXQubits` (include/ecc/Q9Surface.hpp:46). -/
def uncorrectedX : List ℕ := [2, 6]
/-- `uncorrectedZQubits` (include/ecc/Q9Surface.hpp:47). -/
def uncorrectedZ : List ℕ := [0, 8]
/-- `LOGICAL_X` (include/ecc/Q9Surface.hpp:48). -/
def logicalX : List ℕ := [2, 4, 6]
/-- `LOGICAL_Z` (include/ecc/Q9Surface.hpp:49). -/
def logicalZ : List ℕ := [0, 4, 8]
/-- `SWAP_INDICES` (include/ecc/Q9Surface.hpp:50-51). -/
def swaps : List (ℕ × ℕ) := [(0, 6), (3, 7), (2, 8), (1, 5)]

/-- The mask of a qubit (src/ecc/Q9Surface.cpp:78-83, 92-97). -/
def mask (anc : List ℕ) (checks : List ℕ) : ℕ :=
  (List.range anc.length).foldl (fun v c => if checks.contains (anc.getD c 0) then v ||| (1 <<< c) else v) 0

/-- One logical qubit of `measureAndCorrect` without the resets (src/ecc/Q9Surface.cpp:46-100). -/
def correctBlock (d a : ℕ → ℕ) (cl : ℕ) : List Instr :=
  (ancZ.map fun q => h (a q)) ++
  ((List.range 9).flatMap fun q => (corrZ.getD q []).map fun c => cx (a c) (d q)) ++
  ((List.range 9).flatMap fun q => (corrX.getD q []).map fun c => cx (d q) (a c)) ++
  ((List.range 4).flatMap fun j =>
    [h (a (ancZ.getD j 0)), .measure (a (ancZ.getD j 0)) (cl + j), .measure (a (ancX.getD j 0)) (cl + 4 + j)]) ++
  (((List.range 9).filter fun q => !uncorrectedZ.contains q).map fun q =>
    .cc .Z (d q) cl 4 (mask ancZ (corrZ.getD q []))) ++
  (((List.range 9).filter fun q => !uncorrectedX.contains q).map fun q =>
    .cc .X (d q) (cl + 4) 4 (mask ancX (corrX.getD q [])))

/-- The resets (src/ecc/Q9Surface.cpp:32-36). -/
def resets (a : ℕ → ℕ) : List Instr := (List.range 8).map fun j => .reset (a j)

/-- `measureAndCorrect` (src/ecc/Q9Surface.cpp:14-103): no resets before the first logical qubit of the first use. -/
def correct (n m : ℕ) (s : St) : St :=
  if s.isDecoded then s
  else { s.emit (blocks n fun i => (if s.gatesWritten || i ≠ 0 then resets fun j => n * 9 + j else []) ++
      correctBlock (dat n i) (fun j => n * 9 + j) m) with gatesWritten := s.gatesWritten || n ≠ 0 }

/-- One logical qubit of `writeDecoding` (src/ecc/Q9Surface.cpp:111-117): the results go to the bit with the number of the
logical qubit. -/
def decodeBlock (d : ℕ → ℕ) (i : ℕ) : List Instr :=
  [.measure (d 0) i, .measure (d 4) i, .measure (d 8) i, cx (d 4) (d 0), cx (d 8) (d 0), .measure (d 0) i]

/-- `writeDecoding` (src/ecc/Q9Surface.cpp:105-120). -/
def decode (n : ℕ) (s : St) : St :=
  if s.isDecoded then s else (s.emit (blocks n fun i => decodeBlock (dat n i) i)).decoded true

/-- Logical X, Z, Y (src/ecc/Q9Surface.cpp:137-143, 155-172). -/
def pauli (lx lz : List ℕ) (op : Op) (d : ℕ → ℕ) : List Instr :=
  match op with
  | .X => lx.map fun j => .gate .X [] (d j)
  | .Z => lz.map fun j => .gate .Z [] (d j)
  | .Y => (lz.map fun j => .gate .Z [] (d j)) ++ lx.map fun j => .gate .X [] (d j)
  | _ => []

/-- Logical H (src/ecc/Q9Surface.cpp:144-154). -/
def hadamard (data : List ℕ) (sw : List (ℕ × ℕ)) (d : ℕ → ℕ) : List Instr :=
  (data.map fun j => h (d j)) ++ sw.map fun p => .swap (d p.1) (d p.2)

/-- `mapGate` (src/ecc/Q9Surface.cpp:122-187); the encoding is the one of the base class. -/
def mapGate (n : ℕ) (correct : St → St) (g : Gate) (s : St) : Except EccErr St :=
  let s := if s.isDecoded && g.op ≠ .measure then Q5.baseEncode correct s else s
  if g.controls ≠ [] ∧ g.op ≠ .measure then .error .gateNotAvailable
  else
    match g.op with
    | .I | .barrier => .ok s
    | .X | .Y | .Z => .ok (s.emit (g.targets.flatMap fun t => pauli logicalX logicalZ g.op (dat n t)))
    | .H => .ok (s.emit (g.targets.flatMap fun t => hadamard (List.range 9) swaps (dat n t)))
    | .measure => (userMeasure g).map fun l => (beforeMeasure correct (decode n) s).emit l
    | _ => .error .gateNotAvailable

end S9

/-- `Q9Surface` (include/ecc/Q9Surface.hpp). -/
def q9Surface (n m : ℕ) : Scheme where
  redundant := 9
  correcting := 8
  classical := 8
  writeEncoding := Q5.baseEncode (S9.correct n m)
  measureAndCorrect := S9.correct n m
  writeDecoding := S9.decode n
  mapGate := S9.mapGate n (S9.correct n m)

/-! ## Q18Surface -/

namespace S18

/-- `DATA_QUBITS` (include/ecc/Q18Surface.hpp:30-31). -/
def data : List ℕ := [1, 3, 5, 6, 8, 10, 13, 15, 17, 18, 20, 22, 25, 27, 29, 30, 32, 34]
/-- `ANCILLA_INDICES` (include/ecc/Q18Surface.hpp:32-33). -/
def ancillas : List ℕ := [0, 2, 4, 7, 9, 11, 12, 14, 16, 19, 21, 23, 24, 26, 28, 31, 33, 35]
/-- `ANCILLA_QUBITS_DECODE` (include/ecc/Q18Surface.hpp:34). -/
def ancDecode : List ℕ := [8, 13, 15, 20]
/-- `X_INFORMATION` (include/ecc/Q18Surface.hpp:35). -/
def info : ℕ := 14
/-- `LOGICAL_X` (include/ecc/Q18Surface.hpp:36). -/
def logicalX : List ℕ := [5, 10, 15]
/-- `LOGICAL_Z` (include/ecc/Q18Surface.hpp:37). -/
def logicalZ : List ℕ := [20, 25, 30]
/-- `qubitCorrectionX` (include/ecc/Q18Surface.hpp:40-43). -/
def corrX : List (ℕ × List ℕ) :=
  [(1, [0, 2]), (3, [2, 4]), (5, [4]), (6, [0, 12]), (8, [2]), (10, [4, 16]), (13, [12]), (15, [16]), (18, [12, 24]),
   (20, [26]), (22, [16, 28]), (25, [24, 26]), (27, [26, 28]), (29, [28]), (30, [24])]
/-- `X_CHECKS` (include/ecc/Q18Surface.hpp:61-62). -/
def checks : List ℕ := [0, 2, 4, 12, 16, 24, 26, 28]
/-- `SWAP_QUBIT_INDICES` (src/ecc/Q18Surface.cpp:100-102). -/
def swaps : List (ℕ × ℕ) := [(1, 29), (3, 17), (6, 34), (8, 22), (13, 27), (18, 32)]

/-- The mask of a list of ancillas (src/ecc/Q18Surface.cpp:22-25, 61-64): `operator[]` gives 0 for unknown ones. -/
def mask (l : List ℕ) : ℕ :=
  l.foldl (fun v a => v ||| (if checks.contains a then 1 <<< checks.idxOf a else 0)) 0

/-- One logical qubit of `measureAndCorrect` without the resets (src/ecc/Q18Surface.cpp:43-68). -/
def correctBlock (d : ℕ → ℕ) (cl : ℕ) : List Instr :=
  (corrX.flatMap fun p => p.2.map fun a => cx (d p.1) (d a)) ++
  ((List.range 8).map fun j => .measure (d (checks.getD j 0)) (cl + j)) ++
  corrX.map fun p => .cc .X (d p.1) cl 8 (mask p.2)

/-- The resets (src/ecc/Q18Surface.cpp:37-41). -/
def resets (d : ℕ → ℕ) : List Instr := ancillas.map fun a => .reset (d a)

/-- `measureAndCorrect` (src/ecc/Q18Surface.cpp:15-72). -/
def correct (n m : ℕ) (s : St) : St :=
  if s.isDecoded then s
  else { s.emit (blocks n fun i => (if s.gatesWritten || i ≠ 0 then resets (dat n i) else []) ++ correctBlock (dat n i) m) with
    gatesWritten := s.gatesWritten || n ≠ 0 }

/-- One logical qubit of `writeDecoding` (src/ecc/Q18Surface.cpp:80-88). -/
def decodeBlock (d : ℕ → ℕ) (i : ℕ) : List Instr :=
  [.reset (d info)] ++ (ancDecode.map fun q => cx (d q) (d info)) ++
    [.measure (d info) i, .reset (d 0), cx (d info) (d 0)]

/-- `writeDecoding` (src/ecc/Q18Surface.cpp:74-91). -/
def decode (n : ℕ) (s : St) : St :=
  if s.isDecoded then s else (s.emit (blocks n fun i => decodeBlock (dat n i) i)).decoded true

/-- `mapGate` (src/ecc/Q18Surface.cpp:93-168). -/
def mapGate (n : ℕ) (correct : St → St) (g : Gate) (s : St) : Except EccErr St :=
  let s := if s.isDecoded && g.op ≠ .measure then Q5.baseEncode correct s else s
  if g.controls ≠ [] ∧ g.op ≠ .measure then .error .gateNotAvailable
  else
    match g.op with
    | .I | .barrier => .ok s
    | .X | .Y | .Z => .ok (s.emit (g.targets.flatMap fun t => S9.pauli logicalX logicalZ g.op (dat n t)))
    | .H => .ok (s.emit (g.targets.flatMap fun t => S9.hadamard data swaps (dat n t)))
    | .measure => (userMeasure g).map fun l => (beforeMeasure correct (decode n) s).emit l
    | _ => .error .gateNotAvailable

end S18

/-- `Q18Surface` (include/ecc/Q18Surface.hpp). -/
def q18Surface (n m : ℕ) : Scheme where
  redundant := 36
  correcting := 0
  classical := 8
  writeEncoding := Q5.baseEncode (S18.correct n m)
  measureAndCorrect := S18.correct n m
  writeDecoding := S18.decode n
  mapGate := S18.mapGate n (S18.correct n m)

end Verif.Ecc
