import Verif.Model.Gf2

/-!
# Model of `UFDecoder` (src/UFDecoder.cpp) and of the base class `Decoder` (include/Decoder.hpp)

A `std::set` is its increasing list of elements.  The cache of neighbours is transparent (C54), so neighbours are computed
afresh.  Random indices are inputs.  Loops that need not terminate take fuel and give `none` when it is used up: the code
diverges when every amount of fuel gives `none`.  Decoding times are not modelled.
-/

namespace Verif.UFD
open Verif Verif.Cpp

/-- How a call can go wrong: an exception, or undefined behaviour (src/UFDecoder.cpp:24-337). -/
inductive Fail
  | throws (e : CppErr)
  | undefinedBehaviour
deriving DecidableEq

/-- An exception of a called function (src/UFDecoder.cpp:24-337). -/
def lift {α : Type} : Except CppErr α → Except Fail α
  | .ok a => .ok a
  | .error e => .error (.throws e)

/-- `GrowthVariant` (include/Decoder.hpp:16-22). -/
inductive Growth
  | allComponents
  | invalidComponents
  | singleSmallest
  | singleRandom
  | singleQubitRandom
deriving DecidableEq

/-- `std::set::insert` (src/UFDecoder.cpp:177-217). -/
def ins (a : ℕ) : List ℕ → List ℕ
  | [] => [a]
  | b :: l => if a < b then a :: b :: l else if a = b then b :: l else b :: ins a l

/-- Insertion of a range (src/UFDecoder.cpp:177-217). -/
def insAll (l s : List ℕ) : List ℕ := l.foldl (fun s a => ins a s) s

/-- `getCode()->gethZ()->getNbrs(i)`: always the neighbours in the Tanner graph of the Z checks (src/UFDecoder.cpp:146-156, 317-332). -/
def nbrs (c : Code) (i : ℕ) : Except Fail (List ℕ) := lift (computeNbrs c.hZ i)

/-- The while loop of `getConnectedComps` (src/UFDecoder.cpp:317-332) with its queue: the element read is the one at the
back, the element removed the one at the front.  State: queue, component, visited nodes.  With the fuel given below it
always ends with an empty queue (`compLoop_drained`). -/
def compLoop (c : Code) (nodes : List ℕ) : ℕ → List ℕ → List ℕ → List ℕ → Except Fail (List ℕ × List ℕ × List ℕ)
  | 0, q, cc, vis => .ok (q, cc, vis)
  | f + 1, q, cc, vis =>
    match q.getLast? with
    | none => .ok (q, cc, vis)
    | some curr =>
      if cc.contains curr then compLoop c nodes f q.tail cc vis
      else do
        let nb ← nbrs c curr
        let new := nb.filter fun n => !(ins curr cc).contains n && nodes.contains n
        compLoop c nodes f (q.tail ++ new) (ins curr cc) (vis ++ new)

/-- The for loop of `getConnectedComps` (src/UFDecoder.cpp:311-335). -/
def compsFrom (c : Code) (nodes : List ℕ) : List ℕ → List ℕ → Except Fail (List (List ℕ))
  | [], _ => .ok []
  | v :: vs, vis =>
    if vis.contains v then compsFrom c nodes vs vis
    else do
      let r ← compLoop c nodes (nodes.length * nodes.length + 2) [v] [] (vis ++ [v])
      let rest ← compsFrom c nodes vs r.2.2
      return r.2.1 :: rest

/-- `getConnectedComps` (src/UFDecoder.cpp:306-337). -/
def getConnectedComps (c : Code) (nodes : List ℕ) : Except Fail (List (List ℕ)) := compsFrom c nodes nodes []

/-- `computeInteriorBitNodes` (src/UFDecoder.cpp:146-156). -/
def interior (c : Code) (nodes : List ℕ) : List ℕ → Except Fail (List ℕ)
  | [] => .ok []
  | i :: is => do
    let nb ← nbrs c i
    let rest ← interior c nodes is
    return if i < c.n ∧ nb.all nodes.contains then i :: rest else rest

/-- The reduced system while it is collected (src/UFDecoder.cpp:173-175): used checks, rows, right-hand side. -/
structure Reduced where
  used : List ℕ := []
  rows : Gf2Mat := []
  rhs : List Bool := []

/-- One check added (src/UFDecoder.cpp:179-187, 191-199). -/
def addCheck (pcm : Gf2Mat) (r : ℕ) (lit : Bool) (st : Reduced) : Except Fail Reduced :=
  if pcm.length ≤ r then .error (.throws .outOfRange)
  else if st.used.contains r then .ok st
  else .ok ⟨st.used ++ [r], st.rows ++ [pcm.getD r []], st.rhs ++ [lit]⟩

/-- The neighbours of a bit node (src/UFDecoder.cpp:189-200). -/
def addNbrs (n : ℕ) (syndr : List ℕ) (pcm : Gf2Mat) : List ℕ → Reduced → Except Fail Reduced
  | [], st => .ok st
  | w :: ws, st => do
    let st ← addCheck pcm (w - n) (syndr.contains w) st
    addNbrs n syndr pcm ws st

/-- One node of the component (src/UFDecoder.cpp:178-201).  For a check node the code looks for its index among the checks,
not for its vertex number, in the set of lit vertices. -/
def addNode (c : Code) (syndr : List ℕ) (pcm : Gf2Mat) (v : ℕ) (st : Reduced) : Except Fail Reduced :=
  if c.n ≤ v then addCheck pcm (v - c.n) (syndr.contains (v - c.n)) st
  else do
    let nb ← nbrs c v
    addNbrs c.n syndr pcm nb st

/-- The loop over the component (src/UFDecoder.cpp:177-202). -/
def reduceSystem (c : Code) (syndr : List ℕ) (pcm : Gf2Mat) : List ℕ → Reduced → Except Fail Reduced
  | [], st => .ok st
  | v :: vs, st => do
    let st ← addNode c syndr pcm v st
    reduceSystem c syndr pcm vs st

/-- The indices of the entries that are set (src/UFDecoder.cpp:211-216). -/
def indexSet (x : List (ZMod 2)) : List ℕ := (List.range x.length).filter fun i => decide (x.getD i 0 ≠ 0)

/-- The solution of the reduced system (src/UFDecoder.cpp:203-217). -/
def solveReduced (st : Reduced) : Except Fail (List ℕ) :=
  if st.rows = [] then .error (.throws .outOfRange)
  else do
    let x ← lift (luSolve st.rows.length (cols st.rows) (plu st.rows.length (cols st.rows) (toCsc st.rows))
      (st.rhs.map fun b => if b then 1 else 0))
    return indexSet x

/-- `getEstimateForComponent` (src/UFDecoder.cpp:166-218). -/
def getEstimateForComponent (c : Code) (nodes syndr : List ℕ) (pcm : Gf2Mat) : Except Fail (List ℕ) := do
  let int ← interior c nodes nodes
  if int = [] then .ok []
  else
    let st ← reduceSystem c syndr pcm nodes {}
    solveReduced st

/-- `isValidComponent` (src/UFDecoder.cpp:135-139). -/
def isValidComponent (c : Code) (nodes syndr : List ℕ) (pcm : Gf2Mat) : Except Fail Bool := do
  let e ← getEstimateForComponent c nodes syndr pcm
  return decide (e ≠ [])

/-- `std::any_of` in `containsInvalidComponents` (src/UFDecoder.cpp:118-125): stops at the first invalid component.  The
list of invalid components is written but never read. -/
def anyInvalid (c : Code) (syndr : List ℕ) (pcm : Gf2Mat) : List (List ℕ) → Except Fail Bool
  | [] => .ok false
  | comp :: comps => do
    let v ← isValidComponent c comp syndr pcm
    if v then anyInvalid c syndr pcm comps else .ok true

/-- `containsInvalidComponents` (src/UFDecoder.cpp:113-126). -/
def containsInvalidComponents (c : Code) (nodes syndr : List ℕ) (pcm : Gf2Mat) : Except Fail Bool := do
  let comps ← getConnectedComps c nodes
  anyInvalid c syndr pcm comps

/-- `standardGrowth` (src/UFDecoder.cpp:224-231): the set grows while it is traversed in increasing order, so new larger
elements are visited too.  `pos` is the least index not yet passed; `sweep_fuel` shows that the fuel is enough. -/
def sweep (c : Code) : ℕ → ℕ → List ℕ → Except Fail (List ℕ)
  | 0, _, s => .ok s
  | f + 1, pos, s =>
    match s.find? fun v => decide (pos ≤ v) with
    | none => .ok s
    | some v => do
      let nb ← nbrs c v
      sweep c f (v + 1) (insAll nb s)

/-- Models src/UFDecoder.cpp:224-231. -/
def standardGrowth (c : Code) (s : List ℕ) : Except Fail (List ℕ) := sweep c (cols c.hZ + c.hZ.length + 1) 0 s

/-- The neighbours of all nodes of one component are inserted (src/UFDecoder.cpp:249-252, 270-273). -/
def growBy (c : Code) : List ℕ → List ℕ → Except Fail (List ℕ)
  | [], s => .ok s
  | v :: vs, s => do
    let nb ← nbrs c v
    growBy c vs (insAll nb s)

/-- The first of the smallest components (src/UFDecoder.cpp:239-247). -/
def smallest : List (List ℕ) → List ℕ
  | [] => []
  | [a] => a
  | a :: b :: l => if (smallest (b :: l)).length < a.length then smallest (b :: l) else a

/-- `singleClusterSmallestFirstGrowth` (src/UFDecoder.cpp:237-253). -/
def growSmallest (c : Code) (s : List ℕ) : Except Fail (List ℕ) := do
  let comps ← getConnectedComps c s
  growBy c (smallest comps) s

/-- `singleClusterRandomFirstGrowth` (src/UFDecoder.cpp:259-274): `r` is the random number, `r % size` the index drawn. -/
def growRandom (c : Code) (r : ℕ) (s : List ℕ) : Except Fail (List ℕ) := do
  let comps ← getConnectedComps c s
  growBy c (comps.getD (r % comps.length) []) s

/-- `singleQubitRandomFirstGrowth` (src/UFDecoder.cpp:288-301): the index drawn may equal the number of components, which
dereferences the end of the list. -/
def growQubit (c : Code) (r : ℕ) (s : List ℕ) : Except Fail (List ℕ) := do
  let comps ← getConnectedComps c s
  match comps[r % (comps.length + 1)]? with
  | none => .error .undefinedBehaviour
  | some comp => growBy c (comp.take 1) s

/-- The growth step (src/UFDecoder.cpp:64-80). -/
def grow (c : Code) (g : Growth) (r : ℕ) (s : List ℕ) : Except Fail (List ℕ) :=
  match g with
  | .allComponents => standardGrowth c s
  | .invalidComponents => .ok s
  | .singleSmallest => growSmallest c s
  | .singleRandom => growRandom c r s
  | .singleQubitRandom => growQubit c r s

/-- The condition of the while loop (src/UFDecoder.cpp:62-63). -/
def continues (c : Code) (syndr : List ℕ) (pcm : Gf2Mat) (s : List ℕ) : Except Fail Bool := do
  let b ← containsInvalidComponents c s syndr pcm
  return b && decide (s.length < pcm.length + cols pcm)

/-- The while loop (src/UFDecoder.cpp:62-81); `rnd k` is the random number of iteration `k`. -/
def growLoop (c : Code) (syndr : List ℕ) (pcm : Gf2Mat) (g : Growth) (rnd : ℕ → ℕ) :
    ℕ → ℕ → List ℕ → Option (Except Fail (List ℕ))
  | 0, _, _ => none
  | f + 1, k, s =>
    match continues c syndr pcm s with
    | .error e => some (.error e)
    | .ok false => some (.ok s)
    | .ok true =>
      match grow c g (rnd k) s with
      | .error e => some (.error e)
      | .ok s' => growLoop c syndr pcm g rnd f (k + 1) s'

/-- The estimates of all components, merged into one set (src/UFDecoder.cpp:84-93). -/
def estimates (c : Code) (syndr : List ℕ) (pcm : Gf2Mat) : List (List ℕ) → Except Fail (List ℕ)
  | [] => .ok []
  | comp :: comps => do
    let e ← getEstimateForComponent c comp syndr pcm
    let rest ← estimates c syndr pcm comps
    return insAll e rest

/-- `DecodingResult` (include/Decoder.hpp:48-51). -/
structure Result where
  estimNodeIdx : List ℕ := []
  estimBool : List Bool := []
deriving DecidableEq

/-- The result for a set of nodes (src/UFDecoder.cpp:94-104). -/
def mkResult (n : ℕ) (res : List ℕ) : Except Fail Result :=
  if res.all (· < n) then .ok ⟨res, (List.range n).map res.contains⟩ else .error (.throws .outOfRange)

/-- The vertices of the lit checks (src/UFDecoder.cpp:49-54). -/
def litVertices (n : ℕ) (syndrome : List Bool) : List ℕ :=
  ((List.range syndrome.length).filter fun i => syndrome.getD i false).map (n + ·)

/-- The part of `doDecode` after the loop (src/UFDecoder.cpp:84-104). -/
def finish (c : Code) (syndr : List ℕ) (pcm : Gf2Mat) (s : List ℕ) : Except Fail Result := do
  let comps ← getConnectedComps c s
  let res ← estimates c syndr pcm comps
  mkResult c.n res

/-- `doDecode` (src/UFDecoder.cpp:45-105); if no check is lit the set of nodes stays empty. -/
def doDecode (c : Code) (pcm : Gf2Mat) (g : Growth) (rnd : ℕ → ℕ) (fuel : ℕ) (syndrome : List Bool) :
    Option (Except Fail Result) :=
  if litVertices c.n syndrome = [] then some (finish c [] pcm [])
  else
    match growLoop c (litVertices c.n syndrome) pcm g rnd fuel 0 (litVertices c.n syndrome) with
    | none => none
    | some (.error e) => some (.error e)
    | some (.ok s) => some (finish c (litVertices c.n syndrome) pcm s)

/-- A decoder object (include/Decoder.hpp:66-72). -/
structure Decoder where
  code : Code
  growth : Growth := .allComponents
  result : Result := {}

/-- `setGrowth` (include/Decoder.hpp:84-86). -/
def Decoder.setGrowth (d : Decoder) (g : Growth) : Decoder := { d with growth := g }

/-- `setCode` (include/Decoder.hpp:87-93): the constructor with two matrices takes the X checks first, but gets the Z checks
first. -/
def setCode (c : Code) : Code :=
  match c.hX with
  | none => mkCode none c.hZ
  | some hX => mkCode (some c.hZ) hX

/-- `reset` (src/UFDecoder.cpp:279-282). -/
def Decoder.reset (d : Decoder) : Decoder := { d with result := {}, growth := .allComponents }

/-- The second half of a two-sided decoding (src/UFDecoder.cpp:32-39), after the result `xres` of the first half.
Dereferencing an absent X matrix is undefined behaviour. -/
def Decoder.decodeSecond (d : Decoder) (rnd : ℕ → ℕ) (fuel : ℕ) (zSyndr : List Bool) (xres : Result) :
    Option (Except Fail Decoder) :=
  match d.code.hX with
  | none => some (.error .undefinedBehaviour)
  | some hX =>
    (doDecode d.code hX d.reset.growth rnd fuel zSyndr).map fun r => r.map fun zres =>
      { d.reset with result := ⟨zres.estimNodeIdx ++ xres.estimNodeIdx, zres.estimBool ++ xres.estimBool⟩ }

/-- `decode` (src/UFDecoder.cpp:24-43). -/
def Decoder.decode (d : Decoder) (rnd₁ rnd₂ : ℕ → ℕ) (fuel : ℕ) (syndrome : List Bool) : Option (Except Fail Decoder) :=
  if d.code.hZ.length < syndrome.length then
    match doDecode d.code d.code.hZ d.growth rnd₁ fuel (syndrome.take (syndrome.length / 2)) with
    | none => none
    | some (.error e) => some (.error e)
    | some (.ok xres) => d.decodeSecond rnd₂ fuel (syndrome.drop (syndrome.length / 2)) xres
  else
    (doDecode d.code d.code.hZ d.growth rnd₁ fuel syndrome).map fun r => r.map fun res => { d with result := res }

end Verif.UFD
