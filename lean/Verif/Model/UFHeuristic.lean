import Verif.Model.UFDecoder
import Verif.Model.UnionFind

/-!
# Model of `UFHeuristic` (src/UFHeuristic.cpp)

The node map is the forest of `Verif.Model.UnionFind`: a node that was never used is the fresh node.  An unordered set is the
duplicate-free list of its elements in order of insertion; the order in which the code traverses it is given by the parameter
`ord` (any function that permutes its argument; sets with at most one element have one order).  Where the order has no effect
(removing elements one by one) it is not used.  Random indices are inputs.  `none` is divergence, or fuel used up.
-/

namespace Verif.UFH
open Verif Verif.Cpp Verif.UF Verif.UFD

/-- Traversal of an unordered set (the range loops of src/UFHeuristic.cpp:78-318). -/
def iter (ord : List ℕ → List ℕ) : List ℕ → List ℕ
  | [] => []
  | [a] => [a]
  | a :: b :: l => ord (a :: b :: l)

/-- `unordered_set::insert` (src/UFHeuristic.cpp:103-173). -/
def hins (a : ℕ) (l : List ℕ) : List ℕ := if l.contains a then l else l ++ [a]

/-- `TreeNode::Find`.  A forest on the vertices of the Tanner graph has no longer paths (include/TreeNode.hpp:36-46). -/
def root (tot : ℕ) (f : Forest) (v : ℕ) : ℕ := (find f (tot + 1) v).getD v

/-- `standardGrowth` for one component (src/UFHeuristic.cpp:187-195): the edges from its boundary. -/
def edgesOf (ord : List ℕ → List ℕ) (M : Gf2Mat) (f : Forest) (comp : ℕ) : Except CppErr (List (ℕ × ℕ)) :=
  (iter ord (f comp).boundary).foldlM (fun es b => do
    let nb ← computeNbrs M b
    return es ++ nb.map fun w => (b, w)) []

/-- `standardGrowth` (src/UFHeuristic.cpp:182-197) for the listed components: the keys of `presentMap` are these. -/
def growEdges (ord : List ℕ → List ℕ) (M : Gf2Mat) (f : Forest) (comps : List ℕ) : Except CppErr (List (ℕ × ℕ)) :=
  comps.foldlM (fun es comp => do
    let e ← edgesOf ord M f comp
    return es ++ e) []

/-- The first component of smallest size (src/UFHeuristic.cpp:201-209). -/
def smallestOf (f : Forest) : List ℕ → ℕ → ℕ
  | [], best => best
  | a :: l, best => smallestOf f l (if (f a).size < (f best).size then a else best)

/-- The components that grow (src/UFHeuristic.cpp:83-100, 201-209, 226-236), after the set of invalid components was extended
by the erasure for the standard growth. -/
def growing (ord : List ℕ → List ℕ) (g : Growth) (rnd : ℕ) (f : Forest) (invalid : List ℕ) : Except CppErr (List ℕ) :=
  match g with
  | .allComponents => .ok (iter ord invalid)
  | .invalidComponents => .ok (iter ord invalid)
  | .singleSmallest =>
    match iter ord invalid with
    | [] => .ok []
    | a :: l => .ok [smallestOf f l a]
  | .singleRandom => .ok [(iter ord invalid).getD (rnd % invalid.length) 0]
  | .singleQubitRandom => .error .invalidArgument

/-- `root2->boundaryVertices` gets the elements of `root1->boundaryVertices`, which is cleared (src/UFHeuristic.cpp:119-127). -/
def mergeBoundary (f : Forest) (small big : ℕ) : Forest :=
  setNode (setNode f big { f big with boundary := (f small).boundary.foldl (fun s a => hins a s) (f big).boundary })
    small { f small with boundary := [] }

/-- One fusion edge (src/UFHeuristic.cpp:103-130). -/
def fuse (tot : ℕ) (f : Forest) (e : ℕ × ℕ) : Forest :=
  let r1 := root tot f e.1
  let r2 := root tot f e.2
  if r1 = r2 then f
  else if (f r1).size ≤ (f r2).size then mergeBoundary (addFirstToSecond f r1 r2) r1 r2
  else mergeBoundary (addFirstToSecond f r2 r1) r2 r1

/-- Components replaced by their roots (src/UFHeuristic.cpp:132-149). -/
def replaceByRoots (tot : ℕ) (f : Forest) (present invalid : List ℕ) : List ℕ :=
  (invalid.filter fun v => !(decide (v ≠ root tot f v) && present.contains (root tot f v))).foldl
    (fun s v => hins (root tot f v) s) []

/-- The boundary of one component without the vertices that have all neighbours in the component
(src/UFHeuristic.cpp:152-173).  For a vertex without neighbours the loop does not advance: `none`. -/
def updateBoundary (tot : ℕ) (M : Gf2Mat) (f : Forest) (comp : ℕ) : Option (Except CppErr Forest) :=
  match (f comp).boundary.mapM fun v => (computeNbrs M v).map fun nb => (v, nb) with
  | .error e => some (.error e)
  | .ok l =>
    if l.any fun p => p.2.isEmpty then none
    else some (.ok (setNode f comp { f comp with
      boundary := (l.filter fun p => p.2.any fun w => decide (root tot f w ≠ root tot f p.1)).map Prod.fst }))

/-- The loop over the components (src/UFHeuristic.cpp:345-360). -/
def updateBoundaries (tot : ℕ) (M : Gf2Mat) : List ℕ → Forest → Option (Except CppErr Forest)
  | [], f => some (.ok f)
  | comp :: comps, f =>
    match updateBoundary tot M f comp with
    | none => none
    | some (.error e) => some (.error e)
    | some (.ok f') => updateBoundaries tot M comps f'

/-- `isValidComponent` (src/UFHeuristic.cpp:345-360). -/
def isValid (M : Gf2Mat) (f : Forest) (comp : ℕ) : Except CppErr Bool := do
  let l ← (f comp).checks.mapM fun v => computeNbrs M v
  return l.all fun nb => nb.any fun w => !(f comp).boundary.contains w

/-- `extractValidComponents` (src/UFHeuristic.cpp:331-341): remaining invalid components, and the valid ones. -/
def extractValid (M : Gf2Mat) (f : Forest) : List ℕ → List ℕ → Except CppErr (List ℕ × List ℕ)
  | [], valid => .ok ([], valid)
  | a :: l, valid => do
    let b ← isValid M f a
    let r ← extractValid M f l (if b then hins a valid else valid)
    return (if b then r.1 else a :: r.1, r.2)

/-- The set of invalid components at the start of an iteration (src/UFHeuristic.cpp:83-87). -/
def extended (g : Growth) (invalid erasure : List ℕ) : List ℕ :=
  match g with
  | .allComponents => erasure.foldl (fun s a => hins a s) invalid
  | _ => invalid

/-- One iteration of the main loop (src/UFHeuristic.cpp:78-175) from the forest, the invalid components and the erasure. -/
def iteration (ord : List ℕ → List ℕ) (c : Code) (M : Gf2Mat) (g : Growth) (rnd : ℕ) (f : Forest) (invalid erasure : List ℕ) :
    Option (Except CppErr (Forest × List ℕ × List ℕ)) :=
  let tot := cols c.hZ + c.hZ.length
  let inv := extended g invalid erasure
  match growing ord g rnd f inv with
  | .error e => some (.error e)
  | .ok comps =>
    match growEdges ord M f comps with
    | .error e => some (.error e)
    | .ok edges =>
      let f1 := edges.foldl (fuse tot) f
      let inv1 := replaceByRoots tot f1 comps inv
      match updateBoundaries tot M inv1 f1 with
      | none => none
      | some (.error e) => some (.error e)
      | some (.ok f2) => some ((extractValid M f2 inv1 erasure).map fun r => (f2, r.1, r.2))

/-- The main loop (src/UFHeuristic.cpp:76-175). -/
def mainLoop (ord : List ℕ → List ℕ) (c : Code) (M : Gf2Mat) (g : Growth) (rnd : ℕ → ℕ) :
    ℕ → ℕ → Forest → List ℕ → List ℕ → Option (Except CppErr (Forest × List ℕ))
  | 0, _, _, _, _ => none
  | fuel + 1, k, f, invalid, erasure =>
    if invalid ≠ [] ∧ invalid.length < c.hZ.length + cols c.hZ then
      match iteration ord c M g (rnd k) f invalid erasure with
      | none => none
      | some (.error e) => some (.error e)
      | some (.ok (f', invalid', erasure')) => mainLoop ord c M g rnd fuel (k + 1) f' invalid' erasure'
    else some (.ok (f, erasure))

/-- A vertex met in the traversal of a component (src/UFHeuristic.cpp:271-275, 278-282). -/
def visit (rt v : ℕ) (st : Forest × List ℕ) : Forest × List ℕ :=
  if (!(st.1 v).marked && !(st.1 rt).boundary.contains v) || (st.1 v).isCheck then
    (setNode st.1 v { st.1 v with marked := true }, st.2 ++ [v])
  else st

/-- The traversal of one component (src/UFHeuristic.cpp:262-286) from a queue. -/
def traverse (rt : ℕ) : ℕ → List ℕ → Forest × List ℕ → Option (Forest × List ℕ)
  | 0, _, _ => none
  | _ + 1, [], st => some st
  | fuel + 1, v :: q, st =>
    traverse rt fuel (q ++ (st.1 v).children) ((st.1 v).children.foldl (fun s w => visit rt w s) (visit rt v st))

/-- The interiors of all components (src/UFHeuristic.cpp:259-288). -/
def interiors (fuel : ℕ) : List ℕ → Forest → Option (Forest × List (List ℕ))
  | [], f => some (f, [])
  | rt :: l, f => do
    let r ← traverse rt fuel [rt] (f, [])
    let rest ← interiors fuel l r.1
    return (rest.1, r.2 :: rest.2)

/-- Bits of a removed check (src/UFHeuristic.cpp:303-309). -/
def deleteMarked (f : Forest) (w : ℕ) : Forest :=
  if !(f w).deleted && (f w).marked then setNode f w { f w with deleted := true } else f

/-- One adjacent check of a chosen bit (src/UFHeuristic.cpp:298-313): forest and remaining syndrome. -/
def removeCheck (M : Gf2Mat) (st : Forest × List ℕ) (chk : ℕ) : Except CppErr (Forest × List ℕ) :=
  if (st.1 chk).marked && !(st.1 chk).deleted then do
    let nb ← computeNbrs M chk
    let f := nb.foldl deleteMarked st.1
    return (setNode f chk { f chk with deleted := true }, st.2.erase chk)
  else .ok st

/-- One node of the interior (src/UFHeuristic.cpp:293-317): forest, remaining syndrome, estimate. -/
def chooseNode (M : Gf2Mat) (v : ℕ) (st : Forest × List ℕ × List ℕ) : Except CppErr (Forest × List ℕ × List ℕ) :=
  if !(st.1 v).isCheck && !(st.1 v).deleted then do
    let nb ← computeNbrs M v
    let r ← nb.foldlM (removeCheck M) (st.1, st.2.1)
    return (setNode r.1 v { r.1 v with deleted := true }, r.2, st.2.2 ++ [v])
  else .ok st

/-- The loop over one component: it ends when the syndrome is empty (src/UFHeuristic.cpp:292-318). -/
def chooseAll (M : Gf2Mat) : List ℕ → Forest × List ℕ × List ℕ → Except CppErr (Forest × List ℕ × List ℕ)
  | [], st => .ok st
  | v :: vs, st =>
    if st.2.1 = [] then .ok st
    else do
      let st ← chooseNode M v st
      chooseAll M vs st

/-- `erasureDecoder` (src/UFHeuristic.cpp:256-322): the forest and the estimate. -/
def erasureDecoder (ord : List ℕ → List ℕ) (fuel : ℕ) (M : Gf2Mat) (f : Forest) (erasure syndr : List ℕ) :
    Option (Except CppErr (Forest × List ℕ)) :=
  (interiors fuel (iter ord erasure) f).map fun r =>
    (r.2.foldlM (fun st comp => chooseAll M comp st) (r.1, syndr, [])).map fun st => (st.1, st.2.2)

/-- A heuristic decoder object (include/UFHeuristic.hpp, src/UFHeuristic.cpp:47-64). -/
structure Decoder where
  code : Code
  growth : Growth := .allComponents
  result : Result := {}
  nodes : Forest

/-- A new decoder with a code (src/UFHeuristic.cpp:57-59). -/
def Decoder.new (c : Code) : Decoder := { code := c, nodes := fresh c.n }

/-- The result (src/UFHeuristic.cpp:179-187): the nodes in the order in which they were chosen. -/
def mkResult (n : ℕ) (res : List ℕ) : Except CppErr Result :=
  if res.all (· < n) then .ok ⟨res, (List.range n).map res.contains⟩ else .error .outOfRange

/-- `doDecoding` (src/UFHeuristic.cpp:69-180). -/
def Decoder.doDecoding (d : Decoder) (ord : List ℕ → List ℕ) (rnd : ℕ → ℕ) (fuel : ℕ) (syn : List Bool) (M : Gf2Mat) :
    Option (Except CppErr Decoder) :=
  if syn.any id then
    match mainLoop ord d.code M d.growth rnd fuel 0 d.nodes (litVertices d.code.n syn) [] with
    | none => none
    | some (.error e) => some (.error e)
    | some (.ok (f, erasure)) =>
      (erasureDecoder ord fuel M f erasure (litVertices d.code.n syn)).map fun r => do
        let p ← r
        let res ← mkResult d.code.n p.2
        return { d with nodes := p.1, result := res }
  else some ((mkResult d.code.n []).map fun res => { d with result := res })

/-- `reset` (src/UFHeuristic.cpp:377-393). -/
def Decoder.reset (d : Decoder) : Decoder := { d with nodes := fresh d.code.n, result := {}, growth := .allComponents }

/-- The two results put together (src/UFHeuristic.cpp:57-59). -/
def Decoder.append (d : Decoder) (xres : Result) : Decoder :=
  { d with result := ⟨d.result.estimNodeIdx ++ xres.estimNodeIdx, d.result.estimBool ++ xres.estimBool⟩ }

/-- `decode` (src/UFHeuristic.cpp:47-64). -/
def Decoder.decode (d : Decoder) (ord : List ℕ → List ℕ) (rnd₁ rnd₂ : ℕ → ℕ) (fuel : ℕ) (syn : List Bool) :
    Option (Except CppErr Decoder) :=
  if d.code.hZ.length < syn.length then
    match d.doDecoding ord rnd₁ fuel (syn.take (syn.length / 2)) d.code.hZ with
    | none => none
    | some (.error e) => some (.error e)
    | some (.ok d₁) =>
      (d₁.reset.doDecoding ord rnd₂ fuel (syn.drop (syn.length / 2)) d.code.hZ).map fun r => r.map fun d₂ => d₂.append d₁.result
  else d.doDecoding ord rnd₁ fuel syn d.code.hZ

end Verif.UFH
