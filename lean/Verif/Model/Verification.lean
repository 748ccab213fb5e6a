import Verif.Model.Search
import Verif.Model.Symbolic

/-!
# Verification stabilizers (`state_prep.py:570-692, 778-920, 993-1046`)

A Python `set` of covering sets is a duplicate-free list; the unspecified iteration order of a
Python set is an arbitrary function `ord` that permutes the list (`OrdOk`).
-/

namespace Verif.SP
open Verif
variable {n : ℕ}

/-- A covering set: the indices of the faults detected by a stabilizer (state_prep.py:820-834). -/
abbrev CSet := Finset ℕ

/-- `mapping : defaultdict(list)` (state_prep.py:824-858). -/
abbrev Mapping (n : ℕ) := CSet → List (Vec n)

/-- `_covers` (state_prep.py:820-821). -/
def covers (s : Vec n) (faults : List (Vec n)) : CSet :=
  (Finset.range faults.length).filter fun i => dot s (faults.getD i 0) ≠ 0

/-- `np.sum(mapping[stab])` (state_prep.py:831). -/
def sumAll (l : List (Vec n)) : ℕ := (l.map wt).sum

/-- `max(cands, key=…)` with the key `(len(stab & universe), -np.sum(mapping[stab]))`: the first
maximal element (state_prep.py:831); `none` is the `ValueError` of `max` on an empty set. -/
def bestCand (mp : Mapping n) (uni : CSet) : List CSet → Option CSet
  | [] => none
  | c :: cs =>
    match bestCand mp uni cs with
    | none => some c
    | some d =>
      if (d ∩ uni).card < (c ∩ uni).card ∨
        ((d ∩ uni).card = (c ∩ uni).card ∧ sumAll (mp c) ≤ sumAll (mp d)) then some c else some d

/-- Result of a bounded run (state_prep.py:861-920). -/
inductive Run (α : Type)
  | ok (a : α)
  | valueError
  | outOfFuel
deriving DecidableEq, Repr

/-- `while universe: …` of `_set_cover` (state_prep.py:830-833). -/
def setCoverLoop (ord : List CSet → List CSet) (cands : List CSet) (mp : Mapping n) :
    ℕ → CSet → List CSet → Run (List CSet)
  | 0, _, _ => .outOfFuel
  | k + 1, uni, cover =>
    if uni = ∅ then .ok cover
    else match bestCand mp uni (ord cands) with
      | none => .valueError
      | some best => setCoverLoop ord cands mp k (uni \ best) (if best ∈ cover then cover else cover ++ [best])

/-- `_set_cover` (state_prep.py:824-834). -/
def setCover (ord : List CSet → List CSet) (fuel nf : ℕ) (cands : List CSet) (mp : Mapping n) : Run (List CSet) :=
  setCoverLoop ord cands mp fuel (Finset.range nf) []

/-- Locals of `_extend_covering_sets` (state_prep.py:837-858). -/
structure ExtState (n : ℕ) where
  toRemove : List CSet
  toAdd : List CSet
  mp : Mapping n

/-- Body of the inner loop (state_prep.py:844-856); the `break` only leaves the inner loop, and
`len(to_add)` never decreases, so skipping the body for all further pairs has the same effect. -/
def extStep (cands : List CSet) (limit : ℕ) (c1 : CSet) (st : ExtState n) (c2 : CSet) : ExtState n :=
  if limit ≤ st.toAdd.length then st
  else
    let comb := symmDiff c1 c2
    if c1 = c2 ∨ comb ∈ cands ∨ comb ∈ st.toAdd ∨ comb ∈ st.toRemove then st
    else
      { mp := Function.update st.mp comb
          (st.mp comb ++ (st.mp c1).flatMap fun s1 => (st.mp c2).map fun s2 => s1 + s2)
        toRemove := if c1 ∩ c2 = ∅ then st.toRemove ++ [c1, c2] else st.toRemove
        toAdd := st.toAdd ++ [comb] }

/-- `_extend_covering_sets` (state_prep.py:837-858). -/
def extendSets (ord : List CSet → List CSet) (cands : List CSet) (limit : ℕ) (mp : Mapping n) :
    List CSet × Mapping n :=
  let st := (ord cands).foldl (fun st c1 => (ord cands).foldl (fun st c2 => extStep cands limit c1 st c2) st)
    { toRemove := [], toAdd := [], mp := mp }
  (cands ++ st.toAdd, st.mp)

/-- The `while improved and …` loop of `_heuristic_layer` (state_prep.py:890-907). -/
def improveLoop (ord : List CSet → List CSet) (nf limit : ℕ) :
    ℕ → List CSet → Mapping n → List CSet → ℕ × ℕ → Run (List CSet × Mapping n)
  | 0, _, _, _, _ => .outOfFuel
  | k + 1, cands, mp, cover, cost =>
    if limit ≤ cands.length then .ok (cover, mp)
    else
      let (cands', mp') := extendSets ord cands limit mp
      match setCover ord k nf cands' mp' with
      | .valueError => .valueError
      | .outOfFuel => .outOfFuel
      | .ok new =>
        let ncost := (new.length, (new.map fun c => sumAll (mp' c)).sum)
        if ncost.1 < cost.1 ∨ (ncost.1 = cost.1 ∧ ncost.2 < cost.2) then
          improveLoop ord nf limit k cands' mp' new ncost
        else .ok (cover, mp')

/-- First element of minimal weight: `min(l, key=np.sum)`, also `sort(key=np.sum); l[0]` (state_prep.py:915-918). -/
def lightest : List (Vec n) → Option (Vec n)
  | [] => none
  | v :: vs =>
    match lightest vs with
    | none => some v
    | some w => if wt v ≤ wt w then some v else some w

/-- The initial mapping and candidate sets (state_prep.py:871-875). -/
def initMapping (faults cchecks : List (Vec n)) : Mapping n := fun c =>
  cchecks.filter fun s => decide (covers s faults = c)

/-- `_heuristic_layer` (state_prep.py:861-920).  `leader` is `_coset_leader`.  `valueError` also
stands for the `IndexError`/`ValueError` of an empty mapping entry. -/
def heuristicLayer (ord : List CSet → List CSet) (leader : Vec n → List (Vec n) → Vec n)
    (faults checks : List (Vec n)) (findLeaders : Bool) (limit fuel : ℕ) : Run (List (Vec n)) :=
  let cand := checks.filter fun s => decide (∃ f ∈ faults, dot s f ≠ 0)
  let noncand := checks.filter fun s => decide (∀ f ∈ faults, dot s f = 0)
  let mp := initMapping faults cand
  let cands := (cand.map fun s => covers s faults).dedup
  match setCover ord fuel faults.length cands mp with
  | .valueError => .valueError
  | .outOfFuel => .outOfFuel
  | .ok cover =>
    match improveLoop ord faults.length limit fuel cands mp cover
        (cover.length, (cover.map fun c => sumAll (mp c)).sum) with
    | .valueError => .valueError
    | .outOfFuel => .outOfFuel
    | .ok (cover, mp) =>
      match (ord cover).mapM fun c =>
          if findLeaders && decide (noncand.length > 0) then lightest ((mp c).map fun m => leader m noncand)
          else lightest (mp c) with
      | none => .valueError
      | some ms => .ok ms

/-! ### SMT search for verification stabilizers -/

/-- The formula of `verification_stabilizers` (state_prep.py:1012-1029) over the variables
`m_anc_i`; `none` is the `IndexError` for an empty list of generators. -/
def verifConstraint (gens faults : List (Vec n)) (numAnc numCnots : ℕ) : Option ((ℕ → ℕ → Bool) → Bool) :=
  ((List.range numAnc).mapM fun anc =>
    varsToStab ((List.range gens.length).map fun i => .sym fun a : ℕ → ℕ → Bool => a anc i) gens).map
  fun stabs a =>
    (faults.all fun e => decide (1 ≤ pbCount (stabs.map fun m => oddOverlap m e) a)) &&
    decide (pbCount (stabs.flatMap fun m => (List.finRange n).map m) a ≤ numCnots)

/-- Measurements read off a model (state_prep.py:1031-1042). -/
def verifExtract (gens : List (Vec n)) (numAnc : ℕ) (a : ℕ → ℕ → Bool) : List (Vec n) :=
  (List.range numAnc).map fun anc =>
    ((gens.zipIdx.filter fun g => a anc g.2).map fun g => g.1).foldl (· + ·) 0

/-- Possible outcomes of `verification_stabilizers` in a subprocess (state_prep.py:993-1046). -/
def VerifOutcome (gens faults : List (Vec n)) (numAnc numCnots : ℕ) (o : Outcome (List (Vec n))) : Prop :=
  o = .timeout ∨
  match verifConstraint gens faults numAnc numCnots with
  | none => o = .crash
  | some c => (∃ a, c a = true ∧ o = .value (some (verifExtract gens numAnc a))) ∨
      ((∀ a, c a = false) ∧ o = .value none)

/-- The loop reducing the number of CNOTs (state_prep.py:650-666): `k` is `num_cnots - 1`. -/
def lessCnots (run : ℕ → ℕ → Outcome (List (Vec n))) : ℕ → ℕ → List (Vec n) → Option (List (Vec n) × ℕ)
  | _, 0, ms => some (ms, 1)
  | j, k + 1, ms =>
    match run j (k + 1) with
    | .crash => none
    | .timeout | .value none => some (ms, k + 2)
    | .value (some ms') => lessCnots run (j + 1) k ms'

/-- The loop reducing the number of ancillas (state_prep.py:669-688): `k` is `num_anc - 1`. -/
def lessAnc (run : ℕ → ℕ → Outcome (List (Vec n))) : ℕ → ℕ → List (Vec n) → Option (List (Vec n))
  | _, 0, ms => some ms
  | j, k + 1, ms =>
    match run j (k + 1) with
    | .crash => none
    | .timeout | .value none => some ms
    | .value (some ms') => lessAnc run (j + 1) k ms'

/-- Result for one layer of `gate_optimal_verification_stabilizers` (state_prep.py:613-690). -/
inductive LayerRes (n : ℕ)
  | ok (ms : List (Vec n))
  | notFound
  | crash
deriving DecidableEq

/-- One iteration of the loop over the number of errors (state_prep.py:613-690).  `run1 i p t` is the
`i`-th subprocess call of the search, `run2 j cnots anc` and `run3 j anc cnots` those of the reductions. -/
def optimalLayer (run1 : ℕ → ℕ → ℕ → Outcome (List (Vec n))) (run2 run3 : ℕ → ℕ → ℕ → Outcome (List (Vec n)))
    (faults checks : List (Vec n)) (minT maxT fuel : ℕ) : Option (LayerRes n) :=
  if faults.length = 0 then some (.ok [])
  else
    let minC := ((checks.map wt).min?).getD 0
    let maxC := (checks.map wt).sum
    match iterativeSearch run1 minC maxC minT maxT 2 2 fuel with
    | none => none
    | some .crash => some .crash
    | some (.notFound _) => some .notFound
    | some (.found ms c) =>
      let ms := ms.filter fun m => decide (m ≠ 0)
      match lessCnots (fun j k => run2 j k ms.length) 0 (c - 1) ms with
      | none => some .crash
      | some (ms2, c2) =>
        match lessAnc (fun j k => run3 j k c2) 0 (ms.length - 1) ms2 with
        | none => some .crash
        | some ms3 => some (.ok ms3)

end Verif.SP
