import Verif.Model.Faults

/-!
# Synthesis of state preparation circuits (`state_prep.py:197-507`)

Check matrices are lists of rows.  External parts: `mod2.rank` (the reference `rank`),
`mod2.reduced_row_echelon` (a parameter `rref`, contract `RrefOk`), z3 (satisfying assignments).
-/

namespace Verif.SP
open Verif
variable {n : ℕ}

/-- `checks[:, j] = (checks[:, i] + checks[:, j]) % 2` (state_prep.py:251). -/
def addCol (M : List (Vec n)) (g : CX n) : List (Vec n) :=
  M.map fun r => Function.update r g.2 (r g.1 + r g.2)

/-- `np.sum(checks, axis=0)[j]` (state_prep.py:218, 237). -/
def colSum (M : List (Vec n)) (j : Fin n) : ℕ := M.countP fun r => decide (r j = 1)

/-- `np.sum((checks[:, i] + checks[:, j]) % 2)` (state_prep.py:216, 234). -/
def pairSum (M : List (Vec n)) (i j : Fin n) : ℕ := M.countP fun r => decide (r i + r j = 1)

/-- `np.fill_diagonal(costs, 1)` (state_prep.py:219, 238, 256). -/
def fillDiag (c : Fin n → Fin n → ℤ) : Fin n → Fin n → ℤ := fun i j => if i = j then 1 else c i j

/-- Initial cost table (state_prep.py:215-219, 233-238). -/
def initCosts (M : List (Vec n)) : Fin n → Fin n → ℤ :=
  fillDiag fun i j => (pairSum M i j : ℤ) - colSum M j

/-- `is_reduced` (state_prep.py:212-213): the number of all-zero columns is `n - rank`. -/
def isReduced (rk : ℕ) (M : List (Vec n)) : Bool :=
  decide ((((List.finRange n).countP fun j => M.all fun r => decide (r j = 0) : ℕ) : ℤ) = (n : ℤ) - rk)

/-- Local variables of the greedy loop (state_prep.py:221-256). -/
structure HState (n : ℕ) where
  checks : List (Vec n)
  costs : Fin n → Fin n → ℤ
  used : List (Fin n)
  cnots : List (CX n)

/-- Unmasked index pairs in row-major order (state_prep.py:224-228). -/
def unmasked (used : List (Fin n)) : List (CX n) :=
  ((List.finRange n).flatMap fun i => (List.finRange n).map fun j => (i, j)).filter fun p =>
    decide (p.1 ∉ used ∧ p.2 ∉ used)

/-- `np.argmin`: first position of the smallest value (state_prep.py:243). -/
def argmin (f : CX n → ℤ) : List (CX n) → Option (CX n)
  | [] => none
  | p :: ps =>
    match argmin f ps with
    | none => some p
    | some q => if f p ≤ f q then some p else some q

/-- `np.all(costs_unused >= 0) or len(used_qubits) == checks.shape[1]` (state_prep.py:229); `np.all`
of a completely masked array is falsy. -/
def noReduction (s : HState n) : Bool :=
  decide ((unmasked s.used ≠ [] ∧ ∀ p ∈ unmasked s.used, 0 ≤ s.costs p.1 p.2) ∨ s.used.length = n)

/-- Cost update after `checks[:, j] += checks[:, i]` (state_prep.py:253-256); `M` is the new matrix. -/
def updateCosts (M : List (Vec n)) (c : Fin n → Fin n → ℤ) (j : Fin n) : Fin n → Fin n → ℤ :=
  let c1 : Fin n → Fin n → ℤ := fun a b => if a = j then (pairSum M j b : ℤ) - colSum M b else c a b
  let c2 : Fin n → Fin n → ℤ := fun a b => if b = j then (pairSum M j a : ℤ) - colSum M j else c1 a b
  fillDiag c2

/-- Body of the `while` loop (state_prep.py:223-256).  If every entry is masked `argmin` has no
meaning; this case is unreachable (all qubits are then used) and leaves the state unchanged. -/
def heurStep (rref : List (Vec n) → List (Vec n)) (optimizeDepth : Bool) (s : HState n) : HState n :=
  if noReduction s then
    if s.used = [] then { s with checks := rref s.checks, costs := initCosts (rref s.checks) }
    else { s with used := [] }
  else
    match argmin (fun p => s.costs p.1 p.2) (unmasked s.used) with
    | none => s
    | some p =>
      let M := addCol s.checks p
      { checks := M, costs := updateCosts M s.costs p.2,
        used := if optimizeDepth then s.used ++ [p.1, p.2] else s.used,
        cnots := s.cnots ++ [p] }

/-- The `while not is_reduced()` loop with a bound on the number of iterations; `none` when the
bound is reached (state_prep.py:223-256). -/
def heurLoop (rref : List (Vec n) → List (Vec n)) (optimizeDepth : Bool) (rk : ℕ) :
    ℕ → HState n → Option (HState n)
  | 0, _ => none
  | k + 1, s =>
    if isReduced rk s.checks then some s
    else heurLoop rref optimizeDepth rk k (heurStep rref optimizeDepth s)

/-- A preparation circuit: Hadamard qubits, then CNOTs in order (state_prep.py:485-507). -/
structure PrepCircuit (n : ℕ) where
  hadamards : List (Fin n)
  cnots : List (CX n)

/-- `_build_circuit_from_list_and_checks` (state_prep.py:485-507). -/
def buildCircuit (cnots : List (CX n)) (checks : List (Vec n)) (zeroState : Bool) : PrepCircuit n :=
  let controls := (List.finRange n).filter fun i => decide (1 ≤ colSum checks i)
  { hadamards := if zeroState then controls
      else (List.finRange n).filter fun i => decide (i ∉ controls)
    cnots := cnots.reverse.map fun p => if zeroState then (p.1, p.2) else (p.2, p.1) }

/-- `heuristic_prep_circuit` (state_prep.py:197-259) on the matrix `checks` (`Hx` for the zero
state, `Hz` otherwise), with an iteration bound. -/
def heuristicPrep (rref : List (Vec n) → List (Vec n)) (checks : List (Vec n))
    (optimizeDepth zeroState : Bool) (fuel : ℕ) : Option (PrepCircuit n) :=
  (heurLoop rref optimizeDepth (rank checks) fuel
    { checks := checks, costs := initCosts checks, used := [], cnots := [] }).map fun s =>
      buildCircuit s.cnots s.checks zeroState

/-! ### SMT encodings -/

/-- The array `columns` of an encoding with `m` rows: depth, row, column (state_prep.py:266-274, 335-341). -/
abbrev Cols (σ : Type) (m n : ℕ) := ℕ → Fin m → Fin n → Sym σ

/-- `columns[d, :, col]` (state_prep.py:276-310, 343-369). -/
def colOf {σ : Type} {m : ℕ} (c : Cols σ m n) (d : ℕ) (j : Fin n) : SVec σ m := fun i => c d i j

/-- `_column_addition_constraint` (state_prep.py:1130-1164): meaning of the conjunction. -/
def columnAdditionConstraint {σ : Type} {m : ℕ} (c : Cols σ m n) (add : ℕ → Fin n → Fin n → σ → Bool)
    (maxDepth : ℕ) : σ → Bool := fun a =>
  (List.range maxDepth).all fun d =>
    (List.finRange n).all fun c1 =>
      ((List.finRange n).filter fun c2 => decide (c1 < c2)).all fun c2 =>
        let colSum := vectorAdd (colOf c d c1) (colOf c d c2)
        (!(add d c1 c2 a) ||
          (vectorEq (colOf c (d + 1) c2) colSum a && vectorEq (colOf c (d + 1) c1) (colOf c d c1) a)) &&
        (!(add d c2 c1 a) ||
          (vectorEq (colOf c (d + 1) c1) colSum a && vectorEq (colOf c (d + 1) c2) (colOf c d c2) a))

/-- `_final_matrix_constraint` (state_prep.py:1167-1172): exactly `n - m` all-zero columns at the last
depth (`z3.PbEq` over integers, so for `m > n` it is unsatisfiable). -/
def finalMatrixConstraint {σ : Type} {m : ℕ} (c : Cols σ m n) (last : ℕ) : σ → Bool := fun a =>
  decide ((((List.finRange n).countP fun j => !((List.finRange m).any fun i => (c last i j).eval a) : ℕ) : ℤ)
    = (n : ℤ) - m)

/-- Variables of the gate-optimal encoding: `x_d_i_j`, `control_d`, `target_d`
(state_prep.py:335-341).  Bit-vector values are natural numbers below `2 ^ n_bits`. -/
structure GateVars (m n : ℕ) where
  x : ℕ → Fin m → Fin n → Bool
  control : ℕ → Fin (2 ^ Nat.clog 2 n)
  target : ℕ → Fin (2 ^ Nat.clog 2 n)

/-- `columns` of both encodings after `columns[0, :, :] = checks.astype(bool)` (state_prep.py:349). -/
def encCols {σ : Type} (checks : List (Vec n)) (x : σ → ℕ → Fin checks.length → Fin n → Bool) :
    Cols σ checks.length n :=
  fun d i j => if d = 0 then .con (decide (checks[i] j = 1)) else .sym fun a => x a d i j

/-- Whether the range constraints on controls and targets are added (state_prep.py:359): `n` is
neither 0, 1 nor a power of two. -/
def needsRange (n : ℕ) : Bool := decide (n ≠ 0 ∧ n ≠ 1 ∧ ¬ (n &&& (n - 1) = 0))

/-- The constraints of `_generate_circ_with_bounded_gates` (state_prep.py:343-369). -/
def gateConstraint (checks : List (Vec n)) (maxCnots : ℕ) : GateVars checks.length n → Bool := fun a =>
  let c := encCols checks (fun a : GateVars checks.length n => a.x)
  columnAdditionConstraint c
    (fun d c1 c2 a => decide ((a.control d).val = c1.val) && decide ((a.target d).val = c2.val)) maxCnots a &&
  ((List.range maxCnots).all fun d => decide (a.control d ≠ a.target d) &&
    (!needsRange n || (decide ((a.control d).val < n) && decide ((a.target d).val < n)))) &&
  ((List.range maxCnots).all fun d => (List.finRange n).all fun j =>
    decide ((a.target d).val = j.val) || vectorEq (colOf c (d + 1) j) (colOf c d j) a) &&
  finalMatrixConstraint c maxCnots a

/-- Circuit extracted from a model (state_prep.py:371-377).  A control or target value outside
`0 … n-1` would be an invalid qubit index: `none`. -/
def gateExtract (checks : List (Vec n)) (maxCnots : ℕ) (zeroState : Bool)
    (a : GateVars checks.length n) : Option (PrepCircuit n) :=
  let cnots? := (List.range maxCnots).mapM fun d =>
    if h : (a.control d).val < n ∧ (a.target d).val < n then
      some ((⟨_, h.1⟩, ⟨_, h.2⟩) : CX n) else none
  let final := (List.finRange checks.length).map fun i => fun j : Fin n =>
    if ((encCols checks (fun a : GateVars checks.length n => a.x)) maxCnots i j).eval a then (1 : ZMod 2) else 0
  cnots?.map fun cnots => buildCircuit cnots final zeroState

/-- Variables of the depth-optimal encoding: `x_d_i_j`, `add_d_i_j` (state_prep.py:266-274). -/
structure DepthVars (m n : ℕ) where
  x : ℕ → Fin m → Fin n → Bool
  add : ℕ → Fin n → Fin n → Bool

/-- The constraints of `_generate_circ_with_bounded_depth` (state_prep.py:276-310). -/
def depthConstraint (checks : List (Vec n)) (maxDepth : ℕ) : DepthVars checks.length n → Bool := fun a =>
  let c := encCols checks (fun a : DepthVars checks.length n => a.x)
  columnAdditionConstraint c (fun d c1 c2 a => a.add d c1 c2) maxDepth a &&
  ((List.range maxDepth).all fun d => (List.finRange n).all fun col =>
    decide ((((List.finRange n).filter fun c1 => decide (col ≠ c1)).countP fun c1 => a.add d c1 col) +
      (((List.finRange n).filter fun c2 => decide (col ≠ c2)).countP fun c2 => a.add d col c2) ≤ 1)) &&
  ((List.range maxDepth).all fun d => (List.finRange n).all fun col =>
    (((List.finRange n).filter fun c1 => decide (c1 ≠ col)).any fun c1 => a.add d c1 col) ||
    (((List.finRange n).filter fun c2 => decide (c2 ≠ col)).any fun c2 => a.add d col c2) ||
    vectorEq (colOf c (d + 1) col) (colOf c d col) a) &&
  finalMatrixConstraint c maxDepth a

/-- The additions of one layer in extraction order (state_prep.py:314-320).  The variables
`add_d_i_i` occur in no constraint, so the solver's model does not contain them and they read as
`None` (false). -/
def layerCnots (add : Fin n → Fin n → Bool) : List (CX n) :=
  (List.finRange n).flatMap fun j => ((List.finRange n).filter fun i => decide (i ≠ j) && add i j).map fun i => (i, j)

/-- Circuit extracted from a model (state_prep.py:312-326). -/
def depthExtract (checks : List (Vec n)) (maxDepth : ℕ) (zeroState : Bool)
    (a : DepthVars checks.length n) : PrepCircuit n :=
  let cnots := (List.range maxDepth).flatMap fun d => layerCnots (a.add d)
  let final := (List.finRange checks.length).map fun i => fun j : Fin n =>
    if ((encCols checks (fun a : DepthVars checks.length n => a.x)) maxDepth i j).eval a then (1 : ZMod 2) else 0
  buildCircuit cnots final zeroState

end Verif.SP
