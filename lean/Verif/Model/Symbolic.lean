import Verif.Linalg

/-!
# Symbolic vectors of `state_prep.py` (lines 984-1127)

The code mixes Python bools and z3 expressions in one array and branches on
`isinstance(x, (bool, np.bool_))`.  `Sym σ` keeps that distinction; a z3 expression is represented
by its meaning, a function of the variable assignment `σ`.  The in-place `v1[i] = bool(v1[i])`
does not change values and is not modelled.
-/

namespace Verif.SP
open Verif

/-- A Python bool or a z3 Boolean expression over assignments `σ` (the values handled by state_prep.py:1066-1127). -/
inductive Sym (σ : Type)
  | con (b : Bool)
  | sym (f : σ → Bool)

/-- Value of a symbolic Boolean under an assignment (z3's values of the expressions of state_prep.py:1066-1127). -/
def Sym.eval {σ : Type} (a : σ) : Sym σ → Bool
  | .con b => b
  | .sym f => f a

/-- A symbolic vector of length `n` (state_prep.py:1066-1127). -/
abbrev SVec (σ : Type) (n : ℕ) := Fin n → Sym σ

variable {σ : Type} {n : ℕ}

/-- `_symbolic_scalar_mult` (state_prep.py:1066-1068). -/
def scalarMult (v : Vec n) (a : Sym σ) : SVec σ n := fun i => if v i = 1 then a else .con false

/-- One entry of `_symbolic_vector_add` (state_prep.py:1076-1096). -/
def addEntry : Sym σ → Sym σ → Sym σ
  | .con true, .sym f => .sym fun a => !(f a)
  | .con true, .con b => .con (!b)
  | .con false, y => y
  | .sym f, .con true => .sym fun a => !(f a)
  | .sym f, .con false => .sym f
  | .sym f, .sym g => .sym fun a => xor (f a) (g a)

/-- `_symbolic_vector_add` (state_prep.py:1071-1097). -/
def vectorAdd (v w : SVec σ n) : SVec σ n := fun i => addEntry (v i) (w i)

/-- One constraint of `_symbolic_vector_eq` (state_prep.py:1108-1126). -/
def eqEntry : Sym σ → Sym σ → Sym σ
  | .con true, y => y
  | .con false, .sym f => .sym fun a => !(f a)
  | .con false, .con b => .con (!b)
  | .sym f, .con true => .sym f
  | .sym f, .con false => .sym fun a => !(f a)
  | .sym f, .sym g => .sym fun a => f a == g a

/-- `_symbolic_vector_eq` (state_prep.py:1105-1127): `z3.And` of the entries. -/
def vectorEq (v w : SVec σ n) : σ → Bool := fun a =>
  (List.finRange n).all fun i => (eqEntry (v i) (w i)).eval a

/-- `_vars_to_stab` (state_prep.py:984-990); `none` is the `IndexError` for empty arguments or too
few generators. -/
def varsToStab : List (Sym σ) → List (Vec n) → Option (SVec σ n)
  | m :: ms, g :: gs =>
    if ms.length ≤ gs.length then
      some ((ms.zip gs).foldl (fun acc x => vectorAdd acc (scalarMult x.2 x.1)) (scalarMult g m))
    else none
  | _, _ => none

/-- Number of true entries: meaning of `z3.PbEq/PbGe/PbLe` with unit weights and of `z3.Sum` (state_prep.py:1100-1102). -/
def pbCount (l : List (Sym σ)) (a : σ) : ℕ := l.countP fun x => x.eval a

/-- `_odd_overlap` (state_prep.py:1100-1102): `z3.PbEq(…, 1)`. -/
def oddOverlap (v : SVec σ n) (e : Vec n) : Sym σ :=
  .sym fun a => decide (pbCount (((List.finRange n).filter fun i => decide (e i = 1)).map v) a = 1)

/-- Contract of `z3.Optimize`: the returned assignment satisfies the hard constraint and minimises
the objective among all such assignments (z3 as called in state_prep.py:1049-1063). -/
def IsOptimal (cost : σ → ℕ) (c : σ → Bool) (a : σ) : Prop :=
  c a = true ∧ ∀ b, c b = true → cost a ≤ cost b

/-- Assignments of the variables of `_coset_leader`: `e_0 … e_{n-1}` and `c_0, c_1, …`
(state_prep.py:1053-1054). -/
structure LeaderVars (n : ℕ) where
  leader : Fin n → Bool
  coeff : ℕ → Bool

/-- A concrete vector as a symbolic one: `error.astype(bool)` (state_prep.py:1053-1054). -/
def concrete (v : Vec n) : SVec σ n := fun i => .con (decide (v i = 1))

/-- The hard constraint of `_coset_leader` (state_prep.py:1053-1058). -/
def leaderConstraint (error : Vec n) (gens : List (Vec n)) : Option (LeaderVars n → Bool) :=
  (varsToStab ((List.range gens.length).map fun i => .sym fun a : LeaderVars n => a.coeff i) gens).map
    fun g => vectorEq (fun i => .sym fun a => a.leader i) (vectorAdd (concrete error) g)

/-- The objective `z3.Sum(leader)` (state_prep.py:1059). -/
def leaderCost (a : LeaderVars n) : ℕ := (List.finRange n).countP a.leader

/-- `_coset_leader` (state_prep.py:1049-1063) as a relation: `r` is a possible return value, for any
optimum the solver may pick. -/
def CosetLeader (error : Vec n) (gens : List (Vec n)) (r : Vec n) : Prop :=
  if gens.length = 0 then r = error
  else ∃ c a, leaderConstraint error gens = some c ∧ IsOptimal leaderCost c a ∧
    r = fun i => if a.leader i then 1 else 0

end Verif.SP
