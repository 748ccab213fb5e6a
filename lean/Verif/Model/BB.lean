import Verif.Model.CSS
import Mathlib.Data.Matrix.Basic
import Mathlib.Data.Matrix.Mul

/-!
# Model of `src/mqt/qecc/codes/bb_codes.py`

Integer matrices are `Matrix _ _ ℕ` (the code uses int8 and float64 arrays holding small
non-negative integers; the largest entry is the number of terms, at most 3, so no overflow).
-/

namespace Verif.BB
open Verif

/-- `_shift_matrix` (bb_codes.py:42-46). -/
def shiftMatrix (l : ℕ) : Matrix (Fin l) (Fin l) ℕ := fun i j => if j.val = (i.val + 1) % l then 1 else 0

/-- `np.kron` of two square matrices: row `i * m + k`, column `j * m + k'` holds `a[i,j] * b[k,k']` (bb_codes.py:50, 54). -/
def kron {l m : ℕ} (a : Matrix (Fin l) (Fin l) ℕ) (b : Matrix (Fin m) (Fin m) ℕ) :
    Matrix (Fin (l * m)) (Fin (l * m)) ℕ := fun i j => a i.divNat j.divNat * b i.modNat j.modNat

/-- `_x_matrix` (bb_codes.py:49-50). -/
def xMatrix (l m : ℕ) : Matrix (Fin (l * m)) (Fin (l * m)) ℕ := kron (shiftMatrix l) 1

/-- `_y_matrix` (bb_codes.py:53-54). -/
def yMatrix (l m : ℕ) : Matrix (Fin (l * m)) (Fin (l * m)) ℕ := kron 1 (shiftMatrix m)

/-- `_cyclic_matrix_sum` (bb_codes.py:57-66). -/
def cyclicMatrixSum (xTerms yTerms : List ℕ) (l m : ℕ) : Matrix (Fin (l * m)) (Fin (l * m)) ℕ :=
  yTerms.foldl (fun a p => a + yMatrix l m ^ p) (xTerms.foldl (fun a p => a + xMatrix l m ^ p) 0)

/-- Reduction mod 2 (`% 2`), as a binary matrix (bb_codes.py:72-73). -/
def mod2 {a b : ℕ} (M : Matrix (Fin a) (Fin b) ℕ) : Matrix (Fin a) (Fin b) (ZMod 2) := fun i j => (M i j : ZMod 2)

/-- `np.hstack((a, b))` as a list of rows (bb_codes.py:74). -/
def hstack {r a b : ℕ} (A : Matrix (Fin r) (Fin a) (ZMod 2)) (B : Matrix (Fin r) (Fin b) (ZMod 2)) :
    List (Vec (a + b)) := List.ofFn fun i => Fin.append (A i) (B i)

/-- `_cyclic_code_check_matrix` (bb_codes.py:69-74): note the order of the first two parameters,
`m` before `l_`. -/
def cyclicCodeCheckMatrix (m l : ℕ) (aTerms bTerms : List ℕ × List ℕ) :
    List (Vec (l * m + l * m)) × List (Vec (l * m + l * m)) :=
  let a := mod2 (cyclicMatrixSum aTerms.1 aTerms.2 l m)
  let b := mod2 (cyclicMatrixSum bTerms.1 bTerms.2 l m)
  (hstack a b, hstack b.transpose a.transpose)

/-- The call of the `CSSCode` constructor (bb_codes.py:39). -/
def mk (lib : CSS.Mod2) (m l : ℕ) (aTerms bTerms : List ℕ × List ℕ) (d : ℤ) : Except CSS.Err CSS.Code :=
  let c := cyclicCodeCheckMatrix m l aTerms bTerms
  CSS.mkCSS lib d (some ⟨_, c.1⟩) (some ⟨_, c.2⟩) none none

/-- `construct_bb_code` (bb_codes.py:15-39). -/
def constructBB (lib : CSS.Mod2) (n : ℤ) : Except CSS.Err CSS.Code :=
  if n = 72 then mk lib 6 6 ([3], [1, 2]) ([1, 2], [3]) 6
  else if n = 90 then mk lib 15 3 ([9], [1, 2]) ([2, 7], [0]) 10
  else if n = 108 then mk lib 9 6 ([3], [1, 2]) ([1, 2], [3]) 10
  else if n = 144 then mk lib 12 6 ([3], [1, 2]) ([1, 2], [3]) 12
  else if n = 288 then mk lib 12 12 ([3], [2, 7]) ([1, 2], [3]) 18
  else .error (.invalidCSS "No bb code with this n")

end Verif.BB
