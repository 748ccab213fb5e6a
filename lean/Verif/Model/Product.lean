import Verif.Common
import Mathlib.Data.ZMod.Basic
import Mathlib.Data.Matrix.Basic
import Mathlib.Data.Matrix.Mul

/-!
# Model of `analog_information_decoding/code_construction/code_constructor.py` (and the sparse twin)

An `a × b` numpy int32 array is `Matrix (Fin a) (Fin b) ℤ`; int32 overflow is not modelled.  Shapes
are in the types, so only calls whose shapes fit are modelled (`a_1 : n0 × n1`, `a_2 : n1 × n2`,
`a_3 : n2 × n3`; numpy raises `ValueError` otherwise).  `sparse_code_constructor.py:39-111` performs
the same operations on scipy matrices.
-/

namespace Verif.Product
open Verif

/-- `np.kron` (code_constructor.py:59-69, 92-96). -/
def kron {a b c d : ℕ} (A : Matrix (Fin a) (Fin b) ℤ) (B : Matrix (Fin c) (Fin d) ℤ) :
    Matrix (Fin (a * c)) (Fin (b * d)) ℤ := fun i j => A i.divNat j.divNat * B i.modNat j.modNat

/-- `np.hstack((A, B))` (code_constructor.py:60, 66, 93). -/
def hstack {r a b : ℕ} (A : Matrix (Fin r) (Fin a) ℤ) (B : Matrix (Fin r) (Fin b) ℤ) :
    Matrix (Fin r) (Fin (a + b)) ℤ := fun i => Fin.append (A i) (B i)

/-- `np.vstack((A, B))` (code_constructor.py:59-69). -/
def vstack {a b c : ℕ} (A : Matrix (Fin a) (Fin c) ℤ) (B : Matrix (Fin b) (Fin c) ℤ) :
    Matrix (Fin (a + b)) (Fin c) ℤ := fun i j => Fin.append (fun k => A k j) (fun k => B k j) i

/-- `is_all_zeros(M % 2)` (code_constructor.py:21-23; `sparse_all_zeros`,
sparse_code_constructor.py:28-31). -/
def allZerosMod2 {a b : ℕ} (M : Matrix (Fin a) (Fin b) ℤ) : Bool := decide (∀ i j, M i j % 2 = 0)

/-- Exceptions (raised in code_constructor.py:26-104). -/
inductive Err
  | runtimeError
  | valueError
deriving DecidableEq

/-- `d_1` of both constructions (code_constructor.py:57, 90). -/
def d1 {n0 n1 r c : ℕ} (a1 : Matrix (Fin n0) (Fin n1) ℤ) (p : Matrix (Fin r) (Fin c) ℤ) :
    Matrix (Fin (n0 * r)) (Fin (n1 * r + n0 * c)) ℤ :=
  hstack (kron a1 (1 : Matrix (Fin r) (Fin r) ℤ)) (kron (1 : Matrix (Fin n0) (Fin n0) ℤ) p)

/-- `d_2` of both constructions, and `d_3` of the 4D one (code_constructor.py:59-63, 65-69, 92-96):
the zero block has shape `(y.shape[0], x.shape[1] - y.shape[1])`. -/
def d2 {n0 n1 n2 r c : ℕ} (a1 : Matrix (Fin n0) (Fin n1) ℤ) (a2 : Matrix (Fin n1) (Fin n2) ℤ)
    (p : Matrix (Fin r) (Fin c) ℤ) : Matrix (Fin (n1 * r + n0 * c)) (Fin (n2 * r + n1 * c)) ℤ :=
  vstack (hstack (kron a2 (1 : Matrix (Fin r) (Fin r) ℤ)) (kron (1 : Matrix (Fin n1) (Fin n1) ℤ) p))
    (hstack (0 : Matrix (Fin (n0 * c)) (Fin (n2 * r)) ℤ) (kron a1 (1 : Matrix (Fin c) (Fin c) ℤ)))

/-- `d_3` of the 3D construction and `d_4` of the 4D one (code_constructor.py:71, 98). -/
def dLast {n1 n2 r c : ℕ} (a2 : Matrix (Fin n1) (Fin n2) ℤ) (p : Matrix (Fin r) (Fin c) ℤ) :
    Matrix (Fin (n2 * r + n1 * c)) (Fin (n2 * c)) ℤ :=
  vstack (kron (1 : Matrix (Fin n2) (Fin n2) ℤ) p) (kron a2 (1 : Matrix (Fin c) (Fin c) ℤ))

/-- `generate_3d_product_code` (code_constructor.py:79-104). -/
def generate3d {n0 n1 n2 r c : ℕ} (a1 : Matrix (Fin n0) (Fin n1) ℤ) (a2 : Matrix (Fin n1) (Fin n2) ℤ)
    (p : Matrix (Fin r) (Fin c) ℤ) :
    Except Err (Matrix (Fin (n0 * r)) (Fin (n1 * r + n0 * c)) ℤ × Matrix (Fin (n1 * r + n0 * c)) (Fin (n2 * r + n1 * c)) ℤ ×
      Matrix (Fin (n2 * r + n1 * c)) (Fin (n2 * c)) ℤ) :=
  if allZerosMod2 (d1 a1 p * d2 a1 a2 p) && allZerosMod2 (d2 a1 a2 p * dLast a2 p) then
    .ok (d1 a1 p, d2 a1 a2 p, dLast a2 p)
  else .error .runtimeError

/-- `generate_4d_product_code` with `run_checks_scipy` (code_constructor.py:26-76). -/
def generate4d {n0 n1 n2 n3 r c : ℕ} (a1 : Matrix (Fin n0) (Fin n1) ℤ) (a2 : Matrix (Fin n1) (Fin n2) ℤ)
    (a3 : Matrix (Fin n2) (Fin n3) ℤ) (p : Matrix (Fin r) (Fin c) ℤ) (checks : Bool) :
    Except Err (Matrix (Fin (n0 * r)) (Fin (n1 * r + n0 * c)) ℤ × Matrix (Fin (n1 * r + n0 * c)) (Fin (n2 * r + n1 * c)) ℤ ×
      Matrix (Fin (n2 * r + n1 * c)) (Fin (n3 * r + n2 * c)) ℤ × Matrix (Fin (n3 * r + n2 * c)) (Fin (n3 * c)) ℤ) :=
  if checks && !(allZerosMod2 (d1 a1 p * d2 a1 a2 p) && allZerosMod2 (d2 a1 a2 p * d2 a2 a3 p) &&
      allZerosMod2 (d2 a2 a3 p * dLast a3 p)) then .error .runtimeError
  else .ok (d1 a1 p, d2 a1 a2 p, d2 a2 a3 p, dLast a3 p)

/-- The matrices saved by `create_code` (code_constructor.py:183-211) for the seed code
`(hx, hz) = (code.hx, code.hz)` of the external `bposd.hgp`: `mx, hx, hz, mz`. -/
def createCode {n0 n1 n2 r c r' c' : ℕ} (hx : Matrix (Fin n0) (Fin n1) ℤ) (hz : Matrix (Fin n2) (Fin n1) ℤ)
    (p : Matrix (Fin r) (Fin c) ℤ) (q : Matrix (Fin r') (Fin c') ℤ) (checks : Bool) := do
  let res ← generate3d hx hz.transpose p
  let out ← generate4d res.1 res.2.1 res.2.2 q checks
  require (allZerosMod2 (out.2.2.1 * out.2.2.2) = true ∧ allZerosMod2 (out.2.1 * out.2.2.1) = true ∧
    allZerosMod2 (out.1 * out.2.1) = true) Err.runtimeError
  return (out.1, out.2.1, out.2.2.1.transpose, out.2.2.2.transpose)

end Verif.Product
