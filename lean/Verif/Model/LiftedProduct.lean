import Verif.Common
import Mathlib.Data.ZMod.Basic
import Mathlib.Data.Matrix.Basic
import Mathlib.Data.Matrix.Mul

/-!
# Lifted product codes (`scripts/numerics/code_construct/lifted_hgp.py`)

The arrays of `ldpc.protograph` (an external library) have entries in the ring of circulants: an entry is given by the list of
the exponents of its monomials.  Simplification: `ldpc` removes a pair of equal exponents, here both stay in the list; the binary
form adds the monomials modulo two, so that both give the same matrix.
-/

namespace Verif.Lifted
open Verif

/-- An element of the ring of circulants: the exponents (`ldpc.protograph`, used in lifted_hgp.py:25-63). -/
abbrev Elem := List ℤ

/-- A protograph with `m` rows and `n` columns (`ldpc.protograph.array`, lifted_hgp.py:25-56). -/
abbrev Proto (m n : ℕ) := Matrix (Fin m) (Fin n) Elem

/-- The product of ring elements (entries multiplied by `np.kron`, lifted_hgp.py:43-49). -/
def Elem.mul (a b : Elem) : Elem := a.flatMap fun x => b.map fun y => x + y

/-- `pt.identity(n)` (lifted_hgp.py:17-19). -/
def ident (n : ℕ) : Proto n n := fun i j => if i = j then [0] else []

/-- `pt.zeros((m, n))` (lifted_hgp.py:61-62, 99-103). -/
def zeros (m n : ℕ) : Proto m n := fun _ _ => []

/-- `proto.T` of `ldpc.protograph`: the transposed array of the transposed entries (lifted_hgp.py:44, 48). -/
def transpose {m n : ℕ} (a : Proto m n) : Proto n m := fun i j => (a j i).map fun e => -e

/-- `np.kron` (lifted_hgp.py:43-48). -/
def kron {a b c d : ℕ} (A : Proto a b) (B : Proto c d) : Proto (a * c) (b * d) :=
  fun i j => (A i.divNat j.divNat).mul (B i.modNat j.modNat)

/-- `pt.hstack([A, B])` (lifted_hgp.py:45, 49); arrays with different numbers of rows are refused by the type, see
`biasTailored`. -/
def hstack {r a b : ℕ} (A : Proto r a) (B : Proto r b) : Proto r (a + b) := fun i => Fin.append (A i) (B i)

/-- `pt.vstack([A, B])` (lifted_hgp.py:61-62, 101, 104). -/
def vstack {a b c : ℕ} (A : Proto a c) (B : Proto b c) : Proto (a + b) c :=
  fun i j => Fin.append (fun k => A k j) (fun k => B k j) i

/-- The binary form of an element: the sum modulo two of `np.roll(np.identity(L), e, axis=1)` over the exponents (`to_binary`, lifted_hgp.py:58-63). -/
def Elem.toBinary (L : ℕ) (x : Elem) : Matrix (Fin L) (Fin L) (ZMod 2) :=
  fun s t => (x.map fun e => if ((s.val : ℤ) + e) % L = t.val then (1 : ZMod 2) else 0).sum

/-- `proto.to_binary(lift_parameter)` (lifted_hgp.py:54-55): every entry replaced by its circulant. -/
def toBinary (L : ℕ) {m n : ℕ} (A : Proto m n) : Matrix (Fin (m * L)) (Fin (n * L)) (ZMod 2) :=
  fun i j => Elem.toBinary L (A i.divNat j.divNat) i.modNat j.modNat

/-- `hx1_proto` (lifted_hgp.py:43). -/
def hx1 {am an : ℕ} (bn : ℕ) (a : Proto am an) : Proto (am * bn) (an * bn) := kron a (ident bn)

/-- `hx2_proto` (lifted_hgp.py:44). -/
def hx2 (am : ℕ) {bm bn : ℕ} (b : Proto bm bn) : Proto (am * bn) (am * bm) := kron (ident am) (transpose b)

/-- `hz1_proto` (lifted_hgp.py:47). -/
def hz1 (an : ℕ) {bm bn : ℕ} (b : Proto bm bn) : Proto (an * bm) (an * bn) := kron (ident an) b

/-- `hz2_proto` (lifted_hgp.py:48). -/
def hz2 {am an : ℕ} (bm : ℕ) (a : Proto am an) : Proto (an * bm) (am * bm) := kron (transpose a) (ident bm)

/-- `hx_proto` (lifted_hgp.py:45). -/
def hxProto {am an bm bn : ℕ} (a : Proto am an) (b : Proto bm bn) : Proto (am * bn) (an * bn + am * bm) :=
  hstack (hx1 bn a) (hx2 am b)

/-- `hz_proto` (lifted_hgp.py:49). -/
def hzProto {am an bm bn : ℕ} (a : Proto am an) (b : Proto bm bn) : Proto (an * bm) (an * bn + am * bm) :=
  hstack (hz1 an b) (hz2 bm a)

/-- `LiftedHgp(lift_parameter, a, b)` (lifted_hgp.py:25-56): the matrices handed to `css_code`.  `b = None` stands for a copy
of `a` (lifted_hgp.py:36-39), see `liftedSquare`. -/
def liftedHgp (L : ℕ) {am an bm bn : ℕ} (a : Proto am an) (b : Proto bm bn) :
    Matrix (Fin (am * bn * L)) (Fin ((an * bn + am * bm) * L)) (ZMod 2) ×
      Matrix (Fin (an * bm * L)) (Fin ((an * bn + am * bm) * L)) (ZMod 2) :=
  (toBinary L (hxProto a b), toBinary L (hzProto a b))

/-- `LiftedHgp(lift_parameter, a)` (lifted_hgp.py:36-37). -/
def liftedSquare (L : ℕ) {am an : ℕ} (a : Proto am an) := liftedHgp L a a

/-- The property `protograph` (lifted_hgp.py:58-63 and 111-116) of a pair of check protographs: X part and Z part. -/
def protograph {r r' n : ℕ} (hx : Proto r n) (hz : Proto r' n) : Proto (r' + r) n × Proto (r' + r) n :=
  (vstack (zeros r' n) hx, vstack hz (zeros r n))

/-- Exceptions (raised in lifted_hgp.py:25-56). -/
inductive Err
  | valueError
deriving DecidableEq

/-- An array with its number of rows rewritten (the shapes of lifted_hgp.py:43-49). -/
def castRows {r r' n : ℕ} (h : r = r') (A : Proto r n) : Proto r' n := fun i => A (i.cast h.symm)

/-- The protographs of `BiasTailoredLiftedProduct(lift_parameter, a, b)` (lifted_hgp.py:95-104).  All four `hstack`s put an array
with `a_m * b_n` rows beside one with `a_n * b_m` rows and raise `ValueError` if the numbers differ. -/
def biasTailored {am an bm bn : ℕ} (a : Proto am an) (b : Proto bm bn) :
    Except Err (Proto (am * bn + am * bn) (an * bn + am * bm) × Proto (am * bn + am * bn) (an * bn + am * bm)) :=
  if h : an * bm = am * bn then
    .ok (vstack (hstack (zeros _ _) (castRows h (hz2 bm a))) (hstack (hx1 bn a) (castRows h (zeros (an * bm) (am * bm)))),
      vstack (hstack (castRows h (hz1 an b)) (zeros _ _)) (hstack (castRows h (zeros (an * bm) (an * bn))) (hx2 am b)))
  else .error .valueError

end Verif.Lifted
