exec(open('/tmp/npy.py').read())
import itertools
codes=[('steane','steane',3,3),('tetrahedral','tetrahedral',7,3),('hamming','hamming',3,3),('shor','shor',3,3),('golay','golay',7,7),('surface3','rotated_surface_d3',3,3),('surface5','rotated_surface_d5',5,5),('carbon','carbon',4,4)]
def mask(r): return sum(b<<i for i,b in enumerate(r))
def rref(H,n):
    rows=[(h,1<<i) for i,h in enumerate(H)]
    piv=[];r=0
    for c in range(n):
        k=next((i for i in range(r,len(rows)) if rows[i][0]>>c&1),None)
        if k is None: continue
        rows[r],rows[k]=rows[k],rows[r]
        for i in range(len(rows)):
            if i!=r and rows[i][0]>>c&1: rows[i]=(rows[i][0]^rows[r][0],rows[i][1]^rows[r][1])
        piv.append(c);r+=1
    return [(piv[i],rows[i][0],rows[i][1]) for i in range(r)]
def kernel(R,n):
    P=[p for p,_,_ in R]
    out=[]
    for j in range(n):
        if j in P: continue
        b=1<<j
        for p,row,_ in R:
            if row>>j&1: b|=1<<p
        out.append((j,b))
    return out
def par(x): return bin(x).count('1')%2
def minlog(B,other_rref,d):
    # nontrivial kernel element of weight d: and a dual witness
    pass
m='''import Verif.Model.CSS

/-!
# Model of `CSSCode.from_code_name` (src/mqt/qecc/codes/css_code.py:160-220)

The files `hx.npy`, `hz.npy` of the eight directories are tables below.  A row is written as a number
whose bit `i` is the entry of column `i`; `toVec` turns it into the numpy row.
-/

namespace Verif.Named
open Verif

/-- The row with the given bits. -/
def toVec (n m : ℕ) : Vec n := fun i => if m.testBit i.val then 1 else 0

/-- A directory with `hx.npy` and `hz.npy`, and the pair in `distances` (css_code.py:190-199). -/
structure Entry where
  n : ℕ
  hx : List ℕ
  hz : List ℕ
  dx : ℤ
  dz : ℤ

'''
for nm,d,dx,dz in codes:
    hx=load(d,'hx');hz=load(d,'hz');n=len(hx[0])
    m+=f"/-- `codes/{d}/hx.npy`, `codes/{d}/hz.npy`. -/\ndef {nm} : Entry :=\n  ⟨{n}, {[mask(r) for r in hx]}, {[mask(r) for r in hz]}, {dx}, {dz}⟩\n\n"
m+='''/-- `paths` and `distances` (css_code.py:178-199): both dictionaries have the same keys. -/
def table : List (String × Entry) :=
  [("steane", steane), ("tetrahedral", tetrahedral), ("hamming", hamming), ("shor", shor), ("surface_3", surface3),
    ("surface_5", surface5), ("golay", golay), ("carbon", carbon)]

/-- The name looked up (css_code.py:201-205), given the lower-case name (`str.lower` is not modelled). -/
def lookupName (lowerName : String) (distance : Option ℤ) : String :=
  if lowerName = "surface" then lowerName ++ ("_" ++ toString (distance.getD 3)) else lowerName

/-- `from_code_name` (css_code.py:160-220).  `lowerName` is `code_name.lower()`. -/
def fromCodeName (lib : CSS.Mod2) (lowerName : String) (distance : Option ℤ) : Except CSS.Err CSS.Code :=
  match table.lookup (lookupName lowerName distance) with
  | some e => CSS.mkCSS lib (min e.dx e.dz) (some ⟨e.n, e.hx.map (toVec e.n)⟩) (some ⟨e.n, e.hz.map (toVec e.n)⟩)
      (some e.dx) (some e.dz)
  | none => .error (.invalidCSS ("Unknown code name: " ++ lookupName lowerName distance))

end Verif.Named
'''
open('/verif/lean/Verif/Model/NamedCodes.lean','w').write(m)
# certificates
c='''import Verif.Model.NamedCodes
import Verif.Lemmas.MaskCodes

/-! # Certificates for the named codes: reduced rows, kernel bases and logical operators (computed
outside, checked by the kernel in `Props/NamedCodes`). -/

namespace Verif.Named

'''
for nm,d,dx,dz in codes:
    hx=[mask(r) for r in load(d,'hx')];hz=[mask(r) for r in load(d,'hz')];n=len(load(d,'hx')[0])
    Rx=rref(hx,n);Rz=rref(hz,n);Kx=kernel(Rx,n);Kz=kernel(Rz,n)
    # all kernel elements
    def elems(K):
        out=[0]
        for _,b in K: out+=[o^b for o in out]
        return out
    def red(R,v):
        for p,r,_ in R:
            if v>>p&1: v^=r
        return v
    ez=elems(Kz);ex=elems(Kx)
    wx=next(v for v in sorted(ez,key=lambda v:bin(v).count('1')) if red(Rx,v))
    wz=next(v for v in sorted(ex,key=lambda v:bin(v).count('1')) if red(Rz,v))
    dualx=next(v for v in ex if par(v&wx))
    dualz=next(v for v in ez if par(v&wz))
    assert bin(wx).count('1')==dx and bin(wz).count('1')==dz
    f=lambda R:"["+", ".join("(%d, %d, %d)"%t for t in R)+"]"
    g=lambda K:"["+", ".join("(%d, %d)"%t for t in K)+"]"
    c+=f"def {nm}Cert : Cert :=\n  ⟨{f(Rx)},\n   {g(Kx)},\n   {f(Rz)},\n   {g(Kz)},\n   {wx}, {dualx}, {wz}, {dualz}⟩\n\n"
c+="end Verif.Named\n"
open('/verif/lean/Verif/Lemmas/NamedCerts.lean','w').write(c)
