import Verif.Lemmas.NamedCerts
import Verif.Props.CSS

/-! # The checks of the eight tables, evaluated by the kernel -/

namespace Verif.Named
open Verif CSS

/-- The parameters of a code: `n`, `k`, distance against `X` errors and against `Z` errors. -/
structure Params where
  n : ℕ
  k : ℤ
  dx : ℕ
  dz : ℕ

/-- All checks of one table. -/
def checkAll (e : Entry) (t : Cert) (p : Params) : Bool :=
  checkSide e.n p.dx e.hx e.hz t.rx t.rz t.kz t.wx t.dualx && checkSide e.n p.dz e.hz e.hx t.rz t.rx t.kx t.wz t.dualz &&
  e.hx.all (fun g => e.hz.all fun h => popc e.n (g &&& h) % 2 == 0) && decide (0 < p.dx) && decide (0 < p.dz) &&
  !(e.hx ++ e.hz).isEmpty && decide (e.n = p.n) && decide (p.k = (e.n : ℤ) - t.rx.length - t.rz.length) &&
  decide (e.dx = p.dx) && decide (e.dz = p.dz)

theorem check_steane : checkAll steane steaneCert ⟨7, 1, 3, 3⟩ = true := by decide +kernel
theorem check_tetrahedral : checkAll tetrahedral tetrahedralCert ⟨15, 1, 7, 3⟩ = true := by decide +kernel
theorem check_hamming : checkAll hamming hammingCert ⟨15, 7, 3, 3⟩ = true := by decide +kernel
theorem check_shor : checkAll shor shorCert ⟨9, 1, 3, 3⟩ = true := by decide +kernel
theorem check_carbon : checkAll carbon carbonCert ⟨12, 2, 4, 4⟩ = true := by decide +kernel
theorem check_golay : checkAll golay golayCert ⟨23, 1, 7, 7⟩ = true := by decide +kernel
theorem check_surface3 : checkAll surface3 surface3Cert ⟨9, 1, 3, 3⟩ = true := by decide +kernel
theorem check_surface5 : checkAll surface5 surface5Cert ⟨25, 1, 5, 5⟩ = true := by decide +kernel

end Verif.Named
