import Verif.Lemmas.BBCodes
import Verif.Lemmas.BBTables

/-! # Kernel evaluation of the checks of bivariate bicycle codes -/

namespace Verif.BB
open Verif Verif.Named Verif.Sparse

theorem base108 : Base 9 6 ([3], [1,2]) ([1,2], [3]) mx108 mz108 rx108 rz108 := base_of_check (by decide +kernel)

theorem good108 : Good tab108 (6 * 9 + 6 * 9) mz108 := good_of_check (by decide +kernel)

theorem go108_0 : go tab108 rx108 7 (colW (tab108.word 0)) 3 (Nat.lor 0 (Nat.shiftLeft 1 0)) (Nat.shiftLeft 1 0) = true := by
  decide +kernel

theorem go108_1 : go tab108 rx108 7 (colW (tab108.word (6 * 9))) 3 (Nat.lor (2 ^ (6 * 9) - 1) (Nat.shiftLeft 1 (6 * 9)))
    (Nat.shiftLeft 1 (6 * 9)) = true := by
  decide +kernel

theorem wit108x : witnessCheck (6 * 9 + 6 * 9) 10 mz108 mx108 wx108 dx108 = true := by decide +kernel

theorem wit108z : witnessCheck (6 * 9 + 6 * 9) 10 mx108 mz108 wz108 dz108 = true := by decide +kernel

end Verif.BB
