import Verif.Lemmas.BBCodes
import Verif.Lemmas.BBTables

/-! # Kernel evaluation of the checks of bivariate bicycle codes -/

namespace Verif.BB
open Verif Verif.Named Verif.Sparse

theorem base72 : Base 6 6 ([3], [1,2]) ([1,2], [3]) mx72 mz72 rx72 rz72 := base_of_check (by decide +kernel)

theorem good72 : Good tab72 (6 * 6 + 6 * 6) mz72 := good_of_check (by decide +kernel)

theorem go72_0 : go tab72 rx72 3 (colW (tab72.word 0)) 3 (Nat.lor 0 (Nat.shiftLeft 1 0)) (Nat.shiftLeft 1 0) = true := by
  decide +kernel

theorem go72_1 : go tab72 rx72 3 (colW (tab72.word (6 * 6))) 3 (Nat.lor (2 ^ (6 * 6) - 1) (Nat.shiftLeft 1 (6 * 6)))
    (Nat.shiftLeft 1 (6 * 6)) = true := by
  decide +kernel

theorem wit72x : witnessCheck (6 * 6 + 6 * 6) 6 mz72 mx72 wx72 dx72 = true := by decide +kernel

theorem wit72z : witnessCheck (6 * 6 + 6 * 6) 6 mx72 mz72 wz72 dz72 = true := by decide +kernel

theorem base90 : Base 15 3 ([9], [1,2]) ([2,7], [0]) mx90 mz90 rx90 rz90 := base_of_check (by decide +kernel)

theorem wit90x : witnessCheck (3 * 15 + 3 * 15) 2 mz90 mx90 wx90 dx90 = true := by decide +kernel

theorem wit90z : witnessCheck (3 * 15 + 3 * 15) 2 mx90 mz90 wz90 dz90 = true := by decide +kernel

end Verif.BB
