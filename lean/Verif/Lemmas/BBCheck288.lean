import Verif.Lemmas.BBCodes
import Verif.Lemmas.BBTables

/-! # Kernel evaluation of the checks of bivariate bicycle codes -/

namespace Verif.BB
open Verif Verif.Named Verif.Sparse

theorem base288 : Base 12 12 ([3], [2,7]) ([1,2], [3]) mx288 mz288 rx288 rz288 := base_of_check (by decide +kernel)

theorem good288 : Good tab288 (12 * 12 + 12 * 12) mz288 := good_of_check (by decide +kernel)

/-- The first start of the search. -/
abbrev st288 : State := (colW (tab288.word 0), 3, Nat.lor 0 (Nat.shiftLeft 1 0), Nat.shiftLeft 1 0)

theorem part288_0 : part tab288 rx288 7 st288 0 = true := by decide +kernel
theorem part288_1 : part tab288 rx288 7 st288 1 = true := by decide +kernel
theorem part288_2 : part tab288 rx288 7 st288 2 = true := by decide +kernel
theorem part288_3 : part tab288 rx288 7 st288 3 = true := by decide +kernel
theorem part288_4 : part tab288 rx288 7 st288 4 = true := by decide +kernel
theorem part288_5 : part tab288 rx288 7 st288 5 = true := by decide +kernel
theorem part288_6 : part tab288 rx288 7 st288 6 = true := by decide +kernel
theorem part288_7 : part tab288 rx288 7 st288 7 = true := by decide +kernel
theorem part288_8 : part tab288 rx288 7 st288 8 = true := by decide +kernel
theorem part288_9 : part tab288 rx288 7 st288 9 = true := by decide +kernel
theorem part288_10 : part tab288 rx288 7 st288 10 = true := by decide +kernel
theorem part288_11 : part tab288 rx288 7 st288 11 = true := by decide +kernel
theorem part288_12 : part tab288 rx288 7 st288 12 = true := by decide +kernel
theorem part288_13 : part tab288 rx288 7 st288 13 = true := by decide +kernel
theorem part288_14 : part tab288 rx288 7 st288 14 = true := by decide +kernel
theorem part288_15 : part tab288 rx288 7 st288 15 = true := by decide +kernel
theorem part288_16 : part tab288 rx288 7 st288 16 = true := by decide +kernel
theorem part288_17 : part tab288 rx288 7 st288 17 = true := by decide +kernel
theorem part288_18 : part tab288 rx288 7 st288 18 = true := by decide +kernel
theorem part288_19 : part tab288 rx288 7 st288 19 = true := by decide +kernel
theorem part288_20 : part tab288 rx288 7 st288 20 = true := by decide +kernel
theorem part288_21 : part tab288 rx288 7 st288 21 = true := by decide +kernel
theorem part288_22 : part tab288 rx288 7 st288 22 = true := by decide +kernel
theorem part288_23 : part tab288 rx288 7 st288 23 = true := by decide +kernel
theorem part288_24 : part tab288 rx288 7 st288 24 = true := by decide +kernel

theorem go288_0 : go tab288 rx288 9 (colW (tab288.word 0)) 3 (Nat.lor 0 (Nat.shiftLeft 1 0)) (Nat.shiftLeft 1 0) = true := by
  refine go_parts (a := st288) (k := 7) (c := 25) (by decide +kernel) fun i hi => ?_
  have h : i ∈ List.range 25 := List.mem_range.2 hi
  fin_cases h
  · exact part288_0
  · exact part288_1
  · exact part288_2
  · exact part288_3
  · exact part288_4
  · exact part288_5
  · exact part288_6
  · exact part288_7
  · exact part288_8
  · exact part288_9
  · exact part288_10
  · exact part288_11
  · exact part288_12
  · exact part288_13
  · exact part288_14
  · exact part288_15
  · exact part288_16
  · exact part288_17
  · exact part288_18
  · exact part288_19
  · exact part288_20
  · exact part288_21
  · exact part288_22
  · exact part288_23
  · exact part288_24

theorem go288_1 : go tab288 rx288 9 (colW (tab288.word (12 * 12))) 3 (Nat.lor (2 ^ (12 * 12) - 1) (Nat.shiftLeft 1 (12 * 12)))
    (Nat.shiftLeft 1 (12 * 12)) = true := by
  decide +kernel

theorem wit288x : witnessCheck (12 * 12 + 12 * 12) 18 mz288 mx288 wx288 dx288 = true := by decide +kernel

theorem wit288z : witnessCheck (12 * 12 + 12 * 12) 18 mx288 mz288 wz288 dz288 = true := by decide +kernel

end Verif.BB
