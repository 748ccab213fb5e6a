import Verif.Lemmas.BBCodes
import Verif.Lemmas.BBTables

/-! # Kernel evaluation of the checks of bivariate bicycle codes -/

namespace Verif.BB
open Verif Verif.Named Verif.Sparse

theorem base144 : Base 12 6 ([3], [1,2]) ([1,2], [3]) mx144 mz144 rx144 rz144 := base_of_check (by decide +kernel)

theorem good144 : Good tab144 (6 * 12 + 6 * 12) mz144 := good_of_check (by decide +kernel)

/-- The first start of the search. -/
abbrev st144 : State := (colW (tab144.word 0), 3, Nat.lor 0 (Nat.shiftLeft 1 0), Nat.shiftLeft 1 0)

theorem part144_0 : part tab144 rx144 7 st144 0 = true := by decide +kernel
theorem part144_1 : part tab144 rx144 7 st144 1 = true := by decide +kernel
theorem part144_2 : part tab144 rx144 7 st144 2 = true := by decide +kernel
theorem part144_3 : part tab144 rx144 7 st144 3 = true := by decide +kernel
theorem part144_4 : part tab144 rx144 7 st144 4 = true := by decide +kernel
theorem part144_5 : part tab144 rx144 7 st144 5 = true := by decide +kernel
theorem part144_6 : part tab144 rx144 7 st144 6 = true := by decide +kernel
theorem part144_7 : part tab144 rx144 7 st144 7 = true := by decide +kernel
theorem part144_8 : part tab144 rx144 7 st144 8 = true := by decide +kernel
theorem part144_9 : part tab144 rx144 7 st144 9 = true := by decide +kernel
theorem part144_10 : part tab144 rx144 7 st144 10 = true := by decide +kernel
theorem part144_11 : part tab144 rx144 7 st144 11 = true := by decide +kernel
theorem part144_12 : part tab144 rx144 7 st144 12 = true := by decide +kernel
theorem part144_13 : part tab144 rx144 7 st144 13 = true := by decide +kernel
theorem part144_14 : part tab144 rx144 7 st144 14 = true := by decide +kernel
theorem part144_15 : part tab144 rx144 7 st144 15 = true := by decide +kernel
theorem part144_16 : part tab144 rx144 7 st144 16 = true := by decide +kernel
theorem part144_17 : part tab144 rx144 7 st144 17 = true := by decide +kernel
theorem part144_18 : part tab144 rx144 7 st144 18 = true := by decide +kernel
theorem part144_19 : part tab144 rx144 7 st144 19 = true := by decide +kernel
theorem part144_20 : part tab144 rx144 7 st144 20 = true := by decide +kernel
theorem part144_21 : part tab144 rx144 7 st144 21 = true := by decide +kernel
theorem part144_22 : part tab144 rx144 7 st144 22 = true := by decide +kernel
theorem part144_23 : part tab144 rx144 7 st144 23 = true := by decide +kernel
theorem part144_24 : part tab144 rx144 7 st144 24 = true := by decide +kernel

theorem go144_0 : go tab144 rx144 9 (colW (tab144.word 0)) 3 (Nat.lor 0 (Nat.shiftLeft 1 0)) (Nat.shiftLeft 1 0) = true := by
  refine go_parts (a := st144) (k := 7) (c := 25) (by decide +kernel) fun i hi => ?_
  have h : i ∈ List.range 25 := List.mem_range.2 hi
  fin_cases h
  · exact part144_0
  · exact part144_1
  · exact part144_2
  · exact part144_3
  · exact part144_4
  · exact part144_5
  · exact part144_6
  · exact part144_7
  · exact part144_8
  · exact part144_9
  · exact part144_10
  · exact part144_11
  · exact part144_12
  · exact part144_13
  · exact part144_14
  · exact part144_15
  · exact part144_16
  · exact part144_17
  · exact part144_18
  · exact part144_19
  · exact part144_20
  · exact part144_21
  · exact part144_22
  · exact part144_23
  · exact part144_24

theorem go144_1 : go tab144 rx144 9 (colW (tab144.word (6 * 12))) 3 (Nat.lor (2 ^ (6 * 12) - 1) (Nat.shiftLeft 1 (6 * 12)))
    (Nat.shiftLeft 1 (6 * 12)) = true := by
  decide +kernel

theorem wit144x : witnessCheck (6 * 12 + 6 * 12) 12 mz144 mx144 wx144 dx144 = true := by decide +kernel

theorem wit144z : witnessCheck (6 * 12 + 6 * 12) 12 mx144 mz144 wz144 dz144 = true := by decide +kernel

end Verif.BB
