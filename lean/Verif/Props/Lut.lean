import Verif.Model.Lut
import Verif.Props.CSS
import Batteries.Data.Nat.Lemmas

/-! # C23, C24: the lookup-table decoder -/

namespace Verif.Lut
open Verif

/-! ### Specification -/

/-- `e` is a minimum-weight error with syndrome `s` with respect to `checks`. -/
def IsMinWeight {n : ℕ} (checks : List (Vec n)) (s : List (ZMod 2)) (e : Vec n) : Prop :=
  mulVec checks e = s ∧ ∀ f : Vec n, mulVec checks f = s → wt e ≤ wt f

/-- `s` is the syndrome of some error. -/
def IsSyndrome {n : ℕ} (checks : List (Vec n)) (s : List (ZMod 2)) : Prop :=
  ∃ e : Vec n, mulVec checks e = s

/-! ### Lemmas -/

theorem exists_stateOf {n : ℕ} (v : Vec n) : ∃ i < 2 ^ n, stateOf n i = v := by
  refine ⟨Nat.ofBits fun j : Fin n => decide (v j.rev = 1), Nat.ofBits_lt_two_pow _, ?_⟩
  funext j
  have hj : n - 1 - j.val < n := by omega
  have hr : (⟨n - 1 - j.val, hj⟩ : Fin n).rev = j := by
    apply Fin.ext; simp [Fin.val_rev]; omega
  simp only [stateOf, Nat.testBit_ofBits_lt _ _ hj, hr]
  rcases zmod2_cases (v j) with h | h <;> simp [h]

theorem minByWt_some {n : ℕ} (l : List (Vec n)) (h : l ≠ []) :
    ∃ v, minByWt l = some v ∧ v ∈ l ∧ ∀ w ∈ l, wt v ≤ wt w := by
  induction l with
  | nil => exact absurd rfl h
  | cons a l ih =>
    by_cases hl : l = []
    · subst hl; exact ⟨a, rfl, by simp, by simp⟩
    · obtain ⟨w, hw, hmem, hmin⟩ := ih hl
      simp only [minByWt, hw]
      by_cases hle : wt a ≤ wt w
      · refine ⟨a, by simp [hle], by simp, ?_⟩
        intro x hx
        rcases List.mem_cons.1 hx with rfl | hx
        · exact le_rfl
        · exact hle.trans (hmin x hx)
      · refine ⟨w, by simp [hle], by simp [hmem], ?_⟩
        intro x hx
        rcases List.mem_cons.1 hx with rfl | hx
        · omega
        · exact hmin x hx

theorem lookup_appendTo {κ α : Type*} [DecidableEq κ] [BEq κ] [LawfulBEq κ] (k : κ) (a : α) (d : List (κ × List α))
    (q : κ) : (appendTo k a d).lookup q =
      if q = k then some ((d.lookup q).getD [] ++ [a]) else d.lookup q := by
  induction d with
  | nil =>
    by_cases h : q = k
    · subst h; simp [appendTo, List.lookup]
    · have : (q == k) = false := by simpa using h
      simp [appendTo, List.lookup, h, this]
  | cons e d ih =>
    obtain ⟨k', l⟩ := e
    simp only [appendTo]
    by_cases hk : k' = k
    · subst hk
      rw [if_pos rfl]
      by_cases h : q = k'
      · subst h; simp [List.lookup]
      · have : (q == k') = false := by simpa using h
        simp [List.lookup, h, this]
    · rw [if_neg hk]
      by_cases h : q = k'
      · subst h; simp [List.lookup, hk]
      · have : (q == k') = false := by simpa using h
        simp only [List.lookup, this, ih]

/-- The errors collected for a key after processing the list `is`. -/
theorem lookup_fold {κ α ι : Type*} [DecidableEq κ] [BEq κ] [LawfulBEq κ] (key : ι → κ) (val : ι → α) (is : List ι)
    (q : κ) :
    (is.foldl (fun d i => appendTo (key i) (val i) d) []).lookup q =
      if (is.filter fun i => decide (key i = q)) = [] then none
      else some ((is.filter fun i => decide (key i = q)).map val) := by
  induction is using List.reverseRecOn with
  | nil => simp
  | append_singleton is i ih =>
    rw [List.foldl_append]
    simp only [List.foldl_cons, List.foldl_nil, lookup_appendTo, ih, List.filter_append]
    by_cases h : key i = q
    · subst h
      simp only [List.filter_cons, decide_true, List.filter_nil, if_true, List.map_append,
        List.map_cons, List.map_nil, List.append_eq_nil_iff]
      split <;> simp_all
    · have h' : ¬ q = key i := fun e => h e.symm
      simp [h, h']

theorem lookup_filterMap_min {κ : Type*} [BEq κ] [LawfulBEq κ] {n : ℕ} (d : List (κ × List (Vec n))) (q : κ)
    (hd : ∀ e ∈ d, e.2 ≠ []) :
    (d.filterMap fun e => (minByWt e.2).map fun v => (e.1, v)).lookup q =
      (d.lookup q).bind minByWt := by
  induction d with
  | nil => simp
  | cons e d ih =>
    have ih' := ih fun e he => hd e (by simp [he])
    obtain ⟨v, hv, -⟩ := minByWt_some e.2 (hd e (by simp))
    obtain ⟨k, l⟩ := e
    simp only at hv
    simp only [List.filterMap_cons, hv, Option.map_some, List.lookup]
    by_cases h : q = k
    · subst h; simp [hv]
    · have : (q == k) = false := by simpa using h
      simp only [this, ih']

theorem appendTo_ne_nil {κ α : Type*} [DecidableEq κ] (k : κ) (a : α) (d : List (κ × List α))
    (hd : ∀ e ∈ d, e.2 ≠ []) : ∀ e ∈ appendTo k a d, e.2 ≠ [] := by
  induction d with
  | nil => simp [appendTo]
  | cons e d ih =>
    obtain ⟨k', l⟩ := e
    simp only [appendTo]
    split
    · intro e he
      rcases List.mem_cons.1 he with rfl | he
      · simp
      · exact hd e (by simp [he])
    · intro e he
      rcases List.mem_cons.1 he with rfl | he
      · exact hd _ (by simp)
      · exact ih (fun e he => hd e (by simp [he])) e he

theorem syndromeTable_ne_nil {n : ℕ} (checks : List (Vec n)) :
    ∀ e ∈ syndromeTable checks, e.2 ≠ [] := by
  unfold syndromeTable
  generalize List.range (2 ^ n) = is
  induction is using List.reverseRecOn with
  | nil => simp
  | append_singleton is i ih =>
    rw [List.foldl_append]
    exact appendTo_ne_nil _ _ _ ih

/-- What the generated table contains. -/
theorem lookup_generateLut {n : ℕ} (checks : List (Vec n)) (s : List (ZMod 2)) :
    (∀ e, (generateLut checks).lookup s = some e → IsMinWeight checks s e) ∧
    (IsSyndrome checks s → ∃ e, (generateLut checks).lookup s = some e) := by
  have key : (generateLut checks).lookup s = _ :=
    lookup_filterMap_min (syndromeTable checks) s (syndromeTable_ne_nil checks)
  have key2 := lookup_fold (fun i => mulVec checks (stateOf n i)) (stateOf n) (List.range (2 ^ n)) s
  rw [key]
  unfold syndromeTable
  rw [key2]
  set f := (List.range (2 ^ n)).filter fun i => decide (mulVec checks (stateOf n i) = s) with hf
  by_cases hnil : f = []
  · simp only [hnil, if_true, Option.bind_none]
    refine ⟨by simp, ?_⟩
    rintro ⟨e, he⟩
    obtain ⟨i, hi, rfl⟩ := exists_stateOf e
    have : i ∈ f := by simp [hf, hi, he]
    simp [hnil] at this
  · simp only [hnil, if_false, Option.bind_some]
    obtain ⟨v, hv, hmem, hmin⟩ := minByWt_some (f.map (stateOf n)) (by simpa using hnil)
    rw [hv]
    refine ⟨?_, fun _ => ⟨v, rfl⟩⟩
    intro e he
    obtain rfl : v = e := by simpa using he
    obtain ⟨i, hi, rfl⟩ := List.mem_map.1 hmem
    refine ⟨by simpa [hf] using (List.mem_filter.1 hi).2, ?_⟩
    intro g hg
    obtain ⟨j, hj, rfl⟩ := exists_stateOf g
    exact hmin _ (List.mem_map.2 ⟨j, by simp [hf, hj, hg], rfl⟩)

theorem generateLut_length {n : ℕ} (checks : List (Vec n)) : (generateLut checks).length ≠ 0 := by
  obtain ⟨e, he⟩ := (lookup_generateLut checks (mulVec checks 0)).2 ⟨0, rfl⟩
  intro h
  rw [List.length_eq_zero_iff] at h
  simp [h] at he

variable {c : CSS.Code}

/-- A call preserves any property that the two table generators preserve. -/
theorem step_inv (P : Luts c → Prop) (hx : ∀ d, P d → P (generateXLut d))
    (hz : ∀ d, P d → P (generateZLut d)) (d : Luts c) (k : Call) (h : P d) : P (step d k) := by
  have dx : ∀ d s, P d → P (decodeX d s).2 := by
    intro d s h; simp only [decodeX]; split <;> [exact hx d h; exact h]
  have dz : ∀ d s, P d → P (decodeZ d s).2 := by
    intro d s h; simp only [decodeZ]; split <;> [exact hz d h; exact h]
  cases k with
  | genX => exact hx d h
  | genZ => exact hz d h
  | decX s => exact dx d s h
  | decZ s => exact dz d s h
  | batchX ss =>
    simp only [step]
    induction ss generalizing d with
    | nil => exact h
    | cons s ss ih => exact ih _ (dx d s h)
  | batchZ ss =>
    simp only [step]
    induction ss generalizing d with
    | nil => exact h
    | cons s ss ih => exact ih _ (dz d s h)

theorem after_inv (P : Luts c → Prop) (h0 : P ⟨[], []⟩) (hx : ∀ d, P d → P (generateXLut d))
    (hz : ∀ d, P d → P (generateZLut d)) (b : Bool) (h : List Call) : P (after c b h) := by
  have hm : P (mkDecoder c b) := by
    simp only [mkDecoder]; split <;> [exact hz _ (hx _ h0); exact h0]
  unfold after
  generalize mkDecoder c b = d at hm
  induction h generalizing d with
  | nil => exact hm
  | cons k h ih => exact ih _ (step_inv P hx hz d k hm)

/-- Invariant of the X table. -/
theorem xLut_inv (b : Bool) (h : List Call) :
    (after c b h).xLut = [] ∨ (after c b h).xLut = generateLut c.hz := by
  apply after_inv (fun d => d.xLut = [] ∨ d.xLut = generateLut c.hz)
  · simp
  · intro d hd
    simp only [generateXLut]
    split
    · exact hd
    · split <;> exact Or.inr rfl
  · intro d hd
    simp only [generateZLut]
    split
    · exact hd
    · split <;> exact hd

theorem decodeX_table (b : Bool) (h : List Call) (s : List (ZMod 2)) :
    (decodeX (after c b h) s).1 = (generateLut c.hz).lookup s := by
  simp only [decodeX]
  rcases xLut_inv (c := c) b h with hx | hx
  · simp only [hx, List.length_nil, if_true, generateXLut, ne_eq, not_true, if_false]
    split <;> rfl
  · simp only [hx, generateLut_length, if_false]

/-! ### C23 -/

/-- **C23**: after any history of calls on the decoder, `decode_x(s)` returns, for every syndrome
`s` (with respect to the Z checks) of some X error, an error with that syndrome of minimum
weight. -/
theorem C23_decode_x_min_weight (c : CSS.Code) (initLuts : Bool) (h : List Call) (s : List (ZMod 2))
    (hs : IsSyndrome c.hz s) :
    ∃ e, (decodeX (after c initLuts h) s).1 = some e ∧ IsMinWeight c.hz s e := by
  rw [decodeX_table]
  obtain ⟨e, he⟩ := (lookup_generateLut c.hz s).2 hs
  exact ⟨e, he, (lookup_generateLut c.hz s).1 e he⟩

/-- **C23**: a syndrome of no error is absent from the table (`KeyError`). -/
theorem C23_decode_x_absent (c : CSS.Code) (initLuts : Bool) (h : List Call) (s : List (ZMod 2))
    (hs : ¬ IsSyndrome c.hz s) : (decodeX (after c initLuts h) s).1 = none := by
  rw [decodeX_table]
  cases hl : (generateLut c.hz).lookup s with
  | none => rfl
  | some e => exact absurd ⟨e, ((lookup_generateLut c.hz s).1 e hl).1⟩ hs

/-- **C23**: decoding is deterministic: the answer does not depend on the history of calls. -/
theorem C23_decode_x_history (c : CSS.Code) (b b' : Bool) (h h' : List Call) (s : List (ZMod 2)) :
    (decodeX (after c b h) s).1 = (decodeX (after c b' h') s).1 := by
  rw [decodeX_table, decodeX_table]

/-- A small code for the examples: three-qubit repetition code with Z checks. -/
def rep3 : CSS.Code where
  n := 3
  hx := []
  hz := [![1, 1, 0], ![0, 1, 1]]
  stab := { n := 3, generators := [], k := 1, distance := 1, lz := none, lx := none }
  distance := 1
  xDistance := 3
  zDistance := 1
  lx := [![1, 1, 1]]
  lz := [![1, 0, 0]]

example : IsSyndrome rep3.hz [1, 0] := ⟨![1, 0, 0], by decide⟩
example : (generateLut (n := 3) [![1, 1, 0], ![0, 1, 1]]).lookup [1, 0] = some ![1, 0, 0] := by
  decide +kernel
example : ¬ IsSyndrome rep3.hz [1, 0, 1] := by
  rintro ⟨e, he⟩; simpa [rep3, mulVec] using congrArg List.length he

/-! ### C24 -/

/-- The full claim of C24. -/
def ZTableCorrect : Prop :=
  ∀ (c : CSS.Code) (initLuts : Bool) (h : List Call) (s : List (ZMod 2)), CSS.Built c →
    IsSyndrome c.hx s → ∃ e, (decodeZ (after c initLuts h) s).1 = some e ∧ IsMinWeight c.hx s e

/-- **C24 (partial)**: for codes that are not reported self-dual the claim holds after every
history. -/
theorem C24_decode_z_partial (c : CSS.Code) (initLuts : Bool) (h : List Call) (s : List (ZMod 2))
    (hsd : c.isSelfDual = false) (hs : IsSyndrome c.hx s) :
    ∃ e, (decodeZ (after c initLuts h) s).1 = some e ∧ IsMinWeight c.hx s e := by
  have inv : (after c initLuts h).zLut = [] ∨ (after c initLuts h).zLut = generateLut c.hx := by
    apply after_inv (fun d => d.zLut = [] ∨ d.zLut = generateLut c.hx)
    · simp
    · intro d hd
      simp only [generateXLut, hsd]
      split <;> exact hd
    · intro d hd
      simp only [generateZLut, hsd]
      split <;> [exact hd; exact Or.inr rfl]
  have : (decodeZ (after c initLuts h) s).1 = (generateLut c.hx).lookup s := by
    simp only [decodeZ]
    rcases inv with hx | hx
    · simp [hx, generateZLut, hsd]
    · simp only [hx, generateLut_length, if_false]
  rw [this]
  obtain ⟨e, he⟩ := (lookup_generateLut c.hx s).2 hs
  exact ⟨e, he, (lookup_generateLut c.hx s).1 e he⟩

/-- **C24 (partial)**: for codes with literally equal X and Z check matrices the claim holds as soon
as the tables were initialised by the constructor (`init_luts=True`, the default), whatever is
called afterwards. -/
theorem C24_decode_z_selfdual_partial (c : CSS.Code) (h : List Call) (s : List (ZMod 2))
    (heq : c.hx = c.hz) (hs : IsSyndrome c.hx s) :
    ∃ e, (decodeZ (after c true h) s).1 = some e ∧ IsMinWeight c.hx s e := by
  by_cases hsd : c.isSelfDual = true
  swap
  · exact C24_decode_z_partial c true h s (by simpa using hsd) hs
  have inv : (after c true h).zLut = generateLut c.hx := by
    have h0 : (mkDecoder c true).zLut = generateLut c.hx := by
      simp [mkDecoder, generateXLut, generateZLut, hsd, heq]
    unfold after
    generalize mkDecoder c true = d at h0
    have hne : (generateLut c.hx).length ≠ 0 := generateLut_length _
    have stepI : ∀ (d : Luts c) (k : Call), d.zLut = generateLut c.hx →
        (step d k).zLut = generateLut c.hx := by
      intro d k hd
      apply step_inv (fun d => d.zLut = generateLut c.hx) _ _ d k hd
      · intro d hd
        simp only [generateXLut, hsd, if_true]
        split
        · exact hd
        · simp [heq]
      · intro d hd
        simp only [generateZLut, hd, hne, ne_eq, not_false_eq_true, if_true]
    induction h generalizing d with
    | nil => exact h0
    | cons k h ih => exact ih _ (stepI d k h0)
  have : (decodeZ (after c true h) s).1 = (generateLut c.hx).lookup s := by
    simp only [decodeZ, inv, generateLut_length, if_false]
  rw [this]
  obtain ⟨e, he⟩ := (lookup_generateLut c.hx s).2 hs
  exact ⟨e, he, (lookup_generateLut c.hx s).1 e he⟩

/-- The first defect in general: on every code reported self-dual, a decoder constructed without
tables raises `KeyError` for every Z syndrome (`generate_z_lut` overwrites the table it just
computed with the still empty X table). -/
theorem C24_violated_fresh (c : CSS.Code) (hsd : c.isSelfDual = true) (s : List (ZMod 2)) :
    (decodeZ (after c false []) s).1 = none := by
  simp [decodeZ, after, mkDecoder, generateZLut, hsd]

/-- The second defect in general: on every code reported self-dual, with the default
`init_luts=True`, Z syndromes are looked up in the table for the Z checks. -/
theorem C24_violated_wrong_checks (c : CSS.Code) (hsd : c.isSelfDual = true) (s : List (ZMod 2)) :
    (decodeZ (after c true []) s).1 = (generateLut c.hz).lookup s := by
  simp [decodeZ, after, mkDecoder, generateZLut, generateXLut, hsd]

/-- A self-dual code whose X and Z checks are listed in a different order: four qubits,
`Hx = [1100; 0011]`, `Hz = [0011; 1100]`. -/
def swX : List (Vec 4) := [![1, 1, 0, 0], ![0, 0, 1, 1]]
/-- The Z checks of that code. -/
def swZ : List (Vec 4) := [![0, 0, 1, 1], ![1, 1, 0, 0]]

theorem built_swapped : ∃ c, CSS.Built c ∧ c.n = 4 ∧ HEq c.hx swX ∧ HEq c.hz swZ := by
  obtain ⟨c, hc⟩ := CSS.C08_ctor_complete CSS.refLib 4 swX swZ 1 none none (by decide +kernel)
    (by simp [swX]) (by decide) (by decide) (by decide)
  have := CSS.C08_ctor_sound _ _ _ _ _ _ _ hc
  exact ⟨c, ⟨CSS.refLib, CSS.refLib_correct, _, _, _, _, _, hc⟩, (this.2.1 _ rfl).1.symm,
    (this.2.1 _ rfl).2.symm, (this.2.2.1 _ rfl).2.symm⟩

/-- **C24 is violated** already with the default constructor: the decoder returns an error with the
wrong syndrome. -/
theorem C24_violated_default : ∃ (c : CSS.Code) (s : List (ZMod 2)) (e : Vec c.n), CSS.Built c ∧
    IsSyndrome c.hx s ∧ (decodeZ (after c true []) s).1 = some e ∧ mulVec c.hx e ≠ s := by
  obtain ⟨c, hb, hn, h1, h2⟩ := built_swapped
  obtain ⟨n, hx, hz, stab, d, xd, zd, lx, lz⟩ := c
  simp only at hn h1 h2
  subst hn
  obtain rfl := eq_of_heq h1
  obtain rfl := eq_of_heq h2
  have hsd : CSS.Code.isSelfDual ⟨4, swX, swZ, stab, d, xd, zd, lx, lz⟩ = true := by
    change decide (swX.length = swZ.length ∧ rank swX = rank (swX ++ swZ)) = true
    decide +kernel
  refine ⟨_, [1, 0], ![0, 0, 0, 1], hb, ⟨![1, 0, 0, 0], ?_⟩, ?_, ?_⟩
  · change mulVec swX _ = _; decide +kernel
  · rw [C24_violated_wrong_checks _ hsd]
    change (generateLut swZ).lookup [1, 0] = some ![0, 0, 0, 1]; decide +kernel
  · change mulVec swX _ ≠ _; decide +kernel

/-- **C24 is violated**: the full claim fails. -/
theorem C24_violated : ¬ ZTableCorrect := by
  intro H
  obtain ⟨c, s, e, hb, hs, he, hne⟩ := C24_violated_default
  obtain ⟨e', he', hm⟩ := H c true [] s hb hs
  rw [he] at he'
  obtain rfl : e = e' := by simpa using he'
  exact hne hm.1

example : ∃ c, CSS.Built c ∧ c.isSelfDual = true := by
  obtain ⟨c, hb, hn, h1, h2⟩ := CSS.built_steane
  refine ⟨c, hb, ?_⟩
  obtain ⟨n, hx, hz, stab, d, xd, zd, lx, lz⟩ := c
  simp only at hn h1 h2
  subst hn
  obtain rfl := eq_of_heq h1
  obtain rfl := eq_of_heq h2
  change decide (CSS.steaneH.length = CSS.steaneH.length ∧ rank CSS.steaneH =
    rank (CSS.steaneH ++ CSS.steaneH)) = true
  decide +kernel

example : rep3.isSelfDual = false := by decide +kernel

end Verif.Lut
