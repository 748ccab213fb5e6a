import Verif.Props.ColorDecoder
import Verif.Props.ColorDistance
import Verif.Props.ColorDistance2
import Verif.Props.Lut

/-!
# C132, C133: decoders correct every error of weight less than half the distance

C132: the MaxSAT decoder on the colour codes of both lattices and every odd distance, with the rates that the simulation reports.
C133: the lookup-table decoder on every CSS code, in terms of the true distance of the code, and on the named codes.
-/

namespace Verif.DecodeHalf
open Verif Verif.Lattice Verif.CSS Verif.LO

/-! ## Specification -/

/-- The estimates `est` correct every error of weight less than `d / 2`: what remains is a product of rows of `H`, so nothing is changed. -/
def CorrectsBelowHalf {n : ℕ} (H : List (Vec n)) (d : ℕ) (est : Vec n → Vec n) : Prop := ∀ e, 2 * wt e < d → e + est e ∈ rowSpan H

/-- The bound cannot be improved: some error of weight at most `(d + 1) / 2` is corrected wrongly. -/
def FailsAtHalf {n : ℕ} (H : List (Vec n)) (d : ℕ) (est : Vec n → Vec n) : Prop := ∃ e, 2 * wt e ≤ d + 1 ∧ e + est e ∉ rowSpan H

open scoped Classical in
/-- The number of samples that are corrected wrongly. -/
noncomputable def wrong {n : ℕ} (H : List (Vec n)) (est : Vec n → Vec n) (samples : List (Sample n)) : ℕ :=
  samples.countP fun s => decide (s.error + est s.error ∉ rowSpan H)

/-! ## Errors of the same syndrome -/

theorem wt_add_le2 {n : ℕ} (a b : Vec n) : wt (a + b) ≤ wt a + wt b := by
  unfold wt
  refine (Finset.card_le_card ?_).trans (Finset.card_union_le _ _)
  intro i hi
  simp only [Finset.mem_filter, Finset.mem_univ, true_and, Finset.mem_union, Pi.add_apply] at hi ⊢
  by_contra hcon
  push Not at hcon
  exact hi (by rw [hcon.1, hcon.2, add_zero])

theorem dot_of_syndrome {n : ℕ} {H : List (Vec n)} {a b : Vec n} (h : mulVec H a = mulVec H b) : ∀ g ∈ H, dot g (a + b) = 0 := by
  intro g hg
  have h1 : dot g a = dot g b := List.map_inj_left.1 h g hg
  rw [dot_add_right, h1]
  exact add_self_eq_zero' _

theorem syndrome_of_dot {n : ℕ} {H : List (Vec n)} {a b : Vec n} (h : ∀ g ∈ H, dot g (a + b) = 0) : mulVec H a = mulVec H b := by
  refine List.map_inj_left.2 fun g hg => ?_
  have := h g hg
  rw [dot_add_right] at this
  rcases zmod2_cases (dot g a) with h1 | h1 <;> rcases zmod2_cases (dot g b) with h2 | h2 <;> rw [h1, h2] at this ⊢ <;> simp at this

theorem correctsBelowHalf {n : ℕ} {H H' : List (Vec n)} {d : ℕ} {est : Vec n → Vec n} (hd : Named.IsMinWeight H H' d)
    (hest : ∀ e, mulVec H' (est e) = mulVec H' e ∧ ∀ e', mulVec H' e' = mulVec H' e → wt (est e) ≤ wt e') : CorrectsBelowHalf H d est := by
  intro e he
  by_contra hcon
  have h1 := hd.1 _ (dot_of_syndrome (hest e).1.symm) hcon
  have h2 := wt_add_le2 e (est e)
  have h3 := (hest e).2 e rfl
  omega

/-- A vector is the sum of two vectors that share its weight evenly. -/
theorem split_half {n : ℕ} (v : Vec n) : ∃ a b : Vec n, a + b = v ∧ 2 * wt a ≤ wt v + 1 ∧ 2 * wt b ≤ wt v + 1 := by
  obtain ⟨S, hS, hc⟩ := Finset.exists_subset_card_eq (s := Finset.univ.filter fun i => v i ≠ 0) (n := wt v / 2) (Nat.div_le_self _ _)
  refine ⟨fun i => if i ∈ S then v i else 0, fun i => if i ∈ S then 0 else v i, ?_, ?_, ?_⟩
  · funext i
    by_cases h : i ∈ S <;> simp [h]
  · have : wt (fun i => if i ∈ S then v i else 0) ≤ S.card := by
      unfold wt
      refine Finset.card_le_card fun i hi => ?_
      simp only [Finset.mem_filter, Finset.mem_univ, true_and] at hi
      by_contra h
      simp [h] at hi
    omega
  · have : wt (fun i => if i ∈ S then 0 else v i) ≤ ((Finset.univ.filter fun i => v i ≠ 0) \ S).card := by
      unfold wt
      refine Finset.card_le_card fun i hi => ?_
      simp only [Finset.mem_filter, Finset.mem_univ, true_and] at hi
      by_cases h : i ∈ S
      · simp [h] at hi
      · simp only [h, if_false] at hi
        simp [h, hi]
    rw [Finset.card_sdiff_of_subset hS, hc] at this
    have h2 : (Finset.univ.filter fun i => v i ≠ 0).card = wt v := rfl
    omega

theorem failsAtHalf {n : ℕ} {H H' : List (Vec n)} {d : ℕ} {est : Vec n → Vec n} (hd : Named.IsMinWeight H H' d)
    (hest : ∀ e e', mulVec H' e = mulVec H' e' → est e = est e') : FailsAtHalf H d est := by
  obtain ⟨-, v, hv, hn, hw⟩ := hd
  obtain ⟨a, b, hab, ha, hb⟩ := split_half v
  have hs : est a = est b := hest a b (syndrome_of_dot (by rw [hab]; exact hv))
  by_contra hcon
  unfold FailsAtHalf at hcon
  push Not at hcon
  have h1 := hcon a (by omega)
  have h2 := hcon b (by omega)
  rw [hs] at h1
  apply hn
  have h3 := add_mem h1 h2
  have h4 : a + est b + (b + est b) = v := by
    rw [← hab]
    funext i
    have := add_self_eq_zero' (est b i)
    show a i + est b i + (b i + est b i) = a i + b i
    linear_combination this
  rwa [h4] at h3

/-! ## C132: MaxSAT decoder -/

/-- What C132 says about a colour code with the data qubits `data` and the faces `faces`: the code object exists, and the decoder returns
estimates that correct every error below half the distance, but not all at half the distance.  For every list of samples the simulation with
the logical operators of the code ends; one rate is reported, the fraction of the samples that are corrected wrongly; the least weight
reported is at least the distance. -/
def Simulates (lib : Mod2) (solver : Solver) (d : ℕ) (data : List Pt) (faces : List (List Pt)) : Prop :=
  ∃ (c : Code) (L : List (Vec data.length)) (est : Vec data.length → Vec data.length),
    colorCode lib d data faces = .ok c ∧ c.n = data.length ∧ HEq c.lz L ∧
    (∃ p, Problem.preconstruct { lightsToSwitches := facesToQubits data faces, switchesToLights := qubitsToFaces data faces } = .ok p ∧
      ∀ e, ∃ sw, (solve solver p (lightsOf (checkMatrix data faces) e)).1 = .ok sw ∧ est e = fun i => ((sw.getD i.val 0 : ℕ) : ZMod 2)) ∧
    CorrectsBelowHalf (checkMatrix data faces) d est ∧ FailsAtHalf (checkMatrix data faces) d est ∧
    ∀ samples : List (Sample data.length), samples ≠ [] → ∃ r m,
      simulateErrorRate solver (facesToQubits data faces) (qubitsToFaces data faces) (checkMatrix data faces) L samples = .ok r ∧
      r.logicalErrorRates = [(wrong (checkMatrix data faces) est samples : ℚ) / samples.length] ∧
      r.minWts = [m] ∧ (m = -1 ↔ wrong (checkMatrix data faces) est samples = 0) ∧ (m = -1 ∨ (d : ℤ) ≤ m)

/-- The computed logical operator of a colour code with one logical qubit tells logical errors from products of checks. -/
theorem logical_of_code (lib : Mod2) (hlib : lib.Correct) (d : ℕ) (data : List Pt) (faces : List (List Pt)) (c : Code)
    (hc : colorCode lib d data faces = .ok c) (hk : c.stab.k = 1) :
    ∃ x : Vec data.length, HEq c.lz [x] ∧ ∀ e, (∀ g ∈ checkMatrix data faces, dot g e = 0) →
      (dot x e = 1 ↔ e ∉ rowSpan (checkMatrix data faces)) := by
  have hb : Built c := ⟨lib, hlib, _, _, _, _, _, hc⟩
  obtain ⟨h1, -, h3, -⟩ := C09_logical_z c hb
  have h4 := C09_nontrivial c hb
  have hlen : c.lz.length = 1 := by omega
  obtain ⟨x, hx⟩ := List.length_eq_one_iff.1 hlen
  have h1' : ∀ r ∈ c.hx, dot r x = 0 := fun r hr => h1 x (by rw [hx]; exact List.mem_singleton.2 rfl) r hr
  have h4' : ∀ e, (∀ r ∈ c.hz, dot r e = 0) → e ∉ rowSpan c.hx → dot x e = 1 := by
    intro e he hm
    obtain ⟨l, hl, h⟩ := h4 e he hm
    rw [hx, List.mem_singleton] at hl
    rwa [hl] at h
  obtain ⟨-, f1, f2, -⟩ := C08_ctor_sound _ _ _ _ _ _ _ hc
  obtain ⟨f0, f3⟩ := f1 _ rfl
  obtain ⟨-, f4⟩ := f2 _ rfl
  clear f1 f2 h1 h4 hc hb h3 hlen hk
  obtain ⟨n, hx', hz', stab, dd, dx, dz, lx, lz⟩ := c
  simp only at x hx h1' h4' f0 f3 f4 ⊢
  subst f0
  obtain rfl := eq_of_heq f3
  obtain rfl := eq_of_heq f4
  subst hx
  refine ⟨x, HEq.rfl, fun e he => ⟨fun hd hm => ?_, h4' e he⟩⟩
  have : dot x e = 0 := by
    rw [dot_comm]
    exact dot_eq_zero_of_mem_rowSpan h1' hm
  rw [this] at hd; exact absurd hd (by decide)

theorem simulates (lib : Mod2) (hlib : lib.Correct) (solver : Solver) (d : ℕ) (data : List Pt) (faces : List (List Pt))
    (hcode : ∃ c : Code, colorCode lib d data faces = .ok c ∧ c.n = data.length ∧ c.stab.k = 1)
    (hmin : Named.IsMinWeight (checkMatrix data faces) (checkMatrix data faces) d) (hdec : DecodesOptimally solver data faces) :
    Simulates lib solver d data faces := by
  obtain ⟨c, hc, hn, hk⟩ := hcode
  obtain ⟨x, hL, hx⟩ := logical_of_code lib hlib d data faces c hc hk
  obtain ⟨p, hp, hd⟩ := hdec
  choose sw h1 h2 h3 h4 h5 h6 h7 using hd
  have hcor : CorrectsBelowHalf (checkMatrix data faces) d fun e => vecOf data.length (sw e) :=
    correctsBelowHalf hmin fun e => ⟨h5 e, h7 e⟩
  refine ⟨c, [x], fun e => vecOf data.length (sw e), hc, hn, hL, ⟨p, hp, fun e => ⟨sw e, h1 e, rfl⟩⟩, hcor, failsAtHalf hmin ?_, ?_⟩
  · intro e e' h
    have hl : lightsOf (checkMatrix data faces) e = lightsOf (checkMatrix data faces) e' := congrArg (fun l : List (ZMod 2) => l.map fun b => decide (b ≠ 0)) h
    have g1 := h1 e
    have g2 := h1 e'
    rw [hl, g2] at g1
    injection g1 with g1
    rw [g1]
  · intro samples hne
    have hst := simLoop_facts solver (checkMatrix data faces) [x] p (fun e => vecOf data.length (sw e))
      (fun e => ⟨sw e, h1 e, h2 e, h3 e, rfl⟩) samples 0 ⟨[-1], [0], 0, 0⟩ [] (by
        intro l m hm
        left
        refine ⟨rfl, ?_⟩
        cases l with
        | zero => exact (Option.some.inj hm).symm
        | succ l => simp at hm)
    obtain ⟨st', g1, g2, g3, g4, g5, -, -⟩ := hst
    have hfd : ∀ e, FirstDetected [x] (e + vecOf data.length (sw e)) 0 ↔ e + vecOf data.length (sw e) ∉ rowSpan (checkMatrix data faces) := by
      intro e
      rw [← hx _ (dot_of_syndrome (h5 e).symm)]
      constructor
      · rintro ⟨⟨y, hy, h⟩, -⟩
        obtain rfl := Option.some.inj hy
        exact h
      · intro h
        exact ⟨⟨x, rfl, h⟩, fun j hj => absurd hj (Nat.not_lt_zero j)⟩
    obtain ⟨m, hm⟩ := List.length_eq_one_iff.1 g3
    have hle : st'.logicalErrors = [wrong (checkMatrix data faces) (fun e => vecOf data.length (sw e)) samples] := by
      obtain ⟨k, hk⟩ := List.length_eq_one_iff.1 g2
      have := g4 0 0 rfl
      rw [hk] at this ⊢
      have := Option.some.inj this
      rw [this, zero_add, List.countP_map]
      unfold wrong
      congr 1
      refine List.countP_congr fun s _ => ?_
      simp only [Function.comp, decide_eq_true_eq]
      exact hfd s.error
    have g5' := g5 0 m (by rw [hm]; rfl)
    rw [List.nil_append] at g5'
    refine ⟨⟨st'.logicalErrors.map fun k : ℕ => (k : ℚ) / (samples.length : ℚ), st'.avgConstr, st'.avgSolve,
      st'.avgConstr + st'.avgSolve, st'.minWt⟩, m, ?_, ?_, hm, ?_, ?_⟩
    · simp only [simulateErrorRate, hp, List.map_cons, List.map_nil, g1]
    · show st'.logicalErrors.map _ = _
      rw [hle]
      rfl
    · unfold wrong
      rw [List.countP_eq_zero]
      rcases g5' with ⟨ha, hb⟩ | ⟨⟨w, hw, hmw⟩, -⟩
      · refine ⟨fun _ s hs => ?_, fun _ => hb⟩
        rw [List.map_eq_nil_iff, List.filter_eq_nil_iff] at ha
        have := ha _ (List.mem_map_of_mem hs)
        simp only [decide_eq_true_eq, hfd] at this ⊢
        exact this
      · constructor
        · intro h; omega
        · intro h
          obtain ⟨r, hr, rfl⟩ := List.mem_map.1 hw
          obtain ⟨hr, hr2⟩ := List.mem_filter.1 hr
          obtain ⟨s, hs, rfl⟩ := List.mem_map.1 hr
          have := h s hs
          simp only [decide_eq_true_eq, hfd] at this hr2
          exact absurd hr2 this
    · rcases g5' with ⟨-, hb⟩ | ⟨⟨w, hw, hmw⟩, -⟩
      · exact .inl hb
      · right
        obtain ⟨r, hr, rfl⟩ := List.mem_map.1 hw
        obtain ⟨hr, hr2⟩ := List.mem_filter.1 hr
        obtain ⟨s, hs, rfl⟩ := List.mem_map.1 hr
        simp only [decide_eq_true_eq, hfd] at hr2
        have := hmin.1 _ (dot_of_syndrome (h5 s.error).symm) hr2
        omega

/-- C132: hexagonal lattice, every odd distance, every optimal solver, every iteration order of the sets. -/
theorem C132_hexagonal (lib : Mod2) (hlib : lib.Correct) (solver : Solver) (hs : solver.Optimal) (d : ℕ) (hodd : d % 2 = 1) (h3 : 3 ≤ d)
    (data anc : List Pt) (hdata : IsOrder data (hexData d)) (hanc : IsOrder anc (hexAncilla d)) :
    Simulates lib solver d data (anc.map hexNbrs) := by
  obtain ⟨-, -, -, c, hc, hn, hk, -⟩ := C15_hexagonal lib d hodd h3 data anc hdata hanc
  exact simulates lib hlib solver d data _ ⟨c, hc, hn, hk⟩ (ColorDist.hex_minWeight lib d hodd h3 data anc hdata hanc)
    (C72_hexagonal solver hs d data anc hdata hanc)

/-- C132: square-octagon lattice. -/
theorem C132_square_octagon (lib : Mod2) (hlib : lib.Correct) (solver : Solver) (hs : solver.Optimal) (d : ℕ) (hodd : d % 2 = 1) (h3 : 3 ≤ d)
    (data sq oc : List Pt) (hdata : IsOrder data (soOf .data d)) (hsq : IsOrder sq (soOf .square d)) (hoc : IsOrder oc (soOf .octagon d)) :
    Simulates lib solver d data (soFaces sq oc) := by
  obtain ⟨-, -, -, -, c, hc, hn, hk, -⟩ := C16_square_octagon lib d hodd h3 data sq oc hdata hsq hoc
  exact simulates lib hlib solver d data _ ⟨c, hc, hn, hk⟩ (ColorDist2.so_minWeight lib d hodd h3 data sq oc hdata hsq hoc)
    (C72_square_octagon solver hs d hodd data sq oc hdata hsq hoc)

/-- C132: if every sampled error has weight less than half the distance, the reported logical error rate is 0 and no weight is reported. -/
theorem C132_no_failures {lib : Mod2} {solver : Solver} {d : ℕ} {data : List Pt} {faces : List (List Pt)} (h : Simulates lib solver d data faces)
    (samples : List (Sample data.length)) (hne : samples ≠ []) (hw : ∀ s ∈ samples, 2 * wt s.error < d) :
    ∃ c L r, colorCode lib d data faces = .ok c ∧ HEq c.lz L ∧
      simulateErrorRate solver (facesToQubits data faces) (qubitsToFaces data faces) (checkMatrix data faces) L samples = .ok r ∧
      r.logicalErrorRates = [0] ∧ r.minWts = [-1] := by
  obtain ⟨c, L, est, h1, -, h3, -, h5, -, h7⟩ := h
  obtain ⟨r, m, g1, g2, g3, g4, -⟩ := h7 samples hne
  have h0 : wrong (checkMatrix data faces) est samples = 0 := by
    unfold wrong
    rw [List.countP_eq_zero]
    intro s hs
    simp only [decide_eq_true_eq, not_not]
    exact h5 _ (hw s hs)
  refine ⟨c, L, r, h1, h3, g1, ?_, ?_⟩
  · rw [g2, h0]; simp
  · rw [g3, g4.2 h0]

/-! ## C133: lookup tables -/

/-- C133: on every CSS code, after every history of calls, the table corrects every X error of weight less than half the X distance of the
code, and not every one at half this distance. -/
theorem C133_decode_x (c : Code) (initLuts : Bool) (h : List Lut.Call) (d : ℕ) (hd : Named.IsMinWeight c.hx c.hz d) :
    ∃ est : Vec c.n → Vec c.n, (∀ e, (Lut.decodeX (Lut.after c initLuts h) (mulVec c.hz e)).1 = some (est e)) ∧
      CorrectsBelowHalf c.hx d est ∧ FailsAtHalf c.hx d est := by
  choose est h1 h2 using fun e : Vec c.n => Lut.C23_decode_x_min_weight c initLuts h (mulVec c.hz e) ⟨e, rfl⟩
  refine ⟨est, h1, correctsBelowHalf hd h2, failsAtHalf hd fun e e' he => ?_⟩
  have g1 := h1 e
  have g2 := h1 e'
  rw [he, g2] at g1
  exact (Option.some.inj g1).symm

/-- C133, Z errors: for every code that is not reported self-dual, and with `init_luts=True` for the codes with equal X and Z checks.
For other self-dual codes, and for self-dual codes with `init_luts=False`, decoding of Z errors is wrong (C24). -/
theorem C133_decode_z_partial (c : Code) (initLuts : Bool) (h : List Lut.Call) (d : ℕ) (hd : Named.IsMinWeight c.hz c.hx d)
    (hc : c.isSelfDual = false ∨ (c.hx = c.hz ∧ initLuts = true)) :
    ∃ est : Vec c.n → Vec c.n, (∀ e, (Lut.decodeZ (Lut.after c initLuts h) (mulVec c.hx e)).1 = some (est e)) ∧
      CorrectsBelowHalf c.hz d est ∧ FailsAtHalf c.hz d est := by
  have key : ∀ s, Lut.IsSyndrome c.hx s → ∃ e, (Lut.decodeZ (Lut.after c initLuts h) s).1 = some e ∧ Lut.IsMinWeight c.hx s e := by
    intro s hs
    rcases hc with hc | ⟨hc, rfl⟩
    · exact Lut.C24_decode_z_partial c initLuts h s hc hs
    · exact Lut.C24_decode_z_selfdual_partial c h s hc hs
  choose est h1 h2 using fun e : Vec c.n => key (mulVec c.hx e) ⟨e, rfl⟩
  refine ⟨est, h1, correctsBelowHalf hd h2, failsAtHalf hd fun e e' he => ?_⟩
  have g1 := h1 e
  have g2 := h1 e'
  rw [he, g2] at g1
  exact (Option.some.inj g1).symm

/-- No named code has the defect of C24 with the default `init_luts=True`. -/
def NoMixUp (e : Named.Entry) : Prop :=
  e.hx = e.hz ∨ e.hx.length ≠ e.hz.length ∨ rank (e.hx.map (Named.toVec e.n)) ≠ rank (e.hx.map (Named.toVec e.n) ++ e.hz.map (Named.toVec e.n))

/-- A Z check that is not orthogonal to something orthogonal to all X checks. -/
theorem noMixUp_of_witness (e : Named.Entry) (v r : ℕ) (hr : r ∈ e.hz) (h1 : ∀ a ∈ e.hx, Named.popc e.n (a &&& v) % 2 = 0)
    (h2 : Named.popc e.n (r &&& v) % 2 = 1) : NoMixUp e := by
  refine .inr (.inr fun hh => ?_)
  have hle := rank_append_eq_iff.1 hh.symm
  have hm : Named.toVec e.n r ∈ rowSpan (e.hx.map (Named.toVec e.n)) := hle (mem_rowSpan_of_mem (List.mem_map_of_mem hr))
  have h3 : dot (Named.toVec e.n r) (Named.toVec e.n v) = 0 := by
    refine dot_eq_zero_of_mem_rowSpan ?_ hm
    refine List.forall_mem_map.2 fun a ha => ?_
    rw [Named.dot_toVec]
    exact (ZMod.natCast_eq_zero_iff _ _).2 (Nat.dvd_of_mod_eq_zero (h1 a ha))
  rw [Named.dot_toVec, ZMod.natCast_eq_zero_iff] at h3
  omega

theorem noMixUp_surface3 : NoMixUp Named.surface3 := noMixUp_of_witness _ 3 54 (by decide) (by decide +kernel) (by decide +kernel)
theorem noMixUp_surface5 : NoMixUp Named.surface5 := noMixUp_of_witness _ 528 25344 (by decide) (by decide +kernel) (by decide +kernel)
theorem noMixUp_carbon : NoMixUp Named.carbon := noMixUp_of_witness _ 27 1337 (by decide) (by decide +kernel) (by decide +kernel)

theorem noMixUp_table : ∀ x ∈ Named.table, NoMixUp x.2 := by
  simp only [Named.table, List.forall_mem_cons]
  exact ⟨.inl rfl, .inr (.inl (by decide)), .inl rfl, .inr (.inl (by decide)), noMixUp_surface3, noMixUp_surface5, .inl rfl, noMixUp_carbon,
    fun _ h => absurd h (List.not_mem_nil)⟩

theorem lookup_mem {β : Type} (l : List (String × β)) (k : String) {b : β} (h : l.lookup k = some b) : (k, b) ∈ l := by
  induction l with
  | nil => cases h
  | cons x xs ih =>
    obtain ⟨k', b'⟩ := x
    rw [List.lookup_cons] at h
    by_cases hk : k = k'
    · subst hk
      simp only [beq_self_eq_true, if_true, Option.some.injEq] at h
      rw [h]; exact List.mem_cons_self
    · have : (k == k') = false := by simpa using hk
      rw [this] at h
      exact List.mem_cons_of_mem _ (ih h)

theorem named_selfDual (lib : Mod2) (name : String) (distance : Option ℤ) (c : Code) (h : Named.fromCodeName lib name distance = .ok c) :
    c.isSelfDual = false ∨ c.hx = c.hz := by
  unfold Named.fromCodeName at h
  cases ht : Named.table.lookup (Named.lookupName name distance) with
  | none => rw [ht] at h; cases h
  | some e =>
    rw [ht] at h
    have hm : NoMixUp e := by
      have hk := lookup_mem _ _ ht
      exact noMixUp_table _ hk
    obtain ⟨-, f1, f2, -⟩ := C08_ctor_sound _ _ _ _ _ _ _ h
    obtain ⟨f0, f3⟩ := f1 _ rfl
    obtain ⟨-, f4⟩ := f2 _ rfl
    clear f1 f2 h
    obtain ⟨n, hx', hz', stab, dd, dx, dz, lx, lz⟩ := c
    simp only at f0 f3 f4 ⊢
    subst f0
    obtain rfl := eq_of_heq f3
    obtain rfl := eq_of_heq f4
    rcases hm with hm | hm | hm
    · right; rw [hm]
    · left
      refine decide_eq_false fun hh => hm ?_
      simpa using hh.1
    · exact .inl (decide_eq_false fun hh => hm hh.2)

/-- C133: the named codes: X errors of weight less than half the documented X distance are corrected. -/
theorem C133_named (lib : Mod2) (name : String) (distance : Option ℤ) (p : Named.Params) (h : Named.Documented name distance p)
    (initLuts : Bool) (hist : List Lut.Call) :
    ∃ c, Named.fromCodeName lib name distance = .ok c ∧ c.n = p.n ∧
      ∃ est : Vec c.n → Vec c.n, (∀ e, (Lut.decodeX (Lut.after c initLuts hist) (mulVec c.hz e)).1 = some (est e)) ∧
        CorrectsBelowHalf c.hx p.dx est ∧ FailsAtHalf c.hx p.dx est := by
  obtain ⟨c, h1, h2, -, -, -, -, -, h8, -⟩ := Named.C13_named lib name distance p h
  exact ⟨c, h1, h2, C133_decode_x c initLuts hist p.dx h8⟩

/-- C133: the named codes with the default `init_luts=True`: Z errors of weight less than half the documented Z distance are corrected. -/
theorem C133_named_z (lib : Mod2) (name : String) (distance : Option ℤ) (p : Named.Params) (h : Named.Documented name distance p)
    (hist : List Lut.Call) :
    ∃ c, Named.fromCodeName lib name distance = .ok c ∧ c.n = p.n ∧
      ∃ est : Vec c.n → Vec c.n, (∀ e, (Lut.decodeZ (Lut.after c true hist) (mulVec c.hx e)).1 = some (est e)) ∧
        CorrectsBelowHalf c.hz p.dz est ∧ FailsAtHalf c.hz p.dz est := by
  obtain ⟨c, h1, h2, -, -, -, -, -, -, h9⟩ := Named.C13_named lib name distance p h
  refine ⟨c, h1, h2, C133_decode_z_partial c true hist p.dz h9 ?_⟩
  rcases named_selfDual lib name distance c h1 with h | h
  · exact .inl h
  · exact .inr ⟨h, rfl⟩

/-- The full claim for Z errors. -/
def C133_claim_z : Prop :=
  ∀ (c : Code), Built c → ∀ (initLuts : Bool) (h : List Lut.Call) (d : ℕ), Named.IsMinWeight c.hz c.hx d →
    ∃ est : Vec c.n → Vec c.n, (∀ e, (Lut.decodeZ (Lut.after c initLuts h) (mulVec c.hx e)).1 = some (est e)) ∧ CorrectsBelowHalf c.hz d est

/-- C133 fails for Z errors: with `init_luts=False` the decoder of the Steane code decodes no Z error. -/
theorem C133_violated_z : ¬ C133_claim_z := by
  intro hcl
  obtain ⟨c, h1, -, -, -, -, -, -, -, h9⟩ := Named.C13_named refLib "steane" none _ (.steane none)
  have heq : c.hx = c.hz := by
    have ht : Named.table.lookup (Named.lookupName "steane" none) = some Named.steane := rfl
    rw [Named.fromCodeName, ht] at h1
    obtain ⟨-, f1, f2, -⟩ := C08_ctor_sound _ _ _ _ _ _ _ h1
    exact eq_of_heq ((f1 _ rfl).2.symm.trans (f2 _ rfl).2)
  have hsd : c.isSelfDual = true := by
    refine decide_eq_true ⟨by rw [heq], ?_⟩
    rw [← heq]
    exact (rank_append_eq_iff.2 le_rfl).symm
  obtain ⟨est, h2, -⟩ := hcl c (by
    unfold Named.fromCodeName at h1
    split at h1
    · exact ⟨refLib, refLib_correct, _, _, _, _, _, h1⟩
    · cases h1) false [] 3 h9
  have := h2 0
  rw [Lut.C24_violated_fresh c hsd] at this
  cases this

/-! ## The hypotheses are met -/

example : (∃ s : Solver, s.Optimal) ∧ refLib.Correct ∧ 9 % 2 = 1 ∧ 3 ≤ 9 ∧ IsOrder (hexData 9) (hexData 9) ∧ IsOrder (hexAncilla 9) (hexAncilla 9) :=
  ⟨exists_optimal, refLib_correct, rfl, by decide, ⟨hexData_nodup 9, fun _ => Iff.rfl⟩, ⟨hexAncilla_nodup 9, fun _ => Iff.rfl⟩⟩

example : Named.Documented "golay" none ⟨23, 1, 7, 7⟩ := .golay none

end Verif.DecodeHalf
