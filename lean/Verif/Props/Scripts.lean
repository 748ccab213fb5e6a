import Verif.Model.Scripts
import Verif.Props.DecSim

/-!
# C141: the word error rates of the example script
-/

namespace Verif.Scripts
open Verif Verif.Cpp Verif.UFD Verif.DecSim

/-! ## Specification -/

/-- The X and Z checks commute. -/
def Commute (c : Code) (hX : Gf2Mat) : Prop := ∀ g ∈ asRows c.n hX, ∀ h ∈ asRows c.n c.hZ, dot h g = 0

/-- The decoder returns, for every syndrome of an error, an estimate of the right length with this syndrome; for the zero syndrome the
zero estimate. -/
def Valid (c : Code) (decode : List Bool → List Bool) : Prop :=
  (∀ e s, e.length = c.n → IsSyndrome c.hZ e s → (decode s).length = c.n ∧ IsSyndrome c.hZ (decode s) s) ∧
  ∀ s, true ∉ s → true ∉ decode s

/-- The error has a syndrome: it violates some Z check. -/
def Detected (c : Code) (e : List Bool) : Prop := ∃ h ∈ asRows c.n c.hZ, dot h (asVec c.n e) = 1

/-- The correction fails: error and estimate differ by something that is not an X stabilizer. -/
def Fails (c : Code) (hX : Gf2Mat) (decode : List Bool → List Bool) (e : List Bool) : Prop :=
  ∀ s, IsSyndrome c.hZ e s → asVec c.n e + asVec c.n (decode s) ∉ rowSpan (asRows c.n hX)

/-! ## Lemmas -/

theorem isSyndrome_iff {c : Code} (h2 : Rect c.hZ) (hn2 : cols c.hZ = c.n) (e s : List Bool) :
    IsSyndrome c.hZ e s ↔ s.length = c.hZ.length ∧ ∀ i (hi : i < c.hZ.length), bit (s.getD i false) = dot (asVec c.n c.hZ[i]) (asVec c.n e) := by
  unfold IsSyndrome
  refine and_congr_right fun _ => forall_congr' fun i => forall_congr' fun hi => ?_
  have : (∑ k ∈ Finset.range (cols c.hZ), bit (entry c.hZ i k) * bit (e.getD k false)) = dot (asVec c.n c.hZ[i]) (asVec c.n e) := by
    rw [hn2, Finset.sum_range]
    unfold dot asVec entry
    refine Finset.sum_congr rfl fun j _ => ?_
    rw [List.getD_eq_getElem?_getD (l := c.hZ), List.getElem?_eq_getElem hi]
    rfl
  rw [this]

theorem detected_iff {c : Code} (h2 : Rect c.hZ) (hn2 : cols c.hZ = c.n) {e s : List Bool} (hs : IsSyndrome c.hZ e s) :
    Detected c e ↔ true ∈ s := by
  rw [isSyndrome_iff h2 hn2] at hs
  obtain ⟨hl, hs⟩ := hs
  constructor
  · rintro ⟨h, hh, hd⟩
    obtain ⟨row, hrow, rfl⟩ := List.mem_map.1 hh
    obtain ⟨i, hi, rfl⟩ := List.getElem_of_mem hrow
    have := hs i hi
    rw [show dot (asVec c.n c.hZ[i]) (asVec c.n e) = 1 from hd, bit_eq_one] at this
    rw [List.getD_eq_getElem?_getD, List.getElem?_eq_getElem (by omega)] at this
    have h3 : s[i]'(by omega) = true := this
    rw [← h3]
    exact List.getElem_mem _
  · intro h
    obtain ⟨i, hi, h3⟩ := List.getElem_of_mem h
    have hi' : i < c.hZ.length := by omega
    refine ⟨asVec c.n c.hZ[i], List.mem_map.2 ⟨c.hZ[i], List.getElem_mem _, rfl⟩, ?_⟩
    rw [← hs i hi', List.getD_eq_getElem?_getD, List.getElem?_eq_getElem hi, h3]
    rfl

theorem asVec_zero (n : ℕ) (v : List Bool) (h : true ∉ v) : asVec n v = 0 := by
  funext j
  unfold asVec bit
  rw [if_neg]
  · rfl
  · intro hh
    rw [List.getD_eq_getElem?_getD] at hh
    cases e : v[j.val]? with
    | none => rw [e] at hh; exact absurd hh (by decide)
    | some b =>
      rw [e] at hh
      change b = true at hh
      subst hh
      exact h (List.mem_of_getElem? e)

/-! ## C141 -/

/-- C141: a run of the script is no failure exactly when the *estimate* is an X stabilizer, whatever the error. -/
theorem C141_run_partial (c : Code) (hX : Gf2Mat) (hc : TwoSided c hX) (decode : List Bool → List Bool) (hd : ∀ s, (decode s).length = c.n)
    (e : List Bool) (he : e.length = c.n) :
    ∃ b s, IsSyndrome c.hZ e s ∧ scriptRun (fun s => .ok (decode s)) c e = .ok b ∧
      (b = true ↔ asVec c.n (decode s) ∈ rowSpan (asRows c.n hX)) := by
  obtain ⟨h0, h1, h2, h3, h4⟩ := hc
  obtain ⟨s, hs1, hs2⟩ := C87_x_syndrome c h2 h4 e he
  by_cases hany : (decode s).any id = true
  · obtain ⟨b, hb1, hb2⟩ := C49_rowspace hX h1 (decode s) (by rw [hd, h3])
    rw [h3] at hb2
    refine ⟨b, s, hs2, ?_, hb2⟩
    have : c.isStabilizer (decode s) = some (.ok b) := by
      unfold Code.isStabilizer
      rw [if_neg (by simp [hany]), if_neg (by rw [hd]; omega), h0, Option.map_some, hb1]
    simp only [scriptRun, hs1, lift, bind, Except.bind, this]
  · refine ⟨true, s, hs2, ?_, fun _ => ?_, fun _ => rfl⟩
    · have : c.isStabilizer (decode s) = some (.ok true) := by
        unfold Code.isStabilizer
        rw [if_pos (by simp [hany])]
      simp only [scriptRun, hs1, lift, bind, Except.bind, this]
    · rw [asVec_zero]
      · exact zero_mem _
      · intro h
        exact hany (List.any_eq_true.2 ⟨true, h, rfl⟩)

open scoped Classical in
/-- C141: for a decoder that returns estimates with the right syndrome, the rate that the script writes is the fraction of the errors
that are *detected*, divided by the number of logical qubits.  Missing: the fraction of the runs with a wrong correction, for which it is
meant (`C141_violated`). -/
theorem C141_rate_partial (c : Code) (hX : Gf2Mat) (hc : TwoSided c hX) (hcss : Commute c hX) (decode : List Bool → List Bool)
    (hd : ∀ s, (decode s).length = c.n) (hv : Valid c decode) (k : ℕ) (hk : k ≠ 0) (errors : List (List Bool)) (hne : errors ≠ [])
    (he : ∀ e ∈ errors, e.length = c.n) :
    scriptRate (fun s => .ok (decode s)) c k errors =
      .ok (some ((errors.countP fun e => decide (Detected c e) : ℕ) / (errors.length : ℚ) / k)) := by
  have key : ∀ es : List (List Bool), (∀ e ∈ es, e.length = c.n) →
      scriptFailures (fun s => .ok (decode s)) c es = .ok (es.countP fun e => decide (Detected c e)) := by
    intro es
    induction es with
    | nil => intro _; rfl
    | cons e es ih =>
      intro h
      have hel := h e List.mem_cons_self
      obtain ⟨b, s, hs, hr, hb⟩ := C141_run_partial c hX hc decode hd e hel
      have hbd : b = true ↔ ¬ Detected c e := by
        rw [hb, detected_iff hc.2.2.1 hc.2.2.2.2 hs]
        constructor
        · intro hm ht
          obtain ⟨-, hs'⟩ := hv.1 e s hel hs
          obtain ⟨g, hg, hg1⟩ := (detected_iff hc.2.2.1 hc.2.2.2.2 hs').2 ht
          have : dot (asVec c.n (decode s)) g = 0 := dot_eq_zero_of_mem_rowSpan (fun r hr => by rw [dot_comm]; exact hcss r hr g hg) hm
          rw [dot_comm, this] at hg1
          exact absurd hg1 (by decide)
        · intro ht
          rw [asVec_zero _ _ (hv.2 s ht)]
          exact zero_mem _
      simp only [scriptFailures, hr, ih fun e' h' => h e' (List.mem_cons_of_mem _ h'), bind, Except.bind, pure, Except.pure]
      rw [List.countP_cons]
      by_cases hD : Detected c e
      · have : b = false := by
          cases b
          · rfl
          · exact absurd hD (hbd.1 rfl)
        rw [this]
        simp [hD]
      · rw [hbd.2 hD]
        simp [hD]
  have hl : errors.length ≠ 0 := fun h => hne (List.length_eq_zero_iff.1 h)
  simp only [scriptRate, key errors he, bind, Except.bind, pure, Except.pure]
  rw [C97_value k errors.length _ hk hl]

open scoped Classical in
/-- The full claim: the script writes the fraction of the runs with a wrong correction, divided by the number of logical qubits. -/
def C141_claim : Prop :=
  ∀ (c : Code) (hX : Gf2Mat), TwoSided c hX → Commute c hX → ∀ decode : List Bool → List Bool, (∀ s, (decode s).length = c.n) → Valid c decode →
    ∀ k, k ≠ 0 → ∀ errors : List (List Bool), errors ≠ [] → (∀ e ∈ errors, e.length = c.n) →
      scriptRate (fun s => .ok (decode s)) c k errors =
        .ok (some ((errors.countP fun e => decide (Fails c hX decode e) : ℕ) / (errors.length : ℚ) / k))

/-- C141 in general: whatever the code and the valid decoder, every corrected error that was detected is counted as a failure, and no logical
error without a syndrome is counted. -/
theorem C141_violated_every_code (c : Code) (hX : Gf2Mat) (hc : TwoSided c hX) (hcss : Commute c hX) (decode : List Bool → List Bool)
    (hd : ∀ s, (decode s).length = c.n) (hv : Valid c decode) (e : List Bool) (he : e.length = c.n) :
    scriptRun (fun s => .ok (decode s)) c e = .ok false ↔ Detected c e := by
  obtain ⟨b, s, hs, hr, hb⟩ := C141_run_partial c hX hc decode hd e he
  rw [hr, Except.ok.injEq, detected_iff hc.2.2.1 hc.2.2.2.2 hs, ← Bool.not_eq_true, hb]
  constructor
  · intro hm
    by_contra ht
    rw [asVec_zero _ _ (hv.2 s ht)] at hm
    exact hm (zero_mem _)
  · intro ht hm
    obtain ⟨-, hs'⟩ := hv.1 e s he hs
    obtain ⟨g, hg, hg1⟩ := (detected_iff hc.2.2.1 hc.2.2.2.2 hs').2 ht
    have : dot (asVec c.n (decode s)) g = 0 := dot_eq_zero_of_mem_rowSpan (fun r hr => by rw [dot_comm]; exact hcss r hr g hg) hm
    rw [dot_comm, this] at hg1
    exact absurd hg1 (by decide)

/-! ### Steane's code -/

def sm : Gf2Mat := [[false, false, false, true, true, true, true], [false, true, true, false, false, true, true],
  [true, false, true, false, true, false, true]]

/-- The decoder of Steane's code for single errors: the syndrome is the number of the qubit in binary. -/
def sdec (s : List Bool) : List Bool :=
  let i := (if s.getD 0 false then 4 else 0) + (if s.getD 1 false then 2 else 0) + (if s.getD 2 false then 1 else 0)
  (List.range 7).map fun j => decide (j + 1 = i)

theorem steane_two : TwoSided steane sm := ⟨rfl, ⟨by decide, by decide, by decide⟩, ⟨by decide, by decide, by decide⟩, rfl, rfl⟩

theorem steane_commute : Commute steane sm := by
  show ∀ g ∈ asRows 7 sm, ∀ h ∈ asRows 7 sm, dot h g = 0
  decide +kernel

theorem sdec_length (s : List Bool) : (sdec s).length = steane.n := by simp [sdec]; rfl

theorem sdec_valid : Valid steane sdec := by
  constructor
  · intro e s _ hs
    refine ⟨sdec_length s, hs.1, ?_⟩
    have hl := hs.1
    match s, hl with
    | [a, b, c], _ =>
      show ∀ i < 3, bit ([a, b, c].getD i false) = ∑ k ∈ Finset.range 7, bit (entry sm i k) * bit ((sdec [a, b, c]).getD k false)
      clear hl hs
      revert a b c
      decide +kernel
  · intro s hs
    have h : ∀ i, s.getD i false = false := by
      intro i
      rw [List.getD_eq_getElem?_getD]
      cases e : s[i]? with
      | none => rfl
      | some b =>
        cases b
        · rfl
        · exact absurd (List.mem_of_getElem? e) hs
    simp only [sdec, h]
    decide

/-- Hypotheses met: an X error on the third qubit is detected, and corrected. -/
example : TwoSided steane sm ∧ Commute steane sm ∧ Valid steane sdec ∧ Detected steane [false, false, true, false, false, false, false] :=
  ⟨steane_two, steane_commute, sdec_valid, by
    show ∃ h ∈ asRows 7 sm, dot h (asVec 7 [false, false, true, false, false, false, false]) = 1
    decide +kernel⟩

/-- **C141 fails**: with a decoder that corrects every single error of Steane's code, the script reports the rate 1 for one run with a single
error. -/
theorem C141_violated : ¬ C141_claim := by
  classical
  intro h
  have h1 := h steane sm steane_two steane_commute sdec sdec_length sdec_valid 1 one_ne_zero [[false, false, true, false, false, false, false]]
    (by simp) (by intro e he; rw [List.mem_singleton.1 he]; rfl)
  have h2 := C141_rate_partial steane sm steane_two steane_commute sdec sdec_length sdec_valid 1 one_ne_zero
    [[false, false, true, false, false, false, false]] (by simp) (by intro e he; rw [List.mem_singleton.1 he]; rfl)
  have hD : Detected steane [false, false, true, false, false, false, false] := by
    show ∃ h ∈ asRows 7 sm, dot h (asVec 7 [false, false, true, false, false, false, false]) = 1
    decide +kernel
  have hF : ¬ Fails steane sm sdec [false, false, true, false, false, false, false] := by
    intro hf
    have := hf [false, true, true] ⟨rfl, by
      show ∀ i < 3, bit ([false, true, true].getD i false) = ∑ k ∈ Finset.range 7, bit (entry sm i k) * bit ([false, false, true, false, false, false, false].getD k false)
      decide +kernel⟩
    apply this
    have h0 : asVec 7 [false, false, true, false, false, false, false] + asVec 7 (sdec [false, true, true]) = 0 := by decide +kernel
    show asVec 7 [false, false, true, false, false, false, false] + asVec 7 (sdec [false, true, true]) ∈ _
    rw [h0]
    exact zero_mem _
  rw [h1] at h2
  simp [hD, hF] at h2

end Verif.Scripts
