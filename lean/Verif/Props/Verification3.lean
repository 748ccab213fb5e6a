import Verif.Props.Verification2

/-! # C68: `gate_optimal_verification_stabilizers` -/

namespace Verif.SP
open Verif Verif.Spec
variable {n : ℕ}

/-- The requirement on a layer of verification stabilizers. -/
def LayerOk (checks faults ms : List (Vec n)) : Prop :=
  (∀ m ∈ ms, m ∈ rowSpan checks) ∧ Detects ms faults

theorem lessCnots_spec (run : ℕ → ℕ → Outcome (List (Vec n))) (P : List (Vec n) → ℕ → Prop)
    (hrun : ∀ j k ms, run j k = .value (some ms) → P ms k) : ∀ (k j : ℕ) (ms : List (Vec n)) (res : List (Vec n) × ℕ),
    P ms (k + 1) → lessCnots run j k ms = some res → P res.1 res.2 ∧ res.2 ≤ k + 1 := by
  intro k
  induction k with
  | zero =>
    intro j ms res h1 h2
    simp only [lessCnots, Option.some.injEq] at h2
    subst h2
    exact ⟨h1, le_rfl⟩
  | succ k ih =>
    intro j ms res h1 h2
    rw [lessCnots] at h2
    split at h2
    · simp at h2
    · simp only [Option.some.injEq] at h2; subst h2; exact ⟨h1, le_rfl⟩
    · simp only [Option.some.injEq] at h2; subst h2; exact ⟨h1, le_rfl⟩
    · next ms' hr =>
      obtain ⟨h3, h4⟩ := ih (j + 1) ms' res (hrun _ _ _ hr) h2
      exact ⟨h3, by omega⟩

theorem lessAnc_spec (run : ℕ → ℕ → Outcome (List (Vec n))) (P : List (Vec n) → Prop)
    (hrun : ∀ j k ms, run j k = .value (some ms) → P ms) : ∀ (k j : ℕ) (ms res : List (Vec n)),
    P ms → lessAnc run j k ms = some res → P res := by
  intro k
  induction k with
  | zero =>
    intro j ms res h1 h2
    simp only [lessAnc, Option.some.injEq] at h2
    subst h2; exact h1
  | succ k ih =>
    intro j ms res h1 h2
    rw [lessAnc] at h2
    split at h2
    · simp at h2
    · simp only [Option.some.injEq] at h2; subst h2; exact h1
    · simp only [Option.some.injEq] at h2; subst h2; exact h1
    · next ms' hr => exact ih (j + 1) ms' res (hrun _ _ _ hr) h2

theorem filter_wt_le (l : List (Vec n)) : ((l.filter fun m => decide (m ≠ 0)).map wt).sum ≤ (l.map wt).sum := by
  induction l with
  | nil => simp
  | cons x xs ih =>
    rw [List.filter_cons]
    split <;> simp only [List.map_cons, List.sum_cons] <;> omega

/-- A layer returned by the optimal search consists of stabilizers and detects every fault of that
layer; the total weight is at most the total weight of the checks. -/
theorem C68_layer_sound (faults checks : List (Vec n)) (numAnc : ℕ)
    (run1 run2 run3 : ℕ → ℕ → ℕ → Outcome (List (Vec n)))
    (h1 : ∀ i c t, VerifOutcome checks faults numAnc c (run1 i c t))
    (h2 : ∀ j c anc, VerifOutcome checks faults anc c (run2 j c anc))
    (h3 : ∀ j anc c, VerifOutcome checks faults anc c (run3 j anc c))
    (minT maxT fuel : ℕ) (ms : List (Vec n))
    (h : optimalLayer run1 run2 run3 faults checks minT maxT fuel = some (.ok ms)) :
    (∀ m ∈ ms, m ∈ rowSpan checks) ∧ Detects ms faults ∧ (ms.map wt).sum ≤ (checks.map wt).sum := by
  unfold optimalLayer at h
  split at h
  · next hz =>
    simp only [Option.some.injEq, LayerRes.ok.injEq] at h
    subst h
    rw [List.length_eq_zero_iff] at hz
    subst hz
    exact ⟨by simp, by intro f hf; simp at hf, by simp⟩
  · simp only at h
    split at h
    · simp at h
    · simp at h
    · simp at h
    · next ms0 c0 hs =>
      obtain ⟨hle, i, t, -, hr⟩ := C31_sound _ _ _ _ _ _ _ _ _ _ hs
      have hout := h1 i c0 t
      rw [hr] at hout
      obtain ⟨a1, a2, -, a4⟩ := C33_sound _ _ _ _ _ hout
      set P : List (Vec n) → ℕ → Prop := fun m c => (∀ x ∈ m, x ∈ rowSpan checks) ∧ Detects m faults ∧ (m.map wt).sum ≤ c
        with hP
      have hfil : P (ms0.filter fun m => decide (m ≠ 0)) c0 := by
        refine ⟨fun m hm => a1 m (List.mem_filter.1 hm).1, ?_, ?_⟩
        · intro f hf
          obtain ⟨m, hm, hd⟩ := a2 f hf
          refine ⟨m, List.mem_filter.2 ⟨hm, ?_⟩, hd⟩
          rw [decide_eq_true_eq]
          rintro rfl
          simp [dot] at hd
        · refine le_trans ?_ a4
          exact filter_wt_le ms0
      have hc : 0 < c0 ∨ c0 = 0 := by omega
      split at h
      · simp at h
      · next ms2 c2 hl =>
        split at h
        · simp at h
        · next ms3 hl3 =>
          simp only [Option.some.injEq, LayerRes.ok.injEq] at h
          subst h
          have hP2 : P ms2 c2 ∧ c2 ≤ (c0 - 1) + 1 := by
            refine lessCnots_spec _ P ?_ (c0 - 1) 0 _ (ms2, c2) ?_ hl
            · intro j k m hm
              have := h2 j k (List.filter (fun m => decide (m ≠ 0)) ms0).length
              rw [hm] at this
              obtain ⟨b1, b2, -, b4⟩ := C33_sound _ _ _ _ _ this
              exact ⟨b1, b2, b4⟩
            · exact ⟨hfil.1, hfil.2.1, le_trans hfil.2.2 (by omega)⟩
          have hne : 1 ≤ c0 := by
            rcases hc with hc | hc
            · exact hc
            · exfalso
              subst hc
              obtain ⟨f, hf⟩ := List.exists_mem_of_length_pos (l := faults) (by omega)
              obtain ⟨m, hm, hd⟩ := hfil.2.1 f hf
              have hw : wt m = 0 := by
                have : wt m ≤ ((ms0.filter fun m => decide (m ≠ 0)).map wt).sum :=
                  List.single_le_sum (by simp) _ (List.mem_map.2 ⟨m, hm, rfl⟩)
                have := hfil.2.2
                omega
              have : m = 0 := by
                unfold wt at hw
                funext i
                rw [Finset.card_eq_zero, Finset.filter_eq_empty_iff] at hw
                have := hw (Finset.mem_univ i)
                simpa using this
              have hmem := (List.mem_filter.1 hm).2
              simp [this] at hmem
          obtain ⟨d1, d2, d3⟩ := lessAnc_spec _ (fun m => P m c2) (by
            intro j k m hm
            have := h3 j k c2
            rw [hm] at this
            obtain ⟨b1, b2, -, b4⟩ := C33_sound _ _ _ _ _ this
            exact ⟨b1, b2, b4⟩) _ 0 ms2 ms3 hP2.1 hl3
          exact ⟨d1, d2, by omega⟩

/-- The optimality claim: without timeouts, a returned layer has the smallest possible number of
CNOTs among all families of at most `numAnc` stabilizers detecting the faults. -/
def C68_optimal_claim : Prop := ∀ (n : ℕ) (faults checks : List (Vec n)) (numAnc : ℕ)
    (run1 run2 run3 : ℕ → ℕ → ℕ → Outcome (List (Vec n))),
    (∀ i c t, VerifOutcome checks faults numAnc c (run1 i c t)) →
    (∀ j c anc, VerifOutcome checks faults anc c (run2 j c anc)) →
    (∀ j anc c, VerifOutcome checks faults anc c (run3 j anc c)) →
    ∀ (minT maxT fuel : ℕ) (ms : List (Vec n)),
    (∀ i c t, run1 i c t ≠ .timeout) → (∀ j c anc, run2 j c anc ≠ .timeout) → (∀ j anc c, run3 j anc c ≠ .timeout) →
    optimalLayer run1 run2 run3 faults checks minT maxT fuel = some (.ok ms) →
    ∀ ms' : List (Vec n), LayerOk checks faults ms' → ms'.length ≤ numAnc → (ms.map wt).sum ≤ (ms'.map wt).sum

theorem exists_outcome (gens faults : List (Vec n)) (numAnc numCnots : ℕ) (hg : gens ≠ []) :
    ∃ o, o ≠ .timeout ∧ VerifOutcome gens faults numAnc numCnots o := by
  obtain ⟨c, hc, -⟩ := verifConstraint_iff gens faults numAnc numCnots hg
  by_cases h : ∃ a, c a = true
  · obtain ⟨a, ha⟩ := h
    refine ⟨.value (some (verifExtract gens numAnc a)), by simp, .inr ?_⟩
    rw [hc]
    exact .inl ⟨a, ha, rfl⟩
  · push Not at h
    refine ⟨.value none, by simp, .inr ?_⟩
    rw [hc]
    exact .inr ⟨fun a => by simpa using h a, rfl⟩

/-- Generators `g, g+a, g+b` with `g = 11111`, `a = 10100` and `b = 01100`. -/
def exChecks : List (Vec 5) := [![1,1,1,1,1], ![0,1,0,1,1], ![1,0,0,1,1]]
def exFaults : List (Vec 5) := [![1,0,0,0,0], ![0,1,0,0,0], ![0,0,1,0,0]]
def exG : Vec 5 := ![1,1,1,1,1]

theorem exOne : VerifOutcome exChecks exFaults 2 6 (.value (some [exG, 0])) := by
  obtain ⟨c, hc, hiff⟩ := verifConstraint_iff exChecks exFaults 2 6 (by decide)
  right
  rw [hc]
  left
  have he : verifExtract exChecks 2 (fun anc i => decide (anc = 0 ∧ i = 0)) = [exG, 0] := by decide +kernel
  refine ⟨fun anc i => decide (anc = 0 ∧ i = 0), (hiff _).2 ?_, by rw [he]⟩
  rw [he]
  constructor <;> decide +kernel

theorem exThree (o : Outcome (List (Vec 5))) (hn : o ≠ .timeout) (h : VerifOutcome exChecks exFaults 2 3 o) :
    o = .value none := by
  obtain ⟨c, hc, hiff⟩ := verifConstraint_iff exChecks exFaults 2 3 (by decide)
  rcases h with h | h
  · exact absurd h hn
  · rw [hc] at h
    rcases h with ⟨a, ha, -⟩ | ⟨-, h⟩
    · exfalso
      have := (hiff a).1 ha
      rw [verifExtract_eq] at this
      have hr : ∀ k, (List.range exChecks.length).map (a k) = [a k 0, a k 1, a k 2] := fun _ => rfl
      have hr2 : List.range 2 = [0, 1] := rfl
      simp only [hr2, List.map_cons, List.map_nil, hr] at this
      generalize a 0 0 = b0 at this
      generalize a 0 1 = b1 at this
      generalize a 0 2 = b2 at this
      generalize a 1 0 = d0 at this
      generalize a 1 1 = d1 at this
      generalize a 1 2 = d2 at this
      revert b0 b1 b2 d0 d1 d2
      decide +kernel
    · exact h

theorem exFour (k : ℕ) (hk : k < 5) (o : Outcome (List (Vec 5))) (hn : o ≠ .timeout)
    (h : VerifOutcome exChecks exFaults 1 k o) : o = .value none := by
  obtain ⟨c, hc, hiff⟩ := verifConstraint_iff exChecks exFaults 1 k (by decide)
  rcases h with h | h
  · exact absurd h hn
  · rw [hc] at h
    rcases h with ⟨a, ha, -⟩ | ⟨-, h⟩
    · exfalso
      have := (hiff a).1 ha
      rw [verifExtract_eq] at this
      have hr : ∀ k, (List.range exChecks.length).map (a k) = [a k 0, a k 1, a k 2] := fun _ => rfl
      simp only [List.range_one, List.map_cons, List.map_nil, hr] at this
      generalize a 0 0 = b0 at this
      generalize a 0 1 = b1 at this
      generalize a 0 2 = b2 at this
      clear hc hiff ha hr hn
      replace this := And.intro this.1 (le_trans this.2 (Nat.lt_succ_iff.1 hk))
      clear hk
      revert b0 b1 b2
      decide +kernel
    · exact h

theorem exFive : VerifOutcome exChecks exFaults 1 5 (.value (some [exG])) := by
  obtain ⟨c, hc, hiff⟩ := verifConstraint_iff exChecks exFaults 1 5 (by decide)
  right
  rw [hc]
  left
  have he : verifExtract exChecks 1 (fun _ i => decide (i = 0)) = [exG] := by decide +kernel
  refine ⟨fun _ i => decide (i = 0), (hiff _).2 ?_, by rw [he]⟩
  rw [he]
  constructor <;> decide +kernel

/-- The claim fails: after the first success the number of ancillas is fixed to the number of
non-zero measurements found, so cheaper solutions with more ancillas are not looked for.  Here one
measurement with five CNOTs is returned although two measurements with four CNOTs detect all faults. -/
theorem C68_violated : ¬ C68_optimal_claim := by
  intro h
  have hg : exChecks ≠ [] := by decide
  choose r hr1 hr2 using fun (x : ℕ × ℕ) => exists_outcome exChecks exFaults x.1 x.2 hg
  let run1 : ℕ → ℕ → ℕ → Outcome (List (Vec 5)) := fun _ c _ => if c = 6 then .value (some [exG, 0]) else r (2, c)
  let run2 : ℕ → ℕ → ℕ → Outcome (List (Vec 5)) := fun _ c anc =>
    if anc = 1 ∧ c = 5 then .value (some [exG]) else r (anc, c)
  have key := h 5 exFaults exChecks 2 run1 run2 (fun _ anc c => r (anc, c))
    (by
      intro i c t
      show VerifOutcome exChecks exFaults 2 c (if c = 6 then .value (some [exG, 0]) else r (2, c))
      split
      · next hc => rw [hc]; exact exOne
      · exact hr2 (2, c))
    (by
      intro j c anc
      show VerifOutcome exChecks exFaults anc c (if anc = 1 ∧ c = 5 then .value (some [exG]) else r (anc, c))
      split
      · next hc => rw [hc.1, hc.2]; exact exFive
      · exact hr2 (anc, c))
    (fun _ anc c => hr2 (anc, c)) 1 10 2 [exG]
    (by
      intro i c t
      show (if c = 6 then .value (some [exG, 0]) else r (2, c)) ≠ Outcome.timeout
      split
      · simp
      · exact hr1 (2, c))
    (by
      intro j c anc
      show (if anc = 1 ∧ c = 5 then .value (some [exG]) else r (anc, c)) ≠ Outcome.timeout
      split
      · simp
      · exact hr1 (anc, c))
    (fun _ anc c => hr1 (anc, c))
    (by
      unfold optimalLayer
      rw [if_neg (by decide)]
      have e1 : ((exChecks.map wt).min?).getD 0 = 3 := by decide +kernel
      have e2 : (exChecks.map wt).sum = 11 := by decide +kernel
      have e0 : r (2, 3) = .value none := exThree _ (hr1 (2, 3)) (hr2 (2, 3))
      have hs : scale 3 2 = 6 := by decide +kernel
      have e3 : iterativeSearch run1 3 11 1 10 2 2 2 = some (.found [exG, 0] 6) := by
        simp [iterativeSearch, searchLoop, run1, e0, hs]
      simp only [e1, e2, e3]
      have e4 : ([exG, 0].filter fun m => decide (m ≠ 0)) = [exG] := by decide +kernel
      rw [e4]
      have e5 : ∀ k, k < 5 → r (1, k) = .value none := fun k hk => exFour k hk _ (hr1 (1, k)) (hr2 (1, k))
      simp [lessCnots, lessAnc, run2, e5])
    [![1,0,1,0,0], ![0,1,1,0,0]]
    (by
      constructor
      · intro m hm
        rw [← inSpan_iff]
        revert m
        decide +kernel
      · unfold Detects; decide +kernel)
    (by decide)
  revert key
  decide +kernel

/-- And with the fault `XXX` of `C33_violated` the function returns the empty list of layers (no
verification at all) even without any timeout, although measuring `ZZZ` detects the fault. -/
theorem C68_violated_unverified (run1 run2 run3 : ℕ → ℕ → ℕ → Outcome (List (Vec 3)))
    (h1 : ∀ i c t, VerifOutcome [![1,1,1]] [![1,1,1]] 1 c (run1 i c t)) :
    optimalLayer run1 run2 run3 [![1,1,1]] [![1,1,1]] 1 1 10 = some .notFound ∧
    LayerOk (n := 3) [![1,1,1]] [![1,1,1]] [![1,1,1]] := by
  have hv : ∀ i c t ms, run1 i c t ≠ .value (some ms) ∧ run1 i c t ≠ .crash := by
    intro i c t ms
    have hh := h1 i c t
    obtain ⟨cc, hc, hiff⟩ := verifConstraint_iff (n := 3) [![1,1,1]] [![1,1,1]] 1 c (by simp)
    rcases hh with hh | hh
    · rw [hh]; simp
    · rw [hc] at hh
      rcases hh with ⟨a, ha, -⟩ | ⟨-, hh⟩
      · exfalso
        obtain ⟨m, hm, ho⟩ := ((hiff a).1 ha).1 ![1,1,1] (by simp)
        rw [verifExtract_eq] at hm
        simp only [List.range_one, List.map_cons, List.map_nil, List.mem_singleton, List.length_cons, List.length_nil,
          zero_add] at hm
        subst hm
        cases hb : a 0 0
        · rw [hb] at ho; revert ho; decide
        · rw [hb] at ho; revert ho; decide
      · rw [hh]; simp
  constructor
  · have e1 : (([(![1,1,1] : Vec 3)].map wt).min?).getD 0 = 3 := by decide +kernel
    have e2 : ([(![1,1,1] : Vec 3)].map wt).sum = 3 := by decide +kernel
    have e3 : iterativeSearch run1 3 3 1 1 2 2 10 = some (.notFound 3) := by
      have hs : scale 1 2 = 2 := by decide +kernel
      cases hr : run1 0 3 1 with
      | crash => exact absurd hr (hv 0 3 1 []).2
      | timeout => simp [iterativeSearch, searchLoop, hr, hs]
      | value o =>
        cases o with
        | some ms => exact absurd hr (hv 0 3 1 ms).1
        | none => simp [iterativeSearch, searchLoop, hr, hs]
    unfold optimalLayer
    rw [if_neg (by decide)]
    simp only [e1, e2, e3]
  · refine ⟨fun m hm => Submodule.subset_span hm, ?_⟩
    unfold Detects; decide

end Verif.SP
