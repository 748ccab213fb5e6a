import Verif.Model.EvalScript

/-! # C107: the evaluation script simulates the requested circuit -/

namespace Verif.Eval
open Verif

/-! ## Specification -/

/-- The code the user asks for. -/
def requestedCode (a : Args) : CodeSel :=
  if a.code = surface then .rotatedSurface a.distance
  else if a.code = cc488 then .squareOctagon a.distance
  else if a.code = cc666 then .hexagonal a.distance
  else .named a.code

/-- The circuit the user asks for. -/
def requested (a : Args) : Circuit where
  code := requestedCode a
  zero := a.zeroState
  exactCirc := a.exactCirc
  ver := if a.noVer then none else if a.naiveVer then some .naive else if a.exactVer then some .optimal else some .heuristic

/-- The code whose circuits are in a folder. -/
def folderCode : Folder → CodeSel
  | .rotatedSurface d => .rotatedSurface d
  | .named n => if n = cc488 then .squareOctagon 5 else if n = cc666 then .hexagonal 5 else .named n

/-- Every file contains the circuit its folder and its name announce. -/
def Conform (store : Folder → FileName → Option Circuit) : Prop :=
  ∀ f n qc, store f n = some qc → qc = ⟨folderCode f, n.zero, n.exactCirc, if n.ft then n.ver else none⟩

/-- The names in the help text of the script. -/
def documented : List CodeName :=
  ["steane", "tetrahedral", "shor", "surface", "cc_4_8_8", "cc_6_6_6", "hamming", "carbon"].map String.toList

/-- The full claim. -/
def C107_claim : Prop := ∀ store, Conform store → ∀ a : Args, a.code ∈ documented → simulated store a = some (requested a)

/-! ## Results -/

theorem select_available (a : Args) (h : a.code ∈ available) :
    selectCode a = some (if a.code = surface then (.rotatedSurface a.distance, .rotatedSurface a.distance)
      else if a.code = cc488 then (.squareOctagon 5, .named a.code)
      else if a.code = cc666 then (.hexagonal 5, .named a.code) else (.named a.code, .named a.code)) := by
  have key : ∀ c ∈ available, ((surface <:+: c) ↔ c = surface) ∧ ((cc488 <:+: c) ↔ c = cc488) ∧ ((cc666 <:+: c) ↔ c = cc666) := by
    decide
  obtain ⟨h1, h2, h3⟩ := key a.code h
  unfold selectCode
  simp only [h1, h2, h3, h, if_true]
  split <;> [rfl; (split <;> [rfl; (split <;> rfl)])]

theorem documented_eq : documented = available := by decide

/-- C107: a name that is not documented and contains none of the names of the families is refused. -/
theorem C107_unknown (store : Folder → FileName → Option Circuit) (a : Args) (h : a.code ∉ documented)
    (h1 : ¬ "surface".toList <:+: a.code) (h2 : ¬ "cc_4_8_8".toList <:+: a.code) (h3 : ¬ "cc_6_6_6".toList <:+: a.code) :
    simulated store a = none := by
  rw [documented_eq] at h
  have e1 : "surface".toList = surface := by decide
  have e2 : "cc_4_8_8".toList = cc488 := by decide
  have e3 : "cc_6_6_6".toList = cc666 := by decide
  rw [e1] at h1
  rw [e2] at h2
  rw [e3] at h3
  unfold simulated selectCode
  rw [if_neg h1, if_neg h2, if_neg h3, if_neg h]

/-- An undocumented name. -/
example : ∃ a : Args, a.code ∉ documented ∧ ¬ "surface".toList <:+: a.code ∧ ¬ "cc_4_8_8".toList <:+: a.code ∧ ¬ "cc_6_6_6".toList <:+: a.code :=
  ⟨⟨['g', 'o', 'l', 'a', 'y'], true, false, true, false, false, 3⟩, by decide, by decide, by decide, by decide⟩

/-- C107 without `--no_ver` and, for the colour codes, with distance five. -/
theorem C107_partial (store : Folder → FileName → Option Circuit) (hs : Conform store) (a : Args) (hc : a.code ∈ documented)
    (hn : a.noVer = false) (hd : a.code = cc488 ∨ a.code = cc666 → a.distance = 5) : simulated store a = some (requested a) := by
  unfold simulated
  rw [select_available a (documented_eq ▸ hc)]
  have hver : (some (verName a)) =
      (if a.naiveVer then some Ver.naive else if a.exactVer then some .optimal else some .heuristic) := by
    unfold verName; split <;> [rfl; (split <;> rfl)]
  have fin : ∀ (c : CodeSel) (f : Folder), c = requestedCode a → folderCode f = c →
      (match store f (circFile a) with | none => some (build a c) | some qc => some qc) = some (requested a) := by
    intro c f h1 h2
    cases hst : store f (circFile a) with
    | none =>
      show some (build a c) = _
      unfold build requested
      rw [← h1, hn, ← show _ = _ from hver]
      rfl
    | some qc =>
      show some qc = _
      rw [hs _ _ _ hst, h2, h1]
      unfold requested circFile
      simp only [hn, Bool.not_false, if_true, hver]
      rfl
  by_cases e1 : a.code = surface
  · simp only [e1, if_true]
    exact fin _ _ (by simp [requestedCode, e1]) rfl
  · by_cases e2 : a.code = cc488
    · have hne : ¬ (cc488 = surface) := by decide
      simp only [e2, hne, if_false, if_true]
      exact fin _ _ (by simp [requestedCode, e2, hne, hd (Or.inl e2)]) (by simp [folderCode])
    · by_cases e3 : a.code = cc666
      · have hne : ¬ (cc666 = surface) := by decide
        have hne' : ¬ (cc666 = cc488) := by decide
        simp only [e3, hne, hne', if_false, if_true]
        exact fin _ _ (by simp [requestedCode, e3, hne, hne', hd (Or.inr e3)]) (by simp [folderCode, hne'])
      · simp only [e1, e2, e3, if_false]
        exact fin _ _ (by simp [requestedCode, e1, e2, e3]) (by simp [folderCode, e2, e3])

/-- The plus state of Steane's code with naive verification. -/
example : simulated (fun _ _ => none) ⟨steane, false, true, true, true, false, 3⟩ =
    some ⟨.named steane, false, true, some .naive⟩ := by decide

/-- C107, false for `--no_ver`: with the files shipped with the package a verified circuit is simulated, for all other arguments. -/
theorem C107_violated_no_ver (store : Folder → FileName → Option Circuit)
    (hs : ∀ f n, (f, n) ∉ shipped → store f n = none) (a : Args) (hc : a.code ∈ documented) (hn : a.noVer = true) :
    ∃ qc, simulated store a = some qc ∧ qc.ver ≠ none := by
  have key : ∀ p ∈ shipped, p.2.ft = false → p.2.ver = none := by decide
  have hnone : ∀ f, store f (circFile a) = none := by
    intro f
    refine hs _ _ fun h => ?_
    have := key _ h (by simp [circFile, hn])
    simp [circFile] at this
  unfold simulated
  rw [select_available a (documented_eq ▸ hc)]
  simp only [hnone]
  exact ⟨_, rfl, by simp [build]⟩

/-- The shipped files do contain an unverified circuit for the zero state of Steane's code. -/
example : (Folder.named steane, (⟨true, false, false, none⟩ : FileName)) ∈ shipped := by decide

/-- C107, false for the colour codes: the distance is ignored. -/
theorem C107_violated_distance (store : Folder → FileName → Option Circuit) (hs : Conform store) (a : Args)
    (hc : a.code = cc488 ∨ a.code = cc666) (hd : a.distance ≠ 5) : simulated store a ≠ some (requested a) := by
  have hav : a.code ∈ available := by rcases hc with h | h <;> rw [h] <;> decide
  have hr : (requested a).code ≠ .squareOctagon 5 ∧ (requested a).code ≠ .hexagonal 5 := by
    have h1 : ¬ (cc488 = surface) := by decide
    have h2 : ¬ (cc666 = surface) := by decide
    have h3 : ¬ (cc666 = cc488) := by decide
    rcases hc with h | h <;> simp [requested, requestedCode, h, h1, h2, h3, hd]
  unfold simulated
  rw [select_available a hav]
  have h1 : ¬ (cc488 = surface) := by decide
  have h2 : ¬ (cc666 = surface) := by decide
  have h3 : ¬ (cc666 = cc488) := by decide
  intro h
  rcases hc with hc | hc
  · simp only [hc, h1, if_false, if_true] at h
    cases hst : store (.named cc488) (circFile a) with
    | none => rw [hst] at h; exact hr.1 (by rw [← Option.some.inj h]; rfl)
    | some qc =>
      rw [hst] at h
      have := hs _ _ _ hst
      exact hr.1 (by rw [← Option.some.inj h, this]; simp [folderCode])
  · simp only [hc, h2, h3, if_false, if_true] at h
    cases hst : store (.named cc666) (circFile a) with
    | none => rw [hst] at h; exact hr.2 (by rw [← Option.some.inj h]; rfl)
    | some qc =>
      rw [hst] at h
      have := hs _ _ _ hst
      exact hr.2 (by rw [← Option.some.inj h, this]; simp [folderCode, h3])

theorem C107_violated : ¬ C107_claim := by
  intro h
  have := h (fun _ _ => none) (fun _ _ _ h => by cases h) ⟨steane, true, false, true, false, true, 3⟩ (by decide)
  revert this
  decide

end Verif.Eval
