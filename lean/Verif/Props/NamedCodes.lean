import Verif.Lemmas.NamedChecks
import Verif.Props.CSS
import Std.Data.String.ToInt

/-!
# C13: the named codes of the library

The distance claims range over all errors of every code.  The kernel evaluates a checker on the tables
(`Lemmas/MaskCodes`); its soundness is proved there, so the statements below mention only vectors.
-/

namespace Verif.Named
open Verif CSS

/-! ## Specification -/

/-- `d` is the least weight of an error that violates no check of `H'` and is not a product of rows of `H`. -/
def IsMinWeight {n : ℕ} (H H' : List (Vec n)) (d : ℕ) : Prop :=
  (∀ e : Vec n, (∀ g ∈ H', dot g e = 0) → e ∉ rowSpan H → d ≤ wt e) ∧
  ∃ e : Vec n, (∀ g ∈ H', dot g e = 0) ∧ e ∉ rowSpan H ∧ wt e = d

/-- The documented names (css_code.py:161-173); `surface` takes the distance, the other names ignore it. -/
inductive Documented : String → Option ℤ → Params → Prop
  | steane (d) : Documented "steane" d ⟨7, 1, 3, 3⟩
  | tetrahedral (d) : Documented "tetrahedral" d ⟨15, 1, 7, 3⟩
  | hamming (d) : Documented "hamming" d ⟨15, 7, 3, 3⟩
  | shor (d) : Documented "shor" d ⟨9, 1, 3, 3⟩
  | carbon (d) : Documented "carbon" d ⟨12, 2, 4, 4⟩
  | golay (d) : Documented "golay" d ⟨23, 1, 7, 7⟩
  | surface : Documented "surface" none ⟨9, 1, 3, 3⟩
  | surface3 : Documented "surface" (some 3) ⟨9, 1, 3, 3⟩
  | surface5 : Documented "surface" (some 5) ⟨25, 1, 5, 5⟩
  | surface_3 (d) : Documented "surface_3" d ⟨9, 1, 3, 3⟩
  | surface_5 (d) : Documented "surface_5" d ⟨25, 1, 5, 5⟩

/-! ## Each table is the code its name says -/

/-- What the constructor yields for a table that passes the checks. -/
def Yields (r : Except Err Code) (p : Params) : Prop :=
  ∃ c, r = .ok c ∧ c.n = p.n ∧ c.stab.k = p.k ∧ c.distance = (min p.dx p.dz : ℕ) ∧
    c.xDistance = p.dx ∧ c.zDistance = p.dz ∧ (∀ r ∈ c.hx, ∀ s ∈ c.hz, dot r s = 0) ∧
    IsMinWeight c.hx c.hz p.dx ∧ IsMinWeight c.hz c.hx p.dz

theorem yields_of_check (lib : Mod2) (e : Entry) (t : Cert) (p : Params) (h : checkAll e t p = true) :
    Yields (mkCSS lib (min e.dx e.dz) (some ⟨e.n, e.hx.map (toVec e.n)⟩) (some ⟨e.n, e.hz.map (toVec e.n)⟩)
      (some e.dx) (some e.dz)) p := by
  simp only [checkAll, Bool.and_eq_true, List.all_eq_true, decide_eq_true_eq, beq_iff_eq] at h
  obtain ⟨⟨⟨⟨⟨⟨⟨⟨⟨h1, h2⟩, h3⟩, h4⟩, h5⟩, h6⟩, h7⟩, h8⟩, h9⟩, h10⟩ := h
  obtain ⟨x1, x2, x3⟩ := side_of_check h1
  obtain ⟨z1, z2, z3⟩ := side_of_check h2
  have horth : ∀ r ∈ e.hx.map (toVec e.n), ∀ s ∈ e.hz.map (toVec e.n), dot r s = 0 := by
    intro r hr s hs
    obtain ⟨a, ha, rfl⟩ := List.mem_map.1 hr
    obtain ⟨b, hb, rfl⟩ := List.mem_map.1 hs
    rw [dot_toVec]
    exact (ZMod.natCast_eq_zero_iff _ _).2 (Nat.dvd_of_mod_eq_zero (h3 a ha b hb))
  have hne : e.hx.map (toVec e.n) ++ e.hz.map (toVec e.n) ≠ [] := by
    intro hh
    rw [← List.map_append, List.map_eq_nil_iff] at hh
    rw [hh] at h6
    simp at h6
  obtain ⟨c, hc⟩ := C08_ctor_complete lib e.n _ _ (min e.dx e.dz) (some e.dx) (some e.dz) horth hne
    (by rw [h9, h10]; omega) (min_le_left _ _) (min_le_right _ _)
  obtain ⟨-, hx, hz, -, -, ho, hn, hk, -, -, hd, hxd, hzd, -, -⟩ := C08_ctor_sound lib _ _ _ _ _ c hc
  have r1 := x1.rank
  have r2 := z1.rank
  have e1 := hx _ rfl
  have e2 := hz _ rfl
  refine ⟨c, hc, by rw [← e1.1]; exact h7, ?_, by rw [hd, h9, h10]; push_cast; rfl, by rw [hxd, ← h9]; rfl, by rw [hzd, ← h10]; rfl,
    ho, ?_⟩
  all_goals
    obtain ⟨cn, chx, chz, cst, cd, cxd, czd, lx, lz⟩ := c
    simp only at e1 e2 hk ⊢
    obtain ⟨rfl, e1⟩ := e1
    have e1 := eq_of_heq e1
    have e2 := eq_of_heq e2.2
    subst e1; subst e2
  · rw [hk, r1, r2, h8]
  · exact ⟨⟨x2, x3⟩, z2, z3⟩

/-- C13: every documented name yields a valid code with the documented parameters.  The declared distances
are exact: they are the least weights of undetected non-trivial errors of each kind. -/
theorem C13_named (lib : Mod2) (name : String) (distance : Option ℤ) (p : Params) (h : Documented name distance p) :
    Yields (fromCodeName lib name distance) p := by
  cases h with
  | steane d => exact yields_of_check lib _ _ _ check_steane
  | tetrahedral d => exact yields_of_check lib _ _ _ check_tetrahedral
  | hamming d => exact yields_of_check lib _ _ _ check_hamming
  | shor d => exact yields_of_check lib _ _ _ check_shor
  | carbon d => exact yields_of_check lib _ _ _ check_carbon
  | golay d => exact yields_of_check lib _ _ _ check_golay
  | surface => exact yields_of_check lib _ _ _ check_surface3
  | surface3 => exact yields_of_check lib _ _ _ check_surface3
  | surface5 => exact yields_of_check lib _ _ _ check_surface5
  | surface_3 d => exact yields_of_check lib _ _ _ check_surface3
  | surface_5 d => exact yields_of_check lib _ _ _ check_surface5

/-- C13: every other name, and every other distance of the surface code, raises. -/
theorem C13_unknown (lib : Mod2) (name : String) (distance : Option ℤ) (h : ∀ p, ¬ Documented name distance p) :
    fromCodeName lib name distance = .error (.invalidCSS ("Unknown code name: " ++
      (if name = "surface" then name ++ ("_" ++ toString (distance.getD 3)) else name))) := by
  have hne : ∀ s e, (s, e) ∈ table → lookupName name distance ≠ s := by
    intro s e hs hh
    unfold lookupName at hh
    by_cases hn : name = "surface"
    · rw [if_pos hn, hn] at hh
      have key : ∀ m : ℤ, distance = some m → ∀ k : ℤ, "surface" ++ ("_" ++ toString m) = "surface" ++ ("_" ++ toString k) →
          m = k := by
        intro m _ k hk
        have := congrArg String.toList hk
        simp only [String.toList_append, List.append_cancel_left_eq] at this
        exact Int.repr_injective (String.toList_injective this)
      cases hd : distance with
      | none => rw [hd, hn] at h; exact h _ .surface
      | some m =>
        rw [hd] at hh
        simp only [Option.getD_some] at hh
        rw [hn] at h
        have hlen := congrArg (fun t => t.toList.take 8) hh
        simp only [String.toList_append] at hlen
        simp only [table, List.mem_cons, Prod.mk.injEq, List.not_mem_nil, or_false] at hs
        rcases hs with ⟨rfl, _⟩ | ⟨rfl, _⟩ | ⟨rfl, _⟩ | ⟨rfl, _⟩ | ⟨rfl, _⟩ | ⟨rfl, _⟩ | ⟨rfl, _⟩ | ⟨rfl, _⟩
        · revert hlen; simp
        · revert hlen; simp
        · revert hlen; simp
        · revert hlen; simp
        · have := key m hd 3 hh
          rw [hd, this] at h; exact h _ .surface3
        · have := key m hd 5 hh
          rw [hd, this] at h; exact h _ .surface5
        · revert hlen; simp
        · revert hlen; simp
    · rw [if_neg hn] at hh
      simp only [table, List.mem_cons, Prod.mk.injEq, List.not_mem_nil, or_false] at hs
      rcases hs with ⟨rfl, _⟩ | ⟨rfl, _⟩ | ⟨rfl, _⟩ | ⟨rfl, _⟩ | ⟨rfl, _⟩ | ⟨rfl, _⟩ | ⟨rfl, _⟩ | ⟨rfl, _⟩ <;>
        rw [hh] at h <;> exact h _ (by constructor)
  have hnone : table.lookup (lookupName name distance) = none := by
    rw [List.lookup_eq_none_iff]
    rintro ⟨s, e⟩ hs
    simpa using hne s e hs
  rw [fromCodeName, hnone]
  rfl

/-- Hypotheses met: an unknown name, and an unsupported distance. -/
example : ∀ p, ¬ Documented "steen" none p := by
  intro p hp
  generalize hs : "steen" = s at hp
  cases hp <;> exact absurd hs (by decide)
example : ∀ p, ¬ Documented "surface" (some 7) p := by
  intro p hp
  generalize hs : "surface" = s at hp
  generalize hd : some (7 : ℤ) = d at hp
  cases hp <;> first | exact absurd hs (by decide) | exact absurd hd (by decide)

/-- The distance argument of the other names is ignored, so a caller who asks for distance 5
gets the distance-3 code. -/
theorem C13_distance_ignored (lib : Mod2) (name : String) (hname : name ≠ "surface") (d d' : Option ℤ) :
    fromCodeName lib name d = fromCodeName lib name d' := by
  simp only [fromCodeName, lookupName, if_neg hname]

example : "steane" ≠ "surface" := by decide

end Verif.Named
