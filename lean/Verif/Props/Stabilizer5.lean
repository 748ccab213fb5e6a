import Verif.Props.Stabilizer4
import Verif.Spec.PauliGroup

/-!
# Property C58: equality of stabilizer codes versus equality of the stabilizer groups
-/

namespace Verif.Stab
open Verif Verif.Spec

/-- C58, full claim: codes built from strings compare equal exactly when the signed Pauli groups
generated by the strings are the same. -/
def EqualIffSameGroup : Prop :=
  ∀ (l l' : List Str) (c c' : Code), mkCode (.strs l) none none none = .ok c →
    mkCode (.strs l') none none none = .ok c' → c.n = c'.n →
    (codeEq c c' = .ok true ↔ ∀ p, Generated c.n l p ↔ Generated c.n l' p)

/-- The group generated by XX and ZZ, listed. -/
theorem generated_closed {n : ℕ} {l : List Str} {S : List PauliOp}
    (h1 : ⟨0, List.replicate n 'I'⟩ ∈ S) (h2 : ∀ g ∈ l, ∀ p ∈ S, (opOf g).mul p ∈ S)
    {p : PauliOp} (hp : Generated n l p) : p ∈ S := by
  induction hp with
  | one => exact h1
  | mul g p hg _ ih => exact h2 g hg p ih

/-- C58 is violated: {XX, ZZ} and {XX, YY} compare equal although the first group contains -YY
and the second one contains YY. -/
theorem C58_violated_sound : ∃ l l' c c', mkCode (.strs l) none none none = .ok c ∧
    mkCode (.strs l') none none none = .ok c' ∧ c.n = c'.n ∧ codeEq c c' = .ok true ∧
    ¬ ∀ p, Generated c.n l p ↔ Generated c.n l' p := by
  refine ⟨["XX".toList, "ZZ".toList], ["XX".toList, "YY".toList], _, _, rfl, rfl, rfl, by decide, ?_⟩
  intro h
  have h1 : Generated 2 ["XX".toList, "YY".toList] ⟨0, "YY".toList⟩ := by
    have := Generated.mul (l := ["XX".toList, "YY".toList]) "YY".toList _ (by simp) (Generated.one (n := 2))
    exact this
  have h2 := (h ⟨0, "YY".toList⟩).2 h1
  have h3 := generated_closed (S := [⟨0, "II".toList⟩, ⟨0, "XX".toList⟩, ⟨0, "ZZ".toList⟩, ⟨2, "YY".toList⟩])
    (by decide) (by decide) h2
  revert h3; decide

/-- C58 is violated in the other direction too: {+XX, +ZZ} and {+XX, -YY} generate the same group
but compare different. -/
theorem C58_violated_complete : ∃ l l' c c', mkCode (.strs l) none none none = .ok c ∧
    mkCode (.strs l') none none none = .ok c' ∧ c.n = c'.n ∧ codeEq c c' = .ok false ∧
    ∀ p, Generated c.n l p ↔ Generated c.n l' p := by
  refine ⟨["+XX".toList, "+ZZ".toList], ["+XX".toList, "-YY".toList], _, _, rfl, rfl, rfl, by decide, ?_⟩
  have key : ∀ l : List Str, (∀ p ∈ ([⟨0, "II".toList⟩, ⟨0, "XX".toList⟩, ⟨0, "ZZ".toList⟩,
      ⟨2, "YY".toList⟩] : List PauliOp), Generated 2 l p) →
      (∀ g ∈ l, ∀ p ∈ ([⟨0, "II".toList⟩, ⟨0, "XX".toList⟩, ⟨0, "ZZ".toList⟩,
      ⟨2, "YY".toList⟩] : List PauliOp), (opOf g).mul p ∈ ([⟨0, "II".toList⟩, ⟨0, "XX".toList⟩,
        ⟨0, "ZZ".toList⟩, ⟨2, "YY".toList⟩] : List PauliOp)) →
      ∀ p, Generated 2 l p ↔ p ∈ ([⟨0, "II".toList⟩, ⟨0, "XX".toList⟩, ⟨0, "ZZ".toList⟩,
      ⟨2, "YY".toList⟩] : List PauliOp) :=
    fun l h1 h2 p => ⟨fun hp => generated_closed (by decide) h2 hp, h1 p⟩
  intro p
  refine Iff.trans (key ["+XX".toList, "+ZZ".toList] ?_ (by decide) p)
    (key ["+XX".toList, "-YY".toList] ?_ (by decide) p).symm
  · have g0 := Generated.one (n := 2) (l := ["+XX".toList, "+ZZ".toList])
    have g1 := Generated.mul "+XX".toList _ (by simp) g0
    have g2 := Generated.mul "+ZZ".toList _ (by simp) g0
    have g3 := Generated.mul "+ZZ".toList _ (by simp) g1
    intro p hp
    simp only [List.mem_cons, List.not_mem_nil, or_false] at hp
    rcases hp with rfl | rfl | rfl | rfl
    · exact g0
    · exact g1
    · exact g2
    · exact g3
  · have g0 := Generated.one (n := 2) (l := ["+XX".toList, "-YY".toList])
    have g1 := Generated.mul "+XX".toList _ (by simp) g0
    have g2 := Generated.mul "-YY".toList _ (by simp) g0
    have g3 := Generated.mul "-YY".toList _ (by simp) g1
    intro p hp
    simp only [List.mem_cons, List.not_mem_nil, or_false] at hp
    rcases hp with rfl | rfl | rfl | rfl
    · exact g0
    · exact g1
    · exact g3
    · exact g2

theorem C58_violated : ¬ EqualIffSameGroup := by
  intro h
  obtain ⟨l, l', c, c', h1, h2, h3, h4, h5⟩ := C58_violated_sound
  exact h5 ((h l l' c c' h1 h2 h3).1 h4)

/-! ### Up to phase, equality is sound -/

/-- The phaseless binary vector of a letter string. -/
def uvec (n : ℕ) (p : Str) : Vec n × Vec n :=
  (fun i => sx (p.getD i 'I'), fun i => sz (p.getD i 'I'))

theorem sx_mul {a b : Char} (ha : a ∈ letters) (hb : b ∈ letters) :
    sx (mulLetter a b) = sx a + sx b ∧ sz (mulLetter a b) = sz a + sz b := by
  simp only [letters, List.mem_cons, List.not_mem_nil, or_false] at ha hb
  rcases ha with rfl | rfl | rfl | rfl <;> rcases hb with rfl | rfl | rfl | rfl <;> decide

theorem letters_inj {a b : Char} (ha : a ∈ letters) (hb : b ∈ letters) (h1 : sx a = sx b)
    (h2 : sz a = sz b) : a = b := by
  have := letterOf_ind ha
  rw [← this, ← letterOf_ind hb]
  unfold sx at h1
  unfold sz at h2
  rw [h1, h2]

theorem getD_mem_letters {p : Str} (hp : ∀ c ∈ p, c ∈ letters) (i : ℕ) : p.getD i 'I' ∈ letters := by
  rw [List.getD_eq_getElem?_getD]
  cases h : p[i]? with
  | none => decide
  | some c => exact hp c (List.mem_of_getElem? h)

theorem uvec_mul {n : ℕ} {p q : Str} (hp : ∀ c ∈ p, c ∈ letters) (hq : ∀ c ∈ q, c ∈ letters)
    (hpn : p.length = n) (hqn : q.length = n) :
    uvec n (List.zipWith mulLetter p q) = uvec n p + uvec n q := by
  have key : ∀ i : Fin n, (List.zipWith mulLetter p q).getD i 'I'
      = mulLetter (p.getD i 'I') (q.getD i 'I') := by
    intro i
    have h1 : i.val < p.length := by omega
    have h2 : i.val < q.length := by omega
    simp [List.getD_eq_getElem?_getD, h1, h2]
  refine Prod.ext ?_ ?_ <;> funext i
  · simp only [uvec, Prod.fst_add, Pi.add_apply, key]
    exact (sx_mul (getD_mem_letters hp i) (getD_mem_letters hq i)).1
  · simp only [uvec, Prod.snd_add, Pi.add_apply, key]
    exact (sx_mul (getD_mem_letters hp i) (getD_mem_letters hq i)).2

theorem uvec_replicate (n : ℕ) : uvec n (List.replicate n 'I') = 0 := by
  refine Prod.ext ?_ ?_ <;> funext i
  · have : (List.replicate n 'I').getD i 'I' = 'I' := by simp [List.getD_eq_getElem?_getD]
    simp only [uvec, this]; rfl
  · have : (List.replicate n 'I').getD i 'I' = 'I' := by simp [List.getD_eq_getElem?_getD]
    simp only [uvec, this]; rfl

theorem uvec_inj {n : ℕ} {p q : Str} (hp : ∀ c ∈ p, c ∈ letters) (hq : ∀ c ∈ q, c ∈ letters)
    (hpn : p.length = n) (hqn : q.length = n) (h : uvec n p = uvec n q) : p = q := by
  apply List.ext_getElem (by omega)
  intro i h1 h2
  have e1 := congrFun (congrArg Prod.fst h) ⟨i, by omega⟩
  have e2 := congrFun (congrArg Prod.snd h) ⟨i, by omega⟩
  simp only [uvec, List.getD_eq_getElem?_getD, List.getElem?_eq_getElem h1,
    List.getElem?_eq_getElem h2, Option.getD_some] at e1 e2
  exact letters_inj (hp _ (List.getElem_mem _)) (hq _ (List.getElem_mem _)) e1 e2

theorem genUTP_mono {n : ℕ} {g : Str} {l : List Str} {p : Str} (h : GeneratedUpToPhase n l p) :
    GeneratedUpToPhase n (g :: l) p := by
  induction h with
  | one => exact .one
  | mul g' p hg _ ih => exact .mul g' p (by simp [hg]) ih

theorem genUTP_props {n : ℕ} {l : List Str} (hl : ∀ s ∈ l, ValidStr s)
    (hn : ∀ s ∈ l, (body s).length = n) {p : Str} (h : GeneratedUpToPhase n l p) :
    (∀ c ∈ p, c ∈ letters) ∧ p.length = n ∧ uvec n p ∈ rowSpan (l.map fun s => uvec n (body s)) := by
  induction h with
  | one =>
    refine ⟨?_, by simp, ?_⟩
    · intro c hc; rw [List.eq_of_mem_replicate hc]; decide
    · rw [uvec_replicate]; exact Submodule.zero_mem _
  | mul g p hg _ ih =>
    obtain ⟨h1, h2, h3⟩ := ih
    refine ⟨zipWith_mulLetter_mem (body_letters (hl g hg)) h1, by simp [hn g hg, h2], ?_⟩
    rw [uvec_mul (body_letters (hl g hg)) h1 (hn g hg) h2]
    exact Submodule.add_mem _ (mem_rowSpan_of_mem (List.mem_map_of_mem hg)) h3

theorem genUTP_of_mem {n : ℕ} {l : List Str} (hl : ∀ s ∈ l, ValidStr s)
    (hn : ∀ s ∈ l, (body s).length = n) {v : Vec n × Vec n}
    (h : v ∈ rowSpan (l.map fun s => uvec n (body s))) :
    ∃ p, GeneratedUpToPhase n l p ∧ uvec n p = v := by
  induction l generalizing v with
  | nil =>
    refine ⟨_, .one, ?_⟩
    rw [uvec_replicate]
    rw [List.map_nil, rowSpan_nil, Submodule.mem_bot] at h
    exact h.symm
  | cons s l ih =>
    rw [List.map_cons, mem_rowSpan_cons] at h
    have hl' : ∀ s ∈ l, ValidStr s := fun t ht => hl t (by simp [ht])
    have hn' : ∀ s ∈ l, (body s).length = n := fun t ht => hn t (by simp [ht])
    rcases h with h | h
    · obtain ⟨p, h1, h2⟩ := ih hl' hn' h
      exact ⟨p, genUTP_mono h1, h2⟩
    · obtain ⟨p, h1, h2⟩ := ih hl' hn' h
      have hp := genUTP_props hl' hn' h1
      refine ⟨_, .mul s p (by simp) (genUTP_mono h1), ?_⟩
      rw [uvec_mul (body_letters (hl s (by simp))) hp.1 (hn s (by simp)) hp.2.1, h2, add_comm,
        add_add_cancel']

theorem genUTP_iff {n : ℕ} {l : List Str} (hl : ∀ s ∈ l, ValidStr s)
    (hn : ∀ s ∈ l, (body s).length = n) (p : Str) :
    GeneratedUpToPhase n l p ↔ (∀ c ∈ p, c ∈ letters) ∧ p.length = n ∧
      uvec n p ∈ rowSpan (l.map fun s => uvec n (body s)) := by
  refine ⟨genUTP_props hl hn, fun ⟨h1, h2, h3⟩ => ?_⟩
  obtain ⟨q, hq1, hq2⟩ := genUTP_of_mem hl hn h3
  have hq := genUTP_props hl hn hq1
  rw [uvec_inj h1 hq.1 h2 hq.2.1 hq2.symm]
  exact hq1

theorem proj_vecOf {n : ℕ} {s : Str} (hsn : (body s).length = n) :
    proj n (vecOf n s) = uvec n (body s) := by
  refine Prod.ext ?_ ?_ <;> funext i
  · have := getElem_binRow_x s i (by omega)
    simp only [uvec, List.getD_eq_getElem?_getD,
      List.getElem?_eq_getElem (show i.val < (body s).length by omega), Option.getD_some]
    rw [← this]; rfl
  · have := getElem_binRow_z s i (by omega)
    simp only [uvec, List.getD_eq_getElem?_getD,
      List.getElem?_eq_getElem (show i.val < (body s).length by omega), Option.getD_some]
    rw [← this, hsn]; rfl

/-- C58 (partial: the claim holds only up to phases): codes that compare equal generate the same
operators up to phase. -/
theorem C58_same_group_up_to_phase_partial (l l' : List Str) (d d' : Option ℤ)
    (lz lx lz' lx' : Option Paulis) (c c' : Code)
    (h : mkCode (.strs l) d lz lx = .ok c) (h' : mkCode (.strs l') d' lz' lx' = .ok c')
    (hn : c.n = c'.n) (heq : codeEq c c' = .ok true) (p : Str) :
    GeneratedUpToPhase c.n l p ↔ GeneratedUpToPhase c.n l' p := by
  obtain ⟨r, h1, h2⟩ := C03_eq_iff_same_span c c' ⟨l, d, lz, lx, h⟩ ⟨l', d', lz', lx', h'⟩ hn
  rw [heq] at h1; cases h1
  have hspan := h2.1 rfl
  obtain ⟨-, hv, hln, hg, -⟩ := mkCode_strs h
  obtain ⟨-, hv', hln', hg', -⟩ := mkCode_strs h'
  rw [← hn] at hln'
  have key : ∀ (ls : List Str), (∀ s ∈ ls, (body s).length = c.n) →
      rowSpan (ls.map fun s => uvec c.n (body s))
        = (rowSpan ((ls.map binRow).map (toVec (2 * c.n + 1)))).map (proj c.n) := by
    intro ls hls
    rw [rowSpan, rowSpan, Submodule.map_span]
    congr 1
    ext v
    simp only [Set.mem_setOf_eq, List.mem_map, Set.mem_image]
    constructor
    · rintro ⟨s, hs, rfl⟩
      exact ⟨vecOf c.n s, ⟨binRow s, ⟨s, hs, rfl⟩, rfl⟩, proj_vecOf (hls s hs)⟩
    · rintro ⟨w, ⟨_, ⟨s, hs, rfl⟩, rfl⟩, rfl⟩
      exact ⟨s, hs, (proj_vecOf (hls s hs)).symm⟩
  rw [genUTP_iff hv hln, genUTP_iff hv' hln', key l hln, key l' hln', ← hg, ← hg']
  change _ ∧ _ ∧ _ ∈ Submodule.map _ (signedSpan c c.n) ↔ _ ∧ _ ∧ _ ∈ Submodule.map _ (signedSpan c' c.n)
  rw [hspan]

example : ∃ c c', mkCode (.strs ["+XX".toList, "-ZZ".toList]) none none none = .ok c ∧
    mkCode (.strs ["-ZZ".toList, "-YY".toList]) none none none = .ok c' ∧ c.n = c'.n ∧
    codeEq c c' = .ok true := ⟨_, _, rfl, rfl, rfl, by decide⟩

end Verif.Stab
