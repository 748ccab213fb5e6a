import Verif.Model.Verification
import Verif.Props.Faults
import Verif.Props.Search
import Verif.Lemmas.Symbolic

/-! # C32, C33, C68: verification stabilizers -/

namespace Verif.SP
open Verif Verif.Spec
variable {n : ℕ}

/-- Iteration over a Python set visits exactly its elements. -/
def OrdOk (ord : List CSet → List CSet) : Prop := ∀ l, (ord l).Perm l

/-- Measuring `ms` reveals every fault: some measured stabilizer anticommutes with it. -/
def Detects (ms faults : List (Vec n)) : Prop := ∀ f ∈ faults, ∃ m ∈ ms, dot m f = 1

theorem bestCand_spec (mp : Mapping n) (uni : CSet) (l : List CSet) :
    (bestCand mp uni l = none ↔ l = []) ∧
    ∀ b, bestCand mp uni l = some b → b ∈ l ∧ ∀ c ∈ l, (c ∩ uni).card ≤ (b ∩ uni).card := by
  induction l with
  | nil => simp [bestCand]
  | cons x l ih =>
    constructor
    · simp only [bestCand]; split
      · simp
      · split <;> simp
    · intro b hb
      simp only [bestCand] at hb
      split at hb
      · next h =>
        have : l = [] := ih.1.1 h
        subst this
        cases hb
        simp
      · next d h =>
        obtain ⟨hd, hmax⟩ := ih.2 d h
        split at hb
        · next hc =>
          cases hb
          refine ⟨by simp, ?_⟩
          intro c hc'
          rcases List.mem_cons.1 hc' with rfl | hc'
          · exact le_rfl
          · have := hmax c hc'; omega
        · next hc =>
          cases hb
          refine ⟨by simp [hd], ?_⟩
          intro c hc'
          rcases List.mem_cons.1 hc' with rfl | hc'
          · push Not at hc; exact hc.1
          · exact hmax c hc'

theorem setCoverLoop_sound (ord : List CSet → List CSet) (ho : OrdOk ord) (cands : List CSet) (mp : Mapping n)
    (k : ℕ) (uni : CSet) (cover res : List CSet) (hsub : ∀ c ∈ cover, c ∈ cands)
    (h : setCoverLoop ord cands mp k uni cover = .ok res) :
    (∀ c ∈ res, c ∈ cands) ∧ (∀ c ∈ cover, c ∈ res) ∧ ∀ i ∈ uni, ∃ c ∈ res, i ∈ c := by
  induction k generalizing uni cover with
  | zero => simp [setCoverLoop] at h
  | succ k ih =>
    rw [setCoverLoop] at h
    split at h
    · next hu =>
      cases h
      exact ⟨hsub, fun c hc => hc, by rw [hu]; simp⟩
    · split at h
      · simp at h
      · next best hb =>
        have hbm := (ho cands).mem_iff.1 ((bestCand_spec mp uni (ord cands)).2 best hb).1
        have hin : best ∈ (if best ∈ cover then cover else cover ++ [best]) := by split <;> simp [*]
        obtain ⟨h1, h2, h3⟩ := ih (uni \ best) _ (by
          intro c hc
          split at hc
          · exact hsub c hc
          · rcases List.mem_append.1 hc with hc | hc
            · exact hsub c hc
            · rw [List.mem_singleton.1 hc]; exact hbm) h
        refine ⟨h1, ?_, ?_⟩
        · intro c hc
          apply h2
          split
          · exact hc
          · simp [hc]
        · intro i hi
          by_cases hib : i ∈ best
          · exact ⟨best, h2 _ hin, hib⟩
          · exact h3 i (by simp [hi, hib])

theorem setCoverLoop_ends (ord : List CSet → List CSet) (ho : OrdOk ord) (cands : List CSet) (mp : Mapping n)
    (uni : CSet) (hcov : ∀ i ∈ uni, ∃ c ∈ cands, i ∈ c) (cover : List CSet) :
    ∃ res, ∀ fuel > uni.card, setCoverLoop ord cands mp fuel uni cover = .ok res := by
  induction hm : uni.card using Nat.strong_induction_on generalizing uni cover with
  | _ m ih =>
    by_cases hu : uni = ∅
    · refine ⟨cover, ?_⟩
      intro fuel hf
      obtain ⟨k, rfl⟩ : ∃ k, fuel = k + 1 := ⟨fuel - 1, by omega⟩
      rw [setCoverLoop, if_pos hu]
    · obtain ⟨i, hi⟩ := Finset.nonempty_iff_ne_empty.2 hu
      obtain ⟨c, hc, hic⟩ := hcov i hi
      have hspec := bestCand_spec mp uni (ord cands)
      cases hb : bestCand mp uni (ord cands) with
      | none =>
        have := hspec.1.1 hb
        have hcm := (ho cands).mem_iff.2 hc
        rw [this] at hcm
        simp at hcm
      | some best =>
        have hmax := (hspec.2 best hb).2 c ((ho cands).mem_iff.2 hc)
        have hpos : 0 < (c ∩ uni).card := Finset.card_pos.2 ⟨i, by simp [hi, hic]⟩
        have hlt : (uni \ best).card < m := by
          have := Finset.card_sdiff_add_card_inter uni best
          have e : best ∩ uni = uni ∩ best := Finset.inter_comm best uni
          rw [e] at hmax
          omega
        obtain ⟨res, hres⟩ := ih _ hlt (uni \ best) (fun i hi => hcov i (Finset.sdiff_subset hi))
          (if best ∈ cover then cover else cover ++ [best]) rfl
        refine ⟨res, ?_⟩
        intro fuel hf
        obtain ⟨k, rfl⟩ : ∃ k, fuel = k + 1 := ⟨fuel - 1, by omega⟩
        rw [setCoverLoop, if_neg hu, hb]
        exact hres k (by omega)

/-- If the greedy set cover ends, its sets are candidates and together contain every element. -/
theorem C32_set_cover (ord : List CSet → List CSet) (ho : OrdOk ord) (fuel nf : ℕ) (cands : List CSet)
    (mp : Mapping n) (cover : List CSet) (h : setCover ord fuel nf cands mp = .ok cover) :
    (∀ c ∈ cover, c ∈ cands) ∧ ∀ i < nf, ∃ c ∈ cover, i ∈ c := by
  obtain ⟨h1, -, h3⟩ := setCoverLoop_sound ord ho cands mp fuel _ [] cover (by simp) h
  exact ⟨h1, fun i hi => h3 i (Finset.mem_range.2 hi)⟩

/-- It ends, after at most `nf + 1` tests, exactly when the candidates cover everything. -/
theorem C32_set_cover_ends (ord : List CSet → List CSet) (ho : OrdOk ord) (nf : ℕ) (cands : List CSet)
    (mp : Mapping n) :
    (∃ fuel cover, setCover ord fuel nf cands mp = .ok cover) ↔ ∀ i < nf, ∃ c ∈ cands, i ∈ c := by
  constructor
  · rintro ⟨fuel, cover, h⟩ i hi
    obtain ⟨h1, h2⟩ := C32_set_cover ord ho fuel nf cands mp cover h
    obtain ⟨c, hc, hic⟩ := h2 i hi
    exact ⟨c, h1 c hc, hic⟩
  · intro h
    obtain ⟨res, hres⟩ := setCoverLoop_ends ord ho cands mp (Finset.range nf)
      (fun i hi => h i (Finset.mem_range.1 hi)) []
    exact ⟨nf + 1, res, hres (nf + 1) (by simp)⟩

example : setCover (n := 1) id 5 3 [{0, 1}, {1, 2}, {2}] (fun _ => []) = .ok [{0, 1}, {1, 2}] := by decide

/-! ### The heuristic layer -/

theorem covers_add (s1 s2 : Vec n) (faults : List (Vec n)) :
    covers (s1 + s2) faults = symmDiff (covers s1 faults) (covers s2 faults) := by
  ext i
  simp only [covers, Finset.mem_filter, Finset.mem_symmDiff, dot_add_left]
  rcases zmod2_cases (dot s1 (faults.getD i 0)) with h | h <;>
    rcases zmod2_cases (dot s2 (faults.getD i 0)) with h' | h' <;> rw [h, h'] <;>
    simp [show (1 : ZMod 2) + 1 = 0 from by decide]

/-- Mapping invariant. -/
structure MapOk (faults checks : List (Vec n)) (cands : List CSet) (mp : Mapping n) : Prop where
  good : ∀ c, ∀ s ∈ mp c, covers s faults = c ∧ s ∈ rowSpan checks
  ne : ∀ c ∈ cands, mp c ≠ []

theorem extStep_ok (faults checks : List (Vec n)) (cands : List CSet) (limit : ℕ) (c1 c2 : CSet) (h1 : c1 ∈ cands)
    (h2 : c2 ∈ cands) (st : ExtState n) (h : MapOk faults checks (cands ++ st.toAdd) st.mp) :
    MapOk faults checks (cands ++ (extStep cands limit c1 st c2).toAdd) (extStep cands limit c1 st c2).mp := by
  unfold extStep
  split
  · exact h
  · simp only
    split
    · exact h
    · next hlim hc =>
      push Not at hc
      constructor
      · intro c s hs
        simp only [Function.update_apply] at hs
        split at hs
        · next he =>
          subst he
          rcases List.mem_append.1 hs with hs | hs
          · exact h.good _ s hs
          · obtain ⟨s1, hs1, hs⟩ := List.mem_flatMap.1 hs
            obtain ⟨s2, hs2, rfl⟩ := List.mem_map.1 hs
            have g1 := h.good _ _ hs1
            have g2 := h.good _ _ hs2
            exact ⟨by rw [covers_add, g1.1, g2.1], Submodule.add_mem _ g1.2 g2.2⟩
        · exact h.good _ s hs
      · intro c hcm
        simp only [Function.update_apply]
        split
        · intro hnil
          obtain ⟨-, hnil⟩ := List.append_eq_nil_iff.1 hnil
          obtain ⟨s1, hs1⟩ := List.exists_mem_of_ne_nil _ (h.ne c1 (by simp [h1]))
          obtain ⟨s2, hs2⟩ := List.exists_mem_of_ne_nil _ (h.ne c2 (by simp [h2]))
          have : s1 + s2 ∈ (st.mp c1).flatMap fun s1 => (st.mp c2).map fun s2 => s1 + s2 :=
            List.mem_flatMap.2 ⟨s1, hs1, List.mem_map.2 ⟨s2, hs2, rfl⟩⟩
          rw [hnil] at this
          simp at this
        · next hne =>
          apply h.ne
          simp only [← List.append_assoc, List.mem_append, List.mem_singleton] at hcm ⊢
          tauto

theorem extendSets_ok (ord : List CSet → List CSet) (ho : OrdOk ord) (faults checks : List (Vec n))
    (cands : List CSet) (limit : ℕ) (mp : Mapping n) (h : MapOk faults checks cands mp) :
    (∀ c ∈ cands, c ∈ (extendSets ord cands limit mp).1) ∧
    MapOk faults checks (extendSets ord cands limit mp).1 (extendSets ord cands limit mp).2 := by
  unfold extendSets
  refine ⟨fun c hc => by simp [hc], ?_⟩
  have hmem : ∀ c ∈ ord cands, c ∈ cands := fun c hc => (ho cands).mem_iff.1 hc
  have inner : ∀ (l : List CSet), (∀ c ∈ l, c ∈ cands) → ∀ c1 ∈ cands, ∀ st : ExtState n,
      MapOk faults checks (cands ++ st.toAdd) st.mp →
      MapOk faults checks (cands ++ (l.foldl (fun st c2 => extStep cands limit c1 st c2) st).toAdd)
        (l.foldl (fun st c2 => extStep cands limit c1 st c2) st).mp := by
    intro l
    induction l with
    | nil => intro _ c1 _ st hst; exact hst
    | cons x l ih =>
      intro hl c1 hc1 st hst
      exact ih (fun c hc => hl c (by simp [hc])) c1 hc1 _
        (extStep_ok faults checks cands limit c1 x hc1 (hl x (by simp)) st hst)
  have outer : ∀ (l : List CSet), (∀ c ∈ l, c ∈ cands) → ∀ st : ExtState n,
      MapOk faults checks (cands ++ st.toAdd) st.mp →
      MapOk faults checks (cands ++ (l.foldl (fun st c1 => (ord cands).foldl
        (fun st c2 => extStep cands limit c1 st c2) st) st).toAdd)
        (l.foldl (fun st c1 => (ord cands).foldl (fun st c2 => extStep cands limit c1 st c2) st) st).mp := by
    intro l
    induction l with
    | nil => intro _ st hst; exact hst
    | cons x l ih =>
      intro hl st hst
      exact ih (fun c hc => hl c (by simp [hc])) _ (inner (ord cands) hmem x (hl x (by simp)) st hst)
  exact outer (ord cands) hmem { toRemove := [], toAdd := [], mp := mp } (by simpa using h)

/-- What the loop over ever larger candidate sets maintains. -/
theorem improveLoop_sound (ord : List CSet → List CSet) (ho : OrdOk ord) (faults checks : List (Vec n))
    (nf limit : ℕ) (k : ℕ) (cands : List CSet) (mp : Mapping n) (cover : List CSet) (cost : ℕ × ℕ)
    (hm : MapOk faults checks cands mp) (hsub : ∀ c ∈ cover, c ∈ cands)
    (hcov : ∀ i < nf, ∃ c ∈ cover, i ∈ c) (res : List CSet × Mapping n)
    (h : improveLoop ord nf limit k cands mp cover cost = .ok res) :
    MapOk faults checks res.1 res.2 ∧ ∀ i < nf, ∃ c ∈ res.1, i ∈ c := by
  induction k generalizing cands mp cover cost with
  | zero => simp [improveLoop] at h
  | succ k ih =>
    rw [improveLoop] at h
    split at h
    · cases h
      exact ⟨⟨hm.good, fun c hc => hm.ne c (hsub c hc)⟩, hcov⟩
    · obtain ⟨he1, he2⟩ := extendSets_ok ord ho faults checks cands limit mp hm
      simp only at h
      split at h
      · simp at h
      · simp at h
      · next new hnew =>
        obtain ⟨hn1, hn2⟩ := C32_set_cover ord ho k nf _ _ new hnew
        split at h
        · exact ih _ _ _ _ he2 hn1 hn2 h
        · cases h
          exact ⟨⟨he2.good, fun c hc => he2.ne c (he1 c (hsub c hc))⟩, hcov⟩

theorem improveLoop_ends (ord : List CSet → List CSet) (ho : OrdOk ord) (faults checks : List (Vec n))
    (nf limit : ℕ) (cands : List CSet) (mp : Mapping n) (cover : List CSet) (cost : ℕ × ℕ)
    (hm : MapOk faults checks cands mp) (hcov : ∀ i < nf, ∃ c ∈ cands, i ∈ c) :
    ∃ N res, ∀ fuel ≥ N, improveLoop ord nf limit fuel cands mp cover cost = .ok res := by
  have wf : WellFounded (Prod.Lex (· < ·) (· < ·) : ℕ × ℕ → ℕ × ℕ → Prop) :=
    WellFounded.prod_lex Nat.lt_wfRel.wf Nat.lt_wfRel.wf
  induction cost using wf.induction generalizing cands mp cover with
  | _ cost ih =>
    by_cases hl : limit ≤ cands.length
    · refine ⟨1, (cover, mp), ?_⟩
      intro fuel hf
      obtain ⟨k, rfl⟩ : ∃ k, fuel = k + 1 := ⟨fuel - 1, by omega⟩
      rw [improveLoop, if_pos hl]
    · obtain ⟨he1, he2⟩ := extendSets_ok ord ho faults checks cands limit mp hm
      have hcov' : ∀ i < nf, ∃ c ∈ (extendSets ord cands limit mp).1, i ∈ c := by
        intro i hi
        obtain ⟨c, hc, hic⟩ := hcov i hi
        exact ⟨c, he1 c hc, hic⟩
      obtain ⟨new, hnew⟩ := setCoverLoop_ends ord ho (extendSets ord cands limit mp).1
        (extendSets ord cands limit mp).2 (Finset.range nf) (fun i hi => hcov' i (Finset.mem_range.1 hi)) []
      rw [Finset.card_range] at hnew
      by_cases hb : new.length < cost.1 ∨ (new.length = cost.1 ∧
          (new.map fun c => sumAll ((extendSets ord cands limit mp).2 c)).sum < cost.2)
      · obtain ⟨N, res, hN⟩ := ih (new.length, (new.map fun c => sumAll ((extendSets ord cands limit mp).2 c)).sum)
          (by
            obtain ⟨a, b⟩ := cost
            rcases hb with hb | ⟨hb, hb'⟩
            · exact Prod.Lex.left _ _ hb
            · simp only at hb hb'
              rw [hb]
              exact Prod.Lex.right _ hb') _ _ new he2 hcov'
        refine ⟨max N (nf + 1) + 1, res, ?_⟩
        intro fuel hf
        obtain ⟨k, rfl⟩ : ∃ k, fuel = k + 1 := ⟨fuel - 1, by omega⟩
        rw [improveLoop, if_neg hl]
        have hs : setCover ord k nf (extendSets ord cands limit mp).1 (extendSets ord cands limit mp).2 = .ok new :=
          hnew k (by omega)
        simp only [hs]
        rw [if_pos hb]
        exact hN k (by omega)
      · refine ⟨nf + 2, (cover, (extendSets ord cands limit mp).2), ?_⟩
        intro fuel hf
        obtain ⟨k, rfl⟩ : ∃ k, fuel = k + 1 := ⟨fuel - 1, by omega⟩
        rw [improveLoop, if_neg hl]
        have hs : setCover ord k nf (extendSets ord cands limit mp).1 (extendSets ord cands limit mp).2 = .ok new :=
          hnew k (by omega)
        simp only [hs]
        rw [if_neg hb]

theorem lightest_mem (l : List (Vec n)) : (lightest l = none ↔ l = []) ∧
    ∀ v, lightest l = some v → v ∈ l ∧ ∀ w ∈ l, wt v ≤ wt w := by
  induction l with
  | nil => simp [lightest]
  | cons x l ih =>
    constructor
    · simp only [lightest]; split
      · simp
      · split <;> simp
    · intro v hv
      simp only [lightest] at hv
      split at hv
      · next h =>
        have : l = [] := ih.1.1 h
        subst this; cases hv; simp
      · next d h =>
        obtain ⟨hd, hmin⟩ := ih.2 d h
        split at hv
        · next hc =>
          cases hv
          refine ⟨by simp, ?_⟩
          intro w hw
          rcases List.mem_cons.1 hw with rfl | hw
          · exact le_rfl
          · exact le_trans hc (hmin w hw)
        · next hc =>
          cases hv
          refine ⟨by simp [hd], ?_⟩
          intro w hw
          rcases List.mem_cons.1 hw with rfl | hw
          · omega
          · exact hmin w hw

theorem initMapping_ok (faults checks cand : List (Vec n)) (hsub : ∀ s ∈ cand, s ∈ checks) :
    MapOk faults checks (cand.map fun s => covers s faults).dedup (initMapping faults cand) := by
  constructor
  · intro c s hs
    simp only [initMapping, List.mem_filter, decide_eq_true_eq] at hs
    exact ⟨hs.2, mem_rowSpan_of_mem (hsub s hs.1)⟩
  · intro c hc hnil
    rw [List.mem_dedup, List.mem_map] at hc
    obtain ⟨s, hs, rfl⟩ := hc
    have : s ∈ initMapping faults cand (covers s faults) := by simp [initMapping, hs]
    rw [hnil] at this
    simp at this

theorem mem_covers_iff (s : Vec n) (faults : List (Vec n)) (i : ℕ) (hi : i < faults.length) :
    i ∈ covers s faults ↔ dot s faults[i] = 1 := by
  simp only [covers, Finset.mem_filter, Finset.mem_range, hi, true_and, List.getD_eq_getElem?_getD,
    List.getElem?_eq_getElem hi, Option.getD_some]
  rcases zmod2_cases (dot s faults[i]) with h | h <;> rw [h] <;> simp

theorem dot_leader (leader : Vec n → List (Vec n) → Vec n) (noncand : List (Vec n))
    (hl : ∀ m, CosetLeader m noncand (leader m noncand)) (f : Vec n) (hf : ∀ s ∈ noncand, dot s f = 0) (m : Vec n) :
    dot (leader m noncand) f = dot m f := by
  obtain ⟨he, -⟩ := C25_coset_leader m noncand _ (hl m)
  unfold Equivalent at he
  have h0 : dot f (m + leader m noncand) = 0 :=
    dot_eq_zero_of_mem_rowSpan (rows := noncand) (v := f) (fun r hr => hf r hr) he |> fun h => by rwa [dot_comm]
  rw [dot_comm, dot_add_left] at h0
  rcases zmod2_cases (dot m f) with h | h <;> rcases zmod2_cases (dot (leader m noncand) f) with h' | h' <;>
    rw [h, h'] at h0 <;> rw [h, h']
  · exact absurd h0 (by decide)
  · exact absurd h0 (by decide)

theorem mapM_some_forall {α β : Type} (f : α → Option β) (P : α → β → Prop)
    (h : ∀ a b, f a = some b → P a b) (l : List α) (r : List β) (hr : l.mapM f = some r) :
    (∀ a ∈ l, ∃ b ∈ r, P a b) ∧ ∀ b ∈ r, ∃ a ∈ l, P a b := by
  induction l generalizing r with
  | nil => simp at hr; subst hr; simp
  | cons x l ih =>
    rw [List.mapM_cons] at hr
    simp only [Option.bind_eq_bind, Option.bind_eq_some_iff, Option.pure_def, Option.some.injEq] at hr
    obtain ⟨b, hb, r', hr', rfl⟩ := hr
    obtain ⟨h1, h2⟩ := ih r' hr'
    constructor
    · intro a ha
      rcases List.mem_cons.1 ha with rfl | ha
      · exact ⟨b, by simp, h _ _ hb⟩
      · obtain ⟨b', hb', hp⟩ := h1 a ha
        exact ⟨b', by simp [hb'], hp⟩
    · intro y hy
      rcases List.mem_cons.1 hy with rfl | hy
      · exact ⟨x, by simp, h _ _ hb⟩
      · obtain ⟨a, ha, hp⟩ := h2 y hy
        exact ⟨a, by simp [ha], hp⟩

theorem mapM_exists {α β : Type} (f : α → Option β) (l : List α) (h : ∀ a ∈ l, ∃ b, f a = some b) :
    ∃ r, l.mapM f = some r := by
  induction l with
  | nil => exact ⟨[], rfl⟩
  | cons x l ih =>
    obtain ⟨b, hb⟩ := h x (by simp)
    obtain ⟨r, hr⟩ := ih fun a ha => h a (by simp [ha])
    exact ⟨b :: r, by rw [List.mapM_cons, hb, hr]; rfl⟩

/-- Whenever the heuristic returns measurements for a layer, they are stabilizers (sums of the given
checks) and every fault anticommutes with one of them — for every iteration order of Python sets,
with or without coset leaders, for every limit on the number of candidate sets. -/
theorem C32_layer_sound (ord : List CSet → List CSet) (ho : OrdOk ord) (leader : Vec n → List (Vec n) → Vec n)
    (hl : ∀ m gens, CosetLeader m gens (leader m gens)) (faults checks : List (Vec n)) (findLeaders : Bool)
    (limit fuel : ℕ) (ms : List (Vec n)) (h : heuristicLayer ord leader faults checks findLeaders limit fuel = .ok ms) :
    (∀ m ∈ ms, m ∈ rowSpan checks) ∧ Detects ms faults := by
  unfold heuristicLayer at h
  simp only at h
  set cand := checks.filter fun s => decide (∃ f ∈ faults, dot s f ≠ 0) with hcand
  set noncand := checks.filter fun s => decide (∀ f ∈ faults, dot s f = 0) with hnon
  split at h
  · simp at h
  · simp at h
  · next cover hcover =>
    obtain ⟨hc1, hc2⟩ := C32_set_cover ord ho fuel _ _ _ cover hcover
    split at h
    · simp at h
    · simp at h
    · next cover' mp' himp =>
      obtain ⟨hm, hcov⟩ := improveLoop_sound ord ho faults checks faults.length limit fuel _ _ cover _
        (initMapping_ok faults checks cand fun s hs => (List.mem_filter.1 hs).1) hc1 hc2 _ himp
      simp only at hm hcov
      split at h
      · simp at h
      · next ms' hms =>
        cases h
        have hnonmem : ∀ s ∈ noncand, s ∈ rowSpan checks ∧ ∀ f ∈ faults, dot s f = 0 := by
          intro s hs
          rw [hnon, List.mem_filter, decide_eq_true_eq] at hs
          exact ⟨mem_rowSpan_of_mem hs.1, hs.2⟩
        have key : ∀ c m, (if findLeaders && decide (noncand.length > 0) then
              lightest ((mp' c).map fun m => leader m noncand) else lightest (mp' c)) = some m →
            m ∈ rowSpan checks ∧ ∀ i (hi : i < faults.length), i ∈ c → dot m faults[i] = 1 := by
          intro c m hm'
          have hgood : ∀ s ∈ mp' c, s ∈ rowSpan checks ∧ ∀ i (hi : i < faults.length), i ∈ c → dot s faults[i] = 1 := by
            intro s hs
            obtain ⟨g1, g2⟩ := hm.good c s hs
            exact ⟨g2, fun i hi hic => (mem_covers_iff s faults i hi).1 (by rw [g1]; exact hic)⟩
          split at hm'
          · obtain ⟨hmem, -⟩ := (lightest_mem _).2 m hm'
            obtain ⟨s, hs, rfl⟩ := List.mem_map.1 hmem
            obtain ⟨g1, g2⟩ := hgood s hs
            constructor
            · obtain ⟨he, -⟩ := C25_coset_leader s noncand _ (hl s noncand)
              unfold Equivalent at he
              have hle : rowSpan noncand ≤ rowSpan checks := rowSpan_le_iff.2 fun r hr => (hnonmem r hr).1
              have h2 := Submodule.add_mem _ g1 (hle he)
              rwa [← add_assoc, add_self_eq_zero', zero_add] at h2
            · intro i hi hic
              rw [dot_leader leader noncand (fun m => hl m noncand) faults[i]
                (fun r hr => (hnonmem r hr).2 _ (List.getElem_mem hi)) s]
              exact g2 i hi hic
          · exact hgood m ((lightest_mem _).2 m hm').1
        obtain ⟨k1, k2⟩ := mapM_some_forall _ (fun c m => m ∈ rowSpan checks ∧
          ∀ i (hi : i < faults.length), i ∈ c → dot m faults[i] = 1) key (ord cover') ms hms
        constructor
        · intro m hm'
          obtain ⟨c, -, hp⟩ := k2 m hm'
          exact hp.1
        · intro f hf
          obtain ⟨i, hi, rfl⟩ := List.getElem_of_mem hf
          obtain ⟨c, hc, hic⟩ := hcov i hi
          obtain ⟨m, hm', hp⟩ := k1 c ((ho cover').mem_iff.2 hc)
          exact ⟨m, hm', hp.2 i hi hic⟩

/-- If every fault is detected by some check, the heuristic returns measurements. -/
theorem C32_layer_ends (ord : List CSet → List CSet) (ho : OrdOk ord) (leader : Vec n → List (Vec n) → Vec n)
    (faults checks : List (Vec n)) (findLeaders : Bool)
    (limit : ℕ) (hdet : Detects checks faults) :
    ∃ N ms, ∀ fuel ≥ N, heuristicLayer ord leader faults checks findLeaders limit fuel = .ok ms := by
  set cand := checks.filter fun s => decide (∃ f ∈ faults, dot s f ≠ 0) with hcand
  set noncand := checks.filter fun s => decide (∀ f ∈ faults, dot s f = 0) with hnon
  have hcov : ∀ i < faults.length, ∃ c ∈ (cand.map fun s => covers s faults).dedup, i ∈ c := by
    intro i hi
    obtain ⟨s, hs, h1⟩ := hdet faults[i] (List.getElem_mem hi)
    refine ⟨covers s faults, ?_, (mem_covers_iff s faults i hi).2 h1⟩
    rw [List.mem_dedup, List.mem_map]
    refine ⟨s, ?_, rfl⟩
    rw [hcand, List.mem_filter, decide_eq_true_eq]
    exact ⟨hs, faults[i], List.getElem_mem hi, by rw [h1]; decide⟩
  have hmok := initMapping_ok faults checks cand fun s hs => (List.mem_filter.1 hs).1
  obtain ⟨cover, hcover⟩ := setCoverLoop_ends ord ho _ (initMapping faults cand) (Finset.range faults.length)
    (fun i hi => hcov i (Finset.mem_range.1 hi)) []
  rw [Finset.card_range] at hcover
  obtain ⟨N, res, hN⟩ := improveLoop_ends ord ho faults checks faults.length limit _ (initMapping faults cand) cover
    (cover.length, (cover.map fun c => sumAll (initMapping faults cand c)).sum) hmok hcov
  have hsc : ∀ fuel > faults.length, setCover ord fuel faults.length
      (cand.map fun s => covers s faults).dedup (initMapping faults cand) = .ok cover := hcover
  obtain ⟨h1, h2⟩ := C32_set_cover ord ho _ _ _ _ cover (hsc (faults.length + 1) (by omega))
  obtain ⟨hm, -⟩ := improveLoop_sound ord ho faults checks faults.length limit N _ _ cover _ hmok h1 h2 res (hN N le_rfl)
  obtain ⟨ms, hms⟩ := mapM_exists (fun c =>
      if findLeaders && decide (noncand.length > 0) then lightest ((res.2 c).map fun m => leader m noncand)
      else lightest (res.2 c)) (ord res.1) (by
    intro c hc
    have hne := hm.ne c ((ho res.1).mem_iff.1 hc)
    have : ∀ l : List (Vec n), l ≠ [] → ∃ b, lightest l = some b := by
      intro l hl
      cases hb : lightest l with
      | none => exact absurd ((lightest_mem l).1.1 hb) hl
      | some b => exact ⟨b, rfl⟩
    split
    · exact this _ (by simpa using hne)
    · exact this _ hne)
  refine ⟨max N (faults.length + 1), ms, ?_⟩
  intro fuel hf
  unfold heuristicLayer
  simp only [← hcand, ← hnon]
  rw [hsc fuel (by omega)]
  simp only
  rw [hN fuel (by omega)]
  obtain ⟨c', m'⟩ := res
  simp only at hms ⊢
  rw [hms]

/-- Conversely, with a fault that no check detects the call never returns measurements: it loops
forever, or raises when there is no candidate at all. -/
theorem C32_undetectable (ord : List CSet → List CSet) (ho : OrdOk ord) (leader : Vec n → List (Vec n) → Vec n)
    (hl : ∀ m gens, CosetLeader m gens (leader m gens)) (faults checks : List (Vec n)) (findLeaders : Bool)
    (limit fuel : ℕ) (f : Vec n) (hf : f ∈ faults) (hund : ∀ c ∈ checks, dot c f = 0) (ms : List (Vec n)) :
    heuristicLayer ord leader faults checks findLeaders limit fuel ≠ .ok ms := by
  intro h
  obtain ⟨h1, h2⟩ := C32_layer_sound ord ho leader hl faults checks findLeaders limit fuel ms h
  obtain ⟨m, hm, hd⟩ := h2 f hf
  have := dot_eq_zero_of_mem_rowSpan hund (h1 m hm)
  rw [this] at hd
  exact absurd hd (by decide)

example : ∃ leader : Vec 3 → List (Vec 3) → Vec 3, ∀ m gens, CosetLeader m gens (leader m gens) :=
  ⟨fun m g => (C25_exists m g).choose, fun m g => (C25_exists m g).choose_spec⟩
example : OrdOk id := fun _ => List.Perm.refl _
example : heuristicLayer (n := 3) id (fun m _ => m) [![1,0,0], ![0,1,0], ![0,0,1]] [![1,1,0], ![0,1,1]] true 100 10 =
    .ok [![1,1,0], ![0,1,1]] := by decide +kernel
example : Detects (n := 3) [![1,1,0], ![0,1,1]] [![1,0,0], ![0,1,0], ![0,0,1]] := by unfold Detects; decide

end Verif.SP
