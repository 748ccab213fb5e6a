import Verif.Model.PlotsComp
import Verif.Props.Plots

/-! # C129: plots for the comparison of solvers -/

namespace Verif.PlotsComp
open Verif Verif.Plots

/-! ## Specification -/

/-- The results of a distance. -/
def at' (rs : List CRes) (d : ℕ) : List CRes := rs.filter fun r => r.distance = d

/-- The number of different selected rates in a directory. -/
def rates (rs : List CRes) : ℕ := ((rs.map (·.p)).filter (· ∈ compPers)).dedup.length

/-- The full claim about colors: curves of different solvers have different colors. -/
def C129_colors_claim : Prop := ∀ dirs ds, generatePlotsComp dirs = .ok ds →
  ∀ s d c xs ys s' d' xs' ys', CDraw.overRate s d c xs ys ∈ ds → CDraw.overRate s' d' c xs' ys' ∈ ds → s = s'

/-- The full claim about times over distances: the label names the solver, and every point is a distance and a time of a result of this solver for
this rate and distance. -/
def C129_times_claim : Prop := ∀ dirs ds, generatePlotsComp dirs = .ok ds →
  ∀ p s c m xs ys, CDraw.overDistance p s c m xs ys ∈ ds → ∃ rs, (s, rs) ∈ dirs ∧
    ∀ pt ∈ xs.zip ys, ∃ r ∈ rs, (r.distance : ℚ) = pt.1 ∧ r.p = p ∧ r.time = pt.2

/-! ## Lemmas -/

theorem mem_groups (rs : List CRes) (d : ℕ) (l : List (ℚ × ℚ)) :
    (d, l) ∈ groups rs ↔ (∃ r ∈ rs, r.distance = d) ∧ l = (at' rs d).map fun r => (r.p, r.time) := by
  have := mem_group (V := List (ℚ × ℚ)) [] (fun r : CRes => r.distance) (fun r v => v ++ [(r.p, r.time)]) rs d l
  rw [foldl_append_singleton, List.nil_append] at this
  exact this

theorem groups_nodup (rs : List CRes) : ((groups rs).map (·.1)).Nodup ∧ ∀ k, k ∈ (groups rs).map (·.1) ↔ ∃ r ∈ rs, r.distance = k :=
  group_nodup (V := List (ℚ × ℚ)) [] (fun r : CRes => r.distance) (fun r v => v ++ [(r.p, r.time)]) rs

theorem sortShown_spec (e : ℕ × List (ℚ × ℚ)) : (sortShown e).1 = e.1 ∧ (sortShown e).2.Perm e.2 ∧
    (shown e.1 = true → ((sortShown e).2.map (·.1)).Pairwise (· ≤ ·)) := by
  unfold sortShown
  split
  · refine ⟨rfl, List.perm_insertionSort _ _, fun _ => ?_⟩
    rw [List.pairwise_map]
    have : Std.Total pairLe := ⟨fun a b => by
      unfold pairLe
      rcases lt_trichotomy a.1 b.1 with h | h | h
      · exact .inl (.inl h)
      · rcases le_total a.2 b.2 with h' | h'
        · exact .inl (.inr ⟨h, h'⟩)
        · exact .inr (.inr ⟨h.symm, h'⟩)
      · exact .inr (.inl h)⟩
    have : IsTrans _ pairLe := ⟨fun a b c h1 h2 => by
      unfold pairLe at *
      rcases h1 with h1 | ⟨h1, h1'⟩ <;> rcases h2 with h2 | ⟨h2, h2'⟩
      · exact .inl (h1.trans h2)
      · exact .inl (h2 ▸ h1)
      · exact .inl (h1 ▸ h2)
      · exact .inr ⟨h1.trans h2, h1'.trans h2'⟩⟩
    refine (List.pairwise_insertionSort pairLe e.2).imp fun {a b} h => ?_
    rcases h with h | h
    · exact h.le
    · exact h.1.le
  · exact ⟨rfl, .refl _, fun h => absurd h (by assumption)⟩

theorem mem_items {rs : List CRes} {e : ℕ × List (ℚ × ℚ)} (h : e ∈ items rs) : (∃ r ∈ rs, r.distance = e.1) ∧
    e.2.Perm ((at' rs e.1).map fun r => (r.p, r.time)) ∧ (shown e.1 = true → (e.2.map (·.1)).Pairwise (· ≤ ·)) := by
  obtain ⟨⟨d, l⟩, h1, rfl⟩ := List.mem_map.1 h
  obtain ⟨h2, h3⟩ := (mem_groups rs d l).1 ((mem_sortedItems _ _).1 h1)
  obtain ⟨s1, s2, s3⟩ := sortShown_spec (d, l)
  rw [s1]
  exact ⟨h2, s2.trans (.of_eq h3), s3⟩

theorem items_keys (rs : List CRes) : ((items rs).map (·.1)).Nodup ∧ ∀ d, d ∈ (items rs).map (·.1) ↔ ∃ r ∈ rs, r.distance = d := by
  have e : (items rs).map (·.1) = (sortedItems (groups rs)).map (·.1) := by
    unfold items
    rw [List.map_map]
    exact List.map_congr_left fun e _ => (sortShown_spec e).1
  have hp : ((items rs).map (·.1)).Perm ((groups rs).map (·.1)) := by
    rw [e]; exact (sortedItems_perm _).map _
  obtain ⟨h1, h2⟩ := groups_nodup rs
  exact ⟨hp.nodup_iff.2 h1, fun d => by rw [hp.mem_iff, h2]⟩

theorem drawRates_ok {solver : String} {ds : List ℚ} {pd l : Assoc ℚ (List ℚ)} {b : List CDraw} (h : drawRates solver ds pd l = .ok b) :
    b = l.map (fun e => CDraw.overDistance e.1 (label solver) ((pd.map (·.1)).idxOf e.1) (solver = "z3") ds e.2) ∧
      ∀ e ∈ l, e.2.length = ds.length := by
  induction l generalizing b with
  | nil =>
    simp only [drawRates, Except.ok.injEq] at h
    simp [← h]
  | cons e l ih =>
    obtain ⟨p, ts⟩ := e
    simp only [drawRates, bind, Except.bind, pure, Except.pure] at h
    split_ifs at h with hl
    cases hr : drawRates solver ds pd l with
    | error e => rw [hr] at h; cases h
    | ok r =>
      rw [hr] at h
      obtain ⟨i1, i2⟩ := ih hr
      obtain rfl := Except.ok.inj h
      refine ⟨by rw [i1]; rfl, fun e he => ?_⟩
      rcases List.mem_cons.1 he with rfl | he
      · push Not at hl; exact hl.symm
      · exact i2 e he

/-- What is drawn for a directory. -/
theorem drawDir_ok {c : Colors} {dir : Dir} {r : List CDraw × Colors} (h : drawDir c dir = .ok r) (hne : dir.2 ≠ []) :
    r.2 = ⟨(pData compPers (items dir.2) []).length, (c.add dir.1).ofSolver⟩ ∧
    r.1 = ((items dir.2).filter fun e => shown e.1).map (fun e => CDraw.overRate dir.1 e.1 (((c.add dir.1).ofSolver.lookup dir.1).getD 0)
        (e.2.map (·.1)) (e.2.map (·.2))) ++
      (sortedItems (pData compPers (items dir.2) [])).map (fun e => CDraw.overDistance e.1 (label dir.1)
        (((pData compPers (items dir.2) []).map (·.1)).idxOf e.1) (dir.1 = "z3") ((items dir.2).map fun e => (e.1 : ℚ)) e.2) ∧
      ∀ e ∈ pData compPers (items dir.2) [], e.2.length = (items dir.2).length := by
  have hne' : dir.2.isEmpty = false := by simpa using hne
  simp only [drawDir, hne', Bool.false_eq_true, if_false, bind, Except.bind, pure, Except.pure] at h
  cases hr : drawRates dir.1 ((items dir.2).map fun e => (e.1 : ℚ)) (pData compPers (items dir.2) [])
      (sortedItems (pData compPers (items dir.2) [])) with
  | error e => rw [hr] at h; cases h
  | ok b =>
    rw [hr] at h
    obtain rfl := Except.ok.inj h
    obtain ⟨h1, h2⟩ := drawRates_ok hr
    refine ⟨rfl, by rw [h1], fun e he => ?_⟩
    have := h2 e ((mem_sortedItems _ _).2 he)
    rwa [List.length_map] at this

theorem drawDir_empty {c : Colors} {dir : Dir} (h : dir.2 = []) : drawDir c dir = .ok ([], c) := by simp [drawDir, h]

/-- A call belongs to a directory. -/
theorem drawDirs_mem {c : Colors} {dirs : List Dir} {ds : List CDraw} (h : drawDirs c dirs = .ok ds) :
    (∀ x ∈ ds, ∃ dir ∈ dirs, dir.2 ≠ [] ∧ ∃ c' r, drawDir c' dir = .ok r ∧ x ∈ r.1) ∧
    (∀ dir ∈ dirs, ∃ c' r, drawDir c' dir = .ok r ∧ ∀ x ∈ r.1, x ∈ ds) := by
  induction dirs generalizing c ds with
  | nil =>
    simp only [drawDirs, Except.ok.injEq] at h
    simp [← h]
  | cons dir dirs ih =>
    simp only [drawDirs, bind, Except.bind, pure, Except.pure] at h
    cases hr : drawDir c dir with
    | error e => rw [hr] at h; cases h
    | ok r =>
      rw [hr] at h
      simp only at h
      cases hb : drawDirs r.2 dirs with
      | error e => rw [hb] at h; cases h
      | ok b =>
        rw [hb] at h
        obtain rfl := Except.ok.inj h
        obtain ⟨i1, i2⟩ := ih hb
        constructor
        · intro x hx
          rcases List.mem_append.1 hx with hx | hx
          · refine ⟨dir, by simp, fun hd => ?_, c, r, hr, hx⟩
            rw [drawDir_empty hd] at hr
            obtain rfl := Except.ok.inj hr
            simp at hx
          · obtain ⟨d, hd, h2⟩ := i1 x hx
            exact ⟨d, by simp [hd], h2⟩
        · intro d hd
          rcases List.mem_cons.1 hd with rfl | hd
          · exact ⟨c, r, hr, fun x hx => by simp [hx]⟩
          · obtain ⟨c', r', h1, h2⟩ := i2 d hd
            exact ⟨c', r', h1, fun x hx => by simp [h2 x hx]⟩

/-! ## Times over rates -/

/-- C129: a curve over the rate belongs to distance 17 or 21 of a directory with the name in the label, its rates increase, and its points are the
results for this distance; every such directory and distance has a curve. -/
theorem C129_over_rate {dirs : List Dir} {ds : List CDraw} (h : generatePlotsComp dirs = .ok ds) :
    (∀ s d c xs ys, CDraw.overRate s d c xs ys ∈ ds → (d = 17 ∨ d = 21) ∧ ∃ rs, (s, rs) ∈ dirs ∧ xs.Pairwise (· ≤ ·) ∧ xs.length = ys.length ∧
      xs ≠ [] ∧ (xs.zip ys).Perm ((at' rs d).map fun r => (r.p, r.time))) ∧
    (∀ s rs, (s, rs) ∈ dirs → ∀ r ∈ rs, r.distance = 17 ∨ r.distance = 21 → ∃ c xs ys, CDraw.overRate s r.distance c xs ys ∈ ds) := by
  obtain ⟨h1, h2⟩ := drawDirs_mem h
  constructor
  · intro s d c xs ys hx
    obtain ⟨dir, hdir, hne, c', r, hr, hx⟩ := h1 _ hx
    obtain ⟨-, hr1, -⟩ := drawDir_ok hr hne
    rw [hr1] at hx
    rcases List.mem_append.1 hx with hx | hx
    · obtain ⟨e, he, hxe⟩ := List.mem_map.1 hx
      simp only [CDraw.overRate.injEq] at hxe
      obtain ⟨rfl, rfl, rfl, rfl, rfl⟩ := hxe
      rw [List.mem_filter] at he
      obtain ⟨⟨r', hr', hd'⟩, m2, m3⟩ := mem_items he.1
      refine ⟨by simpa [shown] using he.2, dir.2, hdir, m3 he.2, by simp, ?_, ?_⟩
      · intro hh
        rw [List.map_eq_nil_iff] at hh
        rw [hh] at m2
        have := m2.symm.eq_nil
        rw [List.map_eq_nil_iff] at this
        have hmem : r' ∈ at' dir.2 e.1 := by simp [at', hr', hd']
        rw [this] at hmem
        simp at hmem
      · rw [zip_map_map]
        simpa using m2
    · obtain ⟨e, he, hxe⟩ := List.mem_map.1 hx
      cases hxe
  · intro s rs hdir r hr hd
    obtain ⟨c', r', h3, h4⟩ := h2 _ hdir
    have hne : rs ≠ [] := List.ne_nil_of_mem hr
    obtain ⟨-, hr1, -⟩ := drawDir_ok h3 hne
    obtain ⟨e, he, hed⟩ := List.mem_map.1 (((items_keys rs).2 r.distance).2 ⟨r, hr, rfl⟩)
    refine ⟨((c'.add s).ofSolver.lookup s).getD 0, e.2.map (·.1), e.2.map (·.2), h4 _ ?_⟩
    rw [hr1]
    refine List.mem_append_left _ (List.mem_map.2 ⟨e, List.mem_filter.2 ⟨he, ?_⟩, by rw [hed]⟩)
    rw [hed]
    simpa [shown] using hd

/-! ## Colors -/

theorem lookup_snoc (l : Assoc String ℕ) (s s' : String) (v : ℕ) (h : l.lookup s = none) :
    (l ++ [(s, v)]).lookup s' = if s' = s then some v else l.lookup s' := by
  rw [List.lookup_append, lookup_cons']
  by_cases hs : s' = s
  · subst hs; simp [h]
  · simp [hs]

theorem add_lookup (c : Colors) (s : String) : (∀ v, c.ofSolver.lookup s = some v → c.add s = c) ∧
    (c.ofSolver.lookup s = none → (c.add s).ofSolver.lookup s = some c.idx ∧ ∀ s' ≠ s, (c.add s).ofSolver.lookup s' = c.ofSolver.lookup s') := by
  constructor
  · intro v hv
    simp [Colors.add, hv]
  · intro hn
    simp only [Colors.add, hn]
    refine ⟨by rw [lookup_snoc _ _ _ _ hn, if_pos rfl], fun s' hs => by rw [lookup_snoc _ _ _ _ hn, if_neg hs]⟩

theorem add_mono (c : Colors) (s s' : String) (v : ℕ) (h : c.ofSolver.lookup s' = some v) : (c.add s).ofSolver.lookup s' = some v := by
  obtain ⟨h1, h2⟩ := add_lookup c s
  cases hs : c.ofSolver.lookup s with
  | some w => rw [h1 w hs]; exact h
  | none =>
    have : s' ≠ s := fun hh => by rw [hh, hs] at h; cases h
    rw [(h2 hs).2 s' this]; exact h

theorem add_some (c : Colors) (s : String) : ∃ v, (c.add s).ofSolver.lookup s = some v := by
  obtain ⟨h1, h2⟩ := add_lookup c s
  cases hs : c.ofSolver.lookup s with
  | some w => exact ⟨w, by rw [h1 w hs]; exact hs⟩
  | none => exact ⟨_, (h2 hs).1⟩

/-- The color of a solver that has one does not change. -/
theorem color_known {c : Colors} {dirs : List Dir} {ds : List CDraw} (h : drawDirs c dirs = .ok ds) {s : String} {v : ℕ}
    (hs : c.ofSolver.lookup s = some v) : ∀ d k xs ys, CDraw.overRate s d k xs ys ∈ ds → k = v := by
  induction dirs generalizing c ds with
  | nil =>
    simp only [drawDirs, Except.ok.injEq] at h
    simp [← h]
  | cons dir dirs ih =>
    simp only [drawDirs, bind, Except.bind, pure, Except.pure] at h
    cases hr : drawDir c dir with
    | error e => rw [hr] at h; cases h
    | ok r =>
      rw [hr] at h
      simp only at h
      cases hb : drawDirs r.2 dirs with
      | error e => rw [hb] at h; cases h
      | ok b =>
        rw [hb] at h
        obtain rfl := Except.ok.inj h
        intro d k xs ys hx
        by_cases hne : dir.2 = []
        · rw [drawDir_empty hne] at hr
          obtain rfl := Except.ok.inj hr
          exact ih hb hs d k xs ys (by simpa using hx)
        · obtain ⟨r2, r1, -⟩ := drawDir_ok hr hne
          rcases List.mem_append.1 hx with hx | hx
          · rw [r1] at hx
            rcases List.mem_append.1 hx with hx | hx
            · obtain ⟨e, he, hxe⟩ := List.mem_map.1 hx
              simp only [CDraw.overRate.injEq] at hxe
              obtain ⟨rfl, -, rfl, -⟩ := hxe
              rw [add_mono _ _ _ _ hs]; rfl
            · obtain ⟨e, he, hxe⟩ := List.mem_map.1 hx
              cases hxe
          · exact ih hb (by rw [r2]; exact add_mono _ _ _ _ hs) d k xs ys hx

/-- C129: all curves over the rate of one solver have the same color. -/
theorem C129_solver_color {dirs : List Dir} {ds : List CDraw} (h : generatePlotsComp dirs = .ok ds) (s : String) (d d' c c' : ℕ)
    (xs ys xs' ys' : List ℚ) (hx : CDraw.overRate s d c xs ys ∈ ds) (hx' : CDraw.overRate s d' c' xs' ys' ∈ ds) : c = c' := by
  unfold generatePlotsComp at h
  suffices ∀ (C : Colors), drawDirs C dirs = .ok ds → ∃ v, ∀ d k xs ys, CDraw.overRate s d k xs ys ∈ ds → k = v by
    obtain ⟨v, hv⟩ := this _ h
    rw [hv _ _ _ _ hx, hv _ _ _ _ hx']
  clear h hx hx'
  intro C h
  induction dirs generalizing C ds with
  | nil =>
    simp only [drawDirs, Except.ok.injEq] at h
    exact ⟨0, by simp [← h]⟩
  | cons dir dirs ih =>
    simp only [drawDirs, bind, Except.bind, pure, Except.pure] at h
    cases hr : drawDir C dir with
    | error e => rw [hr] at h; cases h
    | ok r =>
      rw [hr] at h
      simp only at h
      cases hb : drawDirs r.2 dirs with
      | error e => rw [hb] at h; cases h
      | ok b =>
        rw [hb] at h
        obtain rfl := Except.ok.inj h
        by_cases hne : dir.2 = []
        · rw [drawDir_empty hne] at hr
          obtain rfl := Except.ok.inj hr
          simpa using ih _ hb
        · obtain ⟨r2, r1, -⟩ := drawDir_ok hr hne
          by_cases hs : dir.1 = s
          · obtain ⟨v, hv⟩ := add_some C dir.1
            refine ⟨v, fun d k xs ys hx => ?_⟩
            rcases List.mem_append.1 hx with hx | hx
            · rw [r1] at hx
              rcases List.mem_append.1 hx with hx | hx
              · obtain ⟨e, he, hxe⟩ := List.mem_map.1 hx
                simp only [CDraw.overRate.injEq] at hxe
                obtain ⟨-, -, rfl, -⟩ := hxe
                rw [hv]; rfl
              · obtain ⟨e, he, hxe⟩ := List.mem_map.1 hx
                cases hxe
            · exact color_known hb (by rw [r2, ← hs]; exact hv) d k xs ys hx
          · obtain ⟨v, hv⟩ := ih _ hb
            refine ⟨v, fun d k xs ys hx => ?_⟩
            rcases List.mem_append.1 hx with hx | hx
            · rw [r1] at hx
              rcases List.mem_append.1 hx with hx | hx
              · obtain ⟨e, he, hxe⟩ := List.mem_map.1 hx
                simp only [CDraw.overRate.injEq] at hxe
                exact absurd hxe.1 hs
              · obtain ⟨e, he, hxe⟩ := List.mem_map.1 hx
                cases hxe
            · exact hv d k xs ys hx

theorem pData_length (rs : List CRes) : (pData compPers (items rs) []).length = rates rs := by
  have key : ((pData compPers (items rs) []).map (·.1)).Perm ((rs.map (·.p)).filter (· ∈ compPers)).dedup := by
    rw [List.perm_ext_iff_of_nodup (pData_spec compPers (items rs) [] (by simp) 0).1 (List.nodup_dedup _)]
    intro p
    rw [(pData_spec compPers (items rs) [] (by simp) p).2.1, List.mem_dedup, List.mem_filter]
    simp only [List.map_nil, List.not_mem_nil, false_or, decide_eq_true_eq]
    rw [List.mem_map]
    constructor
    · rintro ⟨hp, e, he, x, hx, rfl⟩
      obtain ⟨-, m2, -⟩ := mem_items he
      obtain ⟨r, hr, rfl⟩ := List.mem_map.1 (m2.mem_iff.1 hx)
      exact ⟨⟨r, (List.mem_filter.1 hr).1, rfl⟩, hp⟩
    · rintro ⟨⟨r, hr, rfl⟩, hp⟩
      obtain ⟨e, he, hed⟩ := List.mem_map.1 (((items_keys rs).2 r.distance).2 ⟨r, hr, rfl⟩)
      obtain ⟨-, m2, -⟩ := mem_items he
      exact ⟨hp, e, he, (r.p, r.time), m2.mem_iff.2 (List.mem_map.2 ⟨r, by simp [at', hr, hed], rfl⟩), rfl⟩
  have := key.length_eq
  rwa [List.length_map] at this

theorem colors_from {k : ℕ} {dirs : List Dir} {C : Colors} {ds : List CDraw} (h : drawDirs C dirs = .ok ds) (hidx : C.idx = k)
    (hne : ∀ dir ∈ dirs, dir.2 ≠ []) (hk : ∀ dir ∈ dirs, rates dir.2 = k) (hnew : ∀ dir ∈ dirs, C.ofSolver.lookup dir.1 = none)
    (hnd : (dirs.map (·.1)).Nodup) : ∀ dir ∈ dirs, ∀ d c xs ys, CDraw.overRate dir.1 d c xs ys ∈ ds → c = k := by
  induction dirs generalizing C ds with
  | nil => simp
  | cons dir dirs ih =>
    simp only [drawDirs, bind, Except.bind, pure, Except.pure] at h
    cases hr : drawDir C dir with
    | error e => rw [hr] at h; cases h
    | ok r =>
      rw [hr] at h
      simp only at h
      cases hb : drawDirs r.2 dirs with
      | error e => rw [hb] at h; cases h
      | ok b =>
        rw [hb] at h
        obtain rfl := Except.ok.inj h
        obtain ⟨r2, r1, -⟩ := drawDir_ok hr (hne dir (by simp))
        obtain ⟨a1, a2⟩ := (add_lookup C dir.1).2 (hnew dir (by simp))
        rw [List.map_cons, List.nodup_cons] at hnd
        have hi := ih hb (by rw [r2]; exact (pData_length _).trans (hk dir (by simp))) (fun x hx => hne x (by simp [hx]))
          (fun x hx => hk x (by simp [hx])) (fun x hx => by
            rw [r2]
            refine (a2 _ fun hh => hnd.1 (hh ▸ List.mem_map_of_mem hx)).trans (hnew x (by simp [hx]))) hnd.2
        intro x hx d c xs ys hxd
        rcases List.mem_append.1 hxd with hxd | hxd
        · rw [r1] at hxd
          rcases List.mem_append.1 hxd with hxd | hxd
          · obtain ⟨e, he, hxe⟩ := List.mem_map.1 hxd
            simp only [CDraw.overRate.injEq] at hxe
            rw [← hxe.2.2.1, a1, ← hidx]
            rfl
          · obtain ⟨e, he, hxe⟩ := List.mem_map.1 hxd
            cases hxe
        · rcases List.mem_cons.1 hx with rfl | hx
          · rw [color_known hb (by rw [r2]; exact a1) d c xs ys hxd, hidx]
          · exact hi x hx d c xs ys hxd

/-- C129 is violated for every comparison in which all solvers were run for the same number of the selected rates: from the second solver on all
curves over the rate have the same color. -/
theorem C129_violated_colors (k : ℕ) (A : Dir) (dirs : List Dir) (ds : List CDraw) (h : generatePlotsComp (A :: dirs) = .ok ds)
    (hne : ∀ dir ∈ A :: dirs, dir.2 ≠ []) (hk : ∀ dir ∈ A :: dirs, rates dir.2 = k) (hnd : ((A :: dirs).map (·.1)).Nodup) :
    (∀ d c xs ys, CDraw.overRate A.1 d c xs ys ∈ ds → c = 0) ∧
    ∀ dir ∈ dirs, ∀ d c xs ys, CDraw.overRate dir.1 d c xs ys ∈ ds → c = k := by
  unfold generatePlotsComp at h
  simp only [drawDirs, bind, Except.bind, pure, Except.pure] at h
  cases hr : drawDir {} A with
  | error e => rw [hr] at h; cases h
  | ok r =>
    rw [hr] at h
    simp only at h
    cases hb : drawDirs r.2 dirs with
    | error e => rw [hb] at h; cases h
    | ok b =>
      rw [hb] at h
      obtain rfl := Except.ok.inj h
      obtain ⟨r2, r1, -⟩ := drawDir_ok hr (hne A (by simp))
      obtain ⟨a1, a2⟩ := (add_lookup {} A.1).2 rfl
      rw [List.map_cons, List.nodup_cons] at hnd
      have hi := colors_from hb (k := k) (by rw [r2]; exact (pData_length _).trans (hk A (by simp))) (fun x hx => hne x (by simp [hx]))
        (fun x hx => hk x (by simp [hx])) (fun x hx => by
          rw [r2]
          exact a2 _ fun hh => hnd.1 (hh ▸ List.mem_map_of_mem hx)) hnd.2
      have hA : ∀ s d c xs ys, CDraw.overRate s d c xs ys ∈ r.1 → s = A.1 ∧ c = 0 := by
        intro s d c xs ys hx
        rw [r1] at hx
        rcases List.mem_append.1 hx with hx | hx
        · obtain ⟨e, he, hxe⟩ := List.mem_map.1 hx
          simp only [CDraw.overRate.injEq] at hxe
          obtain ⟨rfl, -, rfl, -⟩ := hxe
          rw [a1]
          exact ⟨rfl, rfl⟩
        · obtain ⟨e, he, hxe⟩ := List.mem_map.1 hx
          cases hxe
      constructor
      · intro d c xs ys hx
        rcases List.mem_append.1 hx with hx | hx
        · exact (hA _ _ _ _ _ hx).2
        · exact color_known hb (by rw [r2]; exact a1) d c xs ys hx
      · intro dir hdir d c xs ys hx
        rcases List.mem_append.1 hx with hx | hx
        · exact absurd (List.mem_map.2 ⟨dir, hdir, (hA _ _ _ _ _ hx).1⟩) hnd.1
        · exact hi dir hdir d c xs ys hx

/-! ## Times over distances -/

/-- C129: if every distance of every directory has exactly one result for the rate `p`, then each curve for `p` over the distance has exactly the
points (distance, time) of the results of one directory with this rate; the label has the name of the directory only if that is `z3`.  Missing: other
names, and distances with no result or several results for `p`, where the claim is false. -/
theorem C129_times_partial {dirs : List Dir} {ds : List CDraw} (h : generatePlotsComp dirs = .ok ds) (p : ℚ)
    (hone : ∀ dir ∈ dirs, ∀ r ∈ dir.2, ((at' dir.2 r.distance).filter fun r => r.p = p).length = 1) (s : String) (c : ℕ) (m : Bool) (xs ys : List ℚ)
    (hx : CDraw.overDistance p s c m xs ys ∈ ds) :
    ∃ dir ∈ dirs, s = (if dir.1 = "z3" then "z3" else "CASHWMaxSAT-CorePlus") ∧ (m = true ↔ dir.1 = "z3") ∧ p ∈ compPers ∧ xs.length = ys.length ∧
      (xs.zip ys).Perm ((dir.2.filter fun r => r.p = p).map fun r => ((r.distance : ℚ), r.time)) := by
  obtain ⟨dir, hdir, hne, c', r, hr, hx⟩ := (drawDirs_mem h).1 _ hx
  obtain ⟨-, hr1, hlen⟩ := drawDir_ok hr hne
  rw [hr1] at hx
  rcases List.mem_append.1 hx with hx | hx
  · obtain ⟨e, he, hxe⟩ := List.mem_map.1 hx
    cases hxe
  obtain ⟨e, he, hxe⟩ := List.mem_map.1 hx
  simp only [CDraw.overDistance.injEq] at hxe
  obtain ⟨rfl, rfl, rfl, rfl, rfl, rfl⟩ := hxe
  rw [mem_sortedItems] at he
  obtain ⟨s1, s2, s3⟩ := pData_spec compPers (items dir.2) [] (by simp) e.1
  have hsel : e.1 ∈ compPers := by
    rcases s2.1 (List.mem_map.2 ⟨e, he, rfl⟩) with hk | hk
    · simp at hk
    · exact hk.1
  rw [(mem_iff_lookup _ s1 e.1 e.2).1 he, if_pos hsel] at s3
  simp only [List.lookup, Option.getD_some, Option.getD_none, List.nil_append] at s3
  refine ⟨dir, hdir, by unfold label; split <;> simp_all, by simp, hsel, by rw [List.length_map, hlen e he], ?_⟩
  have hz : ∀ l : Assoc ℕ (List (ℚ × ℚ)), (∀ x ∈ l, x ∈ items dir.2) →
      (l.map fun x => (x.1 : ℚ)).zip (l.flatMap fun x => (x.2.filter fun y => y.1 = e.1).map (·.2)) =
        l.flatMap fun x => (x.2.filter fun y => y.1 = e.1).map fun y => ((x.1 : ℚ), y.2) := by
    intro l hl
    induction l with
    | nil => rfl
    | cons x l ih =>
      obtain ⟨⟨r', hr', hd'⟩, m2, -⟩ := mem_items (hl x (by simp))
      have h1 := hone dir hdir r' hr'
      rw [hd'] at h1
      have h2 := ((m2.filter fun y => decide (y.1 = e.1)).length_eq)
      rw [List.filter_map, List.length_map] at h2
      have h3 : ((at' dir.2 x.1).filter ((fun y : ℚ × ℚ => decide (y.1 = e.1)) ∘ fun r : CRes => (r.p, r.time))).length = 1 := h1
      rw [h3] at h2
      obtain ⟨a, ha⟩ := List.length_eq_one_iff.1 h2
      rw [List.map_cons, List.flatMap_cons, List.flatMap_cons, ha]
      simp only [List.map_cons, List.map_nil, List.cons_append, List.nil_append, List.zip_cons_cons]
      rw [ih fun x hx => hl x (by simp [hx])]
  rw [s3, hz _ fun x hx => hx]
  have e1 : ((items dir.2).flatMap fun x => (x.2.filter fun y => y.1 = e.1).map fun y => ((x.1 : ℚ), y.2)).Perm
      ((items dir.2).flatMap fun x => ((dir.2.filter fun r => r.distance = x.1).filter fun r => r.p = e.1).map fun r => ((r.distance : ℚ), r.time)) := by
    refine List.Perm.flatMap_left _ fun x hx => ?_
    obtain ⟨-, m2, -⟩ := mem_items hx
    refine ((m2.filter _).map _).trans (.of_eq ?_)
    rw [List.filter_map, List.map_map]
    unfold at'
    refine List.map_congr_left fun r hr => ?_
    have : r.distance = x.1 := by simpa using (List.mem_filter.1 (List.mem_filter.1 hr).1).2
    simp [this]
  refine e1.trans ?_
  have e2 : ((items dir.2).flatMap fun x => ((dir.2.filter fun r => r.distance = x.1).filter fun r => r.p = e.1).map fun r => ((r.distance : ℚ), r.time)) =
      ((((items dir.2).map (·.1)).flatMap fun k => (dir.2.filter fun r => r.p = e.1).filter fun r => r.distance = k).map
        fun r => ((r.distance : ℚ), r.time)) := by
    rw [List.map_flatMap, List.flatMap_map]
    refine List.flatMap_congr fun x _ => ?_
    rw [List.filter_filter, List.filter_filter]
    congr 2
    funext r
    exact Bool.and_comm _ _
  rw [e2]
  obtain ⟨k1, k2⟩ := items_keys dir.2
  exact (group_perm (fun r : CRes => r.distance) _ k1 _ fun r hr => (k2 _).2 ⟨r, (List.mem_filter.1 hr).1, rfl⟩).map _

/-- C129: the curves over the distance are those of the rates 0.001, 0.051 and 0.131: there is one for such a rate exactly if some directory has a
result for it, and there is none for any other rate. -/
theorem C129_rates {dirs : List Dir} {ds : List CDraw} (h : generatePlotsComp dirs = .ok ds) (p : ℚ) :
    (∃ s c m xs ys, CDraw.overDistance p s c m xs ys ∈ ds) ↔
      (p = 1 / 1000 ∨ p = 51 / 1000 ∨ p = 131 / 1000) ∧ ∃ dir ∈ dirs, ∃ r ∈ dir.2, r.p = p := by
  have hsel : (p = 1 / 1000 ∨ p = 51 / 1000 ∨ p = 131 / 1000) ↔ p ∈ compPers := by simp [compPers]
  have key : ∀ dir : Dir, p ∈ (pData compPers (items dir.2) []).map (·.1) ↔ p ∈ compPers ∧ ∃ r ∈ dir.2, r.p = p := by
    intro dir
    rw [(pData_spec compPers (items dir.2) [] (by simp) p).2.1]
    simp only [List.map_nil, List.not_mem_nil, false_or]
    constructor
    · rintro ⟨hp, e, he, x, hx, rfl⟩
      obtain ⟨-, m2, -⟩ := mem_items he
      obtain ⟨r, hr, rfl⟩ := List.mem_map.1 (m2.mem_iff.1 hx)
      exact ⟨hp, r, (List.mem_filter.1 hr).1, rfl⟩
    · rintro ⟨hp, r, hr, rfl⟩
      obtain ⟨e, he, hed⟩ := List.mem_map.1 (((items_keys dir.2).2 r.distance).2 ⟨r, hr, rfl⟩)
      obtain ⟨-, m2, -⟩ := mem_items he
      exact ⟨hp, e, he, (r.p, r.time), m2.mem_iff.2 (List.mem_map.2 ⟨r, by simp [at', hr, hed], rfl⟩), rfl⟩
  rw [hsel]
  constructor
  · rintro ⟨s, c, m, xs, ys, hx⟩
    obtain ⟨dir, hdir, hne, c', r, hr, hx⟩ := (drawDirs_mem h).1 _ hx
    obtain ⟨-, hr1, -⟩ := drawDir_ok hr hne
    rw [hr1] at hx
    rcases List.mem_append.1 hx with hx | hx
    · obtain ⟨e, he, hxe⟩ := List.mem_map.1 hx
      cases hxe
    obtain ⟨e, he, hxe⟩ := List.mem_map.1 hx
    simp only [CDraw.overDistance.injEq] at hxe
    rw [mem_sortedItems] at he
    obtain ⟨h1, h2⟩ := (key dir).1 (List.mem_map.2 ⟨e, he, hxe.1⟩)
    exact ⟨h1, dir, hdir, h2⟩
  · rintro ⟨hp, dir, hdir, r0, hr0, hrp⟩
    obtain ⟨c', r, hr, hall⟩ := (drawDirs_mem h).2 dir hdir
    have hne : dir.2 ≠ [] := fun h0 => by rw [h0] at hr0; cases hr0
    obtain ⟨-, hr1, -⟩ := drawDir_ok hr hne
    obtain ⟨e, he, hep⟩ := List.mem_map.1 ((key dir).2 ⟨hp, r0, hr0, hrp⟩)
    subst hep
    have hm := List.mem_append_right (((items dir.2).filter fun e => shown e.1).map (fun e => CDraw.overRate dir.1 e.1
      (((c'.add dir.1).ofSolver.lookup dir.1).getD 0) (e.2.map (·.1)) (e.2.map (·.2))))
      (List.mem_map_of_mem (f := fun e => CDraw.overDistance e.1 (label dir.1)
        (((pData compPers (items dir.2) []).map (·.1)).idxOf e.1) (dir.1 = "z3") ((items dir.2).map fun e => (e.1 : ℚ)) e.2)
        ((mem_sortedItems _ _).2 he))
    rw [← hr1] at hm
    exact ⟨_, _, _, _, _, hall _ hm⟩

/-! ## Examples -/

def exampleDirs : List Dir :=
  [("z3", [⟨17, 1 / 1000, 5⟩, ⟨21, 1 / 1000, 9⟩]), ("a", [⟨17, 1 / 1000, 6⟩, ⟨21, 1 / 1000, 8⟩]), ("b", [⟨21, 1 / 1000, 7⟩, ⟨17, 1 / 1000, 4⟩])]

theorem exampleDirs_ok : generatePlotsComp exampleDirs = .ok
    [.overRate "z3" 17 0 [1 / 1000] [5], .overRate "z3" 21 0 [1 / 1000] [9], .overDistance (1 / 1000) "z3" 0 true [17, 21] [5, 9],
      .overRate "a" 17 1 [1 / 1000] [6], .overRate "a" 21 1 [1 / 1000] [8],
      .overDistance (1 / 1000) "CASHWMaxSAT-CorePlus" 0 false [17, 21] [6, 8],
      .overRate "b" 17 1 [1 / 1000] [4], .overRate "b" 21 1 [1 / 1000] [7],
      .overDistance (1 / 1000) "CASHWMaxSAT-CorePlus" 0 false [17, 21] [4, 7]] := by decide +kernel

/-- No directory has results for the rate 0.051, so there is no curve for it. -/
example : ¬ ∃ ds s c m xs ys, generatePlotsComp exampleDirs = .ok ds ∧ CDraw.overDistance (51 / 1000) s c m xs ys ∈ ds := by
  rintro ⟨ds, s, c, m, xs, ys, h, hx⟩
  obtain ⟨-, dir, hdir, r, hr, hp⟩ := (C129_rates h (51 / 1000)).1 ⟨s, c, m, xs, ys, hx⟩
  revert hp
  revert r
  revert dir
  decide +kernel

/-- The hypotheses of `C129_violated_colors` are met. -/
example : ∃ ds, generatePlotsComp exampleDirs = .ok ds ∧ (∃ xs ys, CDraw.overRate "b" 17 1 xs ys ∈ ds) ∧
    ∀ d c xs ys, CDraw.overRate "b" d c xs ys ∈ ds → c = 1 :=
  ⟨_, exampleDirs_ok, ⟨[1 / 1000], [4], by simp⟩,
    (C129_violated_colors 1 ("z3", _) _ _ exampleDirs_ok (by simp) (by decide +kernel) (by decide)).2 ("b", _) (by simp; rfl)⟩

example : ∃ dir ∈ exampleDirs, "z3" = (if dir.1 = "z3" then "z3" else "CASHWMaxSAT-CorePlus") ∧ (true = true ↔ dir.1 = "z3") ∧
    (1 / 1000 : ℚ) ∈ compPers ∧ [(17 : ℚ), 21].length = [(5 : ℚ), 9].length ∧
    ([(17 : ℚ), 21].zip [(5 : ℚ), 9]).Perm ((dir.2.filter fun r => r.p = 1 / 1000).map fun r => ((r.distance : ℚ), r.time)) :=
  C129_times_partial exampleDirs_ok (1 / 1000) (by decide +kernel) "z3" 0 true _ _ (by simp)

/-- The claim about colors is false. -/
theorem C129_violated_colors_claim : ¬ C129_colors_claim := by
  intro h
  have := h _ _ exampleDirs_ok "a" 17 1 [1 / 1000] [6] "b" 17 [1 / 1000] [4] (by simp) (by simp)
  revert this; decide

/-- The claim about times over distances is false: the label names another solver, also if each distance has one result for each rate; and with two
results for a distance a time appears at a distance it does not belong to. -/
theorem C129_violated_times : ¬ C129_times_claim ∧
    ∃ ds, generatePlotsComp [("z3", [⟨3, 1 / 1000, 4⟩, ⟨3, 1 / 1000, 9⟩, ⟨5, 1 / 100, 100⟩])] = .ok ds ∧
      CDraw.overDistance (1 / 1000) "z3" 0 true [3, 5] [4, 9] ∈ ds := by
  constructor
  · intro h
    obtain ⟨rs, h1, -⟩ := h _ _ exampleDirs_ok (1 / 1000) "CASHWMaxSAT-CorePlus" 0 false [17, 21] [6, 8] (by simp)
    simp [exampleDirs] at h1
  · exact ⟨[.overDistance (1 / 1000) "z3" 0 true [3, 5] [4, 9]], by decide +kernel, by simp⟩

/-- A rate that was measured for some of the distances only ends the function with an exception. -/
theorem C129_mismatch : generatePlotsComp [("z3", [⟨3, 1 / 1000, 4⟩, ⟨5, 1 / 100, 100⟩])] = .error .valueError := by decide +kernel

end Verif.PlotsComp
