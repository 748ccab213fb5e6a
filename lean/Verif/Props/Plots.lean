import Verif.Lemmas.Plots2
import Mathlib.Data.List.Dedup

/-!
# C123: what the plots of the color code decoders show
-/

namespace Verif.Plots
open Verif

/-! ## Specification: the points of a drawing are values of result files -/

/-- The results of a distance. -/
def ofDistance (rs : List Res) (d : ℕ) : List Res := rs.filter fun r => r.distance = d

/-- **C123, the claim about times over distances**: every point of the curve for the rate `p` is a distance and the time of a result for this
distance and this rate. -/
def C123_times_claim : Prop :=
  ∀ rs ds, generatePlots rs = .ok ds → ∀ p xs ys, Draw.line 2 1 p xs ys ∈ ds →
    ∀ pt ∈ xs.zip ys, ∃ r ∈ rs, (r.distance : ℚ) = pt.1 ∧ r.p = p ∧ r.time = pt.2

/-- **C123, the claim about thresholds**: the fit in the column of a logical operator uses the rates of this logical operator. -/
def C123_threshold_claim : Prop :=
  ∀ rs ds, generatePlots rs = .ok ds → ∀ col ps dist ys, Draw.fit col ps dist ys ∈ ds →
    ∀ pt ∈ ps.zip (dist.zip ys), ∃ r ∈ rs, r.p = pt.1 ∧ r.distance = pt.2.1 ∧ r.lers[col]? = some pt.2.2

/-- **C123, the claim about success**: results of codes with at least one logical operator, all with the same number (at most four) of values, are
plotted. -/
def C123_success_claim : Prop :=
  ∀ (rs : List Res) (k : ℕ), rs ≠ [] → 0 < k → k ≤ 4 → (∀ r ∈ rs, r.lers.length = k ∧ r.ebs.length = k) → ∃ ds, generatePlots rs = .ok ds

/-! ## Lemmas -/

theorem mem_sorted (rs : List Res) (d : ℕ) (m : MData) : (d, m) ∈ sortedItems (sortedMetrics rs) ↔
    (∃ r ∈ rs, r.distance = d) ∧ m = (dataOf (ofDistance rs d)).sort := by
  rw [mem_sortedItems, sortedMetrics, List.mem_map]
  constructor
  · rintro ⟨⟨d', m'⟩, h, he⟩
    obtain ⟨rfl, rfl⟩ := Prod.mk.inj he
    obtain ⟨h1, h2⟩ := (mem_metrics rs d' m').1 h
    exact ⟨h1, by rw [h2]; rfl⟩
  · rintro ⟨h1, h2⟩
    exact ⟨(d, dataOf (ofDistance rs d)), (mem_metrics rs d _).2 ⟨h1, rfl⟩, by rw [h2]⟩

theorem zip_map_map {A B C : Type} (f : A → B) (g : A → C) (l : List A) : (l.map f).zip (l.map g) = l.map fun a => (f a, g a) := by
  induction l with
  | nil => rfl
  | cons a l ih => simp [ih]

/-- Which part of the figure a call belongs to. -/
def Draw.part : Draw → ℕ
  | .bars 0 _ _ _ _ _ => 0
  | .line 1 _ _ _ _ => 0
  | .line 2 _ _ _ _ => 1
  | .line 3 _ _ _ _ => 3
  | _ => 2

/-- The four parts of a successful call, and which calls belong to which part. -/
theorem parts {rs : List Res} {ds : List Draw} (h : generatePlots rs = .ok ds) (x : Draw) (hx : x ∈ ds) :
    (x.part = 0 ∧ ∃ e ∈ sortedItems (sortedMetrics rs), ∃ b, drawDistance e.1 e.2 = .ok b ∧ x ∈ b) ∨
    (x.part = 1 ∧ ∃ e ∈ pData pers ((sortedItems (sortedMetrics rs)).map fun e => (e.1, e.2.ps.zip e.2.times)) [],
      x = .line 2 1 e.1 ((sortedItems (sortedMetrics rs)).map fun e => (e.1 : ℚ)) e.2) ∨
    (x.part = 2 ∧ ∃ e, (sortedItems (sortedMetrics rs)).getLast? = some e ∧ ∃ col < e.2.logicals, ∃ b,
      threshold (sortedMetrics rs) (sortedItems (sortedMetrics rs)) col 0 (6 / 100) (13 / 100) = .ok b ∧ x ∈ b) ∨
    (x.part = 3 ∧ ∃ e, (perMetrics rs).lookup (1 / 100) = some e ∧
      x = .line 3 0 (1 / 100) ((sortedItems e).map fun x => (x.1 : ℚ)) ((sortedItems e).map fun x => x.2.getD 0 0)) := by
  obtain ⟨a, b, c, d, e, h1, h2, h3, h4, h5, rfl⟩ := generatePlots_ok h
  rcases List.mem_append.1 hx with hx | hx
  · left
    have hm := (drawDistances_ok h1 x).1 hx
    refine ⟨?_, hm⟩
    obtain ⟨e, -, b, hb, hxb⟩ := hm
    rw [(drawDistance_ok hb).2.2] at hxb
    rcases List.mem_append.1 hxb with hxb | hxb
    · obtain ⟨i, -, rfl⟩ := List.mem_map.1 hxb
      rfl
    · rw [List.mem_singleton.1 hxb]
      rfl
  · rcases List.mem_append.1 hx with hx | hx
    · right; left
      rw [(drawTimes_ok h2).2] at hx
      obtain ⟨e, he, rfl⟩ := List.mem_map.1 hx
      exact ⟨rfl, e, (mem_sortedItems _ _).1 he, rfl⟩
    · rcases List.mem_append.1 hx with hx | hx
      · right; right; left
        obtain ⟨col, -, hc, b, hb, hxb⟩ := (thresholds_mem h4 x).1 hx
        refine ⟨?_, e, h3, col, by omega, b, hb, hxb⟩
        rw [threshold_ok hb] at hxb
        rcases List.mem_cons.1 hxb with rfl | hxb
        · rfl
        · obtain ⟨i, -, rfl⟩ := List.mem_map.1 hxb
          rfl
      · right; right; right
        obtain ⟨e, h6, -, rfl⟩ := lerVsDistance_ok h5
        rw [List.mem_singleton.1 hx]
        exact ⟨rfl, e, h6, rfl⟩

/-! ## Rates and times over the physical error rate -/

/-- **C123.** The curve of the distance `d` in the plot of the logical operator `j` has exactly one point for every result of this distance: its
error rate, its rate of logical errors and its error bar for `j`, ordered by the error rate; and every such curve is drawn. -/
theorem C123_rates {rs : List Res} {ds : List Draw} (h : generatePlots rs = .ok ds) :
    (∀ j d xs ys es, Draw.bars 0 j d xs ys es ∈ ds → xs.Pairwise (· ≤ ·) ∧ xs.length = ys.length ∧ ys.length = es.length ∧
      (∀ r ∈ ofDistance rs d, j < r.lers.length ∧ j < r.ebs.length) ∧
      (xs.zip (ys.zip es)).Perm ((ofDistance rs d).map fun r => (r.p, r.lers.getD j 0, r.ebs.getD j 0))) ∧
    (∀ r ∈ rs, ∀ j < r.lers.length, ∃ xs ys es, Draw.bars 0 j r.distance xs ys es ∈ ds) := by
  constructor
  · intro j d xs ys es hx
    rcases parts h _ hx with ⟨-, e, he, b, hb, hxb⟩ | ⟨h0, -⟩ | ⟨h0, -⟩ | ⟨h0, -⟩
    · obtain ⟨d', m⟩ := e
      obtain ⟨-, rfl⟩ := (mem_sorted rs d' m).1 he
      obtain ⟨hl, -, rfl⟩ := drawDistance_ok hb
      rcases List.mem_append.1 hxb with hxb | hxb
      · obtain ⟨i, hi, he⟩ := List.mem_map.1 hxb
        simp only [Draw.bars.injEq, true_and] at he
        obtain ⟨rfl, rfl, rfl, rfl, rfl⟩ := he
        obtain ⟨l', hp, hs, e'⟩ := sort_dataOf (ofDistance rs d')
        have hlen := hl i (List.mem_range.1 hi)
        rw [e'] at hlen ⊢
        refine ⟨hs, by simp [dataOf], by simp [dataOf], fun r hr => ?_, ?_⟩
        · have hr' := hp.mem_iff.2 hr
          exact ⟨hlen.1 _ (List.mem_map.2 ⟨r, hr', rfl⟩), hlen.2 _ (List.mem_map.2 ⟨r, hr', rfl⟩)⟩
        · simp only [dataOf, List.map_map]
          rw [zip_map_map, zip_map_map]
          exact hp.map _
      · rw [List.mem_singleton] at hxb
        cases hxb
    all_goals cases h0
  · intro r hr j hj
    obtain ⟨a, b, c, d, e, h1, -, -, -, -, rfl⟩ := generatePlots_ok h
    have he := (mem_sorted rs r.distance _).2 ⟨⟨r, hr, rfl⟩, rfl⟩
    obtain ⟨b', hb⟩ := drawDistances_all h1 _ he
    obtain ⟨-, hrec, hb2⟩ := drawDistance_ok hb
    obtain ⟨l', hp, hs, e'⟩ := sort_dataOf (ofDistance rs r.distance)
    simp only [e'] at hb hb2 hrec he
    have hr' : r ∈ l' := hp.mem_iff.2 (List.mem_filter.2 ⟨hr, by simp⟩)
    have hk : (dataOf l').logicals = r.lers.length := by
      have := List.all_eq_true.1 hrec r.lers (List.mem_map.2 ⟨r, hr', rfl⟩)
      simpa [MData.logicals, eq_comm] using this
    refine ⟨(dataOf l').ps, (dataOf l').lers.map fun r => r.getD j 0, (dataOf l').ebs.map fun r => r.getD j 0,
      List.mem_append_left _ ((drawDistances_ok h1 _).2 ⟨_, he, _, hb, ?_⟩)⟩
    rw [hb2]
    exact List.mem_append_left _ (List.mem_map.2 ⟨j, List.mem_range.2 (by rw [hk]; exact hj), rfl⟩)

/-- **C123.** The same for the plot of the average time over the error rate: exactly the results of each distance. -/
theorem C123_time_over_rate {rs : List Res} {ds : List Draw} (h : generatePlots rs = .ok ds) :
    (∀ j l xs ys, Draw.line 1 j l xs ys ∈ ds → j = 0 ∧ ∃ d : ℕ, l = d ∧ xs.Pairwise (· ≤ ·) ∧ xs.length = ys.length ∧
      (xs.zip ys).Perm ((ofDistance rs d).map fun r => (r.p, r.time))) ∧
    (∀ r ∈ rs, ∃ xs ys, Draw.line 1 0 (r.distance : ℚ) xs ys ∈ ds) := by
  constructor
  · intro j l xs ys hx
    rcases parts h _ hx with ⟨-, e, he, b, hb, hxb⟩ | ⟨h0, -⟩ | ⟨h0, -⟩ | ⟨h0, -⟩
    · obtain ⟨d', m⟩ := e
      obtain ⟨-, rfl⟩ := (mem_sorted rs d' m).1 he
      obtain ⟨hl, -, rfl⟩ := drawDistance_ok hb
      rcases List.mem_append.1 hxb with hxb | hxb
      · obtain ⟨i, hi, he⟩ := List.mem_map.1 hxb
        cases he
      · rw [List.mem_singleton] at hxb
        simp only [Draw.line.injEq, true_and] at hxb
        obtain ⟨rfl, rfl, rfl, rfl⟩ := hxb
        obtain ⟨l', hp, hs, e'⟩ := sort_dataOf (ofDistance rs d')
        rw [e']
        refine ⟨rfl, d', rfl, hs, by simp [dataOf], ?_⟩
        simp only [dataOf]
        rw [zip_map_map]
        exact hp.map _
    all_goals cases h0
  · intro r hr
    obtain ⟨a, b, c, d, e, h1, -, -, -, -, rfl⟩ := generatePlots_ok h
    have he := (mem_sorted rs r.distance _).2 ⟨⟨r, hr, rfl⟩, rfl⟩
    obtain ⟨b', hb⟩ := drawDistances_all h1 _ he
    refine ⟨(dataOf (ofDistance rs r.distance)).sort.ps, (dataOf (ofDistance rs r.distance)).sort.times,
      List.mem_append_left _ ((drawDistances_ok h1 _).2 ⟨_, he, _, hb, ?_⟩)⟩
    rw [(drawDistance_ok hb).2.2]
    exact List.mem_append_right _ List.mem_cons_self

/-! ## Times over distances -/

theorem collect_spec (sel : List ℚ) (pts : List (ℚ × ℚ)) (acc : Assoc ℚ (List ℚ)) (hn : (acc.map (·.1)).Nodup) (p : ℚ) :
    ((collect sel pts acc).map (·.1)).Nodup ∧
    (p ∈ (collect sel pts acc).map (·.1) ↔ p ∈ acc.map (·.1) ∨ (p ∈ sel ∧ ∃ x ∈ pts, x.1 = p)) ∧
    ((collect sel pts acc).lookup p).getD [] = (acc.lookup p).getD [] ++
      if p ∈ sel then (pts.filter fun x => x.1 = p).map (·.2) else [] := by
  induction pts generalizing acc with
  | nil => simp [collect, hn]
  | cons x pts ih =>
    obtain ⟨q, t⟩ := x
    rw [collect]
    by_cases hq : q ∈ sel
    · rw [if_pos hq]
      obtain ⟨k1, k2⟩ := keys_alter [] (· ++ [t]) q acc hn
      obtain ⟨i1, i2, i3⟩ := ih _ k1
      refine ⟨i1, ?_, ?_⟩
      · rw [i2, k2]
        constructor
        · rintro ((rfl | h) | ⟨h, x, hx, rfl⟩)
          · exact .inr ⟨hq, (p, t), List.mem_cons_self, rfl⟩
          · exact .inl h
          · exact .inr ⟨h, x, List.mem_cons_of_mem _ hx, rfl⟩
        · rintro (h | ⟨h, x, hx, rfl⟩)
          · exact .inl (.inr h)
          · rcases List.mem_cons.1 hx with rfl | hx
            · exact .inl (.inl rfl)
            · exact .inr ⟨h, x, hx, rfl⟩
      · rw [i3, lookup_alter]
        by_cases hp : p = q
        · subst hp
          simp [hq]
        · rw [if_neg hp]
          simp [Ne.symm hp]
    · rw [if_neg hq]
      obtain ⟨i1, i2, i3⟩ := ih _ hn
      refine ⟨i1, ?_, ?_⟩
      · rw [i2]
        constructor
        · rintro (h | ⟨h, x, hx, rfl⟩)
          · exact .inl h
          · exact .inr ⟨h, x, List.mem_cons_of_mem _ hx, rfl⟩
        · rintro (h | ⟨h, x, hx, rfl⟩)
          · exact .inl h
          · rcases List.mem_cons.1 hx with rfl | hx
            · exact absurd h hq
            · exact .inr ⟨h, x, hx, rfl⟩
      · rw [i3]
        by_cases hp : p ∈ sel
        · have : q ≠ p := fun h => hq (h ▸ hp)
          simp [hp, this]
        · simp [hp]

theorem pData_spec (sel : List ℚ) (items : Assoc ℕ (List (ℚ × ℚ))) (acc : Assoc ℚ (List ℚ)) (hn : (acc.map (·.1)).Nodup) (p : ℚ) :
    ((pData sel items acc).map (·.1)).Nodup ∧
    (p ∈ (pData sel items acc).map (·.1) ↔ p ∈ acc.map (·.1) ∨ (p ∈ sel ∧ ∃ e ∈ items, ∃ x ∈ e.2, x.1 = p)) ∧
    ((pData sel items acc).lookup p).getD [] = (acc.lookup p).getD [] ++
      if p ∈ sel then items.flatMap fun e => (e.2.filter fun x => x.1 = p).map (·.2) else [] := by
  induction items generalizing acc with
  | nil => simp [pData, hn]
  | cons e items ih =>
    obtain ⟨d, pts⟩ := e
    rw [pData]
    obtain ⟨c1, c2, c3⟩ := collect_spec sel pts acc hn p
    obtain ⟨i1, i2, i3⟩ := ih _ c1
    refine ⟨i1, ?_, ?_⟩
    · rw [i2, c2]
      constructor
      · rintro ((h | ⟨h, hx⟩) | ⟨h, e, he, hx⟩)
        · exact .inl h
        · exact .inr ⟨h, (d, pts), List.mem_cons_self, hx⟩
        · exact .inr ⟨h, e, List.mem_cons_of_mem _ he, hx⟩
      · rintro (h | ⟨h, e, he, hx⟩)
        · exact .inl (.inl h)
        · rcases List.mem_cons.1 he with rfl | he
          · exact .inl (.inr ⟨h, hx⟩)
          · exact .inr ⟨h, e, he, hx⟩
    · rw [i3, c3, List.append_assoc]
      by_cases hp : p ∈ sel
      · simp [hp]
      · simp [hp]

theorem group_perm {A K : Type} [DecidableEq K] (key : A → K) (ks : List K) (hn : ks.Nodup) (l : List A) (h : ∀ a ∈ l, key a ∈ ks) :
    (ks.flatMap fun k => l.filter fun a => key a = k).Perm l := by
  induction ks generalizing l with
  | nil =>
    cases l with
    | nil => exact List.Perm.refl _
    | cons a l => exact absurd (h a List.mem_cons_self) (by simp)
  | cons k ks ih =>
    rw [List.nodup_cons] at hn
    rw [List.flatMap_cons]
    have e : (ks.flatMap fun k' => l.filter fun a => key a = k') =
        ks.flatMap fun k' => (l.filter fun a => !decide (key a = k)).filter fun a => key a = k' := by
      apply List.flatMap_congr
      intro k' hk'
      rw [List.filter_filter]
      apply List.filter_congr
      intro a _
      by_cases ha : key a = k'
      · have : key a ≠ k := fun h => hn.1 (h ▸ ha ▸ hk')
        simp only [ha, decide_true, Bool.true_and, Bool.and_true]
        rw [ha] at this
        simp [this]
      · simp [ha]
    rw [e]
    refine (List.Perm.append_left _ (ih hn.2 _ ?_)).trans (List.filter_append_perm _ l)
    intro a ha
    obtain ⟨h1, h2⟩ := List.mem_filter.1 ha
    rcases List.mem_cons.1 (h a h1) with h3 | h3
    · simp [h3] at h2
    · exact h3

/-- The keys of the sorted dictionary. -/
theorem sorted_keys (rs : List Res) : ((sortedMetrics rs).map (·.1)).Nodup ∧ (∀ r ∈ rs, r.distance ∈ (sortedMetrics rs).map (·.1)) ∧
    ∀ e ∈ sortedMetrics rs, e.2 = (dataOf (ofDistance rs e.1)).sort := by
  have e : (sortedMetrics rs).map (·.1) = (metrics rs).map (·.1) := by simp [sortedMetrics]
  refine ⟨by rw [e]; exact metrics_nodup rs, fun r hr => ?_, fun x hx => ?_⟩
  · exact List.mem_map.2 ⟨_, (mem_sortedItems _ _).1 ((mem_sorted rs r.distance _).2 ⟨⟨r, hr, rfl⟩, rfl⟩), rfl⟩
  · exact ((mem_sorted rs x.1 x.2).1 ((mem_sortedItems _ _).2 hx)).2

/-- The rows of a group, up to the order. -/
theorem rows_perm (rs : List Res) {B : Type} (F : ℕ → Res → List B) :
    ∃ g : ℕ → List Res, (∀ d, (g d).Perm (ofDistance rs d)) ∧ (∀ e ∈ sortedMetrics rs, e.2 = dataOf (g e.1)) ∧
      ∀ s : Assoc ℕ MData, s.Perm (sortedMetrics rs) →
        (s.flatMap fun e => (g e.1).flatMap (F e.1)).Perm (rs.flatMap fun r => F r.distance r) := by
  choose g h1 h2 h3 using fun d => sort_dataOf (ofDistance rs d)
  obtain ⟨k1, k2, k3⟩ := sorted_keys rs
  refine ⟨g, h1, fun e he => by rw [k3 e he, h3], fun s hs => ?_⟩
  have e1 : (s.flatMap fun e => (g e.1).flatMap (F e.1)).Perm
      ((sortedMetrics rs).flatMap fun e => (ofDistance rs e.1).flatMap fun r => F r.distance r) := by
    refine List.Perm.flatMap hs fun e _ => ?_
    refine ((h1 e.1).flatMap_right (F e.1)).trans (List.Perm.of_eq ?_)
    apply List.flatMap_congr
    intro r hr
    have := (List.mem_filter.1 hr).2
    rw [of_decide_eq_true this]
  refine e1.trans ?_
  have e2 : ((sortedMetrics rs).flatMap fun e => (ofDistance rs e.1).flatMap fun r => F r.distance r) =
      ((((sortedMetrics rs).map (·.1)).flatMap fun d => rs.filter fun r => r.distance = d).flatMap fun r => F r.distance r) := by
    rw [List.flatMap_map, List.flatMap_assoc]
    rfl
  rw [e2]
  exact (group_perm (fun r : Res => r.distance) _ k1 rs k2).flatMap_right _

/-- The five selected rates as decimals. -/
theorem pers_eq : pers = [0.001, 0.02, 0.05, 0.08, 0.13] := by norm_num [pers]

/-- The times of the rate `p`, distance by distance. -/
theorem times_of_line {rs : List Res} {ds : List Draw} (h : generatePlots rs = .ok ds) {j : ℕ} {p : ℚ} {xs ys : List ℚ}
    (hx : Draw.line 2 j p xs ys ∈ ds) : j = 1 ∧ p ∈ pers ∧ xs = ((sortedItems (sortedMetrics rs)).map fun e => (e.1 : ℚ)) ∧
      ys = ((sortedItems (sortedMetrics rs)).flatMap fun e => ((e.2.ps.zip e.2.times).filter fun x => x.1 = p).map (·.2)) := by
  rcases parts h _ hx with ⟨-, e, he, b, hb, hxb⟩ | ⟨-, e, he, hxe⟩ | ⟨h0, -⟩ | ⟨h0, -⟩
  · rw [(drawDistance_ok hb).2.2] at hxb
    rcases List.mem_append.1 hxb with hxb | hxb
    · obtain ⟨i, -, h0⟩ := List.mem_map.1 hxb
      cases h0
    · rw [List.mem_singleton] at hxb
      cases hxb
  · simp only [Draw.line.injEq, true_and] at hxe
    obtain ⟨rfl, rfl, rfl, rfl⟩ := hxe
    obtain ⟨s1, s2, s3⟩ := pData_spec pers ((sortedItems (sortedMetrics rs)).map fun e => (e.1, e.2.ps.zip e.2.times)) [] (by simp) e.1
    have hk := s2.1 (List.mem_map.2 ⟨e, he, rfl⟩)
    rcases hk with hk | ⟨hk, -⟩
    · simp at hk
    · rw [(mem_iff_lookup _ s1 e.1 e.2).1 he, if_pos hk] at s3
      refine ⟨rfl, hk, rfl, ?_⟩
      simpa [List.flatMap_map] using s3
  · cases h0
  · cases h0

/-- **C123, proved part.** If every distance has exactly one result for the rate `p`, then the curve for `p` of the time over the distance has
exactly the points (distance, time) of the results with this rate.  Missing from the claim: distances with no result or several results for `p`. -/
theorem C123_times_partial {rs : List Res} {ds : List Draw} (h : generatePlots rs = .ok ds) (p : ℚ)
    (hone : ∀ r ∈ rs, ((ofDistance rs r.distance).filter fun r => r.p = p).length = 1) (j : ℕ) (xs ys : List ℚ)
    (hx : Draw.line 2 j p xs ys ∈ ds) :
    j = 1 ∧ p ∈ ([0.001, 0.02, 0.05, 0.08, 0.13] : List ℚ) ∧ xs.length = ys.length ∧
      (xs.zip ys).Perm ((rs.filter fun r => r.p = p).map fun r => ((r.distance : ℚ), r.time)) := by
  obtain ⟨rfl, hp, rfl, rfl⟩ := times_of_line h hx
  obtain ⟨g, g1, g2, g3⟩ := rows_perm rs (fun d r => if r.p = p then [((d : ℚ), r.time)] else [])
  have hs := sortedItems_perm (sortedMetrics rs)
  have key : ∀ e ∈ sortedItems (sortedMetrics rs), ∃ t, ((e.2.ps.zip e.2.times).filter fun x => x.1 = p).map (·.2) = [t] ∧
      ((g e.1).flatMap fun r => if r.p = p then [((e.1 : ℚ), r.time)] else []) = [((e.1 : ℚ), t)] := by
    intro e he
    obtain ⟨⟨r, hr, hd⟩, -⟩ := (mem_sorted rs e.1 e.2).1 he
    have h1 := hone r hr
    rw [hd, ← ((g1 e.1).filter _).length_eq] at h1
    obtain ⟨a, ha⟩ := List.length_eq_one_iff.1 h1
    refine ⟨a.time, ?_, ?_⟩
    · rw [g2 e ((mem_sortedItems _ _).1 he)]
      simp only [dataOf]
      rw [zip_map_map, List.filter_map, List.map_map]
      have : ((fun x : ℚ × ℚ => decide (x.1 = p)) ∘ fun a : Res => (a.p, a.time)) = fun a : Res => decide (a.p = p) := rfl
      rw [this, ha]
      rfl
    · have : ((g e.1).flatMap fun r => if r.p = p then [((e.1 : ℚ), r.time)] else []) =
          ((g e.1).filter fun r => r.p = p).map fun r => ((e.1 : ℚ), r.time) := by
        induction g e.1 with
        | nil => rfl
        | cons b l ih => by_cases hb : b.p = p <;> simp [hb, ih]
      rw [this, ha]
      rfl
  have hz : ∀ s : Assoc ℕ MData, (∀ e ∈ s, ∃ t, ((e.2.ps.zip e.2.times).filter fun x => x.1 = p).map (·.2) = [t] ∧
      ((g e.1).flatMap fun r => if r.p = p then [((e.1 : ℚ), r.time)] else []) = [((e.1 : ℚ), t)]) →
      s.length = (s.flatMap fun e => ((e.2.ps.zip e.2.times).filter fun x => x.1 = p).map (·.2)).length ∧
      (s.map fun e => (e.1 : ℚ)).zip (s.flatMap fun e => ((e.2.ps.zip e.2.times).filter fun x => x.1 = p).map (·.2)) =
        s.flatMap fun e => (g e.1).flatMap fun r => if r.p = p then [((e.1 : ℚ), r.time)] else [] := by
    intro s hs
    induction s with
    | nil => simp
    | cons e s ih =>
      obtain ⟨t, t1, t2⟩ := hs e List.mem_cons_self
      obtain ⟨i1, i2⟩ := ih fun e he => hs e (List.mem_cons_of_mem _ he)
      rw [List.flatMap_cons, List.flatMap_cons, t1, t2, ← i2]
      simp only [List.length_cons, List.length_append, List.length_nil]
      exact ⟨by omega, rfl⟩
  obtain ⟨z1, z2⟩ := hz _ key
  refine ⟨rfl, pers_eq ▸ hp, by rw [List.length_map]; exact z1, ?_⟩
  rw [z2]
  refine (g3 _ hs).trans (List.Perm.of_eq ?_)
  clear z1 z2 hz key hx h hone g g1 g2 g3 hs
  induction rs with
  | nil => rfl
  | cons b l ih => by_cases hb : b.p = p <;> simp [hb, ih]

/-- **C123.** If there are results for one of the five selected rates, but their number is not the number of distances, then nothing is plotted:
`generate_plots` ends with an exception. -/
theorem C123_mismatch (rs : List Res) (p : ℚ) (hp5 : p ∈ ([0.001, 0.02, 0.05, 0.08, 0.13] : List ℚ)) (hr : ∃ r ∈ rs, r.p = p)
    (hne : (rs.filter fun r => r.p = p).length ≠ ((rs.map (·.distance)).dedup).length) (ds : List Draw) : generatePlots rs ≠ .ok ds := by
  intro h
  have hp : p ∈ pers := pers_eq ▸ hp5
  obtain ⟨a, b, c, d, e, h1, h2, h3, h4, h5, hds⟩ := generatePlots_ok h
  obtain ⟨s1, s2, s3⟩ := pData_spec pers ((sortedItems (sortedMetrics rs)).map fun e => (e.1, e.2.ps.zip e.2.times)) [] (by simp) p
  obtain ⟨r, hr, hrp⟩ := hr
  obtain ⟨g, g1, g2, g3⟩ := rows_perm rs (fun _ r' => if r'.p = p then [r'.time] else [])
  have hgm : ∀ e ∈ sortedItems (sortedMetrics rs), e.2 = dataOf (g e.1) := fun e he => g2 e ((mem_sortedItems _ _).1 he)
  have he := (mem_sorted rs r.distance _).2 ⟨⟨r, hr, rfl⟩, rfl⟩
  have hrg : r ∈ g r.distance := (g1 _).mem_iff.2 (List.mem_filter.2 ⟨hr, by simp⟩)
  have hk := s2.2 (.inr ⟨hp, _, List.mem_map.2 ⟨_, he, rfl⟩, (r.p, r.time), by
    rw [hgm _ he]
    simp only [dataOf]
    rw [zip_map_map]
    exact List.mem_map.2 ⟨r, hrg, rfl⟩, hrp⟩)
  obtain ⟨⟨q, ts⟩, hq, hqe⟩ := List.mem_map.1 hk
  simp only at hqe
  subst hqe
  have hl := (drawTimes_ok h2).1 _ ((mem_sortedItems _ _).2 hq)
  rw [(mem_iff_lookup _ s1 q ts).1 hq, if_pos hp] at s3
  simp only [Option.getD_some, List.lookup_nil, Option.getD_none, List.nil_append, List.flatMap_map] at s3
  have e1 : ts.length = (rs.filter fun r' => r'.p = q).length := by
    have hf : ((sortedItems (sortedMetrics rs)).flatMap fun e => ((e.2.ps.zip e.2.times).filter fun x => x.1 = q).map (·.2)) =
        (sortedItems (sortedMetrics rs)).flatMap fun e => (g e.1).flatMap fun r' => if r'.p = q then [r'.time] else [] := by
      apply List.flatMap_congr
      intro e he
      rw [hgm e he]
      simp only [dataOf]
      rw [zip_map_map]
      induction g e.1 with
      | nil => rfl
      | cons b l ih => by_cases hb : b.p = q <;> simp [hb, ih]
    rw [s3, hf, (g3 _ (sortedItems_perm _)).length_eq]
    clear * -
    induction rs with
    | nil => rfl
    | cons b l ih => by_cases hb : b.p = q <;> simp [hb, ih]
  have e2 : (sortedItems (sortedMetrics rs)).length = ((rs.map (·.distance)).dedup).length := by
    rw [(sortedItems_perm _).length_eq, ← List.length_map (f := (·.1))]
    apply List.Perm.length_eq
    rw [List.perm_ext_iff_of_nodup (sorted_keys rs).1 (List.nodup_dedup _)]
    intro x
    rw [List.mem_dedup]
    constructor
    · intro hx
      obtain ⟨y, hy, rfl⟩ := List.mem_map.1 hx
      obtain ⟨⟨r', hr', hd⟩, -⟩ := (mem_sorted rs y.1 y.2).1 ((mem_sortedItems _ _).2 hy)
      exact List.mem_map.2 ⟨r', hr', hd⟩
    · intro hx
      obtain ⟨r', hr', rfl⟩ := List.mem_map.1 hx
      exact (sorted_keys rs).2.1 r' hr'
  rw [List.length_map, e2] at hl
  exact hne (e1.symm.trans hl.symm)

/-! ## Thresholds -/

/-- **C123, proved part.** The fit in every column uses the rates of the *first* logical operator, with error rates between 6% and 13%.  Missing
from the claim: the logical operator of the column. -/
theorem C123_threshold_partial {rs : List Res} {ds : List Draw} (h : generatePlots rs = .ok ds) (col : ℕ) (ps : List ℚ) (dist : List ℕ)
    (ys : List ℚ) (hx : Draw.fit col ps dist ys ∈ ds) :
    (ps.zip (dist.zip ys)).Perm ((rs.filter fun r => 6 / 100 < r.p ∧ r.p < 13 / 100).map fun r => (r.p, r.distance, r.lers.getD 0 0)) := by
  rcases parts h _ hx with ⟨h0, -⟩ | ⟨h0, -⟩ | ⟨-, e, he, c, hc, b, hb, hxb⟩ | ⟨h0, -⟩
  · cases h0
  · cases h0
  · rw [threshold_ok hb] at hxb
    rcases List.mem_cons.1 hxb with hxb | hxb
    · simp only [Draw.fit.injEq] at hxb
      obtain ⟨rfl, rfl, rfl, rfl⟩ := hxb
      rw [zip_map_map, zip_map_map]
      simp only [Prod.mk.eta, List.map_id']
      obtain ⟨g, g1, g2, g3⟩ := rows_perm rs
        (fun d r => if 6 / 100 < r.p ∧ r.p < 13 / 100 then [(r.p, d, r.lers.getD 0 0)] else [])
      have hf : ((sortedMetrics rs).flatMap fun e => ((e.2.ps.zip e.2.lers).filter fun r => 6 / 100 < r.1 ∧ r.1 < 13 / 100).map
            fun r => (r.1, e.1, r.2.getD 0 0)) =
          (sortedMetrics rs).flatMap fun e => (g e.1).flatMap fun r =>
            if 6 / 100 < r.p ∧ r.p < 13 / 100 then [(r.p, e.1, r.lers.getD 0 0)] else [] := by
        apply List.flatMap_congr
        intro e he
        rw [g2 e he]
        simp only [dataOf]
        rw [zip_map_map]
        induction g e.1 with
        | nil => rfl
        | cons b l ih =>
          by_cases hb : 6 / 100 < b.p ∧ b.p < 13 / 100
          · rw [List.map_cons, List.filter_cons_of_pos (by simpa using hb), List.map_cons, List.flatMap_cons, if_pos hb, ih]
            rfl
          · rw [List.map_cons, List.filter_cons_of_neg (by simpa using hb), List.flatMap_cons, if_neg hb, ih]
            rfl
      rw [hf]
      refine (g3 _ (List.Perm.refl _)).trans (List.Perm.of_eq ?_)
      clear * -
      induction rs with
      | nil => rfl
      | cons b l ih =>
        by_cases hb : 6 / 100 < b.p ∧ b.p < 13 / 100
        · rw [List.flatMap_cons, if_pos hb, List.filter_cons_of_pos (by simpa using hb), List.map_cons, ih]
          rfl
        · rw [List.flatMap_cons, if_neg hb, List.filter_cons_of_neg (by simpa using hb), ih]
          rfl
    · obtain ⟨i, -, h0⟩ := List.mem_map.1 hxb
      cases h0
  · cases h0

/-! ## Rates over distances -/

theorem foldl_last {A V : Type} (l : List A) (f : A → V) (v : V) : l.foldl (fun _ r => f r) v = (l.getLast?.map f).getD v := by
  induction l using List.reverseRecOn with
  | nil => rfl
  | append_singleton l a _ => simp

/-- **C123.** The plot of the rate over the distance needs results for the rate 1%, and shows for every distance the first logical operator of
the last such result that was found. -/
theorem C123_rate_over_distance {rs : List Res} {ds : List Draw} (h : generatePlots rs = .ok ds) :
    (∃ r ∈ rs, r.p = 1 / 100) ∧ ∃ xs ys, Draw.line 3 0 (1 / 100) xs ys ∈ ds ∧ xs.length = ys.length ∧
      ∀ pt, pt ∈ xs.zip ys ↔ ∃ r, (rs.filter fun r' => r'.p = 1 / 100 ∧ r'.distance = r.distance).getLast? = some r ∧
        pt = ((r.distance : ℚ), r.lers.getD 0 0) := by
  obtain ⟨a, b, c, d, e, -, -, -, -, h5, rfl⟩ := generatePlots_ok h
  obtain ⟨m, h6, -, rfl⟩ := lerVsDistance_ok h5
  have hn := group_nodup (V := Assoc ℕ (List ℚ)) [] (fun r : Res => r.p) (fun r e => alter [] (fun _ => r.lers) r.distance e) rs
  have hm := (mem_group (V := Assoc ℕ (List ℚ)) [] (fun r : Res => r.p) (fun r e => alter [] (fun _ => r.lers) r.distance e) rs (1 / 100) m).1
    ((mem_iff_lookup _ hn.1 _ _).2 h6)
  obtain ⟨h7, h8⟩ := hm
  refine ⟨h7, _, _, List.mem_append_right _ (List.mem_append_right _ (List.mem_append_right _ (List.mem_singleton.2 rfl))), by simp, ?_⟩
  intro pt
  rw [zip_map_map, List.mem_map]
  have hg := mem_group (V := List ℚ) [] (fun r : Res => r.distance) (fun r _ => r.lers) (rs.filter fun r => r.p = 1 / 100)
  have hgm : m = group (V := List ℚ) [] (fun r : Res => r.distance) (fun r _ => r.lers) (rs.filter fun r => r.p = 1 / 100) := h8
  have hff : ∀ k, ((rs.filter fun r => r.p = 1 / 100).filter fun r => r.distance = k) =
      rs.filter fun r' => r'.p = 1 / 100 ∧ r'.distance = k := by
    intro k
    rw [List.filter_filter]
    apply List.filter_congr
    intro x _
    simp only [Bool.decide_and, Bool.and_comm]
  constructor
  · rintro ⟨⟨k, v⟩, hk, rfl⟩
    rw [mem_sortedItems, hgm, hg, foldl_last, hff] at hk
    obtain ⟨⟨r, hr, rfl⟩, rfl⟩ := hk
    cases hl : (rs.filter fun r' => r'.p = 1 / 100 ∧ r'.distance = r.distance).getLast? with
    | none =>
      rw [List.getLast?_eq_none_iff] at hl
      have hr' := List.mem_filter.1 hr
      have : r ∈ rs.filter fun r' => r'.p = 1 / 100 ∧ r'.distance = r.distance :=
        List.mem_filter.2 ⟨hr'.1, by simpa using hr'.2⟩
      rw [hl] at this
      cases this
    | some r0 =>
      have hd : r0.distance = r.distance := by
        have := (List.mem_filter.1 (List.mem_of_getLast? hl)).2
        simp only [decide_eq_true_eq] at this
        exact this.2
      refine ⟨r0, by rw [hd]; exact hl, ?_⟩
      simp only [hd, Option.map_some, Option.getD_some]
  · rintro ⟨r, hr, rfl⟩
    refine ⟨(r.distance, r.lers), ?_, rfl⟩
    rw [mem_sortedItems, hgm, hg, foldl_last, hff, hr]
    have hmem := List.mem_filter.1 (List.mem_of_getLast? hr)
    have h2 := hmem.2
    simp only [decide_eq_true_eq] at h2
    exact ⟨⟨r, List.mem_filter.2 ⟨hmem.1, by simpa using h2.1⟩, rfl⟩, rfl⟩

/-! ## Examples and violations -/

/-- Results with two rates for two distances. -/
def exampleResults : List Res :=
  [⟨5, 1 / 100, [1 / 10], [1 / 50], 7⟩, ⟨3, 1 / 100, [2 / 10], [1 / 60], 5⟩, ⟨3, 1 / 1000, [1 / 10], [1 / 70], 4⟩,
    ⟨5, 1 / 1000, [0], [0], 6⟩]

theorem exampleResults_ok : generatePlots exampleResults = .ok
    [.bars 0 0 3 [1 / 1000, 1 / 100] [1 / 10, 2 / 10] [1 / 70, 1 / 60], .line 1 0 3 [1 / 1000, 1 / 100] [4, 5],
      .bars 0 0 5 [1 / 1000, 1 / 100] [0, 1 / 10] [0, 1 / 50], .line 1 0 5 [1 / 1000, 1 / 100] [6, 7],
      .line 2 1 (1 / 1000) [3, 5] [4, 6], .fit 0 [] [] [],
      .bars 1 0 3 [1 / 1000, 1 / 100] [1 / 10, 2 / 10] [1 / 70, 1 / 60], .bars 1 0 5 [1 / 1000, 1 / 100] [0, 1 / 10] [0, 1 / 50],
      .line 3 0 (1 / 100) [3, 5] [2 / 10, 1 / 10]] := by decide +kernel

example : ([3, 5].zip [4, 6] : List (ℚ × ℚ)).Perm
    ((exampleResults.filter fun r => r.p = 1 / 1000).map fun r => ((r.distance : ℚ), r.time)) :=
  (C123_times_partial exampleResults_ok (1 / 1000) (by decide +kernel) 1 _ _ (by simp)).2.2.2

example (j d : ℕ) (xs ys es : List ℚ) (hx : Draw.bars 0 j d xs ys es ∈ [Draw.bars 0 0 3 [1 / 1000, 1 / 100] [1 / 10, 2 / 10] [1 / 70, 1 / 60],
      .line 1 0 3 [1 / 1000, 1 / 100] [4, 5],
      .bars 0 0 5 [1 / 1000, 1 / 100] [0, 1 / 10] [0, 1 / 50], .line 1 0 5 [1 / 1000, 1 / 100] [6, 7],
      .line 2 1 (1 / 1000) [3, 5] [4, 6], .fit 0 [] [] [],
      .bars 1 0 3 [1 / 1000, 1 / 100] [1 / 10, 2 / 10] [1 / 70, 1 / 60], .bars 1 0 5 [1 / 1000, 1 / 100] [0, 1 / 10] [0, 1 / 50],
      .line 3 0 (1 / 100) [3, 5] [2 / 10, 1 / 10]]) : xs.Pairwise (· ≤ ·) := ((C123_rates exampleResults_ok).1 j d xs ys es hx).1

/-- Two results (say, of the two lattices) for the distance 3 and the rate 0.001, none for the distance 5 and this rate. -/
def wrongPoint : List Res :=
  [⟨3, 1 / 1000, [0], [0], 4⟩, ⟨3, 1 / 1000, [0], [0], 9⟩, ⟨5, 1 / 100, [0], [0], 100⟩]

/-- **C123 is violated**: the second time of distance 3 is plotted as the time of distance 5. -/
theorem C123_violated_times : ¬ C123_times_claim := by
  intro h
  have h1 : ∃ ds, generatePlots wrongPoint = .ok ds ∧ Draw.line 2 1 (1 / 1000) [3, 5] [4, 9] ∈ ds :=
    ⟨[.bars 0 0 3 [1 / 1000, 1 / 1000] [0, 0] [0, 0], .line 1 0 3 [1 / 1000, 1 / 1000] [4, 9], .bars 0 0 5 [1 / 100] [0] [0],
      .line 1 0 5 [1 / 100] [100], .line 2 1 (1 / 1000) [3, 5] [4, 9], .fit 0 [] [] [],
      .bars 1 0 3 [1 / 1000, 1 / 1000] [0, 0] [0, 0], .bars 1 0 5 [1 / 100] [0] [0], .line 3 0 (1 / 100) [5] [0]], by decide +kernel, by simp⟩
  obtain ⟨ds, h2, h3⟩ := h1
  obtain ⟨r, hr, e1, e2, e3⟩ := h wrongPoint ds h2 _ _ _ h3 (5, 9) (by simp)
  simp only [wrongPoint, List.mem_cons, List.not_mem_nil, or_false] at hr
  rcases hr with rfl | rfl | rfl
  · norm_num at e1
  · norm_num at e1
  · norm_num at e3

/-- Results of a code with two logical operators. -/
def twoLogicals : List Res := [⟨3, 1 / 10, [1 / 10, 3 / 10], [0, 0], 4⟩, ⟨3, 1 / 100, [0, 0], [0, 0], 4⟩]

/-- **C123 is violated**: the fit for the second logical operator uses the rates of the first one. -/
theorem C123_violated_threshold : ¬ C123_threshold_claim := by
  intro h
  have h1 : ∃ ds, generatePlots twoLogicals = .ok ds ∧ Draw.fit 1 [1 / 10] [3] [1 / 10] ∈ ds :=
    ⟨[.bars 0 0 3 [1 / 100, 1 / 10] [0, 1 / 10] [0, 0], .bars 0 1 3 [1 / 100, 1 / 10] [0, 3 / 10] [0, 0], .line 1 0 3 [1 / 100, 1 / 10] [4, 4],
      .fit 0 [1 / 10] [3] [1 / 10], .bars 1 0 3 [1 / 100, 1 / 10] [0, 1 / 10] [0, 0],
      .fit 1 [1 / 10] [3] [1 / 10], .bars 1 1 3 [1 / 100, 1 / 10] [0, 1 / 10] [0, 0], .line 3 0 (1 / 100) [3] [0]], by decide +kernel, by simp⟩
  obtain ⟨ds, h2, h3⟩ := h1
  obtain ⟨r, hr, e1, e2, e3⟩ := h twoLogicals ds h2 _ _ _ _ h3 (1 / 10, 3, 1 / 10) (by simp)
  simp only [twoLogicals, List.mem_cons, List.not_mem_nil, or_false] at hr
  rcases hr with rfl | rfl
  · norm_num at e3
  · norm_num at e1

/-- **C123 is violated**: a rate that has been simulated for one of two distances only ends the plotting with an exception, and so do results
without the rate 1%. -/
theorem C123_violated_success : ¬ C123_success_claim ∧
    generatePlots [⟨3, 1 / 1000, [0], [0], 4⟩, ⟨5, 1 / 100, [0], [0], 4⟩] = .error .valueError ∧
    generatePlots [⟨3, 1 / 1000, [0], [0], 4⟩] = .error .keyError ∧ generatePlots [] = .error .unboundLocal := by
  refine ⟨fun h => ?_, by decide +kernel, by decide +kernel, by decide +kernel⟩
  obtain ⟨ds, hd⟩ := h [⟨3, 1 / 1000, [0], [0], 4⟩] 1 (by simp) (by decide) (by decide) (by simp)
  have : generatePlots [⟨3, 1 / 1000, [0], [0], 4⟩] = .error .keyError := by decide +kernel
  rw [this] at hd
  cases hd

example (ds : List Draw) : generatePlots [⟨3, 1 / 1000, [0], [0], 4⟩, ⟨5, 1 / 100, [0], [0], 4⟩] ≠ .ok ds :=
  C123_mismatch _ (1 / 1000) (by decide +kernel) ⟨_, List.mem_cons_self, rfl⟩ (by decide +kernel) ds

/-! ## The tensor-network decoder -/

/-- The points of a distance. -/
theorem mem_xys (pts : List (ℕ × ℚ × ℚ)) (d : ℕ) (l : List (ℚ × ℚ)) : (d, l) ∈ xys pts → (∃ x ∈ pts, x.1 = d) ∧
    l.Perm ((pts.filter fun x => x.1 = d).map (·.2)) ∧ (l.map (·.1)).Pairwise (· ≤ ·) := by
  intro h
  obtain ⟨⟨d', l'⟩, h1, h2⟩ := List.mem_map.1 h
  obtain ⟨rfl, rfl⟩ := Prod.mk.inj h2
  have h3 := (mem_group (V := List (ℚ × ℚ)) [] (fun x : ℕ × ℚ × ℚ => x.1) (fun x v => v ++ [x.2]) pts d' l').1 h1
  rw [foldl_append_singleton, List.nil_append] at h3
  refine ⟨h3.1, (List.perm_insertionSort _ _).trans (List.Perm.of_eq h3.2), ?_⟩
  rw [List.pairwise_map]
  have : IsTrans (ℚ × ℚ) fun a b => a.1 ≤ b.1 := ⟨fun _ _ _ => le_trans⟩
  have : Std.Total fun a b : ℚ × ℚ => a.1 ≤ b.1 := ⟨fun _ _ => le_total _ _⟩
  exact List.pairwise_insertionSort (fun a b : ℚ × ℚ => a.1 ≤ b.1) l'

theorem tnTimes_ok {rs : List TnRes} {ts : List (ℕ × ℚ × ℚ)} (h : tnTimes rs = .ok ts) :
    (∀ r ∈ rs, r.runs ≠ 0) ∧ ts = rs.map fun r => (r.d, r.p, r.wall / (r.runs : ℚ) * 1000000) := by
  induction rs generalizing ts with
  | nil =>
    simp only [tnTimes, Except.ok.injEq] at h
    simp [← h]
  | cons r rs ih =>
    simp only [tnTimes, bind, Except.bind, pure, Except.pure] at h
    split_ifs at h with h0
    cases h1 : tnTimes rs with
    | error e => rw [h1] at h; cases h
    | ok b =>
      rw [h1] at h
      obtain ⟨i1, i2⟩ := ih h1
      refine ⟨fun r' hr' => ?_, by rw [List.map_cons, ← i2]; exact (Except.ok.inj h).symm⟩
      rcases List.mem_cons.1 hr' with rfl | hr'
      · exact h0
      · exact i1 r' hr'

/-- **C123, tensor networks.** The curves over the error rate have exactly one point for every result of the distance, ordered by the error
rate: the measured rates, and the microseconds per run. -/
theorem C123_tn_curves {rs : List TnRes} {ds : List Draw} (h : generatePlotsTn rs = .ok ds) :
    (∀ l xs ys, Draw.line 0 0 l xs ys ∈ ds → ∃ d : ℕ, l = d ∧ xs.Pairwise (· ≤ ·) ∧
      (xs.zip ys).Perm ((rs.filter fun r => r.d = d).map fun r => (r.physical, r.logical))) ∧
    (∀ l xs ys, Draw.line 1 0 l xs ys ∈ ds → ∃ d : ℕ, l = d ∧ xs.Pairwise (· ≤ ·) ∧
      (xs.zip ys).Perm ((rs.filter fun r => r.d = d).map fun r => (r.p, r.wall / r.runs * 1000000))) := by
  simp only [generatePlotsTn, bind, Except.bind, pure, Except.pure] at h
  cases ht : tnTimes rs with
  | error e => rw [ht] at h; cases h
  | ok ts =>
    rw [ht] at h
    simp only at h
    cases hc : drawTimes 1 ((sortedItems (xys ts)).map fun e => (e.1 : ℚ)) (sortedItems (pData tnPers (sortedItems (xys ts)) [])) with
    | error e => rw [hc] at h; cases h
    | ok c =>
      rw [hc] at h
      have hds := Except.ok.inj h
      subst hds
      have hts := (tnTimes_ok ht).2
      have hcn : ∀ row l xs ys, Draw.line row 0 l xs ys ∉ c := by
        intro row l xs ys hm
        rw [(drawTimes_ok hc).2] at hm
        obtain ⟨e, -, he⟩ := List.mem_map.1 hm
        cases he
      have key : ∀ row row' (pts : List (ℕ × ℚ × ℚ)) l xs ys, Draw.line row 0 l xs ys ∈ tnLines row' (xys pts) → row = row' ∧
          ∃ d : ℕ, l = d ∧ xs.Pairwise (· ≤ ·) ∧ (xs.zip ys).Perm ((pts.filter fun x => x.1 = d).map (·.2)) := by
        intro row row' pts l xs ys hm
        obtain ⟨⟨d, pl⟩, he, hl⟩ := List.mem_map.1 hm
        simp only [Draw.line.injEq, true_and] at hl
        obtain ⟨rfl, rfl, rfl, rfl⟩ := hl
        obtain ⟨-, h2, h3⟩ := mem_xys pts d pl ((mem_sortedItems _ _).1 he)
        refine ⟨rfl, d, rfl, h3, ?_⟩
        rw [zip_map_map]
        simpa using h2
      constructor
      · intro l xs ys hm
        rcases List.mem_append.1 hm with hm | hm
        · obtain ⟨-, d, h1, h2, h3⟩ := key _ _ _ l xs ys hm
          refine ⟨d, h1, h2, h3.trans (List.Perm.of_eq ?_)⟩
          rw [List.filter_map, List.map_map]
          rfl
        · rcases List.mem_append.1 hm with hm | hm
          · obtain ⟨h0, -⟩ := key _ _ _ l xs ys hm
            exact absurd h0 (by decide)
          · exact absurd hm (hcn _ _ _ _)
      · intro l xs ys hm
        rcases List.mem_append.1 hm with hm | hm
        · obtain ⟨h0, -⟩ := key _ _ _ l xs ys hm
          exact absurd h0 (by decide)
        · rcases List.mem_append.1 hm with hm | hm
          · obtain ⟨-, d, h1, h2, h3⟩ := key _ _ _ l xs ys hm
            refine ⟨d, h1, h2, h3.trans (List.Perm.of_eq ?_)⟩
            rw [hts, List.filter_map, List.map_map]
            rfl
          · exact absurd hm (hcn _ _ _ _)

/-- **C123, tensor networks.** The curves over the distance are those of the five rates 0.001, 0.021, 0.051, 0.081 and 0.111, have as many
distances as times, and show all times of the results with this rate and no others. -/
theorem C123_tn_rates {rs : List TnRes} {ds : List Draw} (h : generatePlotsTn rs = .ok ds) (p : ℚ) (xs ys : List ℚ)
    (hx : Draw.line 1 1 p xs ys ∈ ds) : p ∈ ([0.001, 0.021, 0.051, 0.081, 0.111] : List ℚ) ∧ xs.length = ys.length ∧
      ∀ t, t ∈ ys ↔ ∃ r ∈ rs, r.p = p ∧ r.wall / r.runs * 1000000 = t := by
  have hpers : tnPers = [0.001, 0.021, 0.051, 0.081, 0.111] := by norm_num [tnPers]
  simp only [generatePlotsTn, bind, Except.bind, pure, Except.pure] at h
  cases ht : tnTimes rs with
  | error e => rw [ht] at h; cases h
  | ok ts =>
    rw [ht] at h
    simp only at h
    cases hc : drawTimes 1 ((sortedItems (xys ts)).map fun e => (e.1 : ℚ)) (sortedItems (pData tnPers (sortedItems (xys ts)) [])) with
    | error e => rw [hc] at h; cases h
    | ok c =>
      rw [hc] at h
      have hds := Except.ok.inj h
      subst hds
      have hts := (tnTimes_ok ht).2
      have hnl : ∀ row (x : Assoc ℕ (List (ℚ × ℚ))), Draw.line 1 1 p xs ys ∉ tnLines row x := by
        intro row x hm
        obtain ⟨e, -, he⟩ := List.mem_map.1 hm
        simp at he
      rcases List.mem_append.1 hx with hm | hm
      · exact absurd hm (hnl _ _)
      rcases List.mem_append.1 hm with hm | hm
      · exact absurd hm (hnl _ _)
      obtain ⟨d1, d2⟩ := drawTimes_ok hc
      rw [d2] at hm
      obtain ⟨⟨q, l⟩, he, hl⟩ := List.mem_map.1 hm
      simp only [Draw.line.injEq, true_and] at hl
      obtain ⟨rfl, rfl, rfl⟩ := hl
      obtain ⟨s1, s2, s3⟩ := pData_spec tnPers (sortedItems (xys ts)) [] (by simp) q
      have he' := (mem_sortedItems _ _).1 he
      have hk : q ∈ tnPers := by
        rcases s2.1 (List.mem_map.2 ⟨_, he', rfl⟩) with hk | ⟨hk, -⟩
        · simp at hk
        · exact hk
      refine ⟨hpers ▸ hk, d1 _ he, fun t => ?_⟩
      rw [(mem_iff_lookup _ s1 q l).1 he', if_pos hk] at s3
      simp only [Option.getD_some, List.lookup_nil, Option.getD_none, List.nil_append] at s3
      rw [s3]
      have hmem : ∀ d (x : ℚ × ℚ), (∃ pl, (d, pl) ∈ sortedItems (xys ts) ∧ x ∈ pl) ↔ (d, x) ∈ ts := by
        intro d x
        constructor
        · rintro ⟨pl, h1, h2⟩
          have h3 := (mem_xys ts d pl ((mem_sortedItems _ _).1 h1)).2.1.mem_iff.1 h2
          obtain ⟨⟨d', x'⟩, h4, rfl⟩ := List.mem_map.1 h3
          obtain ⟨h4, h5⟩ := List.mem_filter.1 h4
          have h5 : d' = d := of_decide_eq_true h5
          exact h5 ▸ h4
        · intro hm
          have hg := (mem_group (V := List (ℚ × ℚ)) [] (fun x : ℕ × ℚ × ℚ => x.1) (fun x v => v ++ [x.2]) ts d _).2 ⟨⟨_, hm, rfl⟩, rfl⟩
          have hxy : (d, _) ∈ xys ts := List.mem_map.2 ⟨_, hg, rfl⟩
          refine ⟨_, (mem_sortedItems _ _).2 hxy, (mem_xys ts d _ hxy).2.1.mem_iff.2 ?_⟩
          exact List.mem_map.2 ⟨_, List.mem_filter.2 ⟨hm, by simp⟩, rfl⟩
      constructor
      · intro hm
        obtain ⟨⟨d, pl⟩, he, hm⟩ := List.mem_flatMap.1 hm
        obtain ⟨x, hx, rfl⟩ := List.mem_map.1 hm
        obtain ⟨hx, hq⟩ := List.mem_filter.1 hx
        have h1 := (hmem d x).1 ⟨pl, he, hx⟩
        rw [hts] at h1
        obtain ⟨r, hr, hre⟩ := List.mem_map.1 h1
        cases hre
        exact ⟨r, hr, of_decide_eq_true hq, rfl⟩
      · rintro ⟨r, hr, rfl, rfl⟩
        obtain ⟨pl, h1, h2⟩ := (hmem r.d (r.p, r.wall / r.runs * 1000000)).2 (by rw [hts]; exact List.mem_map.2 ⟨r, hr, rfl⟩)
        exact List.mem_flatMap.2 ⟨_, h1, List.mem_map.2 ⟨_, List.mem_filter.2 ⟨h2, by simp⟩, rfl⟩⟩

/-- Results of the tensor-network decoder: two for the distance 3 and the rate 0.001, none for the distance 5 and this rate. -/
def tnWrong : List TnRes := [⟨3, 1 / 1000, 0, 1 / 1000, 2, 1000000⟩, ⟨3, 2 / 1000, 0, 1 / 1000, 4, 1000000⟩, ⟨5, 0, 0, 1 / 100, 8, 1000000⟩]

theorem tnWrong_ok : generatePlotsTn tnWrong = .ok [.line 0 0 3 [1 / 1000, 2 / 1000] [0, 0], .line 0 0 5 [0] [0],
    .line 1 0 3 [1 / 1000, 1 / 1000] [2, 4], .line 1 0 5 [1 / 100] [8], .line 1 1 (1 / 1000) [3, 5] [2, 4]] := by decide +kernel

example : ∃ d : ℕ, (3 : ℚ) = d ∧ [(1 / 1000 : ℚ), 1 / 1000].Pairwise (· ≤ ·) ∧ ([(1 / 1000 : ℚ), 1 / 1000].zip [(2 : ℚ), 4]).Perm
    ((tnWrong.filter fun r => r.d = d).map fun r => (r.p, r.wall / r.runs * 1000000)) :=
  (C123_tn_curves tnWrong_ok).2 3 _ _ (by simp)

/-- The curve of the rate 0.001 of these results has both times. -/
example : (4 : ℚ) ∈ [(2 : ℚ), 4] := ((C123_tn_rates tnWrong_ok (1 / 1000) [3, 5] [2, 4] (by simp)).2.2 4).2
  ⟨⟨3, 2 / 1000, 0, 1 / 1000, 4, 1000000⟩, by simp [tnWrong], rfl, by norm_num⟩

/-- **C123 is violated for tensor networks as well**: a time of distance 3 is plotted as the time of distance 5, whose only result has another
rate and another time. -/
theorem C123_violated_tn : ∃ rs ds p xs ys, generatePlotsTn rs = .ok ds ∧ Draw.line 1 1 p xs ys ∈ ds ∧
    ∃ pt ∈ xs.zip ys, ∀ r ∈ rs, ¬ ((r.d : ℚ) = pt.1 ∧ (r.p = p ∨ r.wall / r.runs * 1000000 = pt.2)) := by
  refine ⟨tnWrong, _, 1 / 1000, [3, 5], [2, 4], tnWrong_ok, by simp, (5, 4), by simp, ?_⟩
  intro r hr
  simp only [tnWrong, List.mem_cons, List.not_mem_nil, or_false] at hr
  rcases hr with rfl | rfl | rfl <;> norm_num

end Verif.Plots
