import Verif.Model.NumPlots
import Mathlib.Tactic.IntervalCases
import Mathlib.Data.List.Induction

/-! # C142: figures of run times and word error rates -/

namespace Verif.NumPlots
open Verif

/-! ## Specification -/

/-- `np.argsort`: the indices in an order in which the values increase. -/
def IsArgsort (argsort : List ℚ → List ℕ) : Prop :=
  ∀ l, (argsort l).Perm (List.range l.length) ∧ ((argsort l).map fun i => l.getD i 0).Pairwise (· ≤ ·)

/-- A curve shows data: its x values increase, and its points are the data. -/
def Shows (xs ys : List ℚ) (data : List (ℚ × ℚ)) : Prop :=
  xs.length = ys.length ∧ xs.Pairwise (· ≤ ·) ∧ (xs.zip ys).Perm data

/-- Code lengths with times in seconds. -/
def seconds (rs : List (ℚ × ℚ)) : List (ℚ × ℚ) := rs.map fun r => (r.1, r.2 / 1000)

/-- The measured curves of the heuristic in a figure: rate, color, x values, y values. -/
def curves (ds : List RDraw) : List (ℚ × Col × List ℚ × List ℚ) :=
  ds.filterMap fun | .points p col xs ys => some (p, col, xs, ys) | _ => none

/-- A fit always has a result. -/
def Fits (fit : List ℚ → List ℚ → Except RErr (ℚ × ℚ)) : Prop := ∀ xs ys, ∃ ab, fit xs ys = .ok ab

/-- The full claim about histories: the figure of two files does not depend on the figures drawn before. -/
def C142_history_claim : Prop := ∀ argsort fit fit2, IsArgsort argsort → Fits fit → Fits fit2 → ∀ hist d d2,
  (runtimeComparison argsort fit fit2 (after argsort fit fit2 hist) d d2).1 = (runtimeComparison argsort fit fit2 baseColors d d2).1

/-- The full claim about the general decoder: its points are the times at the rate in its label. -/
def C142_general_claim : Prop := ∀ argsort fit fit2, IsArgsort argsort → ∀ d d2 ds,
  (runtimeComparison argsort fit fit2 baseColors d d2).1 = .ok ds → ∀ p xs ys, .general p xs ys ∈ ds →
    Shows xs ys (seconds ((d2.filter fun e => e.1 = p).flatMap (·.2)))

/-! ## Points -/

theorem shows_pick {o : List ℕ} {l : List (ℚ × ℚ)} (f : ℚ × ℚ → ℚ) (ho : o.Perm (List.range l.length))
    (hs : (o.map fun i => (l.map (·.1)).getD i 0).Pairwise (· ≤ ·)) :
    Shows (pick o (l.map (·.1))) (pick o (l.map f)) (l.map fun r => (r.1, f r)) := by
  refine ⟨by simp [pick], hs, ?_⟩
  have e : (pick o (l.map (·.1))).zip (pick o (l.map f)) = o.map fun i => ((l.map (·.1)).getD i 0, (l.map f).getD i 0) := by
    unfold pick
    rw [List.zip_map, List.zip_eq_zipWith, List.zipWith_self, List.map_map]
    rfl
  rw [e]
  refine (ho.map _).trans (.of_eq ?_)
  refine List.ext_getElem (by simp) fun i h1 h2 => ?_
  simp only [List.length_map, List.length_range] at h1
  simp [List.getD_eq_getElem?_getD, h1]

theorem shows_argsort {argsort : List ℚ → List ℕ} (ha : IsArgsort argsort) (l : List (ℚ × ℚ)) (f : ℚ × ℚ → ℚ) :
    Shows (pick (argsort (l.map (·.1))) (l.map (·.1))) (pick (argsort (l.map (·.1))) (l.map f)) (l.map fun r => (r.1, f r)) := by
  obtain ⟨h1, h2⟩ := ha (l.map (·.1))
  rw [List.length_map] at h1
  exact shows_pick f h1 h2

theorem drawRates_curves {argsort : List ℚ → List ℕ} (ha : IsArgsort argsort) {fit : List ℚ → List ℚ → Except RErr (ℚ × ℚ)} {d : Times} :
    ∀ {s : List Col} {ds : List RDraw}, (drawRates argsort fit s d).1 = .ok ds →
      List.Forall₂ (fun e q => q.1 = e.1 ∧ Shows q.2.2.1 q.2.2.2 (seconds e.2)) d (curves ds) ∧ ∀ p xs ys, .general p xs ys ∉ ds := by
  induction d with
  | nil =>
    intro s ds h
    simp only [drawRates, Except.ok.injEq] at h
    subst h
    exact ⟨.nil, by simp⟩
  | cons e d ih =>
    obtain ⟨p, rs⟩ := e
    intro s ds h
    simp only [drawRates] at h
    split at h
    · cases h
    · rename_i col s' _
      split at h
      · cases h
      · split at h
        · cases h
        · rename_i ds' s'' hd
          simp only [Except.ok.injEq] at h
          subst h
          obtain ⟨h1, h2⟩ := ih (s := s') (ds := ds') (by rw [hd])
          refine ⟨?_, by simpa using h2⟩
          exact .cons ⟨rfl, shows_argsort ha rs fun r => r.2 / 1000⟩ h1

/-- C142: the figure of two files shows for every rate of the first file, in this order, the times of the heuristic under this rate, and all times of
the second file as the times of the general decoder under the last rate of this file. -/
theorem C142_curves {argsort : List ℚ → List ℕ} (ha : IsArgsort argsort) {fit fit2 : List ℚ → List ℚ → Except RErr (ℚ × ℚ)} {s : List Col}
    {d d2 : Times} {ds : List RDraw} (h : (runtimeComparison argsort fit fit2 s d d2).1 = .ok ds) :
    List.Forall₂ (fun e q => q.1 = e.1 ∧ Shows q.2.2.1 q.2.2.2 (seconds e.2)) d (curves ds) ∧
      (∃ p xs ys, .general p xs ys ∈ ds) ∧
      ∀ p xs ys, .general p xs ys ∈ ds → (∀ q, d2.getLast? = some q → p = q.1) ∧ Shows xs ys (seconds (d2.flatMap (·.2))) := by
  simp only [runtimeComparison] at h
  split at h
  · cases h
  · rename_i ds' s' hd
    split at h
    · cases h
    · simp only [Except.ok.injEq] at h
      subst h
      obtain ⟨h1, h2⟩ := drawRates_curves ha (fit := fit) (d := d) (s := s) (ds := ds') (by rw [hd])
      refine ⟨?_, ⟨_, _, _, List.mem_append_right _ (List.mem_cons_self ..)⟩, fun p xs ys hm => ?_⟩
      · unfold curves at *
        rw [List.filterMap_append]
        simpa using h1
      · rcases List.mem_append.1 hm with hm | hm
        · exact absurd hm (h2 _ _ _)
        · simp only [List.mem_cons, RDraw.general.injEq, List.not_mem_nil, or_false, reduceCtorEq] at hm
          obtain ⟨rfl, rfl, rfl⟩ := hm
          refine ⟨fun q hq => by simp [lastRate, hq], ?_⟩
          exact shows_argsort ha (d2.flatMap (·.2)) fun r => r.2 / 1000

/-- The fitted lines of the loop. -/
theorem drawRates_lines {argsort : List ℚ → List ℕ} {fit : List ℚ → List ℚ → Except RErr (ℚ × ℚ)} {d : Times} :
    ∀ {s : List Col} {ds : List RDraw}, (drawRates argsort fit s d).1 = .ok ds →
      (∀ col xs zs, .line col xs zs ∈ ds → ∃ p ys a b, (p, col, xs, ys) ∈ curves ds ∧ fit xs ys = .ok (a, b) ∧ zs = xs.map fun x => a * x + b) ∧
      (∀ q ∈ curves ds, ∃ zs, .line q.2.1 q.2.2.1 zs ∈ ds) ∧ ∀ xs zs, .parabola xs zs ∉ ds := by
  induction d with
  | nil =>
    intro s ds h
    simp only [drawRates, Except.ok.injEq] at h
    subst h
    simp [curves]
  | cons e d ih =>
    obtain ⟨p, rs⟩ := e
    intro s ds h
    simp only [drawRates] at h
    split at h
    · cases h
    · rename_i col s' _
      split at h
      · cases h
      · rename_i ab hab
        split at h
        · cases h
        · rename_i ds' s'' hd
          simp only [Except.ok.injEq] at h
          subst h
          obtain ⟨h1, h2, h3⟩ := ih (s := s') (ds := ds') (by rw [hd])
          generalize pick (argsort (rs.map (·.1))) (rs.map (·.1)) = xs0 at *
          generalize pick (argsort (rs.map (·.1))) (rs.map fun r => r.2 / 1000) = ys0 at *
          have hc : curves (.points p col xs0 ys0 :: .line col xs0 (xs0.map (linFun ab.1 ab.2)) :: ds') = (p, col, xs0, ys0) :: curves ds' := rfl
          rw [hc]
          refine ⟨fun col xs zs hm => ?_, fun q hq => ?_, by simpa using h3⟩
          · simp only [List.mem_cons, reduceCtorEq, RDraw.line.injEq, false_or] at hm
            rcases hm with ⟨rfl, rfl, rfl⟩ | hm
            · exact ⟨p, ys0, ab.1, ab.2, by simp, hab, rfl⟩
            · obtain ⟨p', ys, a, b, k1, k2⟩ := h1 col xs zs hm
              exact ⟨p', ys, a, b, List.mem_cons_of_mem _ k1, k2⟩
          · rcases List.mem_cons.1 hq with rfl | hq
            · exact ⟨_, List.mem_cons_of_mem _ (List.mem_cons_self ..)⟩
            · obtain ⟨zs, hz⟩ := h2 q hq
              exact ⟨zs, List.mem_cons_of_mem _ (List.mem_cons_of_mem _ hz)⟩

/-- C142: every measured curve has a line in its color over the same code lengths, and every line is the fit of a measured curve; the parabola is the
fit of the points of the general decoder. -/
theorem C142_fitted {argsort : List ℚ → List ℕ} {fit fit2 : List ℚ → List ℚ → Except RErr (ℚ × ℚ)} {s : List Col}
    {d d2 : Times} {ds : List RDraw} (h : (runtimeComparison argsort fit fit2 s d d2).1 = .ok ds) :
    (∀ col xs zs, .line col xs zs ∈ ds → ∃ p ys a b, (p, col, xs, ys) ∈ curves ds ∧ fit xs ys = .ok (a, b) ∧ zs = xs.map fun x => a * x + b) ∧
      (∀ q ∈ curves ds, ∃ zs, .line q.2.1 q.2.2.1 zs ∈ ds) ∧
      (∀ xs zs, .parabola xs zs ∈ ds → ∃ p ys a b, .general p xs ys ∈ ds ∧ fit2 xs ys = .ok (a, b) ∧ zs = xs.map fun x => a * x ^ 2 + b) ∧
      ∃ xs zs, .parabola xs zs ∈ ds := by
  simp only [runtimeComparison] at h
  split at h
  · cases h
  · rename_i ds' s' hd
    split at h
    · cases h
    · rename_i ab hab
      simp only [Except.ok.injEq] at h
      subst h
      obtain ⟨h1, h2, h3⟩ := drawRates_lines (fit := fit) (d := d) (s := s) (ds := ds') (by rw [hd])
      generalize pick (argsort ((d2.flatMap (·.2)).map (·.1))) ((d2.flatMap (·.2)).map (·.1)) = xs0 at *
      generalize pick (argsort ((d2.flatMap (·.2)).map (·.1))) ((d2.flatMap (·.2)).map fun r => r.2 / 1000) = ys0 at *
      have hc : curves (ds' ++ [.general (lastRate d2) xs0 ys0, .parabola xs0 (xs0.map (quadFun ab.1 ab.2))]) = curves ds' := by
        unfold curves
        rw [List.filterMap_append]
        simp
      rw [hc]
      refine ⟨fun col xs zs hm => ?_, fun q hq => ?_, fun xs zs hm => ?_, xs0, _, List.mem_append_right _ (List.mem_cons_of_mem _ (List.mem_cons_self ..))⟩
      · rcases List.mem_append.1 hm with hm | hm
        · exact h1 col xs zs hm
        · simp at hm
      · obtain ⟨zs, hz⟩ := h2 q hq
        exact ⟨zs, List.mem_append_left _ hz⟩
      · rcases List.mem_append.1 hm with hm | hm
        · exact absurd hm (h3 _ _)
        · simp only [List.mem_cons, RDraw.parabola.injEq, List.not_mem_nil, or_false, reduceCtorEq, false_or] at hm
          obtain ⟨rfl, rfl⟩ := hm
          exact ⟨_, ys0, ab.1, ab.2, List.mem_append_right _ (List.mem_cons_self ..), hab, rfl⟩

/-- With one rate in the second file the label of the general decoder is right. -/
theorem C142_general_partial {argsort : List ℚ → List ℕ} (ha : IsArgsort argsort) {fit fit2 : List ℚ → List ℚ → Except RErr (ℚ × ℚ)}
    {s : List Col} {d : Times} {p : ℚ} {rs : List (ℚ × ℚ)} {ds : List RDraw}
    (h : (runtimeComparison argsort fit fit2 s d [(p, rs)]).1 = .ok ds) :
    ∀ p' xs ys, .general p' xs ys ∈ ds → p' = p ∧ Shows xs ys (seconds rs) := by
  intro p' xs ys hm
  obtain ⟨h1, h2⟩ := (C142_curves ha h).2.2 p' xs ys hm
  exact ⟨h1 _ rfl, by simpa using h2⟩

/-! ## Colors -/

/-- The number of curves for which there are still colors. -/
def left (m : ℕ) : ℕ := min m 6

theorem nextColor_take {m : ℕ} (h : m ≤ 8) : nextColor (baseColors.take m) =
    if m = 0 then (.error .keyError, []) else (.ok (baseColors.getD (left m - 1) .w), baseColors.take (left m - 1)) := by
  interval_cases m <;> rfl

theorem base_inj {i j : ℕ} (hi : i < 6) (hj : j < 6) (h : baseColors.getD i .w = baseColors.getD j .w) : i = j := by
  interval_cases i <;> interval_cases j <;> first | rfl | cases h

theorem base_visible {i : ℕ} (hi : i < 6) : baseColors.getD i .w ≠ .w ∧ baseColors.getD i .w ≠ .k := by
  interval_cases i <;> exact ⟨by decide, by decide⟩

/-- What the loop does to the colors. -/
theorem drawRates_colors {argsort : List ℚ → List ℕ} {fit : List ℚ → List ℚ → Except RErr (ℚ × ℚ)} {d : Times} :
    ∀ {m : ℕ}, m ≤ 8 → ∃ m' ≤ 8, (drawRates argsort fit (baseColors.take m) d).2 = baseColors.take m' ∧
      (Fits fit → left m' = left m - d.length ∧ (d.length ≤ left m → ∃ ds, (drawRates argsort fit (baseColors.take m) d).1 = .ok ds)) ∧
      (left m < d.length → ∃ e, (drawRates argsort fit (baseColors.take m) d).1 = .error e ∧ (Fits fit → e = .keyError)) ∧
      ∀ ds, (drawRates argsort fit (baseColors.take m) d).1 = .ok ds → ((curves ds).map (·.2.1)).Nodup ∧
        ∀ q ∈ curves ds, ∃ i < left m, q.2.1 = baseColors.getD i .w := by
  induction d with
  | nil =>
    intro m hm
    refine ⟨m, hm, rfl, fun _ => ⟨by simp, fun _ => ⟨[], rfl⟩⟩, fun h => by simp at h, fun ds h => ?_⟩
    simp only [drawRates, Except.ok.injEq] at h
    subst h
    exact ⟨by simp [curves], by simp [curves]⟩
  | cons e d ih =>
    obtain ⟨p, rs⟩ := e
    intro m hm
    have hn := nextColor_take hm
    rcases Nat.eq_zero_or_pos m with rfl | hpos
    · rw [if_pos rfl] at hn
      have hd : drawRates argsort fit (baseColors.take 0) ((p, rs) :: d) = (.error .keyError, []) := by
        simp only [drawRates, hn]
      rw [hd]
      exact ⟨0, by omega, rfl, fun _ => ⟨by simp [left], fun h => by simp [left] at h⟩, fun _ => ⟨_, rfl, fun _ => rfl⟩, fun ds h => by cases h⟩
    · rw [if_neg (by omega)] at hn
      have hl : 0 < left m ∧ left m ≤ 6 := by unfold left; omega
      obtain ⟨m', hm', i1, i2, i3, i4⟩ := ih (m := left m - 1) (by omega)
      have hl1 : left (left m - 1) = left m - 1 := by unfold left; omega
      rw [hl1] at i2 i3 i4
      generalize hF : drawRates argsort fit (baseColors.take (left m - 1)) d = F at i1 i2 i3 i4
      simp only [drawRates, hn]
      split
      · rename_i err herr
        refine ⟨left m - 1, by omega, rfl, fun hf => ?_, fun _ => ⟨err, rfl, fun hf => ?_⟩, fun ds h => by cases h⟩
        · obtain ⟨ab, hab⟩ := hf _ _
          rw [hab] at herr; cases herr
        · obtain ⟨ab, hab⟩ := hf _ _
          rw [hab] at herr; cases herr
      · rename_i ab hab
        rw [hF]
        rcases F with ⟨F1, F2⟩
        simp only at i1
        subst i1
        cases F1 with
        | error err =>
          refine ⟨m', hm', rfl, fun hf => ?_, fun h => ?_, fun ds h => by cases h⟩
          · obtain ⟨j1, j2⟩ := i2 hf
            refine ⟨by rw [j1, List.length_cons]; omega, fun h => ?_⟩
            rw [List.length_cons] at h
            obtain ⟨ds, hds⟩ := j2 (by omega)
            cases hds
          · rw [List.length_cons] at h
            obtain ⟨e, he, hk⟩ := i3 (by omega)
            exact ⟨e, he, hk⟩
        | ok ds =>
          refine ⟨m', hm', rfl, fun hf => ?_, fun h => ?_, fun ds' h => ?_⟩
          · obtain ⟨j1, j2⟩ := i2 hf
            exact ⟨by rw [j1, List.length_cons]; omega, fun h => ⟨_, rfl⟩⟩
          · rw [List.length_cons] at h
            obtain ⟨e, he, -⟩ := i3 (by omega)
            cases he
          · simp only [Except.ok.injEq] at h
            subst h
            obtain ⟨k1, k2⟩ := i4 ds rfl
            have hc : curves (.points p (baseColors.getD (left m - 1) .w) (pick (argsort (rs.map (·.1))) (rs.map (·.1)))
                (pick (argsort (rs.map (·.1))) (rs.map fun r => r.2 / 1000)) ::
                .line (baseColors.getD (left m - 1) .w) (pick (argsort (rs.map (·.1))) (rs.map (·.1)))
                  ((pick (argsort (rs.map (·.1))) (rs.map (·.1))).map (linFun ab.1 ab.2)) :: ds) =
                (p, baseColors.getD (left m - 1) .w, pick (argsort (rs.map (·.1))) (rs.map (·.1)),
                  pick (argsort (rs.map (·.1))) (rs.map fun r => r.2 / 1000)) :: curves ds := rfl
            rw [hc]
            constructor
            · rw [List.map_cons, List.nodup_cons]
              refine ⟨fun hmem => ?_, k1⟩
              obtain ⟨q, hq, hqe⟩ := List.mem_map.1 hmem
              obtain ⟨i, hi, hqi⟩ := k2 q hq
              have := base_inj (i := i) (j := left m - 1) (by omega) (by omega) (by rw [← hqi]; exact hqe)
              omega
            · intro q hq
              rcases List.mem_cons.1 hq with rfl | hq
              · exact ⟨left m - 1, by omega, rfl⟩
              · obtain ⟨i, hi, h⟩ := k2 q hq
                exact ⟨i, by omega, h⟩

theorem comparison_colors {argsort : List ℚ → List ℕ} {fit fit2 : List ℚ → List ℚ → Except RErr (ℚ × ℚ)} {d d2 : Times} {m : ℕ} (hm : m ≤ 8) :
    ∃ m' ≤ 8, (runtimeComparison argsort fit fit2 (baseColors.take m) d d2).2 = baseColors.take m' ∧
      (Fits fit → Fits fit2 → left m' = left m - d.length ∧
        (d.length ≤ left m → ∃ ds, (runtimeComparison argsort fit fit2 (baseColors.take m) d d2).1 = .ok ds) ∧
        (left m < d.length → (runtimeComparison argsort fit fit2 (baseColors.take m) d d2).1 = .error .keyError)) ∧
      ∀ ds, (runtimeComparison argsort fit fit2 (baseColors.take m) d d2).1 = .ok ds → ((curves ds).map (·.2.1)).Nodup ∧
        ∀ q ∈ curves ds, ∃ i < left m, q.2.1 = baseColors.getD i .w := by
  obtain ⟨m', hm', i1, i2, i3, i4⟩ := drawRates_colors (argsort := argsort) (fit := fit) (d := d) hm
  generalize hF : drawRates argsort fit (baseColors.take m) d = F at i1 i2 i3 i4
  simp only [runtimeComparison, hF]
  rcases F with ⟨F1, F2⟩
  simp only at i1
  subst i1
  cases F1 with
  | error err =>
    refine ⟨m', hm', rfl, fun hf _ => ⟨(i2 hf).1, fun h => ?_, fun h => ?_⟩, fun ds h => by cases h⟩
    · obtain ⟨ds, hds⟩ := (i2 hf).2 h; cases hds
    · obtain ⟨e, he, hk⟩ := i3 h
      cases he
      rw [hk hf]
  | ok ds =>
    simp only
    split
    · rename_i err herr
      refine ⟨m', hm', rfl, fun _ hf2 => ?_, fun ds h => by cases h⟩
      obtain ⟨ab, hab⟩ := hf2 _ _
      rw [hab] at herr; cases herr
    · refine ⟨m', hm', rfl, fun hf _ => ⟨(i2 hf).1, fun _ => ⟨_, rfl⟩, fun h => ?_⟩, fun ds' h => ?_⟩
      · obtain ⟨e, he, -⟩ := i3 h; cases he
      · simp only [Except.ok.injEq] at h
        subst h
        obtain ⟨k1, k2⟩ := i4 ds rfl
        have hc : ∀ a b c e f, curves (ds ++ [.general a b c, .parabola e f]) = curves ds := by
          intro a b c e f
          unfold curves
          rw [List.filterMap_append]
          simp
        rw [hc]
        exact ⟨k1, k2⟩

theorem after_take {argsort : List ℚ → List ℕ} {fit fit2 : List ℚ → List ℚ → Except RErr (ℚ × ℚ)} (hist : List (Times × Times)) :
    ∃ m ≤ 8, after argsort fit fit2 hist = baseColors.take m ∧
      (Fits fit → Fits fit2 → left m = 6 - (hist.map fun c => c.1.length).sum) := by
  induction hist using List.reverseRecOn with
  | nil => exact ⟨8, le_rfl, rfl, fun _ _ => rfl⟩
  | append_singleton hist c ih =>
    obtain ⟨m, hm, h1, h2⟩ := ih
    obtain ⟨m', hm', j1, j2, -⟩ := comparison_colors (argsort := argsort) (fit := fit) (fit2 := fit2) (d := c.1) (d2 := c.2) hm
    refine ⟨m', hm', ?_, fun hf hf2 => ?_⟩
    · unfold after at *
      rw [List.foldl_append, List.foldl_cons, List.foldl_nil, h1]
      exact j1
    · rw [(j2 hf hf2).1, h2 hf hf2]
      simp only [List.map_append, List.sum_append, List.map_cons, List.map_nil, List.sum_cons, List.sum_nil]
      omega

/-- C142: after every history of calls, the curves of a figure have different colors, none of which is white or black. -/
theorem C142_colors {argsort : List ℚ → List ℕ} {fit fit2 : List ℚ → List ℚ → Except RErr (ℚ × ℚ)} (hist : List (Times × Times))
    {d d2 : Times} {ds : List RDraw} (h : (runtimeComparison argsort fit fit2 (after argsort fit fit2 hist) d d2).1 = .ok ds) :
    ((curves ds).map (·.2.1)).Nodup ∧ ∀ q ∈ curves ds, q.2.1 ≠ .w ∧ q.2.1 ≠ .k := by
  obtain ⟨m, hm, h1, -⟩ := after_take (argsort := argsort) (fit := fit) (fit2 := fit2) hist
  rw [h1] at h
  obtain ⟨m', hm', -, -, h4⟩ := comparison_colors (argsort := argsort) (fit := fit) (fit2 := fit2) (d := d) (d2 := d2) hm
  obtain ⟨h5, h6⟩ := h4 ds h
  refine ⟨h5, fun q hq => ?_⟩
  obtain ⟨i, hi, hc⟩ := h6 q hq
  rw [hc]
  exact base_visible (by unfold left at hi; omega)

/-- C142: if all fits have results, a call succeeds exactly if the first file has no more rates than colors are left: six for all calls in a process;
otherwise it raises `KeyError`. -/
theorem C142_exact {argsort : List ℚ → List ℕ} {fit fit2 : List ℚ → List ℚ → Except RErr (ℚ × ℚ)} (hf : Fits fit) (hf2 : Fits fit2)
    (hist : List (Times × Times)) (d d2 : Times) :
    (d.length ≤ 6 - (hist.map fun c => c.1.length).sum →
      ∃ ds, (runtimeComparison argsort fit fit2 (after argsort fit fit2 hist) d d2).1 = .ok ds) ∧
    (6 - (hist.map fun c => c.1.length).sum < d.length →
      (runtimeComparison argsort fit fit2 (after argsort fit fit2 hist) d d2).1 = .error .keyError) := by
  obtain ⟨m, hm, h1, h2⟩ := after_take (argsort := argsort) (fit := fit) (fit2 := fit2) hist
  obtain ⟨m', hm', -, h3, -⟩ := comparison_colors (argsort := argsort) (fit := fit) (fit2 := fit2) (d := d) (d2 := d2) hm
  rw [h1, ← h2 hf hf2]
  exact ⟨(h3 hf hf2).2.1, (h3 hf hf2).2.2⟩

/-! ## Violations -/

/-- Insertion of an index. -/
def insertIdx (l : List ℚ) : List ℕ := (List.range l.length).insertionSort fun i j => l.getD i 0 ≤ l.getD j 0

theorem isArgsort_insertIdx : IsArgsort insertIdx := by
  intro l
  refine ⟨List.perm_insertionSort _ _, ?_⟩
  rw [List.pairwise_map]
  have : Std.Total fun i j : ℕ => l.getD i 0 ≤ l.getD j 0 := ⟨fun _ _ => le_total _ _⟩
  have : IsTrans ℕ fun i j : ℕ => l.getD i 0 ≤ l.getD j 0 := ⟨fun _ _ _ h1 h2 => le_trans h1 h2⟩
  exact List.pairwise_insertionSort _ _

/-- A fit with a constant. -/
def flat (_ _ : List ℚ) : Except RErr (ℚ × ℚ) := .ok (0, 1)

theorem fits_flat : Fits flat := fun _ _ => ⟨_, rfl⟩

/-- Times for four rates. -/
def fourRates : Times := [(1 / 100, [(8, 5), (18, 9)]), (2 / 100, [(8, 6), (18, 9)]), (3 / 100, [(8, 7), (18, 9)]), (4 / 100, [(8, 8), (18, 9)])]

/-- The second call with four rates in a process raises `KeyError`. -/
theorem C142_violated_history : ¬ C142_history_claim := by
  intro h
  have h0 := h insertIdx flat flat isArgsort_insertIdx fits_flat fits_flat [(fourRates, fourRates)] fourRates fourRates
  have h1 := (C142_exact (argsort := insertIdx) fits_flat fits_flat [(fourRates, fourRates)] fourRates fourRates).2 (by decide)
  obtain ⟨ds, h2⟩ := (C142_exact (argsort := insertIdx) fits_flat fits_flat [] fourRates fourRates).1 (by decide)
  rw [h1] at h0
  have h3 : (Except.error RErr.keyError : Except RErr (List RDraw)) = .ok ds := h0.trans h2
  cases h3

/-- With several rates in the second file, the times of all of them are shown under the last one. -/
theorem C142_violated_general : ¬ C142_general_claim := by
  intro h
  obtain ⟨ds, h2⟩ := (C142_exact (argsort := insertIdx) fits_flat fits_flat [] [] fourRates).1 (by decide)
  obtain ⟨-, ⟨p, xs, ys, hm⟩, h3⟩ := C142_curves isArgsort_insertIdx h2
  obtain ⟨h4, h5⟩ := h3 p xs ys hm
  have hp : p = 4 / 100 := h4 (4 / 100, [(8, 8), (18, 9)]) rfl
  have h6 := h insertIdx flat flat isArgsort_insertIdx [] fourRates ds h2 p xs ys hm
  have h7 := (h5.2.2.symm.trans h6.2.2).length_eq
  subst hp
  revert h7
  decide +kernel

/-- `runtime` never draws a figure. -/
theorem C142_violated_runtime (d : Times) : ∀ ds, runtime d ≠ .ok ds := fun _ h => by cases h

/-- `wer_comp` never draws a figure. -/
theorem C142_violated_wer_comp (d d2 : List (ℚ × ℚ)) : ∀ cs, werComp d d2 ≠ .ok cs := fun _ h => by cases h

/-! ## Word error rates -/

/-- C142: `wer` shows each file under the name of its decoder, in three colors, and the legend has the name of every curve beside it. -/
theorem C142_wer {argsort : List ℚ → List ℕ} (ha : IsArgsort argsort) (d1 d2 d3 : List (ℚ × ℚ)) :
    List.Forall₂ (fun e q => WCurve.label q = e.1 ∧ Shows q.xs q.ys e.2)
        [("heuristic SSG", d1), ("GD", d2), ("heuristic AG", d3)] (wer argsort d1 d2 d3).1 ∧
      ((wer argsort d1 d2 d3).1.map (·.color)).Nodup ∧
      ((wer argsort d1 d2 d3).2.map (·.1)).Perm (wer argsort d1 d2 d3).1 ∧
      ∀ e ∈ (wer argsort d1 d2 d3).2, e.2 = e.1.label := by
  have hs : ∀ l col d, Shows (werCurve argsort l col d).xs (werCurve argsort l col d).ys d := fun l col d => by
    have := shows_argsort ha d (·.2)
    simpa [werCurve] using this
  refine ⟨.cons ⟨rfl, hs _ _ _⟩ (.cons ⟨rfl, hs _ _ _⟩ (.cons ⟨rfl, hs _ _ _⟩ .nil)), ?_, ?_, ?_⟩
  · simp [wer, werCurve]
  · simp only [wer, List.map_cons, List.map_nil, List.zip_cons_cons, List.zip_nil_right, List.getD_cons_zero, List.getD_cons_succ]
    exact (List.perm_append_comm (l₁ := [_, _]) (l₂ := [_]))
  · simp [wer]

/-! ## Examples -/

/-- Three calls with two rates use all colors; a further call without rates still succeeds. -/
example : ∃ ds, (runtimeComparison insertIdx flat flat (after insertIdx flat flat
    [(fourRates.take 2, fourRates), (fourRates.take 2, fourRates), (fourRates.take 2, [])]) [] fourRates).1 = .ok ds :=
  (C142_exact fits_flat fits_flat _ _ _).1 (by decide)

/-- Unsorted data are drawn in the order of the code lengths. -/
example : ((runtimeComparison insertIdx flat flat baseColors [(1 / 100, [(18, 9000), (8, 5000)])] [(1 / 50, [(8, 1000)])]).1.toOption.map curves) =
    some [(1 / 100, .y, [8, 18], [5, 9])] := by decide +kernel

/-- The hypothesis of `C142_general_partial` is met by the figure of the previous example. -/
example : ∃ ds, (runtimeComparison insertIdx flat flat baseColors fourRates [(1 / 50, [(8, 1000)])]).1 = .ok ds :=
  (C142_exact (argsort := insertIdx) fits_flat fits_flat [] _ _).1 (by decide)

end Verif.NumPlots
