import Verif.Lemmas.Plots
import Mathlib.Tactic.Linarith
import Mathlib.Tactic.NormNum

/-!
# Inversion of the drawing loops
-/

namespace Verif.Plots
open Verif

/-! ## Inversion of the drawing loops -/

theorem drawLogicals_ok {d : ℕ} {m : MData} {todo j : ℕ} {a : List Draw} (h : drawLogicals d m todo j = .ok a) :
    (∀ i, j ≤ i → i < j + todo → (∀ r ∈ m.lers, i < r.length) ∧ (∀ r ∈ m.ebs, i < r.length)) ∧
    a = (List.range' j todo).map fun i => .bars 0 i d m.ps (m.lers.map fun r => r.getD i 0) (m.ebs.map fun r => r.getD i 0) := by
  induction todo generalizing j a with
  | zero =>
    simp only [drawLogicals, Except.ok.injEq] at h
    exact ⟨fun i h1 h2 => by omega, by rw [← h]; rfl⟩
  | succ t ih =>
    simp only [drawLogicals, bind, Except.bind, pure, Except.pure] at h
    cases hy : column m.lers j with
    | error e => rw [hy] at h; cases h
    | ok y =>
      rw [hy] at h
      simp only at h
      cases he : column m.ebs j with
      | error e => rw [he] at h; cases h
      | ok e =>
        rw [he] at h
        simp only at h
        split_ifs at h with h4
        cases hr : drawLogicals d m t (j + 1) with
        | error e => rw [hr] at h; cases h
        | ok rest =>
          rw [hr] at h
          obtain ⟨y1, y2⟩ := column_ok hy
          obtain ⟨e1, e2⟩ := column_ok he
          obtain ⟨i1, i2⟩ := ih hr
          refine ⟨fun i h1 h2 => ?_, ?_⟩
          · rcases Nat.eq_or_lt_of_le h1 with rfl | h1
            · exact ⟨y1, e1⟩
            · exact i1 i h1 (by omega)
          · rw [List.range'_succ, List.map_cons, ← i2, ← y2, ← e2]
            exact (Except.ok.inj h).symm

theorem drawDistance_ok {d : ℕ} {m : MData} {a : List Draw} (h : drawDistance d m = .ok a) :
    (∀ i < m.logicals, (∀ r ∈ m.lers, i < r.length) ∧ (∀ r ∈ m.ebs, i < r.length)) ∧ rectangular m.lers = true ∧
    a = ((List.range m.logicals).map fun i => .bars 0 i d m.ps (m.lers.map fun r => r.getD i 0) (m.ebs.map fun r => r.getD i 0)) ++
      [.line 1 0 d m.ps m.times] := by
  simp only [drawDistance] at h
  split_ifs at h with hr
  simp only [bind, Except.bind, pure, Except.pure] at h
  cases hl : drawLogicals d m m.logicals 0 with
  | error e => rw [hl] at h; cases h
  | ok l =>
    rw [hl] at h
    obtain ⟨h1, h2⟩ := drawLogicals_ok hl
    rw [Bool.and_eq_true] at hr
    refine ⟨fun i hi => h1 i (Nat.zero_le _) (by omega), hr.1, ?_⟩
    rw [List.range_eq_range', ← h2]
    exact (Except.ok.inj h).symm

theorem drawDistances_ok {s : Assoc ℕ MData} {a : List Draw} (h : drawDistances s = .ok a) (x : Draw) :
    x ∈ a ↔ ∃ e ∈ s, ∃ b, drawDistance e.1 e.2 = .ok b ∧ x ∈ b := by
  induction s generalizing a with
  | nil =>
    simp only [drawDistances, Except.ok.injEq] at h
    simp [← h]
  | cons e s ih =>
    obtain ⟨d, m⟩ := e
    simp only [drawDistances, bind, Except.bind, pure, Except.pure] at h
    cases h1 : drawDistance d m with
    | error e => rw [h1] at h; cases h
    | ok b =>
      rw [h1] at h
      simp only at h
      cases h2 : drawDistances s with
      | error e => rw [h2] at h; cases h
      | ok c =>
        rw [h2] at h
        rw [← Except.ok.inj h, List.mem_append, ih h2]
        constructor
        · rintro (h | ⟨e, he, hb⟩)
          · exact ⟨(d, m), List.mem_cons_self, b, h1, h⟩
          · exact ⟨e, List.mem_cons_of_mem _ he, hb⟩
        · rintro ⟨e, he, b', hb, hx⟩
          rcases List.mem_cons.1 he with rfl | he
          · rw [h1] at hb
            rw [Except.ok.inj hb]
            exact .inl hx
          · exact .inr ⟨e, he, b', hb, hx⟩

theorem drawDistances_all {s : Assoc ℕ MData} {a : List Draw} (h : drawDistances s = .ok a) :
    ∀ e ∈ s, ∃ b, drawDistance e.1 e.2 = .ok b := by
  induction s generalizing a with
  | nil => simp
  | cons e s ih =>
    obtain ⟨d, m⟩ := e
    simp only [drawDistances, bind, Except.bind, pure, Except.pure] at h
    cases h1 : drawDistance d m with
    | error e => rw [h1] at h; cases h
    | ok b =>
      rw [h1] at h
      simp only at h
      cases h2 : drawDistances s with
      | error e => rw [h2] at h; cases h
      | ok c =>
        intro e he
        rcases List.mem_cons.1 he with rfl | he
        · exact ⟨b, h1⟩
        · exact ih h2 e he

theorem drawTimes_ok {row : ℕ} {ds : List ℚ} {s : Assoc ℚ (List ℚ)} {a : List Draw} (h : drawTimes row ds s = .ok a) :
    (∀ e ∈ s, ds.length = e.2.length) ∧ a = s.map fun e => .line row 1 e.1 ds e.2 := by
  induction s generalizing a with
  | nil =>
    simp only [drawTimes, Except.ok.injEq] at h
    simp [← h]
  | cons e s ih =>
    obtain ⟨p, ts⟩ := e
    simp only [drawTimes, bind, Except.bind, pure, Except.pure] at h
    split_ifs at h with h0
    cases h2 : drawTimes row ds s with
    | error e => rw [h2] at h; cases h
    | ok c =>
      rw [h2] at h
      obtain ⟨i1, i2⟩ := ih h2
      refine ⟨fun e he => ?_, ?_⟩
      · rcases List.mem_cons.1 he with rfl | he
        · simpa using h0
        · exact i1 e he
      · rw [List.map_cons, ← i2]
        exact (Except.ok.inj h).symm

/-- The two dictionaries after the sorting. -/
def sortedMetrics (rs : List Res) : Assoc ℕ MData := (metrics rs).map fun e => (e.1, e.2.sort)

/-- A successful call consists of its four parts. -/
theorem generatePlots_ok {rs : List Res} {ds : List Draw} (h : generatePlots rs = .ok ds) : ∃ a b c d e,
    drawDistances (sortedItems (sortedMetrics rs)) = .ok a ∧
    drawTimes 2 ((sortedItems (sortedMetrics rs)).map fun e => (e.1 : ℚ))
      (sortedItems (pData pers ((sortedItems (sortedMetrics rs)).map fun e => (e.1, e.2.ps.zip e.2.times)) [])) = .ok b ∧
    (sortedItems (sortedMetrics rs)).getLast? = some e ∧
    thresholds (sortedMetrics rs) (sortedItems (sortedMetrics rs)) e.2.logicals 0 = .ok c ∧
    lerVsDistance (perMetrics rs) (1 / 100) = .ok d ∧ ds = a ++ (b ++ (c ++ d)) := by
  simp only [generatePlots, bind, Except.bind, pure, Except.pure] at h
  rw [← sortedMetrics] at h
  cases h1 : drawDistances (sortedItems (sortedMetrics rs)) with
  | error e => rw [h1] at h; cases h
  | ok a =>
    rw [h1] at h
    simp only at h
    cases h2 : drawTimes 2 ((sortedItems (sortedMetrics rs)).map fun e => (e.1 : ℚ))
        (sortedItems (pData pers ((sortedItems (sortedMetrics rs)).map fun e => (e.1, e.2.ps.zip e.2.times)) [])) with
    | error e => rw [h2] at h; cases h
    | ok b =>
      rw [h2] at h
      simp only at h
      cases h3 : (sortedItems (sortedMetrics rs)).getLast? with
      | none => rw [h3] at h; cases h
      | some e =>
        rw [h3] at h
        simp only at h
        cases h4 : thresholds (sortedMetrics rs) (sortedItems (sortedMetrics rs)) e.2.logicals 0 with
        | error e => rw [h4] at h; cases h
        | ok c =>
          rw [h4] at h
          simp only at h
          cases h5 : lerVsDistance (perMetrics rs) (1 / 100) with
          | error e => rw [h5] at h; cases h
          | ok d =>
            rw [h5] at h
            exact ⟨a, b, c, d, e, rfl, rfl, rfl, h4, rfl, (Except.ok.inj h).symm⟩

/-! ## What the other parts do not draw -/

theorem thresholdBars_ok {col idx : ℕ} {s : Assoc ℕ MData} {a : List Draw} (h : thresholdBars col idx s = .ok a) :
    a = s.map fun e => .bars 1 col e.1 e.2.ps (e.2.lers.map fun r => r.getD idx 0) (e.2.ebs.map fun r => r.getD idx 0) := by
  induction s generalizing a with
  | nil =>
    simp only [thresholdBars, Except.ok.injEq] at h
    simp [← h]
  | cons e s ih =>
    obtain ⟨d, m⟩ := e
    simp only [thresholdBars, bind, Except.bind, pure, Except.pure] at h
    cases h1 : column m.lers idx with
    | error e => rw [h1] at h; cases h
    | ok y =>
      rw [h1] at h
      simp only at h
      cases h2 : column m.ebs idx with
      | error e => rw [h2] at h; cases h
      | ok e =>
        rw [h2] at h
        simp only at h
        cases h3 : thresholdBars col idx s with
        | error e => rw [h3] at h; cases h
        | ok b =>
          rw [h3] at h
          rw [List.map_cons, ← ih h3, ← (column_ok h1).2, ← (column_ok h2).2]
          exact (Except.ok.inj h).symm

theorem selected_ok {idx : ℕ} {lo hi : ℚ} {m : MData} {a : List (ℚ × ℚ)} (h : selected idx lo hi m = .ok a) :
    a = ((m.ps.zip m.lers).filter fun r => lo < r.1 ∧ r.1 < hi).map fun r => (r.1, r.2.getD idx 0) := by
  unfold selected at h
  generalize ((m.ps.zip m.lers).filter fun r => lo < r.1 ∧ r.1 < hi) = l at h
  induction l generalizing a with
  | nil =>
    simp only [List.mapM_nil, pure, Except.pure, Except.ok.injEq] at h
    simp [← h]
  | cons r l ih =>
    simp only [List.mapM_cons, bind, Except.bind, pure, Except.pure] at h
    cases hr : r.2[idx]? with
    | none => simp only [pick, hr] at h; cases h
    | some x =>
      have hp : pick idx r = .ok (r.1, x) := by simp only [pick, hr]
      rw [hp] at h
      simp only at h
      cases hm : l.mapM (pick idx) with
      | error e => rw [hm] at h; cases h
      | ok t =>
        rw [hm] at h
        have hx : r.2.getD idx 0 = x := by simp [List.getD, hr]
        rw [List.map_cons, hx, ← ih hm]
        exact (Except.ok.inj h).symm

theorem fitPoints_ok {idx : ℕ} {lo hi : ℚ} {m : Assoc ℕ MData} {a : List (ℚ × ℕ × ℚ)} (h : fitPoints idx lo hi m = .ok a) :
    a = m.flatMap fun e => ((e.2.ps.zip e.2.lers).filter fun r => lo < r.1 ∧ r.1 < hi).map fun r => (r.1, e.1, r.2.getD idx 0) := by
  induction m generalizing a with
  | nil =>
    simp only [fitPoints, Except.ok.injEq] at h
    simp [← h]
  | cons e m ih =>
    obtain ⟨d, m'⟩ := e
    simp only [fitPoints, bind, Except.bind, pure, Except.pure] at h
    cases h1 : selected idx lo hi m' with
    | error e => rw [h1] at h; cases h
    | ok y =>
      rw [h1] at h
      simp only at h
      cases h2 : fitPoints idx lo hi m with
      | error e => rw [h2] at h; cases h
      | ok b =>
        rw [h2] at h
        rw [List.flatMap_cons, ← ih h2, ← Except.ok.inj h, selected_ok h1, List.map_map]
        rfl

theorem thresholds_mem {m s : Assoc ℕ MData} {todo j : ℕ} {a : List Draw} (h : thresholds m s todo j = .ok a) (x : Draw) :
    x ∈ a ↔ ∃ col, j ≤ col ∧ col < j + todo ∧ ∃ b, threshold m s col 0 (6 / 100) (13 / 100) = .ok b ∧ x ∈ b := by
  induction todo generalizing j a with
  | zero =>
    simp only [thresholds, Except.ok.injEq] at h
    subst h
    simp only [List.not_mem_nil, false_iff]
    rintro ⟨col, h1, h2, -⟩
    omega
  | succ t ih =>
    simp only [thresholds, bind, Except.bind, pure, Except.pure] at h
    cases h1 : threshold m s j 0 (6 / 100) (13 / 100) with
    | error e => rw [h1] at h; cases h
    | ok b =>
      rw [h1] at h
      simp only at h
      cases h2 : thresholds m s t (j + 1) with
      | error e => rw [h2] at h; cases h
      | ok c =>
        rw [h2] at h
        rw [← Except.ok.inj h, List.mem_append, ih h2]
        constructor
        · rintro (h | ⟨col, h3, h4, h5⟩)
          · exact ⟨j, le_refl _, by omega, b, h1, h⟩
          · exact ⟨col, by omega, by omega, h5⟩
        · rintro ⟨col, h3, h4, b', h5, h6⟩
          rcases Nat.eq_or_lt_of_le h3 with rfl | h3
          · rw [h1] at h5
            rw [Except.ok.inj h5]
            exact .inl h6
          · exact .inr ⟨col, h3, by omega, b', h5, h6⟩

theorem threshold_ok {m s : Assoc ℕ MData} {col idx : ℕ} {lo hi : ℚ} {a : List Draw} (h : threshold m s col idx lo hi = .ok a) :
    a = .fit col ((m.flatMap fun e => ((e.2.ps.zip e.2.lers).filter fun r => lo < r.1 ∧ r.1 < hi).map fun r => (r.1, e.1, r.2.getD idx 0)).map (·.1))
        ((m.flatMap fun e => ((e.2.ps.zip e.2.lers).filter fun r => lo < r.1 ∧ r.1 < hi).map fun r => (r.1, e.1, r.2.getD idx 0)).map (·.2.1))
        ((m.flatMap fun e => ((e.2.ps.zip e.2.lers).filter fun r => lo < r.1 ∧ r.1 < hi).map fun r => (r.1, e.1, r.2.getD idx 0)).map (·.2.2)) ::
      s.map fun e => .bars 1 col e.1 e.2.ps (e.2.lers.map fun r => r.getD idx 0) (e.2.ebs.map fun r => r.getD idx 0) := by
  simp only [threshold, bind, Except.bind, pure, Except.pure] at h
  cases h1 : fitPoints idx lo hi m with
  | error e => rw [h1] at h; cases h
  | ok pts =>
    rw [h1] at h
    simp only at h
    cases h2 : thresholdBars col idx s with
    | error e => rw [h2] at h; cases h
    | ok b =>
      rw [h2] at h
      rw [← thresholdBars_ok h2, ← fitPoints_ok h1]
      exact (Except.ok.inj h).symm

theorem lerVsDistance_ok {per : Assoc ℚ (Assoc ℕ (List ℚ))} {p : ℚ} {a : List Draw} (h : lerVsDistance per p = .ok a) :
    ∃ e, per.lookup p = some e ∧ (∀ x ∈ e, 0 < x.2.length) ∧
      a = [.line 3 0 p ((sortedItems e).map fun x => (x.1 : ℚ)) ((sortedItems e).map fun x => x.2.getD 0 0)] := by
  unfold lerVsDistance at h
  cases hl : per.lookup p with
  | none => rw [hl] at h; cases h
  | some e =>
    rw [hl] at h
    simp only [bind, Except.bind, pure, Except.pure] at h
    cases hc : column ((sortedItems e).map (·.2)) 0 with
    | error e => rw [hc] at h; cases h
    | ok ys =>
      rw [hc] at h
      obtain ⟨h1, h2⟩ := column_ok hc
      refine ⟨e, rfl, fun x hx => h1 _ (List.mem_map.2 ⟨x, (mem_sortedItems e x).2 hx, rfl⟩), ?_⟩
      rw [List.map_map] at h2
      rw [← Except.ok.inj h, h2]
      rfl

end Verif.Plots
