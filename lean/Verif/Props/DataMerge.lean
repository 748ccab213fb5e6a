import Verif.Model.DataUtils
import Mathlib.Algebra.BigOperators.Group.List.Basic

/-!
# C46 and C85: merging of simulation results
-/

namespace Verif.Data
open Verif

/-- Sum of a counter over data sets; a missing entry counts as zero. -/
def total (f : Dataset → Option ℕ) (ds : List Dataset) : ℕ := (ds.map fun d => (f d).getD 0).sum

/-- A data set with both sides. -/
structure Complete (d : Dataset) : Prop where
  runs : d.runs.isSome
  x : d.x.isSome
  z : d.z.isSome
  k : d.k.isSome

/-- The pooled frequencies: error rate is one minus successes over runs, and the other rates are computed from it. -/
def Pooled (success runs k : ℕ) (r : Option Rates) : Prop :=
  ∃ v, r = some v ∧ errorRates success runs k = .ok v ∧ v.ler = 1 - (success : ℝ) / runs

theorem errorRates_ok (s r k : ℕ) (hr : r ≠ 0) (hk : k ≠ 0) :
    ∃ v, errorRates s r k = .ok v ∧ v.ler = 1 - (s : ℝ) / r := by
  unfold errorRates
  rw [if_neg (by tauto)]
  exact ⟨_, rfl, rfl⟩

/-- Counters of a data set, other entries kept. -/
def withCounts (d : Dataset) (r x z : ℕ) : Dataset := { d with runs := some r, x := some x, z := some z }

theorem addXZ_eq (d e : Dataset) (r x z : ℕ) :
    addXZ (withCounts d r x z) e = .ok (withCounts d (r + e.runs.getD 0) (x + e.x.getD 0) (z + e.z.getD 0)) := rfl

theorem foldlM_addXZ (d : Dataset) (ds : List Dataset) : ∀ r x z, ds.foldlM addXZ (withCounts d r x z) =
    .ok (withCounts d (r + total (·.runs) ds) (x + total (·.x) ds) (z + total (·.z) ds)) := by
  induction ds with
  | nil => intro r x z; simp [total]; rfl
  | cons e ds ih =>
    intro r x z
    rw [List.foldlM_cons, addXZ_eq]
    show ds.foldlM addXZ _ = _
    rw [ih]
    simp [total, add_assoc]

theorem withCounts_self (d : Dataset) (r x z : ℕ) (hr : d.runs = some r) (hx : d.x = some x) (hz : d.z = some z) :
    withCounts d r x z = d := by
  cases d
  simp_all [withCounts]

/-- **C46**: if the first data set has all four entries, the merged counters are the sums over all data sets, the
error rates are the frequencies of the sums, and everything else is taken from the first data set. -/
theorem C46_pooled_partial (d : Dataset) (ds : List Dataset) (hd : Complete d) (k : ℕ) (hk : d.k = some k) (hk0 : k ≠ 0)
    (hpos : total (·.runs) (d :: ds) ≠ 0) :
    ∃ out, mergeDatasets (d :: ds) = .ok (some out) ∧ out.runs = some (total (·.runs) (d :: ds)) ∧
      out.x = some (total (·.x) (d :: ds)) ∧ out.z = some (total (·.z) (d :: ds)) ∧ out.k = d.k ∧ out.other = d.other ∧
      Pooled (total (·.x) (d :: ds)) (total (·.runs) (d :: ds)) k out.xRates ∧
      Pooled (total (·.z) (d :: ds)) (total (·.runs) (d :: ds)) k out.zRates := by
  obtain ⟨r, hr⟩ := Option.isSome_iff_exists.1 hd.runs
  obtain ⟨x, hx⟩ := Option.isSome_iff_exists.1 hd.x
  obtain ⟨z, hz⟩ := Option.isSome_iff_exists.1 hd.z
  have e1 : total (·.runs) (d :: ds) = r + total (·.runs) ds := by simp [total, hr]
  have e2 : total (·.x) (d :: ds) = x + total (·.x) ds := by simp [total, hx]
  have e3 : total (·.z) (d :: ds) = z + total (·.z) ds := by simp [total, hz]
  rw [e1] at hpos
  obtain ⟨vx, hvx, hlx⟩ := errorRates_ok (x + total (·.x) ds) _ _ hpos hk0
  obtain ⟨vz, hvz, hlz⟩ := errorRates_ok (z + total (·.z) ds) _ _ hpos hk0
  rw [e1, e2, e3]
  refine ⟨{ withCounts d (r + total (·.runs) ds) (x + total (·.x) ds) (z + total (·.z) ds) with
    xRates := some vx, zRates := some vz }, ?_, rfl, rfl, rfl, rfl, rfl, ⟨vx, rfl, hvx, hlx⟩, ⟨vz, rfl, hvz, hlz⟩⟩
  have e4 := foldlM_addXZ d ds r x z
  rw [withCounts_self d r x z hr hx hz] at e4
  show (do let acc ← ds.foldlM addXZ d; let r ← finishXZ acc; return some r) = _
  rw [e4]
  have e5 : finishXZ (withCounts d (r + total (·.runs) ds) (x + total (·.x) ds) (z + total (·.z) ds)) =
      .ok { withCounts d (r + total (·.runs) ds) (x + total (·.x) ds) (z + total (·.z) ds) with
        xRates := some vx, zRates := some vz } := by
    simp only [finishXZ, withCounts, get, hk, bind, Except.bind, hvx, hvz]
    rfl
  show (do let r ← finishXZ _; return some r) = _
  rw [e5]
  rfl

/-- **C46**: merging nothing gives the empty dictionary. -/
theorem C46_empty : mergeDatasets [] = .ok none := rfl

theorem total_perm (f : Dataset → Option ℕ) {a b : List Dataset} (h : a.Perm b) : total f a = total f b :=
  (h.map _).sum_eq

theorem total_append (f : Dataset → Option ℕ) (a b : List Dataset) : total f (a ++ b) = total f a + total f b := by
  simp [total]

/-- The entries computed by merging. -/
def sameResult (a b : Dataset) : Prop :=
  a.runs = b.runs ∧ a.x = b.x ∧ a.z = b.z ∧ a.k = b.k ∧ a.xRates = b.xRates ∧ a.zRates = b.zRates

theorem Pooled.unique {s r k : ℕ} {a b : Option Rates} (h1 : Pooled s r k a) (h2 : Pooled s r k b) : a = b := by
  obtain ⟨v, rfl, e1, -⟩ := h1
  obtain ⟨w, rfl, e2, -⟩ := h2
  rw [e1] at e2
  rw [Except.ok.inj e2]

/-- **C46**: the order of complete data sets of the same code does not matter. -/
theorem C46_order_partial (ds es : List Dataset) (hp : ds.Perm es) (hne : ds ≠ []) (k : ℕ) (hk0 : k ≠ 0)
    (hc : ∀ d ∈ ds, Complete d ∧ d.k = some k) (hpos : total (·.runs) ds ≠ 0) :
    ∃ a b, mergeDatasets ds = .ok (some a) ∧ mergeDatasets es = .ok (some b) ∧ sameResult a b := by
  obtain ⟨d, ds, rfl⟩ := List.exists_cons_of_ne_nil hne
  have hne' : es ≠ [] := fun h => by rw [h] at hp; exact absurd hp.length_eq (by simp)
  obtain ⟨e, es, rfl⟩ := List.exists_cons_of_ne_nil hne'
  have hd := hc d (List.mem_cons_self ..)
  have he := hc e (hp.mem_iff.2 (List.mem_cons_self ..))
  obtain ⟨a, a1, a2, a3, a4, a5, -, a7, a8⟩ := C46_pooled_partial d ds hd.1 k hd.2 hk0 hpos
  obtain ⟨b, b1, b2, b3, b4, b5, -, b7, b8⟩ := C46_pooled_partial e es he.1 k he.2 hk0 (by rw [← total_perm _ hp]; exact hpos)
  rw [← total_perm _ hp] at b2 b3 b4 b7 b8
  rw [← total_perm _ hp] at b7 b8
  exact ⟨a, b, a1, b1, a2.trans b2.symm, a3.trans b3.symm, a4.trans b4.symm, by rw [a5, b5, hd.2, he.2],
    a7.unique b7, a8.unique b8⟩

/-- **C46**: merging the merged groups gives the same result as merging everything at once. -/
theorem C46_grouping_partial (ds es : List Dataset) (hne : ds ≠ []) (hne' : es ≠ []) (k : ℕ) (hk0 : k ≠ 0)
    (hc : ∀ d ∈ ds ++ es, Complete d ∧ d.k = some k) (hpos : total (·.runs) ds ≠ 0) (hpos' : total (·.runs) es ≠ 0) :
    ∃ a b c d, mergeDatasets ds = .ok (some a) ∧ mergeDatasets es = .ok (some b) ∧
      mergeDatasets [a, b] = .ok (some c) ∧ mergeDatasets (ds ++ es) = .ok (some d) ∧ sameResult c d := by
  obtain ⟨d, ds, rfl⟩ := List.exists_cons_of_ne_nil hne
  obtain ⟨e, es, rfl⟩ := List.exists_cons_of_ne_nil hne'
  have hd := hc d (by simp)
  have he := hc e (by simp)
  obtain ⟨a, a1, a2, a3, a4, a5, -, a7, a8⟩ := C46_pooled_partial d ds hd.1 k hd.2 hk0 hpos
  obtain ⟨b, b1, b2, b3, b4, b5, -, b7, b8⟩ := C46_pooled_partial e es he.1 k he.2 hk0 hpos'
  have ac : Complete a := ⟨by rw [a2]; rfl, by rw [a3]; rfl, by rw [a4]; rfl, by rw [a5, hd.2]; rfl⟩
  have t1 : total (·.runs) [a, b] = total (·.runs) ((d :: ds) ++ (e :: es)) := by
    rw [total_append]; simp [total, a2, b2]
  have t2 : total (·.x) [a, b] = total (·.x) ((d :: ds) ++ (e :: es)) := by
    rw [total_append]; simp [total, a3, b3]
  have t3 : total (·.z) [a, b] = total (·.z) ((d :: ds) ++ (e :: es)) := by
    rw [total_append]; simp [total, a4, b4]
  have hp2 : total (·.runs) ((d :: ds) ++ (e :: es)) ≠ 0 := by rw [total_append]; omega
  obtain ⟨c, c1, c2, c3, c4, c5, -, c7, c8⟩ := C46_pooled_partial a [b] ac k (a5.trans hd.2) hk0 (by rw [t1]; exact hp2)
  obtain ⟨f, f1, f2, f3, f4, f5, -, f7, f8⟩ := C46_pooled_partial d (ds ++ e :: es) hd.1 k hd.2 hk0 hp2
  rw [t1, t2] at c7
  rw [t1, t3] at c8
  exact ⟨a, b, c, f, a1, b1, c1, f1, by rw [c2, f2, t1]; rfl, by rw [c3, f3, t2]; rfl, by rw [c4, f4, t3]; rfl,
    by rw [c5, f5, a5], c7.unique f7, c8.unique f8⟩

example : (∀ d ∈ [({ runs := some 10, x := some 9, z := some 8, k := some 2 } : Dataset),
    { runs := some 30, x := some 29, z := some 30, k := some 2 }], Complete d ∧ d.k = some 2) ∧
    total (·.runs) [({ runs := some 10, x := some 9, z := some 8, k := some 2 } : Dataset),
      { runs := some 30, x := some 29, z := some 30, k := some 2 }] = 40 := by
  refine ⟨?_, rfl⟩
  intro d hd
  simp only [List.mem_cons, List.not_mem_nil, or_false] at hd
  rcases hd with rfl | rfl <;> exact ⟨⟨rfl, rfl, rfl, rfl⟩, rfl⟩

/-- The full claim: the reported X error rate is the frequency over the data sets that have X results, in any order. -/
def C46_claim : Prop :=
  ∀ ds es : List Dataset, ds.Perm es → (∀ d ∈ ds, d.runs.isSome ∧ ∃ k, d.k = some k ∧ k ≠ 0) →
    ∀ out, mergeDatasets ds = .ok (some out) →
      (∃ out', mergeDatasets es = .ok (some out') ∧ sameResult out out') ∧
      ∀ v, out.xRates = some v →
        v.ler = 1 - (total (·.x) (ds.filter (·.x.isSome)) : ℝ) / total (·.runs) (ds.filter (·.x.isSome))

/-- **C46** is violated: a data set without X results adds its runs but no X successes. -/
theorem C46_violated_rate : ∃ out v, mergeDatasets [{ runs := some 10, x := some 10, z := some 10, k := some 1 },
      { runs := some 10, z := some 10, k := some 1 }] = .ok (some out) ∧ out.xRates = some v ∧ v.ler = 1 / 2 := by
  obtain ⟨out, h1, -, -, -, -, -, ⟨v, hv, -, hl⟩, -⟩ :=
    C46_pooled_partial { runs := some 10, x := some 10, z := some 10, k := some 1 }
      [{ runs := some 10, z := some 10, k := some 1 }] ⟨rfl, rfl, rfl, rfl⟩ 1 rfl (by decide) (by decide)
  refine ⟨out, v, h1, hv, ?_⟩
  rw [hl]
  simp [total]
  norm_num

/-- **C46** is violated: the same data sets in the other order raise. -/
theorem C46_violated_order : mergeDatasets [{ runs := some 10, z := some 10, k := some 1 },
    { runs := some 10, x := some 10, z := some 10, k := some 1 }] = .error .keyError := rfl

theorem C46_violated : ¬ C46_claim := by
  intro h
  obtain ⟨out, v, h1, h2, h3⟩ := C46_violated_rate
  have := (h _ _ (List.Perm.refl _) (by
    intro d hd
    simp only [List.mem_cons, List.not_mem_nil, or_false] at hd
    rcases hd with rfl | rfl <;> exact ⟨rfl, 1, rfl, by decide⟩) out h1).2 v h2
  rw [h3] at this
  simp [total] at this

/-! ## One-sided merging -/

/-- Counters of one side. -/
def withX (d : Dataset) (r x : ℕ) : Dataset := { d with runs := some r, x := some x }
def withZ (d : Dataset) (r z : ℕ) : Dataset := { d with runs := some r, z := some z }

theorem foldlM_addX (d : Dataset) (ds : List Dataset) : ∀ r x, ds.foldlM addX (withX d r x) =
    .ok (withX d (r + total (·.runs) ds) (x + total (·.x) ds)) := by
  induction ds with
  | nil => intro r x; simp [total]; rfl
  | cons e ds ih =>
    intro r x
    rw [List.foldlM_cons]
    show ds.foldlM addX (withX d (r + e.runs.getD 0) (x + e.x.getD 0)) = _
    rw [ih]
    simp [total, add_assoc]

theorem foldlM_addZ (d : Dataset) (ds : List Dataset) : ∀ r z, ds.foldlM addZ (withZ d r z) =
    .ok (withZ d (r + total (·.runs) ds) (z + total (·.z) ds)) := by
  induction ds with
  | nil => intro r x; simp [total]; rfl
  | cons e ds ih =>
    intro r x
    rw [List.foldlM_cons]
    show ds.foldlM addZ (withZ d (r + e.runs.getD 0) (x + e.z.getD 0)) = _
    rw [ih]
    simp [total, add_assoc]

/-- **C46** for the one-sided merge (X): only the data sets with X results count. -/
theorem C46_merge_x (ds : List Dataset) (d : Dataset) (rest : List Dataset) (hf : ds.filter (·.x.isSome) = d :: rest)
    (r k : ℕ) (hr : d.runs = some r) (hk : d.k = some k) (hk0 : k ≠ 0) (hpos : total (·.runs) (d :: rest) ≠ 0) :
    ∃ out, mergeX ds = .ok (some out) ∧ out.runs = some (total (·.runs) (d :: rest)) ∧
      out.x = some (total (·.x) (d :: rest)) ∧ Pooled (total (·.x) (d :: rest)) (total (·.runs) (d :: rest)) k out.xRates ∧
      out.z = d.z ∧ out.zRates = d.zRates ∧ out.xRuns = d.xRuns ∧ out.zRuns = d.zRuns ∧ out.k = d.k := by
  have hx : d.x.isSome := by
    have : d ∈ ds.filter (·.x.isSome) := by rw [hf]; exact List.mem_cons_self ..
    simpa using (List.mem_filter.1 this).2
  obtain ⟨x, hx⟩ := Option.isSome_iff_exists.1 hx
  have e1 : total (·.runs) (d :: rest) = r + total (·.runs) rest := by simp [total, hr]
  have e2 : total (·.x) (d :: rest) = x + total (·.x) rest := by simp [total, hx]
  rw [e1] at hpos
  obtain ⟨v, hv, hl⟩ := errorRates_ok (x + total (·.x) rest) _ _ hpos hk0
  rw [e1, e2]
  refine ⟨{ withX d (r + total (·.runs) rest) (x + total (·.x) rest) with xRates := some v }, ?_, rfl, rfl,
    ⟨v, rfl, hv, hl⟩, rfl, rfl, rfl, rfl, rfl⟩
  unfold mergeX
  rw [hf]
  have e4 := foldlM_addX d rest r x
  have e0 : withX d r x = d := by cases d; simp_all [withX]
  rw [e0] at e4
  simp only
  rw [e4]
  have e5 : finishX (withX d (r + total (·.runs) rest) (x + total (·.x) rest)) =
      .ok { withX d (r + total (·.runs) rest) (x + total (·.x) rest) with xRates := some v } := by
    unfold finishX withX get
    rw [hk]
    show (do let xr ← errorRates _ _ _; return _) = _
    rw [hv]
    rfl
  show (do let r ← finishX _; return some r) = _
  rw [e5]
  rfl

/-- **C46** for the one-sided merge (Z). -/
theorem C46_merge_z (ds : List Dataset) (d : Dataset) (rest : List Dataset) (hf : ds.filter (·.z.isSome) = d :: rest)
    (r k : ℕ) (hr : d.runs = some r) (hk : d.k = some k) (hk0 : k ≠ 0) (hpos : total (·.runs) (d :: rest) ≠ 0) :
    ∃ out, mergeZ ds = .ok (some out) ∧ out.runs = some (total (·.runs) (d :: rest)) ∧
      out.z = some (total (·.z) (d :: rest)) ∧ Pooled (total (·.z) (d :: rest)) (total (·.runs) (d :: rest)) k out.zRates ∧
      out.x = d.x ∧ out.xRates = d.xRates ∧ out.xRuns = d.xRuns ∧ out.zRuns = d.zRuns ∧ out.k = d.k := by
  have hx : d.z.isSome := by
    have : d ∈ ds.filter (·.z.isSome) := by rw [hf]; exact List.mem_cons_self ..
    simpa using (List.mem_filter.1 this).2
  obtain ⟨x, hx⟩ := Option.isSome_iff_exists.1 hx
  have e1 : total (·.runs) (d :: rest) = r + total (·.runs) rest := by simp [total, hr]
  have e2 : total (·.z) (d :: rest) = x + total (·.z) rest := by simp [total, hx]
  rw [e1] at hpos
  obtain ⟨v, hv, hl⟩ := errorRates_ok (x + total (·.z) rest) _ _ hpos hk0
  rw [e1, e2]
  refine ⟨{ withZ d (r + total (·.runs) rest) (x + total (·.z) rest) with zRates := some v }, ?_, rfl, rfl,
    ⟨v, rfl, hv, hl⟩, rfl, rfl, rfl, rfl, rfl⟩
  unfold mergeZ
  rw [hf]
  have e4 := foldlM_addZ d rest r x
  have e0 : withZ d r x = d := by cases d; simp_all [withZ]
  rw [e0] at e4
  simp only
  rw [e4]
  have e5 : finishZ (withZ d (r + total (·.runs) rest) (x + total (·.z) rest)) =
      .ok { withZ d (r + total (·.runs) rest) (x + total (·.z) rest) with zRates := some v } := by
    unfold finishZ withZ get
    rw [hk]
    show (do let xr ← errorRates _ _ _; return _) = _
    rw [hv]
    rfl
  show (do let r ← finishZ _; return some r) = _
  rw [e5]
  rfl

/-! ## C85: the combined entry -/

/-- The full claim: the entry written for a folder has the X totals over the data sets with X results and the Z totals
over those with Z results. -/
def C85_claim : Prop :=
  ∀ ds : List Dataset, (∀ d ∈ ds, d.runs.isSome ∧ ∃ k, d.k = some k ∧ k ≠ 0) → ∀ out, mergeXZ ds = .ok (some out) →
    (ds.filter (·.x.isSome) ≠ [] → out.x = some (total (·.x) (ds.filter (·.x.isSome))) ∧
      out.xRuns = some (total (·.runs) (ds.filter (·.x.isSome)))) ∧
    (ds.filter (·.z.isSome) ≠ [] → out.z = some (total (·.z) (ds.filter (·.z.isSome))) ∧
      out.zRuns = some (total (·.runs) (ds.filter (·.z.isSome))))

theorem combineXZ_both (a b : Dataset) (m n : ℕ) (ha : a.runs = some m) (hb : b.runs = some n) :
    combineXZ (some a) (some b) =
      .ok (some (update { a with runs := none, xRuns := some m } { b with runs := none, zRuns := some n })) := by
  have h1 : renameX a = .ok { a with runs := none, xRuns := some m } := by
    unfold renameX; rw [ha]; rfl
  have h2 : renameZ b = .ok { b with runs := none, zRuns := some n } := by
    unfold renameZ; rw [hb]; rfl
  show (do let x ← renameX a; let z ← renameZ b; return some (update x z)) = _
  rw [h1, h2]
  rfl

/-- **C85**: holds when no data set has results for both sides, and both sides occur. -/
theorem C85_combined_partial (ds : List Dataset) (dx : Dataset) (xs : List Dataset) (dz : Dataset) (zs : List Dataset)
    (hx : ds.filter (·.x.isSome) = dx :: xs) (hz : ds.filter (·.z.isSome) = dz :: zs)
    (hone : dz.x = none ∧ dz.xRates = none ∧ dz.xRuns = none)
    (rx kx rz kz : ℕ) (h1 : dx.runs = some rx) (h2 : dx.k = some kx) (h3 : kx ≠ 0) (h4 : total (·.runs) (dx :: xs) ≠ 0)
    (g1 : dz.runs = some rz) (g2 : dz.k = some kz) (g3 : kz ≠ 0) (g4 : total (·.runs) (dz :: zs) ≠ 0) :
    ∃ out, mergeXZ ds = .ok (some out) ∧ out.x = some (total (·.x) (dx :: xs)) ∧
      out.xRuns = some (total (·.runs) (dx :: xs)) ∧ out.z = some (total (·.z) (dz :: zs)) ∧
      out.zRuns = some (total (·.runs) (dz :: zs)) ∧
      Pooled (total (·.x) (dx :: xs)) (total (·.runs) (dx :: xs)) kx out.xRates ∧
      Pooled (total (·.z) (dz :: zs)) (total (·.runs) (dz :: zs)) kz out.zRates := by
  obtain ⟨a, a1, a2, a3, a4, -⟩ := C46_merge_x ds dx xs hx rx kx h1 h2 h3 h4
  obtain ⟨b, b1, b2, b3, b4, b5, b6, b7, -⟩ := C46_merge_z ds dz zs hz rz kz g1 g2 g3 g4
  have e : mergeXZ ds = .ok (some (update { a with runs := none, xRuns := some (total (·.runs) (dx :: xs)) }
      { b with runs := none, zRuns := some (total (·.runs) (dz :: zs)) })) := by
    unfold mergeXZ
    rw [a1, b1]
    show combineXZ (some a) (some b) = _
    exact combineXZ_both a b _ _ a2 b2
  refine ⟨_, e, ?_, ?_, ?_, rfl, ?_, ?_⟩
  · show (b.x <|> a.x) = _
    rw [b5, hone.1, a3]; rfl
  · show (b.xRuns <|> _) = _
    rw [b7, hone.2.2]; rfl
  · show (b.z <|> a.z) = _
    rw [b3]; rfl
  · show Pooled _ _ _ (b.xRates <|> a.xRates)
    rw [b6, hone.2.1]; exact a4
  · obtain ⟨v, hv, hv2⟩ := b4
    show Pooled _ _ _ (b.zRates <|> a.zRates)
    rw [hv]; exact ⟨v, rfl, hv2⟩

example : ([({ runs := some 10, x := some 9, k := some 2 } : Dataset), { runs := some 30, z := some 29, k := some 2 }].filter
    (·.x.isSome)).length = 1 := rfl

/-- **C85** is violated: when results have both sides (as all simulators of both sides write them), the X successes of
the first data set are reported next to the number of all runs. -/
theorem C85_violated_stale : ∃ out, mergeXZ [{ runs := some 10, x := some 9, z := some 9, k := some 1 },
      { runs := some 10, x := some 9, z := some 9, k := some 1 }] = .ok (some out) ∧
    out.x = some 9 ∧ out.xRuns = some 20 := by
  obtain ⟨a, a1, a2, a3, -⟩ := C46_merge_x [{ runs := some 10, x := some 9, z := some 9, k := some 1 },
    { runs := some 10, x := some 9, z := some 9, k := some 1 }] _ _ rfl 10 1 rfl rfl (by decide) (by decide)
  obtain ⟨b, b1, b2, b3, b4, b5, b6, b7, -⟩ := C46_merge_z [{ runs := some 10, x := some 9, z := some 9, k := some 1 },
    { runs := some 10, x := some 9, z := some 9, k := some 1 }] _ _ rfl 10 1 rfl rfl (by decide) (by decide)
  refine ⟨update { a with runs := none, xRuns := some 20 } { b with runs := none, zRuns := some 20 }, ?_, ?_, ?_⟩
  · unfold mergeXZ
    rw [a1, b1]
    show combineXZ (some a) (some b) = _
    exact combineXZ_both a b _ _ a2 b2
  · show (b.x <|> a.x) = _
    rw [b5]; rfl
  · show (b.xRuns <|> some 20) = _
    rw [b7]; rfl

theorem C85_violated : ¬ C85_claim := by
  intro h
  obtain ⟨out, h1, h2, -⟩ := C85_violated_stale
  have := ((h _ (by
    intro d hd
    simp only [List.mem_cons, List.not_mem_nil, or_false] at hd
    rcases hd with rfl | rfl <;> exact ⟨rfl, 1, rfl, by decide⟩) out h1).1 (by simp)).1
  rw [h2] at this
  simp [total] at this

end Verif.Data
