import Verif.Model.Plots
import Mathlib.Data.List.Basic
import Mathlib.Data.List.Nodup
import Mathlib.Data.List.Perm.Basic
import Mathlib.Data.List.Induction

/-! # Lemmas about dictionaries, grouping and sorting for the plots -/

namespace Verif.Plots
open Verif

variable {K V A : Type} [DecidableEq K]

theorem lookup_cons' (m : Assoc K V) (k k₀ : K) (v : V) : List.lookup k ((k₀, v) :: m) = if k = k₀ then some v else m.lookup k := by
  rw [List.lookup_cons]
  by_cases h : k = k₀
  · subst h; simp
  · have e : (k == k₀) = false := by simpa using h
    rw [e, if_neg h]

theorem lookup_alter (dflt : V) (g : V → V) (k k' : K) (m : Assoc K V) :
    (alter dflt g k m).lookup k' = if k' = k then some (g ((m.lookup k).getD dflt)) else m.lookup k' := by
  induction m with
  | nil => rw [alter, lookup_cons']; rfl
  | cons e m ih =>
    obtain ⟨k₀, v⟩ := e
    rw [alter]
    by_cases h0 : k₀ = k
    · subst h0
      rw [if_pos rfl, lookup_cons', lookup_cons', lookup_cons', if_pos rfl]
      by_cases h : k' = k₀
      · simp [h]
      · simp [h]
    · rw [if_neg h0, lookup_cons', ih, lookup_cons', lookup_cons', if_neg (Ne.symm h0)]
      by_cases h1 : k' = k₀
      · subst h1
        simp [h0]
      · simp [h1]

theorem keys_alter (dflt : V) (g : V → V) (k : K) (m : Assoc K V) (h : (m.map (·.1)).Nodup) :
    ((alter dflt g k m).map (·.1)).Nodup ∧ ∀ k', k' ∈ (alter dflt g k m).map (·.1) ↔ k' = k ∨ k' ∈ m.map (·.1) := by
  induction m with
  | nil => simp [alter]
  | cons e m ih =>
    obtain ⟨k₀, v⟩ := e
    rw [List.map_cons, List.nodup_cons] at h
    obtain ⟨i1, i2⟩ := ih h.2
    by_cases h0 : k₀ = k
    · subst h0
      simp only [alter, if_pos, List.map_cons, List.nodup_cons]
      exact ⟨h, fun k' => by simp⟩
    · rw [alter, if_neg h0]
      simp only [List.map_cons, List.nodup_cons]
      refine ⟨⟨fun hm => ?_, i1⟩, fun k' => ?_⟩
      · rcases (i2 _).1 hm with hk | hk
        · exact h0 hk
        · exact h.1 hk
      · rw [List.mem_cons, i2, List.mem_cons]
        tauto

/-- Membership in a dictionary with different keys. -/
theorem mem_iff_lookup (m : Assoc K V) (h : (m.map (·.1)).Nodup) (k : K) (v : V) : (k, v) ∈ m ↔ m.lookup k = some v := by
  induction m with
  | nil => simp
  | cons e m ih =>
    obtain ⟨k₀, v₀⟩ := e
    rw [List.map_cons, List.nodup_cons] at h
    rw [lookup_cons', List.mem_cons, ih h.2]
    by_cases hk : k = k₀
    · subst hk
      have : m.lookup k ≠ some v := by
        rw [Ne, ← ih h.2]
        exact fun hm => h.1 (List.mem_map.2 ⟨_, hm, rfl⟩)
      simp [this, eq_comm]
    · simp [hk]

/-- Grouping a list by a key. -/
def group (dflt : V) (key : A → K) (g : A → V → V) (l : List A) : Assoc K V :=
  l.foldl (fun m r => alter dflt (g r) (key r) m) []

theorem group_nodup (dflt : V) (key : A → K) (g : A → V → V) (l : List A) :
    ((group dflt key g l).map (·.1)).Nodup ∧ ∀ k, k ∈ (group dflt key g l).map (·.1) ↔ ∃ r ∈ l, key r = k := by
  induction l using List.reverseRecOn with
  | nil => simp [group]
  | append_singleton l r ih =>
    have e : group dflt key g (l ++ [r]) = alter dflt (g r) (key r) (group dflt key g l) := by simp [group]
    rw [e]
    obtain ⟨h1, h2⟩ := keys_alter dflt (g r) (key r) _ ih.1
    refine ⟨h1, fun k => ?_⟩
    rw [h2, ih.2]
    constructor
    · rintro (rfl | ⟨a, ha, hk⟩)
      · exact ⟨r, by simp, rfl⟩
      · exact ⟨a, by simp [ha], hk⟩
    · rintro ⟨a, ha, hk⟩
      rcases List.mem_append.1 ha with ha | ha
      · exact .inr ⟨a, ha, hk⟩
      · rw [List.mem_singleton.1 ha] at hk
        exact .inl hk.symm

theorem group_getD (dflt : V) (key : A → K) (g : A → V → V) (l : List A) (k : K) :
    ((group dflt key g l).lookup k).getD dflt = (l.filter fun r => key r = k).foldl (fun v r => g r v) dflt := by
  induction l using List.reverseRecOn with
  | nil => simp [group]
  | append_singleton l r ih =>
    have e : group dflt key g (l ++ [r]) = alter dflt (g r) (key r) (group dflt key g l) := by simp [group]
    rw [e, lookup_alter, List.filter_append]
    by_cases hk : key r = k
    · rw [if_pos hk.symm, hk, ih]
      simp [hk]
    · rw [if_neg (fun h => hk h.symm), ih]
      simp [hk]

/-- The entries of a grouping. -/
theorem mem_group (dflt : V) (key : A → K) (g : A → V → V) (l : List A) (k : K) (v : V) :
    (k, v) ∈ group dflt key g l ↔ (∃ r ∈ l, key r = k) ∧ v = (l.filter fun r => key r = k).foldl (fun v r => g r v) dflt := by
  have hn := group_nodup dflt key g l
  rw [← group_getD, ← hn.2]
  constructor
  · intro h
    have h1 := (mem_iff_lookup _ hn.1 k v).1 h
    exact ⟨List.mem_map_of_mem (f := Prod.fst) h, by rw [h1]; rfl⟩
  · rintro ⟨h1, h2⟩
    obtain ⟨⟨k', v'⟩, h3, rfl⟩ := List.mem_map.1 h1
    have h4 := (mem_iff_lookup _ hn.1 k' v').1 h3
    rw [h4] at h2
    rw [h2]
    exact h3

theorem foldl_append_singleton (l : List A) (f : A → V) (acc : List V) : l.foldl (fun v r => v ++ [f r]) acc = acc ++ l.map f := by
  induction l generalizing acc with
  | nil => simp
  | cons a l ih => simp [ih]

/-! ## The dictionaries of `generate_plots` -/

theorem foldl_add (l : List Res) (m : MData) : l.foldl (fun m r => m.add r) m =
    ⟨m.ps ++ l.map (·.p), m.lers ++ l.map (·.lers), m.ebs ++ l.map (·.ebs), m.times ++ l.map (·.time)⟩ := by
  induction l generalizing m with
  | nil => simp
  | cons r l ih =>
    rw [List.foldl_cons, ih]
    simp [MData.add]

/-- The data of a distance as parallel lists. -/
def dataOf (l : List Res) : MData := ⟨l.map (·.p), l.map (·.lers), l.map (·.ebs), l.map (·.time)⟩

theorem mem_metrics (rs : List Res) (d : ℕ) (m : MData) :
    (d, m) ∈ metrics rs ↔ (∃ r ∈ rs, r.distance = d) ∧ m = dataOf (rs.filter fun r => r.distance = d) := by
  have := mem_group (V := MData) {} (fun r : Res => r.distance) (fun r e => e.add r) rs d m
  rw [foldl_add] at this
  simpa [group, metrics, dataOf] using this

theorem metrics_nodup (rs : List Res) : ((metrics rs).map (·.1)).Nodup :=
  (group_nodup (V := MData) {} (fun r : Res => r.distance) (fun r e => e.add r) rs).1

/-- The row of a result. -/
def Res.row (r : Res) : Row := (r.p, r.lers, r.time, r.ebs)

theorem rows_dataOf (l : List Res) : (dataOf l).rows = l.map Res.row := by
  simp only [dataOf, MData.rows]
  induction l with
  | nil => rfl
  | cons r l ih => simp only [List.map_cons, List.zip_cons_cons, ih]; rfl

theorem rowLe_p {a b : Row} (h : rowLe a b) : a.1 ≤ b.1 := by
  unfold rowLe at h
  rcases Prod.Lex.le_iff.1 h with h | h
  · exact le_of_lt h
  · exact le_of_eq h.1

instance : IsTrans Row rowLe := ⟨fun _ _ _ h1 h2 => le_trans (α := ℚ ×ₗ (List ℚ ×ₗ (ℚ ×ₗ List ℚ))) h1 h2⟩
instance : Std.Total rowLe := ⟨fun _ _ => le_total (α := ℚ ×ₗ (List ℚ ×ₗ (ℚ ×ₗ List ℚ))) _ _⟩

/-- The sorted data of a distance: the rows of its results in another order, by rising rates. -/
theorem sort_dataOf (l : List Res) : ∃ l' : List Res, l'.Perm l ∧ (l'.map (·.p)).Pairwise (· ≤ ·) ∧ (dataOf l).sort = dataOf l' := by
  refine ⟨l.insertionSort fun a b => rowLe a.row b.row, List.perm_insertionSort _ l, ?_, ?_⟩
  · have hm := List.map_insertionSort (r := fun a b : Res => rowLe a.row b.row) (s := rowLe) Res.row l (fun _ _ _ _ => Iff.rfl)
    have hs := List.pairwise_insertionSort rowLe (l.map Res.row)
    rw [← hm, List.pairwise_map] at hs
    rw [List.pairwise_map]
    exact hs.imp rowLe_p
  · have hm := List.map_insertionSort (r := fun a b : Res => rowLe a.row b.row) (s := rowLe) Res.row l (fun _ _ _ _ => Iff.rfl)
    simp only [MData.sort, rows_dataOf, ← hm, List.map_map]
    rfl

theorem mem_sortedItems {K V : Type} [LinearOrder K] (d : Assoc K V) (e : K × V) : e ∈ sortedItems d ↔ e ∈ d :=
  List.mem_insertionSort _

theorem sortedItems_perm {K V : Type} [LinearOrder K] (d : Assoc K V) : (sortedItems d).Perm d := List.perm_insertionSort _ _

/-! ## Columns -/

theorem column_ok {l : List (List ℚ)} {j : ℕ} {y : List ℚ} (h : column l j = .ok y) :
    (∀ r ∈ l, j < r.length) ∧ y = l.map fun r => r.getD j 0 := by
  induction l generalizing y with
  | nil =>
    simp only [column, List.mapM_nil, pure, Except.pure, Except.ok.injEq] at h
    simp [← h]
  | cons r l ih =>
    simp only [column, List.mapM_cons, bind, Except.bind, pure, Except.pure] at h
    cases hr : r[j]? with
    | none => rw [hr] at h; cases h
    | some x =>
      rw [hr] at h
      simp only at h
      cases hc : column l j with
      | error e => rw [column] at hc; rw [hc] at h; cases h
      | ok ys =>
        have hc' := hc
        rw [column] at hc'
        rw [hc'] at h
        obtain ⟨h1, h2⟩ := ih hc
        have hx : r.getD j 0 = x := by simp [List.getD, hr]
        refine ⟨?_, ?_⟩
        · intro s hs
          rcases List.mem_cons.1 hs with rfl | hs
          · exact (List.getElem?_eq_some_iff.1 hr).1
          · exact h1 s hs
        · rw [List.map_cons, hx, ← h2]
          exact (Except.ok.inj h).symm

end Verif.Plots
