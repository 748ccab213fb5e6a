import Verif.Model.UnionFind
import Mathlib.Data.Finset.Card
import Mathlib.Algebra.BigOperators.Group.Finset.Basic
import Mathlib.Logic.Relation

/-!
# C51: the union-find forest
-/

namespace Verif.UF
open Verif

/-- Specification: the equivalence generated by the united pairs. -/
def Connected (es : List (ℕ × ℕ)) (u v : ℕ) : Prop := Relation.EqvGen (fun a b => (a, b) ∈ es) u v

theorem connected_nil (u v : ℕ) : Connected [] u v ↔ u = v := by
  constructor
  · intro h
    induction h with
    | rel _ _ h => simp at h
    | refl => rfl
    | symm _ _ _ ih => exact ih.symm
    | trans _ _ _ _ _ h1 h2 => exact h1.trans h2
  · rintro rfl; exact .refl _

theorem connected_mono {es fs : List (ℕ × ℕ)} (h : ∀ e ∈ es, e ∈ fs) {u v : ℕ} (hc : Connected es u v) : Connected fs u v :=
  Relation.EqvGen.mono (fun _ _ hab => h _ hab) _ _ hc

theorem connected_snoc (es : List (ℕ × ℕ)) (a b u v : ℕ) :
    Connected (es ++ [(a, b)]) u v ↔ Connected es u v ∨ (Connected es u a ∧ Connected es b v) ∨
      (Connected es u b ∧ Connected es a v) := by
  have sub : ∀ e ∈ es, e ∈ es ++ [(a, b)] := fun e he => List.mem_append_left _ he
  have hab : Connected (es ++ [(a, b)]) a b := .rel _ _ (by simp)
  constructor
  · intro h
    induction h with
    | rel x y h =>
      rcases List.mem_append.1 h with h | h
      · exact .inl (.rel _ _ h)
      · simp only [List.mem_singleton, Prod.mk.injEq] at h
        obtain ⟨rfl, rfl⟩ := h
        exact .inr (.inl ⟨.refl _, .refl _⟩)
    | refl => exact .inl (.refl _)
    | symm x y _ ih =>
      rcases ih with h | ⟨h1, h2⟩ | ⟨h1, h2⟩
      · exact .inl (.symm _ _ h)
      · exact .inr (.inr ⟨.symm _ _ h2, .symm _ _ h1⟩)
      · exact .inr (.inl ⟨.symm _ _ h2, .symm _ _ h1⟩)
    | trans x y z _ _ ih1 ih2 =>
      rcases ih1 with h | ⟨h1, h2⟩ | ⟨h1, h2⟩ <;> rcases ih2 with k | ⟨k1, k2⟩ | ⟨k1, k2⟩
      · exact .inl (.trans _ _ _ h k)
      · exact .inr (.inl ⟨.trans _ _ _ h k1, k2⟩)
      · exact .inr (.inr ⟨.trans _ _ _ h k1, k2⟩)
      · exact .inr (.inl ⟨h1, .trans _ _ _ h2 k⟩)
      · exact .inr (.inl ⟨h1, k2⟩)
      · exact .inl (.trans _ _ _ h1 k2)
      · exact .inr (.inr ⟨h1, .trans _ _ _ h2 k⟩)
      · exact .inl (.trans _ _ _ h1 k2)
      · exact .inr (.inr ⟨h1, k2⟩)
  · rintro (h | ⟨h1, h2⟩ | ⟨h1, h2⟩)
    · exact connected_mono sub h
    · exact .trans _ _ _ (connected_mono sub h1) (.trans _ _ _ hab (connected_mono sub h2))
    · exact .trans _ _ _ (connected_mono sub h1) (.trans _ _ _ (.symm _ _ hab) (connected_mono sub h2))

/-- The invariant: `root` is the ghost function giving the root of every vertex. -/
structure Good (n : ℕ) (es : List (ℕ × ℕ)) (f : Forest) (root : ℕ → ℕ) : Prop where
  none : ∀ v, (f v).parent = none ↔ root v = v
  step : ∀ v p, (f v).parent = some p → root p = root v ∧ (f v).size < (f p).size
  idem : ∀ v, root (root v) = root v
  conn : ∀ u v, root u = root v ↔ Connected es u v
  size : ∀ r, root r = r → ∃ C : Finset ℕ, (∀ v, v ∈ C ↔ root v = r) ∧ C.card = (f r).size
  total : ∀ R : Finset ℕ, (∀ r ∈ R, root r = r) → ∑ r ∈ R, ((f r).size - 1) ≤ es.length
  size_root : ∀ v, (f v).size ≤ (f (root v)).size
  size_pos : ∀ v, 0 < (f v).size
  isCheck : ∀ v, (f v).isCheck = decide (n ≤ v)
  checks : ∀ r, root r = r → (f r).checks.Nodup ∧ ∀ c, c ∈ (f r).checks ↔ n ≤ c ∧ root c = r
  childless : ∀ v, root v ≠ v → (f v).checks = if n ≤ v then [v] else []
  children : ∀ p, (f p).children.Nodup ∧ ∀ c, c ∈ (f p).children ↔ (f c).parent = some p

theorem good_fresh (n : ℕ) : Good n [] (fresh n) id where
  none := fun v => by simp [fresh]
  step := fun v p h => by simp [fresh] at h
  idem := fun v => rfl
  conn := fun u v => (connected_nil u v).symm
  size := fun r _ => ⟨{r}, fun v => by simp, by simp [fresh]⟩
  total := fun R _ => by simp [fresh]
  size_root := fun v => le_rfl
  size_pos := fun v => by simp [fresh]
  isCheck := fun v => rfl
  checks := fun r _ => by
    by_cases h : n ≤ r
    · refine ⟨by simp [fresh, h], fun c => ?_⟩
      simp only [fresh, h, if_true, List.mem_singleton, id]
      constructor
      · rintro rfl; exact ⟨h, rfl⟩
      · exact fun h => h.2
    · refine ⟨by simp [fresh, h], fun c => ?_⟩
      simp only [fresh, h, if_false, List.not_mem_nil, id, false_iff]
      rintro ⟨h1, rfl⟩
      exact h h1
  childless := fun v h => absurd rfl h
  children := fun p => by simp [fresh]

theorem Good.size_le {n : ℕ} {es : List (ℕ × ℕ)} {f : Forest} {root : ℕ → ℕ} (h : Good n es f root) (v : ℕ) :
    (f v).size ≤ es.length + 1 := by
  have h1 := h.size_root v
  have h2 := h.total {root v} (by intro r hr; rw [Finset.mem_singleton] at hr; rw [hr]; exact h.idem v)
  rw [Finset.sum_singleton] at h2
  omega

/-- `find` returns the root if the fuel exceeds the height, which is below the size of the cluster. -/
theorem find_eq {n : ℕ} {es : List (ℕ × ℕ)} {f : Forest} {root : ℕ → ℕ} (h : Good n es f root) (k v : ℕ)
    (hk : (f (root v)).size - (f v).size < k) : find f k v = some (root v) := by
  induction k generalizing v with
  | zero => omega
  | succ k ih =>
    rw [find]
    cases hp : (f v).parent with
    | none => simp only; rw [(h.none v).1 hp]
    | some p =>
      obtain ⟨h1, h2⟩ := h.step v p hp
      have h3 := h.size_root p
      simp only
      rw [← h1]
      apply ih
      rw [← h1] at hk
      omega

theorem find_root {n : ℕ} {es : List (ℕ × ℕ)} {f : Forest} {root : ℕ → ℕ} (h : Good n es f root) (k v : ℕ)
    (hk : es.length < k) : find f k v = some (root v) := by
  apply find_eq h
  have h1 := h.size_le (root v)
  have h2 := h.size_pos v
  omega

theorem add_apply (f : Forest) (a b v : ℕ) : addFirstToSecond f a b v =
    if v = a then { f a with parent := some b, checks := if (f a).isCheck then [a] else [] }
    else if v = b then { f b with
      children := (f b).children ++ [a], size := (f b).size + (f a).size, checks := (f b).checks ++ (f a).checks }
    else f v := by
  rfl

/-- Hanging one root below another. -/
theorem good_add {n : ℕ} {es : List (ℕ × ℕ)} {f : Forest} {root : ℕ → ℕ} (h : Good n es f root) (a b x y : ℕ)
    (ha : root a = a) (hb : root b = b) (hab : a ≠ b)
    (hxy : (root x = a ∧ root y = b) ∨ (root x = b ∧ root y = a)) :
    Good n (es ++ [(x, y)]) (addFirstToSecond f a b) (fun v => if root v = a then b else root v) := by
  have ap := fun v => add_apply f a b v
  have hba : b ≠ a := fun e => hab e.symm
  have hpa : (f a).parent = none := (h.none a).2 ha
  have hpb : (f b).parent = none := (h.none b).2 hb
  have sza := h.size_pos a
  have par : ∀ v, (addFirstToSecond f a b v).parent = if v = a then some b else (f v).parent := by
    intro v
    rw [ap]
    by_cases h1 : v = a
    · simp [h1]
    · by_cases h2 : v = b
      · subst h2; simp [h1]
      · simp [h1, h2]
  have siz : ∀ v, (addFirstToSecond f a b v).size = if v = b then (f b).size + (f a).size else (f v).size := by
    intro v
    rw [ap]
    by_cases h1 : v = a
    · subst h1; simp [hab]
    · by_cases h2 : v = b
      · subst h2; simp [h1]
      · simp [h1, h2]
  have siz_le : ∀ v, (f v).size ≤ (addFirstToSecond f a b v).size := by
    intro v; rw [siz]; split
    · rename_i e; rw [e]; omega
    · exact le_rfl
  -- distinct root clusters together have at most es.length + 2 elements
  have len : (es ++ [(x, y)]).length = es.length + 1 := by simp
  refine ⟨?_, ?_, ?_, ?_, ?_, ?_, ?_, ?_, ?_, ?_, ?_, ?_⟩
  · intro v
    rw [par]
    by_cases h1 : v = a
    · subst h1
      rw [if_pos rfl, if_pos ha]
      simp [hba]
    · rw [if_neg h1, h.none v]
      by_cases h2 : root v = a
      · rw [if_pos h2]
        constructor
        · intro h3; exact absurd (h3.symm.trans h2) h1
        · intro h3; rw [← h3, hb] at h2; exact absurd h2 hba
      · rw [if_neg h2]
  · intro v p hp
    rw [par] at hp
    by_cases h1 : v = a
    · rw [if_pos h1] at hp
      cases hp
      subst h1
      rw [if_pos ha, hb, if_neg hba, siz, siz, if_neg hab, if_pos rfl]
      have := h.size_pos b
      exact ⟨rfl, by omega⟩
    · rw [if_neg h1] at hp
      obtain ⟨g1, g2⟩ := h.step v p hp
      rw [g1]
      refine ⟨rfl, ?_⟩
      have hvb : v ≠ b := by rintro rfl; rw [hpb] at hp; cases hp
      rw [siz v, if_neg hvb]
      exact lt_of_lt_of_le g2 (siz_le p)
  · intro v
    by_cases h1 : root v = a
    · rw [if_pos h1, hb, if_neg hba]
    · rw [if_neg h1, h.idem, if_neg h1]
  · intro u v
    rw [connected_snoc, ← h.conn, ← h.conn, ← h.conn, ← h.conn, ← h.conn]
    by_cases h1 : root u = a <;> by_cases h2 : root v = a
    · rw [if_pos h1, if_pos h2]; simp [h1, h2]
    · rw [if_pos h1, if_neg h2, h1]
      rcases hxy with ⟨e1, e2⟩ | ⟨e1, e2⟩
      · rw [e1, e2]
        constructor
        · intro e; exact .inr (.inl ⟨rfl, e⟩)
        · rintro (e | ⟨-, e⟩ | ⟨e, -⟩)
          · exact absurd e.symm h2
          · exact e
          · exact absurd e hab
      · rw [e1, e2]
        constructor
        · intro e; exact .inr (.inr ⟨rfl, e⟩)
        · rintro (e | ⟨e, -⟩ | ⟨-, e⟩)
          · exact absurd e.symm h2
          · exact absurd e hab
          · exact e
    · rw [if_neg h1, if_pos h2, h2]
      rcases hxy with ⟨e1, e2⟩ | ⟨e1, e2⟩
      · rw [e1, e2]
        constructor
        · intro e; exact .inr (.inr ⟨e, rfl⟩)
        · rintro (e | ⟨e, -⟩ | ⟨e, -⟩)
          · exact absurd e h1
          · exact absurd e h1
          · exact e
      · rw [e1, e2]
        constructor
        · intro e; exact .inr (.inl ⟨e, rfl⟩)
        · rintro (e | ⟨e, -⟩ | ⟨e, -⟩)
          · exact absurd e h1
          · exact e
          · exact absurd e h1
    · rw [if_neg h1, if_neg h2]
      constructor
      · exact fun e => .inl e
      · rintro (e | ⟨e, e'⟩ | ⟨e, e'⟩)
        · exact e
        · rcases hxy with ⟨e1, e2⟩ | ⟨e1, e2⟩
          · exact absurd (e.trans e1) h1
          · exact absurd (e'.symm.trans e2) h2
        · rcases hxy with ⟨e1, e2⟩ | ⟨e1, e2⟩
          · exact absurd (e'.symm.trans e1) h2
          · exact absurd (e.trans e2) h1
  · intro r hr
    by_cases h1 : root r = a
    · rw [if_pos h1] at hr
      rw [← hr, hb] at h1
      exact absurd h1 hba
    · rw [if_neg h1] at hr
      have hra : r ≠ a := fun e => h1 (hr.trans e)
      by_cases h2 : r = b
      · obtain ⟨A, A1, A2⟩ := h.size a ha
        obtain ⟨B, B1, B2⟩ := h.size b hb
        refine ⟨B ∪ A, fun v => ?_, ?_⟩
        · rw [Finset.mem_union, A1, B1, h2]
          by_cases h3 : root v = a
          · simp [h3]
          · simp [h3]
        · rw [Finset.card_union_of_disjoint, A2, B2, siz, if_pos h2]
          rw [Finset.disjoint_left]
          intro v hv hv'
          exact hba (((B1 v).1 hv).symm.trans ((A1 v).1 hv'))
      · obtain ⟨C, C1, C2⟩ := h.size r hr
        refine ⟨C, fun v => ?_, by rw [siz, if_neg h2]; exact C2⟩
        rw [C1]
        by_cases h3 : root v = a
        · rw [if_pos h3, h3]
          exact ⟨fun e => absurd e.symm hra, fun e => absurd e.symm h2⟩
        · rw [if_neg h3]
  · intro R hR
    rw [len]
    have hroots : ∀ r ∈ R, root r = r ∧ r ≠ a := by
      intro r hr
      have := hR r hr
      by_cases h1 : root r = a
      · rw [if_pos h1] at this
        rw [← this, hb] at h1
        exact absurd h1 hba
      · rw [if_neg h1] at this
        exact ⟨this, fun e => h1 (this.trans e)⟩
    have sb := h.size_pos b
    by_cases h1 : b ∈ R
    · have e : ∑ r ∈ R, ((addFirstToSecond f a b r).size - 1) = (∑ r ∈ R, ((f r).size - 1)) + (f a).size := by
        rw [← Finset.add_sum_erase _ _ h1, ← Finset.add_sum_erase _ (fun r => (f r).size - 1) h1, siz, if_pos rfl]
        have : ∑ r ∈ R.erase b, ((addFirstToSecond f a b r).size - 1) = ∑ r ∈ R.erase b, ((f r).size - 1) := by
          refine Finset.sum_congr rfl fun r hr => ?_
          rw [siz, if_neg (Finset.ne_of_mem_erase hr)]
        rw [this]
        omega
      have h2 := h.total (insert a R) (by
        intro r hr
        rcases Finset.mem_insert.1 hr with e | hr
        · rw [e]; exact ha
        · exact (hroots r hr).1)
      rw [Finset.sum_insert fun hh => (hroots a hh).2 rfl] at h2
      rw [e]
      omega
    · have e : ∑ r ∈ R, ((addFirstToSecond f a b r).size - 1) = ∑ r ∈ R, ((f r).size - 1) := by
        refine Finset.sum_congr rfl fun r hr => ?_
        rw [siz, if_neg (fun e : r = b => h1 (e ▸ hr))]
      rw [e]
      exact le_trans (h.total R fun r hr => (hroots r hr).1) (by omega)
  · intro v
    by_cases h1 : root v = a
    · rw [if_pos h1, siz, siz, if_pos rfl]
      have := h.size_root v
      rw [h1] at this
      split
      · exact le_rfl
      · omega
    · rw [if_neg h1]
      by_cases h2 : v = b
      · rw [h2, hb]
      · rw [siz v, if_neg h2]
        exact le_trans (h.size_root v) (siz_le _)
  · intro v
    exact lt_of_lt_of_le (h.size_pos v) (siz_le v)
  · intro v
    rw [ap]
    by_cases h1 : v = a
    · subst h1; simp [h.isCheck]
    · by_cases h2 : v = b
      · subst h2; simp [h1, h.isCheck]
      · simp [h1, h2, h.isCheck]
  · intro r hr
    by_cases h1 : root r = a
    · rw [if_pos h1] at hr
      rw [← hr, hb] at h1
      exact absurd h1 hba
    · rw [if_neg h1] at hr
      have hra : r ≠ a := fun e => h1 (hr.trans e)
      rw [ap, if_neg hra]
      by_cases h2 : r = b
      · rw [if_pos h2]
        obtain ⟨a1, a2⟩ := h.checks a ha
        obtain ⟨b1, b2⟩ := h.checks b hb
        refine ⟨?_, fun c => ?_⟩
        · simp only
          rw [List.nodup_append]
          refine ⟨b1, a1, ?_⟩
          intro u hu w hw e
          subst e
          exact hba (((b2 u).1 hu).2.symm.trans ((a2 u).1 hw).2)
        · simp only [List.mem_append, a2, b2, h2]
          by_cases h3 : root c = a
          · simp [h3, hab]
          · simp [h3]
      · rw [if_neg h2]
        obtain ⟨a1, a2⟩ := h.checks r hr
        refine ⟨a1, fun c => ?_⟩
        rw [a2]
        by_cases h3 : root c = a
        · rw [if_pos h3, h3]
          exact ⟨fun e => absurd e.2.symm hra, fun e => absurd e.2.symm h2⟩
        · rw [if_neg h3]
  · intro v hv
    rw [ap]
    by_cases h1 : v = a
    · rw [if_pos h1, h1]
      simp [h.isCheck]
    · rw [if_neg h1]
      have hvb : v ≠ b := by
        rintro rfl
        rw [hb, if_neg h1] at hv
        exact hv rfl
      rw [if_neg hvb]
      apply h.childless v
      intro e
      rw [e, if_neg h1] at hv
      exact hv rfl
  · intro p
    obtain ⟨c1, c2⟩ := h.children p
    have ch : (addFirstToSecond f a b p).children = if p = b then (f p).children ++ [a] else (f p).children := by
      rw [ap]
      by_cases h1 : p = a
      · subst h1; simp [hab]
      · by_cases h2 : p = b
        · subst h2; simp [h1]
        · simp [h1, h2]
    rw [ch]
    have na : a ∉ (f p).children := by
      rw [c2, hpa]; simp
    by_cases h1 : p = b
    · rw [if_pos h1]
      refine ⟨List.nodup_append.2 ⟨c1, by simp, ?_⟩, fun c => ?_⟩
      · intro u hu w hw e
        simp only [List.mem_singleton] at hw
        rw [e, hw] at hu
        exact na hu
      · rw [List.mem_append, c2, par, List.mem_singleton]
        by_cases h2 : c = a
        · simp [h2, h1]
        · simp [h2]
    · rw [if_neg h1]
      refine ⟨c1, fun c => ?_⟩
      rw [c2, par]
      by_cases h2 : c = a
      · rw [if_pos h2, h2, hpa]
        simp [Ne.symm h1]
      · rw [if_neg h2]

theorem good_same {n : ℕ} {es : List (ℕ × ℕ)} {f : Forest} {root : ℕ → ℕ} (h : Good n es f root) (x y : ℕ)
    (hxy : root x = root y) : Good n (es ++ [(x, y)]) f root :=
  { h with
    conn := fun u v => by
      rw [connected_snoc, ← h.conn, ← h.conn, ← h.conn, ← h.conn, ← h.conn, hxy]
      constructor
      · exact .inl
      · rintro (e | ⟨e1, e2⟩ | ⟨e1, e2⟩)
        · exact e
        · exact e1.trans e2
        · exact e1.trans e2
    total := fun R hR => le_trans (h.total R hR) (by simp) }

theorem good_union {n : ℕ} {es : List (ℕ × ℕ)} {f : Forest} {root : ℕ → ℕ} (h : Good n es f root) (x y fuel : ℕ)
    (hf : es.length < fuel) : ∃ g root', union f fuel x y = some g ∧ Good n (es ++ [(x, y)]) g root' := by
  unfold union
  rw [find_root h fuel x hf, find_root h fuel y hf]
  show ∃ g root', (if root x = root y then some f
    else if (f (root x)).size ≤ (f (root y)).size then some (addFirstToSecond f (root x) (root y))
    else some (addFirstToSecond f (root y) (root x))) = some g ∧ _
  by_cases h1 : root x = root y
  · rw [if_pos h1]
    exact ⟨f, root, rfl, good_same h x y h1⟩
  · rw [if_neg h1]
    split
    · exact ⟨_, _, rfl, good_add h _ _ x y (h.idem x) (h.idem y) h1 (.inl ⟨rfl, rfl⟩)⟩
    · exact ⟨_, _, rfl, good_add h _ _ x y (h.idem y) (h.idem x) (fun e => h1 e.symm) (.inr ⟨rfl, rfl⟩)⟩

theorem good_unions {n : ℕ} {es : List (ℕ × ℕ)} {f : Forest} {root : ℕ → ℕ} (h : Good n es f root) (ops : List (ℕ × ℕ))
    (fuel : ℕ) (hf : es.length + ops.length < fuel) :
    ∃ g root', unions fuel f ops = some g ∧ Good n (es ++ ops) g root' := by
  induction ops generalizing es f root with
  | nil => exact ⟨f, root, rfl, by simpa using h⟩
  | cons e ops ih =>
    obtain ⟨g, root', h1, h2⟩ := good_union h e.1 e.2 fuel (by simp at hf; omega)
    obtain ⟨g', root'', h3, h4⟩ := ih h2 (by simp at hf ⊢; omega)
    refine ⟨g', root'', ?_, by simpa using h4⟩
    rw [unions, h1]
    exact h3

/-- **C51**: after any sequence of unions, starting from fresh nodes of a code with `n` bits: every union and every find
returns; two vertices have the same root exactly when they are connected by the united pairs; the size stored at a root is
the number of vertices of the cluster; the check vertices stored there are exactly those of the cluster, each once. -/
theorem C51_forest (n : ℕ) (ops : List (ℕ × ℕ)) (fuel : ℕ) (hf : ops.length < fuel) :
    ∃ g, unions fuel (fresh n) ops = some g ∧ ∃ root : ℕ → ℕ, (∀ v, find g fuel v = some (root v)) ∧
      (∀ u v, root u = root v ↔ Connected ops u v) ∧ (∀ v, Connected ops v (root v)) ∧
      ∀ v, (∃ C : Finset ℕ, (∀ w, w ∈ C ↔ Connected ops v w) ∧ (g (root v)).size = C.card) ∧
        (g (root v)).checks.Nodup ∧ ∀ c, c ∈ (g (root v)).checks ↔ n ≤ c ∧ Connected ops v c := by
  obtain ⟨g, root, h1, h2⟩ := good_unions (good_fresh n) ops fuel (by simpa using hf)
  rw [List.nil_append] at h2
  refine ⟨g, h1, root, fun v => find_root h2 fuel v hf, h2.conn, fun v => (h2.conn _ _).1 (h2.idem v).symm, fun v => ?_⟩
  obtain ⟨C, c1, c2⟩ := h2.size (root v) (h2.idem v)
  obtain ⟨d1, d2⟩ := h2.checks (root v) (h2.idem v)
  refine ⟨⟨C, fun w => ?_, c2.symm⟩, d1, fun c => ?_⟩
  · rw [c1, ← h2.conn]; exact eq_comm
  · rw [d2, ← h2.conn, eq_comm (a := root c)]

/-- **C51**: the `children` lists are the inverse of `parent`: following them from the root reaches exactly the cluster. -/
theorem C51_children (n : ℕ) (ops : List (ℕ × ℕ)) (fuel : ℕ) (hf : ops.length < fuel) (g : Forest)
    (hg : unions fuel (fresh n) ops = some g) (v r : ℕ) (hr : find g fuel v = some r) (w : ℕ) :
    Relation.ReflTransGen (fun p c => c ∈ (g p).children) r w ↔ Connected ops v w := by
  obtain ⟨g', root, h1, h2⟩ := good_unions (good_fresh n) ops fuel (by simpa using hf)
  rw [List.nil_append] at h2
  rw [hg] at h1
  cases h1
  rw [find_root h2 fuel v hf] at hr
  cases hr
  rw [← h2.conn]
  constructor
  · intro h
    induction h with
    | refl => exact (h2.idem v).symm
    | tail _ hc ih =>
      rw [ih]
      exact (h2.step _ _ (((h2.children _).2 _).1 hc)).1
  · intro h
    rw [h]
    -- climb from w
    have climb : ∀ k w, (g (root w)).size - (g w).size < k →
        Relation.ReflTransGen (fun p c => c ∈ (g p).children) (root w) w := by
      intro k
      induction k with
      | zero => intro w hk; omega
      | succ k ih =>
        intro w hk
        cases hp : (g w).parent with
        | none => rw [(h2.none w).1 hp]
        | some p =>
          obtain ⟨s1, s2⟩ := h2.step w p hp
          have s3 := h2.size_root p
          rw [← s1] at hk ⊢
          exact (ih p (by omega)).tail (((h2.children p).2 w).2 hp)
    exact climb _ w (Nat.lt_succ_self _)

example : (unions 9 (fresh 3) [(3, 0), (0, 4), (1, 2), (4, 3)]).map (fun g => ((find g 9 4), (g 0).size, (g 0).checks, find g 9 2)) =
    some (some 0, 3, [3, 4], some 2) := by decide

end Verif.UF
