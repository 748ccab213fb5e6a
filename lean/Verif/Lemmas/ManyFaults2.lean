import Verif.Lemmas.ManyFaults

/-! # Combinations of several faults -/

namespace Verif.SP
open Verif Verif.Spec
variable {n : ℕ}

/-- One fault as seen by the verification: an error present before it, an error on one data qubit seen from measurement number
`k` on, or a flip of the result of measurement `k`. -/
inductive Eff (n : ℕ)
  | prep (u : Vec n)
  | data (q : Fin n) (k : ℕ)
  | flip (k : ℕ)

/-- The error left on the data. -/
def Eff.total : Eff n → Vec n
  | .prep u => u
  | .data q _ => Pi.single q 1
  | .flip _ => 0

/-- The error present when measurement `p` is made. -/
def Eff.seen (p : ℕ) : Eff n → Vec n
  | .prep u => u
  | .data q k => if k ≤ p then Pi.single q 1 else 0
  | .flip _ => 0

/-- The flip of result `p`. -/
def Eff.flips (p : ℕ) : Eff n → ZMod 2
  | .prep _ => 0
  | .data _ _ => 0
  | .flip k => if k = p then 1 else 0

/-- Present before measurement `p`. -/
def Eff.early (p : ℕ) : Eff n → Bool
  | .prep _ => true
  | .data _ k => k ≤ p
  | .flip _ => false

/-- A flip before result `p`. -/
def Eff.fl (p : ℕ) : Eff n → Bool
  | .flip k => k < p
  | _ => false

/-- Later data errors. -/
def Eff.late (p : ℕ) : Eff n → Bool
  | .data _ k => ! decide (k ≤ p)
  | _ => false

theorem countP_le_imp {α : Type} (l : List α) (p q : α → Bool) (h : ∀ x, p x = true → q x = true) :
    l.countP p ≤ l.countP q := List.countP_mono_left fun x _ => h x

theorem countP_eq_imp {α : Type} (l : List α) (p q : α → Bool) (h : ∀ x, p x = true → q x = true)
    (he : l.countP p = l.countP q) : ∀ x ∈ l, q x = true → p x = true := by
  induction l with
  | nil => simp
  | cons a l ih =>
    have h1 := countP_le_imp l p q h
    rw [List.countP_cons, List.countP_cons] at he
    have ha := h a
    intro x hx hq
    rcases List.mem_cons.1 hx with rfl | hx
    · by_contra hp
      simp [hp, hq] at he
      omega
    · refine ih ?_ x hx hq
      by_cases hpa : p a = true
      · simp [hpa, ha hpa] at he; exact he
      · by_cases hqa : q a = true
        · simp [hpa, hqa] at he; omega
        · simp [hpa, hqa] at he; exact he

theorem wt_add_le' (a b : Vec n) : wt (a + b) ≤ wt a + wt b := by
  unfold wt
  refine (Finset.card_le_card ?_).trans (Finset.card_union_le _ _)
  intro i hi
  simp only [Finset.mem_filter, Finset.mem_univ, true_and, Finset.mem_union, Pi.add_apply] at hi ⊢
  by_contra hcon
  push Not at hcon
  exact hi (by rw [hcon.1, hcon.2, add_zero])

/-- The first measurement of layer `i` (layers are numbered from 1; layer 0 is empty). -/
def layerStart (layers : List (List (Vec n))) (i : ℕ) : ℕ := ((layers.take (i - 1)).flatten).length

theorem layerStart_mono (layers : List (List (Vec n))) (i : ℕ) : layerStart layers i ≤ layerStart layers (i + 1) := by
  unfold layerStart
  cases i with
  | zero => simp
  | succ j =>
    simp only [Nat.add_sub_cancel]
    rw [List.take_succ, List.flatten_append, List.length_append]
    omega

/-- The measurements of a layer. -/
theorem layer_index (layers : List (List (Vec n))) (j : ℕ) (hj : j < layers.length) (m : Vec n) (hm : m ∈ layers[j]) :
    ∃ p, layerStart layers (j + 1) ≤ p ∧ p < layerStart layers (j + 2) ∧ layers.flatten[p]? = some m := by
  obtain ⟨a, ha, hm⟩ := List.getElem_of_mem hm
  have hsplit : layers = layers.take j ++ layers[j] :: layers.drop (j + 1) := by
    rw [← List.drop_eq_getElem_cons hj, List.take_append_drop]
  have h2 : layerStart layers (j + 2) = layerStart layers (j + 1) + (layers[j]).length := by
    unfold layerStart
    show ((layers.take (j + 1)).flatten).length = ((layers.take j).flatten).length + _
    rw [List.take_succ, List.flatten_append, List.length_append]
    simp [hj]
  refine ⟨layerStart layers (j + 1) + a, by omega, by omega, ?_⟩
  have h1 : layerStart layers (j + 1) = ((layers.take j).flatten).length := rfl
  have hfl : layers.flatten = (layers.take j).flatten ++ (layers[j] ++ (layers.drop (j + 1)).flatten) := by
    have := congrArg List.flatten hsplit
    rwa [List.flatten_append, List.flatten_cons] at this
  rw [hfl, h1, List.getElem?_append_right (by omega)]
  rw [show ((layers.take j).flatten).length + a - ((layers.take j).flatten).length = a by omega]
  rw [List.getElem?_append_left ha, ← hm]
  simp [ha]

/-- The sum of the errors present early. -/
theorem seen_sum (P : Vec n → Prop) (hP1 : ∀ q, P (Pi.single q 1)) (es : List (Eff n)) (hes : ∀ u, Eff.prep u ∈ es → P u) (p : ℕ) :
    SumOf P (es.countP (Eff.early p)) ((es.map (Eff.seen p)).sum) := by
  induction es with
  | nil => exact ⟨[], rfl, by simp, rfl⟩
  | cons e es ih =>
    obtain ⟨l, hl, hlP, hs⟩ := ih fun u hu => hes u (by simp [hu])
    rw [List.countP_cons, List.map_cons, List.sum_cons, ← hs]
    cases e with
    | prep u =>
      refine ⟨u :: l, by simp [Eff.early, hl], ?_, by simp [Eff.seen]⟩
      intro x hx
      rcases List.mem_cons.1 hx with rfl | hx
      · exact hes _ (by simp)
      · exact hlP x hx
    | data q k =>
      by_cases hk : k ≤ p
      · refine ⟨Pi.single q 1 :: l, by simp [Eff.early, hl, hk], ?_, by simp [Eff.seen, hk]⟩
        intro x hx
        rcases List.mem_cons.1 hx with rfl | hx
        · exact hP1 _
        · exact hlP x hx
      · exact ⟨l, by simp [Eff.early, hl, hk], hlP, by simp [Eff.seen, hk]⟩
    | flip k => exact ⟨l, by simp [Eff.early, hl], hlP, by simp [Eff.seen]⟩

/-- What is not seen at `p`. -/
theorem total_split (es : List (Eff n)) (p : ℕ) : ∃ r : Vec n,
    (es.map Eff.total).sum = (es.map (Eff.seen p)).sum + r ∧ wt r ≤ es.countP (Eff.late p) := by
  induction es with
  | nil => exact ⟨0, by simp, by simp [wt]⟩
  | cons e es ih =>
    obtain ⟨r, h1, h2⟩ := ih
    cases e with
    | prep u => exact ⟨r, by simp only [List.map_cons, List.sum_cons, Eff.total, Eff.seen, h1]; abel, by simpa [Eff.late] using h2⟩
    | flip k => exact ⟨r, by simp only [List.map_cons, List.sum_cons, Eff.total, Eff.seen, h1]; abel, by simpa [Eff.late] using h2⟩
    | data q k =>
      by_cases hk : k ≤ p
      · exact ⟨r, by simp only [List.map_cons, List.sum_cons, Eff.total, Eff.seen, h1, hk, if_true]; abel, by simpa [Eff.late, hk] using h2⟩
      · refine ⟨Pi.single q 1 + r, by simp only [List.map_cons, List.sum_cons, Eff.total, Eff.seen, h1, hk, if_false]; abel, ?_⟩
        have := wt_add_le' (Pi.single q 1) r
        rw [wt_single] at this
        simp only [List.countP_cons, Eff.late, hk, decide_false, Bool.not_false, if_true]
        omega

theorem counts_le (es : List (Eff n)) (p p' : ℕ) :
    es.countP (Eff.early p) + es.countP (Eff.fl p') + es.countP (Eff.late p) ≤ es.length := by
  induction es with
  | nil => simp
  | cons e es ih =>
    cases e with
    | prep u => simp [List.countP_cons, Eff.early, Eff.fl, Eff.late]; omega
    | data q k => by_cases hk : k ≤ p <;> simp [List.countP_cons, Eff.early, Eff.fl, Eff.late, hk] <;> omega
    | flip k => by_cases hk : k < p' <;> simp [List.countP_cons, Eff.early, Eff.fl, Eff.late, hk] <;> omega

/-- **The counting argument**: with at most as many faults as layers, some layer contains no fault and comes after at most as
many errors as its number; so what all measurements together miss is harmless. -/
theorem undetected_harmless (S : List (Vec n)) (w : ℕ → ℤ) (hw : ∀ i r : ℕ, w i + r ≤ w (i + r)) (hw0 : 0 ≤ w 0)
    (P : Vec n → Prop) (hP1 : ∀ q, P (Pi.single q 1)) (layers : List (List (Vec n)))
    (hlay : ∀ j (hj : j < layers.length) k v, k ≤ j + 1 → SumOf P k v → (∀ m ∈ layers[j], dot m v = 0) →
      ∃ f, v + f ∈ rowSpan S ∧ (wt f : ℤ) ≤ w (j + 1))
    (es : List (Eff n)) (hes : ∀ u, Eff.prep u ∈ es → P u) (hlen : es.length ≤ layers.length)
    (hacc : ∀ p m, layers.flatten[p]? = some m → dot m ((es.map (Eff.seen p)).sum) + (es.map (Eff.flips p)).sum = 0) :
    ∃ f, (es.map Eff.total).sum + f ∈ rowSpan S ∧ (wt f : ℤ) ≤ w es.length := by
  set s := layerStart layers with hs
  set d : ℕ → ℕ := fun i => es.countP (Eff.early (s i)) with hd
  set F : ℕ → ℕ := fun i => es.countP (Eff.fl (s i)) with hF
  have hmono : ∀ i, s i ≤ s (i + 1) := layerStart_mono layers
  have hearly : ∀ i x, Eff.early (n := n) (s i) x = true → Eff.early (s (i + 1)) x = true := by
    intro i x hx
    have := hmono i
    cases x <;> simp only [Eff.early, decide_eq_true_eq, Bool.false_eq_true] at hx ⊢
    omega
  have hfl : ∀ i x, Eff.fl (n := n) (s i) x = true → Eff.fl (s (i + 1)) x = true := by
    intro i x hx
    have := hmono i
    cases x <;> simp only [Eff.fl, decide_eq_true_eq, Bool.false_eq_true] at hx ⊢
    omega
  have hdm : ∀ i, d i ≤ d (i + 1) := fun i => countP_le_imp _ _ _ (hearly i)
  have hFm : ∀ i, F i ≤ F (i + 1) := fun i => countP_le_imp _ _ _ (hfl i)
  -- a layer without faults
  have hex : ∃ i, i ≤ layers.length ∧ i ≤ d i + F i ∧ d (i + 1) + F (i + 1) < i + 1 := by
    by_contra hcon
    push Not at hcon
    have hall : ∀ i ≤ layers.length + 1, i ≤ d i + F i := by
      intro i
      induction i with
      | zero => intro _; omega
      | succ i ih => intro hi; exact hcon i (by omega) (ih (by omega))
    have h1 := hall (layers.length + 1) le_rfl
    have h2 := counts_le es (s (layers.length + 1)) (s (layers.length + 1))
    simp only [hd, hF] at h1
    omega
  obtain ⟨i, hi, h1, h2⟩ := hex
  have h3 := hdm i
  have h4 := hFm i
  have hde : d i = d (i + 1) := by omega
  have hFe : F i = F (i + 1) := by omega
  have hie : i = d i + F i := by omega
  have he1 := countP_eq_imp es _ _ (hearly i) hde
  have he2 := countP_eq_imp es _ _ (hfl i) hFe
  have hsum := seen_sum P hP1 es hes (s i)
  obtain ⟨r, hr1, hr2⟩ := total_split es (s i)
  have hcnt := counts_le es (s i) (s i)
  have hv : ∃ f, (es.map (Eff.seen (s i))).sum + f ∈ rowSpan S ∧ (wt f : ℤ) ≤ w i := by
    cases i with
    | zero =>
      have h0 : es.countP (Eff.early (s 0)) = 0 := by simp only [hd] at hie; omega
      rw [h0] at hsum
      obtain ⟨l, hl, -, hsm⟩ := hsum
      rw [List.length_eq_zero_iff] at hl
      subst hl
      refine ⟨0, ?_, by simpa [wt] using hw0⟩
      rw [← hsm]; simp
    | succ j =>
      refine hlay j (by omega) (d (j + 1)) _ (by omega) hsum fun m hm => ?_
      obtain ⟨p, hp1, hp2, hp3⟩ := layer_index layers j (by omega) m hm
      have := hacc p m hp3
      have hseen : es.map (Eff.seen p) = es.map (Eff.seen (s (j + 1))) := by
        refine List.map_congr_left fun e he => ?_
        have h5 := he1 e he
        cases e with
        | prep u => rfl
        | flip k => rfl
        | data q k =>
          simp only [Eff.early, decide_eq_true_eq] at h5
          simp only [Eff.seen]
          by_cases hk : k ≤ s (j + 1)
          · rw [if_pos hk, if_pos (show k ≤ p from hk.trans hp1)]
          · rw [if_neg hk, if_neg (fun hkp => hk (h5 (by
              have : p < s (j + 1 + 1) := hp2
              omega)))]
      have hflips : (es.map (Eff.flips p)).sum = 0 := by
        refine List.sum_eq_zero fun x hx => ?_
        obtain ⟨e, he, rfl⟩ := List.mem_map.1 hx
        have h5 := he2 e he
        cases e with
        | prep u => rfl
        | data q k => rfl
        | flip k =>
          simp only [Eff.fl, decide_eq_true_eq] at h5
          simp only [Eff.flips]
          rw [if_neg]
          rintro rfl
          have h6 : k < s (j + 1 + 1) := hp2
          have h7 := h5 h6
          have h8 : s (j + 1) ≤ k := hp1
          omega
      rw [hseen, hflips, add_zero] at this
      exact this
  obtain ⟨f, hf1, hf2⟩ := hv
  refine ⟨f + r, ?_, ?_⟩
  · rw [hr1, show (es.map (Eff.seen (s i))).sum + r + (f + r) = (es.map (Eff.seen (s i))).sum + f + (r + r) by abel,
      add_self_eq_zero' r, add_zero]
    exact hf1
  · have h5 := wt_add_le' f r
    have h6 := hw i (es.countP (Eff.late (s i)))
    obtain ⟨k, hk⟩ : ∃ k, es.length = i + es.countP (Eff.late (s i)) + k :=
      ⟨es.length - (i + es.countP (Eff.late (s i))), by simp only [hd, hF] at hie; omega⟩
    have h7 := hw (i + es.countP (Eff.late (s i))) k
    rw [← hk] at h7
    have h8 : ((wt (f + r) : ℕ) : ℤ) ≤ wt f + wt r := by exact_mod_cast h5
    have h9 : ((wt r : ℕ) : ℤ) ≤ (es.countP (Eff.late (s i)) : ℕ) := by exact_mod_cast hr2
    have h10 : (0 : ℤ) ≤ k := by positivity
    omega

/-! ## The enumerated faults -/

/-- Every effect of an error present before the first gate is equivalent to that of an enumerated fault, or to nothing. -/
def EarlyEnumerated (sd : Side n) : Prop :=
  ∀ q, faultEffect sd.xErrors sd.cnots 0 q ∈ rowSpan sd.stabs ∨
    ∃ x, EnumeratedFault sd x ∧ Equivalent sd.stabs (faultEffect sd.xErrors sd.cnots 0 q) x

/-- Any error is unchanged until its qubit is a source again. -/
theorem effect_key (sd : Side n) (q : Fin n) : ∀ i ≤ sd.cnots.length, (∃ j g, sd.cnots[j]? = some g ∧ faultQubit sd.xErrors g = q ∧
    faultEffect sd.xErrors sd.cnots i q = faultEffect sd.xErrors sd.cnots (j + 1) q) ∨
    faultEffect sd.xErrors sd.cnots i q = faultEffect sd.xErrors sd.cnots 0 q := by
  intro i
  induction i with
  | zero => intro _; exact Or.inr rfl
  | succ i ih =>
    intro hi
    have hi' : i < sd.cnots.length := by omega
    by_cases hq : faultQubit sd.xErrors sd.cnots[i] = q
    · exact Or.inl ⟨i, _, List.getElem?_eq_getElem hi', hq, rfl⟩
    · have : faultEffect sd.xErrors sd.cnots (i + 1) q = faultEffect sd.xErrors sd.cnots i q := by
        unfold faultEffect
        rw [List.drop_eq_getElem_cons hi', List.foldl_cons, conj_of_not_source hq]
      rw [this]
      exact ih (by omega)

theorem effect_enumerated (sd : Side n) (he : EarlyEnumerated sd) (q : Fin n) (i : ℕ) (hi : i ≤ sd.cnots.length) :
    faultEffect sd.xErrors sd.cnots i q ∈ rowSpan sd.stabs ∨
    ∃ x, EnumeratedFault sd x ∧ Equivalent sd.stabs (faultEffect sd.xErrors sd.cnots i q) x := by
  rcases effect_key sd q i hi with ⟨j, g, hg, hq, he'⟩ | he'
  · right
    rw [he']
    refine ⟨_, .inl ⟨j, g, hg, rfl⟩, ?_⟩
    rw [show (if sd.xErrors then g.1 else g.2) = q from hq]
    exact .refl _ _
  · rw [he']; exact he q

theorem equiv_zero {S : List (Vec n)} {u : Vec n} : Equivalent S u 0 ↔ u ∈ rowSpan S := by
  unfold Equivalent; rw [add_zero]

theorem equiv_add {S : List (Vec n)} {a b c d : Vec n} (h : Equivalent S a b) (h' : Equivalent S c d) :
    Equivalent S (a + c) (b + d) := by
  unfold Equivalent at *
  rw [show a + c + (b + d) = (a + b) + (c + d) by abel]
  exact Submodule.add_mem _ h h'

theorem foldl_conj_add (x : Bool) (gs : List (CX n)) (a b : Vec n) :
    gs.foldl (conj x) (a + b) = gs.foldl (conj x) a + gs.foldl (conj x) b := by
  induction gs generalizing a b with
  | nil => rfl
  | cons g gs ih =>
    rw [List.foldl_cons, List.foldl_cons, List.foldl_cons, ← ih]
    congr 1
    cases x
    · simp only [conj, cnotZ, Bool.false_eq_true, if_false, Pi.add_apply, add_smul]; abel
    · simp only [conj, cnotX, if_true, Pi.add_apply, add_smul]; abel

/-- Every effect is harmless or a sum of two enumerated ones. -/
theorem effect_pair (sd : Side n) (hne : ∀ g ∈ sd.cnots, g.1 ≠ g.2) (he : EarlyEnumerated sd) (q : Fin n) (k i : ℕ)
    (hi : i + k = sd.cnots.length) :
    (∃ f, Equivalent sd.stabs (faultEffect sd.xErrors sd.cnots i q) f ∧ wt f ≤ 1) ∨
    ∃ y, SumOf (EnumeratedFault sd) 2 y ∧ Equivalent sd.stabs (faultEffect sd.xErrors sd.cnots i q) y := by
  induction k generalizing i q with
  | zero =>
    left
    have : i = sd.cnots.length := by omega
    subst this
    rw [faultEffect_end]
    exact ⟨_, .refl _ _, by rw [wt_single]⟩
  | succ k ih =>
    have hi' : i < sd.cnots.length := by omega
    by_cases hq : faultQubit sd.xErrors sd.cnots[i] = q
    · -- the gate copies the error
      set g := sd.cnots[i] with hg
      have hgne : g.1 ≠ g.2 := hne g (List.getElem_mem _)
      set q' : Fin n := if sd.xErrors then g.2 else g.1 with hq'
      have hsplit : faultEffect sd.xErrors sd.cnots i q =
          faultEffect sd.xErrors sd.cnots (i + 1) q + faultEffect sd.xErrors sd.cnots (i + 1) q' := by
        unfold faultEffect
        rw [List.drop_eq_getElem_cons hi', List.foldl_cons, ← hg, ← foldl_conj_add]
        congr 1
        rw [← hq]
        cases hx : sd.xErrors <;> simp [conj, cnotX, cnotZ, faultQubit, hq', hx]
      rw [hsplit]
      rcases effect_enumerated sd he q (i + 1) (by omega) with h1 | ⟨x1, hx1, h1⟩
      · have h1' := equiv_zero.2 h1
        have hadd : ∀ y, Equivalent sd.stabs (faultEffect sd.xErrors sd.cnots (i + 1) q') y →
            Equivalent sd.stabs (faultEffect sd.xErrors sd.cnots (i + 1) q + faultEffect sd.xErrors sd.cnots (i + 1) q') y := by
          intro y hy; have := equiv_add h1' hy; rwa [zero_add] at this
        rcases ih q' (i + 1) (by omega) with ⟨f, hf, hw⟩ | ⟨y, hy, hy'⟩
        · exact .inl ⟨f, hadd f hf, hw⟩
        · exact .inr ⟨y, hy, hadd y hy'⟩
      · rcases effect_enumerated sd he q' (i + 1) (by omega) with h2 | ⟨x2, hx2, h2⟩
        · have h2' := equiv_zero.2 h2
          have hadd : ∀ y, Equivalent sd.stabs (faultEffect sd.xErrors sd.cnots (i + 1) q) y →
              Equivalent sd.stabs (faultEffect sd.xErrors sd.cnots (i + 1) q + faultEffect sd.xErrors sd.cnots (i + 1) q') y := by
            intro y hy; have := equiv_add hy h2'; rwa [add_zero] at this
          rcases ih q (i + 1) (by omega) with ⟨f, hf, hw⟩ | ⟨y, hy, hy'⟩
          · exact .inl ⟨f, hadd f hf, hw⟩
          · exact .inr ⟨y, hy, hadd y hy'⟩
        · right
          refine ⟨x1 + x2, ⟨[x1, x2], rfl, ?_, by simp⟩, equiv_add h1 h2⟩
          intro x hx
          simp only [List.mem_cons, List.not_mem_nil, or_false] at hx
          rcases hx with rfl | rfl
          · exact hx1
          · exact hx2
    · have : faultEffect sd.xErrors sd.cnots i q = faultEffect sd.xErrors sd.cnots (i + 1) q := by
        unfold faultEffect
        rw [List.drop_eq_getElem_cons hi', List.foldl_cons, conj_of_not_source hq]
      rw [this]
      exact ih q (i + 1) (by omega)

/-- Equivalent to a sum of `k` enumerated faults. -/
def Reach (sd : Side n) (k : ℕ) (v : Vec n) : Prop := ∃ u, SumOf (EnumeratedFault sd) k u ∧ Equivalent sd.stabs v u

/-- A sum of enumerated faults is harmless or a sum of one more. -/
theorem reach_succ (sd : Side n) (hne : ∀ g ∈ sd.cnots, g.1 ≠ g.2) (he : EarlyEnumerated sd) (k : ℕ) (v : Vec n) (h : Reach sd k v) :
    (∃ f, Equivalent sd.stabs v f ∧ wt f ≤ k) ∨ Reach sd (k + 1) v := by
  obtain ⟨u, ⟨l, rfl, hl, rfl⟩, hv⟩ := h
  have key : (∃ f, Equivalent sd.stabs l.sum f ∧ wt f ≤ l.length) ∨ Reach sd (l.length + 1) l.sum := by
    clear hv
    induction l with
    | nil => exact .inl ⟨0, by simpa using Equivalent.refl _ _, by simp [wt]⟩
    | cons x l ih =>
      have hx := hl x (by simp)
      have htwo : (∃ f, Equivalent sd.stabs x f ∧ wt f ≤ 1) ∨ ∃ y, SumOf (EnumeratedFault sd) 2 y ∧ Equivalent sd.stabs x y := by
        rcases hx with ⟨i, g, hg, rfl⟩ | ⟨q, rfl⟩
        · have hi : i < sd.cnots.length := by
            by_contra hcon
            rw [List.getElem?_eq_none (by omega)] at hg
            cases hg
          exact effect_pair sd hne he _ (sd.cnots.length - (i + 1)) (i + 1) (by omega)
        · exact .inl ⟨_, .refl _ _, by rw [wt_single]⟩
      rw [List.sum_cons, List.length_cons]
      rcases htwo with ⟨f, hf, hw⟩ | ⟨y, ⟨m, hm, hmE, rfl⟩, hy⟩
      · rcases ih fun x hx => hl x (by simp [hx]) with ⟨f', hf', hw'⟩ | ⟨u, ⟨m, hm, hmE, rfl⟩, hu⟩
        · exact .inl ⟨f + f', equiv_add hf hf', (wt_add_le' _ _).trans (by omega)⟩
        · right
          refine ⟨x + m.sum, ⟨x :: m, by simp [hm], ?_, by simp⟩, equiv_add (.refl _ _) hu⟩
          intro z hz
          rcases List.mem_cons.1 hz with rfl | hz
          · exact hx
          · exact hmE z hz
      · right
        refine ⟨m.sum + l.sum, ⟨m ++ l, by simp [hm]; omega, ?_, by simp⟩, equiv_add hy (.refl _ _)⟩
        intro z hz
        rcases List.mem_append.1 hz with hz | hz
        · exact hmE z hz
        · exact hl z (by simp [hz])
  rcases key with ⟨f, hf, hw⟩ | ⟨u, hu, hu'⟩
  · exact .inl ⟨f, hv.trans hf, hw⟩
  · exact .inr ⟨u, hu, hv.trans hu'⟩

theorem reach_le (sd : Side n) (hne : ∀ g ∈ sd.cnots, g.1 ≠ g.2) (he : EarlyEnumerated sd) (k k' : ℕ) (hk : k ≤ k') (v : Vec n)
    (h : Reach sd k v) : (∃ f, Equivalent sd.stabs v f ∧ wt f ≤ k') ∨ Reach sd k' v := by
  induction k', hk using Nat.le_induction with
  | base => exact .inr h
  | succ m hm ih =>
    rcases ih with ⟨f, hf, hw⟩ | h
    · exact .inl ⟨f, hf, by omega⟩
    · rcases reach_succ sd hne he m v h with ⟨f, hf, hw⟩ | h
      · exact .inl ⟨f, hf, by omega⟩
      · exact .inr h

theorem reach_effects (sd : Side n) (he : EarlyEnumerated sd) (k : ℕ) (v : Vec n) (h : SumOf (Effect sd.xErrors sd.cnots) k v) :
    ∃ j ≤ k, Reach sd j v := by
  obtain ⟨l, rfl, hl, rfl⟩ := h
  induction l with
  | nil => exact ⟨0, le_rfl, 0, ⟨[], rfl, by simp, rfl⟩, by simpa using Equivalent.refl _ _⟩
  | cons x l ih =>
    obtain ⟨j, hj, u, ⟨m, hm, hmE, rfl⟩, hu⟩ := ih fun x hx => hl x (by simp [hx])
    have hx : x ∈ rowSpan sd.stabs ∨ ∃ y, EnumeratedFault sd y ∧ Equivalent sd.stabs x y := by
      rcases hl x (by simp) with rfl | ⟨i, q, hi, rfl⟩
      · exact .inl (Submodule.zero_mem _)
      · exact effect_enumerated sd he q i hi
    rw [List.sum_cons, List.length_cons]
    rcases hx with hx | ⟨y, hy, hxy⟩
    · refine ⟨j, by omega, m.sum, ⟨m, hm, hmE, rfl⟩, ?_⟩
      have := equiv_add (equiv_zero.2 hx) hu
      rwa [zero_add] at this
    · refine ⟨j + 1, by omega, y + m.sum, ⟨y :: m, by simp [hm], ?_, by simp⟩, equiv_add hxy hu⟩
      intro z hz
      rcases List.mem_cons.1 hz with rfl | hz
      · exact hy
      · exact hmE z hz

end Verif.SP
