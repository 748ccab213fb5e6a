import Verif.Props.Faults3

/-! # C65: combining fault sets with additional faults -/

namespace Verif.SP
open Verif Verif.Spec
variable {n : ℕ}

/-- The combined fault sets: `k` faults from the circuit or from the additional list. -/
def idealG (sd : Side n) (A : List (Vec n)) : ℕ → List (Vec n)
  | 0 => [0]
  | 1 => idealU sd 1 ++ A
  | k + 2 => idealU sd (k + 2) ++ allSums (idealG sd A (k + 1)) A

theorem mem_idealG (sd : Side n) (A : List (Vec n)) (k : ℕ) (v : Vec n) :
    v ∈ idealG sd A (k + 1) ↔
      SumOf (fun x => x ∈ singleFaults sd ++ eyeRows n ∨ x ∈ A) (k + 1) v := by
  induction k generalizing v with
  | zero => rw [sumOf_one, idealG, List.mem_append]; rfl
  | succ k ih =>
    rw [idealG, List.mem_append, mem_idealU, mem_allSums]
    constructor
    · rintro (⟨l, h1, h2, h3⟩ | ⟨x, hx, y, hy, rfl⟩)
      · exact ⟨l, h1, fun x hx => Or.inl (h2 x hx), h3⟩
      · rw [ih] at hx
        exact sumOf_succ.2 ⟨x, y, hx, Or.inr hy, rfl⟩
    · intro h
      obtain ⟨u, x, hu, hx, rfl⟩ := sumOf_succ.1 h
      rcases hx with hx | hx
      · cases k with
        | zero =>
          rcases sumOf_one.1 hu with hu | hu
          · exact Or.inl (sumOf_succ.2 ⟨u, x, sumOf_one.2 hu, hx, rfl⟩)
          · refine Or.inr ⟨x, ?_, u, hu, add_comm _ _⟩
            rw [ih]; exact sumOf_one.2 (Or.inl hx)
        | succ k =>
          rw [← ih, idealG, List.mem_append, mem_idealU, mem_allSums] at hu
          rcases hu with hu | ⟨g, hg, a, ha, rfl⟩
          · exact Or.inl (sumOf_succ.2 ⟨u, x, hu, hx, rfl⟩)
          · refine Or.inr ⟨g + x, ?_, a, ha, by abel⟩
            rw [ih]
            refine sumOf_succ.2 ⟨g, x, ?_, Or.inl hx, rfl⟩
            -- `g` is a sum of `k + 1` faults
            have : g ∈ idealG sd A (k + 1) := hg
            clear hg
            have gen : ∀ k v, v ∈ idealG sd A (k + 1) →
                SumOf (fun x => x ∈ singleFaults sd ++ eyeRows n ∨ x ∈ A) (k + 1) v := by
              intro k
              induction k with
              | zero =>
                intro v hv
                rw [idealG, List.mem_append] at hv
                exact sumOf_one.2 hv
              | succ k ihk =>
                intro v hv
                rw [idealG, List.mem_append, mem_idealU, mem_allSums] at hv
                rcases hv with ⟨l, h1, h2, h3⟩ | ⟨x, hx, y, hy, rfl⟩
                · exact ⟨l, h1, fun x hx => Or.inl (h2 x hx), h3⟩
                · exact sumOf_succ.2 ⟨x, y, ihk x hx, Or.inr hy, rfl⟩
            exact gen k g this
      · rw [← ih] at hu
        exact Or.inr ⟨u, hu, x, hx, rfl⟩

/-- Entries cached after computing the set for `k`: all smaller ones too. -/
theorem computeFaultSet_fills (sd : Side n) (m : ℕ) (reduce : Bool) (k : ℕ) (s : Cache n)
    (inv : CacheInv sd m s) (hclosed : ∀ i j, 1 ≤ j → j ≤ i → s.unreduced[i]?.join ≠ none →
      s.unreduced[j]?.join ≠ none) (f : List (Vec n)) (s' : Cache n)
    (h : computeFaultSet sd reduce k s = .ok (f, s')) :
    (∀ i j, 1 ≤ j → j ≤ i → s'.unreduced[i]?.join ≠ none → s'.unreduced[j]?.join ≠ none) ∧
    (∀ i, i ≠ 0 → s.unreduced[i]?.join ≠ none → s'.unreduced[i]?.join ≠ none) := by
  induction k generalizing s f s' with
  | zero => simp [computeFaultSet] at h
  | succ k ih =>
    unfold computeFaultSet at h
    split at h
    · simp at h
    · simp only [Except.ok.injEq, Prod.mk.injEq] at h
      obtain ⟨-, rfl⟩ := h
      exact ⟨hclosed, fun i _ h => h⟩
    · split at h
      · next hk =>
        subst hk
        split at h
        · simp at h
        simp only [Except.ok.injEq, Prod.mk.injEq] at h
        obtain ⟨-, rfl⟩ := h
        dsimp only
        split
        · exact ⟨hclosed, fun i _ h => h⟩
        · refine ⟨fun i j hj hji hi => ?_, fun i _ hi => ?_⟩
          · simp only [join_getElem?_set] at hi ⊢
            split
            · simp
            · next hc =>
              split at hi
              · next hc2 => omega
              · exact hclosed i j hj hji hi
          · simp only [join_getElem?_set]
            split
            · simp
            · exact hi
      · next hk =>
        split at h
        · simp at h
        next f1 s1 hrec =>
        obtain ⟨hc1, hm1⟩ := ih s inv hclosed f1 s1 hrec
        obtain ⟨inv1, hk1, hkm1, hset1⟩ := computeFaultSet_inv sd m reduce k s inv f1 s1 hrec
        obtain ⟨k', rfl⟩ : ∃ k', k = k' + 1 := ⟨k - 1, by omega⟩
        obtain ⟨-, hUk, hU1⟩ := inv1.setOk k' f1 hset1
        rw [hUk, hU1] at h
        simp only [Except.ok.injEq, Prod.mk.injEq] at h
        obtain ⟨-, rfl⟩ := h
        refine ⟨fun i j hj hji hi => ?_, fun i h0 hi => ?_⟩
        · simp only [join_getElem?_set] at hi ⊢
          split
          · simp
          · next hc =>
            split at hi
            · next hc2 =>
              apply hc1 (k' + 1) j hj (by omega)
              rw [hUk]; simp
            · exact hc1 i j hj hji hi
        · simp only [join_getElem?_set]
          split
          · simp
          · exact hm1 i h0 hi

/-- The unreduced cache is filled from below, after any history. -/
theorem history_closed (sd : Side n) (m : ℕ) (h : List (Bool × ℕ)) (s : Cache n)
    (inv : CacheInv sd m s) (hclosed : ∀ i j, 1 ≤ j → j ≤ i → s.unreduced[i]?.join ≠ none →
      s.unreduced[j]?.join ≠ none) :
    ∀ i j, 1 ≤ j → j ≤ i → (faultHistory sd h s).unreduced[i]?.join ≠ none →
      (faultHistory sd h s).unreduced[j]?.join ≠ none := by
  induction h generalizing s with
  | nil => exact hclosed
  | cons c h ih =>
    obtain ⟨r, k⟩ := c
    simp only [faultHistory]
    split
    · next f s' hc =>
      exact ih _ (computeFaultSet_inv sd m r k s inv f s' hc).1
        (computeFaultSet_fills sd m r k s inv hclosed f s' hc).1
    · exact ih _ inv hclosed

theorem combineLoop_spec (sd : Side n) (A : List (Vec n)) (m i c : ℕ) (u : List (Option (List (Vec n))))
    (hic : i + c = m) (hi : 1 ≤ i) (hlen : u.length = m + 1)
    (hlow : ∀ j, 1 ≤ j → j ≤ i → u[j]?.join = some (idealG sd A j))
    (hhigh : ∀ j, i < j → j ≤ m → u[j]?.join = some (idealU sd j)) :
    ∃ u', combineLoop A (List.range' i c) u = .ok u' ∧
      ∀ j, 1 ≤ j → j ≤ m → u'[j]?.join = some (idealG sd A j) := by
  induction c generalizing i u with
  | zero =>
    refine ⟨u, by simp [combineLoop], fun j h1 h2 => hlow j h1 (by omega)⟩
  | succ c ih =>
    rw [List.range'_succ, combineLoop, hlow i hi le_rfl, hhigh (i + 1) (by omega) (by omega)]
    apply ih (i + 1) _ (by omega) (by omega) (by simp [hlen])
    · intro j h1 h2
      rw [join_getElem?_set]
      split
      · next hc =>
        rw [← hc.1]
        obtain ⟨i', rfl⟩ : ∃ i', i = i' + 1 := ⟨i - 1, by omega⟩
        rfl
      · next hc => exact hlow j h1 (by omega)
    · intro j h1 h2
      rw [join_getElem?_set, if_neg (by omega)]
      exact hhigh j (by omega) h2

theorem combineFilter_spec (sd : Side n) (u : List (Option (List (Vec n)))) (G : ℕ → List (Vec n))
    (m i c : ℕ) (out : List (Option (List (Vec n)))) (hic : i + c = m + 1) (hi : 1 ≤ i)
    (hlen : out.length = m + 1) (hu : ∀ j, 1 ≤ j → j ≤ m → u[j]?.join = some (G j))
    (hlow : ∀ j, 1 ≤ j → j < i → out[j]?.join =
      some (removeTrivialFaults sd.leader (G j) sd.d sd.dError j)) :
    ∃ out', combineFilter sd u (List.range' i c) out = .ok out' ∧
      ∀ j, 1 ≤ j → j ≤ m → out'[j]?.join =
        some (removeTrivialFaults sd.leader (G j) sd.d sd.dError j) := by
  induction c generalizing i out with
  | zero => exact ⟨out, by simp [combineFilter], fun j h1 h2 => hlow j h1 (by omega)⟩
  | succ c ih =>
    rw [List.range'_succ, combineFilter, hu i hi (by omega)]
    apply ih (i + 1) _ (by omega) (by omega) (by simp [hlen])
    intro j h1 h2
    rw [join_getElem?_set]
    split
    · next hc => rw [← hc.1]
    · next hc => exact hlow j h1 (by omega)

/-- The faults that can be combined: enumerated faults of the circuit and the additional ones. -/
def CombinedFault (sd : Side n) (A : List (Vec n)) (x : Vec n) : Prop :=
  EnumeratedFault sd x ∨ x ∈ A

/-- **C65**: after any history of fault-set computations, `combine_faults` with additional faults
returns, for every `1 ≤ k ≤ max_errors`, exactly the coset leaders of all combinations of `k`
circuit or additional faults that are not equivalent to an error within the weight bound. -/
theorem C65_combine_faults (sd : Side n) (hl : ∀ f, CosetLeader f sd.stabs (sd.leader f))
    (hfl : removeFrontLayer sd.hadamards sd.cnots = sd.cnots) (hne : sd.cnots ≠ [])
    (m : ℕ) (hm : 1 ≤ m) (h : List (Bool × ℕ)) (A : List (Vec n)) (hA : A ≠ []) :
    ∃ out s', combineFaults sd m A (faultHistory sd h (freshCache n m)) = .ok (out, s') ∧
      ∀ k, 1 ≤ k → k ≤ m → ∃ f, out[k]?.join = some f ∧
        ∀ v, v ∈ f ↔ ∃ u, SumOf (CombinedFault sd A) k u ∧ v = sd.leader u ∧
          Dangerous sd.stabs (weightBound sd.d sd.dError k) u := by
  have inv := faultHistory_inv sd m h _ (freshCache_inv sd m)
  have hclosed : ∀ i j, 1 ≤ j → j ≤ i →
      (faultHistory sd h (freshCache n m)).unreduced[i]?.join ≠ none →
      (faultHistory sd h (freshCache n m)).unreduced[j]?.join ≠ none := by
    apply history_closed sd m h _ (freshCache_inv sd m)
    intro i j _ _ hi
    exfalso; apply hi
    simp only [freshCache, List.getElem?_replicate]
    split <;> rfl
  obtain ⟨f, s1, hc⟩ := computeFaultSet_succeeds sd m true m _ inv hm le_rfl (by rwa [hfl])
  obtain ⟨inv1, -, -, hset⟩ := computeFaultSet_inv sd m true m _ inv f s1 hc
  obtain ⟨hcl1, -⟩ := computeFaultSet_fills sd m true m _ inv hclosed f s1 hc
  obtain ⟨m', rfl⟩ : ∃ m', m = m' + 1 := ⟨m - 1, by omega⟩
  obtain ⟨-, hUm, hU1⟩ := inv1.setOk m' f hset
  have hall : ∀ j, 1 ≤ j → j ≤ m' + 1 → s1.unreduced[j]?.join = some (idealU sd j) := by
    intro j h1 h2
    have := hcl1 (m' + 1) j h1 h2 (by rw [hUm]; simp)
    obtain ⟨u, hu⟩ := Option.ne_none_iff_exists'.1 this
    obtain ⟨j', rfl⟩ : ∃ j', j = j' + 1 := ⟨j - 1, by omega⟩
    rw [hu, inv1.unOk j' u hu]
  obtain ⟨u, hu, hu'⟩ := combineLoop_spec sd A (m' + 1) 1 m'
    (s1.unreduced.set 1 (some (idealU sd 1 ++ A))) (by omega) le_rfl (by simp [inv1.lenU])
    (by
      intro j h1 h2
      obtain rfl : j = 1 := by omega
      rw [join_getElem?_set, if_pos ⟨rfl, by rw [inv1.lenU]; omega⟩]; rfl)
    (by
      intro j h1 h2
      rw [join_getElem?_set, if_neg (by omega)]
      exact hall j (by omega) h2)
  obtain ⟨out, hout, hout'⟩ := combineFilter_spec sd u (idealG sd A) (m' + 1) 1 (m' + 1)
    (List.replicate (m' + 1 + 1) none) (by omega) le_rfl (by simp) hu' (by intro j h1 h2; omega)
  refine ⟨out, s1, ?_, fun k h1 h2 => ⟨_, hout' k h1 h2, fun v => ?_⟩⟩
  · unfold combineFaults
    rw [hc]
    have : A.length ≠ 0 := by simpa using hA
    simp only [this, if_false, hU1, Nat.add_sub_cancel, hu, hout]
  · rw [(C27_trivial_filter sd.leader sd.stabs _ sd.d sd.dError k hl).1]
    obtain ⟨k', rfl⟩ : ∃ k', k = k' + 1 := ⟨k - 1, by omega⟩
    simp only [mem_idealG]
    have hE : ∀ x, (x ∈ singleFaults sd ++ eyeRows n ∨ x ∈ A) ↔ CombinedFault sd A x := by
      intro x; rw [enumerated_iff sd hfl]; rfl
    constructor
    · rintro ⟨w, hw, h3, h4⟩; exact ⟨w, (sumOf_congr hE _ _).1 hw, h3, h4⟩
    · rintro ⟨w, hw, h3, h4⟩; exact ⟨w, (sumOf_congr hE _ _).2 hw, h3, h4⟩

end Verif.SP
