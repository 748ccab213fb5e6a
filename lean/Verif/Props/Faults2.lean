import Verif.Props.Faults

/-! # C61–C64: the cached fault sets of a state preparation circuit -/

namespace Verif.SP
open Verif Verif.Spec
variable {n : ℕ}

/-! ### Propagation -/

theorem propStep_eq_conj (x : Bool) (e : Vec n) (g : CX n) : propStep x e g = conj x e g := by
  funext i
  cases x
  · simp only [propStep, conj, cnotZ, Bool.false_eq_true, if_false, Function.update_apply,
      Pi.add_apply, Pi.smul_apply, Pi.single_apply, smul_eq_mul]
    split
    · next h => subst h; simp [add_comm]
    · simp
  · simp only [propStep, conj, cnotX, if_true, Function.update_apply,
      Pi.add_apply, Pi.smul_apply, Pi.single_apply, smul_eq_mul]
    split
    · next h => subst h; simp [add_comm]
    · simp

theorem foldl_propStep (x : Bool) (gs : List (CX n)) (e : Vec n) :
    gs.foldl (propStep x) e = gs.foldl (conj x) e := by
  have : propStep x = conj (n := n) x := by funext e g; exact propStep_eq_conj x e g
  rw [this]

/-- The qubit on which the model places the fault: the control for X errors, the target for Z
errors. -/
def faultQubit (x : Bool) (g : CX n) : Fin n := if x then g.1 else g.2

theorem mem_faultList (x : Bool) (gs : List (CX n)) (v : Vec n) :
    v ∈ faultList x gs ↔ ∃ i, ∃ g, gs[i]? = some g ∧ v = faultEffect x gs (i + 1) (faultQubit x g) := by
  simp only [faultList, List.mem_filterMap, List.mem_range]
  constructor
  · rintro ⟨i, hi, h⟩
    refine ⟨i, gs[i], List.getElem?_eq_getElem hi, ?_⟩
    rw [List.drop_eq_getElem_cons hi] at h
    simp only [propagateError, Option.some.injEq] at h
    rw [← h, foldl_propStep]
    rfl
  · rintro ⟨i, g, hg, rfl⟩
    obtain ⟨hi, rfl⟩ := List.getElem?_eq_some_iff.1 hg
    refine ⟨i, hi, ?_⟩
    rw [List.drop_eq_getElem_cons hi]
    simp only [propagateError, Option.some.injEq, foldl_propStep]
    rfl

/-! ### Sums of faults -/

theorem sumOf_one {F : Vec n → Prop} {v : Vec n} : SumOf F 1 v ↔ F v := by
  constructor
  · rintro ⟨l, hl, hF, rfl⟩
    obtain ⟨a, rfl⟩ := List.length_eq_one_iff.1 hl
    simpa using hF a (by simp)
  · intro h; exact ⟨[v], rfl, by simpa using h, by simp⟩

theorem sumOf_succ {F : Vec n → Prop} {k : ℕ} {v : Vec n} :
    SumOf F (k + 1) v ↔ ∃ u x, SumOf F k u ∧ F x ∧ v = u + x := by
  constructor
  · rintro ⟨l, hl, hF, rfl⟩
    cases l with
    | nil => simp at hl
    | cons a l =>
      refine ⟨l.sum, a, ⟨l, by simpa using hl, fun x hx => hF x (by simp [hx]), rfl⟩,
        hF a (by simp), ?_⟩
      rw [List.sum_cons, add_comm]
  · rintro ⟨u, x, ⟨l, hl, hF, rfl⟩, hx, rfl⟩
    refine ⟨x :: l, by simp [hl], ?_, by rw [List.sum_cons, add_comm]⟩
    intro y hy
    rcases List.mem_cons.1 hy with rfl | hy
    · exact hx
    · exact hF y hy

theorem sumOf_congr {F G : Vec n → Prop} (h : ∀ v, F v ↔ G v) (k : ℕ) (v : Vec n) :
    SumOf F k v ↔ SumOf G k v := by
  have : F = G := by funext v; exact propext (h v)
  rw [this]

/-- The uncombined fault sets the cache is supposed to hold. -/
def idealU (sd : Side n) : ℕ → List (Vec n)
  | 0 => [0]
  | 1 => singleFaults sd ++ eyeRows n
  | k + 2 => npUnique (allSums (idealU sd (k + 1)) (singleFaults sd ++ eyeRows n))

/-- The faults handed to the filters for `num_errors = k`. -/
def idealF (sd : Side n) (k : ℕ) : List (Vec n) := if k = 1 then singleFaults sd else idealU sd k

theorem mem_allSums {a b : List (Vec n)} {v : Vec n} :
    v ∈ allSums a b ↔ ∃ x ∈ a, ∃ y ∈ b, v = x + y := by
  simp only [allSums, List.mem_flatMap, List.mem_map]
  constructor
  · rintro ⟨x, hx, y, hy, rfl⟩; exact ⟨x, hx, y, hy, rfl⟩
  · rintro ⟨x, hx, y, hy, rfl⟩; exact ⟨x, hx, y, hy, rfl⟩

theorem mem_eyeRows {v : Vec n} : v ∈ eyeRows n ↔ ∃ q, v = Pi.single q 1 := by
  simp only [eyeRows, List.mem_map, List.mem_finRange, true_and]
  exact ⟨fun ⟨q, h⟩ => ⟨q, h.symm⟩, fun ⟨q, h⟩ => ⟨q, h.symm⟩⟩

theorem mem_idealU (sd : Side n) (k : ℕ) (v : Vec n) :
    v ∈ idealU sd (k + 1) ↔ SumOf (fun x => x ∈ singleFaults sd ++ eyeRows n) (k + 1) v := by
  induction k generalizing v with
  | zero => rw [sumOf_one]; rfl
  | succ k ih =>
    rw [sumOf_succ, idealU, mem_npUnique, mem_allSums]
    simp only [ih]
    constructor
    · rintro ⟨x, hx, y, hy, rfl⟩; exact ⟨x, y, hx, hy, rfl⟩
    · rintro ⟨x, y, hx, hy, rfl⟩; exact ⟨x, hx, y, hy, rfl⟩

/-! ### Cache invariant -/

/-- What every reachable cache satisfies. -/
structure CacheInv (sd : Side n) (m : ℕ) (s : Cache n) : Prop where
  len : s.sets.length = m + 1
  lenU : s.unreduced.length = m + 1
  setOk : ∀ k f, s.sets[k + 1]?.join = some f →
    (∃ r, f = filterFaults sd r (idealF sd (k + 1)) (k + 1)) ∧
    s.unreduced[k + 1]?.join = some (idealU sd (k + 1)) ∧
    s.unreduced[1]?.join = some (idealU sd 1)
  unOk : ∀ k u, s.unreduced[k + 1]?.join = some u → u = idealU sd (k + 1)

theorem freshCache_inv (sd : Side n) (m : ℕ) : CacheInv sd m (freshCache n m) := by
  refine ⟨by simp [freshCache], by simp [freshCache], ?_, ?_⟩ <;>
  · intro k f h
    simp only [freshCache, List.getElem?_replicate] at h
    split at h <;> simp at h

theorem join_getElem?_set {α : Type*} (l : List (Option α)) (i j : ℕ) (a : α) :
    (l.set i (some a))[j]?.join =
      if i = j ∧ j < l.length then some a else (l[j]?).join := by
  rw [List.getElem?_set]
  by_cases h : i = j
  · subst h
    by_cases hl : i < l.length
    · simp [hl]
    · simp [hl]
  · simp [h]

/-- One call of `compute_fault_set` from any state satisfying the invariant. -/
theorem computeFaultSet_inv (sd : Side n) (m : ℕ) (reduce : Bool) (k : ℕ) (s : Cache n)
    (inv : CacheInv sd m s) (f : List (Vec n)) (s' : Cache n)
    (h : computeFaultSet sd reduce k s = .ok (f, s')) :
    CacheInv sd m s' ∧ 1 ≤ k ∧ k ≤ m ∧ s'.sets[k]?.join = some f := by
  induction k generalizing s f s' with
  | zero => simp [computeFaultSet] at h
  | succ k ih =>
    unfold computeFaultSet at h
    split at h
    · simp at h
    · next f' hf =>
      simp only [Except.ok.injEq, Prod.mk.injEq] at h
      obtain ⟨rfl, rfl⟩ := h
      have : k + 1 < s.sets.length := by
        by_contra hc
        rw [List.getElem?_eq_none (by omega)] at hf
        simp at hf
      rw [inv.len] at this
      exact ⟨inv, by omega, by omega, by simp [hf]⟩
    · next hnone =>
      have hkm : k + 1 < s.sets.length := by
        by_contra hc
        rw [List.getElem?_eq_none (by omega)] at hnone
        simp at hnone
      have hkm' := hkm
      rw [inv.len] at hkm'
      split at h
      · next hk =>
        subst hk
        split at h
        · simp at h
        simp only [Except.ok.injEq, Prod.mk.injEq] at h
        obtain ⟨rfl, rfl⟩ := h
        -- the unreduced entry after this call
        set s1 : Cache n := if sd.xErrors = true ∧ s.unreduced[1]?.join ≠ none then s
          else { s with unreduced := s.unreduced.set 1 (some (singleFaults sd ++ eyeRows n)) } with hs1
        have hU : s1.unreduced[1]?.join = some (idealU sd 1) := by
          rw [hs1]
          split
          · next hc =>
            obtain ⟨u, hu⟩ := Option.ne_none_iff_exists'.1 hc.2
            rw [hu, inv.unOk 0 u hu]
          · simp only [join_getElem?_set]
            rw [if_pos ⟨trivial, by rw [inv.lenU]; omega⟩]
            rfl
        have hU' : ∀ j, j ≠ 1 → s1.unreduced[j]?.join = s.unreduced[j]?.join := by
          intro j hj
          rw [hs1]
          split
          · rfl
          · simp only [join_getElem?_set]
            rw [if_neg (by rintro ⟨h, -⟩; exact hj h.symm)]
        have hsets : s1.sets = s.sets := by rw [hs1]; split <;> rfl
        have hlenU : s1.unreduced.length = m + 1 := by
          rw [hs1]; split <;> simp [inv.lenU]
        refine ⟨⟨by simp [hsets, inv.len], hlenU, ?_, ?_⟩, by omega, by omega, ?_⟩
        · intro j g hg
          simp only [hsets, join_getElem?_set] at hg
          split at hg
          · next hj =>
            obtain ⟨hj, -⟩ := hj
            obtain rfl : j = 0 := by omega
            obtain rfl : filterFaults sd reduce (singleFaults sd) 1 = g := by simpa using hg
            exact ⟨⟨reduce, rfl⟩, hU, hU⟩
          · obtain ⟨h1, h2, h3⟩ := inv.setOk j g hg
            refine ⟨h1, ?_, hU⟩
            by_cases hj : j + 1 = 1
            · simp only [hj]; exact hU
            · simp only [hU' _ hj, h2]
        · intro j u hu
          by_cases hj : j + 1 = 1
          · obtain rfl : j = 0 := by omega
            simp only [zero_add, hU] at hu
            simpa using hu.symm
          · simp only [hU' _ hj] at hu
            exact inv.unOk j u hu
        · simp only [hsets, join_getElem?_set]
          rw [if_pos ⟨trivial, by rw [inv.len]; omega⟩]
      · next hk =>
        split at h
        · simp at h
        next f1 s1 hrec =>
        obtain ⟨inv1, hk1, hkm1, hset1⟩ := ih s inv f1 s1 hrec
        obtain ⟨k', rfl⟩ : ∃ k', k = k' + 1 := ⟨k - 1, by omega⟩
        obtain ⟨-, hUk, hU1⟩ := inv1.setOk k' f1 hset1
        rw [hUk, hU1] at h
        simp only [Except.ok.injEq, Prod.mk.injEq] at h
        obtain ⟨rfl, rfl⟩ := h
        have hnew : npUnique (allSums (idealU sd (k' + 1)) (idealU sd 1)) = idealU sd (k' + 1 + 1) := rfl
        refine ⟨⟨by simp [inv1.len], by simp [inv1.lenU], ?_, ?_⟩, by omega, by omega, ?_⟩
        · intro j g hg
          simp only [join_getElem?_set] at hg
          have hU1' : (s1.unreduced.set (k' + 1 + 1)
              (some (npUnique (allSums (idealU sd (k' + 1)) (idealU sd 1)))))[1]?.join =
              some (idealU sd 1) := by
            rw [join_getElem?_set, if_neg (by omega)]; exact hU1
          split at hg
          · next hj =>
            obtain ⟨hj, -⟩ := hj
            obtain rfl : j = k' + 1 := by omega
            refine ⟨⟨reduce, ?_⟩, ?_, hU1'⟩
            · rw [← Option.some.inj hg]
              rw [hnew]
              simp [idealF]
            · simp only [join_getElem?_set]
              rw [if_pos ⟨trivial, by rw [inv1.lenU]; omega⟩, hnew]
          · obtain ⟨h1, h2, h3⟩ := inv1.setOk j g hg
            refine ⟨h1, ?_, hU1'⟩
            simp only [join_getElem?_set]
            split
            · next hj => rw [hnew, hj.1]
            · exact h2
        · intro j u hu
          simp only [join_getElem?_set] at hu
          split at hu
          · next hj =>
            rw [← Option.some.inj hu, hnew, hj.1]
          · exact inv1.unOk j u hu
        · simp only [join_getElem?_set]
          rw [if_pos ⟨trivial, by rw [inv1.len]; omega⟩]

/-- `compute_fault_set` never fails for `1 ≤ num_errors ≤ max_errors` on a circuit with CNOTs. -/
theorem computeFaultSet_succeeds (sd : Side n) (m : ℕ) (reduce : Bool) (k : ℕ) (s : Cache n)
    (inv : CacheInv sd m s) (hk : 1 ≤ k) (hkm : k ≤ m)
    (hne : removeFrontLayer sd.hadamards sd.cnots ≠ []) :
    ∃ f s', computeFaultSet sd reduce k s = .ok (f, s') := by
  induction k generalizing s with
  | zero => omega
  | succ k ih =>
    unfold computeFaultSet
    split
    · next h =>
      rw [List.getElem?_eq_none_iff, inv.len] at h; omega
    · exact ⟨_, _, rfl⟩
    · split
      · exact ⟨_, _, rfl⟩
      · next h0 =>
        obtain ⟨f, s1, hrec⟩ := ih s inv (by omega) (by omega)
        obtain ⟨inv1, -, -, hset⟩ := computeFaultSet_inv sd m reduce k s inv f s1 hrec
        obtain ⟨k', rfl⟩ : ∃ k', k = k' + 1 := ⟨k - 1, by omega⟩
        obtain ⟨-, h2, h3⟩ := inv1.setOk k' f hset
        rw [hrec]
        simp only [h2, h3]
        exact ⟨_, _, rfl⟩

theorem faultHistory_inv (sd : Side n) (m : ℕ) (h : List (Bool × ℕ)) (s : Cache n)
    (inv : CacheInv sd m s) : CacheInv sd m (faultHistory sd h s) := by
  induction h generalizing s with
  | nil => exact inv
  | cons c h ih =>
    obtain ⟨r, k⟩ := c
    simp only [faultHistory]
    split
    · next f s' hc => exact ih _ (computeFaultSet_inv sd m r k s inv f s' hc).1
    · exact ih _ inv

end Verif.SP
