import Verif.Model.DataUtils
import Mathlib.Analysis.SpecialFunctions.Pow.Deriv
import Mathlib.Tactic.Linarith
import Mathlib.Tactic.Ring
import Mathlib.Tactic.FieldSimp
import Mathlib.Tactic.NormNum

/-!
# C47, C82, C83, C86: parameter sweeps, convergence, error bars, settings files
-/

namespace Verif.Data
open Verif

/-! ## C47: sweeps -/

/-- Specification: `inst` assigns to the keys of `kw`, in order, one of the listed values each. -/
def Assigns {κ α : Type} (kw : List (κ × List α)) (inst : List (κ × α)) : Prop :=
  List.Forall₂ (fun p q => q.1 = p.1 ∧ q.2 ∈ p.2) kw inst

theorem mem_product {α : Type} (ls : List (List α)) (v : List α) :
    v ∈ product ls ↔ List.Forall₂ (fun l a => a ∈ l) ls v := by
  induction ls generalizing v with
  | nil => simp [product]
  | cons l ls ih =>
    simp only [product, List.mem_flatMap, List.mem_map]
    constructor
    · rintro ⟨a, ha, w, hw, rfl⟩
      exact .cons ha ((ih w).1 hw)
    · intro h
      cases h with
      | @cons _ a _ w h1 h2 => exact ⟨a, h1, w, (ih w).2 h2, rfl⟩

theorem assigns_iff {κ α : Type} (kw : List (κ × List α)) (inst : List (κ × α)) :
    Assigns kw inst ↔ ∃ v, List.Forall₂ (fun l a => a ∈ l) (kw.map (·.2)) v ∧ (kw.map (·.1)).zip v = inst := by
  induction kw generalizing inst with
  | nil =>
    constructor
    · intro h
      cases h
      exact ⟨[], .nil, rfl⟩
    · rintro ⟨v, h, rfl⟩
      cases h
      exact .nil
  | cons p kw ih =>
    constructor
    · intro h
      cases h with
      | @cons _ q _ r h1 h2 =>
        obtain ⟨v, hv, rfl⟩ := (ih r).1 h2
        refine ⟨q.2 :: v, .cons h1.2 hv, ?_⟩
        obtain ⟨q1, q2⟩ := q
        simp only at h1
        simp [h1.1]
    · rintro ⟨v, h, rfl⟩
      cases h with
      | @cons _ a _ w h1 h2 => exact .cons ⟨rfl, h1⟩ ((ih _).2 ⟨w, h2, rfl⟩)

/-- **C47**: `product_dict` yields exactly the assignments of one listed value to each keyword. -/
theorem C47_product_complete {κ α : Type} (kw : List (κ × List α)) (inst : List (κ × α)) :
    inst ∈ productDict kw ↔ Assigns kw inst := by
  rw [assigns_iff]
  simp only [productDict, List.mem_map, mem_product]

theorem product_length {α : Type} (ls : List (List α)) : (product ls).length = (ls.map List.length).prod := by
  induction ls with
  | nil => rfl
  | cons l ls ih =>
    have : ∀ m : List α, (m.flatMap fun a => (product ls).map (a :: ·)).length = m.length * (product ls).length := by
      intro m
      induction m with
      | nil => simp
      | cons a m ihm => rw [List.flatMap_cons, List.length_append, ihm, List.length_map, List.length_cons]; ring
    rw [product, this, ih]
    simp

/-- **C47**: their number is the product of the numbers of values. -/
theorem C47_product_count {κ α : Type} (kw : List (κ × List α)) :
    (productDict kw).length = (kw.map fun p => p.2.length).prod := by
  simp [productDict, product_length, Function.comp_def]

theorem product_nodup {α : Type} (ls : List (List α)) (h : ∀ l ∈ ls, l.Nodup) : (product ls).Nodup := by
  induction ls with
  | nil => simp [product]
  | cons l ls ih =>
    rw [product, List.nodup_flatMap]
    refine ⟨fun a _ => (ih fun m hm => h m (by simp [hm])).map fun x y e => by simpa using e, ?_⟩
    refine (h l (by simp)).imp ?_
    intro a b hab
    simp only [Function.onFun, List.disjoint_left, List.mem_map, not_exists, not_and]
    rintro _ ⟨x, -, rfl⟩ y -  e
    exact hab (by simpa using (List.cons.inj e).1.symm)

theorem product_lengths {α : Type} (ls : List (List α)) (v : List α) (h : v ∈ product ls) : v.length = ls.length :=
  ((mem_product ls v).1 h).length_eq.symm

/-- **C47**: no assignment is yielded twice, provided no keyword lists a value twice. -/
theorem C47_product_once {κ α : Type} (kw : List (κ × List α)) (h : ∀ p ∈ kw, p.2.Nodup) : (productDict kw).Nodup := by
  refine (product_nodup _ ?_).map_on ?_
  · simpa using fun a b hb => h (b, a) hb
  · intro v hv w hw e
    have h1 := product_lengths _ _ hv
    have h2 := product_lengths _ _ hw
    simp only [List.length_map] at h1 h2
    have := congrArg (List.map Prod.snd) e
    rwa [List.map_snd_zip (by simp [h1]), List.map_snd_zip (by simp [h2])] at this

/-- The last keyword varies fastest. -/
example : productDict [("p", [1, 2]), ("q", [3, 4])] =
    [[("p", 1), ("q", 3)], [("p", 1), ("q", 4)], [("p", 2), ("q", 3)], [("p", 2), ("q", 4)]] := rfl

theorem zip_filterMap {κ α : Type} (kw : List (κ × List α)) (i : ℕ) (h : ∀ p ∈ kw, i < p.2.length) :
    List.Forall₂ (fun p q => q.1 = p.1 ∧ p.2[i]? = some q.2) kw
      ((kw.map (·.1)).zip ((kw.map (·.2)).filterMap fun l => l[i]?)) := by
  induction kw with
  | nil => exact .nil
  | cons p kw ih =>
    have hp := h p (by simp)
    simp only [List.map_cons, List.filterMap_cons, List.getElem?_eq_getElem hp, List.zip_cons_cons]
    exact .cons ⟨rfl, List.getElem?_eq_getElem hp⟩ (ih fun q hq => h q (by simp [hq]))

/-- **C47**: `zip_dict` yields as many dictionaries as the shortest list has values, and the `i`-th takes the `i`-th value
of every keyword. -/
theorem C47_zip {κ α : Type} (kw : List (κ × List α)) (p : κ × List α) (hp : p ∈ kw)
    (hmin : ∀ q ∈ kw, p.2.length ≤ q.2.length) :
    (zipDict kw).length = p.2.length ∧
      ∀ (i : ℕ) (hi : i < (zipDict kw).length),
        List.Forall₂ (fun k v => v.1 = k.1 ∧ k.2[i]? = some v.2) kw (zipDict kw)[i] := by
  have hne : kw.map (·.2) ≠ [] := by
    intro e
    rw [List.map_eq_nil_iff] at e
    simp [e] at hp
  have hm : ((kw.map (·.2)).map List.length).min? = some p.2.length := by
    rw [List.min?_eq_some_iff]
    constructor
    · simp only [List.map_map, List.mem_map]
      exact ⟨p, hp, rfl⟩
    · intro b hb
      simp only [List.map_map, List.mem_map] at hb
      obtain ⟨q, hq, rfl⟩ := hb
      exact hmin q hq
  have hl : (zipDict kw).length = p.2.length := by
    simp only [zipDict, zipAll, if_neg hne, hm, Option.getD_some, List.length_map, List.length_range]
  refine ⟨hl, fun i hi => ?_⟩
  have : (zipDict kw)[i] = (kw.map (·.1)).zip ((kw.map (·.2)).filterMap fun l => l[i]?) := by
    simp only [zipDict, zipAll, if_neg hne, List.getElem_map, List.getElem_range]
  rw [this]
  exact zip_filterMap kw i fun q hq => lt_of_lt_of_le (hl ▸ hi) (hmin q hq)

/-- **C47**: without keywords there is one empty product and no zip. -/
theorem C47_empty {κ α : Type} : productDict ([] : List (κ × List α)) = [[]] ∧ zipDict ([] : List (κ × List α)) = [] :=
  ⟨rfl, rfl⟩

example : zipDict [("p", [1, 2]), ("q", [3, 4, 5])] = [[("p", 1), ("q", 3)], [("p", 2), ("q", 4)]] := rfl

/-! ## C82: convergence -/

theorem errorRates_bounds (s r k : ℕ) (v : Rates) (h : errorRates s r k = .ok v) (hs : s ≤ r) :
    r ≠ 0 ∧ k ≠ 0 ∧ v.ler = 1 - (s : ℝ) / r ∧ 0 ≤ v.ler ∧ v.ler ≤ 1 ∧ v.lerEb = Real.sqrt ((1 - v.ler) * v.ler / r) ∧
      v.wer = 1 - (1 - v.ler) ^ (1 / (k : ℝ)) ∧ v.werEb = v.lerEb * (1 - v.lerEb) ^ (1 / (k : ℝ) - 1) / k := by
  unfold errorRates at h
  split at h
  · cases h
  · rename_i hc
    cases h
    rw [not_or] at hc
    have hr : (0 : ℝ) < r := by exact_mod_cast Nat.pos_of_ne_zero hc.1
    have h1 : (s : ℝ) / r ≤ 1 := by
      rw [div_le_one hr]; exact_mod_cast hs
    have h2 : 0 ≤ (s : ℝ) / r := by positivity
    exact ⟨hc.1, hc.2, rfl, by simp only; linarith, by simp only; linarith, rfl, rfl, rfl⟩

theorem lerEb_le_half (s r k : ℕ) (v : Rates) (h : errorRates s r k = .ok v) (hs : s ≤ r) : v.lerEb ≤ 1 / 2 := by
  obtain ⟨hr, hk, -, h0, h1, he, -, -⟩ := errorRates_bounds s r k v h hs
  rw [he]
  apply Real.sqrt_le_iff.2
  refine ⟨by norm_num, ?_⟩
  have hr1 : (1 : ℝ) ≤ r := by exact_mod_cast Nat.one_le_iff_ne_zero.2 hr
  rw [div_le_iff₀ (by linarith)]
  nlinarith [sq_nonneg (v.ler - 1 / 2)]

/-- The error bar of the word error rate vanishes exactly when no run failed or all did. -/
theorem werEb_eq_zero_iff (s r k : ℕ) (v : Rates) (h : errorRates s r k = .ok v) (hs : s ≤ r) :
    v.werEb = 0 ↔ s = 0 ∨ s = r := by
  have hh := lerEb_le_half s r k v h hs
  obtain ⟨hr, hk, hl, h0, h1, he, -, hw⟩ := errorRates_bounds s r k v h hs
  have hr0 : (0 : ℝ) < r := by exact_mod_cast Nat.pos_of_ne_zero hr
  have hk0 : (k : ℝ) ≠ 0 := by exact_mod_cast hk
  have hp : 0 < (1 - v.lerEb) ^ (1 / (k : ℝ) - 1) := Real.rpow_pos_of_pos (by linarith) _
  have e1 : v.werEb = 0 ↔ v.lerEb = 0 := by
    rw [hw, div_eq_zero_iff, mul_eq_zero]
    constructor
    · rintro ((h | h) | h)
      · exact h
      · exact absurd h hp.ne'
      · exact absurd h hk0
    · exact fun h => .inl (.inl h)
  rw [e1, he, Real.sqrt_eq_zero (by apply div_nonneg _ hr0.le; exact mul_nonneg (by linarith) h0), div_eq_zero_iff]
  have e2 : 1 - v.ler = (s : ℝ) / r := by rw [hl]; ring
  rw [e2, hl, mul_eq_zero, div_eq_zero_iff, sub_eq_zero, eq_div_iff hr0.ne', one_mul]
  constructor
  · rintro ((( h | h) | h) | h)
    · left; exact_mod_cast h
    · exact absurd h hr0.ne'
    · right; exact_mod_cast h.symm
    · exact absurd h hr0.ne'
  · rintro (h | h)
    · left; left; left; exact_mod_cast h
    · left; right; exact_mod_cast h.symm

/-- Specification: the relative error of one side is below the precision, and the statistics is not degenerate. -/
def SideConverged (s r : ℕ) (v : Rates) (precision : ℝ) : Prop := s ≠ 0 ∧ s ≠ r ∧ v.werEb / v.wer < precision

theorem checkConvergence_true (s r k : ℕ) (pr : ℝ) (v : Rates) (h : errorRates s r k = .ok v) (hs : s ≤ r) :
    ∃ o, checkConvergence s r k pr = .ok o ∧ (o = some true ↔ SideConverged s r v pr) := by
  have hz := werEb_eq_zero_iff s r k v h hs
  classical
  refine ⟨if v.werEb ≠ 0 then if v.werEb / v.wer < pr then some true else none else some false, ?_, ?_⟩
  · unfold checkConvergence
    rw [h]
    rfl
  · unfold SideConverged
    by_cases h1 : v.werEb = 0
    · have := hz.1 h1
      simp only [h1, ne_eq, not_true_eq_false, if_false]
      constructor
      · intro h; cases h
      · rintro ⟨a, b, -⟩
        rcases this with h | h
        · exact absurd h a
        · exact absurd h b
    · have : ¬ (s = 0 ∨ s = r) := fun h => h1 (hz.2 h)
      rw [not_or] at this
      by_cases h2 : v.werEb / v.wer < pr
      · simp [h1, h2, this.1, this.2]
      · simp [h1, h2]

/-- **C82**: a simulation is reported converged exactly when on both sides at least one run failed, at least one
succeeded, and the error bar of the word error rate is below the requested fraction of the rate. -/
theorem C82_converged_iff (x z r k : ℕ) (pr : ℝ) (hr : r ≠ 0) (hk : k ≠ 0) (hx : x ≤ r) (hz : z ≤ r) :
    ∃ vx vz b, errorRates x r k = .ok vx ∧ errorRates z r k = .ok vz ∧ isConverged x z r k pr = .ok b ∧
      (b = true ↔ SideConverged x r vx pr ∧ SideConverged z r vz pr) := by
  have ex : ∀ s, ∃ v, errorRates s r k = .ok v := fun s => by
    unfold errorRates
    rw [if_neg (by simp [hr, hk])]
    exact ⟨_, rfl⟩
  obtain ⟨vx, hvx⟩ := ex x
  obtain ⟨vz, hvz⟩ := ex z
  obtain ⟨ox, hox, ix⟩ := checkConvergence_true x r k pr vx hvx hx
  obtain ⟨oz, hoz, iz⟩ := checkConvergence_true z r k pr vz hvz hz
  refine ⟨vx, vz, decide (ox = oz) && decide (oz = some true), hvx, hvz, ?_, ?_⟩
  · unfold isConverged
    rw [hox, hoz]
    rfl
  · rw [← ix, ← iz]
    simp only [Bool.and_eq_true, decide_eq_true_eq]
    constructor
    · rintro ⟨a, b⟩; exact ⟨a.trans b, b⟩
    · rintro ⟨a, b⟩; exact ⟨a.trans b.symm, b⟩

/-- **C82**: in particular a simulation without failures on some side never counts as converged, however small the rate
or large the precision. -/
theorem C82_no_failures (x r k : ℕ) (pr : ℝ) (hr : r ≠ 0) (hk : k ≠ 0) (hx : x ≤ r) :
    isConverged x r r k pr = .ok false ∧ isConverged r x r k pr = .ok false := by
  constructor
  · obtain ⟨vx, vz, b, -, -, h, hb⟩ := C82_converged_iff x r r k pr hr hk hx le_rfl
    cases b with
    | false => exact h
    | true => exact absurd rfl (hb.1 rfl).2.2.1
  · obtain ⟨vx, vz, b, -, -, h, hb⟩ := C82_converged_iff r x r k pr hr hk le_rfl hx
    cases b with
    | false => exact h
    | true => exact absurd rfl (hb.1 rfl).1.2.1

/-- **C82**: without runs, or for codes without logical qubits, the test raises `ZeroDivisionError`. -/
theorem C82_raises (x z r k : ℕ) (pr : ℝ) : isConverged x z r k pr = .error .zeroDivision ↔ r = 0 ∨ k = 0 := by
  constructor
  · intro h
    by_contra hc
    simp only [isConverged, checkConvergence, errorRates, if_neg hc] at h
    cases h
  · intro hc
    simp only [isConverged, checkConvergence, errorRates, if_pos hc]
    rfl

example : ∃ v, errorRates 1 2 1 = .ok v ∧ SideConverged 1 2 v 10 := by
  refine ⟨_, by unfold errorRates; rw [if_neg (by decide)], by decide, by decide, ?_⟩
  have h := lerEb_le_half 1 2 1 _ (by unfold errorRates; rw [if_neg (by decide)]) (by decide)
  simp only [Nat.cast_one, Nat.cast_ofNat, div_one, sub_self, Real.rpow_zero, mul_one, Real.rpow_one] at h ⊢
  norm_num at h ⊢
  linarith

/-! ## C83: error bars -/

/-- Specification: the propagated standard error of `f` at `p`, for a standard error `σ` of `p`. -/
noncomputable def propagated (f : ℝ → ℝ) (p σ : ℝ) : ℝ := |deriv f p| * σ

/-- The word error rate as a function of the logical error rate. -/
noncomputable def wordRate (k : ℕ) (p : ℝ) : ℝ := 1 - (1 - p) ^ (1 / (k : ℝ))

theorem deriv_wordRate (k : ℕ) (p : ℝ) (hp : p < 1) :
    deriv (wordRate k) p = (1 - p) ^ (1 / (k : ℝ) - 1) / k := by
  have h1 : HasDerivAt (fun p : ℝ => 1 - p) (-1) p := by
    simpa using (hasDerivAt_id p).const_sub 1
  have h2 := (h1.rpow_const (p := 1 / (k : ℝ)) (.inl (by linarith))).const_sub 1
  have h3 : HasDerivAt (wordRate k) (-(-1 * (1 / (k : ℝ)) * (1 - p) ^ (1 / (k : ℝ) - 1))) p := h2
  rw [h3.deriv]
  ring

/-- The full claim: the reported error bar of the word error rate is the propagated standard error. -/
def C83_claim : Prop :=
  ∀ s r k v, errorRates s r k = .ok v → 0 < s → s ≤ r → v.wer = wordRate k v.ler ∧
    v.werEb = propagated (wordRate k) v.ler v.lerEb

/-- **C83**: the rates: the logical error rate is the fraction of failures, its error bar the binomial standard error,
and the word error rate is the rate per logical qubit `w` with `(1 - w)^k = 1 - p`. -/
theorem C83_rates (s r k : ℕ) (v : Rates) (h : errorRates s r k = .ok v) (hs : s ≤ r) :
    v.ler = ((r - s : ℕ) : ℝ) / r ∧ v.lerEb ^ 2 = v.ler * (1 - v.ler) / r ∧ 0 ≤ v.lerEb ∧
      (1 - v.wer) ^ k = 1 - v.ler ∧ 0 ≤ v.wer ∧ v.wer ≤ 1 := by
  obtain ⟨hr, hk, hl, h0, h1, he, hw, -⟩ := errorRates_bounds s r k v h hs
  have hr0 : (0 : ℝ) < r := by exact_mod_cast Nat.pos_of_ne_zero hr
  have hb : 0 ≤ 1 - v.ler := by linarith
  have hpw : (1 - v.wer) = (1 - v.ler) ^ (1 / (k : ℝ)) := by rw [hw]; ring
  have hp0 : 0 ≤ (1 - v.ler) ^ (1 / (k : ℝ)) := Real.rpow_nonneg hb _
  have hp1 : (1 - v.ler) ^ (1 / (k : ℝ)) ≤ 1 := Real.rpow_le_one hb (by linarith) (by positivity)
  refine ⟨?_, ?_, ?_, ?_, by linarith, by linarith⟩
  · rw [hl, Nat.cast_sub hs, sub_div, div_self hr0.ne']
  · rw [he, Real.sq_sqrt (div_nonneg (mul_nonneg hb h0) hr0.le)]; ring
  · rw [he]; exact Real.sqrt_nonneg _
  · rw [hpw, one_div, Real.rpow_inv_natCast_pow hb hk]

/-- **C83**: the error bar is the propagated standard error for codes with one logical qubit. -/
theorem C83_error_bar_partial (s r : ℕ) (v : Rates) (h : errorRates s r 1 = .ok v) (h0 : 0 < s) (hs : s ≤ r) :
    v.wer = wordRate 1 v.ler ∧ v.werEb = propagated (wordRate 1) v.ler v.lerEb := by
  obtain ⟨hr, -, hl, -, -, he, hw, hwe⟩ := errorRates_bounds s r 1 v h hs
  have hr0 : (0 : ℝ) < r := by exact_mod_cast Nat.pos_of_ne_zero hr
  have hs0 : (0 : ℝ) < s := by exact_mod_cast h0
  have hlt : v.ler < 1 := by
    rw [hl]; have := div_pos hs0 hr0; linarith
  refine ⟨hw, ?_⟩
  unfold propagated
  rw [deriv_wordRate 1 _ hlt, hwe]
  simp

example : ∃ v, errorRates 3 4 1 = .ok v := by
  unfold errorRates; rw [if_neg (by decide)]; exact ⟨_, rfl⟩

/-- **C83** is violated: the factor of the propagation is evaluated at the error bar instead of at the error rate.  For
two logical qubits, nine of ten runs failing, the reported error bar is not the propagated standard error. -/
theorem C83_violated : ¬ C83_claim := by
  intro hc
  have h : ∃ v, errorRates 1 10 2 = .ok v := by
    unfold errorRates; rw [if_neg (by decide)]; exact ⟨_, rfl⟩
  obtain ⟨v, hv⟩ := h
  obtain ⟨-, he⟩ := hc 1 10 2 v hv (by decide) (by decide)
  have hh := lerEb_le_half 1 10 2 v hv (by decide)
  obtain ⟨-, -, hl, -, -, hle, -, hwe⟩ := errorRates_bounds 1 10 2 v hv (by decide)
  have hl' : v.ler = 9 / 10 := by rw [hl]; norm_num
  have hpos : 0 < v.lerEb := by
    rw [hle, hl']; apply Real.sqrt_pos.2; norm_num
  unfold propagated at he
  rw [deriv_wordRate 2 _ (by rw [hl']; norm_num), hwe, hl'] at he
  have hp : 0 < (1 - 9 / 10 : ℝ) ^ (1 / ((2 : ℕ) : ℝ) - 1) := Real.rpow_pos_of_pos (by norm_num) _
  rw [abs_of_pos (by positivity)] at he
  have e : (1 - v.lerEb) ^ (1 / ((2 : ℕ) : ℝ) - 1) = (1 - 9 / 10 : ℝ) ^ (1 / ((2 : ℕ) : ℝ) - 1) := by
    have : v.lerEb * (1 - v.lerEb) ^ (1 / ((2 : ℕ) : ℝ) - 1) = v.lerEb * (1 - 9 / 10 : ℝ) ^ (1 / ((2 : ℕ) : ℝ) - 1) := by
      field_simp at he ⊢
      linarith
    exact mul_left_cancel₀ hpos.ne' this
  have := Real.rpow_lt_rpow_of_neg (x := (1 - 9 / 10 : ℝ)) (y := 1 - v.lerEb) (z := 1 / ((2 : ℕ) : ℝ) - 1)
    (by norm_num) (by linarith) (by norm_num)
  linarith

/-! ## C86: settings files -/

/-- Invariant of the collected settings: distinct keys, values without repetition. -/
structure Collected {κ α : Type} [DecidableEq κ] [DecidableEq α] (acc : List (κ × List α)) (seen : List (κ × α)) : Prop where
  keys : (acc.map (·.1)).Nodup
  vals : ∀ p ∈ acc, p.2.Nodup
  all : ∀ k v, (k, v) ∈ seen ↔ ∃ l, (k, l) ∈ acc ∧ v ∈ l
  nonempty : ∀ p ∈ acc, p.2 ≠ []

theorem collected_add {κ α : Type} [DecidableEq κ] [DecidableEq α] (acc : List (κ × List α)) (seen : List (κ × α))
    (h : Collected acc seen) (kv : κ × α) : Collected (addSetting acc kv) (seen ++ [kv]) := by
  obtain ⟨k, v⟩ := kv
  unfold addSetting
  by_cases hk : acc.any (fun p => p.1 == k) = true
  · rw [if_pos hk]
    have hk' : ∃ l, (k, l) ∈ acc := by
      simp only [List.any_eq_true, beq_iff_eq] at hk
      obtain ⟨⟨k', l⟩, h1, h2⟩ := hk
      simp only at h2
      exact ⟨l, h2 ▸ h1⟩
    set f : κ × List α → κ × List α :=
      fun p => if p.1 = k then (p.1, if p.2.contains v then p.2 else p.2 ++ [v]) else p with hf
    have f1 : ∀ p, (f p).1 = p.1 := by
      intro p; simp only [hf]; split <;> rfl
    have f2 : ∀ p, ∀ w, w ∈ (f p).2 ↔ w ∈ p.2 ∨ (p.1 = k ∧ w = v) := by
      intro p w
      simp only [hf]
      by_cases h1 : p.1 = k
      · by_cases h2 : v ∈ p.2
        · simp only [h1, if_true, List.contains_iff_mem.2 h2, true_and]
          constructor
          · exact .inl
          · rintro (h | rfl)
            · exact h
            · exact h2
        · simp [h1, h2]
      · simp [h1]
    refine ⟨?_, ?_, ?_, ?_⟩
    · rw [List.map_map]
      have : (fun p => (f p).1) = (fun p : κ × List α => p.1) := funext f1
      show (acc.map fun p => (f p).1).Nodup
      rw [this]; exact h.keys
    · intro p hp
      obtain ⟨q, hq, rfl⟩ := List.mem_map.1 hp
      have := h.vals q hq
      simp only [hf]
      by_cases h1 : q.1 = k
      · by_cases h2 : v ∈ q.2
        · simp only [h1, if_true, List.contains_iff_mem.2 h2]; exact this
        · have h3 : ¬ (q.2.contains v = true) := by simpa using h2
          simp only [h1, if_true, h3, Bool.false_eq_true, if_false]
          rw [List.nodup_append]
          refine ⟨this, by simp, ?_⟩
          intro a ha b hb
          simp only [List.mem_singleton] at hb
          rintro rfl
          exact h2 (hb ▸ ha)
      · simp only [h1, if_false]; exact this
    · intro k' w
      rw [List.mem_append, h.all k' w]
      constructor
      · rintro (⟨l, h1, h2⟩ | h1)
        · refine ⟨(f (k', l)).2, List.mem_map.2 ⟨(k', l), h1, ?_⟩, (f2 _ _).2 (.inl h2)⟩
          exact Prod.ext (f1 _) rfl
        · simp only [List.mem_singleton, Prod.mk.injEq] at h1
          obtain ⟨rfl, rfl⟩ := h1
          obtain ⟨l, hl⟩ := hk'
          refine ⟨(f (k', l)).2, List.mem_map.2 ⟨(k', l), hl, ?_⟩, (f2 _ _).2 (.inr ⟨rfl, rfl⟩)⟩
          exact Prod.ext (f1 _) rfl
      · rintro ⟨l, h1, h2⟩
        obtain ⟨q, hq, he⟩ := List.mem_map.1 h1
        have hq1 : q.1 = k' := by rw [← f1 q, he]
        have : w ∈ (f q).2 := by rw [he]; exact h2
        rcases (f2 _ _).1 this with h3 | ⟨h3, h4⟩
        · left
          obtain ⟨q1, q2⟩ := q
          simp only at hq1 h3
          exact ⟨q2, hq1 ▸ hq, h3⟩
        · right
          rw [← hq1, h3, h4]; simp
    · intro p hp
      obtain ⟨q, hq, rfl⟩ := List.mem_map.1 hp
      have := h.nonempty q hq
      obtain ⟨w, hw⟩ := List.exists_mem_of_ne_nil _ this
      exact List.ne_nil_of_mem ((f2 q w).2 (.inl hw))
  · rw [if_neg hk]
    have hk' : ∀ p ∈ acc, p.1 ≠ k := by
      intro p hp e
      exact hk (List.any_eq_true.2 ⟨p, hp, by simp [e]⟩)
    refine ⟨?_, ?_, ?_, ?_⟩
    · rw [List.map_append, List.nodup_append]
      refine ⟨h.keys, by simp, ?_⟩
      intro a ha b hb
      obtain ⟨p, hp, rfl⟩ := List.mem_map.1 ha
      simp only [List.map_cons, List.map_nil, List.mem_singleton] at hb
      rw [hb]; exact hk' p hp
    · intro p hp
      rcases List.mem_append.1 hp with hp | hp
      · exact h.vals p hp
      · simp only [List.mem_singleton] at hp
        subst hp; simp
    · intro k' w
      rw [List.mem_append, h.all k' w]
      constructor
      · rintro (⟨l, h1, h2⟩ | h1)
        · exact ⟨l, List.mem_append_left _ h1, h2⟩
        · simp only [List.mem_singleton, Prod.mk.injEq] at h1
          obtain ⟨rfl, rfl⟩ := h1
          exact ⟨[w], by simp, by simp⟩
      · rintro ⟨l, h1, h2⟩
        rcases List.mem_append.1 h1 with h1 | h1
        · exact .inl ⟨l, h1, h2⟩
        · simp only [List.mem_singleton, Prod.mk.injEq] at h1
          obtain ⟨rfl, rfl⟩ := h1
          right; simpa using h2
    · intro p hp
      rcases List.mem_append.1 hp with hp | hp
      · exact h.nonempty p hp
      · simp only [List.mem_singleton] at hp
        subst hp; simp

/-- **C86**: `extract_settings` returns, for every keyword of the file and nothing else, the values it takes on some line,
each once. -/
theorem C86_settings {κ α : Type} [DecidableEq κ] [DecidableEq α] (lines : List (List (κ × α))) :
    ((extractSettings lines).map (·.1)).Nodup ∧ (∀ p ∈ extractSettings lines, p.2.Nodup ∧ p.2 ≠ []) ∧
      ∀ k v, (∃ l, (k, l) ∈ extractSettings lines ∧ v ∈ l) ↔ ∃ line ∈ lines, (k, v) ∈ line := by
  have key : ∀ (kvs : List (κ × α)) (acc : List (κ × List α)) (seen : List (κ × α)), Collected acc seen →
      Collected (kvs.foldl addSetting acc) (seen ++ kvs) := by
    intro kvs
    induction kvs with
    | nil => intro acc seen h; simpa using h
    | cons kv kvs ih =>
      intro acc seen h
      have := ih _ _ (collected_add acc seen h kv)
      simpa using this
  have h0 : Collected ([] : List (κ × List α)) [] := ⟨by simp, by simp, by simp, by simp⟩
  have h := key lines.flatten [] [] h0
  refine ⟨h.keys, fun p hp => ⟨h.vals p hp, h.nonempty p hp⟩, fun k v => ?_⟩
  refine (h.all k v).symm.trans ?_
  simp [List.mem_flatten]

example : extractSettings [[("p", 1), ("q", 5)], [("p", 2), ("q", 5)], [("p", 1)]] = [("p", [1, 2]), ("q", [5])] := rfl

end Verif.Data
