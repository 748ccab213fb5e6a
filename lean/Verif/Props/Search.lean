import Verif.Model.Search
import Verif.Props.Synthesis

/-! # C31, C67: iterative search and minimisation -/

namespace Verif.SP
open Verif Verif.Spec

variable {α : Type}

theorem scale_mono {x y : ℕ} {f : ℚ} (hf : 0 ≤ f) (h : x ≤ y) : scale x f ≤ scale y f := by
  unfold scale
  apply Nat.floor_mono
  have : (x : ℚ) ≤ y := by exact_mod_cast h
  exact mul_le_mul_of_nonneg_right this hf

/-- A factor that enlarges the smallest value by at least one enlarges every larger value. -/
theorem lt_scale {m x : ℕ} {f : ℚ} (hf : 1 ≤ f) (hm : 1 ≤ (m : ℚ) * (f - 1)) (hx : m ≤ x) : x < scale x f := by
  unfold scale
  rw [Nat.lt_iff_add_one_le, Nat.le_floor_iff]
  · have h1 : (m : ℚ) ≤ x := by exact_mod_cast hx
    have h2 : (m : ℚ) * (f - 1) ≤ x * (f - 1) := mul_le_mul_of_nonneg_right h1 (by linarith)
    push_cast
    linarith
  · positivity

theorem searchLoop_found (run : ℕ → ℕ → ℕ → Outcome α) (minP maxP maxT : ℕ) (pf tf : ℚ) (k i t p : ℕ) (r : α)
    (q : ℕ) (h : searchLoop run minP maxP maxT pf tf k i t p = some (.found r q)) :
    q ≤ maxP ∧ ∃ i' t', t' ≤ maxT ∧ run i' q t' = .value (some r) := by
  induction k generalizing i t p with
  | zero => simp [searchLoop] at h
  | succ k ih =>
    rw [searchLoop] at h
    split at h
    · next ht =>
      split at h
      · next hp =>
        split at h
        · next hr =>
          simp only [Option.some.injEq, SRes.found.injEq] at h
          obtain ⟨rfl, rfl⟩ := h
          exact ⟨hp, i, t, ht, hr⟩
        · simp at h
        · split at h
          · exact ih _ _ _ h
          · exact ih _ _ _ h
        · split at h
          · exact ih _ _ _ h
          · exact ih _ _ _ h
      · exact ih _ _ _ h
    · simp at h

/-- A returned circuit was produced by the given function for the returned parameter, which does
not exceed `max_param`, in a call whose timeout does not exceed `max_timeout`. -/
theorem C31_sound (run : ℕ → ℕ → ℕ → Outcome α) (minP maxP minT maxT : ℕ) (pf tf : ℚ) (fuel : ℕ) (r : α)
    (q : ℕ) (h : iterativeSearch run minP maxP minT maxT pf tf fuel = some (.found r q)) :
    q ≤ maxP ∧ ∃ i t, t ≤ maxT ∧ run i q t = .value (some r) :=
  searchLoop_found run minP maxP maxT pf tf fuel 0 minT minP r q h

/-- A function that succeeds from parameter 3 on, immediately. -/
def exRun : ℕ → ℕ → ℕ → Outcome ℕ := fun _ p t =>
  if t < 4 then .timeout else if 3 ≤ p then .value (some (10 * p)) else .value none

example : iterativeSearch exRun 1 10 1 100 2 2 50 = some (.found 40 4) := by
  decide +kernel

theorem searchLoop_param_ge (run : ℕ → ℕ → ℕ → Outcome α) (minP maxP maxT : ℕ) (pf tf : ℚ) (hpf : 1 ≤ pf)
    (hmm : minP ≤ maxP) (k i t p : ℕ) (hp : minP ≤ p) (r : α)
    (q : ℕ) (h : searchLoop run minP maxP maxT pf tf k i t p = some (.found r q)) : minP ≤ q := by
  induction k generalizing i t p with
  | zero => simp [searchLoop] at h
  | succ k ih =>
    have hs : minP ≤ min (scale p pf) maxP := by
      have : p ≤ scale p pf := by
        unfold scale
        rw [Nat.le_floor_iff (by positivity)]
        nlinarith [show (0 : ℚ) ≤ p from Nat.cast_nonneg p]
      omega
    rw [searchLoop] at h
    split at h
    · split at h
      · split at h
        · simp only [Option.some.injEq, SRes.found.injEq] at h
          obtain ⟨rfl, rfl⟩ := h
          exact hp
        · simp at h
        · split at h
          · exact ih _ _ _ le_rfl h
          · exact ih _ _ _ hs h
        · split at h
          · exact ih _ _ _ le_rfl h
          · exact ih _ _ _ hs h
      · exact ih _ _ _ le_rfl h
    · simp at h

/-- With factors of at least one the returned parameter is not below `min_param`. -/
theorem C31_range (run : ℕ → ℕ → ℕ → Outcome α) (minP maxP minT maxT : ℕ) (pf tf : ℚ) (hpf : 1 ≤ pf)
    (hmm : minP ≤ maxP) (fuel : ℕ) (r : α) (q : ℕ)
    (h : iterativeSearch run minP maxP minT maxT pf tf fuel = some (.found r q)) : minP ≤ q ∧ q ≤ maxP :=
  ⟨searchLoop_param_ge run minP maxP maxT pf tf hpf hmm fuel 0 minT minP le_rfl r q h,
    (C31_sound run minP maxP minT maxT pf tf fuel r q h).1⟩

theorem searchLoop_terminates (run : ℕ → ℕ → ℕ → Outcome α) (minP maxP minT maxT : ℕ) (pf tf : ℚ)
    (hpf : 1 ≤ pf) (htf : 1 ≤ tf) (hP : 1 ≤ (minP : ℚ) * (pf - 1)) (hT : 1 ≤ (minT : ℚ) * (tf - 1))
    (t : ℕ) (ht : minT ≤ t) : ∀ p i, minP ≤ p →
    ∃ N s, ∀ fuel ≥ N, searchLoop run minP maxP maxT pf tf fuel i t p = some s := by
  have suc : ∀ {fuel N : ℕ}, fuel ≥ N + 1 → ∃ k, fuel = k + 1 ∧ k ≥ N := fun {fuel N} h => ⟨fuel - 1, by omega, by omega⟩
  induction hd : maxT + 1 - t using Nat.strong_induction_on generalizing t with
  | _ d ih =>
    by_cases htm : t ≤ maxT
    swap
    · intro p i _
      refine ⟨1, .notFound maxP, ?_⟩
      intro fuel hf
      obtain ⟨k, rfl, -⟩ := suc (N := 0) hf
      rw [searchLoop, if_neg htm]
    · -- the next timeout is larger
      have hlt : t < scale t tf := lt_scale htf hT ht
      have hnext : ∀ i, ∃ N s, ∀ fuel ≥ N, searchLoop run minP maxP maxT pf tf fuel i (scale t tf) minP = some s :=
        fun i => ih (maxT + 1 - scale t tf) (by omega) (scale t tf) (by omega) rfl minP i le_rfl
      intro p i hp
      induction he : maxP + 1 - p using Nat.strong_induction_on generalizing p i with
      | _ e ih2 =>
        by_cases hpm : p ≤ maxP
        swap
        · obtain ⟨N, s, h⟩ := hnext i
          refine ⟨N + 1, s, ?_⟩
          intro fuel hf
          obtain ⟨k, rfl, hk⟩ := suc hf
          rw [searchLoop, if_pos htm, if_neg hpm]
          exact h k hk
        · have hcont : ∃ N s, ∀ fuel ≥ N, (if p = maxP then
              searchLoop run minP maxP maxT pf tf fuel (i + 1) (scale t tf) minP
            else searchLoop run minP maxP maxT pf tf fuel (i + 1) t (min (scale p pf) maxP)) = some s := by
            by_cases hpe : p = maxP
            · simp only [if_pos hpe]; exact hnext (i + 1)
            · simp only [if_neg hpe]
              have hlt' : p < scale p pf := lt_scale hpf hP hp
              apply ih2 (maxP + 1 - min (scale p pf) maxP) (by omega) _ _ (by omega) rfl
          have key : ∀ o : Outcome α, run i p t = o →
              ∃ N s, ∀ fuel ≥ N, searchLoop run minP maxP maxT pf tf fuel i t p = some s := by
            intro o ho
            cases o with
            | crash =>
              refine ⟨1, .crash, ?_⟩
              intro fuel hf
              obtain ⟨k, rfl, -⟩ := suc (N := 0) hf
              rw [searchLoop, if_pos htm, if_pos hpm, ho]
            | timeout =>
              obtain ⟨N, s, h⟩ := hcont
              refine ⟨N + 1, s, ?_⟩
              intro fuel hf
              obtain ⟨k, rfl, hk⟩ := suc hf
              rw [searchLoop, if_pos htm, if_pos hpm, ho]
              exact h k hk
            | value r =>
              cases r with
              | some r =>
                refine ⟨1, .found r p, ?_⟩
                intro fuel hf
                obtain ⟨k, rfl, -⟩ := suc (N := 0) hf
                rw [searchLoop, if_pos htm, if_pos hpm, ho]
              | none =>
                obtain ⟨N, s, h⟩ := hcont
                refine ⟨N + 1, s, ?_⟩
                intro fuel hf
                obtain ⟨k, rfl, hk⟩ := suc hf
                rw [searchLoop, if_pos htm, if_pos hpm, ho]
                exact h k hk
          exact key _ rfl

/-- Whatever the called function does, the search ends, provided one multiplication enlarges the
start values by at least one.  Missing for the full claim (non-zero start values, factors above
one): start values so small that `int(x * factor)` is `x` again (`C31_violated_factor`). -/
theorem C31_terminates_partial (run : ℕ → ℕ → ℕ → Outcome α) (minP maxP minT maxT : ℕ) (pf tf : ℚ)
    (hpf : 1 ≤ pf) (htf : 1 ≤ tf) (hP : 1 ≤ (minP : ℚ) * (pf - 1)) (hT : 1 ≤ (minT : ℚ) * (tf - 1)) :
    ∃ N s, ∀ fuel ≥ N, iterativeSearch run minP maxP minT maxT pf tf fuel = some s :=
  searchLoop_terminates run minP maxP minT maxT pf tf hpf htf hP hT minT le_rfl minP 0 le_rfl

/-- The default factors and any positive start values meet the condition. -/
theorem C31_terminates_default (run : ℕ → ℕ → ℕ → Outcome α) (minP maxP minT maxT : ℕ) (hP : 1 ≤ minP)
    (hT : 1 ≤ minT) : ∃ N s, ∀ fuel ≥ N, iterativeSearch run minP maxP minT maxT 2 2 fuel = some s := by
  apply C31_terminates_partial run minP maxP minT maxT 2 2 (by norm_num) (by norm_num)
  · have : (1 : ℚ) ≤ minP := by exact_mod_cast hP
    linarith
  · have : (1 : ℚ) ≤ minT := by exact_mod_cast hT
    linarith

example : iterativeSearch (fun _ _ _ => (Outcome.timeout : Outcome ℕ)) 1 3 1 2 2 2 10 = some (.notFound 3) := by
  decide +kernel

/-- The termination claim as stated: start values above zero, factors above one. -/
def C31_termination_claim : Prop := ∀ (run : ℕ → ℕ → ℕ → Outcome ℕ) (minP maxP minT maxT : ℕ) (pf tf : ℚ),
  0 < minP → 0 < minT → 1 < pf → 1 < tf → ∃ fuel s, iterativeSearch run minP maxP minT maxT pf tf fuel = some s

theorem stuck (maxP maxT t : ℕ) (tf : ℚ) (ht : t ≤ maxT) (hp : 2 ≤ maxP) (fuel i : ℕ) :
    searchLoop (fun _ _ _ => (Outcome.timeout : Outcome ℕ)) 1 maxP maxT (3 / 2) tf fuel i t 1 = none := by
  induction fuel generalizing i with
  | zero => rfl
  | succ k ih =>
    have h1 : scale 1 (3 / 2) = 1 := by
      unfold scale; rw [Nat.floor_eq_iff (by norm_num)]; norm_num
    rw [searchLoop, if_pos ht, if_pos (by omega)]
    simp only
    rw [if_neg (by omega), h1, min_eq_left (by omega)]
    exact ih (i + 1)

/-- With `param_factor = 1.5` and `min_param = 1` the parameter never grows: the search does not end. -/
theorem C31_violated_factor : ¬ C31_termination_claim := by
  intro h
  obtain ⟨fuel, s, hs⟩ := h (fun _ _ _ => .timeout) 1 2 1 1 (3 / 2) 2 (by norm_num) (by norm_num) (by norm_num) (by norm_num)
  rw [iterativeSearch, stuck 2 1 1 2 le_rfl le_rfl] at hs
  simp at hs

/-- `min_timeout = 0` makes the search run forever when nothing is found: the timeout stays 0. -/
theorem C31_violated_zero_timeout (fuel : ℕ) :
    iterativeSearch (fun _ _ _ => (Outcome.timeout : Outcome ℕ)) 1 1 0 10 2 2 fuel = none := by
  have : ∀ i, searchLoop (fun _ _ _ => (Outcome.timeout : Outcome ℕ)) 1 1 10 2 2 fuel i 0 1 = none := by
    induction fuel with
    | zero => intro i; rfl
    | succ k ih =>
      intro i
      have h1 : scale 0 2 = 0 := by unfold scale; norm_num
      rw [searchLoop, if_pos (by omega), if_pos (by omega)]
      simp only [if_true]
      rw [h1]
      exact ih (i + 1)
  exact this 0

theorem searchLoop_notFound (run : ℕ → ℕ → ℕ → Outcome α) (minP maxP maxT : ℕ) (pf tf : ℚ)
    (k i t p : ℕ) (ht : t ≤ maxT) (hp : p ≤ maxP) (q : ℕ)
    (h : searchLoop run minP maxP maxT pf tf k i t p = some (.notFound q)) :
    ∃ i', run i' maxP t = .timeout ∨ run i' maxP t = .value none := by
  induction k generalizing i p with
  | zero => simp [searchLoop] at h
  | succ k ih =>
    rw [searchLoop, if_pos ht, if_pos hp] at h
    split at h
    · simp at h
    · simp at h
    · next hr =>
      split at h
      · next he => exact ⟨i, by rw [← he]; exact Or.inr hr⟩
      · exact ih _ _ (min_le_right _ _) h
    · next hr =>
      split at h
      · next he => exact ⟨i, by rw [← he]; exact Or.inl hr⟩
      · exact ih _ _ (min_le_right _ _) h

/-- When the search reports failure, the largest parameter was tried (at least with the first
timeout) and did not give a circuit. -/
theorem C31_exhaustive (run : ℕ → ℕ → ℕ → Outcome α) (minP maxP minT maxT : ℕ) (pf tf : ℚ) (hmm : minP ≤ maxP)
    (ht : minT ≤ maxT) (fuel q : ℕ) (h : iterativeSearch run minP maxP minT maxT pf tf fuel = some (.notFound q)) :
    q = maxP ∧ ∃ i, run i maxP minT = .timeout ∨ run i maxP minT = .value none := by
  refine ⟨?_, searchLoop_notFound run minP maxP maxT pf tf fuel 0 minT minP ht hmm q h⟩
  unfold iterativeSearch at h
  revert h
  generalize 0 = i
  generalize minT = t
  have : ∀ k i t p, searchLoop run minP maxP maxT pf tf k i t p = some (.notFound q) → q = maxP := by
    intro k
    induction k with
    | zero => intro i t p h; simp [searchLoop] at h
    | succ k ih =>
      intro i t p h
      rw [searchLoop] at h
      split at h
      · split at h
        · split at h
          · simp at h
          · simp at h
          · split at h <;> exact ih _ _ _ h
          · split at h <;> exact ih _ _ _ h
        · exact ih _ _ _ h
      · simp only [Option.some.injEq, SRes.notFound.injEq] at h
        exact h.symm
  exact this _ _ _ _

/-! ### Minimality of `gate_optimal_prep_circuit` and `depth_optimal_prep_circuit` -/

theorem minimizeLoop_spec (run : ℕ → ℕ → ℕ → Outcome α) (maxT : ℕ) (P : ℕ → α → Prop)
    (hP : ∀ i p t c, run i p t = .value (some c) → P p c) (j : ℕ) (c : α) (p : ℕ) (hc : P p c) (r : α) (q : ℕ)
    (b : Bool) (h : minimizeLoop run maxT j c p = .circuit r q b) :
    P q r ∧ 1 ≤ q ∧ q ≤ p ∧ ∃ i, run i (q - 1) maxT = if b then .value none else .timeout := by
  induction p generalizing j c with
  | zero => simp [minimizeLoop] at h
  | succ p ih =>
    rw [minimizeLoop] at h
    split at h
    · next hr =>
      simp only [ORes.circuit.injEq] at h
      obtain ⟨rfl, rfl, rfl⟩ := h
      exact ⟨hc, by omega, le_rfl, j, by simpa using hr⟩
    · next hr =>
      simp only [ORes.circuit.injEq] at h
      obtain ⟨rfl, rfl, rfl⟩ := h
      exact ⟨hc, by omega, le_rfl, j, by simpa using hr⟩
    · simp at h
    · next c' hr =>
      obtain ⟨h1, h2, h3, h4⟩ := ih (j + 1) c' (hP _ _ _ _ hr) h
      exact ⟨h1, h2, by omega, h4⟩

variable {n : ℕ}

theorem not_gate_of_value_none (checks : List (Vec n)) (zero : Bool) (p : ℕ)
    (h : GateOutcome checks zero p (.value none)) : p ≠ 0 ∧ ∀ a, gateConstraint checks p a = false := by
  rcases h with h | h
  · simp at h
  · split at h
    · simp at h
    · next hp =>
      refine ⟨hp, ?_⟩
      rcases h with ⟨a, c, -, -, h⟩ | ⟨h, -⟩
      · simp at h
      · exact h

/-- A circuit returned by the gate-optimal synthesis prepares the logical zero state with `param`
CNOTs; if the last call was answered (no timeout), no Hadamard layer followed by fewer CNOTs
prepares it.  For independent checks; see `C28_violated_gate` for redundant ones. -/
theorem C67_gate_partial (checks : List (Vec n)) (hrk : rank checks = checks.length) (hn : 2 ≤ n)
    (run run' : ℕ → ℕ → ℕ → Outcome (PrepCircuit n))
    (hrun : ∀ i p t, GateOutcome checks true p (run i p t))
    (hrun' : ∀ i p t, GateOutcome checks true p (run' i p t))
    (minP maxP minT maxT fuel : ℕ) (c : PrepCircuit n) (p : ℕ) (proved : Bool)
    (h : optimalCircuit run run' minP maxP minT maxT fuel = some (.circuit c p proved)) :
    PreparesZero c.hadamards c.cnots checks ∧ c.cnots.length = p ∧
    (proved = true → ∀ (hs : List (Fin n)) (cnots : List (Fin n × Fin n)), (∀ g ∈ cnots, g.1 ≠ g.2) →
      PreparesZero hs cnots checks → p ≤ cnots.length) := by
  have hval : ∀ r : ℕ → ℕ → ℕ → Outcome (PrepCircuit n), (∀ i p t, GateOutcome checks true p (r i p t)) →
      ∀ i p t c, r i p t = .value (some c) → PreparesZero c.hadamards c.cnots checks ∧ c.cnots.length = p := by
    intro r hr i p t c hc
    have := hr i p t
    rw [hc] at this
    rcases this with h | h
    · simp at h
    · split at h
      · simp at h
      · rcases h with ⟨a, c', ha, he, hc'⟩ | ⟨_, h⟩
        · simp only [Outcome.value.injEq, Option.some.injEq] at hc'
          subst hc'
          obtain ⟨c'', h1, h2, h3⟩ := (C28_gate_partial checks hrk p a ha).1
          rw [he] at h1
          cases h1
          exact ⟨h3, h2⟩
        · simp at h
  unfold optimalCircuit at h
  split at h
  · simp at h
  · simp at h
  · simp at h
  · next c0 p0 hs =>
    obtain ⟨-, i, t, -, hr⟩ := C31_sound run minP maxP minT maxT 2 2 fuel c0 p0 hs
    simp only [Option.some.injEq] at h
    obtain ⟨⟨h1, h2⟩, h3, -, i', h4⟩ := minimizeLoop_spec run' maxT
      (fun p c => PreparesZero c.hadamards c.cnots checks ∧ c.cnots.length = p) (hval run' hrun') 0 c0 p0
      (hval run hrun i p0 t c0 hr) c p proved h
    refine ⟨h1, h2, ?_⟩
    rintro rfl hs cnots hne hprep
    by_contra hlt
    push Not at hlt
    have hu := hrun' i' (p - 1) maxT
    rw [h4, if_pos rfl] at hu
    obtain ⟨-, hunsat⟩ := not_gate_of_value_none checks true _ hu
    have hsat : ∃ a, gateConstraint checks cnots.length a = true :=
      (C66_gate checks hrk _).2 ⟨hs, cnots, rfl, hne, hprep⟩
    have hmono : ∀ d, ∃ a, gateConstraint checks (cnots.length + d) a = true := by
      intro d
      induction d with
      | zero => exact hsat
      | succ d ih => exact C66_gate_monotone checks hrk hn _ ih
    obtain ⟨a, ha⟩ := hmono (p - 1 - cnots.length)
    rw [show cnots.length + (p - 1 - cnots.length) = p - 1 by omega, hunsat a] at ha
    simp at ha

/-- The same for depth. -/
theorem C67_depth_partial (checks : List (Vec n)) (hrk : rank checks = checks.length)
    (run run' : ℕ → ℕ → ℕ → Outcome (PrepCircuit n))
    (hrun : ∀ i p t, DepthOutcome checks true p (run i p t))
    (hrun' : ∀ i p t, DepthOutcome checks true p (run' i p t))
    (minP maxP minT maxT fuel : ℕ) (c : PrepCircuit n) (p : ℕ) (proved : Bool)
    (h : optimalCircuit run run' minP maxP minT maxT fuel = some (.circuit c p proved)) :
    PreparesZero c.hadamards c.cnots checks ∧
    (∃ layers : List (List (Fin n × Fin n)), layers.length = p ∧ (∀ L ∈ layers, Layer L) ∧ layers.flatten = c.cnots) ∧
    (proved = true → ∀ (hs : List (Fin n)) (layers : List (List (Fin n × Fin n))), (∀ L ∈ layers, Layer L) →
      PreparesZero hs layers.flatten checks → p ≤ layers.length) := by
  have hval : ∀ r : ℕ → ℕ → ℕ → Outcome (PrepCircuit n), (∀ i p t, DepthOutcome checks true p (r i p t)) →
      ∀ i p t c, r i p t = .value (some c) → PreparesZero c.hadamards c.cnots checks ∧
        ∃ layers : List (List (Fin n × Fin n)), layers.length = p ∧ (∀ L ∈ layers, Layer L) ∧
          layers.flatten = c.cnots := by
    intro r hr i p t c hc
    have := hr i p t
    rw [hc] at this
    rcases this with h | h
    · simp at h
    · split at h
      · simp at h
      · rcases h with ⟨a, ha, hc'⟩ | ⟨_, h⟩
        · simp only [Outcome.value.injEq, Option.some.injEq] at hc'
          subst hc'
          refine ⟨(C28_depth_partial checks hrk p a ha).1, ?_⟩
          obtain ⟨layers, h1, h2, -, h4⟩ := (C30_depth checks p).2 a ha true
          obtain ⟨layers', e1, e2, e3⟩ := layers_reverse layers h2
          exact ⟨layers', by rw [e1, h1], e2, by rw [h4, e3]; simp [buildCircuit]⟩
        · simp at h
  unfold optimalCircuit at h
  split at h
  · simp at h
  · simp at h
  · simp at h
  · next c0 p0 hs =>
    obtain ⟨-, i, t, -, hr⟩ := C31_sound run minP maxP minT maxT 2 2 fuel c0 p0 hs
    simp only [Option.some.injEq] at h
    obtain ⟨⟨h1, h2⟩, h3, -, i', h4⟩ := minimizeLoop_spec run' maxT
      (fun p c => PreparesZero c.hadamards c.cnots checks ∧
        ∃ layers : List (List (Fin n × Fin n)), layers.length = p ∧ (∀ L ∈ layers, Layer L) ∧
          layers.flatten = c.cnots) (hval run' hrun') 0 c0 p0
      (hval run hrun i p0 t c0 hr) c p proved h
    refine ⟨h1, h2, ?_⟩
    rintro rfl hs layers hL hprep
    by_contra hlt
    push Not at hlt
    have hu := hrun' i' (p - 1) maxT
    rw [h4, if_pos rfl] at hu
    have hunsat : ∀ a, depthConstraint checks (p - 1) a = false := by
      rcases hu with h | h
      · simp at h
      · split at h
        · simp at h
        · rcases h with ⟨a, -, h⟩ | ⟨h, -⟩
          · simp at h
          · exact h
    have hsat : ∃ a, depthConstraint checks layers.length a = true :=
      (C66_depth checks hrk _).2 ⟨hs, layers, rfl, hL, hprep⟩
    have hmono : ∀ d, ∃ a, depthConstraint checks (layers.length + d) a = true := by
      intro d
      induction d with
      | zero => exact hsat
      | succ d ih => exact C66_depth_monotone checks _ ih
    obtain ⟨a, ha⟩ := hmono (p - 1 - layers.length)
    rw [show layers.length + (p - 1 - layers.length) = p - 1 by omega, hunsat a] at ha
    simp at ha

/-- The claim that the synthesis returns a circuit whenever the solver always answers in time and a
circuit within the parameter range exists. -/
def C67_returns_claim : Prop := ∀ (n : ℕ) (checks : List (Vec n)) (run run' : ℕ → ℕ → ℕ → Outcome (PrepCircuit n)),
  2 ≤ n → rank checks = checks.length →
  (∀ i p t, GateOutcome checks true p (run i p t) ∧ run i p t ≠ .timeout) →
  (∀ i p t, GateOutcome checks true p (run' i p t) ∧ run' i p t ≠ .timeout) →
  (∃ a, gateConstraint checks 1 a = true) →
  ∃ fuel c p b, optimalCircuit run run' 1 10 1 3600 fuel = some (.circuit c p b)

/-- It is false: when one CNOT suffices, the search finds it, then tries zero CNOTs, the child
process raises and the call ends with an `IndexError` (for every fuel the model reports a crash).
The statement holds for every code preparable with at most one CNOT, e.g. `Hx = [[1,1]]`. -/
theorem C67_violated_crash (checks : List (Vec n)) (run run' : ℕ → ℕ → ℕ → Outcome (PrepCircuit n))
    (hrun : ∀ i p t, GateOutcome checks true p (run i p t) ∧ run i p t ≠ .timeout)
    (hrun' : ∀ i p t, GateOutcome checks true p (run' i p t) ∧ run' i p t ≠ .timeout)
    (hsat : ∃ a, gateConstraint checks 1 a = true) (fuel : ℕ) (maxP maxT : ℕ) (hmP : 1 ≤ maxP) (hmT : 1 ≤ maxT) :
    optimalCircuit run run' 1 maxP 1 maxT (fuel + 1) = some .crash := by
  have h1 : ∃ c, run 0 1 1 = .value (some c) := by
    obtain ⟨ho, hnt⟩ := hrun 0 1 1
    rcases ho with h | h
    · exact absurd h hnt
    · rw [if_neg (by norm_num)] at h
      rcases h with ⟨a, c, -, -, h⟩ | ⟨h, -⟩
      · exact ⟨c, h⟩
      · obtain ⟨a, ha⟩ := hsat
        rw [h a] at ha
        simp at ha
  obtain ⟨c, hc⟩ := h1
  have hs : iterativeSearch run 1 maxP 1 maxT 2 2 (fuel + 1) = some (.found c 1) := by
    rw [iterativeSearch, searchLoop, if_pos hmT, if_pos hmP, hc]
  have h0 : run' 0 0 maxT = .crash := by
    obtain ⟨ho, hnt⟩ := hrun' 0 0 maxT
    rcases ho with h | h
    · exact absurd h hnt
    · rwa [if_pos rfl] at h
  rw [optimalCircuit, hs]
  simp only [minimizeLoop, h0]

/-- Oracles as in the hypotheses exist for every code. -/
theorem exists_gate_run (checks : List (Vec n)) :
    ∃ run : ℕ → ℕ → ℕ → Outcome (PrepCircuit n), ∀ i p t, GateOutcome checks true p (run i p t) ∧ run i p t ≠ .timeout := by
  have : ∀ p, ∃ o : Outcome (PrepCircuit n), GateOutcome checks true p o ∧ o ≠ .timeout := by
    intro p
    by_cases hp : p = 0
    · exact ⟨.crash, Or.inr (by rw [if_pos hp]), by simp⟩
    · by_cases hs : ∃ a, gateConstraint checks p a = true
      · obtain ⟨a, ha⟩ := hs
        obtain ⟨cnots, -, -, -, h4⟩ := (C30_gate checks p).2 a ha true
        exact ⟨.value (some _), Or.inr (by rw [if_neg hp]; exact Or.inl ⟨a, _, ha, h4, rfl⟩), by simp⟩
      · push Not at hs
        exact ⟨.value none, Or.inr (by rw [if_neg hp]; exact Or.inr ⟨fun a => by simpa using hs a, rfl⟩), by simp⟩
  choose f hf using this
  exact ⟨fun _ p _ => f p, fun _ p _ => hf p⟩

theorem C67_violated : ¬ C67_returns_claim := by
  intro h
  obtain ⟨run, hrun⟩ := exists_gate_run (n := 2) [![1,1]]
  have hsat : ∃ a, gateConstraint (n := 2) [![1,1]] 1 a = true :=
    (C30_gate _ 1).1.2 ⟨[(0, 1)], rfl, by decide, by decide +kernel⟩
  obtain ⟨fuel, c, p, b, hc⟩ := h 2 [![1,1]] run run le_rfl (by decide +kernel) hrun hrun hsat
  cases fuel with
  | zero => simp [optimalCircuit, iterativeSearch, searchLoop] at hc
  | succ fuel =>
    rw [C67_violated_crash _ run run hrun hrun hsat fuel 10 3600 (by norm_num) (by norm_num)] at hc
    simp at hc

/-- Non-vacuity of `C67_gate_partial`: for two independent checks needing two CNOTs the synthesis
returns a circuit and proves it minimal. -/
example : ∃ (run : ℕ → ℕ → ℕ → Outcome (PrepCircuit 3)), (∀ i p t, GateOutcome [![1,1,1]] true p (run i p t)) ∧
    ∃ fuel c p, optimalCircuit run run 1 10 1 3600 fuel = some (.circuit c p true) := by
  obtain ⟨run, hrun⟩ := exists_gate_run (n := 3) [![1,1,1]]
  refine ⟨run, fun i p t => (hrun i p t).1, 3, ?_⟩
  have h1 : ¬ ∃ a, gateConstraint (n := 3) [![1,1,1]] 1 a = true := by
    rw [(C30_gate _ 1).1]
    rintro ⟨cnots, hl, hne, hz⟩
    obtain ⟨g, rfl⟩ := List.length_eq_one_iff.1 hl
    have : ∀ g : Fin 3 × Fin 3, g.1 ≠ g.2 → ¬ zeroCols (applyCols [g] ([![1,1,1]] : List (Vec 3))) + 1 = 3 := by
      decide +kernel
    exact this g (hne g (by simp)) hz
  have h2 : ∃ a, gateConstraint (n := 3) [![1,1,1]] 2 a = true :=
    (C30_gate _ 2).1.2 ⟨[(0, 1), (0, 2)], rfl, by decide, by decide +kernel⟩
  have e1 : ∀ i t, run i 1 t = .value none := by
    intro i t
    obtain ⟨ho, hnt⟩ := hrun i 1 t
    rcases ho with h | h
    · exact absurd h hnt
    · rw [if_neg (by norm_num)] at h
      rcases h with ⟨a, c, ha, -, -⟩ | ⟨-, h⟩
      · exact absurd ⟨a, ha⟩ h1
      · exact h
  have e2 : ∃ c, run 1 2 1 = .value (some c) := by
    obtain ⟨ho, hnt⟩ := hrun 1 2 1
    rcases ho with h | h
    · exact absurd h hnt
    · rw [if_neg (by norm_num)] at h
      rcases h with ⟨a, c, -, -, h⟩ | ⟨h, -⟩
      · exact ⟨c, h⟩
      · obtain ⟨a, ha⟩ := h2
        rw [h a] at ha
        simp at ha
  obtain ⟨c, hc⟩ := e2
  refine ⟨c, 2, ?_⟩
  have hs2 : scale 1 2 = 2 := by unfold scale; norm_num
  simp [optimalCircuit, iterativeSearch, searchLoop, e1, hs2, hc, minimizeLoop]

end Verif.SP
