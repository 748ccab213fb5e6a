import Verif.Lemmas.PrepFull4

/-! # Fully verified preparation circuits tolerate one fault -/

namespace Verif.SP
open Verif Verif.Spec
variable {n : ℕ} {R : Type} [CommRing R]

/-! ### Repeated measurements -/

theorem runNoisy_append (s : R) (out : VC → ZMod 2) (N M : List (NoisyInstr VQ VC)) (ψ : State VQ R) :
    runNoisy s out (N ++ M) ψ = runNoisy s out M (runNoisy s out N ψ) := by simp [runNoisy]

theorem runNoisy_cons (s : R) (out : VC → ZMod 2) (L : NoisyInstr VQ VC) (M : List (NoisyInstr VQ VC)) (ψ : State VQ R) :
    runNoisy s out (L :: M) ψ = runNoisy s out M (applyOp L.after (step s out (applyOp L.before ψ) L.instr)) := rfl

theorem applyOp_null (P : PauliErr VQ) : applyOp P (fun _ => (0 : R)) = fun _ => 0 := by
  funext y; simp [applyOp]

theorem step_null (s : R) (out : VC → ZMod 2) (i : Instr VQ VC) : step s out (fun _ => (0 : R)) i = fun _ => 0 := by
  cases i <;> funext y <;> simp [step]

theorem runNoisy_null (s : R) (out : VC → ZMod 2) (N : List (NoisyInstr VQ VC)) :
    runNoisy s out N (fun _ => (0 : R)) = fun _ => 0 := by
  induction N with
  | nil => rfl
  | cons L N ih => rw [runNoisy_cons, applyOp_null, step_null, applyOp_null, ih]

theorem step_smul_measure (s : R) (out : VC → ZMod 2) (q : VQ) (b : VC) (a : R) (ψ : State VQ R) :
    step s out (fun y => a * ψ y) (.measure q b) = fun y => a * step s out ψ (.measure q b) y := by
  funext y; simp only [step]; split <;> simp

/-- A measured qubit in a definite state. -/
theorem measure_definite (s : R) (out : VC → ZMod 2) (B : List (VQ × ZMod 2)) (χ : State VQ R) (P : PauliErr VQ) (q : VQ) (b : VC)
    (v : ZMod 2) (h : (q, v) ∈ B) :
    step s out (applyOp P (withBits B χ)) (.measure q b) = if v = out b + P.1 q then applyOp P (withBits B χ) else fun _ => 0 := by
  have h0 : ∀ y : VQ → ZMod 2, y q + P.1 q ≠ v → applyOp P (withBits B χ) y = 0 := by
    intro y hy
    simp only [applyOp, withBits]
    rw [if_neg fun hall => hy (hall _ h), mul_zero]
  split
  · rename_i hv
    funext y
    simp only [step]
    split
    · rfl
    · rename_i hy
      rw [h0 y]
      rw [hv]
      intro e
      exact hy (add_right_cancel e)
  · rename_i hv
    funext y
    simp only [step]
    split
    · rename_i hy
      rw [h0 y]
      rw [hy]
      exact fun e => hv e.symm
    · rfl

/-- Measurements of qubits in definite states, with faults. -/
theorem again_noisy (s : R) (out : VC → ZMod 2) (B : List (VQ × ZMod 2)) (χ : State VQ R) (N : List (NoisyInstr VQ VC))
    (hm : ∀ L ∈ N, ∃ q b v, L.instr = .measure q b ∧ (q, v) ∈ B) (P : PauliErr VQ) (b : ZMod 2) :
    runNoisy s out N (fun y => (sgn b : R) * applyOp P (withBits B χ) y) = (fun _ => 0) ∨
    ∃ b', runNoisy s out N (fun y => (sgn b : R) * applyOp P (withBits B χ) y) =
      fun y => (sgn b' : R) * applyOp ((N.map fun L => L.after + L.before).sum + P) (withBits B χ) y := by
  induction N generalizing P b with
  | nil => exact .inr ⟨b, by simp [runNoisy]⟩
  | cons L N ih =>
    obtain ⟨q, c, v, hi, hv⟩ := hm L (by simp)
    rw [runNoisy_cons, hi, applyOp_smul, applyOp_add, step_smul_measure, step_smul_measure, measure_definite s out B χ _ q c v hv]
    split
    · rw [applyOp_smul, applyOp_smul, applyOp_add]
      have e : (fun y => (sgn b : R) * ((sgn (zdot P.2 L.before.1) : R) * ((sgn (zdot (L.before + P).2 L.after.1) : R) *
          applyOp (L.after + (L.before + P)) (withBits B χ) y))) =
          fun y => (sgn (b + zdot P.2 L.before.1 + zdot (L.before + P).2 L.after.1) : R) *
            applyOp (L.after + (L.before + P)) (withBits B χ) y := by
        funext y; rw [sgn_add, sgn_add]; ring
      rw [e]
      have hsum : ((L :: N).map fun L => L.after + L.before).sum + P =
          (N.map fun L => L.after + L.before).sum + (L.after + (L.before + P)) := by
        rw [List.map_cons, List.sum_cons]; abel
      rw [hsum]
      exact ih (fun L' hL' => hm L' (by simp [hL'])) _ _
    · left
      have e : (fun y : VQ → ZMod 2 => (sgn b : R) * ((sgn (zdot P.2 L.before.1) : R) * (fun _ => (0 : R)) y)) = fun _ => 0 := by
        funext y; simp
      rw [e, applyOp_null, runNoisy_null]

theorem faultCount_cons (L : NoisyInstr VQ VC) (N : List (NoisyInstr VQ VC)) :
    ∃ a b : ℕ, faultCount (L :: N) = a + b + faultCount N ∧ (a = 0 ↔ L.before = 0) ∧ (b = 0 ↔ L.after = 0) := by
  unfold faultCount
  rw [List.map_cons, List.sum_cons]
  refine ⟨_, _, rfl, ?_, ?_⟩ <;> split <;> simp_all

theorem faultCount_zero (N : List (NoisyInstr VQ VC)) (h : faultCount N = 0) : N = (N.map NoisyInstr.instr).map clean := by
  induction N with
  | nil => rfl
  | cons L N ih =>
    obtain ⟨a, b, e, ha, hb⟩ := faultCount_cons L N
    rw [List.map_cons, List.map_cons, ← ih (by omega)]
    have h1 := ha.1 (by omega)
    have h2 := hb.1 (by omega)
    obtain ⟨p, i, q⟩ := L
    simp only at h1 h2
    subst h1; subst h2
    rfl

/-- One fault beside measurements acts on one qubit. -/
theorem again_one (N : List (NoisyInstr VQ VC)) (hm : ∀ L ∈ N, ∃ q b, L.instr = .measure q b) (hf : AllFaults N) (hc : faultCount N ≤ 1) :
    ∃ q, ∀ p, PauliErr.ActsOn ((N.map fun L => L.after + L.before).sum) p → p = q := by
  have hone : ∀ L ∈ N, ∀ P, FaultAt L.instr P → ∃ q, ∀ p, P.ActsOn p → p = q := by
    intro L hL P hP
    rcases hP with h | h
    · exact h
    · obtain ⟨q, b, hi⟩ := hm L hL
      rw [hi] at h
      exact ⟨q, fun p hp => by simpa [Instr.qubits] using h p hp⟩
  induction N with
  | nil => exact ⟨.data 0, fun p hp => by simp [PauliErr.ActsOn] at hp⟩
  | cons L N ih =>
    obtain ⟨a, b, e, ha, hb⟩ := faultCount_cons L N
    rw [List.map_cons, List.sum_cons]
    by_cases h0 : L.before = 0 ∧ L.after = 0
    · rw [h0.1, h0.2, add_zero, zero_add]
      exact ih (fun L' hL' => hm L' (by simp [hL'])) (fun L' hL' => hf L' (by simp [hL'])) (by omega)
        fun L' hL' => hone L' (by simp [hL'])
    · rw [← ha, ← hb] at h0
      have hN : faultCount N = 0 := by omega
      have hz : (N.map fun L => L.after + L.before).sum = 0 := by
        rw [faultCount_zero N hN, List.map_map]
        refine List.sum_eq_zero fun x hx => ?_
        obtain ⟨i, -, rfl⟩ := List.mem_map.1 hx
        simp [clean]
      rw [hz, add_zero]
      obtain ⟨f1, f2⟩ := hf L (by simp)
      by_cases hb0 : a = 0
      · rw [ha.1 hb0, add_zero]
        exact hone L (by simp) _ f2
      · rw [hb.1 (by omega), zero_add]
        exact hone L (by simp) _ f1

theorem wt_tp_one (k : Bool) (P : PauliErr VQ) (q : VQ) (h : ∀ p, P.ActsOn p → p = q) : wt (tp n k (P, 0)) ≤ 1 :=
  wt_le_one_of _ q fun i hi => h _ (by cases k <;> [exact .inr hi; exact .inl hi])

/-! ### Correctable errors -/

variable (z : Bool) (c : PrepCircuit n) (t : ℕ) (m1 m2 : List (Vec n)) (S T : List (Vec n))
  (hnd : c.hadamards.Nodup) (hne : ∀ g ∈ c.cnots, g.1 ≠ g.2) (hS : Prepares z c S)
  (h1 : ∀ m ∈ m1, ∀ r ∈ S, dot r m = 0) (h2 : ∀ m ∈ m2, m ∈ rowSpan S) (W : Bool → ℤ)

/-- An operator equals one with few errors of both kinds up to stabilizers of the state. -/
def Correctable (F : PauliErr VQ) : Prop :=
  ∃ fz fy : Vec n, tp n z (F, 0) + fz ∈ rowSpan S ∧ (wt fz : ℤ) ≤ W z ∧
    (∀ r ∈ S, dot r (tp n (!z) (F, 0) + fy) = 0) ∧ (wt fy : ℤ) ≤ W (!z)

theorem tp_stabOp_other (v : Vec n) : tp n z (stabOp z (supp v), 0) = 0 := by
  funext i
  cases z <;> simp [tp, stabOp]

theorem tp_add (k : Bool) (P P' : PauliErr VQ) : tp n k (P + P', 0) = tp n k (P, 0) + tp n k (P', 0) := by
  funext i; cases k <;> rfl

include hnd hne hS in
theorem correctable_state (s : R) (hs : 2 * s * s = 1) (B : List (VQ × ZMod 2)) (hB : ∀ p ∈ B, ∀ i, p.1 ≠ .data i)
    (F : PauliErr VQ) (h : Correctable z S W F) :
    ∃ (b : ZMod 2) (e : PauliErr VQ), (wt (tp n true (e, 0)) : ℤ) ≤ W true ∧ (wt (tp n false (e, 0)) : ℤ) ≤ W false ∧
      applyOp F (withBits B (prepared s c)) = fun y => (sgn b : R) * applyOp e (withBits B (prepared s c)) y := by
  obtain ⟨fz, fy, ha, hwz, hd, hwy⟩ := h
  set Φ := withBits B (prepared s c) with hΦ
  set A : PauliErr VQ := stabOp (!z) (supp (tp n z (F, 0) + fz)) with hA
  set D : PauliErr VQ := stabOp z (supp (tp n (!z) (F, 0) + fy)) with hD
  have hBs : ∀ (v : Vec n), ∀ p ∈ B, p.1 ∉ supp v := fun v p hp => not_mem_supp fun i => hB p hp i
  have hAΦ : applyOp A Φ = Φ := by
    have hst := stabOp_proj (s * s) (!z) (supp (tp n z (F, 0) + fz)) 0 (prepared s c) B (hBs _)
    rw [proj_stab z c S hnd hne hS s hs _ ha] at hst
    rw [hA, hΦ, hst]; funext y; rw [sgn_zero, one_mul]
  have hDΦ : applyOp D Φ = Φ := by
    have hst := stabOp_proj (s * s) z (supp (tp n (!z) (F, 0) + fy)) 0 (prepared s c) B (hBs _)
    rw [proj_measured z c S hnd hne hS s hs _ hd, if_pos rfl] at hst
    rw [hD, hΦ, hst]; funext y; rw [sgn_zero, one_mul]
  obtain ⟨b1, e1⟩ := applyOp_split F A Φ
  obtain ⟨b2, e2⟩ := applyOp_split (F + A) D Φ
  rw [hAΦ] at e1
  rw [hDΦ] at e2
  have hez : tp n z (F + A + D, 0) = fz := by
    rw [tp_add, tp_add, hA, tp_stabOp, hD, tp_stabOp_other, add_zero, ← add_assoc, add_self_eq_zero', zero_add]
  have hey : tp n (!z) (F + A + D, 0) = fy := by
    have hD' : tp n (!z) (D, 0) = tp n (!z) (F, 0) + fy := by
      have := tp_stabOp (!z) (tp n (!z) (F, 0) + fy)
      rw [Bool.not_not] at this
      exact this
    rw [tp_add, tp_add, hA, tp_stabOp_other, add_zero, hD', ← add_assoc, add_self_eq_zero', zero_add]
  refine ⟨b1 + b2, F + A + D, ?_, ?_, ?_⟩
  · cases z
    · rw [Bool.not_false] at hey hwy
      rw [hey]; exact hwy
    · rw [hez]; exact hwz
  · cases z
    · rw [hez]; exact hwz
    · rw [Bool.not_true] at hey hwy
      rw [hey]; exact hwy
  · funext y
    have g1 := congrFun e1 y
    have g2 := congrFun e2 y
    rw [sgn_add, g2, g1]
    linear_combination (-(sgn b1 * sgn b1 : R) * applyOp F Φ y) * sgn_sq (R := R) b2 - applyOp F Φ y * sgn_sq (R := R) b1

/-- Few errors up to the measured stabilizers. -/
theorem near_of_not_dangerous {u : Vec n} {w : ℤ} (h : ¬ Dangerous T w u) : ∃ f, u + f ∈ rowSpan T ∧ (wt f : ℤ) ≤ w := by
  unfold Dangerous at h
  push Not at h
  exact h

theorem near_self {u : Vec n} {w : ℤ} (hw : 1 ≤ w) (h : wt u ≤ 1) : ∃ f, u + f ∈ rowSpan T ∧ (wt f : ℤ) ≤ w :=
  ⟨u, by rw [add_self_eq_zero']; exact Submodule.zero_mem _, le_trans (by exact_mod_cast h) hw⟩

include h2 in
theorem accepted_correctable (hT : ∀ r ∈ T, ∀ a ∈ S, dot a r = 0) (hw : ∀ k, 1 ≤ W k) (ht : 1 ≤ t) (hf : FlagsOk t m2)
    (ha : ∀ k q, k ≤ c.cnots.length → Dangerous S (W z) (faultEffect z c.cnots k q) →
      ∃ m ∈ m1, dot m (faultEffect z c.cnots k q) = 1)
    (hb : ∀ k q, k ≤ c.cnots.length → Dangerous T (W (!z)) (faultEffect (!z) c.cnots k q) →
      ∃ m ∈ m2, dot m (faultEffect (!z) c.cnots k q) = 1)
    (hc : ∀ m ∈ m1, ∀ e, isHookError m e → Dangerous T (W (!z)) e → ∃ m' ∈ m2, dot m' e = 1)
    (F : Frame VQ VC) (hF : FullRes z c t m1 m2 F) (hbits : ∀ b ∈ bitsOf (bothRounds z t m1 m2), F.2 b = 0)
    (hflag : ∀ p ∈ m2.zipIdx, ∀ j, F.2 (rfbit (!z) p.2 j) = 0) : Correctable z S W F.1 := by
  have hb1 : ∀ p ∈ m1.zipIdx, F.2 (rbit z p.2) = 0 := by
    intro p hp
    refine hbits _ ((mem_bits_both z t m1 m2 hf _).2 ⟨measK z false t p, List.mem_append_left _ (List.mem_map_of_mem hp), .inl ?_⟩)
    exact (measK_bit _ _ _ _).symm
  have hb2 : ∀ p ∈ m2.zipIdx, F.2 (rbit (!z) p.2) = 0 := by
    intro p hp
    refine hbits _ ((mem_bits_both z t m1 m2 hf _).2 ⟨measK (!z) true t p, List.mem_append_right _ (List.mem_map_of_mem hp), .inl ?_⟩)
    exact (measK_bit _ _ _ _).symm
  have hidx : ∀ (ms : List (Vec n)) (m : Vec n), m ∈ ms → ∃ p ∈ ms.zipIdx, p.1 = m := by
    intro ms m hm
    obtain ⟨i, hi, rfl⟩ := List.getElem_of_mem hm
    obtain ⟨p, hp, -, e⟩ := exists_zipIdx hi
    exact ⟨p, hp, e⟩
  have htp : ∀ k, tp n k (F.1, (0 : VC → ZMod 2)) = tp n k F := fun k => tp_fst k rfl
  -- the two kinds separately
  suffices h : (∃ f, tp n z F + f ∈ rowSpan S ∧ (wt f : ℤ) ≤ W z) ∧
      ∃ f, tp n (!z) F + f ∈ rowSpan T ∧ (wt f : ℤ) ≤ W (!z) by
    obtain ⟨⟨fz, hz1, hz2⟩, fy, hy1, hy2⟩ := h
    refine ⟨fz, fy, by rw [htp]; exact hz1, hz2, ?_, hy2⟩
    intro r hr
    rw [htp, dot_comm]
    exact dot_eq_zero_of_mem_rowSpan (fun b hb => by rw [dot_comm]; exact hT b hb r hr) hy1
  have hund1 : (∀ p ∈ m1.zipIdx, F.2 (rbit z p.2) = dot p.1 (tp n z F)) → ∀ m ∈ m1, dot m (tp n z F) = 0 := by
    intro h m hm
    obtain ⟨p, hp, rfl⟩ := hidx m1 m hm
    rw [← h p hp]; exact hb1 p hp
  have hund2 : (∀ p ∈ m2.zipIdx, F.2 (rbit (!z) p.2) = dot p.1 (tp n (!z) F)) → ∀ m ∈ m2, dot m (tp n (!z) F) = 0 := by
    intro h m hm
    obtain ⟨p, hp, rfl⟩ := hidx m2 m hm
    rw [← h p hp]; exact hb2 p hp
  have hone : (1 : ZMod 2) ≠ 0 := by decide
  have hzero : ∀ (U : List (Vec n)) (k : Bool), ∃ f, (0 : Vec n) + f ∈ rowSpan U ∧ (wt f : ℤ) ≤ W k :=
    fun U k => near_self U (hw k) wt_zero_le
  cases hF with
  | prep hz hy b1 b2 =>
    constructor
    · rcases hz with h0 | ⟨k, q, hk, e⟩
      · rw [h0]; exact hzero S z
      · apply near_of_not_dangerous
        intro hd
        rw [e] at hd
        obtain ⟨m, hm, h⟩ := ha k q hk hd
        rw [← e, hund1 b1 m hm] at h
        exact hone h.symm
    · rcases hy with h0 | ⟨k, q, hk, e⟩
      · rw [h0]; exact hzero T _
      · apply near_of_not_dangerous
        intro hd
        rw [e] at hd
        obtain ⟨m, hm, h⟩ := hb k q hk hd
        rw [← e, hund2 b2 m hm] at h
        exact hone h.symm
  | first hz hy b2 =>
    refine ⟨near_self S (hw z) hz, ?_⟩
    rcases hy with hy | ⟨m, hm, hh⟩
    · rw [htp] at hy; exact near_self T (hw _) hy
    · rw [htp] at hh
      apply near_of_not_dangerous
      intro hd
      obtain ⟨m', hm', h⟩ := hc m hm _ hh hd
      rw [hund2 b2 m' hm'] at h
      exact hone h.symm
  | second h =>
    obtain ⟨hy, hz⟩ := second_small z t m2 hf ht F h hflag
    refine ⟨?_, near_self T (hw _) hy⟩
    rcases hz with hz | ⟨m, hm, hz⟩
    · exact near_self S (hw z) hz
    · refine ⟨tp n z F + m, ?_, le_trans (by exact_mod_cast hz) (hw z)⟩
      rw [← add_assoc, add_self_eq_zero', zero_add]
      exact h2 m hm

theorem start_not_data (p : VQ × ZMod 2) (hp : p ∈ (bothMeas z t m1 m2).flatMap Meas.start) (i : ℕ) : p.1 ≠ VQ.data i := by
  obtain ⟨g, hg, hp⟩ := List.mem_flatMap.1 hp
  have ho : p.1 ∈ g.own := by
    simp only [Meas.start, List.mem_cons, List.mem_map] at hp
    rcases hp with rfl | ⟨f, hf, rfl⟩
    · simp [Meas.own]
    · simp [Meas.own, hf]
  rw [bothMeas_eq] at hg
  split at hg
  · exact own_not_data hg ho i
  · exact own_not_data hg ho i

theorem again_start {i : Instr VQ VC} (hi : i ∈ againZ z m2.length) :
    ∃ q b, i = .measure q b ∧ (q, (0 : ZMod 2)) ∈ (bothMeas z t m1 m2).flatMap Meas.start := by
  cases z
  · simp only [againZ, Bool.false_eq_true, if_false, List.mem_map, List.mem_range] at hi
    obtain ⟨k, hk, rfl⟩ := hi
    obtain ⟨p, hp, rfl, -⟩ := exists_zipIdx hk
    refine ⟨_, _, rfl, List.mem_flatMap.2 ⟨measK true true t p, List.mem_append_right _ (List.mem_map_of_mem hp), ?_⟩⟩
    rw [Meas.start, measK_anc]; simp [ranc]
  · simp [againZ] at hi

include hnd hne hS h1 h2 in
theorem run_full_zero (s : R) (hs : 2 * s * s = 1) (hf : FlagsOk t m2) (l : List (Instr VQ VC))
    (hl : l = prepInstrs c ++ (bothRounds z t m1 m2 ++ againZ z m2.length)) :
    run s (fun _ => 0) l (zeros (usedQubits (fun i : Fin n => VQ.data i) l)) =
      withBits ((bothMeas z t m1 m2).flatMap Meas.start) (prepared s c) := by
  rw [zeros_used z c t m1 m2 hf l hl, hl, ← List.append_assoc, run_append, run_full z c t m1 m2 S hnd hne hS h1 h2 s hs _ hf,
    if_pos (by simp)]
  have := measure_again s (fun _ : VC => (0 : ZMod 2)) (if z then [] else (List.range m2.length).map fun i => (VQ.zanc i, VC.zc i))
    ((bothMeas z t m1 m2).flatMap Meas.start) (prepared s c) (by
      intro p hp
      cases z
      · simp only [Bool.false_eq_true, if_false] at hp
        obtain ⟨i, hi, rfl⟩ := List.mem_map.1 hp
        obtain ⟨q, b, h, hm⟩ := again_start false t m1 m2 (i := .measure (.zanc i) (.zc i)) (by
          simp only [againZ, Bool.false_eq_true, if_false]
          exact List.mem_map_of_mem hi)
        cases h
        exact hm
      · simp at hp)
  cases z
  · simp only [Bool.false_eq_true, if_false, List.map_map] at this
    exact this
  · rfl

include hnd hne hS h1 h2 in
theorem full_tolerates (s : R) (hs : 2 * s * s = 1) (hT : ∀ r ∈ T, ∀ a ∈ S, dot a r = 0) (hw : ∀ k, 1 ≤ W k) (ht : 1 ≤ t)
    (hf : FlagsOk t m2)
    (ha : ∀ k q, k ≤ c.cnots.length → Dangerous S (W z) (faultEffect z c.cnots k q) →
      ∃ m ∈ m1, dot m (faultEffect z c.cnots k q) = 1)
    (hb : ∀ k q, k ≤ c.cnots.length → Dangerous T (W (!z)) (faultEffect (!z) c.cnots k q) →
      ∃ m ∈ m2, dot m (faultEffect (!z) c.cnots k q) = 1)
    (hc : ∀ m ∈ m1, ∀ e, isHookError m e → Dangerous T (W (!z)) e → ∃ m' ∈ m2, dot m' e = 1)
    (l : List (Instr VQ VC)) (hl : l = prepInstrs c ++ (bothRounds z t m1 m2 ++ againZ z m2.length)) :
    ToleratesOneFaultBoth s (fun i : Fin n => VQ.data i) (W true) (W false) l (usedQubits (fun i : Fin n => VQ.data i) l) := by
  intro N hN hfa hcnt
  rw [run_full_zero z c t m1 m2 S hnd hne hS h1 h2 s hs hf l hl, zeros_used z c t m1 m2 hf l hl]
  set B := (bothMeas z t m1 m2).flatMap Meas.start with hB
  rw [hl, ← List.append_assoc] at hN
  obtain ⟨N₀, Na, rfl, hN0, hNa⟩ := List.map_eq_append_iff.1 hN
  rw [faultCount_append] at hcnt
  have hfa0 : AllFaults N₀ := fun L hL => hfa L (by simp [hL])
  have hfaa : AllFaults Na := fun L hL => hfa L (by simp [hL])
  obtain ⟨b, hrun⟩ := noisy_run s (fun _ => 0) N₀ (withBits B (base n R))
    (by
      intro L hL
      refine valid_both z c t m1 m2 hne hf L.instr ?_
      rw [← hN0]; exact List.mem_map_of_mem hL)
    (by rw [hN0]; exact bits_both_nodup z c t m1 m2 hf)
  rw [hN0, hB, run_full z c t m1 m2 S hnd hne hS h1 h2 s hs _ hf, ← hB] at hrun
  have hF := fullRes_frame z c t m1 m2 hne hf N₀ hN0 hfa0 (by omega)
  have hbit0 : ∀ b, b ∉ bitsOf (bothRounds z t m1 m2) → (noisyFrame N₀ 0).2 b = 0 := by
    intro b hb
    rw [noisyFrame_bit N₀ 0 b (by rw [hN0, bitsOf_append, prepInstrs_bits, List.nil_append]; exact hb)]
    rfl
  set F := noisyFrame N₀ 0 with hFdef
  rw [runNoisy_append, hrun]
  by_cases hbits : ∀ b ∈ bitsOf (bothRounds z t m1 m2), (fun c => (fun _ => (0 : ZMod 2)) c + F.2 c) b = 0
  swap
  · left
    rw [if_neg hbits, applyOp_null]
    simp only [mul_zero]
    exact runNoisy_null _ _ _
  rw [if_pos hbits]
  simp only [zero_add] at hbits
  have hmeas : ∀ L ∈ Na, ∃ q b v, L.instr = .measure q b ∧ (q, v) ∈ B := by
    intro L hL
    obtain ⟨q, b, e, hm⟩ := again_start z t m1 m2 (i := L.instr) (by rw [← hNa]; exact List.mem_map_of_mem hL)
    exact ⟨q, b, 0, e, hm⟩
  have hcorr : Correctable z S W ((Na.map fun L => L.after + L.before).sum + F.1) := by
    by_cases h0 : faultCount N₀ = 0
    · -- the fault is beside a repeated measurement
      have hF0 : F = 0 := by
        rw [hFdef, faultCount_zero N₀ h0, noisyFrame_clean, prop_zero]
      rw [hF0]
      obtain ⟨q, hq⟩ := again_one Na (fun L hL => by obtain ⟨q, b, v, e, -⟩ := hmeas L hL; exact ⟨q, b, e⟩) hfaa (by omega)
      have e0 : (Na.map fun L => L.after + L.before).sum + (0 : Frame VQ VC).1 = (Na.map fun L => L.after + L.before).sum :=
        add_zero _
      rw [e0]
      obtain ⟨fz, g1, g2⟩ := near_self S (hw z) (wt_tp_one (n := n) z _ q hq)
      refine ⟨fz, tp n (!z) (_, 0), g1, g2, fun r _ => ?_, le_trans (by exact_mod_cast wt_tp_one (n := n) (!z) _ q hq) (hw _)⟩
      rw [add_self_eq_zero', dot_zero_right]
    · have hz : (Na.map fun L => L.after + L.before).sum = 0 := by
        rw [faultCount_zero Na (by omega), List.map_map]
        refine List.sum_eq_zero fun x hx => ?_
        obtain ⟨i, -, rfl⟩ := List.mem_map.1 hx
        simp [clean]
      rw [hz, zero_add]
      refine accepted_correctable z c t m1 m2 S T h2 W hT hw ht hf ha hb hc F hF hbits ?_
      intro p hp j
      by_cases hm : rfbit (!z) p.2 j ∈ bitsOf (bothRounds z t m1 m2)
      · exact hbits _ hm
      · exact hbit0 _ hm
  rcases again_noisy s (fun _ => 0) B (prepared s c) Na hmeas F.1 b with h | ⟨b', h⟩
  · exact .inl h
  · right
    obtain ⟨b2, e, w1, w2, he⟩ := correctable_state z c S hnd hne hS W s hs B (start_not_data z t m1 m2) _ hcorr
    refine ⟨b' + b2, e, ?_, ?_, ?_⟩
    · have := card_tp (n := n) true e
      rw [if_pos rfl] at this
      rw [this]; exact w1
    · have := card_tp (n := n) false e
      simp only [Bool.false_eq_true, if_false] at this
      rw [this]; exact w2
    · rw [h, he]
      funext y
      rw [sgn_add, mul_assoc]

end Verif.SP
