import Verif.Spec.PauliFaults
import Mathlib.Tactic.LinearCombination

/-! # Propagating Pauli operators through circuits -/

namespace Verif.Spec

variable {Q C R : Type}

theorem zdot_add (z z' : Q →₀ ZMod 2) (y : Q → ZMod 2) : zdot (z + z') y = zdot z y + zdot z' y := by
  classical
  unfold zdot
  exact Finsupp.sum_add_index' (by simp) (by intros; ring)

theorem zdot_single (q : Q) (b : ZMod 2) (y : Q → ZMod 2) : zdot (Finsupp.single q b) y = b * y q := by
  unfold zdot
  exact Finsupp.sum_single_index (by simp)

theorem zdot_zero (y : Q → ZMod 2) : zdot (0 : Q →₀ ZMod 2) y = 0 := by
  unfold zdot
  exact Finsupp.sum_zero_index

theorem zdot_add_right (z : Q →₀ ZMod 2) (y y' : Q → ZMod 2) : zdot z (fun q => y q + y' q) = zdot z y + zdot z y' := by
  unfold zdot Finsupp.sum
  rw [← Finset.sum_add_distrib]
  exact Finset.sum_congr rfl fun q _ => by ring

theorem zdot_update [DecidableEq Q] (z : Q →₀ ZMod 2) (y : Q → ZMod 2) (q : Q) (v : ZMod 2) :
    zdot z (Function.update y q v) = zdot z y + z q * (v + y q) := by
  induction z using Finsupp.induction_linear with
  | zero => simp [zdot_zero]
  | add f g hf hg => rw [zdot_add, zdot_add, hf, hg, Finsupp.add_apply]; ring
  | single p b =>
    rw [zdot_single, zdot_single, Finsupp.single_apply]
    by_cases h : p = q
    · subst h
      rw [Function.update_self, if_pos rfl]
      have : (y p + y p) = 0 := by generalize y p = a; revert a; decide
      linear_combination -b * this
    · rw [Function.update_of_ne h, if_neg h]; ring

variable [CommRing R]

theorem sgn_add (a b : ZMod 2) : (sgn (a + b) : R) = sgn a * sgn b := by
  have h : ∀ c : ZMod 2, c = 0 ∨ c = 1 := by decide
  rcases h a with rfl | rfl <;> rcases h b with rfl | rfl <;> simp [sgn]
  have : (1 : ZMod 2) + 1 = 0 := rfl
  simp [this]

theorem sgn_zero : (sgn 0 : R) = 1 := by simp [sgn]

theorem applyOp_zero (ψ : State Q R) : applyOp (0 : PauliErr Q) ψ = ψ := by
  funext y
  simp [applyOp, zdot_zero, sgn_zero]

/-- Two operators one after the other. -/
theorem applyOp_add (P P' : PauliErr Q) (ψ : State Q R) :
    applyOp P (applyOp P' ψ) = fun y => (sgn (zdot P'.2 P.1) : R) * applyOp (P + P') ψ y := by
  funext y
  simp only [applyOp, Prod.fst_add, Prod.snd_add]
  rw [zdot_add_right, zdot_add, sgn_add, sgn_add]
  have : (fun q => y q + P.1 q + P'.1 q) = fun q => y q + (P.1 + P'.1) q := by
    funext q; rw [Finsupp.add_apply]; ring
  rw [this]
  ring

theorem applyOp_smul (P : PauliErr Q) (c : R) (ψ : State Q R) :
    applyOp P (fun y => c * ψ y) = fun y => c * applyOp P ψ y := by
  funext y; simp only [applyOp]; ring

/-- A Pauli operator and flips of classical bits. -/
abbrev Frame (Q C : Type) := PauliErr Q × (C → ZMod 2)

variable [DecidableEq Q]

theorem step_smul (s : R) (out : C → ZMod 2) (c : R) (ψ : State Q R) (i : Instr Q C) :
    step s out (fun y => c * ψ y) i = fun y => c * step s out ψ i y := by
  cases i with
  | h q => funext y; simp only [step]; ring
  | cx a b => rfl
  | measure q b => funext y; simp only [step]; split <;> simp

theorem run_smul (s : R) (out : C → ZMod 2) (c : R) (l : List (Instr Q C)) (ψ : State Q R) :
    run s out l (fun y => c * ψ y) = fun y => c * run s out l ψ y := by
  induction l generalizing ψ with
  | nil => rfl
  | cons i l ih =>
    show run s out l (step s out (fun y => c * ψ y) i) = fun y => c * run s out l (step s out ψ i) y
    rw [step_smul, ih]

variable [DecidableEq C]

/-- What an instruction does to a frame: H exchanges X and Z, CNOT copies X forward and Z backward, a measurement of a flipped
qubit flips the bit. -/
noncomputable def frameStep (F : Frame Q C) : Instr Q C → Frame Q C
  | .h q => ((F.1.1 + Finsupp.single q (F.1.1 q + F.1.2 q), F.1.2 + Finsupp.single q (F.1.1 q + F.1.2 q)), F.2)
  | .cx c t => ((F.1.1 + Finsupp.single t (F.1.1 c), F.1.2 + Finsupp.single c (F.1.2 t)), F.2)
  | .measure q c => (F.1, F.2 + Pi.single c (F.1.1 q))

/-- CNOTs act on two different qubits. -/
def Instr.Valid : Instr Q C → Prop
  | .cx c t => c ≠ t
  | _ => True

/-- The bits written. -/
def bitsOf (l : List (Instr Q C)) : List C := l.filterMap fun | .measure _ c => some c | _ => none

theorem two_self (a : ZMod 2) : a + a = 0 := by revert a; decide

theorem frame_step (s : R) (out : C → ZMod 2) (P : PauliErr Q) (ψ : State Q R) (i : Instr Q C) (hv : i.Valid) :
    ∃ b : ZMod 2, step s out (applyOp P ψ) i =
      fun y => (sgn b : R) * applyOp (frameStep (P, 0) i).1 (step s (fun c => out c + (frameStep (P, 0) i).2 c) ψ i) y := by
  obtain ⟨x, z⟩ := P
  cases i with
  | cx c t =>
    have hv : c ≠ t := hv
    refine ⟨0, ?_⟩
    funext y
    simp only [step, applyOp, frameStep, sgn_zero, one_mul]
    rw [zdot_update, zdot_add, zdot_single]
    congr 2
    · have := two_self (y t)
      linear_combination (z t) * this
    · funext q
      simp only [Finsupp.add_apply, Finsupp.single_apply]
      by_cases hq : q = t
      · subst hq
        simp only [Function.update_self, if_true, if_neg (Ne.symm hv)]
        have := two_self (x c)
        linear_combination -this
      · rw [Function.update_of_ne hq, Function.update_of_ne hq, if_neg (Ne.symm hq), add_zero]
  | measure q c =>
    refine ⟨0, ?_⟩
    funext y
    simp only [step, applyOp, frameStep, sgn_zero, one_mul, zero_add, Pi.single_eq_same]
    have : (y q + x q = out c + x q) ↔ y q = out c := by
      constructor
      · exact fun h => add_right_cancel h
      · exact fun h => by rw [h]
    by_cases h : y q = out c
    · simp [h]
    · simp [h]
  | h q =>
    refine ⟨x q * z q, ?_⟩
    funext y
    simp only [step, applyOp, frameStep]
    rw [zdot_update, zdot_update, zdot_add, zdot_single]
    have hy : ∀ v, (fun p => Function.update y q v p + x p) = Function.update (fun p => y p + x p) q (v + x q) := by
      intro v; funext p
      by_cases hp : p = q
      · subst hp; simp
      · simp [Function.update_of_ne hp]
    have hy2 : ∀ v, Function.update (fun p => y p + (x + Finsupp.single q (x q + z q)) p) q v =
        Function.update (fun p => y p + x p) q v := by
      intro v; funext p
      by_cases hp : p = q
      · subst hp; simp
      · simp [Function.update_of_ne hp, Finsupp.single_apply, Ne.symm hp]
    rw [hy, hy, hy2, hy2]
    simp only [Finsupp.add_apply, Finsupp.single_eq_same]
    have hb : ∀ c : ZMod 2, c = 0 ∨ c = 1 := by decide
    have h11 : (1 : ZMod 2) + 1 = 0 := rfl
    simp only [sgn_add]
    generalize (fun p => y p + x p) = y'
    generalize (sgn (zdot z y) : R) = d
    have e1 : (sgn (1 : ZMod 2) : R) = -1 := by simp [sgn]
    rcases hb (x q) with hx | hx <;> rcases hb (z q) with hz | hz <;> rcases hb (y q) with hyq | hyq <;>
      simp only [hx, hz, hyq, add_zero, zero_add, h11, zero_mul, mul_zero, mul_one, one_mul, sgn_zero, e1] <;> ring

omit [DecidableEq C] in
theorem step_congr (s : R) (out out' : C → ZMod 2) (ψ : State Q R) (i : Instr Q C)
    (h : ∀ c ∈ bitsOf [i], out c = out' c) : step s out ψ i = step s out' ψ i := by
  cases i with
  | h q => rfl
  | cx a b => rfl
  | measure q c =>
    have : out c = out' c := h c (by simp [bitsOf])
    funext y; simp only [step, this]

omit [DecidableEq C] in
theorem run_congr (s : R) (out out' : C → ZMod 2) (l : List (Instr Q C)) (ψ : State Q R)
    (h : ∀ c ∈ bitsOf l, out c = out' c) : run s out l ψ = run s out' l ψ := by
  induction l generalizing ψ with
  | nil => rfl
  | cons i l ih =>
    show run s out l (step s out ψ i) = run s out' l (step s out' ψ i)
    have e : bitsOf (i :: l) = bitsOf [i] ++ bitsOf l := by
      simp only [bitsOf]
      rw [show i :: l = [i] ++ l from rfl, List.filterMap_append]
    rw [e] at h
    rw [step_congr s out out' ψ i fun c hc => h c (List.mem_append_left _ hc),
      ih _ fun c hc => h c (List.mem_append_right _ hc)]

/-- The frame of a noisy circuit. -/
noncomputable def noisyFrame (N : List (NoisyInstr Q C)) (F : Frame Q C) : Frame Q C :=
  N.foldl (fun F L => frameStep (F + (L.before, 0)) L.instr + (L.after, 0)) F

theorem frameStep_add (F G : Frame Q C) (i : Instr Q C) : frameStep (F + G) i = frameStep F i + frameStep G i := by
  cases i with
  | h q =>
    simp only [frameStep]
    refine Prod.ext (Prod.ext ?_ ?_) rfl
    · ext p; simp [Finsupp.single_apply]; split <;> ring
    · ext p; simp [Finsupp.single_apply]; split <;> ring
  | cx a b =>
    simp only [frameStep]
    refine Prod.ext (Prod.ext ?_ ?_) rfl
    · ext p; simp [Finsupp.single_apply]; split <;> ring
    · ext p; simp [Finsupp.single_apply]; split <;> ring
  | measure q c =>
    simp only [frameStep]
    refine Prod.ext rfl ?_
    funext p
    simp only [Prod.snd_add, Prod.fst_add, Pi.add_apply, Finsupp.add_apply, Pi.single_apply]
    split <;> ring

/-- Bits not written keep their value. -/
theorem frameStep_bit (F : Frame Q C) (i : Instr Q C) (c : C) (h : c ∉ bitsOf [i]) : (frameStep F i).2 c = F.2 c := by
  cases i with
  | h q => rfl
  | cx a b => rfl
  | measure q d =>
    have : c ≠ d := by rintro rfl; exact h (by simp [bitsOf])
    simp [frameStep, Pi.single_apply, this]

theorem noisyFrame_append (N M : List (NoisyInstr Q C)) (F : Frame Q C) :
    noisyFrame (N ++ M) F = noisyFrame M (noisyFrame N F) := by simp [noisyFrame]

theorem noisyFrame_bit (N : List (NoisyInstr Q C)) (F : Frame Q C) (c : C)
    (h : c ∉ bitsOf (N.map NoisyInstr.instr)) : (noisyFrame N F).2 c = F.2 c := by
  induction N generalizing F with
  | nil => rfl
  | cons L N ih =>
    have e : bitsOf ((L :: N).map NoisyInstr.instr) = bitsOf [L.instr] ++ bitsOf (N.map NoisyInstr.instr) := by
      simp only [bitsOf, List.map_cons]
      rw [← List.filterMap_append]; rfl
    rw [e, List.mem_append, not_or] at h
    show (noisyFrame N _).2 c = _
    rw [ih _ h.2]
    show (frameStep (F + (L.before, 0)) L.instr).2 c + 0 = _
    rw [add_zero, frameStep_bit _ _ _ h.1]
    show F.2 c + 0 = _
    rw [add_zero]

/-- A noisy circuit is the circuit, with some outcomes flipped, followed by a Pauli operator. -/
theorem noisy_run (s : R) (out : C → ZMod 2) (N : List (NoisyInstr Q C)) (ψ : State Q R)
    (hv : ∀ L ∈ N, L.instr.Valid) (hb : (bitsOf (N.map NoisyInstr.instr)).Nodup) :
    ∃ b : ZMod 2, runNoisy s out N ψ = fun y => (sgn b : R) *
      applyOp (noisyFrame N 0).1 (run s (fun c => out c + (noisyFrame N 0).2 c) (N.map NoisyInstr.instr) ψ) y := by
  induction N using List.reverseRecOn with
  | nil =>
    refine ⟨0, ?_⟩
    show ψ = _
    simp only [sgn_zero, one_mul]
    exact (applyOp_zero ψ).symm
  | append_singleton N L ih =>
    have e : bitsOf ((N ++ [L]).map NoisyInstr.instr) = bitsOf (N.map NoisyInstr.instr) ++ bitsOf [L.instr] := by
      simp only [bitsOf, List.map_append, List.filterMap_append, List.map_cons, List.map_nil]
    rw [e] at hb
    have hdis : ∀ c ∈ bitsOf [L.instr], c ∉ bitsOf (N.map NoisyInstr.instr) := fun c hc hc' =>
      (List.disjoint_of_nodup_append hb) hc' hc
    obtain ⟨b₀, h₀⟩ := ih (fun L' h => hv L' (List.mem_append_left _ h)) (List.Nodup.of_append_left hb)
    set F := noisyFrame N 0 with hF
    set φ := run s (fun c => out c + F.2 c) (N.map NoisyInstr.instr) ψ with hφ
    obtain ⟨b₁, h₁⟩ := frame_step s out (L.before + F.1) φ L.instr (hv L (List.mem_append_right _ (by simp)))
    set G := frameStep (L.before + F.1, (0 : C → ZMod 2)) L.instr with hG
    have hrun : runNoisy s out (N ++ [L]) ψ = applyOp L.after (step s out (applyOp L.before (runNoisy s out N ψ)) L.instr) := by
      simp [runNoisy]
    have hframe : noisyFrame (N ++ [L]) 0 = (G.1 + L.after, F.2 + G.2) := by
      rw [noisyFrame_append, ← hF]
      show frameStep (F + (L.before, 0)) L.instr + (L.after, 0) = _
      have : F + (L.before, 0) = (L.before + F.1, 0) + ((0 : PauliErr Q), F.2) := by
        refine Prod.ext ?_ ?_
        · simp [add_comm]
        · simp
      rw [this, frameStep_add, ← hG]
      have h0 : frameStep ((0 : PauliErr Q), F.2) L.instr = (0, F.2) := by
        cases L.instr with
        | h q => simp [frameStep]
        | cx c t => simp [frameStep]
        | measure q c => simp [frameStep]
      rw [h0]
      refine Prod.ext ?_ ?_
      · simp
      · simp [add_comm]
    rw [hframe, List.map_append, List.map_cons, List.map_nil]
    have hsecond : run s (fun c => out c + (F.2 + G.2) c) (N.map NoisyInstr.instr ++ [L.instr]) ψ =
        step s (fun c => out c + G.2 c) φ L.instr := by
      show (N.map NoisyInstr.instr ++ [L.instr]).foldl _ ψ = _
      rw [List.foldl_append]
      show step s _ (run s _ _ ψ) _ = _
      have hn : ∀ c ∈ bitsOf (N.map NoisyInstr.instr), out c + (F.2 + G.2) c = out c + F.2 c := by
        intro c hc
        have : G.2 c = 0 := by
          rw [hG, frameStep_bit _ _ _ fun h => hdis c h hc]; rfl
        simp [this]
      rw [run_congr s _ (fun c => out c + F.2 c) _ ψ hn]
      refine step_congr s _ _ _ _ fun c hc => ?_
      have : F.2 c = 0 := by
        rw [hF, noisyFrame_bit _ _ _ (hdis c hc)]; rfl
      simp [this]
    rw [hrun, h₀, applyOp_smul, step_smul, applyOp_smul, applyOp_add, step_smul, h₁, applyOp_smul, applyOp_smul, hsecond]
    refine ⟨b₀ + zdot F.1.2 L.before.1 + b₁ + zdot G.1.2 L.after.1, ?_⟩
    rw [applyOp_add]
    funext y
    simp only [sgn_add, add_comm G.1 L.after]
    ring

end Verif.Spec
