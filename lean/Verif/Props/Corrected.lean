import Verif.Spec.Corrected
import Verif.Props.ManyFaults2
import Verif.Props.DecodeHalf

/-!
# C137: verified preparation followed by decoding
-/

namespace Verif.SP
open Verif Verif.Spec
variable {n : ℕ} {R : Type} [CommRing R]

/-! ## Operators on the data qubits -/

section
variable {Q : Type} [DecidableEq Q] (data : Fin n → Q) (hinj : Function.Injective data)

/-- The errors of a kind on the data qubits. -/
def errorOn (x : Bool) (e : PauliErr Q) : Vec n := fun i => (if x then e.1 else e.2) (data i)

theorem sum_single_data_apply (v : Vec n) (i : Fin n) (hinj : Function.Injective data) :
    (∑ j, Finsupp.single (data j) (v j)) (data i) = v i := by
  rw [Finsupp.finset_sum_apply]
  rw [Finset.sum_eq_single i]
  · simp
  · intro j _ hj
    rw [Finsupp.single_apply, if_neg fun h => hj (hinj h)]
  · simp

theorem zdot_data (v : Vec n) (y : Q → ZMod 2) : zdot (∑ j, Finsupp.single (data j) (v j)) y = dot v fun i => y (data i) := by
  have : ∀ s : Finset (Fin n), zdot (∑ j ∈ s, Finsupp.single (data j) (v j)) y = ∑ j ∈ s, v j * y (data j) := by
    intro s
    induction s using Finset.cons_induction with
    | empty => simp [zdot_zero]
    | cons a s ha ih => rw [Finset.sum_cons, Finset.sum_cons, zdot_add, zdot_single, ih]
  exact this _

theorem zdot_data_right (z : Q →₀ ZMod 2) (v : Vec n) :
    zdot z (fun q => (∑ j, Finsupp.single (data j) (v j) : Q →₀ ZMod 2) q) = dot v fun i => z (data i) := by
  have hs : ∀ (q : Q) (b : ZMod 2), zdot z (fun p => (Finsupp.single q b : Q →₀ ZMod 2) p) = b * z q := by
    intro q b
    induction z using Finsupp.induction_linear with
    | zero => simp [zdot_zero]
    | add f g hf hg => rw [zdot_add, hf, hg, Finsupp.add_apply]; ring
    | single p c =>
      rw [zdot_single]
      by_cases h : p = q
      · subst h; simp; ring
      · rw [Finsupp.single_apply, if_neg fun h' => h h'.symm, Finsupp.single_apply, if_neg h]; ring
  have : ∀ s : Finset (Fin n), zdot z (fun q => (∑ j ∈ s, Finsupp.single (data j) (v j) : Q →₀ ZMod 2) q) = ∑ j ∈ s, v j * z (data j) := by
    intro s
    induction s using Finset.cons_induction with
    | empty =>
      simp only [Finset.sum_empty, Finsupp.coe_zero, Pi.zero_apply]
      unfold zdot Finsupp.sum
      simp
    | cons a s ha ih =>
      simp only [Finset.sum_cons, Finsupp.add_apply]
      rw [zdot_add_right, hs, ih]
  exact this _

/-- A check and an error commute up to the sign of the check's outcome. -/
theorem applyOp_comm (x : Bool) (g : Vec n) (e : PauliErr Q) (ψ : State Q R) :
    applyOp (pauliOn (!x) data g) (applyOp e ψ) = fun y => (sgn (dot g (errorOn data x e)) : R) * applyOp e (applyOp (pauliOn (!x) data g) ψ) y := by
  rw [applyOp_add, applyOp_add, add_comm e]
  funext y
  have key : (sgn (zdot e.2 (pauliOn (!x) data g).1) : R) = sgn (dot g (errorOn data x e)) * sgn (zdot (pauliOn (!x) data g).2 e.1) := by
    rw [← sgn_add]
    congr 1
    cases x
    · simp only [pauliOn, Bool.not_false, if_true, errorOn, Bool.false_eq_true, if_false, zdot_zero, add_zero]
      exact zdot_data_right data e.2 g
    · simp only [pauliOn, Bool.not_true, Bool.false_eq_true, if_false, errorOn, if_true]
      rw [zdot_data]
      have h0 : zdot e.2 (fun q => (0 : Q →₀ ZMod 2) q) = 0 := by
        unfold zdot Finsupp.sum
        simp
      rw [h0]
      exact (CharTwo.add_self_eq_zero _).symm
  rw [key]
  ring

theorem pauliOn_add (x : Bool) (u v : Vec n) : pauliOn x data (u + v) = pauliOn x data u + pauliOn x data v := by
  cases x <;> simp [pauliOn, Finsupp.single_add, Finset.sum_add_distrib]

theorem errorOn_add (x : Bool) (e e' : PauliErr Q) : errorOn data x (e + e') = errorOn data x e + errorOn data x e' := by
  funext i; cases x <;> rfl

include hinj in
theorem errorOn_pauliOn (x : Bool) (v : Vec n) : errorOn data x (pauliOn x data v) = v := by
  funext i
  cases x
  · simp only [errorOn, pauliOn, Bool.false_eq_true, if_false]
    exact sum_single_data_apply data v i hinj
  · simp only [errorOn, pauliOn, if_true]
    exact sum_single_data_apply data v i hinj

theorem pauli_self (e : PauliErr Q) : e + e = 0 := by
  ext q <;> exact CharTwo.add_self_eq_zero _

theorem syndrome_unique (s : R) (hs : 2 * s * s = 1) (x : Bool) (H : List (Vec n)) (φ : State Q R) (σ σ' : List (ZMod 2))
    (h : HasSyndrome x data H σ φ) (h' : HasSyndrome x data H σ' φ) : φ = (fun _ => 0) ∨ σ = σ' := by
  unfold HasSyndrome at h h'
  induction h generalizing σ' with
  | nil => cases h'; exact .inr rfl
  | @cons g b H σ hg _ ih =>
    cases h' with
    | @cons _ b' _ σ' hg' ht =>
      rcases ih σ' ht with h0 | rfl
      · exact .inl h0
      · by_cases hb : b = b'
        · exact .inr (by rw [hb])
        · left
          have hsum : ∀ y, (sgn b : R) * φ y = sgn b' * φ y := fun y => congrFun (hg.symm.trans hg') y
          have hb' : (sgn b : R) = 1 ∧ (sgn b' : R) = -1 ∨ (sgn b : R) = -1 ∧ (sgn b' : R) = 1 := by
            rcases zmod2_cases b with rfl | rfl <;> rcases zmod2_cases b' with rfl | rfl
            · exact absurd rfl hb
            · exact .inl ⟨by simp [sgn], by simp [sgn]⟩
            · exact .inr ⟨by simp [sgn], by simp [sgn]⟩
            · exact absurd rfl hb
          funext y
          have h1 := hsum y
          rcases hb' with ⟨e1, e2⟩ | ⟨e1, e2⟩ <;> rw [e1, e2] at h1
          · linear_combination (s * s) * h1 - (φ y) * hs
          · linear_combination (-(s * s)) * h1 - (φ y) * hs

include hinj in
/-- Tolerance of faults and a decoder that corrects the remaining errors. -/
theorem corrected_of_tolerates {C : Type} (s : R) (hs : 2 * s * s = 1) (x : Bool) (t d : ℕ) (w : ℕ → ℤ) (S H : List (Vec n))
    (decode : List (ZMod 2) → Option (Vec n)) (est : Vec n → Vec n) (l : List (Instr Q C)) (qs : List Q)
    (hX : ∀ v ∈ rowSpan S, applyOp (pauliOn x data v) (run s (fun _ => 0) l (zeros qs)) = run s (fun _ => 0) l (zeros qs))
    (hZ : ∀ g ∈ H, applyOp (pauliOn (!x) data g) (run s (fun _ => 0) l (zeros qs)) = run s (fun _ => 0) l (zeros qs))
    (hdec : ∀ e, decode (mulVec H e) = some (est e)) (hest : DecodeHalf.CorrectsBelowHalf S d est)
    (hw : ∀ f ≤ t, 2 * w f < d) (hT : ToleratesFaults s x data t w l qs) : PreparesCorrected s x data t H decode l qs := by
  intro N hN hf hc
  rcases hT N hN hf hc with h0 | ⟨b, e, hwt, hrun⟩
  · exact .inl h0
  set ψ := run s (fun _ => 0) l (zeros qs) with hψ
  set φ := runNoisy s (fun _ => 0) N (zeros qs) with hφ
  have hsyn : HasSyndrome x data H (mulVec H (errorOn data x e)) φ := by
    unfold HasSyndrome mulVec
    rw [List.forall₂_map_right_iff, List.forall₂_same]
    intro g hg
    rw [hrun, applyOp_smul, applyOp_comm, hZ g hg]
    funext y
    ring
  by_cases hz : φ = fun _ => 0
  · exact .inl hz
  refine .inr ⟨⟨_, hsyn⟩, fun σ hσ => ?_⟩
  obtain rfl : σ = mulVec H (errorOn data x e) := (syndrome_unique data s hs x H φ _ _ hσ hsyn).resolve_left hz
  set u := errorOn data x e with hu
  have hwt' : 2 * wt u < d := by
    have h1 : ((wt u : ℕ) : ℤ) ≤ w (faultCount N) := hwt
    have := hw _ hc
    omega
  have hr := hest u hwt'
  have hsum : pauliOn x data (est u) + e = (e + pauliOn x data u) + pauliOn x data (u + est u) := by
    rw [pauliOn_add]
    have := pauli_self (pauliOn x data u)
    calc pauliOn x data (est u) + e = e + 0 + pauliOn x data (est u) := by rw [add_zero, add_comm]
      _ = e + (pauliOn x data u + pauliOn x data u) + pauliOn x data (est u) := by rw [this]
      _ = _ := by simp only [add_assoc]
  refine ⟨est u, b + zdot e.2 (pauliOn x data (est u)).1 + zdot (pauliOn x data (u + est u)).2 (e + pauliOn x data u).1, e + pauliOn x data u, hdec u, ?_, ?_⟩
  · intro i
    have : errorOn data x (e + pauliOn x data u) = 0 := by
      rw [errorOn_add, errorOn_pauliOn data hinj]
      exact funext fun i => CharTwo.add_self_eq_zero _
    exact congrFun this i
  · have h1 := applyOp_add (e + pauliOn x data u) (pauliOn x data (u + est u)) ψ
    rw [hX _ hr] at h1
    rw [hrun, applyOp_smul, applyOp_add, hsum, h1]
    funext y
    rw [sgn_add, sgn_add]
    have h3 := sgn_sq (R := R) (zdot (pauliOn x data (u + est u)).2 (e + pauliOn x data u).1)
    linear_combination (-(sgn b * sgn (zdot e.2 (pauliOn x data (est u)).1) * applyOp (e + pauliOn x data u + pauliOn x data (u + est u)) ψ y)) * h3

end

theorem data_injective : Function.Injective fun i : Fin n => VQ.data i := fun a b h => data_inj.1 h

theorem stabOp_pauliOn (z : Bool) (v : Vec n) : stabOp z (supp v) = pauliOn (!z) (fun i : Fin n => VQ.data i) v := by
  have key : ((supp v).map fun q => Finsupp.single q (1 : ZMod 2)).sum = ∑ i : Fin n, Finsupp.single (VQ.data i) (v i) := by
    ext q
    rw [sum_single_apply, supp_count]
    by_cases hq : ∃ i : Fin n, q = VQ.data i
    · obtain ⟨i, rfl⟩ := hq
      rw [sum_single_data_apply (fun i : Fin n => VQ.data i) v i data_injective]
      simp
    · push Not at hq
      rw [Finsupp.finset_sum_apply, Finset.sum_eq_zero fun i _ => by rw [Finsupp.single_apply, if_neg fun h => hq i h.symm]]
      cases q with
      | data i =>
        have : ¬ i < n := fun h => hq ⟨i, h⟩ rfl
        simp [this]
      | _ => rfl
  cases z <;> simp [stabOp, pauliOn, key]

/-- The accepted fault-free run of a verified preparation has the stabilizers of both kinds. -/
theorem verified_stabilized (s : R) (hs : 2 * s * s = 1) (z : Bool) (c : PrepCircuit n) (S ms : List (Vec n)) (hnd : c.hadamards.Nodup)
    (hne : ∀ g ∈ c.cnots, g.1 ≠ g.2) (hS : Prepares z c S) (hms : ∀ m ∈ ms, ∀ r ∈ S, dot r m = 0) :
    (∀ v ∈ rowSpan S, applyOp (pauliOn z (fun i : Fin n => VQ.data i) v)
      (run s (fun _ => 0) (prepInstrs c ++ firstRound z ms) (zeros (register n z ms.length))) =
      run s (fun _ => 0) (prepInstrs c ++ firstRound z ms) (zeros (register n z ms.length))) ∧
    ∀ g, (∀ r ∈ S, dot r g = 0) → applyOp (pauliOn (!z) (fun i : Fin n => VQ.data i) g)
      (run s (fun _ => 0) (prepInstrs c ++ firstRound z ms) (zeros (register n z ms.length))) =
      run s (fun _ => 0) (prepInstrs c ++ firstRound z ms) (zeros (register n z ms.length)) := by
  rw [run_verified_zero z c S ms hnd hne hS hms s hs]
  have hb : ∀ v : Vec n, ∀ p ∈ (List.range ms.length).map fun i => ((ranc z i, 0) : VQ × ZMod 2), p.1 ∉ supp v := by
    intro v p hp
    obtain ⟨i, -, rfl⟩ := List.mem_map.1 hp
    exact not_mem_supp (ranc_ne_data z i)
  refine ⟨fun v hv => ?_, fun g hg => ?_⟩
  · have := stabOp_proj (s * s) (!z) (supp v) 0 (prepared s c) _ (hb v)
    rw [proj_stab z c S hnd hne hS s hs v hv, stabOp_pauliOn, Bool.not_not] at this
    rw [this]
    funext y
    rw [sgn_zero, one_mul]
  · have := stabOp_proj (s * s) z (supp g) 0 (prepared s c) _ (hb g)
    rw [proj_measured z c S hnd hne hS s hs g hg, if_pos rfl, stabOp_pauliOn] at this
    rw [this]
    funext y
    rw [sgn_zero, one_mul]

end Verif.SP
