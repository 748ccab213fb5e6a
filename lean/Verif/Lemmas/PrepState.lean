import Verif.Lemmas.VerifFaults
import Verif.Props.GadgetFaults
import Verif.Spec.FaultTolerance

/-! # The state prepared by a circuit and the effect of verification without faults -/

namespace Verif.SP
open Verif Verif.Spec
variable {n : ℕ} {R : Type} [CommRing R]

/-- Instructions on other qubits do not change basis states. -/
theorem step_withBits (s : R) (out : VC → ZMod 2) (i : Instr VQ VC) (B : List (VQ × ZMod 2)) (ψ : State VQ R)
    (h : ∀ q ∈ i.qubits, ∀ p ∈ B, p.1 ≠ q) : step s out (withBits B ψ) i = withBits B (step s out ψ i) := by
  have hup : ∀ (x : VQ → ZMod 2) (q : VQ) (v : ZMod 2), q ∈ i.qubits →
      ((∀ p ∈ B, Function.update x q v p.1 = p.2) ↔ ∀ p ∈ B, x p.1 = p.2) := by
    intro x q v hq
    apply forall₂_congr
    intro p hp
    rw [Function.update_of_ne (h q hq p hp)]
  funext x
  cases i with
  | h q =>
    simp only [step, withBits, hup _ q _ (show q ∈ (Instr.h (C := VC) q).qubits by simp [Instr.qubits])]
    split <;> simp
  | cx c t =>
    simp only [step, withBits, hup _ t _ (show t ∈ (Instr.cx (C := VC) c t).qubits by simp [Instr.qubits])]
  | measure q c =>
    simp only [step, withBits]
    split <;> split <;> rfl

theorem run_withBits (s : R) (out : VC → ZMod 2) (l : List (Instr VQ VC)) (B : List (VQ × ZMod 2)) (ψ : State VQ R)
    (h : ∀ i ∈ l, ∀ q ∈ i.qubits, ∀ p ∈ B, p.1 ≠ q) : run s out l (withBits B ψ) = withBits B (run s out l ψ) := by
  induction l generalizing ψ with
  | nil => rfl
  | cons i l ih =>
    rw [run_cons, run_cons, step_withBits s out i B ψ (h i (by simp)), ih _ fun j hj => h j (by simp [hj])]

theorem free_step (s : R) (out : VC → ZMod 2) (i : Instr VQ VC) (ψ : State VQ R) (q : VQ) (h : Free ψ q)
    (hq : q ∉ i.qubits) : Free (step s out ψ i) q := by
  intro x v
  cases i with
  | h p =>
    have hp : p ≠ q := by rintro rfl; exact hq (by simp [Instr.qubits])
    simp only [step]
    rw [Function.update_of_ne hp, Function.update_comm hp.symm, Function.update_comm hp.symm, h, h]
  | cx c t =>
    have hc : c ≠ q := by rintro rfl; exact hq (by simp [Instr.qubits])
    have ht : t ≠ q := by rintro rfl; exact hq (by simp [Instr.qubits])
    simp only [step]
    rw [Function.update_of_ne hc, Function.update_of_ne ht, Function.update_comm ht.symm, h]
  | measure p c =>
    have hp : p ≠ q := by rintro rfl; exact hq (by simp [Instr.qubits])
    simp only [step]
    rw [Function.update_of_ne hp, h]

theorem free_run (s : R) (out : VC → ZMod 2) (l : List (Instr VQ VC)) (ψ : State VQ R) (q : VQ) (h : Free ψ q)
    (hq : ∀ i ∈ l, q ∉ i.qubits) : Free (run s out l ψ) q := by
  induction l generalizing ψ with
  | nil => exact h
  | cons i l ih => rw [run_cons]; exact ih _ (free_step s out i ψ q h (hq i (by simp))) fun j hj => hq j (by simp [hj])

/-- The data register of an assignment. -/
def dv (n : ℕ) (x : VQ → ZMod 2) : Vec n := fun i => x (.data i)

/-- Assignments that differ by `v` on the data register. -/
def Shift (v : Vec n) (x x' : VQ → ZMod 2) : Prop :=
  (∀ i : Fin n, x' (.data i) = x (.data i) + v i) ∧ ∀ q, (∀ i : Fin n, q ≠ .data i) → x' q = x q

/-- The state is invariant under X on `v`. -/
def InvX (v : Vec n) (ψ : State VQ R) : Prop := ∀ x x', Shift v x x' → ψ x' = ψ x

/-- The state is invariant under Z on `f`. -/
def InvZ (f : Vec n) (ψ : State VQ R) : Prop := ∀ x, dot f (dv n x) ≠ 0 → ψ x = 0

theorem data_cases (q : VQ) : (∃ i : Fin n, q = .data i) ∨ ∀ i : Fin n, q ≠ .data i := by
  by_cases h : ∃ i : Fin n, q = .data i
  · exact .inl h
  · push Not at h; exact .inr h

theorem invX_cx (s : R) (out : VC → ZMod 2) (v : Vec n) (g : CX n) (hne : g.1 ≠ g.2) (ψ : State VQ R) (h : InvX v ψ) :
    InvX (cnotX v g) (step s out ψ (.cx (.data g.1) (.data g.2))) := by
  intro x x' hx
  simp only [step]
  apply h
  constructor
  · intro i
    by_cases hi : i = g.2
    · subst hi
      rw [Function.update_self, Function.update_self, hx.1, hx.1]
      simp only [cnotX, Pi.add_apply, Pi.smul_apply, Pi.single_apply, smul_eq_mul, if_true, mul_one, hne, if_false, mul_zero,
        add_zero]
      have := zadd (v g.1)
      linear_combination this
    · have : VQ.data i ≠ .data g.2 := fun e => hi (data_inj.1 e)
      rw [Function.update_of_ne this, Function.update_of_ne this, hx.1]
      simp [cnotX, Pi.single_apply, hi]
  · intro q hq
    rw [Function.update_of_ne (hq g.2), Function.update_of_ne (hq g.2), hx.2 q hq]

theorem invZ_cx (s : R) (out : VC → ZMod 2) (f : Vec n) (g : CX n) (hne : g.1 ≠ g.2) (ψ : State VQ R) (h : InvZ f ψ) :
    InvZ (cnotZ f g) (step s out ψ (.cx (.data g.1) (.data g.2))) := by
  intro x hx
  simp only [step]
  apply h
  have e : dv n (Function.update x (.data g.2) (x (.data g.2) + x (.data g.1))) = cnotX (dv n x) g := by
    funext i
    by_cases hi : i = g.2
    · subst hi
      simp [dv, cnotX]
    · have : VQ.data i ≠ .data g.2 := fun e => hi (data_inj.1 e)
      have h1 : dv n (Function.update x (.data g.2) (x (.data g.2) + x (.data g.1))) i = x (.data i) :=
        Function.update_of_ne this _ _
      rw [h1]
      simp [cnotX, Pi.single_apply, hi, dv]
  rw [e]
  have := dot_cnot (cnotX (dv n x) g) f g hne
  rw [cnotX_invol _ _ hne] at this
  rw [dot_comm f, ← this, dot_comm]
  exact hx

theorem invX_cxs (s : R) (out : VC → ZMod 2) (gs : List (CX n)) (hne : ∀ g ∈ gs, g.1 ≠ g.2) (v : Vec n) (ψ : State VQ R)
    (h : InvX v ψ) : InvX (gs.foldl cnotX v) (run s out (gs.map fun g => .cx (.data g.1) (.data g.2)) ψ) := by
  induction gs generalizing v ψ with
  | nil => exact h
  | cons g gs ih =>
    rw [List.map_cons, run_cons, List.foldl_cons]
    exact ih (fun g' hg' => hne g' (by simp [hg'])) _ _ (invX_cx s out v g (hne g (by simp)) ψ h)

theorem invZ_cxs (s : R) (out : VC → ZMod 2) (gs : List (CX n)) (hne : ∀ g ∈ gs, g.1 ≠ g.2) (f : Vec n) (ψ : State VQ R)
    (h : InvZ f ψ) : InvZ (gs.foldl cnotZ f) (run s out (gs.map fun g => .cx (.data g.1) (.data g.2)) ψ) := by
  induction gs generalizing f ψ with
  | nil => exact h
  | cons g gs ih =>
    rw [List.map_cons, run_cons, List.foldl_cons]
    exact ih (fun g' hg' => hne g' (by simp [hg'])) _ _ (invZ_cx s out f g (hne g (by simp)) ψ h)

/-- The data register in |0…0⟩. -/
def base (n : ℕ) (R : Type) [CommRing R] : State VQ R := zeros ((List.finRange n).map fun i : Fin n => .data i)

theorem base_apply (x : VQ → ZMod 2) : base n R x = if dv n x = 0 then 1 else 0 := by
  have : (∀ p ∈ ((List.finRange n).map fun i : Fin n => VQ.data i).map (fun q => (q, (0 : ZMod 2))), x p.1 = p.2) ↔
      dv n x = 0 := by
    constructor
    · intro h; funext i
      exact h (VQ.data i, 0) (List.mem_map.2 ⟨_, List.mem_map.2 ⟨i, List.mem_finRange i, rfl⟩, rfl⟩)
    · intro h p hp
      obtain ⟨q, hq, rfl⟩ := List.mem_map.1 hp
      obtain ⟨i, -, rfl⟩ := List.mem_map.1 hq
      exact congrFun h i
  simp only [base, zeros, withBits, this]

/-- After the Hadamards: equal amplitudes where the other qubits are 0. -/
theorem run_hs (s : R) (out : VC → ZMod 2) (hs S : List (Fin n)) (hnd : hs.Nodup) (hdis : ∀ q ∈ hs, q ∉ S) (c : R) :
    run s out (hs.map fun q : Fin n => .h (.data q)) (fun x => if ∀ q, q ∉ S → x (.data q) = 0 then c else 0) =
      fun x : VQ → ZMod 2 => if ∀ q, q ∉ S → q ∉ hs → x (.data q) = 0 then s ^ hs.length * c else 0 := by
  induction hs generalizing S c with
  | nil => funext x; simp [run_nil]
  | cons a hs ih =>
    rw [List.nodup_cons] at hnd
    have ha : a ∉ S := hdis a (by simp)
    have hstep : step s out (fun x : VQ → ZMod 2 => if ∀ q, q ∉ S → x (.data q) = 0 then c else 0) (.h (.data a)) =
        fun x => if ∀ q, q ∉ a :: S → x (.data q) = 0 then s * c else 0 := by
      funext x
      simp only [step]
      have h1 : ¬ ∀ q, q ∉ S → Function.update x (.data a) 1 (.data q) = 0 := by
        intro h
        have := h a ha
        simp at this
      have h0 : (∀ q, q ∉ S → Function.update x (.data a) 0 (.data q) = 0) ↔ ∀ q, q ∉ a :: S → x (.data q) = 0 := by
        constructor
        · intro h q hq
          simp only [List.mem_cons, not_or] at hq
          have := h q hq.2
          rwa [Function.update_of_ne (fun e => hq.1 (data_inj.1 e))] at this
        · intro h q hq
          by_cases hqa : q = a
          · subst hqa; simp
          · rw [Function.update_of_ne (fun e => hqa (data_inj.1 e))]
            exact h q (by simp [hqa, hq])
      rw [if_neg h1, mul_zero, add_zero]
      simp only [h0]
      split <;> simp
    rw [List.map_cons, run_cons, hstep, ih (a :: S) hnd.2 (by
      intro q hq hqS
      rcases List.mem_cons.1 hqS with rfl | hqS
      · exact hnd.1 hq
      · exact hdis q (by simp [hq]) hqS)]
    funext x
    have : (∀ q, q ∉ a :: S → q ∉ hs → x (.data q) = 0) ↔ ∀ q, q ∉ S → q ∉ a :: hs → x (.data q) = 0 := by
      simp only [List.mem_cons, not_or]
      constructor
      · intro h q h1 h2; exact h q ⟨h2.1, h1⟩ h2.2
      · intro h q h1 h2; exact h q h1.2 ⟨h1.1, h2⟩
    simp only [this, List.length_cons, pow_succ, mul_assoc]

/-- The prepared state. -/
def prepared (s : R) (c : PrepCircuit n) : State VQ R := run s (fun _ => 0) (prepInstrs c) (base n R)

theorem prepInstrs_bits (c : PrepCircuit n) : bitsOf (prepInstrs c) = [] := by
  simp only [bitsOf, prepInstrs, List.filterMap_append, List.filterMap_map]
  simp [Function.comp_def]

theorem run_prep_out (s : R) (out : VC → ZMod 2) (c : PrepCircuit n) (ψ : State VQ R) :
    run s out (prepInstrs c) ψ = run s (fun _ => 0) (prepInstrs c) ψ :=
  run_congr s out _ _ _ (by rw [prepInstrs_bits]; simp)

theorem base_eq : base n R = fun x : VQ → ZMod 2 => if ∀ q : Fin n, q ∉ ([] : List (Fin n)) → x (.data q) = 0 then 1 else 0 := by
  funext x
  rw [base_apply]
  congr 1
  apply propext
  constructor
  · intro h q _; exact congrFun h q
  · intro h; funext q; exact h q (by simp)

theorem invX_add {v w : Vec n} {ψ : State VQ R} (hv : InvX v ψ) (hw : InvX w ψ) : InvX (v + w) ψ := by
  intro x x' hx
  let y : VQ → ZMod 2 := fun q => if ∃ i : Fin n, q = .data i then x' q + (match q with | .data i => if h : i < n then w ⟨i, h⟩ else 0 | _ => 0) else x q
  have h1 : Shift v x y := by
    constructor
    · intro i
      have : ∃ j : Fin n, VQ.data i = .data j := ⟨i, rfl⟩
      simp only [y, this, if_true, i.2, dif_pos, Fin.eta, hx.1, Pi.add_apply]
      have := zadd (w i)
      linear_combination this
    · intro q hq
      have : ¬ ∃ i : Fin n, q = .data i := by push Not; exact hq
      simp only [y, this, if_false]
  have h2 : Shift w y x' := by
    constructor
    · intro i
      have := h1.1 i
      rw [this, hx.1, Pi.add_apply]; ring
    · intro q hq
      rw [h1.2 q hq, hx.2 q hq]
  rw [hw y x' h2, hv x y h1]

theorem invX_zero (ψ : State VQ R) : InvX (0 : Vec n) ψ := by
  intro x x' hx
  congr 1
  funext q
  rcases data_cases (n := n) q with ⟨i, rfl⟩ | h
  · rw [hx.1]; simp
  · exact hx.2 q h

theorem invZ_add {v w : Vec n} {ψ : State VQ R} (hv : InvZ v ψ) (hw : InvZ w ψ) : InvZ (v + w) ψ := by
  intro x hx
  rw [dot_add_left] at hx
  by_cases h : dot v (dv n x) = 0
  · rw [h, zero_add] at hx; exact hw x hx
  · exact hv x h

theorem prepared_split (s : R) (c : PrepCircuit n) (hnd : c.hadamards.Nodup) :
    prepared s c = run s (fun _ => 0) (c.cnots.map fun g => (.cx (.data g.1) (.data g.2) : Instr VQ VC))
      (fun x => if ∀ q, q ∉ c.hadamards → x (.data q) = 0 then s ^ c.hadamards.length else 0) := by
  have := run_hs s (fun _ => 0) c.hadamards [] hnd (by simp) 1
  rw [prepared, prepInstrs, run_append, base_eq, this]
  simp

theorem prepared_invX (s : R) (c : PrepCircuit n) (hnd : c.hadamards.Nodup) (hne : ∀ g ∈ c.cnots, g.1 ≠ g.2) (v : Vec n)
    (hv : v ∈ finalX c.hadamards c.cnots) : InvX v (prepared s c) := by
  rw [prepared_split s c hnd]
  induction hv using Submodule.span_induction with
  | mem x hx =>
    obtain ⟨q, hq, rfl⟩ := hx
    refine invX_cxs s _ c.cnots hne _ _ ?_
    intro x x' hx
    have : (∀ p, p ∉ c.hadamards → x' (.data p) = 0) ↔ ∀ p, p ∉ c.hadamards → x (.data p) = 0 := by
      apply forall₂_congr
      intro p hp
      have hpq : p ≠ q := by rintro rfl; exact hp hq
      rw [hx.1, Pi.single_eq_of_ne hpq, add_zero]
    simp only [this]
  | zero => exact invX_zero _
  | add x y _ _ hx hy => exact invX_add hx hy
  | smul a x _ hx =>
    rcases zmod2_cases a with rfl | rfl
    · rw [zero_smul]; exact invX_zero _
    · rwa [one_smul]

theorem prepared_invZ (s : R) (c : PrepCircuit n) (hnd : c.hadamards.Nodup) (hne : ∀ g ∈ c.cnots, g.1 ≠ g.2) (v : Vec n)
    (hv : v ∈ finalZ c.hadamards c.cnots) : InvZ v (prepared s c) := by
  rw [prepared_split s c hnd]
  induction hv using Submodule.span_induction with
  | mem x hx =>
    obtain ⟨q, hq, rfl⟩ := hx
    refine invZ_cxs s _ c.cnots hne _ _ ?_
    intro x hx
    rw [dot_comm, dot_single] at hx
    exact if_neg fun h => hx (h q hq)
  | zero => intro x hx; simp at hx
  | add x y _ _ hx hy => exact invZ_add hx hy
  | smul a x _ hx =>
    rcases zmod2_cases a with rfl | rfl
    · rw [zero_smul]; intro x hx; simp at hx
    · rwa [one_smul]

/-- The amplitude of |0…0⟩. -/
theorem prepared_zero (s : R) (c : PrepCircuit n) (hnd : c.hadamards.Nodup) (x : VQ → ZMod 2) (hx : dv n x = 0) :
    prepared s c x = s ^ c.hadamards.length := by
  rw [prepared_split s c hnd]
  have : ∀ (gs : List (CX n)) (ψ : State VQ R), (∀ x, dv n x = 0 → ψ x = s ^ c.hadamards.length) →
      ∀ x, dv n x = 0 → run s (fun _ => 0) (gs.map fun g => (.cx (.data g.1) (.data g.2) : Instr VQ VC)) ψ x =
        s ^ c.hadamards.length := by
    intro gs
    induction gs with
    | nil => intro ψ h x hx; exact h x hx
    | cons g gs ih =>
      intro ψ h x hx
      rw [List.map_cons, run_cons]
      refine ih _ ?_ x hx
      intro x hx
      simp only [step]
      apply h
      funext i
      by_cases hi : i = g.2
      · subst hi
        have h1 := congrFun hx g.2
        have h2 := congrFun hx g.1
        simp only [dv, Pi.zero_apply] at h1 h2 ⊢
        rw [Function.update_self, h1, h2, add_zero]
      · have : VQ.data i ≠ .data g.2 := fun e => hi (data_inj.1 e)
        have h1 := congrFun hx i
        simp only [dv, Function.update_of_ne this] at h1 ⊢
        exact h1
  refine this c.cnots _ ?_ x hx
  intro x hx
  exact if_pos fun q _ => congrFun hx q

theorem prepared_free (s : R) (c : PrepCircuit n) (q : VQ) (hq : ∀ i : Fin n, q ≠ .data i) : Free (prepared s c) q := by
  refine free_run s _ _ _ q ?_ ?_
  · intro x v
    rw [base_apply, base_apply]
    congr 2
    funext i
    simp only [dv]
    rw [Function.update_of_ne (fun e => hq i e.symm)]
  · intro i hi
    simp only [prepInstrs, List.mem_append, List.mem_map] at hi
    rcases hi with ⟨j, -, rfl⟩ | ⟨g, -, rfl⟩
    · simp [Instr.qubits, hq]
    · simp [Instr.qubits, hq]

/-- The qubits of a verified preparation circuit (first round only). -/
def register (n : ℕ) (z : Bool) (k : ℕ) : List VQ := (List.finRange n).map (fun i : Fin n => .data i) ++ (List.range k).map (ranc z)

theorem zeros_register (z : Bool) (k : ℕ) :
    (zeros (register n z k) : State VQ R) = withBits ((List.range k).map fun i => (ranc z i, 0)) (base n R) := by
  rw [zeros, register, base, zeros, ← withBits_append, List.map_append, List.map_map, List.map_map]
  refine withBits_congr (fun p => ?_) _
  simp only [List.mem_append]
  exact or_comm

theorem prep_not_anc (c : PrepCircuit n) (z : Bool) (k : ℕ) : ∀ i ∈ prepInstrs c, ∀ q ∈ i.qubits,
    ∀ p ∈ (List.range k).map fun i => (ranc z i, (0 : ZMod 2)), p.1 ≠ q := by
  intro i hi q hq p hp
  obtain ⟨j, -, rfl⟩ := List.mem_map.1 hp
  simp only [prepInstrs, List.mem_append, List.mem_map] at hi
  rcases hi with ⟨j, -, rfl⟩ | ⟨g, -, rfl⟩
  · simp only [Instr.qubits, List.mem_singleton] at hq
    subst hq; exact ranc_ne_data _ _ _
  · simp only [Instr.qubits, List.mem_cons, List.not_mem_nil, or_false] at hq
    rcases hq with rfl | rfl <;> exact ranc_ne_data _ _ _

/-- The prepared state with the ancillas in |0⟩. -/
theorem run_prep_register (s : R) (out : VC → ZMod 2) (c : PrepCircuit n) (z : Bool) (k : ℕ) :
    run s out (prepInstrs c) (zeros (register n z k)) =
      withBits ((List.range k).map fun i => (ranc z i, 0)) (prepared s c) := by
  rw [zeros_register, run_withBits s out _ _ _ (prep_not_anc c z k), run_prep_out]
  rfl

end Verif.SP
