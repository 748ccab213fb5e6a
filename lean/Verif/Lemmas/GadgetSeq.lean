import Verif.Props.Gadgets
import Verif.Model.VerifCircuit

/-! # Sequences of measurement gadgets -/

namespace Verif.SP
open Verif Verif.Spec

/-- One stabilizer measurement: type, support, ancilla, result bit, flag qubits and flag bits. -/
structure Meas (Q C : Type) where
  z : Bool
  supp : List Q
  anc : Q
  bit : C
  flags : List Q
  fbits : List C

variable {Q C R : Type} [DecidableEq Q] [CommRing R]

/-- Its qubits before the measurement. -/
def Meas.start (g : Meas Q C) : List (Q × ZMod 2) := (g.anc, 0) :: g.flags.map fun f => (f, 0)

/-- Its qubits after the measurement with the given outcomes. -/
def Meas.final (out : C → ZMod 2) (g : Meas Q C) : List (Q × ZMod 2) := (g.anc, out g.bit) :: g.flags.map fun f => (f, 0)

/-- The qubits added for the measurement. -/
def Meas.own (g : Meas Q C) : List Q := g.anc :: g.flags

/-- The state after measuring all stabilizers of the list, in order, with the given outcomes. -/
def projAll (half : R) (out : C → ZMod 2) (gs : List (Meas Q C)) (ψ : State Q R) : State Q R :=
  gs.foldl (fun φ g => proj half g.z g.supp (out g.bit) φ) ψ

/-- The instructions realise the measurement. -/
def Realises (s : R) (l : List (Instr Q C)) (g : Meas Q C) : Prop :=
  ∀ (ψ : State Q R) (out : C → ZMod 2), (∀ q ∈ g.own, Free ψ q) →
    run s out l (withBits g.start ψ) =
      if ∀ c ∈ g.fbits, out c = 0 then withBits (g.final out) (proj (s * s) g.z g.supp (out g.bit) ψ)
      else fun _ => 0

theorem withBits_append (B₁ B₂ : List (Q × ZMod 2)) (ψ : State Q R) :
    withBits (B₁ ++ B₂) ψ = withBits B₁ (withBits B₂ ψ) := by
  funext x
  simp only [withBits, List.forall_mem_append]
  by_cases h1 : ∀ p ∈ B₁, x p.1 = p.2
  · simp only [and_iff_right h1, if_pos h1]
  · rw [if_neg (fun h => h1 h.1), if_neg h1]

theorem withBits_congr {B₁ B₂ : List (Q × ZMod 2)} (h : ∀ p, p ∈ B₁ ↔ p ∈ B₂) (ψ : State Q R) :
    withBits B₁ ψ = withBits B₂ ψ := by
  funext x
  simp only [withBits, h]

theorem withBits_zero (B : List (Q × ZMod 2)) : withBits B (fun _ => (0 : R)) = fun _ => 0 := by
  funext x; simp [withBits]

theorem free_withBits (B : List (Q × ZMod 2)) (ψ : State Q R) (q : Q) (h : Free ψ q) (hB : ∀ p ∈ B, p.1 ≠ q) :
    Free (withBits B ψ) q := by
  intro x v
  unfold withBits
  rw [h]
  congr 1
  apply propext
  apply forall₂_congr
  intro p hp
  rw [Function.update_of_ne (hB p hp)]

theorem free_proj (half : R) (z : Bool) (S : List Q) (m : ZMod 2) (ψ : State Q R) (q : Q) (h : Free ψ q)
    (hS : q ∉ S) : Free (proj half z S m ψ) q := by
  intro x v
  cases z
  · simp only [proj, Bool.false_eq_true, if_false, projX, applyX]
    rw [h]
    congr 3
    apply free_eq h
    intro p hp
    rw [Function.update_of_ne hp]
  · simp only [proj, if_true, projZ]
    rw [h, sum_map_update S x q v hS]

theorem proj_withBits (half : R) (z : Bool) (S : List Q) (m : ZMod 2) (B : List (Q × ZMod 2)) (ψ : State Q R)
    (hB : ∀ p ∈ B, p.1 ∉ S) : proj half z S m (withBits B ψ) = withBits B (proj half z S m ψ) := by
  funext x
  cases z
  · simp only [proj, Bool.false_eq_true, if_false, projX, applyX, withBits]
    have : (∀ p ∈ B, x p.1 + (List.count p.1 S : ZMod 2) = p.2) ↔ ∀ p ∈ B, x p.1 = p.2 := by
      apply forall₂_congr
      intro p hp
      rw [List.count_eq_zero_of_not_mem (hB p hp), Nat.cast_zero, add_zero]
    simp only [this]
    split <;> simp
  · simp only [proj, if_true, projZ, withBits]
    split <;> split <;> rfl

/-- The realisations of a list of measurements run one after the other. -/
theorem run_seq (s : R) (out : C → ZMod 2) : ∀ (gs : List (Meas Q C)) (ls : List (List (Instr Q C)))
    (_ : List.Forall₂ (Realises s) ls gs) (D : List (Q × ZMod 2)) (ψ : State Q R),
    gs.Pairwise (fun a b => ∀ q ∈ a.own, q ∉ b.own) →
    (∀ g ∈ gs, ∀ g' ∈ gs, ∀ q ∈ g.own, q ∉ g'.supp) →
    (∀ p ∈ D, ∀ g ∈ gs, p.1 ∉ g.own ∧ p.1 ∉ g.supp) →
    (∀ g ∈ gs, ∀ q ∈ g.own, Free ψ q) →
    run s out ls.flatten (withBits (gs.flatMap Meas.start ++ D) ψ) =
      if ∀ g ∈ gs, ∀ c ∈ g.fbits, out c = 0 then
        withBits (gs.flatMap (Meas.final out) ++ D) (projAll (s * s) out gs ψ)
      else fun _ => 0 := by
  intro gs
  induction gs with
  | nil =>
    intro ls hf D ψ _ _ _ _
    cases hf
    simp [run_nil, projAll]
  | cons g gs ih =>
    intro ls hf D ψ hp hS hD hF
    cases hf with
    | cons h1 h2 =>
      rename_i l ls
      rw [List.pairwise_cons] at hp
      have hstart : ∀ g' ∈ gs, ∀ p ∈ g'.start, p.1 ∈ g'.own := by
        intro g' _ p hp
        simp only [Meas.start, List.mem_cons, List.mem_map] at hp
        rcases hp with rfl | ⟨f, hf, rfl⟩
        · simp [Meas.own]
        · simp [Meas.own, hf]
      have hfinal : ∀ p ∈ g.final out, p.1 ∈ g.own := by
        intro p hp
        simp only [Meas.final, List.mem_cons, List.mem_map] at hp
        rcases hp with rfl | ⟨f, hf, rfl⟩
        · simp [Meas.own]
        · simp [Meas.own, hf]
      have hrest : ∀ p ∈ gs.flatMap Meas.start ++ D, p.1 ∉ g.own ∧ p.1 ∉ g.supp := by
        intro p hpm
        rcases List.mem_append.1 hpm with hpm | hpm
        · obtain ⟨g', hg', hpm⟩ := List.mem_flatMap.1 hpm
          have ho := hstart g' hg' p hpm
          exact ⟨fun h => hp.1 g' hg' p.1 h ho, hS g' (by simp [hg']) g (by simp) p.1 ho⟩
        · exact hD p hpm g (by simp)
      rw [List.flatten_cons, run_append, List.flatMap_cons, List.append_assoc, withBits_append,
        h1 _ out (by
          intro q hq
          apply free_withBits _ _ _ (hF g (by simp) q hq)
          intro p hpm heq
          exact (hrest p hpm).1 (heq ▸ hq))]
      by_cases hfb : ∀ c ∈ g.fbits, out c = 0
      · rw [if_pos hfb, proj_withBits _ _ _ _ _ _ (fun p hpm => (hrest p hpm).2), ← withBits_append]
        have hperm : ∀ p, p ∈ g.final out ++ (gs.flatMap Meas.start ++ D) ↔
            p ∈ gs.flatMap Meas.start ++ (g.final out ++ D) := by
          intro p; simp only [List.mem_append]; tauto
        rw [withBits_congr hperm, ih ls h2 (g.final out ++ D) _ hp.2
          (fun a ha b hb => hS a (by simp [ha]) b (by simp [hb])) (by
            intro p hpm g' hg'
            rcases List.mem_append.1 hpm with hpm | hpm
            · exact ⟨hp.1 g' hg' p.1 (hfinal p hpm), hS g (by simp) g' (by simp [hg']) p.1 (hfinal p hpm)⟩
            · exact hD p hpm g' (by simp [hg']))
          (fun g' hg' q hq => free_proj _ _ _ _ _ _ (hF g' (by simp [hg']) q hq)
            (hS g' (by simp [hg']) g (by simp) q hq))]
        by_cases hall : ∀ g' ∈ gs, ∀ c ∈ g'.fbits, out c = 0
        · rw [if_pos hall, if_pos (by
            intro g' hg'
            rcases List.mem_cons.1 hg' with rfl | hg'
            · exact hfb
            · exact hall g' hg')]
          apply withBits_congr
          intro p; simp only [List.mem_append, List.flatMap_cons]; tauto
        · rw [if_neg hall, if_neg (fun h => hall fun g' hg' => h g' (by simp [hg']))]
      · rw [if_neg hfb, run_zero, if_neg (fun h => hfb (h g (by simp)))]

/-! ### Moving and repeating measurements -/

theorem measure_comm (s : R) (out : C → ZMod 2) (q : Q) (c : C) (l : List (Instr Q C))
    (hl : ∀ i ∈ l, ∃ a b, i = .cx a b ∧ b ≠ q) (ψ : State Q R) :
    run s out (.measure q c :: l) ψ = run s out (l ++ [.measure q c]) ψ := by
  induction l generalizing ψ with
  | nil => rfl
  | cons i l ih =>
    obtain ⟨a, b, rfl, hb⟩ := hl i (by simp)
    rw [run_cons, run_cons, List.cons_append, run_cons, ← ih (fun i hi => hl i (by simp [hi])), run_cons]
    congr 1
    funext x
    simp only [step]
    rw [Function.update_of_ne hb.symm]

theorem measures_at_end (s : R) (out : C → ZMod 2) : ∀ (L : List (List (Instr Q C) × Q × C)) (ψ : State Q R),
    L.Pairwise (fun a b => ∀ i ∈ b.1, ∃ u v, i = .cx u v ∧ v ≠ a.2.1) →
    run s out (L.flatMap fun a => a.1 ++ [.measure a.2.1 a.2.2]) ψ =
      run s out (L.flatMap (fun a => a.1) ++ L.map fun a => .measure a.2.1 a.2.2) ψ := by
  intro L
  induction L with
  | nil => intro ψ _; rfl
  | cons a L ih =>
    intro ψ hp
    rw [List.pairwise_cons] at hp
    rw [List.flatMap_cons, run_append, ih _ hp.2, run_append, List.flatMap_cons, List.append_assoc, run_append,
      List.map_cons, run_cons, run_nil]
    have hc := measure_comm s out a.2.1 a.2.2 (L.flatMap fun a => a.1) (by
      intro i hi
      obtain ⟨b, hb, hi⟩ := List.mem_flatMap.1 hi
      exact hp.1 b hb i hi) (run s out a.1 ψ)
    rw [run_cons, run_append] at hc
    rw [run_append, hc, ← run_append, ← run_append]
    simp only [List.append_assoc, List.singleton_append]

theorem measure_again (s : R) (out : C → ZMod 2) (l : List (Q × C)) (B : List (Q × ZMod 2)) (ψ : State Q R)
    (h : ∀ p ∈ l, (p.1, out p.2) ∈ B) :
    run s out (l.map fun p => .measure p.1 p.2) (withBits B ψ) = withBits B ψ := by
  induction l with
  | nil => rfl
  | cons p l ih =>
    rw [List.map_cons, run_cons]
    have : step s out (withBits B ψ) (.measure p.1 p.2) = withBits B ψ := by
      funext x
      simp only [step, withBits]
      by_cases hx : ∀ r ∈ B, x r.1 = r.2
      · rw [if_pos hx, if_pos (hx _ (h p (by simp)))]
      · rw [if_neg hx]; simp
    rw [this]
    exact ih (fun p hp => h p (by simp [hp]))

end Verif.SP
