import Verif.Model.VerifiedPrep
import Verif.Lemmas.GadgetFaults
import Verif.Props.Faults3
import Verif.Lemmas.Prep

/-! # Faults of a preparation circuit as frames -/

namespace Verif.SP
open Verif Verif.Spec
variable {n : ℕ}

/-- The X (`x = true`) or Z part of a frame on the data register. -/
def tp (n : ℕ) (x : Bool) (F : Frame VQ VC) : Vec n := fun i => if x then F.1.1 (.data i) else F.1.2 (.data i)

/-- The operator acts on the data register only. -/
def DataOnly (n : ℕ) (F : Frame VQ VC) : Prop :=
  (∀ q, F.1.ActsOn q → ∃ i : Fin n, q = .data i) ∧ F.2 = 0

theorem data_inj {i j : Fin n} : (VQ.data i = VQ.data j) ↔ i = j := by
  simp [Fin.ext_iff]

theorem tp_cx (x : Bool) (F : Frame VQ VC) (g : CX n) :
    tp n x (frameStep F (.cx (.data g.1) (.data g.2))) = conj x (tp n x F) g := by
  funext i
  cases x
  · simp only [tp, frameStep, conj, cnotZ, Bool.false_eq_true, if_false, Finsupp.add_apply, Finsupp.single_apply, data_inj,
      Pi.add_apply, Pi.smul_apply, Pi.single_apply, smul_eq_mul, mul_ite, mul_one, mul_zero, eq_comm]
  · simp only [tp, frameStep, conj, cnotX, if_true, Finsupp.add_apply, Finsupp.single_apply, data_inj,
      Pi.add_apply, Pi.smul_apply, Pi.single_apply, smul_eq_mul, mul_ite, mul_one, mul_zero, eq_comm]

theorem tp_cxs (x : Bool) (gs : List (CX n)) (F : Frame VQ VC) :
    tp n x (prop (gs.map fun g => .cx (.data g.1) (.data g.2)) F) = gs.foldl (conj x) (tp n x F) := by
  induction gs generalizing F with
  | nil => rfl
  | cons g gs ih => rw [List.map_cons, prop_cons, ih, tp_cx, List.foldl_cons]

theorem dataOnly_cx (g : CX n) (F : Frame VQ VC) (h : DataOnly n F) :
    DataOnly n (frameStep F (.cx (.data g.1) (.data g.2))) := by
  refine ⟨fun q hq => ?_, h.2⟩
  by_contra hcon
  have h1 : ¬ F.1.ActsOn q := fun h' => hcon (h.1 q h')
  have hne : ∀ i : Fin n, VQ.data i ≠ q := fun i e => hcon ⟨i, e.symm⟩
  simp only [PauliErr.ActsOn, not_or, not_not] at h1
  simp [PauliErr.ActsOn, frameStep, Finsupp.single_apply, hne, h1] at hq

theorem dataOnly_h (i : Fin n) (F : Frame VQ VC) (h : DataOnly n F) :
    DataOnly n (frameStep F (.h (.data i))) := by
  refine ⟨fun q hq => ?_, h.2⟩
  by_contra hcon
  have h1 : ¬ F.1.ActsOn q := fun h' => hcon (h.1 q h')
  have hne : ∀ i : Fin n, VQ.data i ≠ q := fun i e => hcon ⟨i, e.symm⟩
  simp only [PauliErr.ActsOn, not_or, not_not] at h1
  simp [PauliErr.ActsOn, frameStep, Finsupp.single_apply, hne, h1] at hq

theorem dataOnly_cxs (gs : List (CX n)) (F : Frame VQ VC) (h : DataOnly n F) :
    DataOnly n (prop (gs.map fun g => .cx (.data g.1) (.data g.2)) F) := by
  induction gs generalizing F with
  | nil => exact h
  | cons g gs ih => rw [List.map_cons, prop_cons]; exact ih _ (dataOnly_cx g F h)

theorem dataOnly_hs (hs : List (Fin n)) (F : Frame VQ VC) (h : DataOnly n F) :
    DataOnly n (prop (hs.map fun q : Fin n => .h (.data q)) F) := by
  induction hs generalizing F with
  | nil => exact h
  | cons g gs ih => rw [List.map_cons, prop_cons]; exact ih _ (dataOnly_h g F h)

/-- Acts on one qubit only. -/
def OnlyAt (q : VQ) (F : Frame VQ VC) : Prop := (∀ p, F.1.ActsOn p → p = q) ∧ F.2 = 0

theorem onlyAt_h (q p : VQ) (F : Frame VQ VC) (h : OnlyAt q F) : OnlyAt q (frameStep F (.h p)) := by
  refine ⟨fun r hr => ?_, h.2⟩
  by_contra hcon
  have h1 : ¬ F.1.ActsOn r := fun h' => hcon (h.1 r h')
  simp only [PauliErr.ActsOn, not_or, not_not] at h1
  by_cases hp : p = r
  · subst hp; simp [PauliErr.ActsOn, frameStep, h1] at hr
  · simp [PauliErr.ActsOn, frameStep, Finsupp.single_apply, hp, h1] at hr

theorem onlyAt_hs (q : VQ) (hs : List (Fin n)) (F : Frame VQ VC) (h : OnlyAt q F) :
    OnlyAt q (prop (hs.map fun q : Fin n => .h (.data q)) F) := by
  induction hs generalizing F with
  | nil => exact h
  | cons g gs ih => rw [List.map_cons, prop_cons]; exact ih _ (onlyAt_h q _ F h)

/-- An operator on other qubits passes unchanged. -/
theorem prop_other (l : List (Instr VQ VC)) (P : PauliErr VQ) (h : ∀ i ∈ l, ∀ q ∈ i.qubits, ¬ P.ActsOn q) :
    prop l (P, 0) = (P, 0) := by
  induction l with
  | nil => rfl
  | cons i l ih =>
    have hi := h i (by simp)
    have : frameStep (P, (0 : VC → ZMod 2)) i = (P, 0) := by
      cases i with
      | h q =>
        have := hi q (by simp [Instr.qubits])
        simp only [PauliErr.ActsOn, not_or, not_not] at this
        simp [frameStep, this]
      | cx c t =>
        have h1 := hi c (by simp [Instr.qubits])
        have h2 := hi t (by simp [Instr.qubits])
        simp only [PauliErr.ActsOn, not_or, not_not] at h1 h2
        simp [frameStep, h1, h2]
      | measure q c =>
        have := hi q (by simp [Instr.qubits])
        simp only [PauliErr.ActsOn, not_or, not_not] at this
        simp [frameStep, this]
    rw [prop_cons, this]
    exact ih fun j hj => h j (by simp [hj])

/-- The qubit whose errors spread through a CNOT. -/
theorem conj_pair (x : Bool) (g : CX n) (hne : g.1 ≠ g.2) :
    conj x (Pi.single (faultQubit x g) 1) g = Pi.single g.1 1 + Pi.single g.2 1 ∧
    conj x (Pi.single g.1 1 + Pi.single g.2 1) g = Pi.single (faultQubit x g) 1 := by
  have h2 : ∀ v : Vec n, v + v = 0 := fun v => add_self_eq_zero' v
  cases x
  · simp only [conj, cnotZ, faultQubit, Bool.false_eq_true, if_false]
    constructor
    · simp [add_comm]
    · simp only [Pi.add_apply, Pi.single_apply, Ne.symm hne, if_false, if_true, zero_add, one_smul]
      rw [add_comm (Pi.single g.1 1), add_assoc, h2, add_zero]
  · simp only [conj, cnotX, faultQubit, if_true]
    constructor
    · simp
    · simp only [Pi.add_apply, Pi.single_apply, hne, if_false, if_true, add_zero, one_smul]
      rw [add_assoc, h2, add_zero]

/-- Vectors supported on one or two positions. -/
theorem vec_one (u : Vec n) (q : Fin n) (h : ∀ i, u i ≠ 0 → i = q) : u = 0 ∨ u = Pi.single q 1 := by
  rcases zmod2_cases (u q) with hq | hq
  · left; funext i
    by_contra hi
    have := h i hi
    subst this
    exact hi hq
  · right; funext i
    by_cases hi : i = q
    · subst hi; simp [hq]
    · rw [Pi.single_eq_of_ne hi]
      by_contra hc
      exact hi (h i hc)

theorem vec_two (u : Vec n) (a b : Fin n) (hab : a ≠ b) (h : ∀ i, u i ≠ 0 → i = a ∨ i = b) :
    u = 0 ∨ u = Pi.single a 1 ∨ u = Pi.single b 1 ∨ u = Pi.single a 1 + Pi.single b 1 := by
  have e : u = u a • Pi.single a 1 + u b • Pi.single b 1 := by
    funext i
    by_cases h1 : i = a
    · subst h1; simp [hab]
    · by_cases h2 : i = b
      · subst h2; simp [h1]
      · have : u i = 0 := by
          by_contra hc
          rcases h i hc with h | h
          · exact h1 h
          · exact h2 h
        simp [this, h1, h2]
  rcases zmod2_cases (u a) with ha | ha <;> rcases zmod2_cases (u b) with hb | hb <;> rw [ha, hb] at e <;> simp at e <;> simp [e]

/-- The effect at the end of the CNOTs of an operator of one or two qubits. -/
def Effect (x : Bool) (cnots : List (CX n)) (u : Vec n) : Prop :=
  u = 0 ∨ ∃ k q, k ≤ cnots.length ∧ u = faultEffect x cnots k q

theorem conj_zero (x : Bool) (g : CX n) : conj x (0 : Vec n) g = 0 := by cases x <;> simp [conj, cnotX, cnotZ]

theorem foldl_conj_zero (x : Bool) (gs : List (CX n)) : gs.foldl (conj x) (0 : Vec n) = 0 := by
  induction gs with
  | nil => rfl
  | cons g gs ih => rw [List.foldl_cons, conj_zero, ih]

theorem effect_one (x : Bool) (cnots : List (CX n)) (k : ℕ) (hk : k ≤ cnots.length) (u : Vec n) (q : Fin n)
    (h : ∀ i, u i ≠ 0 → i = q) : Effect x cnots ((cnots.drop k).foldl (conj x) u) := by
  rcases vec_one u q h with rfl | rfl
  · left; exact foldl_conj_zero _ _
  · right; exact ⟨k, q, hk, rfl⟩

theorem effect_two (x : Bool) (cnots : List (CX n)) (k : ℕ) (g : CX n) (hk : cnots[k]? = some g) (hne : g.1 ≠ g.2) (u : Vec n)
    (h : ∀ i, u i ≠ 0 → i = g.1 ∨ i = g.2) :
    Effect x cnots ((cnots.drop k).foldl (conj x) u) ∧ Effect x cnots ((cnots.drop (k + 1)).foldl (conj x) u) := by
  obtain ⟨hlt, hg⟩ := List.getElem?_eq_some_iff.1 hk
  have hdrop : cnots.drop k = g :: cnots.drop (k + 1) := by rw [List.drop_eq_getElem_cons hlt, hg]
  obtain ⟨c1, c2⟩ := conj_pair x g hne
  rcases vec_two u g.1 g.2 hne h with rfl | rfl | rfl | rfl
  · exact ⟨.inl (foldl_conj_zero _ _), .inl (foldl_conj_zero _ _)⟩
  · exact ⟨.inr ⟨k, _, hlt.le, rfl⟩, .inr ⟨k + 1, _, hlt, rfl⟩⟩
  · exact ⟨.inr ⟨k, _, hlt.le, rfl⟩, .inr ⟨k + 1, _, hlt, rfl⟩⟩
  · refine ⟨.inr ⟨k + 1, faultQubit x g, hlt, ?_⟩, .inr ⟨k, faultQubit x g, hlt.le, ?_⟩⟩
    · rw [hdrop, List.foldl_cons, c2]; rfl
    · unfold faultEffect
      rw [hdrop, List.foldl_cons, c1]

/-- What a fault of the preparation circuit leaves: an effect on the data register and nothing else, or an operator on one
other qubit. -/
theorem prep_fault (x : Bool) (c : PrepCircuit n) (hne : ∀ g ∈ c.cnots, g.1 ≠ g.2) :
    AllSplits (fun i r => ∀ P : PauliErr VQ, FaultAt i P →
      ((DataOnly n (prop (i :: r) (P, 0)) ∧ Effect x c.cnots (tp n x (prop (i :: r) (P, 0)))) ∨
        (∃ q, (∀ i : Fin n, q ≠ .data i) ∧ (∀ p, P.ActsOn p → p = q) ∧ prop (i :: r) (P, 0) = (P, 0))) ∧
      ((DataOnly n (prop r (P, 0)) ∧ Effect x c.cnots (tp n x (prop r (P, 0)))) ∨
        (∃ q, (∀ i : Fin n, q ≠ .data i) ∧ (∀ p, P.ActsOn p → p = q) ∧ prop r (P, 0) = (P, 0)))) (prepInstrs c) := by
  -- single-qubit operators outside the data register pass
  have hout : ∀ (l : List (Instr VQ VC)) (P : PauliErr VQ) (q : VQ), (∀ i ∈ l, i ∈ prepInstrs c) → (∀ i : Fin n, q ≠ .data i) →
      (∀ p, P.ActsOn p → p = q) → prop l (P, 0) = (P, 0) := by
    intro l P q hl hq hP
    refine prop_other l P fun i hi p hp hact => ?_
    rw [hP p hact] at hp
    have := hl i hi
    simp only [prepInstrs, List.mem_append, List.mem_map] at this
    rcases this with ⟨j, -, rfl⟩ | ⟨g, -, rfl⟩
    · simp only [Instr.qubits, List.mem_singleton] at hp; exact hq _ hp
    · simp only [Instr.qubits, List.mem_cons, List.not_mem_nil, or_false] at hp
      rcases hp with hp | hp
      · exact hq _ hp
      · exact hq _ hp
  have htp : ∀ (P : PauliErr VQ) (j : Fin n), (∀ p, P.ActsOn p → p = .data j) → ∀ i, tp n x (P, 0) i ≠ 0 → i = j := by
    intro P j hP i hi
    have : P.ActsOn (.data i) := by
      cases x
      · exact .inr hi
      · exact .inl hi
    exact data_inj.1 (hP _ this)
  have hdo : ∀ (P : PauliErr VQ) (j : Fin n), (∀ p, P.ActsOn p → p = .data j) → DataOnly n (P, 0) := fun P j hP =>
    ⟨fun q hq => ⟨j, hP q hq⟩, rfl⟩
  -- a suffix of the CNOTs
  have hcx : ∀ k ≤ c.cnots.length, ∀ F : Frame VQ VC, ∀ j : Fin n, OnlyAt (.data j) F →
      DataOnly n (prop ((c.cnots.drop k).map fun g => .cx (.data g.1) (.data g.2)) F) ∧
      Effect x c.cnots (tp n x (prop ((c.cnots.drop k).map fun g => .cx (.data g.1) (.data g.2)) F)) := by
    intro k hk F j hF
    refine ⟨dataOnly_cxs _ _ ⟨fun q hq => ⟨j, hF.1 q hq⟩, hF.2⟩, ?_⟩
    rw [tp_cxs]
    refine effect_one x c.cnots k hk _ j fun i hi => ?_
    have : F.1.ActsOn (.data i) := by
      cases x
      · exact .inr hi
      · exact .inl hi
    exact data_inj.1 (hF.1 _ this)
  have hsuffix : ∀ (a r : List (Instr VQ VC)) (i : Instr VQ VC),
      prepInstrs c = a ++ i :: r → ∀ j ∈ i :: r, j ∈ prepInstrs c := by
    intro a r i h j hj
    rw [h]; exact List.mem_append_right _ hj
  refine AllSplits.of fun a i r hsplit P hP => ?_
  have hmem := hsuffix a r i hsplit
  have hmem' : ∀ j ∈ r, j ∈ prepInstrs c := fun j hj => hmem j (by simp [hj])
  -- single-qubit faults outside the register
  by_cases hsq : ∃ q, (∀ i : Fin n, q ≠ .data i) ∧ ∀ p, P.ActsOn p → p = q
  · obtain ⟨q, hq, hPq⟩ := hsq
    exact ⟨.inr ⟨q, hq, hPq, hout _ P q hmem hq hPq⟩, .inr ⟨q, hq, hPq, hout _ P q hmem' hq hPq⟩⟩
  push Not at hsq
  suffices hs : (DataOnly n (prop (i :: r) (P, 0)) ∧ Effect x c.cnots (tp n x (prop (i :: r) (P, 0)))) ∧
      (DataOnly n (prop r (P, 0)) ∧ Effect x c.cnots (tp n x (prop r (P, 0)))) from ⟨.inl hs.1, .inl hs.2⟩
  -- position of the instruction
  rcases List.append_eq_append_iff.1 hsplit with ⟨b, hb1, hb2⟩ | ⟨b, hb1, hb2⟩
  · -- a CNOT
    have hk : c.cnots.map (fun g => (Instr.cx (.data g.1) (.data g.2) : Instr VQ VC)) = b ++ i :: r := hb2
    obtain ⟨g1, g2, hg, rfl, hg2⟩ := List.map_eq_append_iff.1 hk
    obtain ⟨g, gs, rfl, rfl, rfl⟩ := List.map_eq_cons_iff.1 hg2
    have hlen : c.cnots[g1.length]? = some g := by rw [hg]; simp
    have hd0 : c.cnots.drop g1.length = g :: gs := by rw [hg]; simp
    have hd1 : c.cnots.drop (g1.length + 1) = gs := by
      rw [← List.drop_drop, hd0]; rfl
    have hle : g1.length + 1 ≤ c.cnots.length := by rw [hg]; simp
    have hone : ∀ j : Fin n, (∀ p, P.ActsOn p → p = .data j) → _ := fun j hPj =>
      And.intro (hcx g1.length (by omega) (P, 0) j ⟨hPj, rfl⟩) (hcx (g1.length + 1) hle (P, 0) j ⟨hPj, rfl⟩)
    rw [hd0, hd1] at hone
    rcases hP with ⟨q, hPq⟩ | hP
    · by_cases hq : ∃ j : Fin n, q = .data j
      · obtain ⟨j, rfl⟩ := hq
        exact hone j hPq
      · push Not at hq
        obtain ⟨p, hp, hpn⟩ := hsq q hq
        exact absurd (hPq p hp) hpn
    · have hPd : DataOnly n (P, 0) := by
        refine ⟨fun q hq => ?_, rfl⟩
        have := hP q hq
        simp only [Instr.qubits, List.mem_cons, List.not_mem_nil, or_false] at this
        rcases this with rfl | rfl
        · exact ⟨g.1, rfl⟩
        · exact ⟨g.2, rfl⟩
      have hu : ∀ i, tp n x (P, 0) i ≠ 0 → i = g.1 ∨ i = g.2 := by
        intro i hi
        have hact : P.ActsOn (.data i) := by
          cases x
          · exact .inr hi
          · exact .inl hi
        have := hP _ hact
        simp only [Instr.qubits, List.mem_cons, List.not_mem_nil, or_false, data_inj] at this
        exact this
      obtain ⟨e1, e2⟩ := effect_two x c.cnots g1.length g hlen (hne g (by rw [hg]; simp)) _ hu
      rw [hd0, ← tp_cxs] at e1
      rw [hd1, ← tp_cxs] at e2
      exact ⟨⟨dataOnly_cxs (g :: gs) _ hPd, e1⟩, ⟨dataOnly_cxs gs _ hPd, e2⟩⟩
  · -- a Hadamard, or the first CNOT
    cases b with
    | nil =>
      -- the first CNOT: as above with an empty prefix
      simp only [List.nil_append] at hb2
      obtain ⟨g, gs, hg, rfl, rfl⟩ := List.map_eq_cons_iff.1 hb2.symm
      have hlen : c.cnots[0]? = some g := by rw [hg]; simp
      have hd0 : c.cnots.drop 0 = g :: gs := by rw [hg]; simp
      have hd1 : c.cnots.drop (0 + 1) = gs := by rw [hg]; rfl
      have hle : 0 + 1 ≤ c.cnots.length := by rw [hg]; simp
      have hone : ∀ j : Fin n, (∀ p, P.ActsOn p → p = .data j) → _ := fun j hPj =>
        And.intro (hcx 0 (by omega) (P, 0) j ⟨hPj, rfl⟩) (hcx (0 + 1) hle (P, 0) j ⟨hPj, rfl⟩)
      rw [hd0, hd1] at hone
      rcases hP with ⟨q, hPq⟩ | hP
      · by_cases hq : ∃ j : Fin n, q = .data j
        · obtain ⟨j, rfl⟩ := hq
          exact hone j hPq
        · push Not at hq
          obtain ⟨p, hp, hpn⟩ := hsq q hq
          exact absurd (hPq p hp) hpn
      · have hPd : DataOnly n (P, 0) := by
          refine ⟨fun q hq => ?_, rfl⟩
          have := hP q hq
          simp only [Instr.qubits, List.mem_cons, List.not_mem_nil, or_false] at this
          rcases this with rfl | rfl
          · exact ⟨g.1, rfl⟩
          · exact ⟨g.2, rfl⟩
        have hu : ∀ i, tp n x (P, 0) i ≠ 0 → i = g.1 ∨ i = g.2 := by
          intro i hi
          have hact : P.ActsOn (.data i) := by
            cases x
            · exact .inr hi
            · exact .inl hi
          have := hP _ hact
          simp only [Instr.qubits, List.mem_cons, List.not_mem_nil, or_false, data_inj] at this
          exact this
        obtain ⟨e1, e2⟩ := effect_two x c.cnots 0 g hlen (hne g (by rw [hg]; simp)) _ hu
        rw [hd0, ← tp_cxs] at e1
        rw [hd1, ← tp_cxs] at e2
        exact ⟨⟨dataOnly_cxs (g :: gs) _ hPd, e1⟩, ⟨dataOnly_cxs gs _ hPd, e2⟩⟩
    | cons i' b =>
      simp only [List.cons_append, List.cons.injEq] at hb2
      obtain ⟨rfl, rfl⟩ := hb2
      obtain ⟨g1, g2, hg, rfl, hg2⟩ := List.map_eq_append_iff.1 hb1
      obtain ⟨j, gs, rfl, rfl, rfl⟩ := List.map_eq_cons_iff.1 hg2
      have hd0 : c.cnots.drop 0 = c.cnots := rfl
      have hq : ∃ q, ∀ p, P.ActsOn p → p = q := by
        rcases hP with h | h
        · exact h
        · exact ⟨.data j, fun p hp => by simpa [Instr.qubits] using h p hp⟩
      obtain ⟨q, hPq⟩ := hq
      by_cases hq : ∃ j : Fin n, q = .data j
      · obtain ⟨j', rfl⟩ := hq
        have h1 := hcx 0 (Nat.zero_le _) _ j' (onlyAt_hs _ (j :: gs) (P, 0) ⟨hPq, rfl⟩)
        have h2 := hcx 0 (Nat.zero_le _) _ j' (onlyAt_hs _ gs (P, 0) ⟨hPq, rfl⟩)
        rw [hd0, ← prop_append] at h1 h2
        exact And.intro h1 h2
      · push Not at hq
        obtain ⟨p, hp, hpn⟩ := hsq q hq
        exact absurd (hPq p hp) hpn

end Verif.SP
