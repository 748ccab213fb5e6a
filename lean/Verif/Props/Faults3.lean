import Verif.Props.Faults2

/-! # C61–C65: what the fault sets contain -/

namespace Verif.SP
open Verif Verif.Spec
variable {n : ℕ}

/-! ### Lemmas -/

theorem conj_of_not_source {x : Bool} {q : Fin n} {g : CX n} (h : faultQubit x g ≠ q) :
    conj x (Pi.single q 1) g = Pi.single q 1 := by
  cases x <;> simp [faultQubit] at h <;> simp [conj, cnotX, cnotZ, h]

/-- An error supported on touched qubits does not see the gates of the front layer. -/
theorem foldl_removeFrontLayer (x : Bool) (gs : List (CX n)) (touched : List (Fin n)) (e : Vec n)
    (h : ∀ q, e q ≠ 0 → q ∈ touched) :
    (removeFrontLayer touched gs).foldl (conj x) e = gs.foldl (conj x) e := by
  induction gs generalizing touched e with
  | nil => rfl
  | cons g gs ih =>
    have hsupp : ∀ q, conj x e g q ≠ 0 → q ∈ g.1 :: g.2 :: touched := by
      intro q hq
      by_cases h1 : q = g.1
      · simp [h1]
      by_cases h2 : q = g.2
      · simp [h2]
      have : e q ≠ 0 := by
        cases x <;> simp [conj, cnotX, cnotZ, h1, h2] at hq <;> exact hq
      simp [h q this]
    simp only [removeFrontLayer]
    split
    · simp only [List.foldl_cons]
      exact ih _ _ hsupp
    · next hg =>
      push Not at hg
      have h1 : e g.1 = 0 := by by_contra hc; exact hg.1 (h _ hc)
      have h2 : e g.2 = 0 := by by_contra hc; exact hg.2 (h _ hc)
      have hc : conj x e g = e := by cases x <;> simp [conj, cnotX, cnotZ, h1, h2]
      simp only [List.foldl_cons, hc]
      apply ih
      intro q hq; simp [h q hq]

theorem faultEffect_removeFrontLayer (x : Bool) (gs : List (CX n)) (touched : List (Fin n)) (i : ℕ)
    (g : CX n) (hg : (removeFrontLayer touched gs)[i]? = some g) :
    ∃ j, gs[j]? = some g ∧ faultEffect x (removeFrontLayer touched gs) (i + 1) (faultQubit x g) =
      faultEffect x gs (j + 1) (faultQubit x g) := by
  induction gs generalizing touched i with
  | nil => simp [removeFrontLayer] at hg
  | cons a gs ih =>
    simp only [removeFrontLayer] at hg ⊢
    split
    · next hc =>
      rw [if_pos hc] at hg
      cases i with
      | zero =>
        obtain rfl : a = g := by simpa using hg
        refine ⟨0, rfl, ?_⟩
        simp only [faultEffect, zero_add, List.drop_succ_cons, List.drop_zero]
        apply foldl_removeFrontLayer
        intro q hq
        have : q = faultQubit x a := by
          by_contra hne; simp [hne] at hq
        cases x <;> simp [this, faultQubit]
      | succ i =>
        obtain ⟨j, h1, h2⟩ := ih _ i (by simpa using hg)
        exact ⟨j + 1, by simpa using h1, by simpa [faultEffect] using h2⟩
    · next hc =>
      rw [if_neg hc] at hg
      obtain ⟨j, h1, h2⟩ := ih _ i hg
      exact ⟨j + 1, by simpa using h1, by simpa [faultEffect] using h2⟩

theorem faultEffect_end (x : Bool) (gs : List (CX n)) (q : Fin n) :
    faultEffect x gs gs.length q = Pi.single q 1 := by simp [faultEffect]

theorem weightBound_nonneg (d dError : ℤ) (k : ℕ) : 0 ≤ weightBound d dError k := by
  unfold weightBound
  apply mul_nonneg _ (by omega)
  exact Int.ediv_nonneg (by omega) (by omega)

theorem dangerous_not_mem {S : List (Vec n)} {w : ℤ} (hw : 0 ≤ w) {e : Vec n} (h : Dangerous S w e) :
    e ∉ rowSpan S := by
  intro he
  have := h 0 (by simpa [Equivalent] using he)
  simp [wt] at this
  omega

theorem mem_filterFaults {sd : Side n} {r : Bool} {F : List (Vec n)} {k : ℕ}
    (hl : ∀ f, CosetLeader f sd.stabs (sd.leader f)) :
    (∀ v ∈ filterFaults sd r F k, ∃ u ∈ F, v = sd.leader u ∧
      Dangerous sd.stabs (weightBound sd.d sd.dError k) u) ∧
    (∀ u ∈ F, Dangerous sd.stabs (weightBound sd.d sd.dError k) u →
      ∃ v ∈ filterFaults sd r F k, Equivalent sd.stabs u v) := by
  have hT := (C27_trivial_filter sd.leader sd.stabs F sd.d sd.dError k hl).1
  have hleader : ∀ u, Equivalent sd.stabs u (sd.leader u) := fun u =>
    (C25_coset_leader _ _ _ (hl u)).1
  cases r with
  | false =>
    refine ⟨fun v hv => (hT v).1 hv, fun u hu hd => ⟨sd.leader u, (hT _).2 ⟨u, hu, rfl, hd⟩, hleader u⟩⟩
  | true =>
    obtain ⟨h1, -, h3⟩ := C26_dedup (removeTrivialFaults sd.leader F sd.d sd.dError k) sd.stabs
    refine ⟨fun v hv => (hT v).1 (h1 v hv).1, fun u hu hd => ?_⟩
    obtain ⟨v, hv, he⟩ := h3 (sd.leader u) ((hT _).2 ⟨u, hu, rfl, hd⟩)
      (dangerous_not_mem (weightBound_nonneg _ _ _) ((dangerous_congr (hleader u)).1 hd))
    exact ⟨v, hv, (hleader u).trans he⟩

/-- The return value of `compute_fault_set` after any history. -/
theorem computeFaultSet_value (sd : Side n) (m : ℕ) (h : List (Bool × ℕ)) (reduce : Bool) (k : ℕ)
    (f : List (Vec n)) (s' : Cache n)
    (hc : computeFaultSet sd reduce k (faultHistory sd h (freshCache n m)) = .ok (f, s')) :
    1 ≤ k ∧ ∃ r, f = filterFaults sd r (idealF sd k) k := by
  have inv := faultHistory_inv sd m h _ (freshCache_inv sd m)
  obtain ⟨inv', hk, -, hset⟩ := computeFaultSet_inv sd m reduce k _ inv f s' hc
  obtain ⟨k', rfl⟩ : ∃ k', k = k' + 1 := ⟨k - 1, by omega⟩
  exact ⟨hk, (inv'.setOk k' f hset).1⟩

/-- A single-qubit fault at some place of the circuit. -/
def SingleFault (sd : Side n) (x : Vec n) : Prop :=
  ∃ i q, i ≤ sd.cnots.length ∧ x = faultEffect sd.xErrors sd.cnots i q

theorem singleFault_of_mem {sd : Side n} {x : Vec n} (h : x ∈ singleFaults sd ++ eyeRows n) :
    SingleFault sd x := by
  rcases List.mem_append.1 h with h | h
  · rw [singleFaults, mem_npUnique, mem_faultList] at h
    obtain ⟨i, g, hg, rfl⟩ := h
    obtain ⟨j, hj, he⟩ := faultEffect_removeFrontLayer sd.xErrors _ _ i g hg
    obtain ⟨hjl, -⟩ := List.getElem?_eq_some_iff.1 hj
    exact ⟨j + 1, _, by omega, he⟩
  · obtain ⟨q, rfl⟩ := mem_eyeRows.1 h
    exact ⟨_, q, le_rfl, (faultEffect_end _ _ _).symm⟩

/-! ## C61 -/

/-- **C61**: after any history of calls, every error in the returned fault set for `k` faults is
(up to stabilizers) the combined effect of `k` single-qubit faults of the circuit, is a
minimum-weight representative, and has weight above the bound. -/
theorem C61_fault_set_sound (sd : Side n) (hl : ∀ f, CosetLeader f sd.stabs (sd.leader f)) (m : ℕ)
    (h : List (Bool × ℕ)) (reduce : Bool) (k : ℕ) (f : List (Vec n)) (s' : Cache n)
    (hc : computeFaultSet sd reduce k (faultHistory sd h (freshCache n m)) = .ok (f, s')) :
    ∀ v ∈ f, IsLeader sd.stabs v ∧ weightBound sd.d sd.dError k < wt v ∧
      ∃ u, SumOf (SingleFault sd) k u ∧ Equivalent sd.stabs u v := by
  obtain ⟨hk, r, rfl⟩ := computeFaultSet_value sd m h reduce k f s' hc
  intro v hv
  obtain ⟨u, hu, rfl, hd⟩ := (mem_filterFaults hl).1 v hv
  obtain ⟨heq, hlead⟩ := C25_coset_leader _ _ _ (hl u)
  refine ⟨hlead, hd _ heq, u, ?_, heq⟩
  obtain ⟨k', rfl⟩ : ∃ k', k = k' + 1 := ⟨k - 1, by omega⟩
  unfold idealF at hu
  split at hu
  · next h1 =>
    obtain rfl : k' = 0 := by omega
    rw [sumOf_one]
    exact singleFault_of_mem (List.mem_append_left _ hu)
  · rw [mem_idealU] at hu
    obtain ⟨l, h1, h2, h3⟩ := hu
    exact ⟨l, h1, fun x hx => singleFault_of_mem (h2 x hx), h3⟩

/-! ## C62 -/

/-- The faults the tool enumerates: an error on the control (for Z errors: target) right after some
CNOT, or an error on one qubit at the end. -/
def EnumeratedFault (sd : Side n) (x : Vec n) : Prop :=
  (∃ i g, sd.cnots[i]? = some g ∧
    x = faultEffect sd.xErrors sd.cnots (i + 1) (if sd.xErrors then g.1 else g.2)) ∨
  ∃ q, x = Pi.single q 1

theorem wt_single (q : Fin n) : wt (Pi.single q (1 : ZMod 2)) = 1 := by
  unfold wt
  rw [Finset.card_eq_one]
  refine ⟨q, ?_⟩
  ext i
  simp only [Finset.mem_filter, Finset.mem_univ, true_and, Finset.mem_singleton, Pi.single_apply]
  by_cases h : i = q <;> simp [h]

theorem enumerated_iff (sd : Side n) (hfl : removeFrontLayer sd.hadamards sd.cnots = sd.cnots)
    (x : Vec n) : x ∈ singleFaults sd ++ eyeRows n ↔ EnumeratedFault sd x := by
  rw [List.mem_append, singleFaults, mem_npUnique, hfl, mem_faultList, mem_eyeRows]
  rfl

/-- **C62**: after any history of calls, the fault set for `k` faults contains an equivalent of
every combination of `k` enumerated faults for which no equivalent error has weight within the
bound.  (`hfl`: no CNOT acts on two qubits that are both still in their initial state without
Hadamard.) -/
theorem C62_fault_set_complete (sd : Side n) (hl : ∀ f, CosetLeader f sd.stabs (sd.leader f))
    (hfl : removeFrontLayer sd.hadamards sd.cnots = sd.cnots) (hd : sd.d ≤ sd.dError) (m : ℕ)
    (h : List (Bool × ℕ)) (reduce : Bool) (k : ℕ) (f : List (Vec n)) (s' : Cache n)
    (hc : computeFaultSet sd reduce k (faultHistory sd h (freshCache n m)) = .ok (f, s'))
    (u : Vec n) (hu : SumOf (EnumeratedFault sd) k u)
    (hdang : Dangerous sd.stabs (weightBound sd.d sd.dError k) u) :
    ∃ v ∈ f, Equivalent sd.stabs u v := by
  obtain ⟨hk, r, rfl⟩ := computeFaultSet_value sd m h reduce k f s' hc
  obtain ⟨k', rfl⟩ : ∃ k', k = k' + 1 := ⟨k - 1, by omega⟩
  refine (mem_filterFaults hl).2 u ?_ hdang
  have hU : u ∈ idealU sd (k' + 1) := by
    rw [mem_idealU]; exact (sumOf_congr (enumerated_iff sd hfl) _ _).2 hu
  unfold idealF
  split
  · next h1 =>
    obtain rfl : k' = 0 := by omega
    rcases List.mem_append.1 hU with hU | hU
    · exact hU
    · obtain ⟨q, rfl⟩ := mem_eyeRows.1 hU
      have := hdang _ (.refl _ _)
      rw [wt_single] at this
      have hb := C27_bound sd.d sd.dError 1 hd
      push_cast at this hb
      omega
  · exact hU

/-- **C62**: the calls succeed for every `1 ≤ k ≤ max_errors` when the circuit has a CNOT that is
not in the front layer, after any history. -/
theorem C62_fault_set_defined (sd : Side n) (m : ℕ) (h : List (Bool × ℕ)) (reduce : Bool) (k : ℕ)
    (hk : 1 ≤ k) (hkm : k ≤ m) (hne : removeFrontLayer sd.hadamards sd.cnots ≠ []) :
    ∃ f s', computeFaultSet sd reduce k (faultHistory sd h (freshCache n m)) = .ok (f, s') :=
  computeFaultSet_succeeds sd m reduce k _ (faultHistory_inv sd m h _ (freshCache_inv sd m)) hk hkm hne

/-! ## C64 -/

/-- **C64**: the classes of errors in the returned fault set do not depend on the history of calls
nor on the `reduce` flags used. -/
theorem C64_history_independent (sd : Side n) (hl : ∀ f, CosetLeader f sd.stabs (sd.leader f))
    (m m' : ℕ) (h h' : List (Bool × ℕ)) (r r' : Bool) (k : ℕ) (f f' : List (Vec n)) (s s' : Cache n)
    (hc : computeFaultSet sd r k (faultHistory sd h (freshCache n m)) = .ok (f, s))
    (hc' : computeFaultSet sd r' k (faultHistory sd h' (freshCache n m')) = .ok (f', s')) :
    ∀ v ∈ f, ∃ v' ∈ f', Equivalent sd.stabs v v' := by
  obtain ⟨hk, r1, rfl⟩ := computeFaultSet_value sd m h r k f s hc
  obtain ⟨-, r2, rfl⟩ := computeFaultSet_value sd m' h' r' k f' s' hc'
  intro v hv
  obtain ⟨u, hu, rfl, hd⟩ := (mem_filterFaults hl).1 v hv
  obtain ⟨v', hv', he⟩ := (mem_filterFaults (r := r2) hl).2 u hu hd
  exact ⟨v', hv', (C25_coset_leader _ _ _ (hl u)).1.symm.trans he⟩

/-! ## C63 -/

/-- The claim a user relies on for fault tolerance: the set for one fault covers every dangerous
effect of a single-qubit fault anywhere in the circuit. -/
def SingleFaultsCovered (sd : Side n) (f : List (Vec n)) : Prop :=
  ∀ u, SingleFault sd u → Dangerous sd.stabs (weightBound sd.d sd.dError 1) u →
    ∃ v ∈ f, Equivalent sd.stabs u v

/-- Every dangerous effect of an error present before the first gate is equivalent to that of an error on the control (for Z
errors: target) right after some CNOT. -/
def EarlyCovered (sd : Side n) : Prop :=
  ∀ q, Dangerous sd.stabs (weightBound sd.d sd.dError 1) (faultEffect sd.xErrors sd.cnots 0 q) →
    ∃ i g, sd.cnots[i]? = some g ∧ Equivalent sd.stabs (faultEffect sd.xErrors sd.cnots 0 q)
      (faultEffect sd.xErrors sd.cnots (i + 1) (if sd.xErrors then g.1 else g.2))

/-- **C63**: exactly when the claim holds.  The tool enumerates errors right after CNOTs on their control (target) only, so
what it can miss are errors present before a qubit is used for the first time. -/
theorem C63_covered_iff (sd : Side n) (hl : ∀ f, CosetLeader f sd.stabs (sd.leader f))
    (hfl : removeFrontLayer sd.hadamards sd.cnots = sd.cnots) (hd : sd.d ≤ sd.dError)
    (m : ℕ) (h : List (Bool × ℕ)) (reduce : Bool) (f : List (Vec n)) (s' : Cache n)
    (hc : computeFaultSet sd reduce 1 (faultHistory sd h (freshCache n m)) = .ok (f, s')) :
    SingleFaultsCovered sd f ↔ EarlyCovered sd := by
  constructor
  · intro hcov q hdang
    obtain ⟨v, hv, he⟩ := hcov _ ⟨0, q, by omega, rfl⟩ hdang
    obtain ⟨-, r, rfl⟩ := computeFaultSet_value sd m h reduce 1 f s' hc
    obtain ⟨u, hu, rfl, -⟩ := (mem_filterFaults hl).1 v hv
    have hu' : u ∈ singleFaults sd := by simpa [idealF] using hu
    rw [singleFaults, mem_npUnique, hfl, mem_faultList] at hu'
    obtain ⟨i, g, hg, rfl⟩ := hu'
    exact ⟨i, g, hg, he.trans (C25_coset_leader _ _ _ (hl _)).1.symm⟩
  · intro hearly
    rintro u ⟨i, q, hi, rfl⟩ hdang
    -- the error is unchanged until `q` is a source again
    have key : ∀ i ≤ sd.cnots.length, (∃ j g, sd.cnots[j]? = some g ∧ faultQubit sd.xErrors g = q ∧
        faultEffect sd.xErrors sd.cnots i q = faultEffect sd.xErrors sd.cnots (j + 1) q) ∨
        faultEffect sd.xErrors sd.cnots i q = faultEffect sd.xErrors sd.cnots 0 q := by
      intro i
      induction i with
      | zero => intro _; exact Or.inr rfl
      | succ i ih =>
        intro hi
        have hi' : i < sd.cnots.length := by omega
        by_cases hq : faultQubit sd.xErrors sd.cnots[i] = q
        · exact Or.inl ⟨i, _, List.getElem?_eq_getElem hi', hq, rfl⟩
        · have : faultEffect sd.xErrors sd.cnots (i + 1) q = faultEffect sd.xErrors sd.cnots i q := by
            unfold faultEffect
            rw [List.drop_eq_getElem_cons hi', List.foldl_cons, conj_of_not_source hq]
          rw [this]
          exact ih (by omega)
    have hcomplete : ∀ j g, sd.cnots[j]? = some g →
        Dangerous sd.stabs (weightBound sd.d sd.dError 1)
          (faultEffect sd.xErrors sd.cnots (j + 1) (if sd.xErrors then g.1 else g.2)) →
        ∃ v ∈ f, Equivalent sd.stabs (faultEffect sd.xErrors sd.cnots (j + 1) (if sd.xErrors then g.1 else g.2)) v := by
      intro j g hg hdj
      refine C62_fault_set_complete sd hl hfl hd m h reduce 1 f s' hc _ ?_ hdj
      rw [sumOf_one]
      exact Or.inl ⟨j, g, hg, rfl⟩
    rcases key i hi with ⟨j, g, hg, hq, he⟩ | he
    · rw [he] at hdang ⊢
      rw [← hq] at hdang ⊢
      exact hcomplete j g hg hdang
    · rw [he] at hdang ⊢
      obtain ⟨j, g, hg, heq⟩ := hearly q hdang
      obtain ⟨v, hv, hev⟩ := hcomplete j g hg fun w hw => hdang w (heq.trans hw)
      exact ⟨v, hv, heq.trans hev⟩

/-- **C63 (partial)**: the claim holds for circuits in which every qubit that spreads errors
(control for X, target for Z) is one whose initial error is a stabilizer of the prepared state
(for X errors: every control is a Hadamard qubit).  Missing: qubits initialised without Hadamard
that are later used as controls. -/
theorem C63_single_faults_partial (sd : Side n) (hl : ∀ f, CosetLeader f sd.stabs (sd.leader f))
    (hfl : removeFrontLayer sd.hadamards sd.cnots = sd.cnots) (hd : sd.d ≤ sd.dError)
    (hsrc : ∀ g ∈ sd.cnots,
      faultEffect sd.xErrors sd.cnots 0 (if sd.xErrors then g.1 else g.2) ∈ rowSpan sd.stabs)
    (m : ℕ) (h : List (Bool × ℕ)) (reduce : Bool) (f : List (Vec n)) (s' : Cache n)
    (hc : computeFaultSet sd reduce 1 (faultHistory sd h (freshCache n m)) = .ok (f, s')) :
    SingleFaultsCovered sd f := by
  rw [C63_covered_iff sd hl hfl hd m h reduce f s' hc]
  intro q hdang
  exfalso
  by_cases hsource : ∃ g ∈ sd.cnots, faultQubit sd.xErrors g = q
  · obtain ⟨g, hg, hq⟩ := hsource
    have := hsrc g hg
    rw [show (if sd.xErrors then g.1 else g.2) = q from hq] at this
    exact absurd this (dangerous_not_mem (weightBound_nonneg _ _ _) hdang)
  · push Not at hsource
    have hs : ∀ gs : List (CX n), (∀ g ∈ gs, faultQubit sd.xErrors g ≠ q) →
        gs.foldl (conj sd.xErrors) (Pi.single q 1) = Pi.single q 1 := by
      intro gs
      induction gs with
      | nil => intro _; rfl
      | cons g gs ih =>
        intro hg
        rw [List.foldl_cons, conj_of_not_source (hg g (by simp))]
        exact ih fun g' hg' => hg g' (by simp [hg'])
    have h1 : faultEffect sd.xErrors sd.cnots 0 q = Pi.single q 1 := by
      unfold faultEffect; exact hs _ (by simpa using hsource)
    rw [h1] at hdang
    have := hdang _ (.refl _ _)
    rw [wt_single] at this
    have hb := C27_bound sd.d sd.dError 1 hd
    push_cast at this hb
    omega

/-- Witness against the full claim: the [[4,2,2]] code (`Hx = 1111`), prepared by a Hadamard on
qubit 0 and CNOTs 0→1, 0→2, 2→3. -/
def badSide (leader : Vec 4 → Vec 4) : Side 4 where
  xErrors := true
  cnots := [(0, 1), (0, 2), (2, 3)]
  hadamards := [0]
  stabs := [![1, 1, 1, 1]]
  d := 2
  dError := 2
  leader := leader

/-- **C63 is violated**: on this circuit, which prepares the logical zero state of the [[4,2,2]]
code, the single-fault set is empty although an X fault on qubit 2 between its two CNOTs becomes
X₂X₃, which is not equivalent to any single-qubit error. -/
theorem C63_violated (leader : Vec 4 → Vec 4)
    (hl : ∀ f, CosetLeader f [![1, 1, 1, 1]] (leader f)) :
    ∃ f s', computeFaultSet (badSide leader) true 1 (freshCache 4 1) = .ok (f, s') ∧ f = [] ∧
      ¬ SingleFaultsCovered (badSide leader) f := by
  obtain ⟨f, s', hc⟩ := C62_fault_set_defined (badSide leader) 1 [] true 1 le_rfl le_rfl
    (by simp only [badSide]; decide)
  have hc' : computeFaultSet (badSide leader) true 1 (freshCache 4 1) = .ok (f, s') := hc
  have hnil : f = [] := by
    obtain ⟨-, r, rfl⟩ := computeFaultSet_value (badSide leader) 1 [] true 1 f s' hc
    rw [List.eq_nil_iff_forall_not_mem]
    intro v hv
    obtain ⟨u, hu, rfl, hd⟩ := (mem_filterFaults (sd := badSide leader) hl).1 v hv
    have hb : weightBound (badSide leader).d (badSide leader).dError 1 = 1 := C27_bound_eq 2 1
    rw [hb] at hd
    have hu' : u ∈ faultList true (n := 4) [(0, 1), (0, 2), (2, 3)] := by
      have : u ∈ singleFaults (badSide leader) := by simpa [idealF] using hu
      rw [singleFaults, mem_npUnique] at this
      exact this
    have hlist : faultList true (n := 4) [(0, 1), (0, 2), (2, 3)] =
        [![1, 0, 1, 1], ![1, 0, 0, 0], ![0, 0, 1, 0]] := by decide +kernel
    rw [hlist] at hu'
    have hex : ∃ g : Vec 4, inSpan [![1, 1, 1, 1]] (u + g) = true ∧ wt g ≤ 1 := by
      simp only [List.mem_cons, List.not_mem_nil, or_false] at hu'
      rcases hu' with rfl | rfl | rfl
      · exact ⟨![0, 1, 0, 0], by decide, by decide⟩
      · exact ⟨![1, 0, 0, 0], by decide, by decide⟩
      · exact ⟨![0, 0, 1, 0], by decide, by decide⟩
    obtain ⟨g, hg, hw⟩ := hex
    have := hd g (inSpan_iff.1 hg)
    omega
  refine ⟨f, s', hc', hnil, fun H => ?_⟩
  obtain ⟨v, hv, -⟩ := H (![0, 0, 1, 1]) ⟨2, 2, by simp [badSide], by simp only [badSide]; decide⟩ (by
    intro g hg
    have hg' : inSpan ([![1, 1, 1, 1]] : List (Vec 4)) (![0, 0, 1, 1] + g) = true := inSpan_iff.2 hg
    have hb : weightBound (badSide leader).d (badSide leader).dError 1 = 1 := C27_bound_eq 2 1
    rw [hb]
    have : ∀ g : Vec 4, inSpan ([![1, 1, 1, 1]] : List (Vec 4)) (![0, 0, 1, 1] + g) = true → 1 < wt g := by
      decide +kernel
    exact_mod_cast this g hg')
  simp [hnil] at hv

/-- Hypotheses of C62/C63 are met: the star-shaped preparation circuit of the same state. -/
example : ∃ sd : Side 4, (∀ f, CosetLeader f sd.stabs (sd.leader f)) ∧
    removeFrontLayer sd.hadamards sd.cnots = sd.cnots ∧ sd.d ≤ sd.dError ∧
    (∀ g ∈ sd.cnots, faultEffect sd.xErrors sd.cnots 0 (if sd.xErrors then g.1 else g.2) ∈
      rowSpan sd.stabs) ∧ sd.cnots.length = 3 := by
  refine ⟨⟨true, [(0, 1), (0, 2), (0, 3)], [0], [![1, 1, 1, 1]], 2, 2,
    fun f => (C25_exists f _).choose⟩, fun f => (C25_exists f _).choose_spec, by decide, by simp, ?_, rfl⟩
  intro g hg
  rw [← inSpan_iff]
  revert g
  decide

end Verif.SP
