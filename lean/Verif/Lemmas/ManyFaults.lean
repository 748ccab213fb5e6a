import Verif.Props.PrepFaultTolerance

/-! # What a fault of the first verification round does, in detail -/

namespace Verif.SP
open Verif Verif.Spec
variable {n : ℕ}

/-- Ancillas and result bits other than those of number `k` are clean. -/
def CleanBut (z : Bool) (k : ℕ) (F : Frame VQ VC) : Prop :=
  ∀ i, i ≠ k → F.1.1 (ranc z i) = 0 ∧ (z = false → F.1.2 (ranc z i) = 0) ∧ F.2 (rbit z i) = 0

theorem ranc_inj {z : Bool} {i j : ℕ} : ranc z i = ranc z j ↔ i = j := by cases z <;> simp [ranc]
theorem rbit_inj' {z : Bool} {i j : ℕ} : rbit z i = rbit z j ↔ i = j := by cases z <;> simp [rbit]

/-- Errors of an ancilla stay there. -/
theorem clean_anc {z : Bool} {ms : List (Vec n)} {k : ℕ} {i : Instr VQ VC} (h : i ∈ firstRound z ms) (F : Frame VQ VC)
    (hF : CleanBut z k F) (ht : tp n z F = 0) : CleanBut z k (frameStep F i) := by
  have ht' : ∀ j : Fin n, (if z then F.1.1 (.data j) else F.1.2 (.data j)) = 0 := fun j => congrFun ht j
  intro a ha
  obtain ⟨h1, h2, h3⟩ := hF a ha
  rcases mem_firstRound h with ⟨b, rfl, rfl⟩ | ⟨b, j, rfl⟩ | ⟨b, rfl⟩
  · have h2 := h2 rfl
    by_cases hab : b = a
    · subst hab; simp [frameStep, h1, h2, h3]
    · have : ranc false b ≠ ranc false a := fun e => hab (ranc_inj.1 e)
      simp [frameStep, h1, h2, h3, Finsupp.single_apply, this]
  · have hj := ht' j
    have hd : ∀ m : ℕ, VQ.data m ≠ ranc z a := fun m => (ranc_ne_data z a m).symm
    cases z
    · have h2 := h2 rfl
      simp only [Bool.false_eq_true, if_false] at hj
      simp [frameStep, h1, h2, h3, Finsupp.single_apply, hd, hj]
    · simp only [if_true] at hj
      simp [frameStep, h1, h3, Finsupp.single_apply, hj]
  · refine ⟨h1, h2, ?_⟩
    by_cases hab : a = b
    · subst hab; simp [frameStep, h1, h3]
    · have : rbit z a ≠ rbit z b := fun e => hab (rbit_inj'.1 e)
      simp [frameStep, h3, Pi.single_apply, this]

theorem clean_ancs {z : Bool} {ms : List (Vec n)} {k : ℕ} (l : List (Instr VQ VC)) (h : ∀ i ∈ l, i ∈ firstRound z ms)
    (F : Frame VQ VC) (hF : CleanBut z k F) (ht : tp n z F = 0) : CleanBut z k (prop l F) := by
  induction l generalizing F with
  | nil => exact hF
  | cons i l ih =>
    rw [prop_cons]
    refine ih (fun j hj => h j (by simp [hj])) _ (clean_anc (h i (by simp)) F hF ht) ?_
    rw [tp_firstRound_step (h i (by simp)), ht]

/-- The instructions of one measurement before the reading of all Z ancillas. -/
def block (z : Bool) (p : Vec n × ℕ) : List (Instr VQ VC) :=
  if z then (supp p.1).map fun q => .cx q (.zanc p.2) else measureUnflagged false (supp p.1) (.xanc p.2) (.xc p.2)

/-- The reading of all Z ancillas. -/
def readAll (z : Bool) (k : ℕ) : List (Instr VQ VC) := if z then (List.range k).map fun i => .measure (.zanc i) (.zc i) else []

theorem firstRound_blocks (z : Bool) (ms : List (Vec n)) :
    firstRound z ms = (ms.zipIdx.map (block z)).flatten ++ readAll z ms.length := by
  cases z <;> simp [firstRound, block, readAll] <;> rfl

/-- The instructions of a block. -/
theorem mem_block {z : Bool} {p : Vec n × ℕ} {i : Instr VQ VC} (h : i ∈ block z p) :
    (i = .h (ranc z p.2) ∧ z = false) ∨
    (∃ j : Fin n, p.1 j ≠ 0 ∧ i = if z then .cx (.data j) (ranc z p.2) else .cx (ranc z p.2) (.data j)) ∨
    (i = .measure (ranc z p.2) (rbit z p.2) ∧ z = false) := by
  cases z
  · simp only [block, Bool.false_eq_true, if_false, measureUnflagged, List.mem_append, List.mem_singleton, List.mem_map, supp,
      List.mem_filter] at h
    rcases h with ((rfl | ⟨q, ⟨j, hj, rfl⟩, rfl⟩) | rfl) | rfl
    · exact .inl ⟨rfl, rfl⟩
    · exact .inr (.inl ⟨j, by simpa using hj.2, rfl⟩)
    · exact .inl ⟨rfl, rfl⟩
    · exact .inr (.inr ⟨rfl, rfl⟩)
  · simp only [block, if_true, List.mem_map, supp, List.mem_filter] at h
    obtain ⟨q, ⟨j, hj, rfl⟩, rfl⟩ := h
    exact .inr (.inl ⟨j, by simpa using hj.2, rfl⟩)

/-- A measurement touches no other ancilla. -/
theorem clean_block {z : Bool} {p : Vec n × ℕ} {i : Instr VQ VC} (h : i ∈ block z p) (F : Frame VQ VC)
    (hF : CleanBut z p.2 F) : CleanBut z p.2 (frameStep F i) := by
  intro a ha
  obtain ⟨h1, h2, h3⟩ := hF a ha
  have hab : ranc z p.2 ≠ ranc z a := fun e => ha (ranc_inj.1 e).symm
  have hbb : rbit z a ≠ rbit z p.2 := fun e => ha (rbit_inj'.1 e)
  rcases mem_block h with ⟨rfl, rfl⟩ | ⟨j, -, rfl⟩ | ⟨rfl, rfl⟩
  · simp [frameStep, h1, h2 rfl, h3, Finsupp.single_apply, hab]
  · have hd : ∀ m : ℕ, VQ.data m ≠ ranc z a := fun m => (ranc_ne_data z a m).symm
    cases z
    · simp [frameStep, h1, h2 rfl, h3, Finsupp.single_apply, hd, hab]
    · simp [frameStep, h1, h3, Finsupp.single_apply, hab]
  · simp [frameStep, h1, h2 rfl, h3, Pi.single_apply, hbb]

theorem clean_blocks {z : Bool} {p : Vec n × ℕ} (l : List (Instr VQ VC)) (h : ∀ i ∈ l, i ∈ block z p) (F : Frame VQ VC)
    (hF : CleanBut z p.2 F) : CleanBut z p.2 (prop l F) := by
  induction l generalizing F with
  | nil => exact hF
  | cons i l ih => rw [prop_cons]; exact ih (fun j hj => h j (by simp [hj])) _ (clean_block (h i (by simp)) F hF)

/-- The later measurements read the data; the earlier ones are not changed. -/
theorem rest_bits (z : Bool) (k N : ℕ) (L : List (Vec n × ℕ)) (hL : L.Pairwise fun a b => a.2 ≠ b.2) (hk : ∀ p ∈ L, p.2 ≠ k)
    (hN : ∀ p ∈ L, p.2 < N) (F : Frame VQ VC) (hF : CleanBut z k F) :
    (∀ p ∈ L, (prop ((L.map (block z)).flatten ++ readAll z N) F).2 (rbit z p.2) = dot p.1 (tp n z F)) ∧
    ∀ i, i ≠ k → (∀ p ∈ L, p.2 ≠ i) → (prop ((L.map (block z)).flatten ++ readAll z N) F).2 (rbit z i) = 0 := by
  cases z
  · have e : (L.map (block false)).flatten ++ readAll false N =
        (L.map fun p => measureUnflagged false (supp p.1) (.xanc p.2) (VC.xc p.2)).flatten := by
      simp [block, readAll]; rfl
    rw [e]
    obtain ⟨h1, h2⟩ := prop_xgadgets L hL F fun p hp => ⟨(hF p.2 (hk p hp)).1, (hF p.2 (hk p hp)).2.1 rfl⟩
    refine ⟨fun p hp => ?_, fun i hi hne => ?_⟩
    · have h0 : F.2 (.xc p.2) = 0 := (hF p.2 (hk p hp)).2.2
      have := h1 p hp
      rw [h0, zero_add] at this
      exact this
    · have h0 : F.2 (.xc i) = 0 := (hF i hi).2.2
      show (prop _ F).2 (.xc i) = 0
      rw [h2 _ fun p hp e => hne p hp (by simpa using e.symm), h0]
  · have e : (L.map (block true)).flatten ++ readAll true N =
        (L.map fun p => (supp p.1).map fun q => (.cx q (.zanc p.2) : Instr VQ VC)).flatten ++
          (List.range N).map fun i => .measure (.zanc i) (.zc i) := by
      simp [block, readAll]; rfl
    rw [e, prop_append]
    obtain ⟨h1, h2, h3⟩ := prop_zcx L hL F
    obtain ⟨-, g2, g3⟩ := prop_meas (fun i => .zanc i) (fun i => .zc i) (fun a b h => by simpa using h)
      (List.range N) List.nodup_range (prop (L.map fun p => (supp p.1).map fun q =>
        (.cx q (.zanc p.2) : Instr VQ VC)).flatten F)
    refine ⟨fun p hp => ?_, fun i hi hne => ?_⟩
    · have h0 : F.2 (.zc p.2) = 0 := (hF p.2 (hk p hp)).2.2
      have h0' : F.1.1 (.zanc p.2) = 0 := (hF p.2 (hk p hp)).1
      have := g2 p.2 (by simpa using hN p hp)
      rw [h3, h0, zero_add, h1 p hp, h0', zero_add] at this
      exact this
    · have h0 : F.2 (.zc i) = 0 := (hF i hi).2.2
      have h0' : F.1.1 (.zanc i) = 0 := (hF i hi).1
      show (prop _ _).2 (VC.zc i) = 0
      by_cases hi' : i < N
      · rw [g2 i (by simpa using hi'), h3, h0, zero_add, h2 _ fun p hp e => hne p hp (by simpa using e.symm), h0']
      · rw [g3 _ fun j hj e => hi' (by simp at hj e; omega), h3, h0]

/-- What one fault of the round does to the data and to the results: nothing to the data and at most one result flipped, or one
data error, seen from some measurement on. -/
def RoundEffect (z : Bool) (L : List (Vec n × ℕ)) (u : Vec n) (bits : VC → ZMod 2) : Prop :=
  (u = 0 ∧ ∃ k, ∀ i, i ≠ k → bits (rbit z i) = 0) ∨
  ∃ q k, u = Pi.single q 1 ∧ ∀ p ∈ L, bits (rbit z p.2) = if k ≤ p.2 then p.1 q else 0

theorem flatten_split {α : Type} (Ls : List (List α)) (M a r : List α) (i : α) (h : Ls.flatten ++ M = a ++ i :: r) :
    (∃ L1 B L2 b1 b2, Ls = L1 ++ B :: L2 ∧ B = b1 ++ i :: b2 ∧ r = b2 ++ (L2.flatten ++ M)) ∨ ∃ a', M = a' ++ i :: r := by
  induction Ls generalizing a with
  | nil => exact .inr ⟨a, by simpa using h⟩
  | cons B Ls ih =>
    rw [List.flatten_cons, List.append_assoc] at h
    rcases List.append_eq_append_iff.1 h with ⟨c, hc1, hc2⟩ | ⟨c, hc1, hc2⟩
    · rcases ih c hc2 with ⟨L1, B', L2, b1, b2, e1, e2, e3⟩ | h'
      · exact .inl ⟨B :: L1, B', L2, b1, b2, by rw [e1]; rfl, e2, e3⟩
      · exact .inr h'
    · cases c with
      | nil =>
        rw [List.nil_append] at hc2
        rcases ih [] (by rw [← hc2]; rfl) with ⟨L1, B', L2, b1, b2, e1, e2, e3⟩ | h'
        · exact .inl ⟨B :: L1, B', L2, b1, b2, by rw [e1]; rfl, e2, e3⟩
        · exact .inr h'
      | cons i' c =>
        rw [List.cons_append, List.cons.injEq] at hc2
        obtain ⟨rfl, rfl⟩ := hc2
        exact .inl ⟨[], B, Ls, a, c, rfl, hc1, rfl⟩

theorem zipIdx_lt {α : Type} (l : List α) (o : ℕ) : (l.zipIdx o).Pairwise fun a b => a.2 < b.2 := by
  induction l generalizing o with
  | nil => simp
  | cons a l ih =>
    rw [List.zipIdx_cons, List.pairwise_cons]
    refine ⟨fun b hb => ?_, ih _⟩
    have := List.le_snd_of_mem_zipIdx hb
    simpa using this

theorem tp_zero_of {z : Bool} {P : PauliErr VQ} (h : ∀ i : Fin n, ¬ P.ActsOn (.data i)) : tp n z (P, (0 : VC → ZMod 2)) = 0 := by
  funext i
  have := h i
  simp only [PauliErr.ActsOn, not_or, not_not] at this
  cases z
  · exact this.2
  · exact this.1

/-- A fault on one qubit outside the data register. -/
theorem round_other {z : Bool} {ms : List (Vec n)} (L : List (Vec n × ℕ)) (l : List (Instr VQ VC))
    (h : ∀ i ∈ l, i ∈ firstRound z ms) (P : PauliErr VQ) (q : VQ) (hq : ∀ i : Fin n, q ≠ .data i) (hP : ∀ p, P.ActsOn p → p = q) :
    RoundEffect z L (tp n z (P, 0)) (prop l (P, 0)).2 := by
  have ht : tp n z (P, (0 : VC → ZMod 2)) = 0 := tp_zero_of fun i hi => hq i (hP _ hi).symm
  have hno : ∀ p, p ≠ q → P.1 p = 0 ∧ P.2 p = 0 := by
    intro p hp
    have : ¬ P.ActsOn p := fun h => hp (hP p h)
    simpa [PauliErr.ActsOn] using this
  left
  refine ⟨ht, ?_⟩
  by_cases hk : ∃ k, q = ranc z k
  · obtain ⟨k, rfl⟩ := hk
    refine ⟨k, fun i hi => (clean_ancs l h (P, 0) (fun a ha => ?_) ht i hi).2.2⟩
    have := hno (ranc z a) fun e => ha (ranc_inj.1 e)
    exact ⟨this.1, fun _ => this.2, rfl⟩
  · refine ⟨0, fun i hi => (clean_ancs l h (P, 0) (fun a ha => ?_) ht i hi).2.2⟩
    have := hno (ranc z a) fun e => hk ⟨a, e.symm⟩
    exact ⟨this.1, fun _ => this.2, rfl⟩

/-- A fault on one qubit of the data register. -/
theorem round_data {z : Bool} {ms : List (Vec n)} (L1 L2 : List (Vec n × ℕ)) (p : Vec n × ℕ) (hL : ms.zipIdx = L1 ++ p :: L2)
    (b : List (Instr VQ VC)) (hb : ∀ i ∈ b, i ∈ block z p) (P : PauliErr VQ) (j : Fin n)
    (hP : ∀ q, P.ActsOn q → q = .data j ∨ (q = ranc z p.2 ∧ p.1 j ≠ 0)) :
    RoundEffect z ms.zipIdx (tp n z (P, 0)) (prop (b ++ ((L2.map (block z)).flatten ++ readAll z ms.length)) (P, 0)).2 := by
  have hpw := zipIdx_lt ms 0
  rw [hL, List.pairwise_append, List.pairwise_cons] at hpw
  obtain ⟨-, ⟨hpw1, hpw2⟩, hpw3⟩ := hpw
  have hmem : ∀ p' ∈ L2, p' ∈ ms.zipIdx := fun p' hp' => by rw [hL]; simp [hp']
  have hno : ∀ q, q ≠ .data j → q ≠ ranc z p.2 → P.1 q = 0 ∧ P.2 q = 0 := by
    intro q h1 h2
    have : ¬ P.ActsOn q := fun h => by
      rcases hP q h with h | h
      · exact h1 h
      · exact h2 h.1
    simpa [PauliErr.ActsOn] using this
  have hclean : CleanBut z p.2 (P, (0 : VC → ZMod 2)) := by
    intro a ha
    have := hno (ranc z a) (ranc_ne_data z a j) fun e => ha (ranc_inj.1 e)
    exact ⟨this.1, fun _ => this.2, rfl⟩
  have hG := clean_blocks b hb _ hclean
  have hmemb : ∀ i ∈ b, i ∈ firstRound z ms := by
    intro i hi
    rw [firstRound_blocks, hL]
    simp only [List.map_append, List.map_cons, List.flatten_append, List.flatten_cons, List.mem_append]
    exact .inl (.inr (.inl (hb i hi)))
  have htG : tp n z (prop b (P, (0 : VC → ZMod 2))) = tp n z (P, 0) := tp_firstRound b hmemb _
  obtain ⟨r1, r2⟩ := rest_bits z p.2 ms.length L2 (hpw2.imp fun h => h.ne) (fun p' hp' => (hpw1 p' hp').ne')
    (fun p' hp' => by simpa using List.snd_lt_of_mem_zipIdx (hmem p' hp')) _ hG
  rw [prop_append]
  set G := prop b (P, (0 : VC → ZMod 2)) with hGdef
  set H := prop ((L2.map (block z)).flatten ++ readAll z ms.length) G with hH
  rw [htG] at r1
  have hu : ∀ i, tp n z (P, (0 : VC → ZMod 2)) i ≠ 0 → i = j := by
    intro i hi
    have hact : P.ActsOn (.data i) := by
      cases z
      · exact .inr hi
      · exact .inl hi
    rcases hP _ hact with h | h
    · exact data_inj.1 h
    · exact absurd h.1.symm (ranc_ne_data z p.2 i)
  have hearly : ∀ p' ∈ L1, H.2 (rbit z p'.2) = 0 := by
    intro p' hp'
    refine r2 _ (hpw3 p' hp' p (by simp)).ne fun p'' hp'' => ?_
    exact (hpw3 p' hp' p'' (by simp [hp''])).ne'
  rcases vec_one _ j hu with h0 | h1
  · left
    refine ⟨h0, p.2, fun i hi => ?_⟩
    by_cases hin : ∃ p' ∈ L2, p'.2 = i
    · obtain ⟨p', hp', rfl⟩ := hin
      rw [r1 p' hp', h0]; simp [dot]
    · push Not at hin
      exact r2 i hi hin
  · right
    have hdot : ∀ v : Vec n, dot v (Pi.single j 1) = v j := by
      intro v; simp [dot, Pi.single_apply]
    -- the result of this measurement
    have hown : H.2 (rbit z p.2) = 0 ∨ H.2 (rbit z p.2) = p.1 j := by
      by_cases hj : p.1 j = 0
      · left
        have hdata : ∀ q, P.ActsOn q → q = .data j := fun q hq => by
          rcases hP q hq with h | h
          · exact h
          · exact absurd hj h.2
        have hGP : G = (P, 0) := by
          refine prop_other b P fun i hi q hq hact => ?_
          rw [hdata q hact] at hq
          rcases mem_block (hb i hi) with ⟨rfl, -⟩ | ⟨m, hm, rfl⟩ | ⟨rfl, -⟩
          · simp only [Instr.qubits, List.mem_singleton] at hq; exact ranc_ne_data z _ _ hq.symm
          · have : VQ.data j = .data m := by
              cases z
              · simp only [Bool.false_eq_true, if_false, Instr.qubits, List.mem_cons, List.not_mem_nil, or_false] at hq
                rcases hq with hq | hq
                · exact absurd hq.symm (ranc_ne_data _ _ _)
                · exact hq
              · simp only [if_true, Instr.qubits, List.mem_cons, List.not_mem_nil, or_false] at hq
                rcases hq with hq | hq
                · exact hq
                · exact absurd hq.symm (ranc_ne_data _ _ _)
            rw [data_inj.1 this] at hj
            exact hm hj
          · simp only [Instr.qubits, List.mem_singleton] at hq; exact ranc_ne_data z _ _ hq.symm
        -- then this ancilla is clean as well: use another excluded number
        have hno' : ∀ a, (P : PauliErr VQ).1 (ranc z a) = 0 ∧ P.2 (ranc z a) = 0 := by
          intro a
          have : ¬ P.ActsOn (ranc z a) := fun h => ranc_ne_data z a j (hdata _ h)
          simpa [PauliErr.ActsOn] using this
        have hc' : CleanBut z (ms.length) G := by
          intro a _; rw [hGP]; exact ⟨(hno' a).1, fun _ => (hno' a).2, rfl⟩
        have hplt : p.2 < ms.length := by
          have : p ∈ ms.zipIdx := by rw [hL]; simp
          simpa using List.snd_lt_of_mem_zipIdx this
        obtain ⟨-, r2'⟩ := rest_bits z ms.length ms.length L2 (hpw2.imp fun h => h.ne)
          (fun p' hp' => by have := List.snd_lt_of_mem_zipIdx (hmem p' hp'); simp at this; omega)
          (fun p' hp' => by simpa using List.snd_lt_of_mem_zipIdx (hmem p' hp')) G hc'
        exact r2' p.2 hplt.ne fun p' hp' => (hpw1 p' hp').ne'
      · have hj1 : p.1 j = 1 := by rcases zmod2_cases (p.1 j) with h | h; exact absurd h hj; exact h
        rw [hj1]; exact zmod2_cases _
    rcases hown with hown | hown
    · refine ⟨j, p.2 + 1, h1, fun p' hp' => ?_⟩
      rw [hL, List.mem_append, List.mem_cons] at hp'
      rcases hp' with hp' | rfl | hp'
      · rw [hearly p' hp', if_neg]
        have := hpw3 p' hp' p (by simp); omega
      · rw [hown, if_neg (by omega)]
      · rw [r1 p' hp', h1, hdot, if_pos]
        have := hpw1 p' hp'; omega
    · refine ⟨j, p.2, h1, fun p' hp' => ?_⟩
      rw [hL, List.mem_append, List.mem_cons] at hp'
      rcases hp' with hp' | rfl | hp'
      · rw [hearly p' hp', if_neg]
        have := hpw3 p' hp' p (by simp); omega
      · rw [hown, if_pos le_rfl]
      · rw [r1 p' hp', h1, hdot, if_pos]
        exact (hpw1 p' hp').le

/-- Faults of the first round. -/
theorem round_fault (z : Bool) (ms : List (Vec n)) : AllSplits (fun i r => ∀ P : PauliErr VQ, FaultAt i P →
    RoundEffect z ms.zipIdx (tp n z (P, 0)) (prop (i :: r) (P, 0)).2 ∧
    RoundEffect z ms.zipIdx (tp n z (P, 0)) (prop r (P, 0)).2) (firstRound z ms) := by
  refine AllSplits.of fun a i r hsplit P hP => ?_
  have hmem : ∀ j ∈ i :: r, j ∈ firstRound z ms := fun j hj => by rw [hsplit]; exact List.mem_append_right _ hj
  have hmem' : ∀ j ∈ r, j ∈ firstRound z ms := fun j hj => hmem j (by simp [hj])
  by_cases hsq : ∃ q, (∀ i : Fin n, q ≠ .data i) ∧ ∀ p, P.ActsOn p → p = q
  · obtain ⟨q, hq, hPq⟩ := hsq
    exact ⟨round_other _ _ hmem P q hq hPq, round_other _ _ hmem' P q hq hPq⟩
  push Not at hsq
  rw [firstRound_blocks] at hsplit
  rcases flatten_split _ _ _ _ _ hsplit with ⟨L1, B, L2, b1, b2, e1, e2, e3⟩ | ⟨a', ha'⟩
  · obtain ⟨K1, K2, hK, rfl, hK2⟩ := List.map_eq_append_iff.1 e1
    obtain ⟨p, K3, rfl, rfl, rfl⟩ := List.map_eq_cons_iff.1 hK2
    have hb1 : ∀ x ∈ i :: b2, x ∈ block z p := fun x hx => by rw [e2]; exact List.mem_append_right _ hx
    have hb2 : ∀ x ∈ b2, x ∈ block z p := fun x hx => hb1 x (by simp [hx])
    have hj : ∃ j : Fin n, ∀ q, P.ActsOn q → q = .data j ∨ (q = ranc z p.2 ∧ p.1 j ≠ 0) := by
      rcases hP with ⟨q, hPq⟩ | hPq
      · by_cases hq : ∃ j : Fin n, q = .data j
        · obtain ⟨j, rfl⟩ := hq
          exact ⟨j, fun q hq => .inl (hPq q hq)⟩
        · push Not at hq
          obtain ⟨p', hp', hne⟩ := hsq q hq
          exact absurd (hPq p' hp') hne
      · rcases mem_block (hb1 i (by simp)) with ⟨rfl, -⟩ | ⟨j, hj, rfl⟩ | ⟨rfl, -⟩
        · obtain ⟨p', hp', hne⟩ := hsq (ranc z p.2) fun i => ranc_ne_data _ _ _
          exact absurd (by simpa [Instr.qubits] using hPq p' hp') hne
        · refine ⟨j, fun q hq => ?_⟩
          have := hPq q hq
          cases z
          · simp only [Bool.false_eq_true, if_false, Instr.qubits, List.mem_cons, List.not_mem_nil, or_false] at this
            rcases this with h | h
            · exact .inr ⟨h, hj⟩
            · exact .inl h
          · simp only [if_true, Instr.qubits, List.mem_cons, List.not_mem_nil, or_false] at this
            rcases this with h | h
            · exact .inl h
            · exact .inr ⟨h, hj⟩
        · obtain ⟨p', hp', hne⟩ := hsq (ranc z p.2) fun i => ranc_ne_data _ _ _
          exact absurd (by simpa [Instr.qubits] using hPq p' hp') hne
    obtain ⟨j, hj⟩ := hj
    rw [e3]
    exact ⟨round_data K1 K3 p hK (i :: b2) hb1 P j hj, round_data K1 K3 p hK b2 hb2 P j hj⟩
  · -- the readings do not touch the data
    have hz : z = true := by
      cases z with
      | true => rfl
      | false => simp [readAll] at ha'
    subst hz
    have hmeas : ∀ x ∈ i :: r, ∃ k, x = .measure (.zanc k) (.zc k) := by
      intro x hx
      have : x ∈ readAll true ms.length := by rw [ha']; exact List.mem_append_right _ hx
      simp only [readAll, if_true, List.mem_map] at this
      obtain ⟨k, -, rfl⟩ := this
      exact ⟨k, rfl⟩
    have hj : ∃ j : Fin n, ∀ q, P.ActsOn q → q = .data j := by
      rcases hP with ⟨q, hPq⟩ | hPq
      · by_cases hq : ∃ j : Fin n, q = .data j
        · obtain ⟨j, rfl⟩ := hq
          exact ⟨j, hPq⟩
        · push Not at hq
          obtain ⟨p', hp', hne⟩ := hsq q hq
          exact absurd (hPq p' hp') hne
      · obtain ⟨k, rfl⟩ := hmeas i (by simp)
        obtain ⟨p', hp', hne⟩ := hsq (.zanc k) (by simp)
        exact absurd (by simpa [Instr.qubits] using hPq p' hp') hne
    obtain ⟨j, hj⟩ := hj
    have hprop : ∀ l : List (Instr VQ VC), (∀ x ∈ l, ∃ k, x = .measure (.zanc k) (.zc k)) → prop l (P, 0) = (P, 0) := by
      intro l hl
      refine prop_other l P fun x hx q hq hact => ?_
      obtain ⟨k, rfl⟩ := hl x hx
      rw [hj q hact] at hq
      simp [Instr.qubits] at hq
    have hu : ∀ i, tp n true (P, (0 : VC → ZMod 2)) i ≠ 0 → i = j := fun i hi => data_inj.1 (hj _ (.inl hi))
    have heff : RoundEffect true ms.zipIdx (tp n true (P, 0)) (0 : VC → ZMod 2) := by
      rcases vec_one _ j hu with h0 | h1
      · exact .inl ⟨h0, 0, fun _ _ => rfl⟩
      · refine .inr ⟨j, ms.length, h1, fun p hp => ?_⟩
        have := List.snd_lt_of_mem_zipIdx hp
        rw [if_neg (by simp at this; omega)]; rfl
    rw [hprop _ hmeas, hprop _ fun x hx => hmeas x (by simp [hx])]
    exact ⟨heff, heff⟩

end Verif.SP
