import Verif.Lemmas.PrepFull6

/-! # The two kinds of faults that can break the tolerance -/

namespace Verif.SP
open Verif Verif.Spec
variable {n : ℕ} {R : Type} [CommRing R]

/-- One fault before an instruction. -/
theorem single_fault (A : List (Instr VQ VC)) (i : Instr VQ VC) (r : List (Instr VQ VC)) (P : PauliErr VQ) (h : FaultAt i P) :
    ∃ N : List (NoisyInstr VQ VC), N.map NoisyInstr.instr = A ++ i :: r ∧ AllFaults N ∧ faultCount N ≤ 1 ∧
      noisyFrame N 0 = prop (i :: r) (P, 0) := by
  refine ⟨A.map clean ++ ⟨P, i, 0⟩ :: r.map clean, ?_, ?_, ?_, ?_⟩
  · simp only [List.map_append, List.map_cons, map_clean]
  · intro L hL
    rcases List.mem_append.1 hL with hL | hL
    · exact allFaults_clean A L hL
    · rcases List.mem_cons.1 hL with rfl | hL
      · exact ⟨h, .inr fun p hp => by simp [PauliErr.ActsOn] at hp⟩
      · exact allFaults_clean r L hL
  · have e : A.map clean ++ ⟨P, i, 0⟩ :: r.map clean = A.map clean ++ ([⟨P, i, 0⟩] ++ r.map clean) := by simp
    rw [e, faultCount_append, faultCount_append, faultCount_clean, faultCount_clean]
    classical
    simp only [faultCount, List.map_cons, List.map_nil, List.sum_cons, List.sum_nil]
    split <;> simp
  · have : noisyFrame (A.map clean ++ ⟨P, i, 0⟩ :: r.map clean) 0 =
        noisyFrame (r.map clean) (frameStep (noisyFrame (A.map clean) 0 + (P, 0)) i + (0, 0)) := by
      rw [noisyFrame_append]; rfl
    rw [this, noisyFrame_clean, noisyFrame_clean, prop_zero, zero_add, prop_cons]
    rw [show ((0, 0) : Frame VQ VC) = 0 from rfl, add_zero]

variable (z : Bool) (c : PrepCircuit n) (t : ℕ) (m1 m2 : List (Vec n)) (S T : List (Vec n))
  (hnd : c.hadamards.Nodup) (hne : ∀ g ∈ c.cnots, g.1 ≠ g.2) (hS : Prepares z c S)
  (h1 : ∀ m ∈ m1, ∀ r ∈ S, dot r m = 0) (h2 : ∀ m ∈ m2, m ∈ rowSpan S) (W : Bool → ℤ)

theorem tp_errAt_other (k : Bool) (q : Fin n) : tp n (!k) (errAt k (.data q), 0) = 0 := by
  funext i; cases k <;> simp [tp, errAt]

include hnd hne hS h1 h2 in
theorem prep_breaks (s : R) (hs : 2 * s * s = 1) [Nontrivial R] (hf : FlagsOk t m2) (l : List (Instr VQ VC))
    (hl : l = prepInstrs c ++ (bothRounds z t m1 m2 ++ againZ z m2.length)) (k : Bool) (U : List (Vec n)) (hU : Prepares k c U)
    (hw : 1 ≤ W k) (j : ℕ) (q : Fin n) (hj : j ≤ c.cnots.length) (hd : Dangerous U (W k) (faultEffect k c.cnots j q))
    (hu1 : k = z → ∀ m ∈ m1, dot m (faultEffect k c.cnots j q) = 0)
    (hu2 : k = (!z) → ∀ m ∈ m2, dot m (faultEffect k c.cnots j q) = 0) :
    ¬ ToleratesOneFaultBoth s (fun i : Fin n => VQ.data i) (W true) (W false) l (usedQubits (fun i : Fin n => VQ.data i) l) := by
  have hlt : j < c.cnots.length := by
    rcases hj.lt_or_eq with h | h
    · exact h
    · exfalso
      have : faultEffect k c.cnots j q = Pi.single q 1 := by rw [h, faultEffect_end]
      rw [this] at hd
      have h1 := hd _ (.refl _ _)
      rw [wt_single] at h1
      push_cast at h1
      omega
  set g := c.cnots[j] with hg
  have hdrop : c.cnots.drop j = g :: c.cnots.drop (j + 1) := List.drop_eq_getElem_cons hlt
  set cxs : List (CX n) → List (Instr VQ VC) := fun l => l.map fun g => .cx (.data g.1) (.data g.2) with hcxs
  set A : List (Instr VQ VC) := c.hadamards.map (fun q : Fin n => .h (.data q)) ++ cxs (c.cnots.take j) with hA
  set i : Instr VQ VC := .cx (.data g.1) (.data g.2) with hi
  set r : List (Instr VQ VC) := cxs (c.cnots.drop (j + 1)) ++ firstRound z m1 with hr
  have hsplit : prepInstrs c ++ firstRound z m1 = A ++ i :: r := by
    have : c.cnots = c.cnots.take j ++ g :: c.cnots.drop (j + 1) := by rw [← hdrop, List.take_append_drop]
    rw [prepInstrs, hA, hr, hi]
    conv_lhs => rw [this]
    simp [hcxs]
  set P := errAt k (.data q) with hP
  obtain ⟨N, hN, hNf, hNc, hNF⟩ := single_fault A i r P (.inl ⟨.data q, fun p hp => errAt_acts k _ p hp⟩)
  set D : Frame VQ VC := prop (cxs (c.cnots.drop j)) (P, 0) with hD
  have hFr : noisyFrame N 0 = prop (firstRound z m1) D := by
    rw [hNF, hD, ← prop_append, hdrop]
    rfl
  have hDo : DataOnly n D := dataOnly_cxs _ _ ⟨fun p hp => ⟨q, errAt_acts k _ p hp⟩, rfl⟩
  have hDk : tp n k D = faultEffect k c.cnots j q := by
    rw [hD, hcxs, tp_cxs, hP, tp_errAt]; rfl
  have hDo' : tp n (!k) D = 0 := by
    rw [hD, hcxs, tp_cxs, hP, tp_errAt_other, foldl_conj_zero]
  obtain ⟨d1, d2⟩ := data_pass z t m1 m2 hf D hDo
  have hzero : ∀ k', k' ≠ k → ∀ m : Vec n, dot m (tp n k' D) = 0 := by
    intro k' hk' m
    have : k' = !k := by cases k <;> cases k' <;> simp_all
    rw [this, hDo', dot_zero_right]
  refine not_tolerates_of z c t m1 m2 S hnd hne hS h1 h2 W s hs hf l hl N (by rw [hN, hsplit]) hNf hNc
    (prop (bothRounds z t m1 m2) D) (by rw [hFr, bothRounds, prop_append]) ?_ k U hU (by rw [d1, hDk]; exact hd)
  intro b hb
  refine d2 b hb ?_ ?_
  · intro m hm
    by_cases hkz : k = z
    · rw [← hkz, hDk]; exact hu1 hkz m hm
    · exact hzero z (Ne.symm hkz) m
  · intro m hm
    by_cases hkz : k = (!z)
    · rw [← hkz, hDk]; exact hu2 hkz m hm
    · exact hzero _ (Ne.symm hkz) m

/-! ### Undetected hook errors -/

theorem drop_filter (L : List (Fin n)) (hs : L.Pairwise (· < ·)) (k : ℕ) : ∃ j, L.drop j = L.filter fun i => decide (k ≤ i.val) := by
  induction L with
  | nil => exact ⟨0, rfl⟩
  | cons a L ih =>
    obtain ⟨h1, h2⟩ := List.pairwise_cons.1 hs
    by_cases hk : k ≤ a.val
    · refine ⟨0, ?_⟩
      rw [List.drop_zero, List.filter_eq_self.2]
      intro i hi
      rcases List.mem_cons.1 hi with rfl | hi
      · simpa using hk
      · have : a.val < i.val := h1 i hi
        simp; omega
    · obtain ⟨j, hj⟩ := ih h2
      refine ⟨j + 1, ?_⟩
      rw [List.drop_succ_cons, hj, List.filter_cons_of_neg (by simpa using hk)]

theorem hook_is_drop (m e : Vec n) (h : isHookError m e) :
    ∃ j, ∀ i : Fin n, e i = (((supp m).drop j).count (.data i) : ZMod 2) := by
  obtain ⟨k, hk⟩ := h
  obtain ⟨j, hj⟩ := drop_filter ((List.finRange n).filter fun i => decide (m i ≠ 0)) ((List.pairwise_lt_finRange n).filter _) k
  refine ⟨j, fun i => ?_⟩
  rw [supp, ← List.map_drop, hj]
  have hinj : Function.Injective fun i : Fin n => VQ.data i := fun a b h => data_inj.1 h
  rw [List.count_map_of_injective _ (fun i : Fin n => VQ.data i) hinj i, hk i]
  have hnodup : (((List.finRange n).filter fun i => decide (m i ≠ 0)).filter fun i => decide (k ≤ i.val)).Nodup :=
    ((List.nodup_finRange n).filter _).filter _
  by_cases hi : k ≤ i.val
  · rw [if_pos hi]
    rcases zmod2_cases (m i) with h0 | h0
    · rw [List.count_eq_zero_of_not_mem (by simp [h0]), h0]; rfl
    · rw [List.count_eq_one_of_mem hnodup (by simp [h0, hi]), h0]; rfl
  · rw [if_neg hi, List.count_eq_zero_of_not_mem (by simp [hi])]; rfl

/-- A CNOT between the ancilla and a data qubit. -/
def ancCx (z : Bool) (a q : VQ) : Instr VQ VC := if z then .cx q a else .cx a q

/-- An error that spreads from the ancilla. -/
theorem hook_spread (a : VQ) (qs : List VQ) (ha : a ∉ qs) :
    prop (qs.map (ancCx z a)) (errAt (!z) a, 0) = (errAt (!z) a + stabOp z qs, 0) := by
  have hgen : ∀ (qs : List VQ) (P : PauliErr VQ), a ∉ qs → (if z then P.2 else P.1) a = 0 → (if z then P.1 else P.2) = 0 →
      prop (qs.map (ancCx z a)) (errAt (!z) a + P, 0) = (errAt (!z) a + P + stabOp z qs, 0) := by
    intro qs
    induction qs with
    | nil =>
      intro P _ _ _
      have : stabOp z ([] : List VQ) = 0 := by cases z <;> rfl
      rw [this, add_zero]; rfl
    | cons q qs ih =>
      intro P ha h0 hP
      have hqa : q ≠ a := fun e => ha (by simp [e])
      rw [List.map_cons, prop_cons]
      have hstep : frameStep (errAt (!z) a + P, (0 : VC → ZMod 2)) (ancCx z a q) = (errAt (!z) a + (P + errAt (!z) q), 0) := by
        cases z
        · obtain ⟨p1, p2⟩ := P
          simp only [Bool.false_eq_true, if_false] at h0 hP
          subst hP
          simp [ancCx, frameStep, errAt, h0, add_assoc]
        · obtain ⟨p1, p2⟩ := P
          simp only [if_true] at h0 hP
          subst hP
          simp [ancCx, frameStep, errAt, h0, add_assoc]
      rw [hstep, ih _ (fun h => ha (by simp [h]))]
      · have : stabOp z (q :: qs) = errAt (!z) q + stabOp z qs := by
          cases z <;> simp [stabOp, errAt]
        rw [this]; congr 1; abel
      · cases z <;> simp_all [errAt, Finsupp.single_apply]
      · cases z <;> simp_all [errAt]
  have := hgen qs 0 ha (by cases z <;> rfl) (by cases z <;> rfl)
  rwa [add_zero] at this

theorem prop_fixed (l : List (Instr VQ VC)) (F : Frame VQ VC) (h : ∀ i ∈ l, frameStep F i = F) : prop l F = F := by
  induction l with
  | nil => rfl
  | cons i l ih => rw [prop_cons, h i (by simp)]; exact ih fun j hj => h j (by simp [hj])

theorem fixed_cx (F : Frame VQ VC) (a b : VQ) (ha : F.1.1 a = 0) (hb : F.1.2 b = 0) : frameStep F (.cx a b) = F := by
  obtain ⟨⟨x, y⟩, w⟩ := F
  simp only at ha hb
  simp [frameStep, ha, hb]

theorem fixed_h (F : Frame VQ VC) (a : VQ) (ha : F.1.1 a = 0) (hb : F.1.2 a = 0) : frameStep F (.h a) = F := by
  obtain ⟨⟨x, y⟩, w⟩ := F
  simp only at ha hb
  simp [frameStep, ha, hb]

theorem fixed_measure (F : Frame VQ VC) (a : VQ) (b : VC) (ha : F.1.1 a = 0) : frameStep F (.measure a b) = F := by
  obtain ⟨⟨x, y⟩, w⟩ := F
  simp only at ha
  simp [frameStep, ha]

theorem stabOp_own (k : Bool) (qs : List VQ) (q : VQ) (h : q ∉ qs) : (stabOp k qs).1 q = 0 ∧ (stabOp k qs).2 q = 0 := by
  cases k
  · simp only [stabOp, Bool.false_eq_true, if_false]
    rw [sum_single_apply, List.count_eq_zero_of_not_mem h]; exact ⟨rfl, rfl⟩
  · simp only [stabOp, if_true]
    rw [sum_single_apply, List.count_eq_zero_of_not_mem h]; exact ⟨rfl, rfl⟩

/-- An error on the ancilla before one of its CNOTs. -/
theorem hook_frame (p : Vec n × ℕ) (hp : p ∈ m1.zipIdx) (j : ℕ) (hj : j < (supp p.1).length) :
    ∃ (A : List (Instr VQ VC)) (i : Instr VQ VC) (r : List (Instr VQ VC)), firstRound z m1 = A ++ i :: r ∧
      (∀ q, tp n (!z) (prop (i :: r) (errAt (!z) (ranc z p.2), 0)) q = (((supp p.1).drop j).count (.data q) : ZMod 2)) ∧
      (prop (i :: r) (errAt (!z) (ranc z p.2), 0)).2 = 0 := by
  obtain ⟨A, B, e⟩ := List.append_of_mem hp
  set a := ranc z p.2 with ha
  set qs := (supp p.1).drop j with hqs
  have hqsne : qs = (supp p.1)[j] :: (supp p.1).drop (j + 1) := List.drop_eq_getElem_cons hj
  have haq : ∀ k, ranc z k ∉ qs := by
    intro k hk
    obtain ⟨i, hi⟩ := mem_supp (List.mem_of_mem_drop hk)
    exact ranc_ne_data z k i hi
  have hB : ∀ p' ∈ B, p'.2 ≠ p.2 := by
    intro p' hp' h
    have := zipIdx_pairwise m1 0
    rw [e, List.pairwise_append] at this
    exact (List.pairwise_cons.1 this.2.1).1 p' hp' h.symm
  have hsp := hook_spread z a qs (haq p.2)
  have hsuppsplit : (supp p.1).map (ancCx z a) = ((supp p.1).take j).map (ancCx z a) ++ ancCx z a (supp p.1)[j] ::
      ((supp p.1).drop (j + 1)).map (ancCx z a) := by
    conv_lhs => rw [← List.take_append_drop j (supp p.1)]
    rw [List.map_append, ← hqs, hqsne, List.map_cons]
  have hdataq : ∀ (P : PauliErr VQ) (q : Fin n), (∀ k : Bool, (if k then P.1 else P.2) (.data q) = 0) → ∀ w : VC → ZMod 2,
      tp n (!z) (P + stabOp z qs, w) q = (qs.count (.data q) : ZMod 2) := by
    intro P q hP w
    cases z
    · have := hP true
      simp only [if_true] at this
      simp only [tp, stabOp, Bool.not_false, if_true, Bool.false_eq_true, if_false, Prod.fst_add, Finsupp.add_apply, this, zero_add]
      exact sum_single_apply _ _
    · have := hP false
      simp only [Bool.false_eq_true, if_false] at this
      simp only [tp, stabOp, Bool.not_true, if_true, Bool.false_eq_true, if_false, Prod.snd_add, Finsupp.add_apply, this, zero_add]
      exact sum_single_apply _ _
  have hne : ∀ q : Fin n, a ≠ VQ.data q := fun q => ranc_ne_data z p.2 q
  cases z with
  | true =>
    refine ⟨(A.map fun p => (supp p.1).map fun q => (.cx q (.zanc p.2) : Instr VQ VC)).flatten ++ ((supp p.1).take j).map (ancCx true a),
      ancCx true a (supp p.1)[j], ((supp p.1).drop (j + 1)).map (ancCx true a) ++
        ((B.map fun p => (supp p.1).map fun q => (.cx q (.zanc p.2) : Instr VQ VC)).flatten ++
          (List.range m1.length).map fun i => .measure (.zanc i) (.zc i)), ?_, ?_⟩
    · rw [firstRound_z, zGates, e, List.map_append, List.map_cons, List.flatten_append, List.flatten_cons]
      have : (supp p.1).map (fun q => (.cx q (.zanc p.2) : Instr VQ VC)) = (supp p.1).map (ancCx true a) := rfl
      rw [this, hsuppsplit]
      simp
    · rw [← List.cons_append, prop_append, ← List.map_cons (f := ancCx true a), ← hqsne, hsp, prop_fixed]
      · refine ⟨fun q => hdataq _ q (fun k => ?_) 0, rfl⟩
        cases k <;> simp [errAt, hne q]
      · intro i hi
        rcases List.mem_append.1 hi with hi | hi
        · obtain ⟨l, hl, hi⟩ := List.mem_flatten.1 hi
          obtain ⟨p', hp', rfl⟩ := List.mem_map.1 hl
          obtain ⟨q, -, rfl⟩ := List.mem_map.1 hi
          have hs := stabOp_own true qs (.zanc p'.2) (haq p'.2)
          apply fixed_cx
          · simp [errAt, stabOp]
          · have h3 : a ≠ VQ.zanc p'.2 := by
              intro h
              have : VQ.zanc p.2 = VQ.zanc p'.2 := h
              simp only [VQ.zanc.injEq] at this
              exact hB p' hp' this.symm
            simp only [Prod.snd_add, Finsupp.add_apply, hs.2, add_zero]
            simp [errAt, Finsupp.single_apply, h3]
        · obtain ⟨k, -, rfl⟩ := List.mem_map.1 hi
          apply fixed_measure
          simp [errAt, stabOp]
  | false =>
    have hun : ∀ p' : Vec n × ℕ, measureUnflagged false (supp p'.1) (VQ.xanc p'.2) (VC.xc p'.2) =
        [.h (.xanc p'.2)] ++ (supp p'.1).map (ancCx false (.xanc p'.2)) ++ [.h (.xanc p'.2)] ++ [.measure (.xanc p'.2) (.xc p'.2)] := by
      intro p'
      simp [measureUnflagged, ancCx, ancillaCnot]
    refine ⟨(A.map fun p => measureUnflagged false (supp p.1) (.xanc p.2) (VC.xc p.2)).flatten ++ [.h a] ++
      ((supp p.1).take j).map (ancCx false a), ancCx false a (supp p.1)[j],
      ((supp p.1).drop (j + 1)).map (ancCx false a) ++ ([.h a, .measure a (.xc p.2)] ++
        (B.map fun p => measureUnflagged false (supp p.1) (.xanc p.2) (VC.xc p.2)).flatten), ?_, ?_⟩
    · rw [firstRound, if_neg (by decide), e, List.map_append, List.map_cons, List.flatten_append, List.flatten_cons, hun p]
      have : (supp p.1).map (ancCx false (.xanc p.2)) = (supp p.1).map (ancCx false a) := rfl
      rw [this, hsuppsplit]
      simp [ha, ranc]
    · rw [← List.cons_append, prop_append, ← List.map_cons (f := ancCx false a), ← hqsne, hsp, prop_append]
      have hs := stabOp_own false qs a (haq p.2)
      have hmid : prop [.h a, .measure a (.xc p.2)] (errAt (!false) a + stabOp false qs, (0 : VC → ZMod 2)) =
          (errAt false a + stabOp false qs, 0) := by
        have hh : frameStep (errAt (!false) a + stabOp false qs, (0 : VC → ZMod 2)) (.h a) = (errAt false a + stabOp false qs, 0) := by
          have e1 : (errAt (!false) a + stabOp false qs).1 a = 1 := by
            rw [Prod.fst_add, Finsupp.add_apply, hs.1, add_zero]; simp [errAt]
          have e2 : (errAt (!false) a + stabOp false qs).2 a = 0 := by
            rw [Prod.snd_add, Finsupp.add_apply, hs.2, add_zero]; simp [errAt]
          simp only [frameStep, e1, e2, add_zero]
          have h2 : Finsupp.single a (1 : ZMod 2) + Finsupp.single a 1 = 0 := by
            rw [← Finsupp.single_add]
            have : (1 : ZMod 2) + 1 = 0 := rfl
            rw [this, Finsupp.single_zero]
          refine Prod.ext (Prod.ext ?_ ?_) rfl
          · simp only [errAt, stabOp, Bool.not_false, if_true, Bool.false_eq_true, if_false, Prod.fst_add]
            rw [add_right_comm, h2]
          · simp only [errAt, stabOp, Bool.not_false, if_true, Bool.false_eq_true, if_false, Prod.snd_add]
            rw [add_zero, zero_add, add_zero]
        rw [prop_cons, hh, prop_cons, fixed_measure]
        · rfl
        · rw [Prod.fst_add, Finsupp.add_apply, hs.1, add_zero]; simp [errAt]
      rw [hmid, prop_fixed]
      · refine ⟨fun q => hdataq _ q (fun k => ?_) 0, rfl⟩
        cases k <;> simp [errAt, hne q]
      · intro i hi
        obtain ⟨l, hl, hi⟩ := List.mem_flatten.1 hi
        obtain ⟨p', hp', rfl⟩ := List.mem_map.1 hl
        rw [hun p'] at hi
        have h3 : a ≠ VQ.xanc p'.2 := by
          intro h
          have : VQ.xanc p.2 = VQ.xanc p'.2 := h
          simp only [VQ.xanc.injEq] at this
          exact hB p' hp' this.symm
        have hs' := stabOp_own false qs (.xanc p'.2) (haq p'.2)
        have g1 : (errAt false a + stabOp false qs).1 (.xanc p'.2) = 0 := by
          rw [Prod.fst_add, Finsupp.add_apply, hs'.1, add_zero]; simp [errAt]
        have g2 : (errAt false a + stabOp false qs).2 (.xanc p'.2) = 0 := by
          rw [Prod.snd_add, Finsupp.add_apply, hs'.2, add_zero]; simp [errAt, Finsupp.single_apply, h3]
        simp only [List.mem_append, List.mem_singleton, List.mem_map] at hi
        rcases hi with ((rfl | ⟨q, hq, rfl⟩) | rfl) | rfl
        · exact fixed_h _ _ g1 g2
        · apply fixed_cx _ _ _ g1
          obtain ⟨d, rfl⟩ := mem_supp hq
          simp [errAt, stabOp, hne d]
        · exact fixed_h _ _ g1 g2
        · exact fixed_measure _ _ _ g1

include hnd hne hS h1 h2 in
theorem hook_breaks (s : R) (hs : 2 * s * s = 1) [Nontrivial R] (hf : FlagsOk t m2) (l : List (Instr VQ VC))
    (hl : l = prepInstrs c ++ (bothRounds z t m1 m2 ++ againZ z m2.length)) (hT : Prepares (!z) c T)
    (hw : 1 ≤ W (!z)) (m e : Vec n) (hm : m ∈ m1) (he : isHookError m e) (hd : Dangerous T (W (!z)) e)
    (hu : ∀ m' ∈ m2, dot m' e = 0) :
    ¬ ToleratesOneFaultBoth s (fun i : Fin n => VQ.data i) (W true) (W false) l (usedQubits (fun i : Fin n => VQ.data i) l) := by
  obtain ⟨j, hj⟩ := hook_is_drop m e he
  have hlt : j < (supp m).length := by
    by_contra hge
    have h0 : e = 0 := by
      funext i
      rw [hj i, List.drop_eq_nil_of_le (by omega)]; rfl
    have := hd 0 (by rw [h0, Equivalent, add_zero]; exact Submodule.zero_mem _)
    have hw0 : wt (0 : Vec n) = 0 := by simp [wt]
    rw [hw0] at this
    push_cast at this
    omega
  obtain ⟨k, hk, rfl⟩ := List.getElem_of_mem hm
  obtain ⟨p, hp, -, hpm⟩ := exists_zipIdx hk
  rw [← hpm] at hlt hj
  obtain ⟨A, i, r, hsplit, htp, hbits⟩ := hook_frame z m1 p hp j hlt
  obtain ⟨N, hN, hNf, hNc, hNF⟩ := single_fault (prepInstrs c ++ A) i r (errAt (!z) (ranc z p.2))
    (.inl ⟨_, fun q hq => errAt_acts (!z) _ q hq⟩)
  set G := prop (i :: r) (errAt (!z) (ranc z p.2), (0 : VC → ZMod 2)) with hG
  have hclean : CleanL (secondGads (!z) t m2) G := by
    intro q hq
    have := prop_qubit (i :: r) (errAt (!z) (ranc z p.2), (0 : VC → ZMod 2)) q fun i' hi' => own_not_first z t m1 m2 (by
      rw [hsplit]; exact List.mem_append_right _ hi') hq
    rw [hG, this.1, this.2]
    apply not_acts
    intro ha
    have := errAt_acts (!z) _ q ha
    subst this
    obtain ⟨k', h | ⟨_, h⟩⟩ := own_second z t m2 hq <;> cases z <;> simp [ranc, rflag] at h
  have htpe : tp n (!z) G = e := by
    funext q
    rw [htp q, hj q]
  obtain ⟨e1, e2⟩ := second_pass z t m1 m2 hf G hclean (fun b _ => by rw [hbits]; rfl)
  refine not_tolerates_of z c t m1 m2 S hnd hne hS h1 h2 W s hs hf l hl N (by rw [hN, hsplit, List.append_assoc]) hNf hNc
    (prop (gadsInstrs (secondGads (!z) t m2)) G) (by rw [hNF]) ?_ (!z) T hT (by rw [e1, htpe]; exact hd)
  intro b hb
  exact e2 b hb (fun p _ => by rw [hbits]; rfl) (by rw [htpe]; exact hu)

end Verif.SP
