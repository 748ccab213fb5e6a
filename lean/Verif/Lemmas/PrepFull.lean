import Verif.Lemmas.GadgetList
import Verif.Props.GadgetFaults
import Verif.Props.PrepFaultTolerance

/-! # Faults in preparation circuits with both rounds of verification -/

namespace Verif.SP
open Verif Verif.Spec
variable {n : ℕ}

/-! ### The gadgets of both rounds -/

def rflag (z : Bool) (i j : ℕ) : VQ := if z then .zflag i j else .xflag i j
def rfbit (z : Bool) (i j : ℕ) : VC := if z then .zf i j else .xf i j

/-- The gadget of kind `k` measuring the `p.2`-th stabilizer. -/
def mkGad (k : Bool) (st : List (GStep VQ)) (p : Vec n × ℕ) : Gad n where
  kind := k
  anc := ranc k p.2
  mbit := rbit k p.2
  flag := rflag k p.2
  fbit := rfbit k p.2
  m := p.1
  st := st

/-- The gadgets of the first round, without flags. -/
def firstGads (z : Bool) (ms : List (Vec n)) : List (Gad n) := ms.zipIdx.map fun p => mkGad z ((supp p.1).map .data) p

/-- The steps of a flagged measurement. -/
def flagSteps (t : ℕ) (m : Vec n) : List (GStep VQ) := (stepsOf t (supp m)).getD []

/-- The gadgets of the second round, with flags. -/
def secondGads (y : Bool) (t : ℕ) (ms : List (Vec n)) : List (Gad n) := ms.zipIdx.map fun p => mkGad y (flagSteps t p.1) p

theorem own_mk {k : Bool} {st : List (GStep VQ)} {p : Vec n × ℕ} {q : VQ} (h : (mkGad k st p).Own q) :
    q = ranc k p.2 ∨ ∃ j, q = rflag k p.2 j := h

theorem bit_mk {k : Bool} {st : List (GStep VQ)} {p : Vec n × ℕ} {c : VC} (h : (mkGad k st p).Bit c) :
    c = rbit k p.2 ∨ ∃ j, c = rfbit k p.2 j := h

theorem sep_mk {k : Bool} {st st' : List (GStep VQ)} {p p' : Vec n × ℕ} (h : p.2 ≠ p'.2) : Sep (mkGad k st p) (mkGad k st' p') := by
  constructor
  · intro q h1 h2
    rcases own_mk h1 with rfl | ⟨j, rfl⟩ <;> rcases own_mk h2 with h2 | ⟨j', h2⟩ <;> cases k <;>
      simp [ranc, rflag] at h2 <;> first | exact h h2 | exact h h2.1
  · intro c h1 h2
    rcases bit_mk h1 with rfl | ⟨j, rfl⟩ <;> rcases bit_mk h2 with h2 | ⟨j', h2⟩ <;> cases k <;>
      simp [rbit, rfbit] at h2 <;> first | exact h h2 | exact h h2.1

theorem sep_mk' {k : Bool} {st st' : List (GStep VQ)} {p p' : Vec n × ℕ} : Sep (mkGad k st p) (mkGad (!k) st' p') := by
  constructor
  · intro q h1 h2
    rcases own_mk h1 with rfl | ⟨j, rfl⟩ <;> rcases own_mk h2 with h2 | ⟨j', h2⟩ <;> cases k <;>
      simp [ranc, rflag] at h2
  · intro c h1 h2
    rcases bit_mk h1 with rfl | ⟨j, rfl⟩ <;> rcases bit_mk h2 with h2 | ⟨j', h2⟩ <;> cases k <;>
      simp [rbit, rfbit] at h2

theorem lay_mk (k : Bool) (i : ℕ) : Lay (ranc k i) (rbit k i) (rflag k i) (rfbit k i) where
  inj := fun a b h => by cases k <;> simpa [rflag] using h
  ne := fun j => by cases k <;> simp [rflag, ranc]
  binj := fun a b h => by cases k <;> simpa [rfbit] using h
  bne := fun j => by cases k <;> simp [rfbit, rbit]

theorem wfs_map_data (L : List VQ) : wfs (L.map GStep.data) := by
  induction L with
  | nil => trivial
  | cons q L ih => exact ih

theorem mk_notData {k : Bool} {st : List (GStep VQ)} {p : Vec n × ℕ} (q : VQ) (h : (mkGad k st p).Own q) (i : ℕ) : q ≠ .data i := by
  rcases own_mk h with rfl | ⟨j, rfl⟩ <;> cases k <;> simp [ranc, rflag]

theorem firstGads_ok (z : Bool) (ms : List (Vec n)) : GadsOk (firstGads z ms) where
  ok := by
    intro x hx
    obtain ⟨p, -, rfl⟩ := List.mem_map.1 hx
    exact ⟨lay_mk _ _, dataOf_map_data _, wfs_map_data _, mk_notData⟩
  sep := by
    rw [firstGads, List.pairwise_map]
    exact (zipIdx_pairwise ms 0).imp sep_mk

/-- What the second round needs to be built. -/
def FlagsOk (t : ℕ) (ms : List (Vec n)) : Prop :=
  ∀ m ∈ ms, (stepsOf t (supp m)).isSome ∧ (t = 1 → 2 ≤ (supp m).length)

theorem flagSteps_some {t : ℕ} {ms : List (Vec n)} (h : FlagsOk t ms) {m : Vec n} (hm : m ∈ ms) :
    stepsOf t (supp m) = some (flagSteps t m) := by
  have := (h m hm).1
  rw [Option.isSome_iff_exists] at this
  obtain ⟨st, hst⟩ := this
  rw [flagSteps, hst]; rfl

theorem secondGads_ok (y : Bool) (t : ℕ) (ms : List (Vec n)) (h : FlagsOk t ms) : GadsOk (secondGads y t ms) where
  ok := by
    intro x hx
    obtain ⟨p, hp, rfl⟩ := List.mem_map.1 hx
    have hm : p.1 ∈ ms := List.fst_mem_of_mem_zipIdx hp
    exact ⟨lay_mk _ _, (stepsOf_spec t _ _ (flagSteps_some h hm) (h _ hm).2).1, (stepsOf_wfs t _ _ (flagSteps_some h hm)).1, mk_notData⟩
  sep := by
    rw [secondGads, List.pairwise_map]
    exact (zipIdx_pairwise ms 0).imp sep_mk

/-- The results of the Z ancillas are read twice in the second round. -/
def againZ (z : Bool) (k : ℕ) : List (Instr VQ VC) :=
  if z then [] else (List.range k).map fun i => .measure (.zanc i) (.zc i)

/-- The circuit of both rounds without the repeated measurements. -/
def bothRounds (z : Bool) (t : ℕ) (m1 m2 : List (Vec n)) : List (Instr VQ VC) :=
  firstRound z m1 ++ gadsInstrs (secondGads (!z) t m2)

theorem mapM_flagged {k : Bool} {t : ℕ} (L : List (Vec n × ℕ)) (ls : List (List (Instr VQ VC)))
    (h : L.mapM (m := Except GadgetError) (fun p => measureFlagged t k (supp p.1) (ranc k p.2) (rbit k p.2) (rflag k p.2) (rfbit k p.2)) =
      .ok ls) :
    ls = L.map (fun p => (mkGad k (flagSteps t p.1) p).instrs) ∧ ∀ p ∈ L, (stepsOf t (supp p.1)).isSome := by
  have hf := mapM_ok_forall₂ _ _ _ h
  clear h
  induction hf with
  | nil => simp
  | @cons p l L ls h1 _ ih =>
    have hs := measureFlagged_steps t k (supp p.1) (ranc k p.2) (rbit k p.2) (rflag k p.2) (rfbit k p.2)
    cases hst : stepsOf t (supp p.1) with
    | none =>
      rw [hst] at hs
      obtain ⟨e, he⟩ := hs
      rw [he] at h1; cases h1
    | some st =>
      rw [hst] at hs
      simp only at hs
      rw [hs] at h1
      cases h1
      refine ⟨?_, ?_⟩
      · rw [ih.1, List.map_cons]
        congr 1
        simp [Gad.instrs, mkGad, flagSteps, hst]
      · intro p' hp'
        rcases List.mem_cons.1 hp' with rfl | hp'
        · simp [hst]
        · exact ih.2 p' hp'

/-- The shape of a fully fault-tolerant verification circuit. -/
theorem measureFtStabs_shape (z : Bool) (t : ℕ) (m1 m2 : List (Vec n)) (l : List (Instr VQ VC))
    (h : (if z then measureFtStabs z t true m2 m1 else measureFtStabs z t true m1 m2) = .ok l) :
    l = bothRounds z t m1 m2 ++ againZ z m2.length ∧ ∀ m ∈ m2, (stepsOf t (supp m)).isSome := by
  have hmem : ∀ m ∈ m2, ∃ p ∈ m2.zipIdx, p.1 = m := by
    intro m hm
    obtain ⟨i, hi, rfl⟩ := List.getElem_of_mem hm
    exact ⟨(m2[i], i), by rw [List.mem_zipIdx_iff_getElem?]; simp [hi], rfl⟩
  cases z with
  | true =>
    have hv := verificationCircuit_first (fun _ _ => [m1]) true t
    have hfl : ([m1]).flatten = m1 := by simp
    simp only [verificationCircuit, if_true, hfl, Bool.false_eq_true, if_false] at hv
    simp only [measureFtStabs, if_true, bind_eq_ok, whenFull, Bool.false_eq_true, if_false] at h hv
    obtain ⟨a, ha, b, hb, h⟩ := h
    obtain ⟨a', ha', b', hb', h'⟩ := hv
    rw [ha] at ha'
    cases ha'
    cases hb'
    simp only [List.append_nil] at h'
    cases h'
    cases h
    simp only [measureFtX, if_true] at hb
    cases hm : m2.zipIdx.mapM (m := Except GadgetError) (fun p =>
      measureFlagged t false (supp p.1) (VQ.xanc p.2) (VC.xc p.2) (.xflag p.2) (.xf p.2)) with
    | error e => rw [hm] at hb; cases hb
    | ok ls =>
      rw [hm] at hb
      cases hb
      obtain ⟨h1, h2⟩ := mapM_flagged (k := false) _ _ hm
      refine ⟨?_, fun m hm => ?_⟩
      · rw [h1, bothRounds, againZ, if_pos rfl, List.append_nil, gadsInstrs, secondGads, List.flatMap_map]
        rfl
      · obtain ⟨p, hp, rfl⟩ := hmem m hm
        exact h2 p hp
  | false =>
    have hv := verificationCircuit_first (fun _ _ => [m1]) false t
    have hfl : ([m1]).flatten = m1 := by simp
    simp only [verificationCircuit, hfl, Bool.false_eq_true, if_false] at hv
    simp only [measureFtStabs, if_true, bind_eq_ok, whenFull, Bool.false_eq_true, if_false] at h hv
    obtain ⟨a, ha, b, hb, h⟩ := h
    obtain ⟨a', ha', b', hb', h'⟩ := hv
    rw [ha] at ha'
    cases ha'
    cases hb'
    simp only [List.append_nil] at h'
    cases h'
    cases h
    simp only [measureFtZ, if_true] at hb
    cases hm : m2.zipIdx.mapM (m := Except GadgetError) (fun p =>
      measureFlagged t true (supp p.1) (VQ.zanc p.2) (VC.zc p.2) (.zflag p.2) (.zf p.2)) with
    | error e => rw [hm] at hb; cases hb
    | ok ls =>
      rw [hm] at hb
      cases hb
      obtain ⟨h1, h2⟩ := mapM_flagged (k := true) _ _ hm
      refine ⟨?_, fun m hm => ?_⟩
      · rw [h1, bothRounds, againZ, if_neg (by decide), List.append_assoc, gadsInstrs, secondGads, List.flatMap_map]
        rfl
      · obtain ⟨p, hp, rfl⟩ := hmem m hm
        exact h2 p hp

/-! ### Hook errors of the first round -/

/-- At most one error of kind `y`, or a hook error of a measured stabilizer. -/
def Hooked (y : Bool) (ms : List (Vec n)) (P : PauliErr VQ) : Prop :=
  wt (tp n y (P, 0)) ≤ 1 ∨ ∃ m ∈ ms, isHookError m (tp n y (P, 0))

theorem wt_le_one_of (u : Vec n) (q : VQ) (h : ∀ i : Fin n, u i ≠ 0 → VQ.data i = q) : wt u ≤ 1 := by
  by_cases hd : ∃ j : Fin n, q = .data j
  · obtain ⟨j, rfl⟩ := hd
    rcases vec_one u j fun i hi => data_inj.1 (h i hi) with h | h
    · rw [h]; exact wt_zero_le
    · rw [h, wt_single]
  · have : u = 0 := by
      funext k
      by_contra hk
      exact hd ⟨k, (h k hk).symm⟩
    rw [this]; exact wt_zero_le

theorem hook_drop (m : Vec n) (k : ℕ) (e : Vec n) (h : ∀ i : Fin n, e i = (((supp m).drop k).count (.data i) : ZMod 2)) :
    isHookError m e := by
  set L := (List.finRange n).filter fun i => decide (m i ≠ 0) with hL
  have hLm : ∀ i, i ∈ L ↔ m i ≠ 0 := by simp [hL]
  have hsort : L.Pairwise (· < ·) := (List.pairwise_lt_finRange n).filter _
  have hdrop : (supp m).drop k = (L.drop k).map fun i : Fin n => VQ.data i := by
    rw [supp, List.map_drop]
  have hcount : ∀ i : Fin n, (((supp m).drop k).count (.data i) : ZMod 2) = if i ∈ L.drop k then 1 else 0 := by
    intro i
    rw [hdrop]
    have hinj : Function.Injective fun i : Fin n => VQ.data i := fun a b h => data_inj.1 h
    have := List.count_map_of_injective (L.drop k) (fun i : Fin n => VQ.data i) hinj i
    rw [this]
    have hnd : (L.drop k).Nodup := ((List.nodup_finRange n).filter _).sublist (List.drop_sublist _ _)
    split
    · rename_i hi
      rw [List.count_eq_one_of_mem hnd hi]; rfl
    · rename_i hi
      rw [List.count_eq_zero_of_not_mem hi]; rfl
  have hone : ∀ i, m i ≠ 0 → m i = 1 := fun i hi => (zmod2_cases (m i)).resolve_left hi
  by_cases hk : k < L.length
  · refine ⟨(L[k] : Fin n), fun i => ?_⟩
    rw [h, hcount]
    have hd : L.drop k = L[k] :: L.drop (k + 1) := List.drop_eq_getElem_cons hk
    have hs2 : (L.drop k).Pairwise (· < ·) := hsort.sublist (List.drop_sublist _ _)
    by_cases hi : i ∈ L.drop k
    · rw [if_pos hi]
      have hle : (L[k] : Fin n).val ≤ i.val := by
        rw [hd] at hi hs2
        rcases List.mem_cons.1 hi with rfl | hi
        · exact le_rfl
        · exact ((List.pairwise_cons.1 hs2).1 i hi).le
      rw [if_pos hle, hone i ((hLm i).1 (List.mem_of_mem_drop hi))]
    · rw [if_neg hi]
      split
      · rename_i hle
        by_contra hne0
        have hne : m i ≠ 0 := fun e => hne0 e.symm
        have hiL := (hLm i).2 hne
        rw [← List.take_append_drop k L, List.mem_append] at hiL
        rcases hiL with hiL | hiL
        · have hs3 := hsort
          rw [← List.take_append_drop k L, List.pairwise_append] at hs3
          have := hs3.2.2 i hiL L[k] (by rw [hd]; exact List.mem_cons_self)
          have h4 : i.val < (L[k] : Fin n).val := this
          omega
        · exact hi hiL
      · rfl
  · refine ⟨n, fun i => ?_⟩
    rw [h, hcount, List.drop_eq_nil_of_le (by omega), if_neg (by simp), if_neg (by omega)]

theorem hooked_of_seqRes (z : Bool) (ms : List (Vec n)) (F : Frame VQ VC) (h : SeqRes (firstGads z ms) F) :
    Hooked (!z) ms F.1 := by
  cases h with
  | one q h1 =>
    left
    refine wt_le_one_of _ q fun i hi => h1 i ?_
    cases z
    · exact .inl hi
    · exact .inr hi
  | move x hx mv valid hdata flags =>
    obtain ⟨p, hp, rfl⟩ := List.mem_map.1 hx
    have hm : p.1 ∈ ms := List.fst_mem_of_mem_zipIdx hp
    have htp : ∀ i : Fin n, VQ.data i ∉ mv.locals ((supp p.1).map GStep.data) →
        tp n (!z) (F.1, 0) i = mv.data ((supp p.1).map GStep.data) (.data i) := by
      intro i hi
      refine Eq.trans ?_ (hdata i hi).1
      cases z <;> rfl
    cases mv with
    | loc q =>
      left
      refine wt_le_one_of _ q fun i hi => ?_
      by_contra hne
      exact hi (htp i (by simp [Move.locals, hne]))
    | flip j =>
      left
      refine wt_le_one_of _ (.xanc 0) fun i hi => ?_
      exact absurd (htp i (by simp [Move.locals])) hi
    | hook k b =>
      have hdrop : ∀ k, dataOf (((supp p.1).map GStep.data).drop k) = (supp p.1).drop k := by
        intro k; rw [← List.map_drop, dataOf_map_data]
      simp only [Move.data, hdrop] at htp
      have hk : k ≤ ((supp p.1).map GStep.data).length := valid
      rw [List.length_map] at hk
      right
      refine ⟨p.1, hm, ?_⟩
      rcases Nat.eq_zero_or_pos k with rfl | hk0
      · exact hook_drop p.1 0 _ fun i => htp i (by simp [Move.locals, lastStep])
      · have hlt : k - 1 < (supp p.1).length := by omega
        have hloc : (Move.hook k b).locals ((supp p.1).map GStep.data) = [(supp p.1)[k - 1]] := by
          have : lastStep ((supp p.1).map GStep.data) k = some (.data (supp p.1)[k - 1]) := by
            rw [lastStep, if_neg (by omega)]
            simp [hlt]
          simp [Move.locals, this]
        rw [hloc] at htp
        obtain ⟨j, hj⟩ := mem_supp (List.getElem_mem hlt)
        have hd : (supp p.1).drop (k - 1) = .data j :: (supp p.1).drop k := by
          rw [List.drop_eq_getElem_cons hlt, hj]; congr 2; omega
        have hnd : (supp p.1).Nodup := by
          unfold supp
          exact List.Nodup.map (fun a b h => data_inj.1 h) ((List.nodup_finRange n).filter _)
        have hnot : VQ.data j ∉ (supp p.1).drop k := by
          have := hnd.sublist (List.drop_sublist (k - 1) (supp p.1))
          rw [hd, List.nodup_cons] at this
          exact this.1
        rcases zmod2_cases (tp n (!z) (F.1, 0) j) with h0 | h0
        · refine hook_drop p.1 k _ fun i => ?_
          by_cases hij : i = j
          · subst hij
            rw [h0, List.count_eq_zero_of_not_mem hnot]; rfl
          · exact htp i (by rw [hj]; simpa using fun e => hij (Fin.ext e))
        · refine hook_drop p.1 (k - 1) _ fun i => ?_
          rw [hd, List.count_cons]
          by_cases hij : i = j
          · subst hij
            rw [h0, List.count_eq_zero_of_not_mem hnot]; simp
          · have hne : VQ.data j ≠ VQ.data i := fun e => hij (data_inj.1 e).symm
            rw [htp i (by rw [hj]; simpa using fun e => hij (Fin.ext e))]
            simp [hne]

/-! Measurements do not change the operator of a frame. -/

def notMeasure : Instr VQ VC → Bool
  | .measure _ _ => false
  | _ => true

theorem prop_filter (l : List (Instr VQ VC)) (F G : Frame VQ VC) (h : F.1 = G.1) :
    (prop l F).1 = (prop (l.filter notMeasure) G).1 := by
  induction l generalizing F G with
  | nil => exact h
  | cons i l ih =>
    rw [prop_cons, List.filter_cons]
    cases i with
    | h q => simp only [notMeasure, if_true, prop_cons]; exact ih _ _ (by simp [frameStep, h])
    | cx a b => simp only [notMeasure, if_true, prop_cons]; exact ih _ _ (by simp [frameStep, h])
    | measure q c => simp only [notMeasure, Bool.false_eq_true, if_false]; exact ih _ _ (by simp [frameStep, h])

theorem firstGads_z (ms : List (Vec n)) : gadsInstrs (firstGads true ms) =
    (ms.zipIdx.map fun p => ((supp p.1).map fun q => (.cx q (.zanc p.2) : Instr VQ VC)) ++ [.measure (.zanc p.2) (.zc p.2)]).flatten := by
  rw [gadsInstrs, firstGads, List.flatMap_map, List.flatMap_def]
  congr 1
  refine List.map_congr_left fun p _ => ?_
  simp [Gad.instrs, mkGad, gadget, ancH, List.flatMap_map, emit, ancillaCnot, ranc, rbit]
  induction supp p.1 with
  | nil => rfl
  | cons a L ih => simp [ih]

theorem firstGads_x (ms : List (Vec n)) : gadsInstrs (firstGads false ms) = firstRound false ms := by
  rw [gadsInstrs, firstGads, List.flatMap_map, List.flatMap_def, firstRound, if_neg (by decide)]
  congr 1
  refine List.map_congr_left fun p _ => ?_
  simp [Gad.instrs, mkGad, gadget, ancH, List.flatMap_map, emit, ancillaCnot, ranc, rbit, measureUnflagged]
  induction supp p.1 with
  | nil => rfl
  | cons a L ih => simp [ih]

/-- The gates of the first round for Z stabilizers. -/
def zGates (ms : List (Vec n)) : List (Instr VQ VC) :=
  (ms.zipIdx.map fun p => (supp p.1).map fun q => (.cx q (.zanc p.2) : Instr VQ VC)).flatten

theorem zGates_notMeasure (ms : List (Vec n)) : ∀ i ∈ zGates ms, notMeasure i = true := by
  intro i hi
  obtain ⟨l, hl, hi⟩ := List.mem_flatten.1 hi
  obtain ⟨p, -, rfl⟩ := List.mem_map.1 hl
  obtain ⟨q, -, rfl⟩ := List.mem_map.1 hi
  rfl

theorem firstRound_z (ms : List (Vec n)) :
    firstRound true ms = zGates ms ++ (List.range ms.length).map fun i => .measure (.zanc i) (.zc i) := by
  rw [firstRound, if_pos rfl]; rfl

theorem filter_gads (ms : List (Vec n)) : (gadsInstrs (firstGads true ms)).filter notMeasure = zGates ms := by
  rw [firstGads_z, List.filter_flatten, List.map_map, zGates]
  congr 1
  refine List.map_congr_left fun p _ => ?_
  simp only [Function.comp, List.filter_append, notMeasure, List.filter_cons, List.filter_nil]
  rw [List.filter_eq_self.2]
  · simp
  · intro i hi
    obtain ⟨q, -, rfl⟩ := List.mem_map.1 hi
    rfl

theorem firstRound_fst (z : Bool) (ms : List (Vec n)) (F : Frame VQ VC) :
    (prop (firstRound z ms) F).1 = (prop (gadsInstrs (firstGads z ms)) F).1 := by
  cases z
  · rw [firstGads_x]
  · rw [prop_filter (gadsInstrs (firstGads true ms)) F F rfl, filter_gads, prop_filter (firstRound true ms) F F rfl, firstRound_z,
      List.filter_append, List.filter_eq_self.2 (zGates_notMeasure ms), List.filter_eq_nil_iff.2, List.append_nil]
    intro i hi
    obtain ⟨k, -, rfl⟩ := List.mem_map.1 hi
    simp [notMeasure]

theorem firstRound_single (z : Bool) (ms : List (Vec n)) (P : PauliErr VQ) (q : VQ) (hP : ∀ p, P.ActsOn p → p = q) :
    Hooked (!z) ms (prop (firstRound z ms) (P, 0)).1 := by
  rw [firstRound_fst]
  exact hooked_of_seqRes z ms _ (seq_single (firstGads_ok z ms) P q hP)

theorem AllSplits.get {p : Instr VQ VC → List (Instr VQ VC) → Prop} {l : List (Instr VQ VC)} (h : AllSplits p l)
    (a : List (Instr VQ VC)) (i : Instr VQ VC) (r : List (Instr VQ VC)) (e : l = a ++ i :: r) : p i r := by
  induction a generalizing l with
  | nil => subst e; exact h.1
  | cons j a ih => subst e; exact ih h.2 rfl

theorem firstRound_hook (z : Bool) (ms : List (Vec n)) : AllSplits (fun i r => ∀ P : PauliErr VQ, FaultAt i P →
    Hooked (!z) ms (prop (i :: r) (P, 0)).1 ∧ Hooked (!z) ms (prop r (P, 0)).1) (firstRound z ms) := by
  have hsf := seq_fault (firstGads_ok z ms)
  apply AllSplits.of
  intro a i r e P hP
  cases z with
  | false =>
    rw [firstGads_x] at hsf
    obtain ⟨h1, h2⟩ := hsf.get a i r e P hP
    exact ⟨hooked_of_seqRes false ms _ h1, hooked_of_seqRes false ms _ h2⟩
  | true =>
    by_cases hi : notMeasure i = true
    · -- the same split of the gadgets
      have hfil : (firstRound true ms).filter notMeasure = zGates ms := by
        rw [firstRound_z, List.filter_append, List.filter_eq_self.2 (zGates_notMeasure ms), List.filter_eq_nil_iff.2, List.append_nil]
        intro i hi
        obtain ⟨k, -, rfl⟩ := List.mem_map.1 hi
        simp [notMeasure]
      have h1 : (gadsInstrs (firstGads true ms)).filter notMeasure = a.filter notMeasure ++ i :: r.filter notMeasure := by
        rw [filter_gads, ← hfil, e, List.filter_append, List.filter_cons, if_pos hi]
      obtain ⟨u, v, huv, hu, hv⟩ := List.filter_eq_append_iff.1 h1
      obtain ⟨v1, v2, hv12, hv1, -, hv2⟩ := List.filter_eq_cons_iff.1 hv
      obtain ⟨g1, g2⟩ := hsf.get (u ++ v1) i v2 (by rw [huv, hv12]; simp) P hP
      have e1 : (prop (i :: r) (P, 0)).1 = (prop (i :: v2) (P, (0 : VC → ZMod 2))).1 := by
        rw [prop_filter (i :: r) _ (P, 0) rfl, prop_filter (i :: v2) _ (P, 0) rfl, List.filter_cons, List.filter_cons, hv2]
      have e2 : (prop r (P, 0)).1 = (prop v2 (P, (0 : VC → ZMod 2))).1 := by
        rw [prop_filter r _ (P, 0) rfl, prop_filter v2 _ (P, 0) rfl, hv2]
      rw [e1, e2]
      exact ⟨hooked_of_seqRes true ms _ g1, hooked_of_seqRes true ms _ g2⟩
    · -- measurements at the end
      have hM : ∀ j ∈ ((List.range ms.length).map fun i => (.measure (.zanc i) (.zc i) : Instr VQ VC)), notMeasure j = false := by
        intro j hj
        obtain ⟨k, -, rfl⟩ := List.mem_map.1 hj
        rfl
      have hr : ∀ j ∈ i :: r, notMeasure j = false := by
        rw [firstRound_z] at e
        rcases List.append_eq_append_iff.1 e with ⟨b, -, hb⟩ | ⟨b, h1, h2⟩
        · intro j hj
          exact hM j (by rw [hb]; exact List.mem_append_right _ hj)
        · cases b with
          | nil =>
            rw [List.nil_append] at h2
            intro j hj
            exact hM j (by rw [← h2]; exact hj)
          | cons j b =>
            rw [List.cons_append] at h2
            obtain ⟨rfl, -⟩ := List.cons.inj h2
            exact absurd (zGates_notMeasure ms i (by rw [h1]; simp)) hi
      have hone : ∃ q, ∀ p, P.ActsOn p → p = q := by
        rcases hP with hP | hP
        · exact hP
        · cases i with
          | h q => exact absurd rfl hi
          | cx a b => exact absurd rfl hi
          | measure q c => exact ⟨q, fun p hp => by simpa [Instr.qubits] using hP p hp⟩
      obtain ⟨q, hq⟩ := hone
      have hfin : ∀ l : List (Instr VQ VC), (∀ j ∈ l, j ∈ i :: r) → Hooked (!true) ms (prop l (P, 0)).1 := by
        intro l hl
        left
        rw [prop_filter l _ (P, 0) rfl, List.filter_eq_nil_iff.2 fun j hj => by simp [hr j (hl j hj)]]
        exact wt_le_one_of _ q fun i hi => hq _ (.inr hi)
      exact ⟨hfin _ fun j hj => hj, hfin _ fun j hj => by simp [hj]⟩

end Verif.SP
