import Verif.Lemmas.Heuristic
import Verif.Lemmas.Symbolic

/-! Meaning of the SMT encodings of state preparation synthesis. -/

namespace Verif.SP
open Verif Verif.Spec
variable {n : ℕ}

section general
variable {σ : Type} {m : ℕ}

/-- Row `i` of the matrix at depth `d` under an assignment. -/
def rowAt (c : Cols σ m n) (a : σ) (d : ℕ) (i : Fin m) : Vec n := fun j => if (c d i j).eval a then 1 else 0

theorem colEq_iff (c : Cols σ m n) (a : σ) (d e : ℕ) (j k : Fin n) :
    vectorEq (colOf c d j) (colOf c e k) a = true ↔ ∀ i, rowAt c a d i j = rowAt c a e i k := by
  rw [vectorEq_iff, funext_iff]; rfl

theorem colAdd_iff (c : Cols σ m n) (a : σ) (d e : ℕ) (j k l : Fin n) :
    vectorEq (colOf c d j) (vectorAdd (colOf c e k) (colOf c e l)) a = true ↔
      ∀ i, rowAt c a d i j = rowAt c a e i k + rowAt c a e i l := by
  rw [vectorEq_iff, evalVec_vectorAdd, funext_iff]; rfl

theorem not_or_eq (x y : Bool) : (!x || y) = true ↔ (x = true → y = true) := by
  cases x <;> cases y <;> decide

theorem columnAddition_iff (c : Cols σ m n) (add : ℕ → Fin n → Fin n → σ → Bool) (D : ℕ) (a : σ) :
    columnAdditionConstraint c add D a = true ↔
      ∀ d < D, ∀ c1 c2, c1 ≠ c2 → add d c1 c2 a = true → ∀ i,
        rowAt c a (d + 1) i c2 = rowAt c a d i c1 + rowAt c a d i c2 ∧
        rowAt c a (d + 1) i c1 = rowAt c a d i c1 := by
  simp only [columnAdditionConstraint, List.all_eq_true, List.mem_range, List.mem_filter,
    List.mem_finRange, true_and, decide_eq_true_eq, true_implies, Bool.and_eq_true, not_or_eq, colEq_iff,
    colAdd_iff]
  constructor
  · intro h d hd c1 c2 hne hadd i
    rcases lt_or_gt_of_ne hne with hlt | hlt
    · have := (h d hd c1 c2 hlt).1 hadd
      exact ⟨this.1 i, this.2 i⟩
    · have := (h d hd c2 c1 hlt).2 hadd
      exact ⟨by rw [this.1 i, add_comm], this.2 i⟩
  · intro h d hd c1 c2 hlt
    constructor
    · intro hadd
      have := h d hd c1 c2 hlt.ne hadd
      exact ⟨fun i => (this i).1, fun i => (this i).2⟩
    · intro hadd
      have := h d hd c2 c1 hlt.ne' hadd
      exact ⟨fun i => by rw [(this i).1, add_comm], fun i => (this i).2⟩

theorem finalMatrix_iff (c : Cols σ m n) (D : ℕ) (a : σ) :
    finalMatrixConstraint c D a = true ↔
      (nonzeroCols ((List.finRange m).map (rowAt c a D))).length = m := by
  unfold finalMatrixConstraint
  rw [decide_eq_true_eq]
  have h := isReduced_iff m ((List.finRange m).map (rowAt c a D))
  unfold isReduced at h
  rw [decide_eq_true_eq] at h
  rw [← h]
  have : (List.finRange n).countP (fun j => !((List.finRange m).any fun i => (c D i j).eval a)) =
      (List.finRange n).countP fun j => ((List.finRange m).map (rowAt c a D)).all fun r => decide (r j = 0) := by
    apply List.countP_congr
    intro j _
    simp only [Bool.not_eq_true', List.any_eq_false, List.mem_finRange, true_implies, List.all_map,
      List.all_eq_true, Function.comp_apply, decide_eq_true_eq]
    unfold rowAt
    constructor
    · intro hh i; rw [if_neg (hh i)]
    · intro hh i hi
      have := hh i
      rw [if_pos hi] at this
      exact absurd this (by decide)
  rw [this]

end general

/-! ### Extraction helpers -/

theorem map_checks (checks : List (Vec n)) (f : Vec n → Vec n) :
    (List.finRange checks.length).map (fun i => f checks[i]) = checks.map f := by
  apply List.ext_getElem
  · simp
  · intro i h1 h2; simp

theorem rowAt_zero {σ : Type} (checks : List (Vec n)) (x : σ → ℕ → Fin checks.length → Fin n → Bool) (a : σ)
    (i : Fin checks.length) : rowAt (encCols checks x) a 0 i = checks[i] := by
  funext j
  simp only [rowAt, encCols, if_true, eval_con, decide_eq_true_eq]
  rcases zmod2_cases (checks[i] j) with h | h <;> rw [h] <;> simp

theorem cnotX_apply (r : Vec n) (g : CX n) (j : Fin n) :
    cnotX r g j = if j = g.2 then r g.1 + r j else r j := by
  simp only [cnotX, Pi.add_apply, Pi.smul_apply, Pi.single_apply, smul_eq_mul]
  split <;> simp [add_comm]

/-! ### Gate-optimal encoding -/

theorem clog_le (n : ℕ) : n ≤ 2 ^ Nat.clog 2 n := Nat.le_pow_clog (by norm_num) n

/-- Without range constraints every bit-vector value is a valid qubit. -/
theorem range_of_not_needs (n : ℕ) (hn : 2 ≤ n) (h : needsRange n = false) : 2 ^ Nat.clog 2 n = n := by
  unfold needsRange at h
  rw [decide_eq_false_iff_not] at h
  push Not at h
  have h0 := h (by omega) (by omega)
  obtain ⟨k, hk⟩ : ∃ k, n = 2 ^ k := by
    by_contra hcon
    push Not at hcon
    -- the top bit is shared by `n` and `n - 1`
    have hlog := Nat.pow_log_le_self 2 (x := n) (by omega)
    have hlt := Nat.lt_pow_succ_log_self (b := 2) (by norm_num) n
    have hne : n ≠ 2 ^ Nat.log 2 n := hcon _
    have hb1 : Nat.testBit n (Nat.log 2 n) = true := by
      apply Nat.testBit_of_two_pow_le_and_two_pow_add_one_gt hlog hlt
    have hb2 : Nat.testBit (n - 1) (Nat.log 2 n) = true := by
      apply Nat.testBit_of_two_pow_le_and_two_pow_add_one_gt (by omega) (by omega)
    have : Nat.testBit (n &&& (n - 1)) (Nat.log 2 n) = true := by
      rw [Nat.testBit_and, hb1, hb2]; rfl
    rw [h0] at this
    simp at this
  rw [hk, Nat.clog_pow 2 k (by norm_num)]

/-- The gates described by an assignment with valid indices. -/
def gateList (a : ℕ → CX n) (k : ℕ) : List (CX n) := (List.range k).map a

theorem gateList_succ (a : ℕ → CX n) (k : ℕ) : gateList a (k + 1) = gateList a k ++ [a k] := by
  simp [gateList, List.range_succ]

/-- What a satisfying assignment of the gate-optimal encoding says. -/
theorem gate_sound (checks : List (Vec n)) (k : ℕ) (a : GateVars checks.length n)
    (h : gateConstraint checks k a = true) (zero : Bool) :
    ∃ cnots : List (CX n), cnots.length = k ∧ (∀ g ∈ cnots, g.1 ≠ g.2) ∧
      (nonzeroCols (checks.map (foldL cnots))).length = checks.length ∧
      gateExtract checks k zero a = some (buildCircuit cnots (checks.map (foldL cnots)) zero) := by
  set c := encCols checks (fun a : GateVars checks.length n => a.x) with hc
  simp only [gateConstraint, Bool.and_eq_true, ← hc] at h
  obtain ⟨⟨⟨h1, h2⟩, h3⟩, h4⟩ := h
  rw [columnAddition_iff] at h1
  rw [finalMatrix_iff] at h4
  simp only [List.all_eq_true, List.mem_range, Bool.and_eq_true, decide_eq_true_eq, not_or_eq] at h2
  have h3' : ∀ d < k, ∀ j : Fin n, (a.target d).val ≠ j.val → ∀ i,
      rowAt c a (d + 1) i j = rowAt c a d i j := by
    intro d hd j hj i
    have := List.all_eq_true.1 (List.all_eq_true.1 h3 d (List.mem_range.2 hd)) j (List.mem_finRange j)
    rw [Bool.or_eq_true, decide_eq_true_eq] at this
    exact (colEq_iff c a (d + 1) d j j).1 (this.resolve_left hj) i
  have hvalid : ∀ d < k, (a.control d).val < n ∧ (a.target d).val < n := by
    intro d hd
    by_cases hnr : needsRange n = true
    · exact (h2 d hd).2 hnr
    · have hne := (h2 d hd).1
      by_cases hn : 2 ≤ n
      · have := range_of_not_needs n hn (by simpa using hnr)
        exact ⟨by have := (a.control d).2; omega, by have := (a.target d).2; omega⟩
      · exfalso
        have h1 : 2 ^ Nat.clog 2 n = 1 := by
          rw [Nat.clog_of_right_le_one (by omega)]; rfl
        apply hne
        apply Fin.ext
        have := (a.control d).2
        have := (a.target d).2
        omega
  rcases Nat.eq_zero_or_pos k with hk | hk
  · subst hk
    have he : (List.finRange checks.length).map (rowAt c a 0) = checks := by
      rw [show rowAt c a 0 = fun i => id checks[i] from funext fun i => rowAt_zero checks _ a i]
      rw [map_checks]; simp
    refine ⟨[], rfl, by simp, ?_, ?_⟩
    · rw [he] at h4; simpa [foldL] using h4
    · simp only [gateExtract]
      rw [show ((List.finRange checks.length).map fun i => fun j : Fin n =>
        if ((encCols checks (fun a : GateVars checks.length n => a.x)) 0 i j).eval a then (1 : ZMod 2) else 0) =
          (List.finRange checks.length).map (rowAt c a 0) from rfl, he]
      simp [foldL]
  · have hn0 : 0 < n := by have := (hvalid 0 hk).1; omega
    let g : ℕ → CX n := fun d =>
      if h : (a.control d).val < n ∧ (a.target d).val < n then (⟨_, h.1⟩, ⟨_, h.2⟩) else (⟨0, hn0⟩, ⟨0, hn0⟩)
    have hg : ∀ d (hd : d < k), g d = (⟨_, (hvalid d hd).1⟩, ⟨_, (hvalid d hd).2⟩) := by
      intro d hd; simp only [g, dif_pos (hvalid d hd)]
    have hgne : ∀ d < k, (g d).1 ≠ (g d).2 := by
      intro d hd he
      rw [hg d hd] at he
      apply (h2 d hd).1
      exact Fin.ext (by simpa using he)
    have hrow : ∀ d ≤ k, ∀ i, rowAt c a d i = foldL (gateList g d) checks[i] := by
      intro d
      induction d with
      | zero => intro _ i; rw [hc, rowAt_zero]; simp [gateList, foldL]
      | succ d ih =>
        intro hd i
        rw [gateList_succ, foldl_append_cnot, ← ih (by omega) i]
        funext j
        show _ = foldL [g d] _ j
        rw [foldL_apply]
        show _ = cnotX _ _ j
        rw [cnotX_apply]
        have hdk : d < k := by omega
        by_cases hj : j = (g d).2
        · rw [if_pos hj, hj]
          exact (h1 d hdk (g d).1 (g d).2 (hgne d hdk) (by rw [hg d hdk]; simp) i).1
        · rw [if_neg hj]
          apply h3' d hdk
          intro he
          apply hj
          rw [hg d hdk]
          exact Fin.ext he.symm
    have hfinal : (List.finRange checks.length).map (rowAt c a k) = checks.map (foldL (gateList g k)) := by
      rw [← map_checks]
      apply List.map_congr_left
      intro i _
      exact hrow k le_rfl i
    refine ⟨gateList g k, by simp [gateList], ?_, ?_, ?_⟩
    · intro x hx
      obtain ⟨d, hd, rfl⟩ := List.mem_map.1 hx
      exact hgne d (List.mem_range.1 hd)
    · rw [← hfinal, h4]
    · simp only [gateExtract]
      have hm : ((List.range k).mapM fun d =>
          if h : (a.control d).val < n ∧ (a.target d).val < n then
            some ((⟨_, h.1⟩, ⟨_, h.2⟩) : CX n) else none) = some (gateList g k) := by
        have : ∀ l : List ℕ, (∀ d ∈ l, d < k) → (l.mapM fun d =>
            if h : (a.control d).val < n ∧ (a.target d).val < n then
              some ((⟨_, h.1⟩, ⟨_, h.2⟩) : CX n) else none) = some (l.map g) := by
          intro l hl
          induction l with
          | nil => rfl
          | cons x l ih =>
            have hx := hl x (by simp)
            rw [List.mapM_cons, ih fun d hd => hl d (by simp [hd]), dif_pos (hvalid x hx), List.map_cons,
              hg x hx]
            rfl
        exact this _ fun d hd => List.mem_range.1 hd
      rw [hm, Option.map_some]
      rw [show ((List.finRange checks.length).map fun i => fun j : Fin n =>
        if ((encCols checks (fun a : GateVars checks.length n => a.x)) k i j).eval a then (1 : ZMod 2) else 0) =
          (List.finRange checks.length).map (rowAt c a k) from rfl, hfinal]

/-- Every CNOT list reducing the matrix to the required number of zero columns is a solution. -/
theorem gate_complete (checks : List (Vec n)) (cnots : List (CX n)) (hne : ∀ g ∈ cnots, g.1 ≠ g.2)
    (hfin : (nonzeroCols (checks.map (foldL cnots))).length = checks.length) :
    ∃ a, gateConstraint checks cnots.length a = true := by
  have hlt : ∀ i : Fin n, i.val < 2 ^ Nat.clog 2 n := fun i => lt_of_lt_of_le i.2 (clog_le n)
  let z : Fin (2 ^ Nat.clog 2 n) := ⟨0, by positivity⟩
  let a : GateVars checks.length n :=
    { x := fun d i j => decide (foldL (cnots.take d) checks[i] j = 1)
      control := fun d => if h : d < cnots.length then ⟨cnots[d].1.val, hlt _⟩ else z
      target := fun d => if h : d < cnots.length then ⟨cnots[d].2.val, hlt _⟩ else z }
  refine ⟨a, ?_⟩
  set c := encCols checks (fun a : GateVars checks.length n => a.x) with hc
  have hrow : ∀ d i, rowAt c a d i = foldL (cnots.take d) checks[i] := by
    intro d i
    cases d with
    | zero => rw [hc, rowAt_zero]; simp [foldL]
    | succ d =>
      funext j
      simp only [rowAt, hc, encCols, Nat.add_one_ne_zero, if_false, eval_sym, a, decide_eq_true_eq]
      rcases zmod2_cases (foldL (cnots.take (d + 1)) checks[i] j) with h | h <;> rw [h] <;> simp
  have hstep : ∀ d (hd : d < cnots.length) i j, rowAt c a (d + 1) i j =
      if j = cnots[d].2 then rowAt c a d i cnots[d].1 + rowAt c a d i j else rowAt c a d i j := by
    intro d hd i j
    rw [hrow, hrow, List.take_succ_eq_append_getElem hd, foldl_append_cnot]
    rw [show foldL [cnots[d]] (foldL (cnots.take d) checks[i]) = cnotX (foldL (cnots.take d) checks[i]) cnots[d] by
      rw [foldL_apply]; rfl]
    rw [cnotX_apply]
  have hctl : ∀ d (hd : d < cnots.length), (a.control d).val = cnots[d].1.val := by
    intro d hd; simp only [a, dif_pos hd]
  have htgt : ∀ d (hd : d < cnots.length), (a.target d).val = cnots[d].2.val := by
    intro d hd; simp only [a, dif_pos hd]
  simp only [gateConstraint, Bool.and_eq_true, ← hc]
  refine ⟨⟨⟨?_, ?_⟩, ?_⟩, ?_⟩
  · rw [columnAddition_iff]
    intro d hd c1 c2 hne' hadd i
    rw [Bool.and_eq_true, decide_eq_true_eq, decide_eq_true_eq, hctl d hd, htgt d hd] at hadd
    have e1 : cnots[d].1 = c1 := Fin.ext hadd.1
    have e2 : cnots[d].2 = c2 := Fin.ext hadd.2
    rw [hstep d hd i c2, hstep d hd i c1, e1, e2, if_pos rfl, if_neg hne']
    exact ⟨rfl, rfl⟩
  · simp only [List.all_eq_true, List.mem_range, Bool.and_eq_true, decide_eq_true_eq, not_or_eq]
    intro d hd
    refine ⟨?_, fun _ => ?_⟩
    · intro he
      have := congrArg Fin.val he
      rw [hctl d hd, htgt d hd] at this
      exact hne _ (List.getElem_mem hd) (Fin.ext this)
    · rw [hctl d hd, htgt d hd]
      exact ⟨Fin.isLt _, Fin.isLt _⟩
  · rw [List.all_eq_true]
    intro d hd
    have hd := List.mem_range.1 hd
    rw [List.all_eq_true]
    intro j _
    rw [Bool.or_eq_true, decide_eq_true_eq, htgt d hd]
    by_cases hj : cnots[d].2.val = j.val
    · exact Or.inl hj
    · right
      rw [colEq_iff]
      intro i
      rw [hstep d hd, if_neg (fun he => hj (by rw [he]))]
  · rw [finalMatrix_iff]
    refine Eq.trans ?_ hfin
    congr 2
    rw [← map_checks]
    apply List.map_congr_left
    intro i _
    rw [hrow, List.take_length]

/-! ### Depth-optimal encoding -/

/-- Gates of one layer act on disjoint qubits. -/
def Disj (g h : CX n) : Prop := g.1 ≠ h.1 ∧ g.1 ≠ h.2 ∧ g.2 ≠ h.1 ∧ g.2 ≠ h.2

/-- A set of CNOTs that can be executed in parallel. -/
def Layer (L : List (CX n)) : Prop := (∀ g ∈ L, g.1 ≠ g.2) ∧ L.Pairwise Disj

theorem layer_disj (L : List (CX n)) (hL : L.Pairwise Disj) (g g' : CX n) (hg : g ∈ L) (hg' : g' ∈ L) :
    g = g' ∨ Disj g g' := by
  induction L with
  | nil => simp at hg
  | cons x L ih =>
    rw [List.pairwise_cons] at hL
    rcases List.mem_cons.1 hg with h1 | h1 <;> rcases List.mem_cons.1 hg' with h2 | h2
    · exact Or.inl (h1.trans h2.symm)
    · rw [h1]; exact Or.inr (hL.1 _ h2)
    · have h := hL.1 _ h1
      rw [h2]
      exact Or.inr ⟨h.1.symm, h.2.2.1.symm, h.2.1.symm, h.2.2.2.symm⟩
    · exact ih hL.2 h1 h2

theorem layer_action (L : List (CX n)) (hL : Layer L) (r : Vec n) :
    (∀ g ∈ L, foldL L r g.2 = r g.1 + r g.2) ∧ (∀ j, (∀ g ∈ L, g.2 ≠ j) → foldL L r j = r j) := by
  induction L generalizing r with
  | nil => exact ⟨by simp, fun j _ => rfl⟩
  | cons g L ih =>
    obtain ⟨hne, hp⟩ := hL
    rw [List.pairwise_cons] at hp
    obtain ⟨h1, h2⟩ := ih ⟨fun x hx => hne x (by simp [hx]), hp.2⟩ (cnotX r g)
    have e : foldL (g :: L) r = foldL L (cnotX r g) := by simp [foldL_apply]
    rw [e]
    constructor
    · intro x hx
      rcases List.mem_cons.1 hx with rfl | hx
      · rw [h2 x.2 (fun y hy => (hp.1 y hy).2.2.2.symm), cnotX_apply, if_pos rfl]
      · have hd := hp.1 x hx
        rw [h1 x hx, cnotX_apply, cnotX_apply, if_neg hd.2.2.1.symm, if_neg hd.2.2.2.symm]
    · intro j hj
      rw [h2 j (fun y hy => hj y (by simp [hy])), cnotX_apply, if_neg (hj g (by simp)).symm]

theorem layer_congr (L L' : List (CX n)) (hL : Layer L) (hL' : Layer L') (h : ∀ g, g ∈ L ↔ g ∈ L') (r : Vec n) :
    foldL L r = foldL L' r := by
  funext j
  by_cases hj : ∃ g ∈ L, g.2 = j
  · obtain ⟨g, hg, rfl⟩ := hj
    rw [(layer_action L hL r).1 g hg, (layer_action L' hL' r).1 g ((h g).1 hg)]
  · push Not at hj
    rw [(layer_action L hL r).2 j hj, (layer_action L' hL' r).2 j fun g hg => hj g ((h g).2 hg)]

theorem mem_layerCnots (add : Fin n → Fin n → Bool) (g : CX n) :
    g ∈ layerCnots add ↔ g.1 ≠ g.2 ∧ add g.1 g.2 = true := by
  simp only [layerCnots, List.mem_flatMap, List.mem_finRange, true_and, List.mem_map, List.mem_filter,
    Bool.and_eq_true, decide_eq_true_eq]
  constructor
  · rintro ⟨j, i, h, rfl⟩; exact h
  · intro h; exact ⟨g.2, g.1, h, rfl⟩

theorem nodup_layerCnots (add : Fin n → Fin n → Bool) : (layerCnots add).Nodup := by
  unfold layerCnots
  rw [List.nodup_flatMap]
  constructor
  · intro j _
    apply List.Nodup.map
    · intro x y h; exact (Prod.mk.inj h).1
    · exact (List.nodup_finRange n).filter _
  · apply (List.nodup_finRange n).imp
    intro j k hjk x hx hx'
    obtain ⟨i, _, rfl⟩ := List.mem_map.1 hx
    obtain ⟨i', _, he⟩ := List.mem_map.1 hx'
    exact hjk (Prod.mk.inj he).2.symm

theorem two_le_countP {α : Type} (l : List α) (p : α → Bool) (x y : α) (hxy : x ≠ y) (hx : x ∈ l) (hy : y ∈ l)
    (px : p x = true) (py : p y = true) : 2 ≤ l.countP p := by
  induction l with
  | nil => simp at hx
  | cons z l ih =>
    rw [List.countP_cons]
    rcases List.mem_cons.1 hx with h1 | h1
    · rw [h1] at hxy px
      have : 0 < l.countP p := List.countP_pos_iff.2 ⟨y, (List.mem_cons.1 hy).resolve_left hxy.symm, py⟩
      rw [if_pos px]; omega
    · rcases List.mem_cons.1 hy with h2 | h2
      · have : 0 < l.countP p := List.countP_pos_iff.2 ⟨x, h1, px⟩
        rw [h2] at py
        rw [if_pos py]; omega
      · have := ih h1 h2; omega

/-- The "at most one addition per column" constraint of one layer. -/
def AtMostOne (add : Fin n → Fin n → Bool) : Prop := ∀ col,
  (((List.finRange n).filter fun c1 => decide (col ≠ c1)).countP fun c1 => add c1 col) +
    (((List.finRange n).filter fun c2 => decide (col ≠ c2)).countP fun c2 => add col c2) ≤ 1

theorem layer_of_atMostOne (add : Fin n → Fin n → Bool) (h : AtMostOne add) : Layer (layerCnots add) := by
  have hmem : ∀ col x : Fin n, col ≠ x → x ∈ (List.finRange n).filter fun c1 => decide (col ≠ c1) := by
    intro col x hx; simp [hx]
  refine ⟨fun g hg => ((mem_layerCnots _ _).1 hg).1, ?_⟩
  have hnd := nodup_layerCnots add
  apply List.Pairwise.imp_of_mem (R := (· ≠ ·)) ?_ hnd
  intro g g' hg hg' hne
  obtain ⟨h1, h2⟩ := (mem_layerCnots _ _).1 hg
  obtain ⟨h1', h2'⟩ := (mem_layerCnots _ _).1 hg'
  obtain ⟨i, j⟩ := g
  obtain ⟨i', j'⟩ := g'
  simp only at h1 h2 h1' h2'
  refine ⟨?_, ?_, ?_, ?_⟩
  · rintro (rfl : i = i')
    have hj : j ≠ j' := fun he => hne (by rw [he])
    have := two_le_countP _ (fun c2 => add i c2) j j' hj (hmem i j h1) (hmem i j' h1') h2 h2'
    have := h i
    omega
  · rintro (rfl : i = j')
    have e1 := List.countP_pos_iff (p := fun c1 => add c1 i) |>.2 ⟨i', hmem i i' h1'.symm, h2'⟩
    have e2 := List.countP_pos_iff (p := fun c2 => add i c2) |>.2 ⟨j, hmem i j h1, h2⟩
    have := h i
    omega
  · rintro (rfl : j = i')
    have e1 := List.countP_pos_iff (p := fun c1 => add c1 j) |>.2 ⟨i, hmem j i h1.symm, h2⟩
    have e2 := List.countP_pos_iff (p := fun c2 => add j c2) |>.2 ⟨j', hmem j j' h1', h2'⟩
    have := h j
    omega
  · rintro (rfl : j = j')
    have hi : i ≠ i' := fun he => hne (by rw [he])
    have := two_le_countP _ (fun c1 => add c1 j) i i' hi (hmem j i h1.symm) (hmem j i' h1'.symm) h2 h2'
    have := h j
    omega

theorem countP_le_one {α : Type} [DecidableEq α] (l : List α) (hl : l.Nodup) (p : α → Bool)
    (h : ∀ x ∈ l, ∀ y ∈ l, p x = true → p y = true → x = y) : l.countP p ≤ 1 := by
  induction l with
  | nil => simp
  | cons z l ih =>
    rw [List.nodup_cons] at hl
    rw [List.countP_cons]
    have := ih hl.2 fun x hx y hy => h x (by simp [hx]) y (by simp [hy])
    by_cases hz : p z = true
    · have h0 : l.countP p = 0 := by
        rw [List.countP_eq_zero]
        intro y hy py
        have := h z (by simp) y (by simp [hy]) hz py
        exact hl.1 (this ▸ hy)
      rw [h0]; split <;> omega
    · rw [if_neg hz]; omega

theorem atMostOne_of_layer (L : List (CX n)) (hL : Layer L) : AtMostOne fun i j => decide ((i, j) ∈ L) := by
  have hdis : ∀ g ∈ L, ∀ g' ∈ L, g = g' ∨ Disj g g' := fun g hg g' hg' => layer_disj L hL.2 g g' hg hg'
  intro col
  have hnd : ((List.finRange n).filter fun c1 => decide (col ≠ c1)).Nodup := (List.nodup_finRange n).filter _
  have h1 := countP_le_one _ hnd (fun c1 => decide ((c1, col) ∈ L)) (by
    intro x _ y _ hx hy
    rw [decide_eq_true_eq] at hx hy
    rcases hdis _ hx _ hy with h | h
    · exact (Prod.mk.inj h).1
    · exact absurd rfl h.2.2.2)
  have h2 := countP_le_one _ hnd (fun c2 => decide ((col, c2) ∈ L)) (by
    intro x _ y _ hx hy
    rw [decide_eq_true_eq] at hx hy
    rcases hdis _ hx _ hy with h | h
    · exact (Prod.mk.inj h).2
    · exact absurd rfl h.1)
  by_contra hcon
  push Not at hcon
  have p1 : 0 < ((List.finRange n).filter fun c1 => decide (col ≠ c1)).countP fun c1 => decide ((c1, col) ∈ L) := by
    omega
  have p2 : 0 < ((List.finRange n).filter fun c1 => decide (col ≠ c1)).countP fun c2 => decide ((col, c2) ∈ L) := by
    omega
  obtain ⟨x, hx, px⟩ := List.countP_pos_iff.1 p1
  obtain ⟨y, hy, py⟩ := List.countP_pos_iff.1 p2
  rw [decide_eq_true_eq] at px py
  rcases hdis _ px _ py with h | h
  · have := (Prod.mk.inj h).1
    simp [this] at hx
  · exact h.2.2.1 rfl

theorem flatMap_range_succ {α : Type} (f : ℕ → List α) (k : ℕ) :
    (List.range (k + 1)).flatMap f = (List.range k).flatMap f ++ f k := by
  simp [List.range_succ]

/-- What a satisfying assignment of the depth-optimal encoding says. -/
theorem depth_sound (checks : List (Vec n)) (D : ℕ) (a : DepthVars checks.length n)
    (h : depthConstraint checks D a = true) (zero : Bool) :
    (∀ d < D, Layer (layerCnots (a.add d))) ∧
      (nonzeroCols (checks.map (foldL ((List.range D).flatMap fun d => layerCnots (a.add d))))).length =
        checks.length ∧
      depthExtract checks D zero a = buildCircuit ((List.range D).flatMap fun d => layerCnots (a.add d))
        (checks.map (foldL ((List.range D).flatMap fun d => layerCnots (a.add d)))) zero := by
  set c := encCols checks (fun a : DepthVars checks.length n => a.x) with hc
  simp only [depthConstraint, Bool.and_eq_true, ← hc] at h
  obtain ⟨⟨⟨h1, h2⟩, h3⟩, h4⟩ := h
  rw [columnAddition_iff] at h1
  rw [finalMatrix_iff] at h4
  have hlayer : ∀ d < D, Layer (layerCnots (a.add d)) := by
    intro d hd
    apply layer_of_atMostOne
    intro col
    have := List.all_eq_true.1 (List.all_eq_true.1 h2 d (List.mem_range.2 hd)) col (List.mem_finRange col)
    rwa [decide_eq_true_eq] at this
  have hstep : ∀ d < D, ∀ i, rowAt c a (d + 1) i = foldL (layerCnots (a.add d)) (rowAt c a d i) := by
    intro d hd i
    funext j
    have hact := layer_action _ (hlayer d hd) (rowAt c a d i)
    by_cases hj : ∃ g ∈ layerCnots (a.add d), g.2 = j
    · obtain ⟨g, hg, rfl⟩ := hj
      rw [hact.1 g hg]
      obtain ⟨e1, e2⟩ := (mem_layerCnots _ _).1 hg
      exact (h1 d hd g.1 g.2 e1 e2 i).1
    · push Not at hj
      rw [hact.2 j hj]
      have := List.all_eq_true.1 (List.all_eq_true.1 h3 d (List.mem_range.2 hd)) j (List.mem_finRange j)
      rw [Bool.or_eq_true, Bool.or_eq_true] at this
      rcases this with (h | h) | h
      · rw [List.any_eq_true] at h
        obtain ⟨c1, hc1, hadd⟩ := h
        have hne : c1 ≠ j := by simpa using hc1
        exact absurd rfl (hj (c1, j) ((mem_layerCnots _ _).2 ⟨hne, hadd⟩))
      · rw [List.any_eq_true] at h
        obtain ⟨c2, hc2, hadd⟩ := h
        have hne : c2 ≠ j := by simpa using hc2
        exact (h1 d hd j c2 hne.symm hadd i).2
      · exact (colEq_iff c a (d + 1) d j j).1 h i
  have hrow : ∀ d ≤ D, ∀ i, rowAt c a d i =
      foldL ((List.range d).flatMap fun d => layerCnots (a.add d)) checks[i] := by
    intro d
    induction d with
    | zero => intro _ i; rw [hc, rowAt_zero]; simp [foldL]
    | succ d ih =>
      intro hd i
      rw [flatMap_range_succ, foldl_append_cnot, ← ih (by omega) i]
      exact hstep d (by omega) i
  have hfinal : (List.finRange checks.length).map (rowAt c a D) =
      checks.map (foldL ((List.range D).flatMap fun d => layerCnots (a.add d))) := by
    rw [← map_checks]
    exact List.map_congr_left fun i _ => hrow D le_rfl i
  refine ⟨hlayer, by rw [← hfinal, h4], ?_⟩
  rw [← hfinal]
  rfl

/-- Every sequence of layers reducing the matrix is a solution of the depth-optimal encoding. -/
theorem depth_complete (checks : List (Vec n)) (layers : List (List (CX n))) (hl : ∀ L ∈ layers, Layer L)
    (hfin : (nonzeroCols (checks.map (foldL layers.flatten))).length = checks.length) :
    ∃ a, depthConstraint checks layers.length a = true := by
  let a : DepthVars checks.length n :=
    { x := fun d i j => decide (foldL (layers.take d).flatten checks[i] j = 1)
      add := fun d i j => decide ((i, j) ∈ layers.getD d []) }
  refine ⟨a, ?_⟩
  set c := encCols checks (fun a : DepthVars checks.length n => a.x) with hc
  have hrow : ∀ d i, rowAt c a d i = foldL (layers.take d).flatten checks[i] := by
    intro d i
    cases d with
    | zero => rw [hc, rowAt_zero]; simp [foldL]
    | succ d =>
      funext j
      simp only [rowAt, hc, encCols, Nat.add_one_ne_zero, if_false, eval_sym, a, decide_eq_true_eq]
      rcases zmod2_cases (foldL (layers.take (d + 1)).flatten checks[i] j) with h | h <;> rw [h] <;> simp
  have hgetD : ∀ d (hd : d < layers.length), layers.getD d [] = layers[d] := by
    intro d hd; simp [List.getD_eq_getElem?_getD, hd]
  have hstep : ∀ d (hd : d < layers.length) i, rowAt c a (d + 1) i = foldL layers[d] (rowAt c a d i) := by
    intro d hd i
    rw [hrow, hrow, List.take_succ_eq_append_getElem hd, List.flatten_append, foldl_append_cnot]
    simp
  have hL : ∀ d (hd : d < layers.length), Layer layers[d] := fun d hd => hl _ (List.getElem_mem hd)
  simp only [depthConstraint, Bool.and_eq_true, ← hc]
  refine ⟨⟨⟨?_, ?_⟩, ?_⟩, ?_⟩
  · rw [columnAddition_iff]
    intro d hd c1 c2 hne hadd i
    have hg : (c1, c2) ∈ layers[d] := by
      simp only [a, decide_eq_true_eq, hgetD d hd] at hadd; exact hadd
    have hact := layer_action _ (hL d hd) (rowAt c a d i)
    rw [hstep d hd i]
    refine ⟨hact.1 _ hg, hact.2 c1 ?_⟩
    intro g hg' he
    have hdis : g = (c1, c2) ∨ Disj g (c1, c2) := layer_disj _ (hL d hd).2 _ _ hg' hg
    rcases hdis with h | h
    · rw [h] at he; exact hne he.symm
    · exact h.2.2.1 he
  · rw [List.all_eq_true]
    intro d hd
    have hd := List.mem_range.1 hd
    rw [List.all_eq_true]
    intro col _
    rw [decide_eq_true_eq]
    have := atMostOne_of_layer _ (hL d hd) col
    simp only [a, hgetD d hd]
    exact this
  · rw [List.all_eq_true]
    intro d hd
    have hd := List.mem_range.1 hd
    rw [List.all_eq_true]
    intro j _
    rw [Bool.or_eq_true, Bool.or_eq_true]
    by_cases hj : ∃ g ∈ layers[d], g.2 = j
    · obtain ⟨g, hg, rfl⟩ := hj
      left; left
      rw [List.any_eq_true]
      refine ⟨g.1, ?_, ?_⟩
      · simpa using (hL d hd).1 g hg
      · simp only [a, decide_eq_true_eq, hgetD d hd]; exact hg
    · right
      push Not at hj
      rw [colEq_iff]
      intro i
      rw [hstep d hd i, (layer_action _ (hL d hd) (rowAt c a d i)).2 j hj]
  · rw [finalMatrix_iff]
    refine Eq.trans ?_ hfin
    congr 2
    rw [← map_checks]
    apply List.map_congr_left
    intro i _
    rw [hrow, List.take_length]

end Verif.SP
