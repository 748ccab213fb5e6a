import Verif.Model.Symbolic
import Verif.LinalgLemmas

/-! Meaning of symbolic vectors. -/

namespace Verif.SP
open Verif
variable {σ : Type} {n : ℕ}

/-- Value of a symbolic vector as a binary vector. -/
def evalVec (a : σ) (v : SVec σ n) : Vec n := fun i => if (v i).eval a then 1 else 0

@[simp] theorem eval_con (a : σ) (b : Bool) : (Sym.con b : Sym σ).eval a = b := rfl
@[simp] theorem eval_sym (a : σ) (f : σ → Bool) : (Sym.sym f).eval a = f a := rfl

@[simp] theorem eval_addEntry (a : σ) (x y : Sym σ) :
    (addEntry x y).eval a = xor (x.eval a) (y.eval a) := by
  cases x with
  | con b => cases b <;> cases y <;> simp [addEntry, Sym.eval]
  | sym f => cases y with
    | con b => cases b <;> simp [addEntry, Sym.eval]
    | sym g => simp [addEntry, Sym.eval]

@[simp] theorem eval_eqEntry (a : σ) (x y : Sym σ) :
    (eqEntry x y).eval a = (x.eval a == y.eval a) := by
  cases x with
  | con b => cases b <;> cases y <;> simp [eqEntry, Sym.eval]
  | sym f => cases y with
    | con b => cases b <;> simp [eqEntry, Sym.eval]
    | sym g => simp [eqEntry, Sym.eval]

theorem evalVec_vectorAdd (a : σ) (v w : SVec σ n) :
    evalVec a (vectorAdd v w) = evalVec a v + evalVec a w := by
  funext i
  simp only [evalVec, vectorAdd, eval_addEntry, Pi.add_apply]
  cases (v i).eval a <;> cases (w i).eval a <;> (simp; try decide)

theorem evalVec_scalarMult (a : σ) (v : Vec n) (x : Sym σ) :
    evalVec a (scalarMult v x) = if x.eval a then v else 0 := by
  funext i
  simp only [evalVec, scalarMult]
  cases hx : x.eval a <;> rcases zmod2_cases (v i) with h | h <;> simp [h, hx]

theorem evalVec_concrete (a : σ) (v : Vec n) : evalVec a (concrete v) = v := by
  funext i
  simp only [evalVec, concrete, Sym.eval]
  rcases zmod2_cases (v i) with h | h <;> simp [h]

theorem vectorEq_iff (a : σ) (v w : SVec σ n) :
    vectorEq v w a = true ↔ evalVec a v = evalVec a w := by
  simp only [vectorEq, List.all_eq_true, List.mem_finRange, eval_eqEntry, true_implies, beq_iff_eq]
  constructor
  · intro h; funext i; simp [evalVec, h i]
  · intro h i
    have := congrFun h i
    simp only [evalVec] at this
    cases h1 : (v i).eval a <;> cases h2 : (w i).eval a <;> simp_all

/-- The sum of the selected generators. -/
def combo (sel : List Bool) (gens : List (Vec n)) : Vec n :=
  ((sel.zip gens).map fun x => if x.1 then x.2 else 0).sum

theorem combo_cons (b : Bool) (bs : List Bool) (g : Vec n) (gs : List (Vec n)) :
    combo (b :: bs) (g :: gs) = (if b then g else 0) + combo bs gs := by simp [combo]

theorem combo_mem (sel : List Bool) (gens : List (Vec n)) : combo sel gens ∈ rowSpan gens := by
  induction gens generalizing sel with
  | nil => simp [combo]
  | cons g gs ih =>
    cases sel with
    | nil => simp [combo]
    | cons b bs =>
      rw [combo_cons, rowSpan_cons]
      apply Submodule.add_mem_sup
      · split
        · exact Submodule.mem_span_singleton_self g
        · exact Submodule.zero_mem _
      · exact ih bs

theorem exists_combo (gens : List (Vec n)) (v : Vec n) (h : v ∈ rowSpan gens) :
    ∃ f : ℕ → Bool, combo ((List.range gens.length).map f) gens = v := by
  induction gens generalizing v with
  | nil =>
    rw [rowSpan_nil, Submodule.mem_bot] at h
    exact ⟨fun _ => false, by rw [h]; simp [combo]⟩
  | cons g gs ih =>
    rcases mem_rowSpan_cons.1 h with h | h
    · obtain ⟨f, hf⟩ := ih v h
      refine ⟨fun i => match i with | 0 => false | i + 1 => f i, ?_⟩
      rw [List.length_cons, List.range_succ_eq_map, List.map_cons, combo_cons, List.map_map]
      simpa [Function.comp_def] using hf
    · obtain ⟨f, hf⟩ := ih _ h
      refine ⟨fun i => match i with | 0 => true | i + 1 => f i, ?_⟩
      rw [List.length_cons, List.range_succ_eq_map, List.map_cons, combo_cons, List.map_map]
      have : combo (List.map ((fun i => match i with | 0 => true | i + 1 => f i) ∘ Nat.succ)
        (List.range gs.length)) gs = combo ((List.range gs.length).map f) gs := rfl
      rw [this, hf]
      simp only [if_true]
      rw [add_comm g, add_add_cancel']

theorem evalVec_fold (a : σ) (l : List (Sym σ × Vec n)) (acc : SVec σ n) :
    evalVec a (l.foldl (fun acc x => vectorAdd acc (scalarMult x.2 x.1)) acc) =
      evalVec a acc + (l.map fun x => if x.1.eval a then x.2 else 0).sum := by
  induction l generalizing acc with
  | nil => simp
  | cons x l ih =>
    simp only [List.foldl_cons, ih, evalVec_vectorAdd, evalVec_scalarMult, List.map_cons,
      List.sum_cons, add_assoc]

theorem varsToStab_spec (ms : List (Sym σ)) (gs : List (Vec n)) (hl : ms.length = gs.length)
    (hne : gs ≠ []) : ∃ v, varsToStab ms gs = some v ∧
      ∀ a, evalVec a v = combo (ms.map (·.eval a)) gs := by
  cases gs with
  | nil => exact absurd rfl hne
  | cons g gs =>
    cases ms with
    | nil => simp at hl
    | cons m ms =>
      simp only [List.length_cons, Nat.add_right_cancel_iff] at hl
      refine ⟨_, by simp only [varsToStab, hl.le, if_true]; rfl, fun a => ?_⟩
      rw [evalVec_fold, List.map_cons, combo_cons, evalVec_scalarMult]
      congr 1
      unfold combo
      rw [List.zip_map_left, List.map_map]
      rfl

theorem wt_eq_countP (v : Vec n) : wt v = (List.finRange n).countP fun i => decide (v i = 1) := by
  have : (fun i => decide (v i = 1)) = fun i => decide (v i ≠ 0) := by
    funext i; rcases zmod2_cases (v i) with h | h <;> simp [h]
  rw [this, List.countP_eq_length_filter]
  unfold wt
  rw [← List.toFinset_card_of_nodup ((List.nodup_finRange n).filter _)]
  congr 1
  ext i; simp

end Verif.SP
