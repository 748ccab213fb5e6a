import Verif.Model.CSS
import Verif.Lemmas.Stabilizer

/-! Helper lemmas for the CSS model. -/

namespace Verif.CSS
open Verif

/-- Contract of `ldpc.mod2.nullspace`: the rows are a basis of the kernel. -/
def Mod2.Correct (lib : Mod2) : Prop :=
  ∀ {n : ℕ} (m : List (Vec n)), rowSpan (lib.nullspace m) = kerOf m ∧
    rank (lib.nullspace m) = (lib.nullspace m).length

section
variable {n : ℕ}

theorem greedy_subset (prev vs : List (Vec n)) : ∀ v ∈ greedy prev vs, v ∈ vs := by
  induction vs generalizing prev with
  | nil => simp [greedy]
  | cons v vs ih =>
    intro w hw
    rw [greedy] at hw
    split at hw
    · exact List.mem_cons_of_mem _ (ih _ w hw)
    · rcases List.mem_cons.1 hw with rfl | hw
      · simp
      · exact List.mem_cons_of_mem _ (ih _ w hw)

theorem rowSpan_greedy (prev vs : List (Vec n)) :
    rowSpan (prev ++ greedy prev vs) = rowSpan (prev ++ vs) := by
  induction vs generalizing prev with
  | nil => simp [greedy]
  | cons v vs ih =>
    have h := ih (prev ++ [v])
    rw [greedy]
    split
    · rename_i hv
      have hv' := inSpan_iff.1 hv
      have e : rowSpan (prev ++ [v]) = rowSpan prev := by
        rw [rowSpan_append, sup_eq_left, rowSpan_le_iff]; simpa using hv'
      have e2 : rowSpan (prev ++ v :: vs) = rowSpan (prev ++ [v] ++ vs) := by simp
      rw [e2, ← h, rowSpan_append, rowSpan_append (prev ++ [v]), e]
    · have e2 : prev ++ v :: vs = prev ++ [v] ++ vs := by simp
      have e3 : prev ++ v :: greedy (prev ++ [v]) vs = prev ++ [v] ++ greedy (prev ++ [v]) vs := by simp
      rw [e2, e3, h]

theorem rank_append_singleton (a : List (Vec n)) (v : Vec n) (h : v ∉ rowSpan a) :
    rank (a ++ [v]) = rank a + 1 := by
  rw [rank_append_comm, List.singleton_append, rank]
  rw [if_neg (fun h' => h (inSpan_iff.1 h'))]

theorem rank_greedy (prev vs : List (Vec n)) :
    rank (prev ++ greedy prev vs) = rank prev + (greedy prev vs).length := by
  induction vs generalizing prev with
  | nil => simp [greedy]
  | cons v vs ih =>
    have h := ih (prev ++ [v])
    rw [greedy]
    split
    · rename_i hv
      have hv' := inSpan_iff.1 hv
      have e : rowSpan (prev ++ [v]) = rowSpan prev := by
        rw [rowSpan_append, sup_eq_left, rowSpan_le_iff]; simpa using hv'
      have e1 : rank (prev ++ [v]) = rank prev := rank_congr e
      rw [e1] at h
      rw [← h]
      apply rank_congr
      rw [rowSpan_append, rowSpan_append (prev ++ [v]), e]
    · rename_i hv
      have hv' : v ∉ rowSpan prev := fun h' => hv (inSpan_iff.2 h')
      have e3 : prev ++ v :: greedy (prev ++ [v]) vs = prev ++ [v] ++ greedy (prev ++ [v]) vs := by simp
      rw [e3, h, rank_append_singleton _ _ hv', List.length_cons]; omega

theorem rowSpan_rowBasis (m : List (Vec n)) : rowSpan (rowBasis m) = rowSpan m := by
  have := rowSpan_greedy [] m
  simpa [rowBasis] using this

theorem rank_rowBasis (m : List (Vec n)) : rank (rowBasis m) = (rowBasis m).length := by
  have := rank_greedy [] m
  simpa [rowBasis, rank] using this

theorem mem_allVecs (n : ℕ) (v : Vec n) : v ∈ allVecs n := by
  induction n with
  | zero => simp only [allVecs, List.mem_singleton]; funext i; exact i.elim0
  | succ n ih =>
    rw [allVecs, List.mem_flatMap]
    refine ⟨Fin.tail v, ih _, ?_⟩
    have hv : Fin.cons (v 0) (Fin.tail v) = v := Fin.cons_self_tail v
    rcases zmod2_cases (v 0) with h | h
    · rw [h] at hv; rw [hv]; simp
    · rw [h] at hv; rw [hv]; simp

theorem refLib_correct : Mod2.Correct refLib := by
  intro n m
  constructor
  · have h := rowSpan_rowBasis ((allVecs n).filter fun v => m.all fun r => decide (dot r v = 0))
    change rowSpan (rowBasis _) = _
    rw [h]
    apply le_antisymm
    · rw [rowSpan_le_iff]
      intro v hv
      have := (List.mem_filter.1 hv).2
      intro r hr
      simpa using List.all_eq_true.1 this r hr
    · intro v hv
      apply mem_rowSpan_of_mem
      rw [List.mem_filter]
      refine ⟨mem_allVecs n v, ?_⟩
      rw [List.all_eq_true]; intro r hr; simpa using hv r hr
  · exact rank_rowBasis _

/-- Key facts about computed logicals. -/
theorem computeLogical_facts {lib : Mod2} (hlib : lib.Correct) {m1 m2 : List (Vec n)}
    (horth : ∀ r ∈ m1, ∀ s ∈ m2, dot r s = 0) :
    rowSpan (m2 ++ computeLogical lib m1 m2) = kerOf m1 ∧
    rank (m2 ++ computeLogical lib m1 m2) = rank m2 + (computeLogical lib m1 m2).length := by
  obtain ⟨hk1, -⟩ := @hlib n m1
  have hb := rowSpan_rowBasis m2
  have hle : rowSpan m2 ≤ kerOf m1 := by
    rw [rowSpan_le_iff]; intro s hs r hr; exact horth r hr s hs
  have h1 : rowSpan (m2 ++ computeLogical lib m1 m2) = rowSpan (rowBasis m2 ++ computeLogical lib m1 m2) := by
    rw [rowSpan_append, rowSpan_append, hb]
  constructor
  · rw [h1, computeLogical, rowSpan_greedy, rowSpan_append, hb, hk1, sup_eq_right]; exact hle
  · rw [rank_congr h1, computeLogical, rank_greedy, rank_congr hb]

end

/-! ### Rank of the padded generator matrix -/

/-- Embedding of X rows. -/
def embX (n : ℕ) : Vec n →ₗ[ZMod 2] Vec (2 * n + 1) where
  toFun v := fun i => if h : i.val < n then v ⟨i, h⟩ else 0
  map_add' a b := by funext i; by_cases h : i.val < n <;> simp [h]
  map_smul' c a := by funext i; by_cases h : i.val < n <;> simp [h]

/-- Embedding of Z rows. -/
def embZ (n : ℕ) : Vec n →ₗ[ZMod 2] Vec (2 * n + 1) where
  toFun v := fun i => if h : n ≤ i.val ∧ i.val < 2 * n then v ⟨i.val - n, by omega⟩ else 0
  map_add' a b := by funext i; by_cases h : n ≤ i.val ∧ i.val < 2 * n <;> simp [h]
  map_smul' c a := by funext i; by_cases h : n ≤ i.val ∧ i.val < 2 * n <;> simp [h]

theorem embX_apply (n : ℕ) (v : Vec n) (i : Fin (2 * n + 1)) :
    embX n v i = if h : i.val < n then v ⟨i, h⟩ else 0 := rfl
theorem embZ_apply (n : ℕ) (v : Vec n) (i : Fin (2 * n + 1)) :
    embZ n v i = if h : n ≤ i.val ∧ i.val < 2 * n then v ⟨i.val - n, by omega⟩ else 0 := rfl

theorem embX_injective (n : ℕ) : Function.Injective (embX n) := by
  intro a b h; funext i
  have := congrFun h ⟨i.val, by omega⟩
  simpa [embX_apply, i.isLt] using this

theorem embZ_injective (n : ℕ) : Function.Injective (embZ n) := by
  intro a b h; funext i
  have := congrFun h ⟨n + i.val, by omega⟩
  have hi : n + i.val < 2 * n := by omega
  simpa [embZ_apply, hi] using this

theorem toVec_padX {n : ℕ} (r : Vec n) :
    Stab.toVec (2 * n + 1) (List.ofFn r ++ List.replicate n 0 ++ [0]) = embX n r := by
  funext i
  rw [embX_apply, Stab.toVec, List.getD_eq_getElem?_getD]
  by_cases h : i.val < n
  · rw [dif_pos h, List.getElem?_append_left (by simp; omega), List.getElem?_append_left (by simpa using h)]
    simp [h]
  · rw [dif_neg h]
    by_cases h2 : i.val < 2 * n
    · rw [List.getElem?_append_left (by simp; omega), List.getElem?_append_right (by simp; omega)]
      simp [List.getElem?_replicate]
      split <;> rfl
    · rw [List.getElem?_append_right (by simp; omega)]
      have : i.val - (List.ofFn r ++ List.replicate n 0).length = 0 := by simp; omega
      rw [this]; rfl

theorem toVec_padZ {n : ℕ} (r : Vec n) :
    Stab.toVec (2 * n + 1) (List.replicate n 0 ++ List.ofFn r ++ [0]) = embZ n r := by
  funext i
  rw [embZ_apply, Stab.toVec, List.getD_eq_getElem?_getD]
  by_cases h : i.val < n
  · rw [dif_neg (by omega), List.getElem?_append_left (by simp; omega),
      List.getElem?_append_left (by simpa using h)]
    simp [h]
  · by_cases h2 : i.val < 2 * n
    · rw [dif_pos ⟨by omega, h2⟩, List.getElem?_append_left (by simp; omega),
        List.getElem?_append_right (by simp; omega)]
      have h3 : i.val - n < n := by omega
      simp [h3]
    · rw [dif_neg (by omega), List.getElem?_append_right (by simp; omega)]
      have : i.val - (List.replicate n 0 ++ List.ofFn r).length = 0 := by simp; omega
      rw [this]; rfl

theorem generatorRows_toVec {n : ℕ} (hx hz : List (Vec n)) :
    (generatorRows hx hz).map (Stab.toVec (2 * n + 1)) = hx.map (embX n) ++ hz.map (embZ n) := by
  simp only [generatorRows, List.map_append, List.map_map, Function.comp_def, toVec_padX, toVec_padZ]

theorem generatorRows_length {n : ℕ} (hx hz : List (Vec n)) :
    ∀ r ∈ generatorRows hx hz, r.length = 2 * n + 1 := by
  intro r hr
  simp only [generatorRows, List.mem_append, List.mem_map] at hr
  rcases hr with ⟨a, -, rfl⟩ | ⟨a, -, rfl⟩ <;> simp <;> omega

theorem rowSpan_map {V W : Type*} [AddCommGroup V] [Module (ZMod 2) V] [AddCommGroup W]
    [Module (ZMod 2) W] (f : V →ₗ[ZMod 2] W) (l : List V) :
    rowSpan (l.map f) = (rowSpan l).map f := by
  rw [rowSpan, rowSpan, Submodule.map_span]
  congr 1
  ext w; simp [List.mem_map]

theorem rank_generatorRows {n : ℕ} (hx hz : List (Vec n)) :
    rank ((generatorRows hx hz).map (Stab.toVec (2 * n + 1))) = rank hx + rank hz := by
  rw [generatorRows_toVec, rank_eq_finrank, rowSpan_append, rowSpan_map, rowSpan_map]
  have hdis : (rowSpan hx).map (embX n) ⊓ (rowSpan hz).map (embZ n) = ⊥ := by
    rw [Submodule.eq_bot_iff]
    rintro v ⟨⟨a, -, rfl⟩, ⟨b, -, hb⟩⟩
    have : a = 0 := by
      funext i
      have := congrFun hb ⟨i.val, by omega⟩
      have hi : ¬ n ≤ i.val := by omega
      simpa [embX_apply, embZ_apply, hi] using this.symm
    rw [this, map_zero]
  have := Submodule.finrank_sup_add_finrank_inf_eq ((rowSpan hx).map (embX n)) ((rowSpan hz).map (embZ n))
  rw [hdis, finrank_bot, add_zero, LinearMap.finrank_map_eq_of_injective' (embX_injective n),
    LinearMap.finrank_map_eq_of_injective' (embZ_injective n)] at this
  rw [this, rank_eq_finrank, rank_eq_finrank]
where
  LinearMap.finrank_map_eq_of_injective' {V W : Type} [AddCommGroup V] [Module (ZMod 2) V]
    [AddCommGroup W] [Module (ZMod 2) W] {f : V →ₗ[ZMod 2] W} (hf : Function.Injective f)
    {p : Submodule (ZMod 2) V} :
    Module.finrank (ZMod 2) (p.map f) = Module.finrank (ZMod 2) p :=
    (Submodule.equivMapOfInjective f hf p).symm.finrank_eq

end Verif.CSS
