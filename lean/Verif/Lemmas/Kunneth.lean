import Mathlib.LinearAlgebra.Dimension.Constructions
import Mathlib.LinearAlgebra.FiniteDimensional.Lemmas
import Mathlib.LinearAlgebra.Matrix.Rank
import Mathlib.LinearAlgebra.Quotient.Basic
import Mathlib.Tactic.Ring
import Mathlib.Tactic.LinearCombination

/-!
# Dimension of the kernel of a boundary map of a product complex
-/

namespace Verif.Kunneth
open Module

variable {K : Type} [Field K] {ι κ : Type} [Fintype ι] [Fintype κ]

/-- The matrix `p` acting on families of vectors. -/
def act (p : Matrix ι κ K) (H : Type) [AddCommGroup H] [Module K H] : (κ → H) →ₗ[K] (ι → H) where
  toFun Y := fun j => ∑ k, p j k • Y k
  map_add' Y Z := by funext j; simp [smul_add, Finset.sum_add_distrib]
  map_smul' s Y := by
    funext j
    simp only [Pi.smul_apply, RingHom.id_apply, Finset.smul_sum]
    exact Finset.sum_congr rfl fun k _ => smul_comm _ _ _

theorem act_apply (p : Matrix ι κ K) {H : Type} [AddCommGroup H] [Module K H] (Y : κ → H) (j : ι) : act p H Y j = ∑ k, p j k • Y k := rfl

theorem act_comp (p : Matrix ι κ K) {H H' : Type} [AddCommGroup H] [Module K H] [AddCommGroup H'] [Module K H'] (f : H →ₗ[K] H') (Y : κ → H)
    (j : ι) : act p H' (fun k => f (Y k)) j = f (act p H Y j) := by
  simp [act_apply, map_sum]

/-- Families in a subspace. -/
theorem finrank_families {M : Type} [AddCommGroup M] [Module K M] [FiniteDimensional K M] (q : Submodule K M) (S : Submodule K (κ → M))
    (h : ∀ Y, Y ∈ S ↔ ∀ k, Y k ∈ q) : finrank K S = Fintype.card κ * finrank K q := by
  have e : S ≃ₗ[K] (κ → q) :=
    { toFun := fun Y k => ⟨Y.1 k, (h Y.1).1 Y.2 k⟩
      map_add' := fun _ _ => rfl
      map_smul' := fun _ _ => rfl
      invFun := fun Y => ⟨fun k => (Y k).1, (h _).2 fun k => (Y k).2⟩
      left_inv := fun _ => rfl
      right_inv := fun _ => rfl }
  rw [e.finrank_eq, finrank_pi_fintype]
  simp

theorem finrank_ker_act (p : Matrix ι κ K) (H : Type) [AddCommGroup H] [Module K H] [FiniteDimensional K H] :
    finrank K (LinearMap.ker (act p H)) = finrank K H * finrank K (LinearMap.ker p.mulVecLin) := by
  let e : H ≃ₗ[K] (Fin (finrank K H) → K) := LinearEquiv.ofFinrankEq _ _ (by simp)
  have key : ∀ Y : κ → H, Y ∈ LinearMap.ker (act p H) ↔ ∀ t, (fun k => e (Y k) t) ∈ LinearMap.ker p.mulVecLin := by
    intro Y
    have h1 : ∀ t j, (p.mulVecLin fun k => e (Y k) t) j = e (act p H Y j) t := by
      intro t j
      rw [Matrix.mulVecLin_apply, act_apply, map_sum]
      simp [Matrix.mulVec, dotProduct]
    simp only [LinearMap.mem_ker]
    constructor
    · intro h t
      funext j
      rw [h1, h]; simp
    · intro h
      funext j
      apply e.injective
      funext t
      rw [← h1, h]; simp
  have f : LinearMap.ker (act p H) ≃ₗ[K] (Fin (finrank K H) → LinearMap.ker p.mulVecLin) :=
    { toFun := fun Y t => ⟨fun k => e (Y.1 k) t, (key Y.1).1 Y.2 t⟩
      map_add' := fun Y Z => by ext t k; simp
      map_smul' := fun s Y => by ext t k; simp
      invFun := fun Z => ⟨fun k => e.symm fun t => (Z t).1 k, (key _).2 fun t => by simp⟩
      left_inv := fun Y => by ext k; simp
      right_inv := fun Z => by ext t k; simp }
  rw [f.finrank_eq, finrank_pi_fintype]
  simp

variable {N2 N1 N0 : Type} [AddCommGroup N2] [Module K N2] [FiniteDimensional K N2] [AddCommGroup N1] [Module K N1] [FiniteDimensional K N1]
  [AddCommGroup N0] [Module K N0] [FiniteDimensional K N0]

/-- The boundary map of the product. -/
def bdry (p : Matrix ι κ K) (b : N2 →ₗ[K] N1) (a : N1 →ₗ[K] N0) : (ι → N2) × (κ → N1) →ₗ[K] (ι → N1) × (κ → N0) where
  toFun v := (fun j => b (v.1 j) + act p N1 v.2 j, fun k => a (v.2 k))
  map_add' v w := by
    ext j
    · simp only [Prod.fst_add, Prod.snd_add, Pi.add_apply, map_add]; abel
    · simp
  map_smul' s v := by
    ext j
    · simp
    · simp

/-- Dimension of the second components of the kernel. -/
theorem finrank_second (p : Matrix ι κ K) (b : N2 →ₗ[K] N1) (a : N1 →ₗ[K] N0) (hab : a.comp b = 0) (S : Submodule K (κ → N1))
    (hS : ∀ Y, Y ∈ S ↔ (∀ k, a (Y k) = 0) ∧ ∀ j, act p N1 Y j ∈ LinearMap.range b) :
    finrank K S + finrank K (LinearMap.ker p.mulVecLin) * (finrank K (LinearMap.range b) + finrank K (LinearMap.range a)) =
      Fintype.card κ * finrank K (LinearMap.range b) + finrank K (LinearMap.ker p.mulVecLin) * finrank K N1 := by
  have hab' : ∀ x, a (b x) = 0 := fun x => LinearMap.congr_fun hab x
  have hle : LinearMap.range b ≤ LinearMap.ker a := by
    rintro _ ⟨x, rfl⟩
    exact hab' x
  let abar : (N1 ⧸ LinearMap.range b) →ₗ[K] N0 := (LinearMap.range b).liftQ a hle
  let H := LinearMap.ker abar
  have hH : finrank K H + finrank K (LinearMap.range b) + finrank K (LinearMap.range a) = finrank K N1 := by
    have h1 := LinearMap.finrank_range_add_finrank_ker abar
    have h2 : LinearMap.range abar = LinearMap.range a := Submodule.range_liftQ _ _ _
    have h3 := Submodule.finrank_quotient_add_finrank (LinearMap.range b)
    rw [h2] at h1
    change _ + finrank K H = _ at h1
    omega
  let g : S →ₗ[K] (κ → H) :=
    { toFun := fun Y k => ⟨(LinearMap.range b).mkQ (Y.1 k), ((hS Y.1).1 Y.2).1 k⟩
      map_add' := fun _ _ => rfl
      map_smul' := fun _ _ => rfl }
  have hgr : LinearMap.range g = LinearMap.ker (act p H) := by
    ext Z
    rw [LinearMap.mem_ker]
    constructor
    · rintro ⟨Y, rfl⟩
      funext j
      apply Subtype.ext
      have := act_comp p (Submodule.subtype H) (g Y) j
      change _ = (act p H (g Y) j).1 at this
      rw [← this]
      change act p _ (fun k => (LinearMap.range b).mkQ (Y.1 k)) j = 0
      rw [act_comp, Submodule.mkQ_apply, Submodule.Quotient.mk_eq_zero]
      exact ((hS Y.1).1 Y.2).2 j
    · intro h
      choose Y hY using fun k => Submodule.mkQ_surjective (LinearMap.range b) (Z k).1
      have hmem : Y ∈ S := by
        rw [hS]
        refine ⟨fun k => ?_, fun j => ?_⟩
        · have := (Z k).2
          rw [← hY k] at this
          exact this
        · rw [← Submodule.Quotient.mk_eq_zero, ← Submodule.mkQ_apply, ← act_comp]
          have h2 := act_comp p (Submodule.subtype H) Z j
          rw [h] at h2
          change act p _ (fun k => (Z k).1) j = 0 at h2
          simpa only [hY] using h2
      refine ⟨⟨Y, hmem⟩, ?_⟩
      funext k
      exact Subtype.ext (hY k)
  have hker : finrank K (LinearMap.ker g) = Fintype.card κ * finrank K (LinearMap.range b) := by
    rw [← finrank_families (LinearMap.range b) ((LinearMap.ker g).map S.subtype)]
    · exact (Submodule.equivMapOfInjective S.subtype S.injective_subtype _).finrank_eq
    · intro Y
      simp only [Submodule.mem_map, LinearMap.mem_ker, Submodule.subtype_apply]
      constructor
      · rintro ⟨Y, hY, rfl⟩ k
        have := congrArg Subtype.val (congrFun hY k)
        change (LinearMap.range b).mkQ (Y.1 k) = 0 at this
        rwa [Submodule.mkQ_apply, Submodule.Quotient.mk_eq_zero] at this
      · intro h
        refine ⟨⟨Y, (hS Y).2 ⟨fun k => hle (h k), fun j => ?_⟩⟩, ?_, rfl⟩
        · rw [act_apply]
          exact Submodule.sum_mem _ fun k _ => Submodule.smul_mem _ _ (h k)
        · funext k
          apply Subtype.ext
          change (LinearMap.range b).mkQ (Y k) = 0
          rw [Submodule.mkQ_apply, Submodule.Quotient.mk_eq_zero]
          exact h k
  have h1 := LinearMap.finrank_range_add_finrank_ker g
  rw [hgr, finrank_ker_act, hker] at h1
  rw [← h1, ← hH]
  ring

/-- Dimension of the kernel of the boundary map. -/
theorem finrank_ker_bdry (p : Matrix ι κ K) (b : N2 →ₗ[K] N1) (a : N1 →ₗ[K] N0) (hab : a.comp b = 0) :
    finrank K (LinearMap.ker (bdry p b a)) + finrank K (LinearMap.ker p.mulVecLin) * (finrank K (LinearMap.range b) + finrank K (LinearMap.range a)) =
      Fintype.card ι * finrank K (LinearMap.ker b) + Fintype.card κ * finrank K (LinearMap.range b) +
        finrank K (LinearMap.ker p.mulVecLin) * finrank K N1 := by
  let f : LinearMap.ker (bdry p b a) →ₗ[K] (κ → N1) := (LinearMap.snd K _ _).comp (LinearMap.ker (bdry p b a)).subtype
  have hmem : ∀ v, v ∈ LinearMap.ker (bdry p b a) ↔ (∀ j, b (v.1 j) + act p N1 v.2 j = 0) ∧ ∀ k, a (v.2 k) = 0 := by
    intro v
    rw [LinearMap.mem_ker]
    change ((fun j => b (v.1 j) + act p N1 v.2 j, fun k => a (v.2 k)) : (ι → N1) × (κ → N0)) = 0 ↔ _
    rw [Prod.ext_iff]
    simp only [funext_iff, Prod.fst_zero, Prod.snd_zero, Pi.zero_apply]
  have h1 := LinearMap.finrank_range_add_finrank_ker f
  have h2 := finrank_second p b a hab (LinearMap.range f) (by
    intro Y
    constructor
    · rintro ⟨v, rfl⟩
      obtain ⟨h3, h4⟩ := (hmem v.1).1 v.2
      refine ⟨h4, fun j => ⟨-v.1.1 j, ?_⟩⟩
      rw [map_neg]
      exact neg_eq_of_add_eq_zero_right (h3 j)
    · rintro ⟨h3, h4⟩
      choose X hX using h4
      refine ⟨⟨(fun j => -X j, Y), (hmem _).2 ⟨fun j => ?_, h3⟩⟩, rfl⟩
      change b (-X j) + act p N1 Y j = 0
      rw [map_neg, hX, neg_add_cancel])
  have h3 : finrank K (LinearMap.ker f) = Fintype.card ι * finrank K (LinearMap.ker b) := by
    let T : Submodule K (ι → N2) := Submodule.pi Set.univ fun _ => LinearMap.ker b
    have hT : ∀ X, X ∈ T ↔ ∀ j, X j ∈ LinearMap.ker b := fun X => by simp [T, Submodule.mem_pi]
    rw [← finrank_families (LinearMap.ker b) T hT]
    have e : LinearMap.ker f ≃ₗ[K] T :=
      { toFun := fun v => ⟨v.1.1.1, (hT _).2 fun j => by
          have h4 := ((hmem v.1.1).1 v.1.2).1 j
          have h5 : v.1.1.2 = 0 := v.2
          rw [h5] at h4
          simpa [act_apply] using h4⟩
        map_add' := fun _ _ => rfl
        map_smul' := fun _ _ => rfl
        invFun := fun X => ⟨⟨(X.1, 0), (hmem _).2 ⟨fun j => by simpa [act_apply] using (hT _).1 X.2 j, fun k => by simp⟩⟩, rfl⟩
        left_inv := fun v => by
          apply Subtype.ext; apply Subtype.ext
          have h5 : v.1.1.2 = 0 := v.2
          exact Prod.ext rfl h5.symm
        right_inv := fun _ => rfl }
    exact e.finrank_eq
  rw [h3] at h1
  omega

end Verif.Kunneth
