import Verif.Lemmas.Kunneth
import Verif.LinalgLemmas
import Mathlib.Data.ENat.Lattice
import Mathlib.LinearAlgebra.Basis.VectorSpace
import Mathlib.InformationTheory.Hamming
import Mathlib.Algebra.CharP.Two

/-!
# Distances of products with a classical code
-/

namespace Verif.Kunneth
open Module

/-- The least weight of the elements with a property, `⊤` if there are none. -/
noncomputable def minW {V : Type} (w : V → ℕ) (P : V → Prop) : ℕ∞ := ⨅ v : {v // P v}, (w v.1 : ℕ∞)

theorem minW_le {V : Type} {w : V → ℕ} {P : V → Prop} {v : V} (h : P v) : minW w P ≤ w v := iInf_le (fun v : {v // P v} => (w v.1 : ℕ∞)) ⟨v, h⟩

theorem le_minW {V : Type} {w : V → ℕ} {P : V → Prop} {d : ℕ∞} (h : ∀ v, P v → d ≤ w v) : d ≤ minW w P := le_iInf fun v => h v.1 v.2

theorem minW_attained {V : Type} {w : V → ℕ} {P : V → Prop} (h : minW w P ≠ ⊤) : ∃ v, P v ∧ minW w P = w v := by
  have hne : Nonempty {v // P v} := by
    by_contra hn
    rw [not_nonempty_iff] at hn
    exact h (iInf_of_empty _)
  obtain ⟨v, hv⟩ := ciInf_mem fun v : {v // P v} => (w v.1 : ℕ∞)
  exact ⟨v.1, v.2, hv.symm⟩

theorem minW_congr {V W : Type} {w : V → ℕ} {P : V → Prop} {w' : W → ℕ} {P' : W → Prop} (e : V ≃ W) (hw : ∀ v, w' (e v) = w v)
    (hP : ∀ v, P' (e v) ↔ P v) : minW w P = minW w' P' := by
  apply le_antisymm
  · refine le_minW fun v hv => ?_
    obtain ⟨u, rfl⟩ := e.surjective v
    rw [hw]
    exact minW_le ((hP u).1 hv)
  · refine le_minW fun v hv => ?_
    rw [← hw]
    exact minW_le ((hP v).2 hv)

theorem one_le_minW {V : Type} {w : V → ℕ} {P : V → Prop} (h : ∀ v, P v → w v ≠ 0) : 1 ≤ minW w P :=
  le_minW fun v hv => by exact_mod_cast Nat.one_le_iff_ne_zero.2 (h v hv)

theorem ne_top_of_mul {a b : ℕ∞} (ha : 1 ≤ a) (hb : 1 ≤ b) (h : a * b ≠ ⊤) : a ≠ ⊤ ∧ b ≠ ⊤ := by
  have ha0 : a ≠ 0 := fun e => by rw [e] at ha; exact absurd ha (by decide)
  have hb0 : b ≠ 0 := fun e => by rw [e] at hb; exact absurd hb (by decide)
  constructor
  · rintro rfl; exact h (ENat.top_mul hb0)
  · rintro rfl; exact h (ENat.mul_top ha0)

theorem wt_eq_zero {n : ℕ} {v : Vec n} : wt v = 0 ↔ v = 0 := hammingNorm_eq_zero

theorem wt_add_le {n : ℕ} (u v : Vec n) : wt (u + v) ≤ wt u + wt v := by
  unfold wt
  refine (Finset.card_le_card ?_).trans (Finset.card_union_le _ _)
  intro i
  simp only [Finset.mem_filter, Finset.mem_union, Finset.mem_univ, true_and, Pi.add_apply, ne_eq]
  intro h
  by_contra hn
  push Not at hn
  exact h (by rw [hn.1, hn.2, add_zero])

theorem wt_sum_le {n : ℕ} {ι : Type} (s : Finset ι) (f : ι → Vec n) : wt (∑ j ∈ s, f j) ≤ ∑ j ∈ s, wt (f j) := by
  classical
  induction s using Finset.induction_on with
  | empty => simp [wt_eq_zero.2]
  | insert j s hj ih =>
    rw [Finset.sum_insert hj, Finset.sum_insert hj]
    exact (wt_add_le _ _).trans (by omega)

theorem wt_smul_le {n : ℕ} (s : ZMod 2) (v : Vec n) : wt (s • v) ≤ wt v := by
  unfold wt
  apply Finset.card_le_card
  intro i
  simp only [Finset.mem_filter, Finset.mem_univ, true_and, Pi.smul_apply, smul_eq_mul, ne_eq]
  exact fun h e => h (by rw [e, mul_zero])

theorem wt_smul_sum {n m : ℕ} (y : Vec m) (u : Vec n) : ∑ k, wt (y k • u) = wt y * wt u := by
  have h : ∀ k, wt (y k • u) = if y k ≠ 0 then wt u else 0 := by
    intro k
    by_cases hk : y k = 0
    · rw [hk, zero_smul, if_neg (by simp), wt_eq_zero]
    · rw [if_pos hk]
      have : y k = 1 := by
        have := hk
        revert this
        generalize y k = z
        revert z; decide
      rw [this, one_smul]
  simp only [h]
  rw [← Finset.sum_filter, Finset.sum_const, smul_eq_mul]
  rfl

variable {r q n3 n2 n1 n0 : ℕ}

/-- The weight of a pair of families of vectors. -/
def wtF (v : (Fin r → Vec n2) × (Fin q → Vec n1)) : ℕ := ∑ j, wt (v.1 j) + ∑ k, wt (v.2 k)

/-- The least weight of a cycle that is not a boundary. -/
noncomputable def sys (a : Vec n1 →ₗ[ZMod 2] Vec n0) (b : Vec n2 →ₗ[ZMod 2] Vec n1) : ℕ∞ :=
  minW wt fun v => a v = 0 ∧ v ∉ LinearMap.range b

/-- The least weight of a vector outside of the image. -/
noncomputable def out (b : Vec n2 →ₗ[ZMod 2] Vec n1) : ℕ∞ := minW wt fun v => v ∉ LinearMap.range b

/-- The least weight of a nonzero vector of the kernel. -/
noncomputable def kerDist (a : Vec n1 →ₗ[ZMod 2] Vec n0) : ℕ∞ := minW wt fun v => a v = 0 ∧ v ≠ 0

theorem one_le_sys (a : Vec n1 →ₗ[ZMod 2] Vec n0) (b : Vec n2 →ₗ[ZMod 2] Vec n1) : 1 ≤ sys a b :=
  one_le_minW fun v hv h => hv.2 (by rw [wt_eq_zero.1 h]; exact Submodule.zero_mem _)

theorem one_le_out (b : Vec n2 →ₗ[ZMod 2] Vec n1) : 1 ≤ out b :=
  one_le_minW fun v hv h => hv (by rw [wt_eq_zero.1 h]; exact Submodule.zero_mem _)

theorem one_le_kerDist (a : Vec n1 →ₗ[ZMod 2] Vec n0) : 1 ≤ kerDist a := one_le_minW fun _ hv h => hv.2 (wt_eq_zero.1 h)

/-- A functional on vectors is a scalar product. -/
theorem functional {n : ℕ} (f : Vec n →ₗ[ZMod 2] ZMod 2) : ∃ z : Vec n, ∀ v, f v = ∑ i, z i * v i := by
  refine ⟨fun i => f (Pi.single i 1), fun v => ?_⟩
  conv_lhs => rw [show v = ∑ i, v i • Pi.single i (1 : ZMod 2) from (pi_eq_sum_univ' v).trans (by
    refine Finset.sum_congr rfl fun i _ => ?_
    congr 1)]
  rw [map_sum]
  exact Finset.sum_congr rfl fun i _ => by rw [map_smul, smul_eq_mul, mul_comm]

/-- A vector outside of the image of a matrix is seen by the kernel of the transposed matrix. -/
theorem exists_left {p : Matrix (Fin r) (Fin q) (ZMod 2)} {x : Vec r} (h : x ∉ LinearMap.range p.mulVecLin) :
    ∃ z : Vec r, (∀ k, ∑ j, z j * p j k = 0) ∧ ∑ j, z j * x j ≠ 0 := by
  obtain ⟨f, hf, hle⟩ := Submodule.exists_le_ker_of_notMem h
  obtain ⟨z, hz⟩ := functional f
  refine ⟨z, fun k => ?_, by rw [← hz]; exact hf⟩
  have := hle ⟨Pi.single k 1, rfl⟩
  rw [LinearMap.mem_ker, hz] at this
  rw [← this]
  exact Finset.sum_congr rfl fun j _ => by simp

/-- The same for families of vectors. -/
theorem exists_left_family {p : Matrix (Fin r) (Fin q) (ZMod 2)} {H : Type} [AddCommGroup H] [Module (ZMod 2) H] [FiniteDimensional (ZMod 2) H]
    {x : Fin r → H} (h : x ∉ LinearMap.range (act p H)) : ∃ z : Vec r, (∀ k, ∑ j, z j * p j k = 0) ∧ ∑ j, z j • x j ≠ 0 := by
  let e : H ≃ₗ[ZMod 2] (Fin (finrank (ZMod 2) H) → ZMod 2) := LinearEquiv.ofFinrankEq _ _ (by simp)
  by_contra hn
  push Not at hn
  have key : ∀ t, (fun j => e (x j) t) ∈ LinearMap.range p.mulVecLin := by
    intro t
    by_contra ht
    obtain ⟨z, hz1, hz2⟩ := exists_left ht
    apply hz2
    have := congrFun (congrArg e (hn z hz1)) t
    rw [map_sum, map_zero, Finset.sum_apply] at this
    rw [← Pi.zero_apply (M := fun _ => ZMod 2) t, ← this]
    exact Finset.sum_congr rfl fun j _ => by simp
  choose y hy using key
  apply h
  refine ⟨fun k => e.symm fun t => y t k, ?_⟩
  funext j
  apply e.injective
  funext t
  have := congrFun (hy t) j
  rw [← this, act_apply, map_sum, Finset.sum_apply, Matrix.mulVecLin_apply, Matrix.mulVec, dotProduct]
  exact Finset.sum_congr rfl fun k _ => by simp

variable (p : Matrix (Fin r) (Fin q) (ZMod 2)) (c : Vec n3 →ₗ[ZMod 2] Vec n2) (b : Vec n2 →ₗ[ZMod 2] Vec n1) (a : Vec n1 →ₗ[ZMod 2] Vec n0)

/-- Combining the rows of a family with a relation of the matrix. -/
theorem left_act {p : Matrix (Fin r) (Fin q) (ZMod 2)} {z : Vec r} (hz : ∀ k, ∑ j, z j * p j k = 0) {n : ℕ} (Z : Fin q → Vec n) :
    ∑ j, z j • act p (Vec n) Z j = 0 := by
  simp only [act_apply, Finset.smul_sum, smul_smul]
  rw [Finset.sum_comm]
  refine Finset.sum_eq_zero fun k _ => ?_
  rw [← Finset.sum_smul, hz, zero_smul]

/-- Cycles and boundaries of the product. -/
theorem bdry_eq_zero (v : (Fin r → Vec n2) × (Fin q → Vec n1)) :
    bdry p b a v = 0 ↔ (∀ j, b (v.1 j) + act p (Vec n1) v.2 j = 0) ∧ ∀ k, a (v.2 k) = 0 := by
  change ((fun j => b (v.1 j) + act p (Vec n1) v.2 j, fun k => a (v.2 k)) : (Fin r → Vec n1) × (Fin q → Vec n0)) = 0 ↔ _
  rw [Prod.ext_iff]
  simp only [funext_iff, Prod.fst_zero, Prod.snd_zero, Pi.zero_apply]

theorem mem_range_bdry (v : (Fin r → Vec n2) × (Fin q → Vec n1)) :
    v ∈ LinearMap.range (bdry p c b) ↔ ∃ (W : Fin r → Vec n3) (Z : Fin q → Vec n2), (∀ j, c (W j) + act p (Vec n2) Z j = v.1 j) ∧
      ∀ k, b (Z k) = v.2 k := by
  constructor
  · rintro ⟨⟨W, Z⟩, rfl⟩
    exact ⟨W, Z, fun _ => rfl, fun _ => rfl⟩
  · rintro ⟨W, Z, h1, h2⟩
    exact ⟨(W, Z), Prod.ext (funext h1) (funext h2)⟩

theorem add_self_vec {n : ℕ} (v : Vec n) : v + v = 0 := by
  funext i; exact CharTwo.add_self_eq_zero _

theorem eq_of_add {n : ℕ} {u v : Vec n} (h : u + v = 0) : u = v := by
  funext i
  exact CharTwo.add_eq_zero.1 (congrFun h i)

theorem out_le_one {p : Matrix (Fin r) (Fin q) (ZMod 2)} {z : Vec r} (hz : ∀ k, ∑ j, z j * p j k = 0) (hz0 : z ≠ 0) : out p.mulVecLin ≤ 1 := by
  obtain ⟨j, hj⟩ := Function.ne_iff.1 hz0
  have h1 : (Pi.single j 1 : Vec r) ∉ LinearMap.range p.mulVecLin := by
    rintro ⟨y, hy⟩
    apply hj
    have h2 : ∑ i, z i * (p.mulVecLin y) i = 0 := by
      simp only [Matrix.mulVecLin_apply, Matrix.mulVec, dotProduct, Finset.mul_sum]
      rw [Finset.sum_comm]
      refine Finset.sum_eq_zero fun k _ => ?_
      simp only [← mul_assoc]
      rw [← Finset.sum_mul, hz, zero_mul]
    rw [hy] at h2
    simpa [Pi.single_apply] using h2
  refine (minW_le (P := fun v => v ∉ LinearMap.range p.mulVecLin) h1).trans ?_
  have : wt (Pi.single j 1 : Vec r) ≤ 1 := by
    unfold wt
    rw [Finset.card_le_one]
    intro x hx y hy
    simp only [Finset.mem_filter, Finset.mem_univ, true_and, Pi.single_apply, ne_eq, ite_eq_right_iff, one_ne_zero, imp_false, not_not] at hx hy
    rw [hx, hy]
  exact_mod_cast this

/-- The lower bound. -/
theorem le_wtF (v : (Fin r → Vec n2) × (Fin q → Vec n1)) (h0 : bdry p b a v = 0) (h1 : v ∉ LinearMap.range (bdry p c b)) :
    min (out p.mulVecLin * sys b c) (kerDist p.mulVecLin * sys a b) ≤ wtF v := by
  rw [bdry_eq_zero] at h0
  obtain ⟨hX, hY⟩ := h0
  by_cases hA : ∃ k, v.2 k ∉ LinearMap.range b
  · refine (min_le_right _ _).trans ?_
    obtain ⟨k0, hk0⟩ := hA
    obtain ⟨f, hf, hle⟩ := Submodule.exists_le_ker_of_notMem hk0
    have hy : (fun k => f (v.2 k)) ≠ 0 := fun h => hf (congrFun h k0)
    have hp : p.mulVecLin (fun k => f (v.2 k)) = 0 := by
      funext j
      rw [Matrix.mulVecLin_apply, Matrix.mulVec, dotProduct]
      have h2 := congrArg f (hX j)
      rw [map_add, act_apply, map_sum] at h2
      have h3 : f (b (v.1 j)) = 0 := hle ⟨_, rfl⟩
      rw [h3, zero_add, map_zero] at h2
      rw [Pi.zero_apply, ← h2]
      exact Finset.sum_congr rfl fun k _ => by rw [map_smul, smul_eq_mul]
    have h4 : kerDist p.mulVecLin ≤ wt fun k => f (v.2 k) := minW_le ⟨hp, hy⟩
    calc kerDist p.mulVecLin * sys a b ≤ (wt fun k => f (v.2 k) : ℕ∞) * sys a b := mul_le_mul_left h4 _
      _ = ∑ k ∈ Finset.univ.filter (fun k => f (v.2 k) ≠ 0), sys a b := by
          rw [Finset.sum_const, nsmul_eq_mul]; rfl
      _ ≤ ∑ k ∈ Finset.univ.filter (fun k => f (v.2 k) ≠ 0), (wt (v.2 k) : ℕ∞) := by
          refine Finset.sum_le_sum fun k hk => minW_le ⟨hY k, fun h => ?_⟩
          simp only [Finset.mem_filter, Finset.mem_univ, true_and] at hk
          exact hk (hle h)
      _ ≤ ∑ k, (wt (v.2 k) : ℕ∞) := Finset.sum_le_sum_of_subset (Finset.filter_subset _ _)
      _ ≤ wtF v := by
          rw [wtF]; push_cast
          exact le_add_self
  · refine (min_le_left _ _).trans ?_
    push Not at hA
    choose Z hZ using hA
    have hX' : ∀ j, b (v.1 j + act p (Vec n2) Z j) = 0 := by
      intro j
      rw [map_add, ← act_comp]
      simp only [hZ]
      exact hX j
    let R : Submodule (ZMod 2) (LinearMap.ker b) := (LinearMap.range c).comap (LinearMap.ker b).subtype
    let x : Fin r → (LinearMap.ker b) := fun j => ⟨v.1 j + act p (Vec n2) Z j, hX' j⟩
    have hx : (fun j => R.mkQ (x j)) ∉ LinearMap.range (act p (LinearMap.ker b ⧸ R)) := by
      rintro ⟨u, hu⟩
      choose U hU using fun k => Submodule.mkQ_surjective R (u k)
      have h2 : ∀ j, x j - act p (LinearMap.ker b) U j ∈ R := by
        intro j
        rw [← Submodule.Quotient.mk_eq_zero, ← Submodule.mkQ_apply, map_sub, ← act_comp]
        simp only [hU]
        rw [← congrFun hu j, sub_self]
      choose W hW using h2
      apply h1
      rw [mem_range_bdry]
      refine ⟨W, fun k => Z k + (U k).1, fun j => ?_, fun k => ?_⟩
      · have h3 := hW j
        have h4 := act_comp p (LinearMap.ker b).subtype U j
        change act p (Vec n2) (fun k => (U k).1) j = (act p (LinearMap.ker b) U j).1 at h4
        change c (W j) = (v.1 j + act p (Vec n2) Z j) - (act p (LinearMap.ker b) U j).1 at h3
        rw [← h4] at h3
        have h5 : act p (Vec n2) (fun k => Z k + (U k).1) j = act p (Vec n2) Z j + act p (Vec n2) (fun k => (U k).1) j :=
          congrFun ((act p (Vec n2)).map_add Z fun k => (U k).1) j
        rw [h3, h5]
        have := add_self_vec (act p (Vec n2) Z j)
        rw [show v.1 j + act p (Vec n2) Z j - act p (Vec n2) (fun k => (U k).1) j + (act p (Vec n2) Z j + act p (Vec n2) (fun k => (U k).1) j) =
          v.1 j + (act p (Vec n2) Z j + act p (Vec n2) Z j) by abel, this, add_zero]
      · rw [map_add, hZ, (U k).2, add_zero]
    obtain ⟨z, hz1, hz2⟩ := exists_left_family hx
    have hs : ∑ j, z j • v.1 j ∉ LinearMap.range c := by
      intro hs
      apply hz2
      have : ∑ j, z j • R.mkQ (x j) = R.mkQ (∑ j, z j • x j) := by
        rw [map_sum]; exact Finset.sum_congr rfl fun j _ => (map_smul _ _ _).symm
      rw [this, Submodule.mkQ_apply, Submodule.Quotient.mk_eq_zero]
      change (LinearMap.ker b).subtype (∑ j, z j • x j) ∈ LinearMap.range c
      rw [map_sum]
      have h3 : ∑ j, (LinearMap.ker b).subtype (z j • x j) = ∑ j, z j • v.1 j + ∑ j, z j • act p (Vec n2) Z j := by
        rw [← Finset.sum_add_distrib]
        exact Finset.sum_congr rfl fun j _ => by rw [map_smul, ← smul_add]; rfl
      rw [h3, left_act hz1, add_zero]
      exact hs
    have hb : b (∑ j, z j • v.1 j) = 0 := by
      have h2 : ∑ j, z j • b (v.1 j) = ∑ j, z j • act p (Vec n1) v.2 j :=
        Finset.sum_congr rfl fun j _ => by rw [eq_of_add (hX j)]
      rw [map_sum]
      simp only [map_smul]
      rw [h2, left_act hz1]
    have hz0 : z ≠ 0 := by
      rintro rfl
      apply hs
      simp
    calc out p.mulVecLin * sys b c ≤ 1 * sys b c := mul_le_mul_left (out_le_one hz1 hz0) _
      _ = sys b c := one_mul _
      _ ≤ (wt (∑ j, z j • v.1 j) : ℕ∞) := minW_le ⟨hb, hs⟩
      _ ≤ wtF v := by
        have h2 := wt_sum_le Finset.univ fun j => z j • v.1 j
        have h3 : ∑ j, wt (z j • v.1 j) ≤ ∑ j, wt (v.1 j) := Finset.sum_le_sum fun j _ => wt_smul_le _ _
        have h4 : wt (∑ j, z j • v.1 j) ≤ wtF v := by unfold wtF; omega
        exact_mod_cast h4

/-- **Distances of a product with a classical code.** -/
theorem sys_product :
    minW wtF (fun v => bdry p b a v = 0 ∧ v ∉ LinearMap.range (bdry p c b)) =
      min (out p.mulVecLin * sys b c) (kerDist p.mulVecLin * sys a b) := by
  apply le_antisymm
  · apply le_min
    · by_cases ht : out p.mulVecLin * sys b c = ⊤
      · rw [ht]; exact le_top
      obtain ⟨t1, t2⟩ := ne_top_of_mul (one_le_out _) (one_le_sys _ _) ht
      obtain ⟨x, hx, -⟩ := minW_attained t1
      obtain ⟨u, ⟨hu1, hu2⟩, hu3⟩ := minW_attained t2
      obtain ⟨z, hz1, hz2⟩ := exists_left hx
      have hz0 : z ≠ 0 := by
        rintro rfl; apply hz2; simp
      obtain ⟨j, hj⟩ := Function.ne_iff.1 hz0
      have hP : bdry p b a ((fun i => if i = j then u else 0), 0) = 0 ∧
          ((fun i => if i = j then u else 0), 0) ∉ LinearMap.range (bdry p c b) := by
        constructor
        · rw [bdry_eq_zero]
          refine ⟨fun i => ?_, fun k => map_zero _⟩
          simp only [act_apply, Pi.zero_apply, smul_zero, Finset.sum_const_zero, add_zero]
          split
          · exact hu1
          · exact map_zero _
        · rw [mem_range_bdry]
          rintro ⟨W, Z, h1, -⟩
          apply hu2
          have h2 : ∑ i, z i • (c (W i) + act p (Vec n2) Z i) = ∑ i, z i • (if i = j then u else 0) :=
            Finset.sum_congr rfl fun i _ => by rw [h1]
          simp only [smul_add, Finset.sum_add_distrib] at h2
          have h4 : ∑ i, z i • (if i = j then u else 0) = z j • u := by
            rw [Finset.sum_eq_single j (by intro i _ hi; rw [if_neg hi, smul_zero]) (by simp), if_pos rfl]
          rw [left_act hz1, add_zero, h4] at h2
          have h3 : z j = 1 := by
            revert hj
            generalize z j = y
            simp only [Pi.zero_apply]
            revert y; decide
          rw [h3, one_smul] at h2
          refine ⟨∑ i, z i • W i, ?_⟩
          rw [map_sum, ← h2]
          exact Finset.sum_congr rfl fun i _ => map_smul _ _ _
      refine (minW_le (P := fun v => bdry p b a v = 0 ∧ v ∉ LinearMap.range (bdry p c b)) hP).trans ?_
      have hw : wtF ((fun i => if i = j then u else 0, 0) : (Fin r → Vec n2) × (Fin q → Vec n1)) = wt u := by
        rw [wtF, Finset.sum_eq_single j (by intro i _ hi; simp only; rw [if_neg hi, wt_eq_zero]) (by simp)]
        simp [wt_eq_zero.2]
      rw [hw]
      change sys b c = _ at hu3
      rw [← hu3]
      calc sys b c = 1 * sys b c := (one_mul _).symm
        _ ≤ out p.mulVecLin * sys b c := mul_le_mul_left (one_le_out _) _
    · by_cases ht : kerDist p.mulVecLin * sys a b = ⊤
      · rw [ht]; exact le_top
      obtain ⟨t1, t2⟩ := ne_top_of_mul (one_le_kerDist _) (one_le_sys _ _) ht
      obtain ⟨y, ⟨hy1, hy2⟩, hy3⟩ := minW_attained t1
      obtain ⟨u, ⟨hu1, hu2⟩, hu3⟩ := minW_attained t2
      have hP : bdry p b a (0, fun k => y k • u) = 0 ∧ ((0, fun k => y k • u) : (Fin r → Vec n2) × (Fin q → Vec n1)) ∉ LinearMap.range (bdry p c b) := by
        constructor
        · rw [bdry_eq_zero]
          refine ⟨fun i => ?_, fun k => by simp [hu1]⟩
          have h2 := congrFun hy1 i
          rw [Matrix.mulVecLin_apply, Matrix.mulVec, dotProduct] at h2
          simp only [act_apply, Pi.zero_apply, map_zero, zero_add, smul_smul]
          rw [← Finset.sum_smul, h2, Pi.zero_apply, zero_smul]
        · rw [mem_range_bdry]
          rintro ⟨W, Z, -, h2⟩
          obtain ⟨k, hk⟩ := Function.ne_iff.1 hy2
          apply hu2
          refine ⟨Z k, ?_⟩
          rw [h2 k]
          have h3 : y k = 1 := by
            revert hk
            generalize y k = y
            simp only [Pi.zero_apply]
            revert y; decide
          change y k • u = u
          rw [h3, one_smul]
      refine (minW_le (P := fun v => bdry p b a v = 0 ∧ v ∉ LinearMap.range (bdry p c b)) hP).trans ?_
      have hw : wtF ((0, fun k => y k • u) : (Fin r → Vec n2) × (Fin q → Vec n1)) = wt y * wt u := by
        rw [wtF, wt_smul_sum]
        simp [wt_eq_zero.2]
      rw [hw]
      change kerDist p.mulVecLin = _ at hy3
      change sys a b = _ at hu3
      rw [hy3, hu3, Nat.cast_mul]
  · exact le_minW fun v hv => le_wtF p c b a v hv.1 hv.2

end Verif.Kunneth
