import Verif.Lemmas.ProductSys
import Verif.Props.ProductK

/-! # C135: the distances of product codes -/

namespace Verif.ProductRank
open Verif Verif.Product Verif.CodeFiles Verif.Kunneth Module

/-! ## Specification -/

/-- The least weight of an operator of one type that commutes with the checks `H` of the other type and is not a product of the checks `G`
of its own type; `⊤` if there is none. -/
noncomputable def logicalDistance {a c b : ℕ} (H : Matrix (Fin a) (Fin b) ℤ) (G : Matrix (Fin c) (Fin b) ℤ) : ℕ∞ :=
  ⨅ v : {v : Vec b // v ∈ kerOf (rowsMod2 H) ∧ v ∉ rowSpan (rowsMod2 G)}, (wt v.1 : ℕ∞)

/-- The Z distance of the CSS code. -/
noncomputable def distanceZ {a c b : ℕ} (hx : Matrix (Fin a) (Fin b) ℤ) (hz : Matrix (Fin c) (Fin b) ℤ) : ℕ∞ := logicalDistance hx hz

/-- The X distance of the CSS code. -/
noncomputable def distanceX {a c b : ℕ} (hx : Matrix (Fin a) (Fin b) ℤ) (hz : Matrix (Fin c) (Fin b) ℤ) : ℕ∞ := logicalDistance hz hx

/-- The distance of the classical code with this parity-check matrix; `⊤` if it encodes no bit. -/
noncomputable def distance {a b : ℕ} (M : Matrix (Fin a) (Fin b) ℤ) : ℕ∞ :=
  ⨅ v : {v : Vec b // v ∈ kerOf (rowsMod2 M) ∧ v ≠ 0}, (wt v.1 : ℕ∞)

/-- A term that counts only if `k` is not zero. -/
def ifSome (k : ℕ) : ℕ∞ := if k = 0 then ⊤ else 1

/-! ## Helpers -/

theorem mem_ker {a b : ℕ} (M : Matrix (Fin a) (Fin b) ℤ) (v : Vec b) : v ∈ kerOf (rowsMod2 M) ↔ lin M v = 0 := by
  rw [mem_kerOf]
  simp only [rowsMod2, List.mem_ofFn, forall_exists_index, forall_apply_eq_imp_iff]
  rw [funext_iff]
  rfl

theorem mem_span {a b : ℕ} (M : Matrix (Fin a) (Fin b) ℤ) (v : Vec b) : v ∈ rowSpan (rowsMod2 M) ↔ v ∈ LinearMap.range (lin M.transpose) := by
  have h : rowSpan (rowsMod2 M) = LinearMap.range (lin M.transpose) := by
    rw [lin, Matrix.range_mulVecLin, rowSpan]
    congr 1
    ext v
    simp only [rowsMod2, Set.mem_setOf_eq, List.mem_ofFn, Set.mem_range]
    rfl
  rw [h]

theorem logicalDistance_eq {a c b : ℕ} (H : Matrix (Fin a) (Fin b) ℤ) (G : Matrix (Fin c) (Fin b) ℤ) :
    logicalDistance H G = sys (lin H) (lin G.transpose) :=
  minW_congr (P := fun v => v ∈ kerOf (rowsMod2 H) ∧ v ∉ rowSpan (rowsMod2 G)) (Equiv.refl _) (fun _ => rfl) fun v =>
    and_congr (mem_ker H v).symm (not_congr (mem_span G v).symm)

theorem distance_eq {a b : ℕ} (M : Matrix (Fin a) (Fin b) ℤ) : distance M = kerDist (lin M) :=
  minW_congr (P := fun v => v ∈ kerOf (rowsMod2 M) ∧ v ≠ 0) (Equiv.refl _) (fun _ => rfl) fun v => and_congr (mem_ker M v).symm Iff.rfl

theorem out_eq {a b : ℕ} (M : Matrix (Fin a) (Fin b) ℤ) : out (lin M) = ifSome (relations M) := by
  have h1 := relations_eq M
  have h2 := finrank_range M
  unfold ifSome
  split
  · next h =>
    apply top_le_iff.1
    refine le_minW fun v hv => absurd ?_ hv
    have h3 : LinearMap.range (lin M) = ⊤ := by
      apply Submodule.eq_top_of_finrank_eq
      rw [finrank_fin_fun]
      change finrank (ZMod 2) (LinearMap.range (M2 M).mulVecLin) = a
      omega
    rw [h3]
    trivial
  · next h =>
    apply le_antisymm
    · have h3 : LinearMap.range (M2 M).mulVecLin < ⊤ := by
        rw [lt_top_iff_ne_top]
        intro h4
        rw [h4, finrank_top, finrank_fin_fun] at h2
        omega
      obtain ⟨x, -, hx⟩ := SetLike.exists_of_lt h3
      obtain ⟨z, hz1, hz2⟩ := exists_left hx
      refine out_le_one hz1 ?_
      rintro rfl
      apply hz2; simp
    · exact one_le_out _

theorem relations_transpose {a b : ℕ} (M : Matrix (Fin a) (Fin b) ℤ) : relations M.transpose = bits M := by
  rw [relations, Matrix.transpose_transpose]

/-! ## The claims -/

/-- C135: the distances of the hypergraph product of two classical codes, exactly, for all matrices. -/
theorem C135_hgp {m1 n1 m2 n2 : ℕ} (h1 : Matrix (Fin m1) (Fin n1) ℤ) (h2 : Matrix (Fin m2) (Fin n2) ℤ) :
    distanceZ (hgpX h1 h2) (hgpZ h1 h2) = min (ifSome (bits h2) * distance h1) (distance h2.transpose * ifSome (relations h1)) ∧
    distanceX (hgpX h1 h2) (hgpZ h1 h2) = min (ifSome (relations h2) * distance h1.transpose) (distance h2 * ifSome (bits h1)) := by
  constructor
  · rw [distanceZ, logicalDistance_eq, hgpX_eq, hgpZ_eq, sys_d1_dLast, out_eq, out_eq, relations_transpose, distance_eq, distance_eq]
  · have e : hgpZ h1 h2 = (dLast h1 h2.transpose).transpose := by rw [← hgpZ_eq, Matrix.transpose_transpose]
    rw [distanceX, logicalDistance_eq, hgpX_eq, e, sys_dLast_d1_T, out_eq, out_eq, relations_transpose, relations_transpose, distance_eq,
      distance_eq, Matrix.transpose_transpose]
    rfl

/-- C135: the distances of the 3D product of a CSS code (X checks `a1`, Z checks the columns of `a2`) with a classical code. -/
theorem C135_product3d {n0 n1 n2 r c : ℕ} (a1 : Matrix (Fin n0) (Fin n1) ℤ) (a2 : Matrix (Fin n1) (Fin n2) ℤ)
    (p : Matrix (Fin r) (Fin c) ℤ) (D1 D2 D3) (hg : generate3d a1 a2 p = .ok (D1, D2, D3)) :
    distanceZ D1 D2.transpose =
      min (ifSome (relations p) * distanceZ a1 a2.transpose) (distance p * ifSome (relations a1)) ∧
    distanceX D1 D2.transpose =
      min (ifSome (bits p) * distance a1.transpose) (distance p.transpose * distanceX a1 a2.transpose) ∧
    distanceZ D2 D3.transpose =
      min (ifSome (relations p) * distance a2) (distance p * distanceZ a1 a2.transpose) ∧
    distanceX D2 D3.transpose =
      min (ifSome (bits p) * distanceX a1 a2.transpose) (distance p.transpose * ifSome (bits a2)) := by
  obtain ⟨rfl, rfl, rfl⟩ := generate3d_eq hg
  refine ⟨?_, ?_, ?_, ?_⟩
  · rw [distanceZ, distanceZ, logicalDistance_eq, logicalDistance_eq, Matrix.transpose_transpose, Matrix.transpose_transpose, sys_d1_d2,
      out_eq, out_eq, distance_eq]
  · rw [distanceX, distanceX, logicalDistance_eq, logicalDistance_eq, sys_d2_d1_T, out_eq, relations_transpose, distance_eq, distance_eq]
  · rw [distanceZ, distanceZ, logicalDistance_eq, logicalDistance_eq, Matrix.transpose_transpose, Matrix.transpose_transpose, sys_d2_dLast,
      out_eq, distance_eq, distance_eq]
  · rw [distanceX, distanceX, logicalDistance_eq, logicalDistance_eq, sys_dLast_d2_T, out_eq, out_eq, relations_transpose,
      relations_transpose, distance_eq]

/-- C135: the distances of the 4D product of a complex of three maps with a classical code. -/
theorem C135_product4d {n0 n1 n2 n3 r c : ℕ} (a1 : Matrix (Fin n0) (Fin n1) ℤ) (a2 : Matrix (Fin n1) (Fin n2) ℤ)
    (a3 : Matrix (Fin n2) (Fin n3) ℤ) (p : Matrix (Fin r) (Fin c) ℤ) (checks : Bool) (D1 D2 D3 D4)
    (hg : generate4d a1 a2 a3 p checks = .ok (D1, D2, D3, D4)) :
    distanceZ D2 D3.transpose =
      min (ifSome (relations p) * distanceZ a2 a3.transpose) (distance p * distanceZ a1 a2.transpose) ∧
    distanceX D2 D3.transpose =
      min (ifSome (bits p) * distanceX a1 a2.transpose) (distance p.transpose * distanceX a2 a3.transpose) := by
  obtain ⟨rfl, rfl, rfl, rfl⟩ := generate4d_eq hg
  constructor
  · rw [distanceZ, distanceZ, distanceZ, logicalDistance_eq, logicalDistance_eq, logicalDistance_eq, Matrix.transpose_transpose,
      Matrix.transpose_transpose, Matrix.transpose_transpose, sys_d2_d2, out_eq, distance_eq]
  · rw [distanceX, distanceX, distanceX, logicalDistance_eq, logicalDistance_eq, logicalDistance_eq, sys_d2_d2_T, out_eq,
      relations_transpose, distance_eq]

/-! ## Toric codes -/

theorem ringT_row {d : ℕ} (hd : 2 ≤ d) (v : Vec d) (i : Fin d) :
    dot (fun j => (((ringCode d).transpose i j : ℤ) : ZMod 2)) v = v i + v ⟨(i.val + (d - 1)) % d, Nat.mod_lt _ (by omega)⟩ := by
  have hi := i.isLt
  have hm : (i.val = 0 ∧ (i.val + (d - 1)) % d = d - 1) ∨ (0 < i.val ∧ (i.val + (d - 1)) % d = i.val - 1) := by
    rcases Nat.eq_zero_or_pos i.val with h | h
    · left; rw [h, zero_add, Nat.mod_eq_of_lt (by omega)]; exact ⟨rfl, rfl⟩
    · right
      refine ⟨h, ?_⟩
      rw [show i.val + (d - 1) = i.val - 1 + d by omega, Nat.add_mod_right, Nat.mod_eq_of_lt (by omega)]
  have hc : ∀ j : Fin d, i.val = (j.val + 1) % d ↔ j.val = (i.val + (d - 1)) % d := by
    intro j
    have hj := j.isLt
    rcases Nat.lt_or_ge (j.val + 1) d with h | h
    · rw [Nat.mod_eq_of_lt h]; omega
    · have : j.val + 1 = d := by omega
      rw [this, Nat.mod_self]; omega
  have hne : i ≠ ⟨(i.val + (d - 1)) % d, Nat.mod_lt _ (by omega)⟩ := by
    intro h
    have h := congrArg Fin.val h
    simp only at h
    omega
  rw [dot, ← Finset.sum_pair hne]
  symm
  apply Finset.sum_subset_zero_on_sdiff (Finset.subset_univ _)
  · intro j hj
    simp only [Finset.mem_sdiff, Finset.mem_univ, true_and, Finset.mem_insert, Finset.mem_singleton, not_or] at hj
    have h1 : ¬ (i.val = j.val ∨ i.val = (j.val + 1) % d) := by
      rintro (h | h)
      · exact hj.1 (Fin.ext h.symm)
      · exact hj.2 (Fin.ext ((hc j).1 h))
    rw [Matrix.transpose_apply, ringCode, if_neg h1, Int.cast_zero, zero_mul]
  · intro j hj
    simp only [Finset.mem_insert, Finset.mem_singleton] at hj
    have h1 : i.val = j.val ∨ i.val = (j.val + 1) % d := by
      rcases hj with h | h
      · exact .inl (congrArg Fin.val h).symm
      · exact .inr ((hc j).2 (congrArg Fin.val h))
    rw [Matrix.transpose_apply, ringCode, if_pos h1, Int.cast_one, one_mul]

theorem ringT_ker {d : ℕ} (hd : 2 ≤ d) (v : Vec d) : v ∈ kerOf (rowsMod2 (ringCode d).transpose) ↔ ∀ i j : Fin d, v i = v j := by
  rw [mem_kerOf]
  simp only [rowsMod2, List.mem_ofFn, forall_exists_index, forall_apply_eq_imp_iff]
  constructor
  · intro h
    have key : ∀ k (hk : k < d), v ⟨k, hk⟩ = v ⟨0, by omega⟩ := by
      intro k
      induction k with
      | zero => intro _; rfl
      | succ k ih =>
        intro hk
        have h1 := h ⟨k + 1, hk⟩
        rw [ringT_row hd, CharTwo.add_eq_zero] at h1
        have h2 : (k + 1 + (d - 1)) % d = k := by
          rw [show k + 1 + (d - 1) = k + d by omega, Nat.add_mod_right, Nat.mod_eq_of_lt (by omega)]
        simp only [h2] at h1
        rw [h1, ih]
    intro i j
    exact (key i.val i.isLt).trans (key j.val j.isLt).symm
  · intro h i
    rw [ringT_row hd, h ⟨(i.val + (d - 1)) % d, Nat.mod_lt _ (by omega)⟩ i, CharTwo.add_self_eq_zero]

theorem distance_const {d a : ℕ} (hd : 2 ≤ d) (M : Matrix (Fin a) (Fin d) ℤ) (h : ∀ v, v ∈ kerOf (rowsMod2 M) ↔ ∀ i j : Fin d, v i = v j) :
    distance M = d := by
  apply le_antisymm
  · have h1 : wt (fun _ => 1 : Vec d) = d := by simp [wt]
    have h2 := minW_le (w := wt) (P := fun v => v ∈ kerOf (rowsMod2 M) ∧ v ≠ 0) (v := fun _ => (1 : ZMod 2))
      ⟨(h _).2 fun _ _ => rfl, fun e => one_ne_zero (congrFun e ⟨0, by omega⟩)⟩
    rw [h1] at h2
    exact h2
  · refine le_minW (w := wt) (P := fun v => v ∈ kerOf (rowsMod2 M) ∧ v ≠ 0) fun v hv => ?_
    obtain ⟨i, hi⟩ := Function.ne_iff.1 hv.2
    have h1 : wt v = d := by
      rw [wt, Finset.filter_true_of_mem, Finset.card_univ, Fintype.card_fin]
      intro j _
      rw [(h v).1 hv.1 j i]
      exact hi
    rw [h1]

theorem ring_distance {d : ℕ} (hd : 2 ≤ d) : distance (ringCode d) = d ∧ distance (ringCode d).transpose = d :=
  ⟨distance_const hd _ fun v => ring_ker hd v, distance_const hd _ fun v => ringT_ker hd v⟩

theorem distance_hgpX_T {m1 n1 m2 n2 : ℕ} (h1 : Matrix (Fin m1) (Fin n1) ℤ) (h2 : Matrix (Fin m2) (Fin n2) ℤ) :
    distance (hgpX h1 h2).transpose = distance h2 * distance h1.transpose := by
  rw [distance_eq, distance_eq, distance_eq, hgpX_eq, kerDist_d1_T, Matrix.transpose_transpose]

theorem distance_hgpZ_T {m1 n1 m2 n2 : ℕ} (h1 : Matrix (Fin m1) (Fin n1) ℤ) (h2 : Matrix (Fin m2) (Fin n2) ℤ) :
    distance (hgpZ h1 h2).transpose = distance h2.transpose * distance h1 := by
  rw [distance_eq, distance_eq, distance_eq, hgpZ_eq, kerDist_dLast]

/-- C135: ring codes of any lengths give a 2D toric code with both distances the shorter length, a 3D toric code whose Z distance is the
shortest length and whose X distance is the smallest area, and a 4D toric code whose distances are both the smallest area. -/
theorem C135_toric (l0 l1 l2 l3 : ℕ) (h0 : 2 ≤ l0) (h1 : 2 ≤ l1) (h2 : 2 ≤ l2) (h3 : 2 ≤ l3) :
    (distanceZ (hgpX (ringCode l0) (ringCode l1)) (hgpZ (ringCode l0) (ringCode l1)) = (min l0 l1 : ℕ) ∧
     distanceX (hgpX (ringCode l0) (ringCode l1)) (hgpZ (ringCode l0) (ringCode l1)) = (min l0 l1 : ℕ)) ∧
    (∀ D1 D2 D3, generate3d (hgpX (ringCode l0) (ringCode l1)) (hgpZ (ringCode l0) (ringCode l1)).transpose (ringCode l2) =
        .ok (D1, D2, D3) →
      distanceZ D1 D2.transpose = (min (min l0 l1) l2 : ℕ) ∧
      distanceX D1 D2.transpose = (min (min (l0 * l1) (l0 * l2)) (l1 * l2) : ℕ)) ∧
    (∀ checks MX HX HZ MZ, createCode (hgpX (ringCode l0) (ringCode l1)) (hgpZ (ringCode l0) (ringCode l1)) (ringCode l2) (ringCode l3) checks =
        .ok (MX, HX, HZ, MZ) →
      distanceZ HX HZ = (min (min (min (l0 * l1) (l0 * l2)) (min (l0 * l3) (l1 * l2))) (min (l1 * l3) (l2 * l3)) : ℕ) ∧
      distanceX HX HZ = (min (min (min (l0 * l1) (l0 * l2)) (min (l0 * l3) (l1 * l2))) (min (l1 * l3) (l2 * l3)) : ℕ)) := by
  have u : ifSome 1 = 1 := rfl
  obtain ⟨q0, q0'⟩ := ring_distance h0
  obtain ⟨q1, q1'⟩ := ring_distance h1
  obtain ⟨q2, q2'⟩ := ring_distance h2
  obtain ⟨q3, q3'⟩ := ring_distance h3
  obtain ⟨a1, a2⟩ := C135_hgp (ringCode l0) (ringCode l1)
  rw [ring_bits h1, ring_relations h0, q0, q1', u, one_mul, mul_one] at a1
  rw [ring_bits h0, ring_relations h1, q0', q1, u, one_mul, mul_one] at a2
  have e3 : ∀ D1 D2 D3, generate3d (hgpX (ringCode l0) (ringCode l1)) (hgpZ (ringCode l0) (ringCode l1)).transpose (ringCode l2) =
        .ok (D1, D2, D3) →
      (distanceZ D1 D2.transpose = min (min (l0 : ℕ∞) l1) l2 ∧ distanceX D1 D2.transpose = min ((l1 : ℕ∞) * l0) (l2 * min (l0 : ℕ∞) l1)) ∧
      (distanceZ D2 D3.transpose = min ((l1 : ℕ∞) * l0) (l2 * min (l0 : ℕ∞) l1) ∧ distanceX D2 D3.transpose = min (min (l0 : ℕ∞) l1) l2) := by
    intro D1 D2 D3 hg
    obtain ⟨g1, g2, g3, g4⟩ := C135_product3d _ _ _ _ _ _ hg
    have r1 : relations (hgpX (ringCode l0) (ringCode l1)) = 1 := by
      have e1 := rk_d1 (ringCode l0) (ringCode l1).transpose
      rw [← hgpX_eq, rk_transpose] at e1
      have b0 := relations_eq (ringCode l0)
      have b1 := bits_eq (ringCode l1)
      rw [ring_relations h0] at b0
      rw [ring_bits h1] at b1
      have := relations_eq (hgpX (ringCode l0) (ringCode l1))
      rw [e1] at this
      have x0 : (rk (ringCode l0) : ℤ) = l0 - 1 := by push_cast at b0; linarith
      have x1 : (rk (ringCode l1) : ℤ) = l1 - 1 := by push_cast at b1; linarith
      rw [x0, x1] at this
      have h5 : ((relations (hgpX (ringCode l0) (ringCode l1)) : ℕ) : ℤ) = 1 := by
        rw [this]; push_cast; ring
      exact_mod_cast h5
    have r2 : bits (hgpZ (ringCode l0) (ringCode l1)).transpose = 1 := by
      have e2 := rk_dLast (ringCode l0) (ringCode l1).transpose
      rw [← hgpZ_eq, rk_transpose, rk_transpose] at e2
      have b0 := bits_eq (ringCode l0)
      have b1 := relations_eq (ringCode l1)
      rw [ring_bits h0] at b0
      rw [ring_relations h1] at b1
      have := bits_eq (hgpZ (ringCode l0) (ringCode l1)).transpose
      rw [rk_transpose, e2] at this
      have x0 : (rk (ringCode l0) : ℤ) = l0 - 1 := by push_cast at b0; linarith
      have x1 : (rk (ringCode l1) : ℤ) = l1 - 1 := by push_cast at b1; linarith
      rw [x0, x1] at this
      have h5 : ((bits (hgpZ (ringCode l0) (ringCode l1)).transpose : ℕ) : ℤ) = 1 := by
        rw [this]; push_cast; ring
      exact_mod_cast h5
    rw [Matrix.transpose_transpose, a1, ring_relations h2, q2, u, one_mul] at g1 g3
    rw [Matrix.transpose_transpose, a2, ring_bits h2, q2', u, one_mul] at g2 g4
    rw [r1, u, mul_one] at g1
    rw [distance_hgpX_T, q1, q0'] at g2
    rw [distance_hgpZ_T, q1', q0] at g3
    rw [r2, u, mul_one] at g4
    exact ⟨⟨g1, g2⟩, g3, g4⟩
  have area : min ((l1 : ℕ∞) * l0) (l2 * min (l0 : ℕ∞) l1) = ((min (l1 * l0) (l2 * min l0 l1) : ℕ) : ℕ∞) := rfl
  have mm : ∀ x y z : ℕ, x * min y z = min (x * y) (x * z) := fun x y z => (Nat.mul_min_mul_left x y z).symm
  refine ⟨⟨?_, ?_⟩, ?_, ?_⟩
  · rw [a1]; rfl
  · rw [a2]; rfl
  · intro D1 D2 D3 hg
    obtain ⟨⟨g1, g2⟩, -⟩ := e3 D1 D2 D3 hg
    refine ⟨by rw [g1]; rfl, ?_⟩
    rw [g2, area]
    congr 1
    rw [mm, Nat.mul_comm l1 l0, Nat.mul_comm l2 l0, Nat.mul_comm l2 l1]
    omega
  · intro checks MX HX HZ MZ hg
    obtain ⟨D1, D2, D3, hg3, h12, h23⟩ := C18_product3d (hgpX (ringCode l0) (ringCode l1)) (hgpZ (ringCode l0) (ringCode l1)).transpose (ringCode l2)
      (hgp_even (ringCode l0) (ringCode l1))
    obtain ⟨E1, E2, E3, E4, h4, -, -, -⟩ := C19_product4d D1 D2 D3 (ringCode l3) checks h12 h23
    unfold createCode at hg
    rw [hg3] at hg
    simp only [bind, Except.bind] at hg
    rw [h4] at hg
    simp only [require] at hg
    split at hg
    · cases hg
    · cases hg
      obtain ⟨⟨g1, g2⟩, g3, g4⟩ := e3 D1 D2 D3 hg3
      obtain ⟨f1, f2⟩ := C135_product4d _ _ _ _ _ _ _ _ _ h4
      rw [ring_relations h3, q3, u, one_mul, g1, g3, area] at f1
      rw [ring_bits h3, q3', u, one_mul, g2, g4, area] at f2
      have fin : min ((min (l1 * l0) (l2 * min l0 l1) : ℕ) : ℕ∞) (l3 * min (min (l0 : ℕ∞) l1) l2) =
          (min (min (min (l0 * l1) (l0 * l2)) (min (l0 * l3) (l1 * l2))) (min (l1 * l3) (l2 * l3)) : ℕ) := by
        have : min ((min (l1 * l0) (l2 * min l0 l1) : ℕ) : ℕ∞) (l3 * min (min (l0 : ℕ∞) l1) l2) =
          ((min (min (l1 * l0) (l2 * min l0 l1)) (l3 * min (min l0 l1) l2) : ℕ) : ℕ∞) := rfl
        rw [this]
        congr 1
        rw [mm, mm, mm, Nat.mul_comm l1 l0, Nat.mul_comm l2 l0, Nat.mul_comm l2 l1, Nat.mul_comm l3 l0, Nat.mul_comm l3 l1, Nat.mul_comm l3 l2]
        omega
      rw [fin] at f1 f2
      exact ⟨f1, f2⟩

/-- The codes of the main program of the module, `4D_toric_3` to `4D_toric_7`: the construction succeeds, and the distance is the square of
the length. -/
theorem C135_main (d : ℕ) (hd : 2 ≤ d) (checks : Bool) : ∃ MX HX HZ MZ,
    createCode (hgpX (ringCode d) (ringCode d)) (hgpZ (ringCode d) (ringCode d)) (ringCode d) (ringCode d) checks = .ok (MX, HX, HZ, MZ) ∧
      codeK HX HZ = 6 ∧ distanceX HX HZ = (d * d : ℕ) ∧ distanceZ HX HZ = (d * d : ℕ) := by
  obtain ⟨MX, HX, HZ, MZ, h, -⟩ := C19_create_code (hgpX (ringCode d) (ringCode d)) (hgpZ (ringCode d) (ringCode d)) (ringCode d) (ringCode d)
    checks (hgp_even _ _)
  obtain ⟨g1, g2⟩ := (C135_toric d d d d hd hd hd hd).2.2 checks MX HX HZ MZ h
  simp only [min_self] at g1 g2
  refine ⟨MX, HX, HZ, MZ, h, ?_, g2, g1⟩
  rw [k4_of _ _ _ _ _ _ _ _ _ h, k4, k3]
  simp only [ring_bits, ring_relations, hd]
  norm_num

end Verif.ProductRank
