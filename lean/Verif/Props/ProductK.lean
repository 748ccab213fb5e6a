import Verif.Lemmas.ProductRank
import Verif.Props.CodeFiles
import Mathlib.Data.Fin.Basic
import Mathlib.Tactic.Linarith

/-! # C134: the number of logical qubits of product codes -/

namespace Verif.ProductRank
open Verif Verif.Product Verif.CodeFiles Module

/-! ## Specification -/

/-- The number of bits that the classical code with this parity-check matrix encodes: the dimension of its kernel modulo two. -/
noncomputable def bits {a b : ℕ} (M : Matrix (Fin a) (Fin b) ℤ) : ℕ := finrank (ZMod 2) (kerOf (rowsMod2 M))

/-- The same for the transposed code: the number of independent relations between the checks. -/
noncomputable def relations {a b : ℕ} (M : Matrix (Fin a) (Fin b) ℤ) : ℕ := bits M.transpose

/-- The ring code `ldpc.codes.ring_code(d)`: check `i` compares bit `i` with the next one. -/
def ringCode (d : ℕ) : Matrix (Fin d) (Fin d) ℤ := fun i j => if j.val = i.val ∨ j.val = (i.val + 1) % d then 1 else 0

/-! ## Helpers -/

theorem bits_eq {a b : ℕ} (M : Matrix (Fin a) (Fin b) ℤ) : (bits M : ℤ) = b - rk M := by
  have h1 := finrank_kerOf (rowsMod2 M)
  have h2 := rank_le (rowsMod2 M)
  unfold bits rk
  omega

theorem relations_eq {a b : ℕ} (M : Matrix (Fin a) (Fin b) ℤ) : (relations M : ℤ) = a - rk M := by
  rw [relations, bits_eq, rk_transpose]

theorem hgpX_eq {m1 n1 m2 n2 : ℕ} (h1 : Matrix (Fin m1) (Fin n1) ℤ) (h2 : Matrix (Fin m2) (Fin n2) ℤ) :
    hgpX h1 h2 = d1 h1 h2.transpose := rfl

theorem hgpZ_eq {m1 n1 m2 n2 : ℕ} (h1 : Matrix (Fin m1) (Fin n1) ℤ) (h2 : Matrix (Fin m2) (Fin n2) ℤ) :
    (hgpZ h1 h2).transpose = dLast h1 h2.transpose := by
  ext i j
  refine Fin.addCases (fun k => ?_) (fun k => ?_) i <;>
    simp only [hgpZ, dLast, hstack, vstack, Matrix.transpose_apply, Fin.append_left, Fin.append_right, kron, Matrix.one_apply]
  · congr 1
    by_cases h : j.divNat = k.divNat
    · rw [if_pos h, if_pos h.symm]
    · rw [if_neg h, if_neg fun e => h e.symm]
  · congr 1
    by_cases h : j.modNat = k.modNat
    · rw [if_pos h, if_pos h.symm]
    · rw [if_neg h, if_neg fun e => h e.symm]

theorem codeK_eq {a c b : ℕ} (hx : Matrix (Fin a) (Fin b) ℤ) (hz : Matrix (Fin c) (Fin b) ℤ) : codeK hx hz = b - rk hx - rk hz := rfl

/-! ## The claims -/

/-- C134: the hypergraph product of two classical codes has `k₁ k₂ + k₁ᵀ k₂ᵀ` logical qubits, the products of the numbers of encoded bits
and of the numbers of relations between the checks. -/
theorem C134_hgp {m1 n1 m2 n2 : ℕ} (h1 : Matrix (Fin m1) (Fin n1) ℤ) (h2 : Matrix (Fin m2) (Fin n2) ℤ) :
    codeK (hgpX h1 h2) (hgpZ h1 h2) = bits h1 * bits h2 + relations h1 * relations h2 := by
  have e1 := rk_d1 h1 h2.transpose
  have e2 := rk_dLast h1 h2.transpose
  rw [← hgpX_eq, rk_transpose] at e1
  rw [← hgpZ_eq, rk_transpose, rk_transpose] at e2
  rw [codeK_eq, e1, e2, bits_eq, bits_eq, relations_eq, relations_eq]
  push_cast
  ring

/-- C134: the 3D product of a CSS code, given by a chain complex `a1 a2 = 0`, with a classical code: the two codes that the three boundary
maps define have the numbers of logical qubits that the Künneth formula gives. -/
theorem C134_product3d {n0 n1 n2 r c : ℕ} (a1 : Matrix (Fin n0) (Fin n1) ℤ) (a2 : Matrix (Fin n1) (Fin n2) ℤ)
    (p : Matrix (Fin r) (Fin c) ℤ) (D1 D2 D3) (h : Even2 (a1 * a2)) (hg : generate3d a1 a2 p = .ok (D1, D2, D3)) :
    codeK D1 D2.transpose = codeK a1 a2.transpose * relations p + relations a1 * bits p ∧
    codeK D2 D3.transpose = bits a2 * relations p + codeK a1 a2.transpose * bits p ∧
    (relations D1 : ℤ) = relations a1 * relations p ∧ (bits D3 : ℤ) = bits a2 * bits p := by
  obtain ⟨rfl, rfl, rfl⟩ := generate3d_eq hg
  have e1 := rk_d1 a1 p
  have e2 := rk_d2 a1 a2 p h
  have e3 := rk_dLast a2 p
  refine ⟨?_, ?_, ?_, ?_⟩
  · rw [codeK_eq, codeK_eq, rk_transpose, rk_transpose, e1, e2, bits_eq, relations_eq, relations_eq]
    push_cast; ring
  · rw [codeK_eq, codeK_eq, rk_transpose, rk_transpose, e2, e3, bits_eq, bits_eq, relations_eq]
    push_cast; ring
  · rw [relations_eq, relations_eq, relations_eq, e1]
    push_cast; ring
  · rw [bits_eq, bits_eq, bits_eq, e3]
    push_cast; ring

/-- C134: the 4D product of a complex of three maps with a classical code. -/
theorem C134_product4d {n0 n1 n2 n3 r c : ℕ} (a1 : Matrix (Fin n0) (Fin n1) ℤ) (a2 : Matrix (Fin n1) (Fin n2) ℤ)
    (a3 : Matrix (Fin n2) (Fin n3) ℤ) (p : Matrix (Fin r) (Fin c) ℤ) (checks : Bool) (D1 D2 D3 D4) (h12 : Even2 (a1 * a2))
    (h23 : Even2 (a2 * a3)) (hg : generate4d a1 a2 a3 p checks = .ok (D1, D2, D3, D4)) :
    codeK D2 D3.transpose = codeK a2 a3.transpose * relations p + codeK a1 a2.transpose * bits p := by
  obtain ⟨rfl, rfl, rfl, rfl⟩ := generate4d_eq hg
  have e2 := rk_d2 a1 a2 p h12
  have e3 := rk_d2 a2 a3 p h23
  rw [codeK_eq, codeK_eq, codeK_eq, rk_transpose, rk_transpose, rk_transpose, e2, e3, bits_eq, relations_eq]
  push_cast; ring

/-- The number of logical qubits of the 3D code built from three classical codes. -/
noncomputable def k3 {m0 n0 m1 n1 m2 n2 : ℕ} (s0 : Matrix (Fin m0) (Fin n0) ℤ) (s1 : Matrix (Fin m1) (Fin n1) ℤ)
    (s2 : Matrix (Fin m2) (Fin n2) ℤ) : ℕ :=
  (bits s0 * bits s1 + relations s0 * relations s1) * relations s2 + relations s0 * bits s1 * bits s2

/-- The number of logical qubits of the 4D code built from four classical codes. -/
noncomputable def k4 {m0 n0 m1 n1 m2 n2 m3 n3 : ℕ} (s0 : Matrix (Fin m0) (Fin n0) ℤ) (s1 : Matrix (Fin m1) (Fin n1) ℤ)
    (s2 : Matrix (Fin m2) (Fin n2) ℤ) (s3 : Matrix (Fin m3) (Fin n3) ℤ) : ℕ :=
  (bits s0 * relations s1 * relations s2 + (bits s0 * bits s1 + relations s0 * relations s1) * bits s2) * relations s3 +
    k3 s0 s1 s2 * bits s3

theorem k3_of {m0 n0 m1 n1 m2 n2 : ℕ} (s0 : Matrix (Fin m0) (Fin n0) ℤ) (s1 : Matrix (Fin m1) (Fin n1) ℤ)
    (s2 : Matrix (Fin m2) (Fin n2) ℤ) (D1 D2 D3) (hg : generate3d (hgpX s0 s1) (hgpZ s0 s1).transpose s2 = .ok (D1, D2, D3)) :
    codeK D1 D2.transpose = k3 s0 s1 s2 ∧
    codeK D2 D3.transpose = bits s0 * relations s1 * relations s2 + (bits s0 * bits s1 + relations s0 * relations s1 : ℤ) * bits s2 := by
  obtain ⟨q1, q2, -, -⟩ := C134_product3d _ _ _ _ _ _ (hgp_even s0 s1) hg
  have e0 : (relations (hgpX s0 s1) : ℤ) = relations s0 * bits s1 := by
    have e1 := rk_d1 s0 s1.transpose
    rw [← hgpX_eq, rk_transpose] at e1
    rw [relations_eq, e1, relations_eq, bits_eq]
    push_cast; ring
  have e2 : (bits (hgpZ s0 s1).transpose : ℤ) = bits s0 * relations s1 := by
    have e2 := rk_dLast s0 s1.transpose
    rw [← hgpZ_eq, rk_transpose, rk_transpose] at e2
    rw [bits_eq, rk_transpose, e2, relations_eq, bits_eq]
    push_cast; ring
  rw [Matrix.transpose_transpose, C134_hgp] at q1 q2
  rw [e0] at q1
  rw [e2] at q2
  refine ⟨?_, q2⟩
  rw [q1, k3]
  push_cast; ring

theorem k4_of {m0 n0 m1 n1 m2 n2 m3 n3 : ℕ} (s0 : Matrix (Fin m0) (Fin n0) ℤ) (s1 : Matrix (Fin m1) (Fin n1) ℤ)
    (s2 : Matrix (Fin m2) (Fin n2) ℤ) (s3 : Matrix (Fin m3) (Fin n3) ℤ) (checks : Bool) (MX HX HZ MZ)
    (hg : createCode (hgpX s0 s1) (hgpZ s0 s1) s2 s3 checks = .ok (MX, HX, HZ, MZ)) : codeK HX HZ = k4 s0 s1 s2 s3 := by
  unfold createCode at hg
  obtain ⟨D1, D2, D3, h3, h12, h23⟩ := C18_product3d (hgpX s0 s1) (hgpZ s0 s1).transpose s2 (hgp_even s0 s1)
  obtain ⟨E1, E2, E3, E4, h4, -, -, -⟩ := C19_product4d D1 D2 D3 s3 checks h12 h23
  rw [h3] at hg
  simp only [bind, Except.bind] at hg
  rw [h4] at hg
  simp only [require] at hg
  split at hg
  · cases hg
  · cases hg
    have := C134_product4d _ _ _ _ _ _ _ _ _ h12 h23 h4
    obtain ⟨q1, q2⟩ := k3_of s0 s1 s2 D1 D2 D3 h3
    rw [q1, q2] at this
    rw [this, k4]
    push_cast; ring

/-- C134: the sparse constructor stores the number of logical qubits of the 3D code, as the Künneth formula gives it from the three seed
codes. -/
theorem C134_sparse_k {m0 n0 m1 n1 m2 n2 : ℕ} (lib : CSS.Mod2) (hlib : lib.Correct) (s0 : Matrix (Fin m0) (Fin n0) ℤ)
    (s1 : Matrix (Fin m1) (Fin n1) ℤ) (s2 : Matrix (Fin m2) (Fin n2) ℤ) (codename : Text) (dZ dX : ℤ) (fs : FS)
    (b0 : Binary s0) (b1 : Binary s1) (b2 : Binary s2) :
    (createSparse lib ['h', 'g', 'p'] s0 s1 s2 codename true true (some (script3d dZ dX)) fs).2 =
      .ok (some ⟨(n0 * n1 + m0 * m1) * m2 + m0 * n1 * n2, k3 s0 s1 s2, [(keyDX, dX), (keyDZ, dZ)]⟩) := by
  obtain ⟨HX, HZT, MZT, out, LX, LZ, hg, -, -, hL, hc, -⟩ := C108_sparse_files lib hlib s0 s1 s2 codename dZ dX fs b0 b1 b2
  have h1 := (k3_of s0 s1 s2 _ _ _ hg).1
  have h2 := hL.x_count
  have h3 : (LX.length : ℤ) = k3 s0 s1 s2 := by
    rw [← h1, codeK]
    omega
  rw [hc, h3]

/-- C134: the dense constructor stores as many logical operators of each type as the Künneth formula gives from the four seed codes. -/
theorem C134_dense_logicals {m0 n0 m1 n1 m2 n2 m3 n3 : ℕ} (lib : CSS.Mod2) (hlib : lib.Correct) (s0 : Matrix (Fin m0) (Fin n0) ℤ)
    (s1 : Matrix (Fin m1) (Fin n1) ℤ) (s2 : Matrix (Fin m2) (Fin n2) ℤ) (s3 : Matrix (Fin m3) (Fin n3) ℤ) (codename : Text)
    (checks : Bool) (script : Option Text) (fs : FS) (b0 : Binary s0) (b1 : Binary s1) (b2 : Binary s2) (b3 : Binary s3) :
    ∃ out LX LZ, create lib ['h', 'g', 'p'] s0 s1 s2 s3 codename ⟨false, true, checks⟩ script fs = (out, .ok none) ∧
      importGf2 out (matPath (outDir codename) .lx) = .ok LX ∧ importGf2 out (matPath (outDir codename) .lz) = .ok LZ ∧
      LX.length = k4 s0 s1 s2 s3 ∧ LZ.length = k4 s0 s1 s2 s3 := by
  obtain ⟨MX, HX, HZ, MZ, out, hg, hc, hS⟩ := C108_dense_files lib hlib s0 s1 s2 s3 codename true checks script fs b0 b1 b2 b3
  obtain ⟨LX, LZ, hL, hx, hz⟩ := hS.logical rfl
  have h1 := k4_of s0 s1 s2 s3 checks _ _ _ _ hg
  have h2 := hL.x_count
  have h3 := hL.z_count
  rw [codeK] at h1
  refine ⟨out, _, _, hc, hx, hz, ?_, ?_⟩ <;> rw [vecBits, List.length_map] <;> omega

/-! ## Toric codes -/

theorem ring_row {d : ℕ} (hd : 2 ≤ d) (v : Vec d) (i : Fin d) :
    dot (fun j => ((ringCode d i j : ℤ) : ZMod 2)) v = v i + v ⟨(i.val + 1) % d, Nat.mod_lt _ (by omega)⟩ := by
  have hne : i ≠ ⟨(i.val + 1) % d, Nat.mod_lt _ (by omega)⟩ := by
    intro h
    have h := congrArg Fin.val h
    have hi := i.isLt
    simp only at h
    rcases Nat.lt_or_ge (i.val + 1) d with h1 | h1
    · rw [Nat.mod_eq_of_lt h1] at h; omega
    · have : i.val + 1 = d := by omega
      rw [this, Nat.mod_self] at h; omega
  rw [dot, ← Finset.sum_pair hne]
  symm
  apply Finset.sum_subset_zero_on_sdiff (Finset.subset_univ _)
  · intro j hj
    simp only [Finset.mem_sdiff, Finset.mem_univ, true_and, Finset.mem_insert, Finset.mem_singleton, not_or] at hj
    have h1 : ¬ (j.val = i.val ∨ j.val = (i.val + 1) % d) := by
      rintro (h | h)
      · exact hj.1 (Fin.ext h)
      · exact hj.2 (Fin.ext h)
    rw [ringCode, if_neg h1, Int.cast_zero, zero_mul]
  · intro j hj
    simp only [Finset.mem_insert, Finset.mem_singleton] at hj
    have h1 : j.val = i.val ∨ j.val = (i.val + 1) % d := by
      rcases hj with rfl | rfl
      · exact .inl rfl
      · exact .inr rfl
    rw [ringCode, if_pos h1, Int.cast_one, one_mul]

theorem ring_ker {d : ℕ} (hd : 2 ≤ d) (v : Vec d) : v ∈ kerOf (rowsMod2 (ringCode d)) ↔ ∀ i j : Fin d, v i = v j := by
  rw [mem_kerOf]
  simp only [rowsMod2, List.mem_ofFn, forall_exists_index, forall_apply_eq_imp_iff]
  constructor
  · intro h
    have key : ∀ k (hk : k < d), v ⟨k, hk⟩ = v ⟨0, by omega⟩ := by
      intro k
      induction k with
      | zero => intro _; rfl
      | succ k ih =>
        intro hk
        have h1 := h ⟨k, by omega⟩
        rw [ring_row hd, CharTwo.add_eq_zero] at h1
        have h2 : (k + 1) % d = k + 1 := Nat.mod_eq_of_lt hk
        simp only [h2] at h1
        rw [← h1, ih]
    intro i j
    exact (key i.val i.isLt).trans (key j.val j.isLt).symm
  · intro h i
    rw [ring_row hd, h ⟨(i.val + 1) % d, Nat.mod_lt _ (by omega)⟩ i, CharTwo.add_self_eq_zero]

theorem ring_bits {d : ℕ} (hd : 2 ≤ d) : bits (ringCode d) = 1 := by
  rw [bits]
  have : kerOf (rowsMod2 (ringCode d)) = Submodule.span (ZMod 2) {fun _ => (1 : ZMod 2)} := by
    ext v
    rw [ring_ker hd, Submodule.mem_span_singleton]
    constructor
    · intro h
      refine ⟨v ⟨0, by omega⟩, ?_⟩
      funext i
      rw [h i ⟨0, by omega⟩]
      simp
    · rintro ⟨s, rfl⟩ i j
      rfl
  rw [this]
  apply finrank_span_singleton
  intro h
  exact one_ne_zero (congrFun h ⟨0, by omega⟩)

theorem ring_relations {d : ℕ} (hd : 2 ≤ d) : relations (ringCode d) = 1 := by
  have h1 := bits_eq (ringCode d)
  have h2 := relations_eq (ringCode d)
  rw [ring_bits hd] at h1
  omega

theorem ring_binary (d : ℕ) : Binary (ringCode d) := by
  intro i j
  by_cases h : j.val = i.val ∨ j.val = (i.val + 1) % d
  · exact .inr (if_pos h)
  · exact .inl (if_neg h)

/-- C134: ring codes of any lengths of at least two give a 2D toric code with two logical qubits, a 3D toric code with three and a 4D toric
code with six, and the main program of the module stores six logical operators of each type for every distance. -/
theorem C134_toric (d0 d1 d2 d3 : ℕ) (h0 : 2 ≤ d0) (h1 : 2 ≤ d1) (h2 : 2 ≤ d2) (h3 : 2 ≤ d3) :
    codeK (hgpX (ringCode d0) (ringCode d1)) (hgpZ (ringCode d0) (ringCode d1)) = 2 ∧
    (∀ lib : CSS.Mod2, lib.Correct → ∀ codename dZ dX fs,
      (createSparse lib ['h', 'g', 'p'] (ringCode d0) (ringCode d1) (ringCode d2) codename true true (some (script3d dZ dX)) fs).2 =
        .ok (some ⟨(d0 * d1 + d0 * d1) * d2 + d0 * d1 * d2, 3, [(keyDX, dX), (keyDZ, dZ)]⟩)) ∧
    (∀ lib : CSS.Mod2, lib.Correct → ∀ codename checks script fs, ∃ out LX LZ,
      create lib ['h', 'g', 'p'] (ringCode d0) (ringCode d1) (ringCode d2) (ringCode d3) codename ⟨false, true, checks⟩ script fs =
        (out, .ok none) ∧ importGf2 out (matPath (outDir codename) .lx) = .ok LX ∧ importGf2 out (matPath (outDir codename) .lz) = .ok LZ ∧
      LX.length = 6 ∧ LZ.length = 6) := by
  have e3 : k3 (ringCode d0) (ringCode d1) (ringCode d2) = 3 := by
    simp only [k3, ring_bits, ring_relations, h0, h1, h2]
  have e4 : k4 (ringCode d0) (ringCode d1) (ringCode d2) (ringCode d3) = 6 := by
    rw [k4, e3]
    simp only [ring_bits, ring_relations, h0, h1, h2, h3]
  refine ⟨?_, ?_, ?_⟩
  · rw [C134_hgp]
    simp only [ring_bits, ring_relations, h0, h1]
    norm_num
  · intro lib hlib codename dZ dX fs
    have := C134_sparse_k lib hlib (ringCode d0) (ringCode d1) (ringCode d2) codename dZ dX fs (ring_binary _) (ring_binary _) (ring_binary _)
    rw [e3] at this
    exact this
  · intro lib hlib codename checks script fs
    have := C134_dense_logicals lib hlib (ringCode d0) (ringCode d1) (ringCode d2) (ringCode d3) codename checks script fs (ring_binary _)
      (ring_binary _) (ring_binary _) (ring_binary _)
    rw [e4] at this
    exact this

/-- C134: seed codes without relations between their checks give 3D and 4D codes without logical qubits, however many bits they
encode. -/
theorem C134_full_rank {m0 n0 m1 n1 m2 n2 m3 n3 : ℕ} (s0 : Matrix (Fin m0) (Fin n0) ℤ) (s1 : Matrix (Fin m1) (Fin n1) ℤ)
    (s2 : Matrix (Fin m2) (Fin n2) ℤ) (s3 : Matrix (Fin m3) (Fin n3) ℤ) (h0 : relations s0 = 0) (h2 : relations s2 = 0)
    (h3 : relations s3 = 0) : k3 s0 s1 s2 = 0 ∧ k4 s0 s1 s2 s3 = 0 := by
  simp [k3, k4, h0, h2, h3]

/-- The repetition code is such a seed code, and ring codes are seed codes with relations. -/
example : relations (fun _ _ => 1 : Matrix (Fin 1) (Fin 2) ℤ) = 0 ∧ bits (fun _ _ => 1 : Matrix (Fin 1) (Fin 2) ℤ) = 1 := by
  have h : rk (fun _ _ => 1 : Matrix (Fin 1) (Fin 2) ℤ) = 1 := by decide
  have h1 := bits_eq (fun _ _ => 1 : Matrix (Fin 1) (Fin 2) ℤ)
  have h2 := relations_eq (fun _ _ => 1 : Matrix (Fin 1) (Fin 2) ℤ)
  rw [h] at h1 h2
  constructor <;> omega

example : bits (ringCode 3) = 1 ∧ relations (ringCode 3) = 1 ∧ Binary (ringCode 3) ∧ CSS.refLib.Correct :=
  ⟨ring_bits (by omega), ring_relations (by omega), ring_binary 3, CSS.refLib_correct⟩

/-- The hypotheses of the 3D and 4D formulas hold for every hypergraph product. -/
example : Even2 (hgpX (ringCode 3) (ringCode 2) * (hgpZ (ringCode 3) (ringCode 2)).transpose) := hgp_even _ _

end Verif.ProductRank
