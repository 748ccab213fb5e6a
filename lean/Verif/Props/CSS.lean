import Verif.Lemmas.CSS
import Verif.Props.Stabilizer4

/-!
# Properties C08–C12, C60: CSS codes (`css_code.py`)

`rowSpan M` is the set of sums of rows of `M` (Mathlib span), `kerOf M` the vectors orthogonal to
all rows of `M`; the external linear algebra package is any `lib` with `lib.Correct`
(`Mod2.Correct`: `nullspace` returns a basis of the kernel); `refLib_correct` shows that such a
package exists.
-/

namespace Verif.CSS
open Verif

/-! ## C08  Constructor -/

theorem liftStab_ok {r : Except Stab.Err Stab.Code} {c : Stab.Code} :
    liftStab r = .ok c ↔ r = .ok c := by
  cases r <;> simp [liftStab]

theorem npArray_generatorRows {n : ℕ} (hx hz : List (Vec n)) :
    Stab.paulisToBinary ((Stab.Paulis.arrs (generatorRows hx hz)).toList) = .ok (generatorRows hx hz) := by
  have h1 : ((generatorRows hx hz).map Stab.Pauli.arr).mapM Stab.pauliToBinary = .ok (generatorRows hx hz) := by
    have := Stab.mapM_ok_of_forall (l := (generatorRows hx hz).map Stab.Pauli.arr)
      (f := Stab.pauliToBinary) (g := fun p => match p with | .str _ => [] | .arr r => r) (by
        intro a ha
        obtain ⟨s, hs, rfl⟩ := List.mem_map.1 ha
        rfl)
    rw [this, List.map_map]; congr 1; exact List.map_id _
  rw [Stab.paulisToBinary, Stab.Paulis.toList, h1]
  change Stab.npArray _ = _
  rw [Stab.npArray, if_pos]
  rw [List.all_eq_true]
  intro r hr
  rw [generatorRows_length hx hz r hr]
  generalize hg : generatorRows hx hz = g at hr
  cases g with
  | nil => simp at hr
  | cons a g =>
    have := generatorRows_length hx hz a (by rw [hg]; simp)
    simp [Stab.width, this]

theorem stab_arrs {n : ℕ} {hx hz : List (Vec n)} {d : ℤ} {s : Stab.Code} :
    Stab.mkCode (.arrs (generatorRows hx hz)) (some d) none none = .ok s ↔
      hx ++ hz ≠ [] ∧ 0 < d ∧ s = ⟨n, generatorRows hx hz, (n : ℤ) - (rank hx + rank hz), d, none, none⟩ := by
  have hne : hx ++ hz = [] ↔ generatorRows hx hz = [] := by
    simp [generatorRows]
  rw [Stab.mkCode_ok_iff]
  have hlen := generatorRows_length hx hz
  have hr := rank_generatorRows hx hz
  constructor
  · rintro ⟨h1, h2, h3, h4, h5, h6, h7, h8, -⟩
    have hne' := (Stab.checkGenerators_ok h1).1
    have hne'' : generatorRows hx hz ≠ [] := by
      intro h; apply hne'; rw [h]; rfl
    rw [npArray_generatorRows] at h3
    have hg : s.generators = generatorRows hx hz := (Except.ok.inj h3).symm
    have hw : Stab.width (generatorRows hx hz) = 2 * n + 1 := by
      cases hgr : generatorRows hx hz with
      | nil => exact absurd hgr hne''
      | cons a g => exact hlen a (by rw [hgr]; simp)
    have hn : s.n = n := by
      cases hgr : generatorRows hx hz with
      | nil => exact absurd hgr hne''
      | cons a g =>
        rw [hgr] at h2
        simp only [Stab.Paulis.toList, List.map_cons, Stab.firstNQubits, Stab.getNQubits] at h2
        rw [hlen a (by rw [hgr]; simp)] at h2
        have := Except.ok.inj h2
        omega
    refine ⟨fun h => hne'' (hne.1 h), Stab.checkDistance_ok_iff.1 h5 d rfl, ?_⟩
    obtain ⟨sn, sg, sk, sd, slz, slx⟩ := s
    simp only at *
    subst hg hn
    have e7 : slz = none := (Except.ok.inj h7).symm
    have e8 : slx = none := (Except.ok.inj h8).symm
    subst e7 e8
    rw [h4, Stab.matRank_eq hw, hr, h6]
    simp
  · rintro ⟨h1, h2, rfl⟩
    have hne'' : generatorRows hx hz ≠ [] := fun h => h1 (hne.2 h)
    have hw : Stab.width (generatorRows hx hz) = 2 * n + 1 := by
      cases hgr : generatorRows hx hz with
      | nil => exact absurd hgr hne''
      | cons a g => exact hlen a (by rw [hgr]; simp)
    refine ⟨?_, ?_, npArray_generatorRows hx hz, ?_, Stab.checkDistance_ok_iff.2 ?_, rfl, rfl, rfl, rfl⟩
    · cases hgr : generatorRows hx hz with
      | nil => exact absurd hgr hne''
      | cons a g =>
        simp only [Stab.checkGenerators, Stab.Paulis.toList, List.map_cons]
        rw [if_neg]
        rw [Bool.not_eq_true, Bool.not_eq_false', List.all_eq_true]
        intro q hq
        rw [← List.map_cons, List.mem_map] at hq
        obtain ⟨b, hb, rfl⟩ := hq
        rw [← hgr] at hb
        simp [Stab.Pauli.len, hlen a (by rw [hgr]; simp), hlen b hb]
    · cases hgr : generatorRows hx hz with
      | nil => exact absurd hgr hne''
      | cons a g =>
        simp only [Stab.Paulis.toList, List.map_cons, Stab.firstNQubits, Stab.getNQubits]
        rw [hlen a (by rw [hgr]; simp)]
        congr 1; omega
    · simp only
      rw [Stab.matRank_eq hw, hr]; simp
    · rintro x hx; cases hx; exact h2

/-- `build` succeeds exactly under these conditions, with these attributes. -/
theorem build_ok {lib : Mod2} {n : ℕ} {hx hz : List (Vec n)} {d : ℤ} {xd zd : Option ℤ} {c : Code} :
    build lib n hx hz d xd zd = .ok c ↔
      hx ++ hz ≠ [] ∧ 0 < d ∧ d ≤ xd.getD d ∧ d ≤ zd.getD d ∧
      c = { n, hx, hz, stab := ⟨n, generatorRows hx hz, (n : ℤ) - (rank hx + rank hz), d, none, none⟩,
            distance := d, xDistance := xd.getD d, zDistance := zd.getD d,
            lx := computeLogical lib hz hx, lz := computeLogical lib hx hz } := by
  simp only [build, bind_eq_ok, liftStab_ok, stab_arrs, require_ok, pure, Except.pure]
  constructor
  · rintro ⟨s, ⟨h1, h2, rfl⟩, -, h3, h4⟩
    cases h4
    push Not at h3
    exact ⟨h1, h2, h3.1, h3.2, rfl⟩
  · rintro ⟨h1, h2, h3, h4, rfl⟩
    exact ⟨_, ⟨h1, h2, rfl⟩, (), by push Not; exact ⟨h3, h4⟩, rfl⟩

/-- A code object obtained from the constructor with some external package meeting its contract. -/
def Built (c : Code) : Prop :=
  ∃ lib : Mod2, lib.Correct ∧ ∃ d hx hz xd zd, mkCSS lib d hx hz xd zd = .ok c

theorem mkCSS_ok {lib : Mod2} {d : ℤ} {hx hz : Option NpMat} {xd zd : Option ℤ} {c : Code}
    (h : mkCSS lib d hx hz xd zd = .ok c) :
    (hx ≠ none ∨ hz ≠ none) ∧ (∀ m, hx = some m → m.cols = c.n ∧ HEq m.rows c.hx) ∧
    (∀ m, hz = some m → m.cols = c.n ∧ HEq m.rows c.hz) ∧ (hx = none → c.hx = []) ∧
    (hz = none → c.hz = []) ∧ (∀ r ∈ c.hx, ∀ s ∈ c.hz, dot r s = 0) ∧
    build lib c.n c.hx c.hz d xd zd = .ok c := by
  unfold mkCSS at h
  split at h
  · simp at h
  · rename_i mx
    have hb := h
    rw [build_ok] at h
    obtain ⟨-, -, -, -, rfl⟩ := h
    refine ⟨by simp, ?_, by simp, by simp, fun _ => rfl, by simp, hb⟩
    rintro m hm; cases hm; exact ⟨rfl, HEq.rfl⟩
  · rename_i mz
    have hb := h
    rw [build_ok] at h
    obtain ⟨-, -, -, -, rfl⟩ := h
    refine ⟨by simp, by simp, ?_, fun _ => rfl, by simp, by simp, hb⟩
    rintro m hm; cases hm; exact ⟨rfl, HEq.rfl⟩
  · rename_i mx mz
    split at h
    · rename_i hcols
      obtain ⟨cz, rz⟩ := mz
      simp only at hcols h
      subst hcols
      simp only [bind_eq_ok, require_ok] at h
      obtain ⟨-, horth, hb⟩ := h
      have hb' := hb
      rw [build_ok] at hb
      obtain ⟨-, -, -, -, rfl⟩ := hb
      refine ⟨by simp, ?_, ?_, by simp, by simp, ?_, hb'⟩
      · rintro m hm; cases hm; exact ⟨rfl, HEq.rfl⟩
      · rintro m hm; cases hm; exact ⟨rfl, HEq.rfl⟩
      · intro r hr s hs
        have := List.all_eq_true.1 (List.all_eq_true.1 horth r hr) s hs
        simpa using this
    · simp at h

/-- C08: what every successfully constructed CSS code satisfies. -/
theorem C08_ctor_sound (lib : Mod2) (d : ℤ) (hx hz : Option NpMat) (xd zd : Option ℤ) (c : Code)
    (h : mkCSS lib d hx hz xd zd = .ok c) :
    (hx ≠ none ∨ hz ≠ none) ∧ (∀ m, hx = some m → m.cols = c.n ∧ HEq m.rows c.hx) ∧
    (∀ m, hz = some m → m.cols = c.n ∧ HEq m.rows c.hz) ∧
    (hx = none → c.hx = []) ∧ (hz = none → c.hz = []) ∧
    (∀ r ∈ c.hx, ∀ s ∈ c.hz, dot r s = 0) ∧
    c.stab.n = c.n ∧ c.stab.k = (c.n : ℤ) - Module.finrank (ZMod 2) (rowSpan c.hx)
      - Module.finrank (ZMod 2) (rowSpan c.hz) ∧ 0 ≤ c.stab.k ∧
    0 < d ∧ c.distance = d ∧ c.xDistance = xd.getD d ∧ c.zDistance = zd.getD d ∧
    d ≤ c.xDistance ∧ d ≤ c.zDistance := by
  obtain ⟨h1, h2, h3, h4, h5, h6, h7⟩ := mkCSS_ok h
  rw [build_ok] at h7
  obtain ⟨h8, h9, h10, h11, h12⟩ := h7
  have hr : rank c.hx + rank c.hz ≤ c.n := by
    have hle : rowSpan c.hz ≤ kerOf c.hx := by
      rw [rowSpan_le_iff]; intro s hs r hr; exact h6 r hr s hs
    have := Submodule.finrank_mono hle
    rw [finrank_kerOf, ← rank_eq_finrank] at this
    have := rank_le c.hx
    omega
  have hk : c.stab.k = (c.n : ℤ) - (rank c.hx + rank c.hz) := by rw [h12]
  refine ⟨h1, h2, h3, h4, h5, h6, ?_, ?_, ?_, h9, ?_, ?_, ?_, ?_, ?_⟩
  · rw [h12]
  · rw [hk, rank_eq_finrank, rank_eq_finrank]; omega
  · rw [hk]; omega
  · rw [h12]
  · rw [h12]
  · rw [h12]
  · rw [h12]; exact h10
  · rw [h12]; exact h11

/-- C08: the constructor accepts every pair of orthogonal matrices with the same number of columns
and at least one row, with legal distances. -/
theorem C08_ctor_complete (lib : Mod2) (n : ℕ) (hx hz : List (Vec n)) (d : ℤ) (xd zd : Option ℤ)
    (horth : ∀ r ∈ hx, ∀ s ∈ hz, dot r s = 0) (hne : hx ++ hz ≠ []) (hd : 0 < d)
    (hxd : d ≤ xd.getD d) (hzd : d ≤ zd.getD d) :
    ∃ c, mkCSS lib d (some ⟨n, hx⟩) (some ⟨n, hz⟩) xd zd = .ok c := by
  have hb := (build_ok (lib := lib)).2 ⟨hne, hd, hxd, hzd, rfl⟩
  have key : ∀ c, build lib n hx hz d xd zd = .ok c →
      mkCSS lib d (some ⟨n, hx⟩) (some ⟨n, hz⟩) xd zd = .ok c := by
    intro c hb
    simp only [mkCSS, dif_pos, bind_eq_ok, require_ok]
    refine ⟨(), ?_, hb⟩
    rw [List.all_eq_true]; intro r hr
    rw [List.all_eq_true]; intro s hs
    simpa using horth r hr s hs
  exact ⟨_, key _ hb⟩

/-- C08: every failing check makes the constructor raise. -/
theorem C08_rejects (lib : Mod2) (d : ℤ) (xd zd : Option ℤ) (c : Code) :
    mkCSS lib d none none xd zd ≠ .ok c ∧
    (∀ mx mz : NpMat, mx.cols ≠ mz.cols → mkCSS lib d (some mx) (some mz) xd zd
      = .error (.invalidCSS "Check matrices must have the same number of columns")) ∧
    (∀ (n : ℕ) (hx hz : List (Vec n)) (r s : Vec n), r ∈ hx → s ∈ hz → dot r s ≠ 0 →
      mkCSS lib d (some ⟨n, hx⟩) (some ⟨n, hz⟩) xd zd
        = .error (.invalidCSS "The check matrices must be orthogonal")) ∧
    (∀ mx mz, d ≤ 0 ∨ xd.getD d < d ∨ zd.getD d < d → mkCSS lib d mx mz xd zd ≠ .ok c) := by
  refine ⟨by simp [mkCSS], ?_, ?_, ?_⟩
  · intro mx mz h
    simp only [mkCSS]
    rw [dif_neg (fun h' => h h'.symm)]
  · intro n hx hz r s hr hs hne
    simp only [mkCSS, dif_pos, require]
    rw [if_neg]
    · rfl
    · intro hall
      have := List.all_eq_true.1 (List.all_eq_true.1 hall r hr) s hs
      exact hne (by simpa using this)
  · intro mx mz hbad h
    have := C08_ctor_sound lib d mx mz xd zd c h
    obtain ⟨-, -, -, -, -, -, -, -, -, h1, -, h2, h3, h4, h5⟩ := this
    rw [h2] at h4; rw [h3] at h5
    omega

/-- The Steane code's check matrix, as a concrete case. -/
def steaneH : List (Vec 7) := [![1, 0, 0, 1, 0, 1, 1], ![0, 1, 0, 1, 1, 0, 1], ![0, 0, 1, 0, 1, 1, 1]]

theorem built_steane : ∃ c, Built c ∧ c.n = 7 ∧ HEq c.hx steaneH ∧ HEq c.hz steaneH := by
  obtain ⟨c, hc⟩ := C08_ctor_complete refLib 7 steaneH steaneH 3 none none (by decide +kernel) (by simp [steaneH])
    (by decide) (by decide) (by decide)
  have := C08_ctor_sound _ _ _ _ _ _ _ hc
  exact ⟨c, ⟨refLib, refLib_correct, _, _, _, _, _, hc⟩, (this.2.1 _ rfl).1.symm,
    (this.2.1 _ rfl).2.symm, (this.2.2.1 _ rfl).2.symm⟩

/-! ## C09  Computed logical operators -/

theorem Built.facts {c : Code} (h : Built c) :
    (∀ r ∈ c.hx, ∀ s ∈ c.hz, dot r s = 0) ∧
    rowSpan (c.hx ++ c.lx) = kerOf c.hz ∧ rank (c.hx ++ c.lx) = rank c.hx + c.lx.length ∧
    rowSpan (c.hz ++ c.lz) = kerOf c.hx ∧ rank (c.hz ++ c.lz) = rank c.hz + c.lz.length ∧
    c.stab.k = (c.n : ℤ) - (rank c.hx + rank c.hz) := by
  obtain ⟨lib, hlib, d, hx, hz, xd, zd, h⟩ := h
  obtain ⟨-, -, -, -, -, h6, h7⟩ := mkCSS_ok h
  rw [build_ok] at h7
  obtain ⟨-, -, -, -, h12⟩ := h7
  have h6' : ∀ r ∈ c.hz, ∀ s ∈ c.hx, dot r s = 0 := fun r hr s hs => by rw [dot_comm]; exact h6 s hs r hr
  have hlx : c.lx = computeLogical lib c.hz c.hx := by rw [h12]
  have hlz : c.lz = computeLogical lib c.hx c.hz := by rw [h12]
  obtain ⟨f1, f2⟩ := computeLogical_facts hlib h6'
  obtain ⟨g1, g2⟩ := computeLogical_facts hlib h6
  rw [hlx, hlz]
  exact ⟨h6, f1, f2, g1, g2, by rw [h12]⟩

/-- C09: the computed X logicals commute with all Z checks, are independent modulo the X
stabilizers (the dimension of the span grows by exactly their number), there are `k` of them, and
with the X stabilizers they generate exactly the X errors of zero Z-syndrome. -/
theorem C09_logical_x (c : Code) (h : Built c) :
    (∀ l ∈ c.lx, ∀ r ∈ c.hz, dot r l = 0) ∧
    Module.finrank (ZMod 2) (rowSpan (c.hx ++ c.lx))
      = Module.finrank (ZMod 2) (rowSpan c.hx) + c.lx.length ∧
    (c.lx.length : ℤ) = c.stab.k ∧
    (∀ e : Vec c.n, (∀ b ∈ c.getZSyndrome e, b = 0) ↔ e ∈ rowSpan (c.hx ++ c.lx)) := by
  obtain ⟨h1, h2, h3, h4, h5, h6⟩ := h.facts
  refine ⟨?_, ?_, ?_, ?_⟩
  · intro l hl r hr
    have : l ∈ kerOf c.hz := by
      rw [← h2]; exact mem_rowSpan_of_mem (by simp [hl])
    exact this r hr
  · rw [← rank_eq_finrank, ← rank_eq_finrank, h3]
  · have := finrank_kerOf c.hz
    rw [← h2, ← rank_eq_finrank, h3] at this
    have h8 := rank_le c.hz
    have h9 := rank_le (c.hx ++ c.lx)
    rw [h6]; omega
  · intro e
    rw [h2]; exact mulVec_eq_zero_iff

/-- C09: the same for the Z logicals. -/
theorem C09_logical_z (c : Code) (h : Built c) :
    (∀ l ∈ c.lz, ∀ r ∈ c.hx, dot r l = 0) ∧
    Module.finrank (ZMod 2) (rowSpan (c.hz ++ c.lz))
      = Module.finrank (ZMod 2) (rowSpan c.hz) + c.lz.length ∧
    (c.lz.length : ℤ) = c.stab.k ∧
    (∀ e : Vec c.n, (∀ b ∈ c.getXSyndrome e, b = 0) ↔ e ∈ rowSpan (c.hz ++ c.lz)) := by
  obtain ⟨h1, h2, h3, h4, h5, h6⟩ := h.facts
  refine ⟨?_, ?_, ?_, ?_⟩
  · intro l hl r hr
    have : l ∈ kerOf c.hx := by
      rw [← h4]; exact mem_rowSpan_of_mem (by simp [hl])
    exact this r hr
  · rw [← rank_eq_finrank, ← rank_eq_finrank, h5]
  · have := finrank_kerOf c.hx
    rw [← h4, ← rank_eq_finrank, h5] at this
    have h8 := rank_le c.hx
    have h9 := rank_le (c.hz ++ c.lz)
    rw [h6]; omega
  · intro e
    rw [h4]; exact mulVec_eq_zero_iff

/-- C09: every X error of zero syndrome that is not a stabilizer anti-commutes with some computed Z
logical (the logical operators see every logical error). -/
theorem C09_nontrivial (c : Code) (h : Built c) (e : Vec c.n) (hs : ∀ r ∈ c.hz, dot r e = 0)
    (hne : e ∉ rowSpan c.hx) : ∃ l ∈ c.lz, dot l e = 1 := by
  obtain ⟨-, -, -, h4, -, -⟩ := h.facts
  by_contra hcon
  push Not at hcon
  apply hne
  apply mem_rowSpan_of_orthogonal_kerOf
  intro w hw
  rw [← h4] at hw
  apply dot_eq_zero_of_mem_rowSpan _ hw
  intro r hr
  rcases List.mem_append.1 hr with hr | hr
  · exact hs r hr
  · rcases zmod2_cases (dot r e) with h0 | h0
    · exact h0
    · exact absurd h0 (hcon r hr)

example : ∃ c, Built c ∧ c.n = 7 := by
  obtain ⟨c, h1, h2, -⟩ := built_steane; exact ⟨c, h1, h2⟩

/-! ## C10  Stabilizer and logical-error tests -/

/-- C10: `check_if_x_stabilizer` / `check_if_z_stabilizer` decide membership in the row space. -/
theorem C10_stabilizer_test (c : Code) (e : Vec c.n) :
    (c.checkIfXStabilizer e = true ↔ e ∈ rowSpan c.hx) ∧
    (c.checkIfZStabilizer e = true ↔ e ∈ rowSpan c.hz) := by
  simp only [Code.checkIfXStabilizer, Code.checkIfZStabilizer, decide_eq_true_iff,
    rank_append_singleton_eq_iff, and_self]

theorem any_eq_one_iff {n : ℕ} (L : List (Vec n)) (e : Vec n) :
    ((mulVec L e).any fun b => decide (b = 1)) = true ↔ ∃ l ∈ L, dot l e = 1 := by
  simp [mulVec]

/-- C10: on X errors with zero Z-syndrome, being a logical error and being a stabilizer are
complementary. -/
theorem C10_x_dichotomy (c : Code) (h : Built c) (e : Vec c.n)
    (hs : ∀ b ∈ c.getZSyndrome e, b = 0) :
    c.checkIfLogicalXError e = false ↔ c.checkIfXStabilizer e = true := by
  have hs' := mulVec_eq_zero_iff.1 hs
  rw [(C10_stabilizer_test c e).1, ← Bool.not_eq_true, Code.checkIfLogicalXError, any_eq_one_iff]
  obtain ⟨hl1, -, -, -⟩ := C09_logical_z c h
  constructor
  · intro hno
    by_contra hne
    exact hno (C09_nontrivial c h e hs' hne)
  · rintro he ⟨l, hl, h1⟩
    have := dot_eq_zero_of_mem_rowSpan (fun r hr => hl1 l hl r hr) he
    rw [dot_comm, this] at h1
    exact absurd h1 (by decide)

/-- C10: the same for Z errors. -/
theorem C10_z_dichotomy (c : Code) (h : Built c) (e : Vec c.n)
    (hs : ∀ b ∈ c.getXSyndrome e, b = 0) :
    c.checkIfLogicalZError e = false ↔ c.checkIfZStabilizer e = true := by
  have hs' := mulVec_eq_zero_iff.1 hs
  rw [(C10_stabilizer_test c e).2, ← Bool.not_eq_true, Code.checkIfLogicalZError, any_eq_one_iff]
  obtain ⟨hl1, -, -, -⟩ := C09_logical_x c h
  obtain ⟨-, h2, -, -, -, -⟩ := h.facts
  constructor
  · intro hno
    apply mem_rowSpan_of_orthogonal_kerOf
    intro w hw
    rw [← h2] at hw
    apply dot_eq_zero_of_mem_rowSpan _ hw
    intro r hr
    rcases List.mem_append.1 hr with hr | hr
    · exact hs' r hr
    · rcases zmod2_cases (dot r e) with h0 | h0
      · exact h0
      · exact absurd ⟨r, hr, h0⟩ hno
  · rintro he ⟨l, hl, h1⟩
    have := dot_eq_zero_of_mem_rowSpan (fun r hr => hl1 l hl r hr) he
    rw [dot_comm, this] at h1
    exact absurd h1 (by decide)

/-! ## C11  Stabilizer equivalence of errors -/

theorem three_rank_coset {n : ℕ} (H : List (Vec n)) (a b : Vec n) :
    (rank (H ++ [a]) = rank (H ++ [b]) ∧ rank (H ++ [b]) = rank (H ++ [a] ++ [b])) ↔
      a + b ∈ rowSpan H := by
  have key : rowSpan (H ++ [a]) = rowSpan (H ++ [b]) ↔ a + b ∈ rowSpan H := by
    have hmem : ∀ x y : Vec n, y ∈ rowSpan (H ++ [x]) ↔ y ∈ rowSpan H ∨ y + x ∈ rowSpan H := by
      intro x y
      rw [rowSpan_append, sup_comm, ← rowSpan_append, List.singleton_append, mem_rowSpan_cons]
    have hle : ∀ x y : Vec n, rowSpan (H ++ [x]) ≤ rowSpan (H ++ [y]) ↔
        x ∈ rowSpan H ∨ x + y ∈ rowSpan H := by
      intro x y
      rw [rowSpan_append H [x], sup_le_iff, rowSpan_append H [y]]
      constructor
      · rintro ⟨-, h⟩
        have : x ∈ rowSpan (H ++ [y]) := by
          rw [rowSpan_append]; exact h (mem_rowSpan_of_mem (by simp))
        exact (hmem y x).1 this
      · intro h
        refine ⟨le_sup_left, ?_⟩
        rw [rowSpan_le_iff]
        intro r hr
        rw [List.mem_singleton.1 hr, ← rowSpan_append]
        exact (hmem y x).2 h
    constructor
    · intro h
      rcases (hle a b).1 h.le with h1 | h1
      · rcases (hle b a).1 h.ge with h2 | h2
        · exact Submodule.add_mem _ h1 h2
        · rwa [add_comm]
      · exact h1
    · intro h
      exact le_antisymm ((hle a b).2 (Or.inr h)) ((hle b a).2 (Or.inr (by rwa [add_comm])))
  rw [← key, ← rank_three_iff]
  have e : rowSpan (H ++ [a] ++ [b]) = rowSpan (H ++ [a] ++ (H ++ [b])) := by
    simp only [rowSpan_append]
    rw [sup_sup_sup_comm, sup_idem, sup_assoc]
  rw [rank_congr e]
  constructor
  · rintro ⟨h1, h2⟩; exact ⟨h1, h1.trans h2⟩
  · rintro ⟨h1, h2⟩; exact ⟨h1, h1.symm.trans h2⟩

/-- C11: the three-rank test decides equality up to stabilizers. -/
theorem C11_stabilizer_eq (c : Code) (e f : Vec c.n) :
    (c.stabilizerEqXError e f = true ↔ e + f ∈ rowSpan c.hx) ∧
    (c.stabilizerEqZError e f = true ↔ e + f ∈ rowSpan c.hz) := by
  simp only [Code.stabilizerEqXError, Code.stabilizerEqZError, decide_eq_true_iff, three_rank_coset,
    and_self]

/-- C11: it is an equivalence relation. -/
theorem C11_equivalence (c : Code) :
    Equivalence (fun e f : Vec c.n => c.stabilizerEqXError e f = true) ∧
    Equivalence (fun e f : Vec c.n => c.stabilizerEqZError e f = true) := by
  constructor
  · refine ⟨fun x => ?_, fun {x y} h => ?_, fun {x y z} h1 h2 => ?_⟩
    · rw [(C11_stabilizer_eq c _ _).1, add_self_eq_zero']; exact Submodule.zero_mem _
    · rw [(C11_stabilizer_eq c _ _).1] at *; rwa [add_comm]
    · rw [(C11_stabilizer_eq c _ _).1] at *
      have := Submodule.add_mem _ h1 h2
      rwa [show x + y + (y + z) = x + z by rw [← add_assoc, add_add_cancel']] at this
  · refine ⟨fun x => ?_, fun {x y} h => ?_, fun {x y z} h1 h2 => ?_⟩
    · rw [(C11_stabilizer_eq c _ _).2, add_self_eq_zero']; exact Submodule.zero_mem _
    · rw [(C11_stabilizer_eq c _ _).2] at *; rwa [add_comm]
    · rw [(C11_stabilizer_eq c _ _).2] at *
      have := Submodule.add_mem _ h1 h2
      rwa [show x + y + (y + z) = x + z by rw [← add_assoc, add_add_cancel']] at this

theorem mulVec_congr {n : ℕ} {M : List (Vec n)} {e f : Vec n} (h : ∀ r ∈ M, dot r (e + f) = 0) :
    mulVec M e = mulVec M f := by
  apply List.map_congr_left
  intro r hr
  have := h r hr
  rw [dot_add_right] at this
  exact (eq_iff_add_eq_zero _ _).2 this

/-- C11: equivalent X errors have the same syndrome and the same logical effect. -/
theorem C11_respects (c : Code) (h : Built c) (e f : Vec c.n)
    (he : c.stabilizerEqXError e f = true) :
    c.getZSyndrome e = c.getZSyndrome f ∧ c.checkIfLogicalXError e = c.checkIfLogicalXError f ∧
    c.checkIfXStabilizer e = c.checkIfXStabilizer f := by
  have hm := (C11_stabilizer_eq c e f).1.1 he
  obtain ⟨h1, -⟩ := h.facts
  obtain ⟨hl1, -, -, -⟩ := C09_logical_z c h
  refine ⟨mulVec_congr ?_, ?_, ?_⟩
  · intro r hr
    rw [dot_comm]
    exact dot_eq_zero_of_mem_rowSpan (fun s hs => h1 s hs r hr) hm
  · have : mulVec c.lz e = mulVec c.lz f := mulVec_congr (by
      intro l hl
      rw [dot_comm]
      exact dot_eq_zero_of_mem_rowSpan (fun s hs => hl1 l hl s hs) hm)
    rw [Code.checkIfLogicalXError, Code.checkIfLogicalXError, this]
  · rw [Bool.eq_iff_iff, (C10_stabilizer_test c e).1, (C10_stabilizer_test c f).1]
    have := add_mem_rowSpan_iff (v := f) hm
    rw [← this, add_comm e f, ← add_assoc, add_self_eq_zero', zero_add]

/-- C11: equivalent Z errors have the same syndrome and the same logical effect. -/
theorem C11_respects_z (c : Code) (h : Built c) (e f : Vec c.n)
    (he : c.stabilizerEqZError e f = true) :
    c.getXSyndrome e = c.getXSyndrome f ∧ c.checkIfLogicalZError e = c.checkIfLogicalZError f ∧
    c.checkIfZStabilizer e = c.checkIfZStabilizer f := by
  have hm := (C11_stabilizer_eq c e f).2.1 he
  obtain ⟨h1, -⟩ := h.facts
  obtain ⟨hl1, -, -, -⟩ := C09_logical_x c h
  refine ⟨mulVec_congr ?_, ?_, ?_⟩
  · intro r hr
    rw [dot_comm]
    exact dot_eq_zero_of_mem_rowSpan (fun s hs => by rw [dot_comm]; exact h1 r hr s hs) hm
  · have : mulVec c.lx e = mulVec c.lx f := mulVec_congr (by
      intro l hl
      rw [dot_comm]
      exact dot_eq_zero_of_mem_rowSpan (fun s hs => hl1 l hl s hs) hm)
    rw [Code.checkIfLogicalZError, Code.checkIfLogicalZError, this]
  · rw [Bool.eq_iff_iff, (C10_stabilizer_test c e).2, (C10_stabilizer_test c f).2]
    have := add_mem_rowSpan_iff (v := f) hm
    rw [← this, add_comm e f, ← add_assoc, add_self_eq_zero', zero_add]

/-! ## C60  Self-duality -/

/-- C60, full claim: `is_self_dual` is true exactly when X and Z checks span the same space. -/
def SelfDualCorrect : Prop :=
  ∀ c : Code, Built c → (c.isSelfDual = true ↔ rowSpan c.hx = rowSpan c.hz)

/-- C60 (partial: missing are matrices with redundant rows): correct if `Hx` and `Hz` have
linearly independent rows. -/
theorem C60_self_dual_partial (c : Code) (hx : rank c.hx = c.hx.length)
    (hz : rank c.hz = c.hz.length) : c.isSelfDual = true ↔ rowSpan c.hx = rowSpan c.hz := by
  rw [Code.isSelfDual, decide_eq_true_iff, ← rank_three_iff]
  rw [hx, hz]

/-- C60: in general `is_self_dual` still implies that the Z checks are X stabilizers. -/
theorem C60_self_dual_sound (c : Code) (h : c.isSelfDual = true) : rowSpan c.hz ≤ rowSpan c.hx := by
  rw [Code.isSelfDual, decide_eq_true_iff] at h
  exact rank_append_eq_iff.1 h.2.symm

/-- C60 is violated: with a repeated Z check the code is reported self-dual although it is not. -/
theorem C60_violated : ¬ SelfDualCorrect := by
  intro h
  obtain ⟨c, hc⟩ := C08_ctor_complete refLib 4 [![1, 1, 1, 1], ![1, 1, 0, 0]]
    [![1, 1, 1, 1], ![1, 1, 1, 1]] 1 none none (by decide) (by decide) (by decide) (by decide) (by decide)
  obtain ⟨-, h2, h3, -⟩ := C08_ctor_sound _ _ _ _ _ _ _ hc
  have hb : Built c := ⟨refLib, refLib_correct, _, _, _, _, _, hc⟩
  obtain ⟨hn, hx⟩ := h2 _ rfl
  obtain ⟨-, hz⟩ := h3 _ rfl
  have hc' := h c hb
  obtain ⟨n, chx, chz, _, _, _, _, _, _⟩ := c
  simp only at hn hx hz
  subst hn
  cases hx
  cases hz
  have h4 := hc'.1 (by
    rw [Code.isSelfDual, decide_eq_true_iff]
    have h5 : ([![1, 1, 1, 1], ![1, 1, 0, 0]] : List (Vec 4)).length
      = ([![1, 1, 1, 1], ![1, 1, 1, 1]] : List (Vec 4)).length ∧
      rank ([![1, 1, 1, 1], ![1, 1, 0, 0]] : List (Vec 4)) = rank (([![1, 1, 1, 1], ![1, 1, 0, 0]] :
        List (Vec 4)) ++ [![1, 1, 1, 1], ![1, 1, 1, 1]]) := by decide
    exact h5)
  have : (![1, 1, 0, 0] : Vec 4) ∈ rowSpan [![1, 1, 1, 1], (![1, 1, 1, 1] : Vec 4)] := by
    rw [← h4]; exact mem_rowSpan_of_mem (by simp)
  revert this
  rw [← inSpan_iff]; decide

end Verif.CSS
