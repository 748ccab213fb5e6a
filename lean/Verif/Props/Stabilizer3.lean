import Verif.Props.Stabilizer2
import Mathlib.Algebra.BigOperators.Fin

/-!
# Properties C06–C07: the constructor of stabilizer codes
-/

namespace Verif.Stab
open Verif Verif.Spec

/-! ## C06  Constructor -/

/-- C06 (partial: missing are commutation of the generators and `0 ≤ k`, which the constructor does
not check, see the violations below): what every accepted call guarantees. -/
theorem C06_ctor_sound_partial (l : List Str) (d : Option ℤ) (lz lx : Option Paulis) (c : Code)
    (h : mkCode (.strs l) d lz lx = .ok c) :
    l ≠ [] ∧ (∀ s ∈ l, ValidStr s) ∧ (∀ s ∈ l, (body s).length = c.n) ∧
    c.k = (c.n : ℤ) - Module.finrank (ZMod 2) (signedSpan c c.n) ∧
    0 < c.distance ∧ (∀ x, d = some x → c.distance = x) := by
  obtain ⟨h1, h2, h3, h4, hw⟩ := mkCode_strs h
  obtain ⟨-, -, -, hk, hd, hd', -⟩ := mkCode_ok_iff.1 h
  refine ⟨h1, h2, h3, ?_, ?_, ?_⟩
  · rw [hk, matRank_eq hw, rank_eq_finrank]; rfl
  · rw [hd']
    cases d with
    | none => simp
    | some x => exact checkDistance_ok_iff.1 hd x rfl
  · rintro x rfl; exact hd'

/-- C06: the empty list is rejected. -/
theorem C06_rejects_empty (d : Option ℤ) (lz lx : Option Paulis) (c : Code) :
    mkCode (.strs []) d lz lx ≠ .ok c := fun h => (mkCode_strs h).1 rfl

/-- C06: generators of different length are rejected. -/
theorem C06_rejects_lengths (l : List Str) (d : Option ℤ) (lz lx : Option Paulis) (c : Code)
    (s t : Str) (hs : s ∈ l) (ht : t ∈ l) (hne : s.length ≠ t.length) :
    mkCode (.strs l) d lz lx ≠ .ok c := by
  intro h
  obtain ⟨hcg, -⟩ := mkCode_ok_iff.1 h
  exact hne ((checkGenerators_ok hcg).2.1 (.str s) (List.mem_map_of_mem hs) (.str t)
    (List.mem_map_of_mem ht))

/-- C06: strings with other characters, and the empty string, are rejected. -/
theorem C06_rejects_invalid (l : List Str) (d : Option ℤ) (lz lx : Option Paulis) (c : Code)
    (s : Str) (hs : s ∈ l) (hne : ¬ ValidStr s) : mkCode (.strs l) d lz lx ≠ .ok c :=
  fun h => hne ((mkCode_strs h).2.1 s hs)

/-- C06: a non-positive distance is rejected. -/
theorem C06_rejects_distance (l : List Str) (d : ℤ) (lz lx : Option Paulis) (c : Code)
    (hd : d ≤ 0) : mkCode (.strs l) (some d) lz lx ≠ .ok c := by
  intro h
  obtain ⟨-, -, -, -, h', -⟩ := mkCode_ok_iff.1 h
  have := checkDistance_ok_iff.1 h' d rfl
  omega

/-- C06: conversely, every non-empty list of valid strings of equal length and equal number of
qubits is accepted (without logicals, positive distance). -/
theorem C06_accepts (l : List Str) (d : Option ℤ) (n len : ℕ) (hne : l ≠ [])
    (hv : ∀ s ∈ l, ValidStr s) (hlen : ∀ s ∈ l, s.length = len) (hn : ∀ s ∈ l, (body s).length = n)
    (hd : ∀ x, d = some x → 0 < x) : ∃ c, mkCode (.strs l) d none none = .ok c ∧ c.n = n := by
  have hp : paulisToBinary (l.map .str) = .ok (l.map binRow) := by
    have h1 : (l.map Pauli.str).mapM pauliToBinary = .ok (l.map binRow) := by
      have := mapM_ok_of_forall (l := l.map Pauli.str) (f := pauliToBinary)
        (g := fun p => match p with | .str s => binRow s | .arr r => r) (by
          intro a ha
          obtain ⟨s, hs, rfl⟩ := List.mem_map.1 ha
          exact pauliToBinary_valid (hv s hs))
      rw [this]; simp
    rw [paulisToBinary, h1]
    change npArray _ = _
    rw [npArray, if_pos]
    rw [List.all_eq_true]
    intro r hr
    obtain ⟨s, hs, rfl⟩ := List.mem_map.1 hr
    cases l with
    | nil => exact absurd rfl hne
    | cons t l =>
      simp only [List.map_cons, width, binRow_length, hn s hs, hn t (by simp), beq_self_eq_true]
  refine ⟨{ n := n, generators := l.map binRow, k := (n : ℤ) - matRank (l.map binRow),
            distance := d.getD 1, lz := none, lx := none }, ?_, rfl⟩
  rw [mkCode_ok_iff]
  refine ⟨?_, ?_, hp, rfl, checkDistance_ok_iff.2 hd, rfl, rfl, rfl, rfl⟩
  · cases l with
    | nil => exact absurd rfl hne
    | cons s l =>
      have h1 : ((Paulis.strs (s :: l)).toList.all fun q => (Pauli.str s).len == q.len) = true := by
        rw [List.all_eq_true]
        intro q hq
        obtain ⟨t, ht, rfl⟩ := List.mem_map.1 hq
        simp [Pauli.len, hlen s (by simp), hlen t ht]
      have h2 : ((s :: l).all isPauliString) = true := by
        rw [List.all_eq_true]; intro t ht; exact isPauliString_iff.2 (hv t ht)
      simp only [checkGenerators, Paulis.toList, List.map_cons]
      simp only [Paulis.toList, List.map_cons] at h1
      rw [h1, if_neg (by simp), if_pos h2]
  · cases l with
    | nil => exact absurd rfl hne
    | cons s l =>
      simp only [Paulis.toList, List.map_cons, firstNQubits]
      rw [getNQubits_valid (hv s (by simp)), hn s (by simp)]

/-- C06, full claim on commutation. -/
def AcceptedGeneratorsCommute : Prop :=
  ∀ (l : List Str) d lz lx c, mkCode (.strs l) d lz lx = .ok c →
    ∀ s ∈ l, ∀ t ∈ l, clashes (body s) (body t) % 2 = 0

/-- C06, full claim on `k`. -/
def AcceptedKNonneg : Prop :=
  ∀ (l : List Str) d lz lx c, mkCode (.strs l) d lz lx = .ok c → 0 ≤ c.k

/-- C06 is violated: the anti-commuting generators X and Z are accepted. -/
theorem C06_violated_commutation : ¬ AcceptedGeneratorsCommute := by
  intro h
  have := h ["X".toList, "Z".toList] none none none _ rfl "X".toList (by simp) "Z".toList (by simp)
  revert this; decide

/-- C06 is violated: ["+X", "-X"] is accepted with `k = -1`. -/
theorem C06_violated_k : ¬ AcceptedKNonneg := by
  intro h
  have := h ["+X".toList, "-X".toList] none none none _ rfl
  revert this; decide

/-! ### Commuting generators do give `0 ≤ k` -/

/-- The symplectic form on pairs. -/
def omega (n : ℕ) : LinearMap.BilinForm (ZMod 2) (Vec n × Vec n) :=
  LinearMap.mk₂ (ZMod 2) (fun a b => dot a.1 b.2 + dot a.2 b.1)
    (by intro a b c; simp [dot_add_left]; ring)
    (by intro c a b; simp [dot_comm _ b.1, dot_comm _ b.2, dot_smul_right]; ring)
    (by intro a b c; simp [dot_add_right]; ring)
    (by intro c a b; simp [dot_smul_right]; ring)

theorem omega_apply (n : ℕ) (a b : Vec n × Vec n) : omega n a b = dot a.1 b.2 + dot a.2 b.1 := rfl

theorem omega_nondegenerate (n : ℕ) : (omega n).Nondegenerate := by
  constructor
  · intro x hx
    refine Prod.ext ?_ ?_
    · funext i; have := hx (0, Pi.single i 1); simpa [omega_apply, dot_single] using this
    · funext i; have := hx (Pi.single i 1, 0); simpa [omega_apply, dot_single] using this
  · intro x hx
    refine Prod.ext ?_ ?_
    · funext i; have := hx (0, Pi.single i 1)
      simpa [omega_apply, dot_single, dot_comm _ x.1] using this
    · funext i; have := hx (Pi.single i 1, 0)
      simpa [omega_apply, dot_single, dot_comm _ x.2] using this

theorem isotropic_finrank_le {n : ℕ} (W : Submodule (ZMod 2) (Vec n × Vec n))
    (h : ∀ a ∈ W, ∀ b ∈ W, omega n a b = 0) : Module.finrank (ZMod 2) W ≤ n := by
  have hle : W ≤ (omega n).orthogonal W := by
    intro a ha; rw [LinearMap.BilinForm.mem_orthogonal_iff]; intro b hb; exact h b hb a ha
  have h1 := LinearMap.BilinForm.finrank_orthogonal (omega_nondegenerate n) W
  have h2 := Submodule.finrank_mono hle
  have h3 : Module.finrank (ZMod 2) (Vec n × Vec n) = n + n := by simp
  have h4 := Submodule.finrank_le W
  omega

/-- Projection of a signed row vector to its x and z parts. -/
def proj (n : ℕ) : Vec (2 * n + 1) →ₗ[ZMod 2] Vec n × Vec n where
  toFun v := (fun i => v ⟨i, by omega⟩, fun i => v ⟨n + i, by omega⟩)
  map_add' _ _ := rfl
  map_smul' _ _ := rfl

/-- The operator `-1`: trivial x and z parts, negative sign. -/
def minusOne (n : ℕ) : Vec (2 * n + 1) := fun i => if i.val = 2 * n then 1 else 0

theorem ker_proj {n : ℕ} {v : Vec (2 * n + 1)} (h : proj n v = 0) : v = 0 ∨ v = minusOne n := by
  have hx : ∀ i : Fin n, v ⟨i, by omega⟩ = 0 := fun i => congrFun (congrArg Prod.fst h) i
  have hz : ∀ i : Fin n, v ⟨n + i, by omega⟩ = 0 := fun i => congrFun (congrArg Prod.snd h) i
  have hi : ∀ i : Fin (2 * n + 1), i.val ≠ 2 * n → v i = 0 := by
    intro i hi
    by_cases h1 : i.val < n
    · exact hx ⟨i, h1⟩
    · have := hz ⟨i.val - n, by omega⟩
      have e : (⟨n + (i.val - n), by omega⟩ : Fin (2 * n + 1)) = i := by ext; simp; omega
      simpa [e] using this
  rcases zmod2_cases (v ⟨2 * n, by omega⟩) with h0 | h0
  · left; funext i
    by_cases h1 : i.val = 2 * n
    · have : i = ⟨2 * n, by omega⟩ := by ext; exact h1
      rw [this, h0]; rfl
    · exact hi i h1
  · right; funext i
    by_cases h1 : i.val = 2 * n
    · have : i = ⟨2 * n, by omega⟩ := by ext; exact h1
      rw [this, h0]; simp [minusOne]
    · rw [hi i h1]; simp [minusOne, h1]

theorem getElem_binRow_x (s : Str) (i : ℕ) (h : i < (body s).length) :
    (binRow s).getD i 0 = sx ((body s)[i]) := by
  have : i < (binRow s).length := by rw [binRow_length]; omega
  rw [List.getD_eq_getElem?_getD, List.getElem?_eq_getElem this, Option.getD_some]
  simp only [binRow, lettersToBinary]
  rw [List.getElem_append_left (by simp; omega), List.getElem_append_left (by simpa using h)]
  simp [sx]

theorem getElem_binRow_z (s : Str) (i : ℕ) (h : i < (body s).length) :
    (binRow s).getD ((body s).length + i) 0 = sz ((body s)[i]) := by
  have : (body s).length + i < (binRow s).length := by rw [binRow_length]; omega
  rw [List.getD_eq_getElem?_getD, List.getElem?_eq_getElem this, Option.getD_some]
  simp only [binRow, lettersToBinary]
  rw [List.getElem_append_left (by simp; omega), List.getElem_append_right (by simp)]
  simp [sz]

theorem sum_zipWith_eq {p q : Str} {n : ℕ} (hp : p.length = n) (hq : q.length = n)
    (f : Char → Char → ZMod 2) :
    (List.zipWith f p q).sum = ∑ i : Fin n, f (p[i.val]'(by omega)) (q[i.val]'(by omega)) := by
  have : List.zipWith f p q = List.ofFn fun i : Fin n => f (p[i.val]'(by omega)) (q[i.val]'(by omega)) := by
    apply List.ext_getElem
    · simp [hp, hq]
    · intro i h1 h2; simp
  rw [this, List.sum_ofFn]

theorem omega_vecOf {n : ℕ} {s t : Str} (hs : ValidStr s) (ht : ValidStr t)
    (hsn : (body s).length = n) (htn : (body t).length = n) :
    omega n (proj n (vecOf n s)) (proj n (vecOf n t)) = ((clashes (body s) (body t) : ℕ) : ZMod 2) := by
  rw [← clash_sum (body_letters hs) (body_letters ht), sum_zipWith_eq hsn htn, sum_zipWith_eq hsn htn,
    omega_apply]
  have hx : ∀ (u : Str) (hu : (body u).length = n) (i : Fin n),
      (proj n (vecOf n u)).1 i = sx ((body u)[i.val]'(by omega)) := by
    intro u hu i
    exact getElem_binRow_x u i (by omega)
  have hz : ∀ (u : Str) (hu : (body u).length = n) (i : Fin n),
      (proj n (vecOf n u)).2 i = sz ((body u)[i.val]'(by omega)) := by
    intro u hu i
    have := getElem_binRow_z u i (by omega)
    refine Eq.trans ?_ this
    change (binRow u).getD (n + i.val) 0 = _
    rw [hu]
  simp only [dot, hx s hsn, hx t htn, hz s hsn, hz t htn]

/-- C06: if the accepted generators commute pairwise and do not generate `-1` (as signed binary
vectors), then `0 ≤ k ≤ n`; so the two violations above are exactly due to the missing check. -/
theorem C06_k_nonneg_of_commuting (l : List Str) (d : Option ℤ) (lz lx : Option Paulis) (c : Code)
    (h : mkCode (.strs l) d lz lx = .ok c)
    (hcomm : ∀ s ∈ l, ∀ t ∈ l, clashes (body s) (body t) % 2 = 0)
    (hneg : minusOne c.n ∉ signedSpan c c.n) : 0 ≤ c.k ∧ c.k ≤ c.n := by
  obtain ⟨-, hv, hn, hk, -⟩ := C06_ctor_sound_partial l d lz lx c h
  obtain ⟨-, -, -, hg, -⟩ := mkCode_strs h
  have hspan : signedSpan c c.n = rowSpan (l.map (vecOf c.n)) := by
    rw [signedSpan, hg, List.map_map]; rfl
  rw [hk]
  have hinj : Module.finrank (ZMod 2) (signedSpan c c.n)
      = Module.finrank (ZMod 2) ((signedSpan c c.n).map (proj c.n)) := by
    refine LinearEquiv.finrank_eq ?_
    refine LinearEquiv.ofBijective ((proj c.n).submoduleMap (signedSpan c c.n)) ⟨?_, ?_⟩
    · rw [← LinearMap.ker_eq_bot, Submodule.eq_bot_iff]
      rintro ⟨x, hx⟩ hx0
      have hx1 : proj c.n x = 0 := by
        have := congrArg Subtype.val hx0
        simpa using this
      rcases ker_proj hx1 with h0 | h0
      · ext1; exact h0
      · rw [h0] at hx; exact absurd hx hneg
    · exact LinearMap.submoduleMap_surjective _ _
  have hiso : Module.finrank (ZMod 2) ((signedSpan c c.n).map (proj c.n)) ≤ c.n := by
    apply isotropic_finrank_le
    have hle : (signedSpan c c.n).map (proj c.n)
        ≤ (omega c.n).orthogonal ((signedSpan c c.n).map (proj c.n)) := by
      rw [hspan, rowSpan, Submodule.map_span, Submodule.span_le]
      rintro _ ⟨v, hv1, rfl⟩
      obtain ⟨s, hs, rfl⟩ := List.mem_map.1 hv1
      rw [SetLike.mem_coe, LinearMap.BilinForm.mem_orthogonal_iff]
      intro w hw
      have : Submodule.span (ZMod 2) (⇑(proj c.n) '' {r | r ∈ l.map (vecOf c.n)})
          ≤ LinearMap.ker (LinearMap.BilinForm.flip (omega c.n) (proj c.n (vecOf c.n s))) := by
        rw [Submodule.span_le]
        rintro _ ⟨v, hv2, rfl⟩
        obtain ⟨t, ht, rfl⟩ := List.mem_map.1 hv2
        rw [SetLike.mem_coe, LinearMap.mem_ker, LinearMap.BilinForm.flip_apply]
        rw [omega_vecOf (hv t ht) (hv s hs) (hn t ht) (hn s hs), natCast_zmod2,
          hcomm t ht s hs]
        rfl
      exact this hw
    intro a ha b hb
    exact LinearMap.BilinForm.mem_orthogonal_iff.1 (hle hb) a ha
  rw [hinj]; omega

example : ∃ c, mkCode (.strs ["+XX".toList, "-ZZ".toList]) none none none = .ok c ∧ c.k = 0 :=
  ⟨_, rfl, by decide⟩

example : clashes "XX".toList "ZZ".toList % 2 = 0 := by decide

end Verif.Stab
