import Verif.Props.EccLogical3

/-! # Gates that are not mapped to logical gates (C103) -/

namespace Verif.Ecc
open scoped BigOperators
variable {R : Type} [CommRing R] (k : Consts R)

/-- `ActsAs` for circuits of gates. -/
theorem actsAs_uact {W : CodeWords} {n : ℕ} {l : List Instr} {g : Gate} (hl : ∀ i ∈ l, i.Unitary = true)
    (hg : ∀ i ∈ g.instrs, i.Unitary = true) (h : ActsAs k W n l g) :
    ∃ u : R, u ^ 4 = 1 ∧ ∀ φ : State R, uact k l (encoded W n φ) = u • encoded W n (uact k g.instrs φ) := by
  obtain ⟨u, hu, h⟩ := h
  refine ⟨u, hu, fun φ => ?_⟩
  have := (h φ (uact k g.instrs φ) (fun _ => false) (fun _ => false) ((branch_unitary k hg _ _).2 rfl)
    (uact k l (encoded W n φ), fun _ => false)).1 ((branch_unitary k hl _ _).2 rfl)
  exact congrArg Prod.fst this

/-- The basis state `b`. -/
def delta (R : Type) [CommRing R] {n : ℕ} (b : Fin n → Bool) : State R := fun x => if ∀ i : Fin n, x i = b i then 1 else 0

theorem delta_ext {n : ℕ} (b b' : Fin n → Bool) : delta R b (ext b') = if b' = b then 1 else 0 := by
  unfold delta
  simp only [ext_fin]
  by_cases h : b' = b
  · simp [h]
  · rw [if_neg h, if_neg fun hh => h (funext hh)]

theorem encoded_congr {W : CodeWords} {n : ℕ} {φ φ' : State R} (h : ∀ b : Fin n → Bool, φ (ext b) = φ' (ext b)) :
    encoded W n φ = encoded W n φ' := by
  funext x
  rw [encoded_apply, encoded_apply]
  exact Finset.sum_congr rfl fun b _ => by rw [h]

theorem encoded_delta (W : CodeWords) {n : ℕ} (b : Fin n → Bool) (x : Bits) : encoded W n (delta R b) x = prodW R W n b x := by
  rw [encoded_apply, Finset.sum_eq_single b]
  · rw [delta_ext, if_pos rfl, mul_one]
  · intro b' _ hne
    rw [delta_ext, if_neg hne, mul_zero]
  · intro h
    exact absurd (Finset.mem_univ b) h

theorem encoded_smul (W : CodeWords) (n : ℕ) (u : R) (φ : State R) : encoded W n (u • φ) = u • encoded W n φ := by
  funext x
  rw [encoded_apply, Pi.smul_apply, encoded_apply, smul_eq_mul, Finset.mul_sum]
  exact Finset.sum_congr rfl fun b _ => by rw [Pi.smul_apply, smul_eq_mul]; ring

/-- A list of gates, with the qubits of the circuit. -/
def LGate.instr (g : LGate) : Instr := .gate g.1 g.2.1 g.2.2

theorem mono_act {l : List LGate} (hl : ∀ g ∈ l, g.1.mono = true) (ψ : State R) (x : Bits) :
    uact k (l.map LGate.instr) ψ x = k.ω ^ locE l x * ψ (locP l x) := by
  have e : l.map LGate.instr = l.map (LGate.at 1 0) := by
    refine List.map_congr_left fun g _ => ?_
    simp [LGate.instr, LGate.at, dat]
  have hb : ∀ y : Bits, blk 1 0 y = y := fun y => by funext j; simp [blk, dat]
  have hs : ∀ y z : Bits, setBlk 1 0 y z = y := fun y z => by funext q; simp [setBlk, Nat.mod_one]
  rw [e, loc_act k (by decide) hl, hb, hs]

include k in
theorem two_ne_zero' [Nontrivial R] (u : R) (hu : u ^ 4 = 1) : (2 : R) * u ≠ 0 := by
  intro h
  have : (1 : R) = 0 := by
    have h1 := k.hs
    linear_combination (-1 : R) * h1 + (-(2 * k.s * k.s)) * hu + (k.s * k.s * u ^ 3) * h
  exact one_ne_zero this

theorem im_ne [Nontrivial R] {a b : ℕ} (h : a % 8 ≠ b % 8) (h2 : a % 2 = 0 ∧ b % 2 = 0) : k.ω ^ a ≠ k.ω ^ b := by
  intro e
  have ho := k.hω
  -- either the difference is 4, or its double is
  have key : (2 : R) * 1 ≠ 0 := two_ne_zero' k 1 (one_pow 4)
  have h4 : k.ω ^ a * k.ω ^ (8 - b % 8) = 1 := by
    rw [e, ← pow_add, ← pow_zero k.ω]
    exact omega_mod k (by omega)
  rw [← pow_add] at h4
  have hc : (a + (8 - b % 8)) % 8 = 4 ∨ (2 * (a + (8 - b % 8))) % 8 = 4 := by omega
  rcases hc with hc | hc
  · rw [omega_mod k (b := 4) hc, ho] at h4
    exact key (by linear_combination (-1 : R) * h4)
  · have h5 : k.ω ^ (2 * (a + (8 - b % 8))) = 1 := by rw [mul_comm, pow_mul, h4, one_pow]
    rw [omega_mod k (b := 4) hc, ho] at h5
    exact key (by linear_combination (-1 : R) * h5)

/-- A test: a bit string `x` whose blocks are words of exactly one code state `b`, that is reached from words of one code state
on both sides. -/
structure Probe (W : CodeWords) (n : ℕ) (l lg : List LGate) (x : Bits) (b b₀ : Fin n → Bool) : Prop where
  only : ∀ (i : Fin n) (c : Bool), W c (blk n i x) = if c = b i then 1 else 0
  from₁ : ∀ i : Fin n, W (b₀ i) (blk n i (locP l x)) = 1
  from₂ : ∀ i : Fin n, locP lg (ext b) i = b₀ i

instance (W : CodeWords) (n : ℕ) (l lg : List LGate) (x : Bits) (b b₀ : Fin n → Bool) : Decidable (Probe W n l lg x b b₀) :=
  decidable_of_iff ((∀ (i : Fin n) (c : Bool), W c (blk n i x) = if c = b i then 1 else 0) ∧
    (∀ i : Fin n, W (b₀ i) (blk n i (locP l x)) = 1) ∧ ∀ i : Fin n, locP lg (ext b) i = b₀ i)
    ⟨fun h => ⟨h.1, h.2.1, h.2.2⟩, fun h => ⟨h.1, h.2, h.3⟩⟩

theorem probe_eq {W : CodeWords} {n : ℕ} {l lg : List LGate} (hl : ∀ g ∈ l, g.1.mono = true) (hlg : ∀ g ∈ lg, g.1.mono = true)
    {u : R} (h : ∀ φ : State R, uact k (l.map LGate.instr) (encoded W n φ) = u • encoded W n (uact k (lg.map LGate.instr) φ))
    {x : Bits} {b b₀ : Fin n → Bool} (hp : Probe W n l lg x b b₀) : k.ω ^ locE l x = u * k.ω ^ locE lg (ext b) := by
  have := congrFun (h (delta R b₀)) x
  rw [mono_act k hl, encoded_delta, Pi.smul_apply, smul_eq_mul, encoded_apply] at this
  have e1 : prodW R W n b₀ (locP l x) = 1 := by
    unfold prodW
    refine Finset.prod_eq_one fun i _ => ?_
    rw [hp.from₁ i, Int.cast_one]
  have e2 : ∀ c : Fin n → Bool, prodW R W n c x = if c = b then 1 else 0 := by
    intro c
    unfold prodW
    by_cases hc : c = b
    · rw [if_pos hc]
      refine Finset.prod_eq_one fun i _ => ?_
      rw [hp.only, if_pos (by rw [hc]), Int.cast_one]
    · rw [if_neg hc]
      obtain ⟨i, hi⟩ := Function.ne_iff.1 hc
      refine Finset.prod_eq_zero (Finset.mem_univ i) ?_
      rw [hp.only, if_neg hi, Int.cast_zero]
  rw [e1, mul_one, Finset.sum_eq_single b (fun c _ hc => by rw [e2, if_neg hc, zero_mul])
    (fun hn => absurd (Finset.mem_univ b) hn), e2, if_pos rfl, one_mul, mono_act k hlg] at this
  have e3 : delta R b₀ (locP lg (ext b)) = 1 := by
    unfold delta
    exact if_pos hp.from₂
  rwa [e3, mul_one] at this

/-- Two tests with different phases refute the claim. -/
theorem refute [Nontrivial R] {W : CodeWords} {n : ℕ} {l lg : List LGate} {g : Gate} (hg : g.instrs = lg.map LGate.instr)
    (hl : ∀ g ∈ l, g.1.mono = true) (hlg : ∀ g ∈ lg, g.1.mono = true) {x y : Bits} {b b₀ c c₀ : Fin n → Bool}
    (hp : Probe W n l lg x b b₀) (hq : Probe W n l lg y c c₀)
    (hne : (locE l x + locE lg (ext c)) % 8 ≠ (locE l y + locE lg (ext b)) % 8)
    (heven : (locE l x + locE lg (ext c)) % 2 = 0 ∧ (locE l y + locE lg (ext b)) % 2 = 0) :
    ¬ ActsAs k W n (l.map LGate.instr) g := by
  intro h
  have hun : ∀ l : List LGate, ∀ i ∈ l.map LGate.instr, i.Unitary = true := by
    intro l i hi
    obtain ⟨g, -, rfl⟩ := List.mem_map.1 hi
    rfl
  obtain ⟨u, -, h⟩ := actsAs_uact k (hun l) (by rw [hg]; exact hun lg) h
  rw [hg] at h
  have h1 := probe_eq k hl hlg h hp
  have h2 := probe_eq k hl hlg h hq
  refine im_ne k hne heven ?_
  rw [pow_add, pow_add, h1, h2]
  ring

/-- The bits with the given positions set. -/
def ones (l : List ℕ) : Bits := fun q => l.contains q

/-! ## Q3Shor: S and Y with a control -/

/-- **C103** fails for Q3Shor: what is written for S acts as S†. -/
theorem C103_violated_q3_s [Nontrivial R] : ¬ MapsGate k q3Shor q3Words 1 0 { op := .S, targets := [0] } := by
  intro h
  obtain ⟨l, hl, h⟩ := h { isDecoded := false } _ rfl rfl
  have hl : ([(Op.S, [], 0), (.S, [], 1), (.S, [], 2)] : List LGate).map LGate.instr = l := hl
  subst hl
  exact refute k (lg := [(Op.S, [], 0)]) rfl (by decide) (by decide) (x := ones []) (y := ones [0, 1, 2]) (b := fun _ => false)
    (b₀ := fun _ => false) (c := fun _ => true) (c₀ := fun _ => true) (by decide) (by decide) (by decide) (by decide) h

/-- **C103** fails for Q3Shor: what is written for Y with a control acts as controlled −Y. -/
theorem C103_violated_q3_cy [Nontrivial R] :
    ¬ MapsGate k q3Shor q3Words 2 0 { op := .Y, targets := [1], controls := [(0, true)] } := by
  intro h
  obtain ⟨l, hl, h⟩ := h { isDecoded := false } _ rfl rfl
  have hl : ([(Op.Y, [(0, true)], 1), (.Y, [(2, true)], 3), (.Y, [(4, true)], 5)] : List LGate).map LGate.instr = l := hl
  subst hl
  exact refute k (lg := [(Op.Y, [(0, true)], 1)]) rfl (by decide) (by decide) (x := ones []) (y := ones [0, 2, 4])
    (b := ![false, false]) (b₀ := ![false, false]) (c := ![true, false]) (c₀ := ![true, true])
    (by decide) (by decide) (by decide) (by decide) h

/-! ## Q7Steane: Y with a control -/

/-- **C103** fails for Q7Steane: what is written for Y with a control acts as controlled −Y. -/
theorem C103_violated_q7 [Nontrivial R] :
    ¬ MapsGate k q7Steane q7Words 2 0 { op := .Y, targets := [1], controls := [(0, true)] } := by
  intro h
  obtain ⟨l, hl, h⟩ := h { isDecoded := false } _ rfl rfl
  have hl : ((List.range 7).map fun i => ((Op.Y, [(2 * i, true)], 2 * i + 1) : LGate)).map LGate.instr = l := hl
  subst hl
  exact refute k (lg := [(Op.Y, [(0, true)], 1)]) rfl (by decide) (by decide) (x := ones []) (y := ones [0, 2, 4, 6, 8, 10, 12])
    (b := ![false, false]) (b₀ := ![false, false]) (c := ![true, false]) (c₀ := ![true, true])
    (by decide) (by decide) (by decide) (by decide) h

end Verif.Ecc
