import Verif.Lemmas.EccClassical
import Verif.Lemmas.EccCodes

/-!
# C100: a circuit encoded with Q3Shor gives the results of the original circuit

The semantics is the state-vector semantics of `Spec/EccState`; noise and results are in `Spec/EccNoise`.
-/

namespace Verif.Ecc
variable {R : Type} [CommRing R] (k : Consts R)

namespace Q3

/-! ## Classical effect of the blocks -/

def maj (x y z : Bool) : Bool := (x && y) || (x && z) || (y && z)

theorem correctBlock_run {d a : ℕ → ℕ} (hd : Inj 3 d) (ha : a 0 ≠ a 1) (hda : Apart 3 2 d a) (m : ℕ) (p cl : Bits) :
    (∀ j < 3, (crun (correctBlock d a m) (p, cl)).1 (d j) = maj (p (d 0)) (p (d 1)) (p (d 2))) ∧
    (∀ q, (∀ j < 3, q ≠ d j) → q ≠ a 0 → q ≠ a 1 → (crun (correctBlock d a m) (p, cl)).1 q = p q) ∧
    ∀ b < m, (crun (correctBlock d a m) (p, cl)).2 b = cl b := by
  have d01 : d 0 ≠ d 1 := fun h => absurd (hd 0 (by decide) 1 (by decide) h) (by decide)
  have d02 : d 0 ≠ d 2 := fun h => absurd (hd 0 (by decide) 2 (by decide) h) (by decide)
  have d12 : d 1 ≠ d 2 := fun h => absurd (hd 1 (by decide) 2 (by decide) h) (by decide)
  have e00 := hda 0 (by decide) 0 (by decide)
  have e01 := hda 0 (by decide) 1 (by decide)
  have e10 := hda 1 (by decide) 0 (by decide)
  have e11 := hda 1 (by decide) 1 (by decide)
  have e20 := hda 2 (by decide) 0 (by decide)
  have e21 := hda 2 (by decide) 1 (by decide)
  have hm : m ≠ m + 1 := by omega
  refine ⟨fun j hj => ?_, fun q h1 h2 h3 => ?_, fun b hb => ?_⟩
  · have : j = 0 ∨ j = 1 ∨ j = 2 := by omega
    rcases this with rfl | rfl | rfl <;>
    · cases h0 : p (d 0) <;> cases h1 : p (d 1) <;> cases h2 : p (d 2) <;>
      simp [correctBlock, crun, cstep, cx, holds, flips?, regValue, Function.update_apply, flip_apply, maj, d01, d02, d12,
        d01.symm, d02.symm, d12.symm, e00, e01, e10, e11, e20, e21, e00.symm, e01.symm, e10.symm, e11.symm, e20.symm, e21.symm, ha, ha.symm,
        h0, h1, h2, hm, hm.symm]
  · have q0 := h1 0 (by decide)
    have q1 := h1 1 (by decide)
    have q2 := h1 2 (by decide)
    exact crun_frame (by simp [correctBlock, Instr.touches, cx, h2.symm, h3.symm, q0.symm, q1.symm, q2.symm]) _
  · have b0 : b ≠ m := by omega
    have b1 : b ≠ m + 1 := by omega
    simp [correctBlock, crun, cstep, cx, Function.update_apply, b0, b1]

theorem decodeBlock_run {d : ℕ → ℕ} (hd : Inj 3 d) (p cl : Bits) (x : Bool) (h : ∀ j < 3, p (d j) = x) :
    (crun (decodeBlock d) (p, cl)).1 (d 0) = x ∧ (crun (decodeBlock d) (p, cl)).1 (d 1) = false ∧
    (crun (decodeBlock d) (p, cl)).1 (d 2) = false ∧
    (∀ q, (∀ j < 3, q ≠ d j) → (crun (decodeBlock d) (p, cl)).1 q = p q) ∧ (crun (decodeBlock d) (p, cl)).2 = cl := by
  have d01 : d 0 ≠ d 1 := fun h => absurd (hd 0 (by decide) 1 (by decide) h) (by decide)
  have d02 : d 0 ≠ d 2 := fun h => absurd (hd 0 (by decide) 2 (by decide) h) (by decide)
  have d12 : d 1 ≠ d 2 := fun h => absurd (hd 1 (by decide) 2 (by decide) h) (by decide)
  have h0 := h 0 (by decide)
  have h1 := h 1 (by decide)
  have h2 := h 2 (by decide)
  refine ⟨?_, ?_, ?_, fun q hq => ?_, ?_⟩
  on_goal 4 =>
    have q0 := hq 0 (by decide)
    have q1 := hq 1 (by decide)
    have q2 := hq 2 (by decide)
  all_goals
    cases x <;>
    simp [decodeBlock, crun, cstep, cx, ccx, holds, flips?, flip_apply, d01, d02, d12, d01.symm, d02.symm, d12.symm, h0, h1, h2, *]

def encodeBlock (d : ℕ → ℕ) : List Instr := [cx (d 0) (d 1), cx (d 0) (d 2)]

theorem encodeBlock_run {d : ℕ → ℕ} (hd : Inj 3 d) (p cl : Bits) (h1 : p (d 1) = false) (h2 : p (d 2) = false) :
    (∀ j < 3, (crun (encodeBlock d) (p, cl)).1 (d j) = p (d 0)) ∧
    (∀ q, (∀ j < 3, q ≠ d j) → (crun (encodeBlock d) (p, cl)).1 q = p q) ∧ (crun (encodeBlock d) (p, cl)).2 = cl := by
  have d01 : d 0 ≠ d 1 := fun h => absurd (hd 0 (by decide) 1 (by decide) h) (by decide)
  have d02 : d 0 ≠ d 2 := fun h => absurd (hd 0 (by decide) 2 (by decide) h) (by decide)
  have d12 : d 1 ≠ d 2 := fun h => absurd (hd 1 (by decide) 2 (by decide) h) (by decide)
  refine ⟨fun j hj => ?_, fun q hq => ?_, ?_⟩
  · have : j = 0 ∨ j = 1 ∨ j = 2 := by omega
    rcases this with rfl | rfl | rfl <;> cases h0 : p (d 0) <;>
    simp [encodeBlock, crun, cstep, cx, holds, flips?, flip_apply, d01, d02, d12, d01.symm, d02.symm, d12.symm, h0, h1, h2]
  · have q0 := hq 0 (by decide)
    have q1 := hq 1 (by decide)
    have q2 := hq 2 (by decide)
    cases h0 : p (d 0) <;>
    simp [encodeBlock, crun, cstep, cx, holds, flips?, flip_apply, d01, d02, d12, d01.symm, d02.symm, d12.symm, h0, h1, h2, q0, q1, q2]
  · simp [encodeBlock, crun, cstep, cx]

/-! ## All logical qubits -/

/-- All copies but possibly copy `c` agree with `o`. -/
def Enc (n c : ℕ) (o p : Bits) : Prop := ∀ i < n, ∀ j < 3, j ≠ c → p (dat n i j) = o i

/-- Decoded. -/
def Dec (n : ℕ) (o p : Bits) : Prop := ∀ i < n, p (dat n i 0) = o i ∧ p (dat n i 1) = false ∧ p (dat n i 2) = false

theorem dat_inj3 {n i : ℕ} (hi : i < n) : Inj 3 (dat n i) := fun _ _ _ _ h => (dat_inj hi hi h).2

theorem dat_other {n i i' j : ℕ} (hi : i < n) (hi' : i' < n) (h : i ≠ i') : ∀ j' < 3, dat n i j ≠ dat n i' j' :=
  fun _ _ e => h (dat_inj hi hi' e).1

theorem correct_run {n m c : ℕ} {o p cl : Bits} (h : Enc n c o p) (c' : ℕ) :
    Enc n c' o (crun (blocks n fun i => correctBlock (dat n i) (fun j => n * 3 + j) m) (p, cl)).1 ∧
    ∀ b < m, (crun (blocks n fun i => correctBlock (dat n i) (fun j => n * 3 + j) m) (p, cl)).2 b = cl b := by
  have key := blocks_inv (n := n) (b := fun i => correctBlock (dat n i) (fun j => n * 3 + j) m) (c := (p, cl))
    (fun K c₁ => (∀ i < n, ∀ j < 3, (i < K → c₁.1 (dat n i j) = o i) ∧ (K ≤ i → j ≠ c → c₁.1 (dat n i j) = o i)) ∧
      ∀ b < m, c₁.2 b = cl b)
    ⟨fun i hi j hj => ⟨fun h => absurd h (by omega), fun _ hc => h i hi j hj hc⟩, fun _ _ => rfl⟩ ?_
  · exact ⟨fun i hi j hj _ => (key.1 i hi j hj).1 hi, key.2⟩
  · rintro K hK ⟨p₁, cl₁⟩ ⟨h1, h2⟩
    obtain ⟨r1, r2, r3⟩ := correctBlock_run (dat_inj3 hK) (a := fun j => n * 3 + j) (by simp)
      (fun j hj i hi e => by have := dat_lt (r := 3) hK hj; simp only at e; omega) m p₁ cl₁
    refine ⟨fun i hi j hj => ?_, fun b hb => by rw [r3 b hb]; exact h2 b hb⟩
    by_cases hiK : i = K
    · subst hiK
      refine ⟨fun _ => ?_, fun h => absurd h (by omega)⟩
      rw [r1 j hj]
      have g0 := (h1 i hi 0 (by omega)).2 le_rfl
      have g1 := (h1 i hi 1 (by omega)).2 le_rfl
      have g2 := (h1 i hi 2 (by omega)).2 le_rfl
      simp only at g0 g1 g2
      rcases Nat.lt_or_ge c 3 with hc | hc
      · have : c = 0 ∨ c = 1 ∨ c = 2 := by omega
        rcases this with rfl | rfl | rfl
        · rw [g1 (by decide), g2 (by decide)]; cases o i <;> simp [maj]
        · rw [g0 (by decide), g2 (by decide)]; cases o i <;> simp [maj]
        · rw [g0 (by decide), g1 (by decide)]; cases o i <;> simp [maj]
      · rw [g0 (by omega), g1 (by omega), g2 (by omega)]; cases o i <;> simp [maj]
    · have := r2 (dat n i j) (dat_other hi hK hiK) (by have := dat_lt (r := 3) hi hj; omega) (by have := dat_lt (r := 3) hi hj; omega)
      rw [this]
      exact ⟨fun h => (h1 i hi j hj).1 (by omega), fun h hc => (h1 i hi j hj).2 (by omega) hc⟩

theorem decode_run {n : ℕ} {o p cl : Bits} (h : Enc n 3 o p) :
    Dec n o (crun (blocks n fun i => decodeBlock (dat n i)) (p, cl)).1 ∧
    (crun (blocks n fun i => decodeBlock (dat n i)) (p, cl)).2 = cl := by
  have key := blocks_inv (n := n) (b := fun i => decodeBlock (dat n i)) (c := (p, cl))
    (fun K c₁ => (∀ i < n, (i < K → c₁.1 (dat n i 0) = o i ∧ c₁.1 (dat n i 1) = false ∧ c₁.1 (dat n i 2) = false) ∧
      (K ≤ i → ∀ j < 3, c₁.1 (dat n i j) = o i)) ∧ c₁.2 = cl)
    ⟨fun i hi => ⟨fun h => absurd h (by omega), fun _ j hj => h i hi j hj (by omega)⟩, rfl⟩ ?_
  · exact ⟨fun i hi => (key.1 i hi).1 hi, key.2⟩
  · rintro K hK ⟨p₁, cl₁⟩ ⟨h1, h2⟩
    obtain ⟨r0, r1, r2, r3, r4⟩ := decodeBlock_run (dat_inj3 hK) p₁ cl₁ (o K) ((h1 K hK).2 le_rfl)
    refine ⟨fun i hi => ?_, r4.trans h2⟩
    by_cases hiK : i = K
    · subst hiK
      exact ⟨fun _ => ⟨r0, r1, r2⟩, fun h => absurd h (by omega)⟩
    · have := fun j => r3 (dat n i j) (dat_other hi hK hiK)
      simp only [this]
      exact ⟨fun h => (h1 i hi).1 (by omega), fun h => (h1 i hi).2 (by omega)⟩

theorem encode_run {n : ℕ} {o p cl : Bits} (h : Dec n o p) (c : ℕ) :
    Enc n c o (crun (blocks n fun i => encodeBlock (dat n i)) (p, cl)).1 ∧
    (crun (blocks n fun i => encodeBlock (dat n i)) (p, cl)).2 = cl := by
  have key := blocks_inv (n := n) (b := fun i => encodeBlock (dat n i)) (c := (p, cl))
    (fun K c₁ => (∀ i < n, (i < K → ∀ j < 3, c₁.1 (dat n i j) = o i) ∧
      (K ≤ i → c₁.1 (dat n i 0) = o i ∧ c₁.1 (dat n i 1) = false ∧ c₁.1 (dat n i 2) = false)) ∧ c₁.2 = cl)
    ⟨fun i hi => ⟨fun h => absurd h (by omega), fun _ => h i hi⟩, rfl⟩ ?_
  · exact ⟨fun i hi j hj _ => (key.1 i hi).1 hi j hj, key.2⟩
  · rintro K hK ⟨p₁, cl₁⟩ ⟨h1, h2⟩
    obtain ⟨g0, g1, g2⟩ := (h1 K hK).2 le_rfl
    obtain ⟨r0, r3, r4⟩ := encodeBlock_run (dat_inj3 hK) p₁ cl₁ g1 g2
    refine ⟨fun i hi => ?_, r4.trans h2⟩
    by_cases hiK : i = K
    · subst hiK
      exact ⟨fun _ j hj => (r0 j hj).trans g0, fun h => absurd h (by omega)⟩
    · have := fun j => r3 (dat n i j) (dat_other hi hK hiK)
      simp only [this]
      exact ⟨fun h => (h1 i hi).1 (by omega), fun h => (h1 i hi).2 (by omega)⟩

/-! ## Gates -/

theorem holds_copy {n j : ℕ} {cs : List (ℕ × Bool)} {o p : Bits} (h : ∀ c ∈ cs, p (dat n c.1 j) = o c.1) :
    holds (copyControls n j cs) p = holds cs o := by
  unfold holds copyControls
  rw [List.all_map]
  induction cs with
  | nil => rfl
  | cons c cs ih =>
    rw [List.all_cons, List.all_cons, ih fun d hd => h d (by simp [hd])]
    simp [h c (by simp)]

theorem gate_same {n j t : ℕ} {op : Op} {cs : List (ℕ × Bool)} (ht : t < n) (hcs : ∀ c ∈ cs, c.1 < n) {c c' : Bits × Bits}
    (h : ∀ i < n, c.1 (dat n i j) = c'.1 i) : ∀ i < n,
    (cstep (.gate op (copyControls n j cs) (dat n t j)) c).1 (dat n i j) = (cstep (.gate op cs t) c').1 i := by
  intro i hi
  simp only [cstep]
  rw [holds_copy fun c hc => h _ (hcs c hc)]
  split
  · rw [flip_apply, flip_apply, h i hi]
    congr 1
    refine decide_eq_decide.2 ⟨fun e => (dat_inj hi ht e).1, fun e => by rw [e]⟩
  · exact h i hi

theorem gate_other {n j j' t : ℕ} {op : Op} {cs : List (ℕ × Bool)} (ht : t < n) (hj : j' ≠ j) (c : Bits × Bits) : ∀ i < n,
    (cstep (.gate op cs (dat n t j)) c).1 (dat n i j') = c.1 (dat n i j') := by
  intro i hi
  simp only [cstep]
  split
  · exact flip_other (fun e => hj (dat_inj hi ht e).2)
  · rfl

theorem op_run {n c : ℕ} (op : Op) (cs : List (ℕ × Bool)) (hcs : ∀ c ∈ cs, c.1 < n) (ts : List ℕ) (hts : ∀ t ∈ ts, t < n)
    {o p cl cl' : Bits} (h : Enc n c o p) :
    Enc n c (crun (ts.map fun t => Instr.gate op cs t) (o, cl')).1
      (crun (ts.flatMap fun t => (List.range 3).map fun j => Instr.gate op (copyControls n j cs) (dat n t j)) (p, cl)).1 ∧
    (crun (ts.map fun t => Instr.gate op cs t) (o, cl')).2 = cl' ∧
    (crun (ts.flatMap fun t => (List.range 3).map fun j => Instr.gate op (copyControls n j cs) (dat n t j)) (p, cl)).2 = cl := by
  induction ts generalizing o p with
  | nil => exact ⟨h, rfl, rfl⟩
  | cons t ts ih =>
    have ht := hts t (by simp)
    rw [List.map_cons, List.flatMap_cons, crun_append, crun_cons]
    refine ih (fun t h => hts t (by simp [h])) ?_
    show Enc n c (cstep (.gate op cs t) (o, cl')).1 (cstep (.gate op (copyControls n 2 cs) (dat n t 2))
      (cstep (.gate op (copyControls n 1 cs) (dat n t 1)) (cstep (.gate op (copyControls n 0 cs) (dat n t 0)) (p, cl)))).1
    intro i hi j hj hjc
    have : j = 0 ∨ j = 1 ∨ j = 2 := by omega
    rcases this with rfl | rfl | rfl
    · rw [gate_other ht (by decide) _ i hi, gate_other ht (by decide) _ i hi]
      exact gate_same ht hcs (fun i hi => h i hi 0 hj hjc) i hi
    · rw [gate_other ht (by decide) _ i hi]
      refine gate_same ht hcs (fun i hi => ?_) i hi
      rw [gate_other ht (by decide) _ i hi]
      exact h i hi 1 hj hjc
    · refine gate_same ht hcs (fun i hi => ?_) i hi
      rw [gate_other ht (by decide) _ i hi, gate_other ht (by decide) _ i hi]
      exact h i hi 2 hj hjc

theorem noise_run {n c : ℕ} {l : List Instr} (hl : ErrorsOn (fun q => ∃ i < n, q = dat n i c) l) {o p cl : Bits} (h : Enc n c o p) :
    Enc n c o (crun l (p, cl)).1 ∧ (crun l (p, cl)).2 = cl := by
  induction l generalizing p with
  | nil => exact ⟨h, rfl⟩
  | cons g l ih =>
    obtain ⟨op, q, rfl, -, i', hi', rfl⟩ := hl g (by simp)
    rw [crun_cons]
    refine ih (fun g hg => hl g (by simp [hg])) (p := (cstep (.gate op [] (dat n i' c)) (p, cl)).1) ?_
    intro i hi j hj hjc
    rw [gate_other hi' hjc _ i hi]
    exact h i hi j hj hjc

theorem measure_run {n m : ℕ} (ts cs : List ℕ) (hts : ∀ t ∈ ts, t < n) {o p cl cl' : Bits} (h : ∀ i < n, p i = o i)
    (hb : ∀ b < m, cl b = cl' b) :
    (crun (List.zipWith Instr.measure ts cs) (o, cl')).1 = o ∧ (crun (List.zipWith Instr.measure ts cs) (p, cl)).1 = p ∧
    ∀ b < m, (crun (List.zipWith Instr.measure ts cs) (p, cl)).2 b = (crun (List.zipWith Instr.measure ts cs) (o, cl')).2 b := by
  induction ts generalizing cs cl cl' with
  | nil => exact ⟨rfl, rfl, hb⟩
  | cons t ts ih =>
    cases cs with
    | nil => exact ⟨rfl, rfl, hb⟩
    | cons c cs =>
      rw [List.zipWith_cons_cons, crun_cons, crun_cons]
      refine ih cs (fun t h => hts t (by simp [h])) (fun b hbm => ?_)
      show Function.update cl c (p t) b = Function.update cl' c (o t) b
      rw [h t (hts t (by simp))]
      by_cases e : b = c
      · subst e; simp
      · rw [Function.update_of_ne e, Function.update_of_ne e]; exact hb b hbm

/-! ## The instructions are in range and make no superpositions -/

def Good (n m : ℕ) (l : List Instr) : Prop := ∀ i ∈ l, i.WF (n * 3 + 2) (m + 2) ∧ i.Classical

theorem Good.append {n m : ℕ} {l l' : List Instr} (h : Good n m l) (h' : Good n m l') : Good n m (l ++ l') := fun i hi =>
  (List.mem_append.1 hi).elim (h i) (h' i)

theorem Good.blocks {n m : ℕ} {b : ℕ → List Instr} (h : ∀ i < n, Good n m (b i)) : Good n m (blocks n b) := fun x hx => by
  obtain ⟨i, hi, h'⟩ := List.mem_flatMap.1 hx
  exact h i (List.mem_range.1 hi) x h'

theorem dat_lt3 {n i j : ℕ} (hi : i < n) (hj : j < 3) : dat n i j < n * 3 + 2 := by
  have := dat_lt (r := 3) hi hj
  omega

theorem dat_ne {n i j j' : ℕ} (hi : i < n) (h : j ≠ j') : dat n i j ≠ dat n i j' := fun e => h (dat_inj hi hi e).2

theorem good_correct (n m : ℕ) : Good n m (blocks n fun i => correctBlock (dat n i) (fun j => n * 3 + j) m) :=
  Good.blocks fun i hi x hx => by
    have l0 := dat_lt (r := 3) (j := 0) hi (by decide)
    have l1 := dat_lt (r := 3) (j := 1) hi (by decide)
    have l2 := dat_lt (r := 3) (j := 2) hi (by decide)
    simp only [correctBlock, List.mem_cons, List.not_mem_nil, or_false] at hx
    rcases hx with rfl | rfl | rfl | rfl | rfl | rfl | rfl | rfl | rfl | rfl | rfl <;>
      simp [Instr.WF, Instr.Classical, cx] <;> omega

theorem good_decode (n m : ℕ) : Good n m (blocks n fun i => decodeBlock (dat n i)) :=
  Good.blocks fun i hi x hx => by
    have l0 := dat_lt3 (j := 0) hi (by decide)
    have l1 := dat_lt3 (j := 1) hi (by decide)
    have l2 := dat_lt3 (j := 2) hi (by decide)
    have e01 := dat_ne (j := 0) (j' := 1) hi (by decide)
    have e02 := dat_ne (j := 0) (j' := 2) hi (by decide)
    simp only [decodeBlock, List.mem_cons, List.not_mem_nil, or_false] at hx
    rcases hx with rfl | rfl | rfl <;> simp [Instr.WF, Instr.Classical, cx, ccx, l0, l1, l2, e01, e02, e01.symm, e02.symm]

theorem good_encode (n m : ℕ) : Good n m (blocks n fun i => encodeBlock (dat n i)) :=
  Good.blocks fun i hi x hx => by
    have l0 := dat_lt3 (j := 0) hi (by decide)
    have l1 := dat_lt3 (j := 1) hi (by decide)
    have l2 := dat_lt3 (j := 2) hi (by decide)
    have e01 := dat_ne (j := 0) (j' := 1) hi (by decide)
    have e02 := dat_ne (j := 0) (j' := 2) hi (by decide)
    simp only [encodeBlock, List.mem_cons, List.not_mem_nil, or_false] at hx
    rcases hx with rfl | rfl <;> simp [Instr.WF, Instr.Classical, cx, l0, l1, l2, e01, e02]

theorem good_op {n m : ℕ} {g : Gate} (hg : g.WF n m) (hop : g.op ≠ .H) : Good n m (addOperation n g) := fun x hx => by
  obtain ⟨t, ht, hx⟩ := List.mem_flatMap.1 hx
  obtain ⟨j, hj, rfl⟩ := List.mem_map.1 hx
  have hj := List.mem_range.1 hj
  refine ⟨⟨dat_lt3 (hg.1 t ht) hj, fun c hc => ?_⟩, hop⟩
  obtain ⟨c, hc', rfl⟩ := List.mem_map.1 hc
  have := hg.2.1 c hc'
  exact ⟨dat_lt3 this.1 hj, fun e => this.2 (by rw [(dat_inj this.1 (hg.1 t ht) e).1]; exact ht)⟩

theorem good_measure {n m : ℕ} {ts cs : List ℕ} (ht : ∀ t ∈ ts, t < n) (hc : ∀ c ∈ cs, c < m) :
    Good n m (List.zipWith Instr.measure ts cs) := fun x hx => by
  induction ts generalizing cs with
  | nil => cases hx
  | cons t ts ih =>
    cases cs with
    | nil => cases hx
    | cons c cs =>
      rcases List.mem_cons.1 hx with rfl | hx
      · have h1 := ht t (by simp)
        have h2 := hc c (by simp)
        exact ⟨⟨by omega, by omega⟩, trivial⟩
      · exact ih (fun t h => ht t (by simp [h])) (fun c h => hc c (by simp [h])) hx

theorem good_noise {n m c : ℕ} (hc : c < 3) {l : List Instr} (hl : ErrorsOn (fun q => ∃ i < n, q = dat n i c) l) : Good n m l :=
  fun x hx => by
    obtain ⟨op, q, rfl, hop, i, hi, rfl⟩ := hl x hx
    refine ⟨⟨dat_lt3 hi hc, fun c hc => by cases hc⟩, ?_⟩
    rcases hop with rfl | rfl | rfl <;> simp [Instr.Classical]

/-! ## The invariant -/

/-- The encoder `s`, after the original circuit has reached the classical state `o` from bits `cl₀`. -/
structure Inv (n m c : ℕ) (cl₀ : Bits) (s : St) (o : Bits × Bits) : Prop where
  written : s.gatesWritten = true
  good : Good n m s.out
  bits : ∀ b < m, (crun s.out (fun _ => false, cl₀)).2 b = o.2 b
  enc : s.isDecoded = false → Enc n c o.1 (crun s.out (fun _ => false, cl₀)).1
  dec : s.isDecoded = true → Dec n o.1 (crun s.out (fun _ => false, cl₀)).1

theorem Inv.correct {n m c : ℕ} {cl₀ : Bits} {s : St} {o : Bits × Bits} (h : Inv n m c cl₀ s o) (c' : ℕ) :
    Inv n m c' cl₀ (correct n m s) o := by
  unfold Q3.correct
  rw [h.written]
  cases hd : s.isDecoded with
  | true =>
    rw [if_pos (by simp)]
    exact ⟨h.written, h.good, h.bits, fun e => by rw [hd] at e; simp at e, fun _ => h.dec hd⟩
  | false =>
    have r := correct_run (m := m) (cl := (crun s.out (fun _ => false, cl₀)).2) (h.enc hd) c'
    refine ⟨h.written, h.good.append (good_correct n m), fun b hb => ?_, fun _ => ?_, fun e => ?_⟩
    · show (crun (s.out ++ _) _).2 b = _
      rw [crun_append, r.2 b hb]
      exact h.bits b hb
    · show Enc n c' o.1 (crun (s.out ++ _) _).1
      rw [crun_append]
      exact r.1
    · have : s.isDecoded = true := e
      rw [hd] at this; simp at this

theorem Inv.decode {n m : ℕ} {cl₀ : Bits} {s : St} {o : Bits × Bits} (h : Inv n m 3 cl₀ s o) (c' : ℕ) :
    Inv n m c' cl₀ (decode n s) o ∧ (Q3.decode n s).isDecoded = true := by
  unfold Q3.decode
  cases hd : s.isDecoded with
  | true => exact ⟨⟨h.written, h.good, h.bits, fun e => by rw [if_pos rfl, hd] at e; simp at e, fun _ => h.dec hd⟩, hd⟩
  | false =>
    have r := decode_run (cl := (crun s.out (fun _ => false, cl₀)).2) (h.enc hd)
    refine ⟨⟨h.written, h.good.append (good_decode n m), fun b hb => ?_, fun e => ?_, fun e => ?_⟩, rfl⟩
    · show (crun (s.out ++ _) _).2 b = _
      rw [crun_append, r.2]
      exact h.bits b hb
    · simp [St.decoded] at e
    · show Dec n o.1 (crun (s.out ++ _) _).1
      rw [crun_append]
      exact r.1

theorem Inv.encode {n m c : ℕ} {cl₀ : Bits} {s : St} {o : Bits × Bits} (h : Inv n m c cl₀ s o) :
    Inv n m c cl₀ (encode n s) o ∧ (Q3.encode n s).isDecoded = false := by
  unfold Q3.encode
  rw [h.written]
  cases hd : s.isDecoded with
  | false =>
    rw [if_pos (by simp)]
    exact ⟨⟨rfl, h.good, h.bits, fun _ => h.enc hd, fun e => by cases e⟩, rfl⟩
  | true =>
    have r := encode_run (cl := (crun s.out (fun _ => false, cl₀)).2) (h.dec hd) c
    refine ⟨⟨h.written, h.good.append (good_encode n m), fun b hb => ?_, fun e => ?_, fun e => ?_⟩, rfl⟩
    · show (crun (s.out ++ _) _).2 b = _
      rw [crun_append]
      erw [r.2]
      exact h.bits b hb
    · show Enc n c o.1 (crun (s.out ++ _) _).1
      rw [crun_append]
      exact r.1
    · simp [St.emit, St.decoded] at e

theorem Inv.op {n m c : ℕ} {cl₀ : Bits} {s : St} {o : Bits × Bits} (h : Inv n m c cl₀ s o) (hd : s.isDecoded = false)
    {g : Gate} (hg : g.WF n m) (hop : g.op ≠ .H) :
    Inv n m c cl₀ (s.emit (addOperation n g)) (crun (g.targets.map fun t => .gate g.op g.controls t) o) := by
  have r := op_run (c := c) g.op g.controls (fun c hc => (hg.2.1 c hc).1) g.targets hg.1
    (cl := (crun s.out (fun _ => false, cl₀)).2) (cl' := o.2) (h.enc hd)
  refine ⟨h.written, h.good.append (good_op hg hop), fun b hb => ?_, fun _ => ?_, fun e => ?_⟩
  · show (crun (s.out ++ _) _).2 b = _
    rw [crun_append, show crun (addOperation n g) _ = crun (addOperation n g) ((crun s.out (fun _ => false, cl₀)).1, (crun s.out (fun _ => false, cl₀)).2) from rfl]
    erw [r.2.2, r.2.1]
    exact h.bits b hb
  · show Enc n c _ (crun (s.out ++ _) _).1
    rw [crun_append]
    exact r.1
  · have : s.isDecoded = true := e
    rw [hd] at this; simp at this

theorem Inv.noise {n m c : ℕ} {cl₀ : Bits} {s : St} {o : Bits × Bits} (h : Inv n m c cl₀ s o) (hd : s.isDecoded = false)
    (hc : c < 3) {l : List Instr} (hl : ErrorsOn (fun q => ∃ i < n, q = dat n i c) l) : Inv n m c cl₀ (s.emit l) o := by
  have r := noise_run hl (cl := (crun s.out (fun _ => false, cl₀)).2) (h.enc hd)
  refine ⟨h.written, h.good.append (good_noise hc hl), fun b hb => ?_, fun _ => ?_, fun e => ?_⟩
  · show (crun (s.out ++ _) _).2 b = _
    rw [crun_append]
    erw [r.2]
    exact h.bits b hb
  · show Enc n c _ (crun (s.out ++ _) _).1
    rw [crun_append]
    exact r.1
  · have : s.isDecoded = true := e
    rw [hd] at this; simp at this

theorem Inv.measure {n m c : ℕ} {cl₀ : Bits} {s : St} {o : Bits × Bits} (h : Inv n m c cl₀ s o) (hd : s.isDecoded = true)
    {ts cs : List ℕ} (hts : ∀ t ∈ ts, t < n) (hcs : ∀ t ∈ cs, t < m) :
    Inv n m c cl₀ (s.emit (List.zipWith Instr.measure ts cs)) (crun (List.zipWith Instr.measure ts cs) o) := by
  have hp := h.dec hd
  have r := measure_run (n := n) (m := m) ts cs hts (o := o.1) (p := (crun s.out (fun _ => false, cl₀)).1) (cl' := o.2)
    (cl := (crun s.out (fun _ => false, cl₀)).2) (fun i hi => by have := (hp i hi).1; simpa [dat] using this) h.bits
  refine ⟨h.written, h.good.append (good_measure hts hcs), fun b hb => ?_, fun e => ?_, fun _ => ?_⟩
  · show (crun (s.out ++ _) _).2 b = _
    rw [crun_append]
    exact r.2.2 b hb
  · have : s.isDecoded = false := e
    rw [hd] at this; simp at this
  · show Dec n _ (crun (s.out ++ _) _).1
    rw [crun_append]
    erw [r.1, r.2.1]
    exact hp

theorem Inv.any {n m c : ℕ} {cl₀ : Bits} {s : St} {o : Bits × Bits} (h : Inv n m c cl₀ s o) (hd : s.isDecoded = true) (c' : ℕ) :
    Inv n m c' cl₀ s o := ⟨h.written, h.good, h.bits, fun e => by rw [hd] at e; simp at e, h.dec⟩

theorem Inv.mapGate {n m c : ℕ} {cl₀ : Bits} {s s' : St} {o : Bits × Bits} (h : Inv n m c cl₀ s o) {g : Gate} (hg : g.WF n m)
    (he : mapGate n (Q3.correct n m) g s = .ok s') : Inv n m c cl₀ s' (crun g.instrs o) ∧ (∀ i ∈ g.instrs, i.WF n m ∧ i.Classical) := by
  have hplain : g.op ≠ .measure → g.op ≠ .H → Inv n m c cl₀ (if s.isDecoded && g.op ≠ .measure && g.op ≠ .H then Q3.encode n s else s) o ∧
      (if s.isDecoded && g.op ≠ .measure && g.op ≠ .H then Q3.encode n s else s).isDecoded = false := by
    intro h1 h2
    cases hd : s.isDecoded with
    | true => rw [if_pos (by simp [h1, h2])]; exact h.encode
    | false => exact ⟨h, hd⟩
  have gateWF : g.op ≠ .H → ∀ i ∈ g.targets.map fun t => Instr.gate g.op g.controls t, i.WF n m ∧ i.Classical := by
    intro hop i hi
    obtain ⟨t, ht, rfl⟩ := List.mem_map.1 hi
    exact ⟨⟨hg.1 t ht, fun c hc => ⟨(hg.2.1 c hc).1, fun e => (hg.2.1 c hc).2 (e ▸ ht)⟩⟩, hop⟩
  unfold Q3.mapGate at he
  cases hop : g.op with
  | I | barrier =>
    rw [hop] at he hplain
    have := hplain (by simp) (by simp)
    simp only at he
    cases he
    have e : g.instrs = [] := by simp [Gate.instrs, hop]
    rw [e]
    exact ⟨this.1, fun i hi => by cases hi⟩
  | X | Y | Z | S | Sdg | T | Tdg =>
    have e : g.instrs = g.targets.map fun t => Instr.gate g.op g.controls t := by simp [Gate.instrs, hop]
    have hH : g.op ≠ .H := by simp [hop]
    have := hplain (by simp [hop]) hH
    rw [e]
    refine ⟨?_, gateWF hH⟩
    rw [hop] at he this
    simp only at he
    cases he
    exact this.1.op this.2 hg hH
  | measure =>
    rw [hop] at he
    simp only [ne_eq, not_true_eq_false, decide_false, Bool.and_false, Bool.false_and] at he
    have e : g.instrs = List.zipWith Instr.measure g.targets g.classics := by simp [Gate.instrs, hop]
    rw [e]
    have hl : g.classics.length ≤ g.targets.length := le_of_eq (hg.2.2.2 hop)
    unfold userMeasure at he
    rw [if_pos hl] at he
    have he := Except.ok.inj he
    have hm : Inv n m c cl₀ (beforeMeasure (Q3.correct n m) (Q3.decode n) s) o ∧
        (beforeMeasure (Q3.correct n m) (Q3.decode n) s).isDecoded = true := by
      unfold beforeMeasure
      cases hd : s.isDecoded with
      | true => exact ⟨h, hd⟩
      | false => exact (h.correct 3).decode c
    rw [← he]
    refine ⟨hm.1.measure hm.2 hg.1 hg.2.2.1, fun i hi => ?_⟩
    have : ∀ (ts cs : List ℕ), (∀ t ∈ ts, t < n) → (∀ c ∈ cs, c < m) → ∀ i ∈ List.zipWith Instr.measure ts cs, i.WF n m ∧ i.Classical := by
      intro ts
      induction ts with
      | nil => intro cs _ _ i hi; cases hi
      | cons t ts ih =>
        intro cs h1 h2 i hi
        cases cs with
        | nil => cases hi
        | cons c cs =>
          rcases List.mem_cons.1 hi with rfl | hi
          · exact ⟨⟨h1 t (by simp), h2 c (by simp)⟩, trivial⟩
          · exact ih cs (fun t h => h1 t (by simp [h])) (fun c h => h2 c (by simp [h])) i hi
    exact this _ _ hg.1 hg.2.2.1 i hi
  | H | other => rw [hop] at he; cases he

end Q3

/-! ## The whole circuit -/

/-- The faulty copy may change only when a correction takes place. -/
theorem period_step {freq k : ℕ} (h : ¬ (0 < freq ∧ (k + 1) % freq = 0)) : (k + 1) / freq = k / freq := by
  rcases Nat.eq_zero_or_pos freq with rfl | hf
  · simp
  · have h2 : (k + 1) % freq ≠ 0 := fun e => h ⟨hf, e⟩
    rw [Nat.succ_div, if_neg (fun hd => h2 (Nat.mod_eq_zero_of_dvd hd)), add_zero]

theorem q3_loop {n m freq : ℕ} {c : ℕ → ℕ} (hc : ∀ p, c p < 3) {noise : ℕ → List Instr}
    (hn : ∀ g, ErrorsOn (fun q => ∃ i < n, q = dat n i (c (g / freq))) (noise g)) {cl₀ : Bits} :
    ∀ (gates : List Gate) (k : ℕ) (s : St) (p' : ℕ × St) (o : Bits × Bits), (∀ g ∈ gates, g.WF n m) →
      Q3.Inv n m (c (k / freq)) cl₀ s o →
      loop (σ := ℕ × St)
        (fun g p => ((q3Shor n m).mapGate g p.2).map fun st => (p.1 + 1, if st.isDecoded then st else st.emit (noise p.1)))
        (fun p => (p.1, (q3Shor n m).measureAndCorrect p.2)) freq k gates (k, s) = .ok p' →
      (∃ c', Q3.Inv n m c' cl₀ p'.2 (crun (gates.flatMap Gate.instrs) o)) ∧
        ∀ i ∈ gates.flatMap Gate.instrs, i.WF n m ∧ i.Classical
  | [], k, s, p', o, _, h, he => by
    cases he
    exact ⟨⟨_, h⟩, fun i hi => by cases hi⟩
  | g :: gates, k, s, p', o, hg, h, he => by
    unfold loop at he
    simp only at he
    cases hm : (q3Shor n m).mapGate g s with
    | error e => rw [hm] at he; cases he
    | ok s' =>
      rw [hm] at he
      simp only [Except.map] at he
      obtain ⟨h1, h2⟩ := h.mapGate (hg g (by simp)) hm
      have h3 : Q3.Inv n m (c (k / freq)) cl₀ (if s'.isDecoded then s' else s'.emit (noise k)) (crun g.instrs o) := by
        cases hd : s'.isDecoded with
        | true => exact h1
        | false => exact h1.noise hd (hc _) (hn k)
      have h4 : ∃ s'', periodic (fun p : ℕ × St => (p.1, (q3Shor n m).measureAndCorrect p.2)) freq (k + 1)
          (k + 1, if s'.isDecoded then s' else s'.emit (noise k)) = (k + 1, s'') ∧
          Q3.Inv n m (c ((k + 1) / freq)) cl₀ s'' (crun g.instrs o) := by
        unfold periodic
        split
        · exact ⟨_, rfl, h3.correct _⟩
        · rename_i hp
          rw [period_step hp]
          exact ⟨_, rfl, h3⟩
      obtain ⟨s'', e, h5⟩ := h4
      rw [e] at he
      obtain ⟨h6, h7⟩ := q3_loop hc hn gates (k + 1) s'' p' _ (fun g h => hg g (by simp [h])) h5 he
      rw [List.flatMap_cons, crun_append]
      exact ⟨h6, fun i hi => (List.mem_append.1 hi).elim (h2 i) (h7 i)⟩

/-- **C100**, Q3Shor with bit-flip noise: if between two corrections only one of the three copies is hit (by any number of
Pauli errors on any logical qubits), the results are those of the original circuit: the bits of the user are the same, for
every circuit the encoder accepts, every number of qubits and bits, every correction frequency. -/
theorem C100_q3_noisy [Nontrivial R] (n m freq : ℕ) (gates : List Gate) (hg : ∀ g ∈ gates, g.WF n m) (noise : ℕ → List Instr)
    (copy : ℕ → ℕ) (hcopy : ∀ p, copy p < 3)
    (hnoise : ∀ g, ErrorsOn (fun q => ∃ i < n, q = dat n i (copy (g / freq))) (noise g)) (l : List Instr)
    (hl : (q3Shor n m).applyNoisy freq noise gates = .ok l) :
    SameResults R k n m gates ((q3Shor n m).outputQubits n) l := by
  intro cl
  unfold Scheme.applyNoisy at hl
  cases hlo : loop (σ := ℕ × St)
    (fun g p => ((q3Shor n m).mapGate g p.2).map fun st => (p.1 + 1, if st.isDecoded then st else st.emit (noise p.1)))
    (fun p => (p.1, (q3Shor n m).measureAndCorrect p.2)) freq 0 gates (0, ((q3Shor n m).writeEncoding {}).decoded false) with
  | error e => rw [hlo] at hl; cases hl
  | ok p' =>
    rw [hlo] at hl
    have hl := Except.ok.inj hl
    have h0 : Q3.Inv n m (copy (0 / freq)) cl (((q3Shor n m).writeEncoding {}).decoded false) (fun _ => false, cl) :=
      ⟨rfl, fun i hi => (by cases hi), fun _ _ => rfl, fun _ _ _ _ _ _ => rfl, fun e => (by cases e)⟩
    obtain ⟨⟨c', hi⟩, hw⟩ := q3_loop hcopy hnoise (cl₀ := cl) gates 0 _ p' (fun _ => false, cl) hg h0 hlo
    have hfin : ∃ c'' o', Q3.Inv n m c'' cl ((q3Shor n m).finish p'.2) (o', (crun (gates.flatMap Gate.instrs) (fun _ => false, cl)).2) := by
      unfold Scheme.finish
      cases hd : p'.2.isDecoded with
      | true => exact ⟨c', _, hi⟩
      | false =>
        have h2 := ((hi.correct 3).decode 3)
        exact ⟨3, _, ⟨h2.1.written, h2.1.good, h2.1.bits, fun e => (by cases e), fun _ => h2.1.dec h2.2⟩⟩
    obtain ⟨c'', o', hf⟩ := hfin
    have hgood : ∀ i ∈ l, i.WF (n * 3 + 2) (m + 2) ∧ i.Classical := by
      rw [← hl]; exact hf.good
    obtain ⟨o1, o2⟩ := classical_result k hw cl
    have hor := fun r => mapped_original k (n := n) (expand_id fun g hg => (hw _ hg).2) cl r
    rw [hor] at o1
    simp only [hor] at o2
    obtain ⟨p1, p2⟩ := classical_result k hgood cl
    refine ⟨⟨_, o1⟩, ⟨_, p1⟩, fun r r' hr hr' b hb => ?_⟩
    rw [o2 r hr, p2 r' hr']
    have := hf.bits b hb
    rw [show ((q3Shor n m).finish p'.2).out = l from hl] at this
    exact this.symm

/-- Without noise `applyNoisy` is `apply`. -/
theorem applyNoisy_nil (sch : Scheme) (freq : ℕ) (gates : List Gate) :
    sch.applyNoisy freq (fun _ => []) gates = sch.apply freq gates := by
  have key : ∀ (gates : List Gate) (k j : ℕ) (s : St),
      loop (σ := ℕ × St)
        (fun g p => (sch.mapGate g p.2).map fun st => (p.1 + 1, if st.isDecoded then st else st.emit []))
        (fun p => (p.1, sch.measureAndCorrect p.2)) freq k gates (j, s) =
      (loop sch.mapGate sch.measureAndCorrect freq k gates s).map fun s' => (j + gates.length, s') := by
    intro gates
    induction gates with
    | nil => intro k j s; rfl
    | cons g gates ih =>
      intro k j s
      unfold loop
      simp only
      cases hm : sch.mapGate g s with
      | error e => rfl
      | ok s' =>
        have e : (if s'.isDecoded then s' else s'.emit []) = s' := by
          split
          · rfl
          · cases s'; simp [St.emit]
        have e2 : periodic (fun p : ℕ × St => (p.1, sch.measureAndCorrect p.2)) freq (k + 1) (j + 1, s') =
            (j + 1, periodic sch.measureAndCorrect freq (k + 1) s') := by
          unfold periodic
          split <;> rfl
        change loop _ _ freq (k + 1) gates (periodic _ freq (k + 1) (j + 1, if s'.isDecoded then s' else s'.emit [])) = _
        rw [e, e2, ih, List.length_cons, Nat.add_assoc, Nat.add_comm 1]
  unfold Scheme.applyNoisy Scheme.apply
  rw [key]
  cases loop sch.mapGate sch.measureAndCorrect freq 0 gates ((sch.writeEncoding {}).decoded false) <;> rfl

/-- **C100**, Q3Shor: the encoded circuit gives the results of the original circuit. -/
theorem C100_q3 [Nontrivial R] (n m freq : ℕ) (gates : List Gate) (hg : ∀ g ∈ gates, g.WF n m) (l : List Instr)
    (hl : (q3Shor n m).apply freq gates = .ok l) : SameResults R k n m gates ((q3Shor n m).outputQubits n) l :=
  C100_q3_noisy k n m freq gates hg (fun _ => []) (fun _ => 0) (fun _ => by decide)
    (fun _ i hi => by cases hi) l (by rw [applyNoisy_nil]; exact hl)

/-- **C100**, Id: the mapped circuit has the results of the original one. -/
theorem C100_id (n freq : ℕ) (gates : List Gate) (l : List Instr) (hl : idScheme.apply freq gates = .ok l) (cl r : Bits) :
    MappedResult R k (idScheme.outputQubits n) l cl r ↔ OriginalResult R k n gates cl r := by
  have key : ∀ (gates : List Gate) (j : ℕ) (s : St), loop idScheme.mapGate idScheme.measureAndCorrect freq j gates s =
      .ok (s.emit (gates.map Instr.clone)) := by
    intro gates
    induction gates with
    | nil => intro j s; cases s; simp [loop, St.emit]
    | cons g gates ih =>
      intro j s
      have e : periodic idScheme.measureAndCorrect freq (j + 1) (s.emit [Instr.clone g]) = s.emit [Instr.clone g] := by
        unfold periodic
        split <;> rfl
      change loop _ _ freq (j + 1) gates (periodic _ freq (j + 1) (s.emit [Instr.clone g])) = _
      rw [e, ih]
      simp [St.emit]
  unfold Scheme.apply at hl
  rw [key] at hl
  have hl := Except.ok.inj hl
  have e : l = gates.map Instr.clone := by rw [← hl]; simp [Scheme.finish, St.emit, St.decoded, idScheme]
  have hN : idScheme.outputQubits n = n := by simp [Scheme.outputQubits, idScheme]
  rw [hN]
  apply mapped_original
  rw [e, expand, List.flatMap_map]

example : ∃ l, idScheme.apply 5 [{ op := .H, targets := [0] }, { op := .measure, targets := [0], classics := [0] }] = .ok l := ⟨_, rfl⟩

/-- A circuit with a Toffoli gate, a measurement in the middle, and gates after it; one correction after every two gates and
noise on changing copies. -/
def c100Gates : List Gate :=
  [{ op := .X, targets := [0] }, { op := .X, targets := [1] }, { op := .X, controls := [(0, true), (1, true)], targets := [2] },
   { op := .measure, targets := [2], classics := [0] }, { op := .T, targets := [0] },
   { op := .Y, controls := [(2, true)], targets := [1] }, { op := .measure, targets := [0, 1], classics := [1, 2] }]

def c100Noise (g : ℕ) : List Instr := if g = 1 then [.gate .X [] 1, .gate .Y [] 2] else if g = 5 then [.gate .X [] 6] else []

example [Nontrivial R] : ∃ l, (q3Shor 3 3).applyNoisy 2 c100Noise c100Gates = .ok l ∧
    SameResults R k 3 3 c100Gates ((q3Shor 3 3).outputQubits 3) l := by
  refine ⟨_, rfl, C100_q3_noisy k 3 3 2 c100Gates ?_ c100Noise (fun p => if p = 2 then 2 else 0) (fun p => by split <;> decide) ?_ _ rfl⟩
  · unfold c100Gates
    simp [Gate.WF]
  · intro g
    unfold c100Noise ErrorsOn
    split
    · rename_i h
      subst h
      simp [dat]
    · split
      · rename_i h
        subst h
        simp [dat]
      · simp

/-- The result of that circuit: the Toffoli gate gives 1, and the controlled Y turns qubit 1 back to 0. -/
example : ∀ b < 3, (crun (c100Gates.flatMap Gate.instrs) (fun _ => false, fun _ => false)).2 b = ([true, true, false].getD b false) := by
  decide

/-- One faulty copy per period is needed: two bit flips on different copies of one logical qubit change the result. -/
theorem C100_two_copies [Nontrivial R] : ∃ (noise : ℕ → List Instr) (gates : List Gate) (l : List Instr),
    (∀ g ∈ gates, g.WF 1 1) ∧ (∀ g, ErrorsOn (fun q => q < 3) (noise g)) ∧ (q3Shor 1 1).applyNoisy 0 noise gates = .ok l ∧
    ¬ SameResults R k 1 1 gates 5 l := by
  refine ⟨fun _ => [.gate .X [] 0, .gate .X [] 1], [{ op := .I, targets := [0] }, { op := .measure, targets := [0], classics := [0] }],
    [.gate .X [] 0, .gate .X [] 1] ++ Q3.correctBlock (dat 1 0) (fun j => 1 * 3 + j) 1 ++ Q3.decodeBlock (dat 1 0) ++ [.measure 0 0],
    by simp [Gate.WF], fun g => by simp [ErrorsOn], rfl, fun h => ?_⟩
  obtain ⟨-, -, h⟩ := h fun _ => false
  have e1 := (classical_result k (N := 1) (M := 1) (l := [Instr.measure 0 0]) (by simp [Instr.WF, Instr.Classical]) fun _ => false).1
  rw [mapped_original k (gates := [{ op := .I, targets := [0] }, { op := .measure, targets := [0], classics := [0] }]) rfl] at e1
  have e2 := (classical_result (R := R) k (N := 5) (M := 3)
    (l := [.gate .X [] 0, .gate .X [] 1] ++ Q3.correctBlock (dat 1 0) (fun j => 1 * 3 + j) 1 ++ Q3.decodeBlock (dat 1 0) ++ [.measure 0 0])
    (cl := fun _ => false) (by simp [Instr.WF, Instr.Classical, Q3.correctBlock, Q3.decodeBlock, cx, ccx, dat])).1
  have := h _ _ e1 e2 0 (by decide)
  revert this
  decide

end Verif.Ecc
