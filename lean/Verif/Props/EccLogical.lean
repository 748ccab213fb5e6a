import Verif.Lemmas.EccLogical2
import Verif.Props.EccCorrect

/-!
# Logical gates (C103)

The definitions `encoded` and `ActsAs` are in Verif/Spec/EccLogical.lean.
-/

namespace Verif.Ecc
open scoped BigOperators
variable {R : Type} [CommRing R] (k : Consts R)

/-- **C103**, the full claim: what a scheme writes for a gate it accepts acts on encoded states as that gate. -/
def C103_claim (R : Type) [CommRing R] (k : Consts R) (sch : ℕ → ℕ → Scheme) (W : CodeWords) : Prop :=
  ∀ (n m : ℕ) (g : Gate), g.WF n m → g.op ≠ .measure → MapsGate k sch W n m g

/-! ## The words belong to the codes, and states can be told apart -/

theorem q3_local : q3Words.Local 3 := css_local (by decide)
theorem q7_local : q7Words.Local 7 := css_local (by decide)
theorem s9_local : s9Words.Local 9 := css_local (by decide)
theorem q5_local : q5Words.Local 5 := fun b y z h => by
  unfold q5Words
  rw [parity_congr (r := 5) (by decide) h, h 0 (by decide), h 1 (by decide), h 2 (by decide), h 3 (by decide), h 4 (by decide)]
theorem q9_local : q9Words.Local 9 := fun b y z h => by
  unfold q9Words
  rw [parity_congr (r := 9) (by decide) h, h 0 (by decide), h 1 (by decide), h 2 (by decide), h 3 (by decide), h 4 (by decide),
    h 5 (by decide), h 6 (by decide), h 7 (by decide), h 8 (by decide)]

/-- A string as a list of gates. -/
def stringGates (g : List Op) : List LGate := g.zipIdx.reverse.map fun p => (p.1, [], p.2)

theorem stringAct_gates (n t : ℕ) (g : List Op) (ψ : State R) :
    stringAct k (fun j => dat n t (id j)) g ψ = uact k ((stringGates g).map (LGate.at n t)) ψ := by
  unfold stringAct stringGates uact
  rw [List.map_map, List.foldl_map, List.foldl_reverse]
  rfl

/-- Encoded states are states of the code. -/
theorem encoded_code {W : CodeWords} {r : ℕ} (hW : W.Local r) {gens : List (List Op)}
    (h : gens.all (fun g => checkBlock W r (stringGates g) .I 0) = true) (n : ℕ) (φ : State R) :
    CodeState k n id gens (encoded W n φ) := by
  intro i hi g hg
  rw [stringAct_gates, block_gate k hW (List.all_eq_true.1 h g hg) hi, pow_zero, one_smul]
  rfl

/-- Sums over the words of a block that single out one logical value. -/
def dual (W : CodeWords) (y : Bool → Bits) (D : Bool → Bool → ℤ) (N : ℤ) : Bool :=
  [false, true].all fun β => [false, true].all fun β' =>
    (D β false * W β' (y false) + D β true * W β' (y true)) == if β = β' then N else 0

theorem encoded_dual {W : CodeWords} {y : Bool → Bits} {D : Bool → Bool → ℤ} {N : ℤ} (h : dual W y D N = true) {n : ℕ} (φ : State R)
    (b : Fin n → Bool) :
    ∑ a : Fin n → Bool, (∏ i, ((D (b i) (a i) : ℤ) : R)) * encoded W n φ (fun q => if hq : q % n < n then y (a ⟨q % n, hq⟩) (q / n) else false) =
      (N : R) ^ n * φ (ext b) := by
  have hblk : ∀ (a : Fin n → Bool) (i : Fin n), blk n i (fun q => if hq : q % n < n then y (a ⟨q % n, hq⟩) (q / n) else false) = y (a i) := by
    intro a i
    funext j
    have h1 : dat n i j % n = i := by unfold dat; rw [Nat.add_mul_mod_self_right, Nat.mod_eq_of_lt i.2]
    have h2 : dat n i j / n = j := by
      unfold dat
      rw [Nat.add_mul_div_right _ _ (by have := i.2; omega), Nat.div_eq_of_lt i.2, Nat.zero_add]
    simp [blk, h1, h2]
  simp only [encoded_apply, prodW, hblk]
  have e : ∀ a : Fin n → Bool, (∏ i, ((D (b i) (a i) : ℤ) : R)) * ∑ b' : Fin n → Bool, (∏ i, ((W (b' i) (y (a i)) : ℤ) : R)) * φ (ext b') =
      ∑ b' : Fin n → Bool, (∏ i, ((D (b i) (a i) * W (b' i) (y (a i)) : ℤ) : R)) * φ (ext b') := fun a => by
    rw [Finset.mul_sum]
    refine Finset.sum_congr rfl fun b' _ => ?_
    simp only [Int.cast_mul]
    rw [Finset.prod_mul_distrib]
    ring
  rw [Finset.sum_congr rfl fun a _ => e a, Finset.sum_comm]
  have e2 : ∀ b' : Fin n → Bool, ∑ a : Fin n → Bool, (∏ i, ((D (b i) (a i) * W (b' i) (y (a i)) : ℤ) : R)) * φ (ext b') =
      if b' = b then (N : R) ^ n * φ (ext b) else 0 := fun b' => by
    rw [← Finset.sum_mul]
    have e3 : ∑ a : Fin n → Bool, ∏ i, ((D (b i) (a i) * W (b' i) (y (a i)) : ℤ) : R) =
        ∏ i, ∑ v : Bool, ((D (b i) v * W (b' i) (y v) : ℤ) : R) := by
      rw [Finset.prod_univ_sum, Fintype.piFinset_univ]
    have e4 : ∀ i, ∑ v : Bool, ((D (b i) v * W (b' i) (y v) : ℤ) : R) = if b i = b' i then (N : R) else 0 := fun i => by
      rw [Fintype.sum_bool, ← Int.cast_add, add_comm]
      have := List.all_eq_true.1 (List.all_eq_true.1 h (b i) (by cases b i <;> simp)) (b' i) (by cases b' i <;> simp)
      rw [beq_iff_eq] at this
      rw [this]
      split <;> simp
    rw [e3, Finset.prod_congr rfl fun i _ => e4 i]
    by_cases hb : b' = b
    · subst hb
      simp
    · rw [if_neg hb]
      obtain ⟨i, hi⟩ := Function.ne_iff.1 hb
      rw [Finset.prod_eq_zero (Finset.mem_univ i) (if_neg fun e => hi e.symm), zero_mul]
  rw [Finset.sum_congr rfl fun b' _ => e2 b', Finset.sum_ite_eq' Finset.univ b]
  simp

theorem encoded_inj {W : CodeWords} {y : Bool → Bits} {D : Bool → Bool → ℤ} {N : ℤ} (h : dual W y D N = true) {u : R} (hN : u * (N : R) = 1)
    {n : ℕ} {φ φ' : State R} (he : encoded W n φ = encoded W n φ') (b : Fin n → Bool) : φ (ext b) = φ' (ext b) := by
  have h1 := encoded_dual (R := R) h φ b
  have h2 := encoded_dual (R := R) h φ' b
  rw [he, h2] at h1
  have hu : u ^ n * (N : R) ^ n = 1 := by rw [← mul_pow, hN, one_pow]
  linear_combination (φ' (ext b) - φ (ext b)) * hu + (-u ^ n) * h1

def bitRep (l : List ℕ) : Bits := fun j => decide (j ∈ l)
/-- The word of zeros and a word with the logical value 1. -/
def reps (l : List ℕ) : Bool → Bits := fun b => if b then bitRep l else fun _ => false
def plainD : Bool → Bool → ℤ := fun a b => if a = b then 1 else 0
def signD : Bool → Bool → ℤ := fun a b => if a && b then -1 else 1

/-- The words of the specification are those of the codes: encoded states are fixed by the generators of the codes (those of
C56), and different states have different encodings. -/
theorem C103_codes (n : ℕ) (φ φ' : State R) :
    (CodeState k n id q3Gens (encoded q3Words n φ) ∧ CodeState k n id q5Gens (encoded q5Words n φ) ∧
      CodeState k n id q7Gens (encoded q7Words n φ) ∧ CodeState k n id q9Gens (encoded q9Words n φ) ∧
      CodeState k n id s9Gens (encoded s9Words n φ)) ∧
    (∀ W ∈ [q3Words, q5Words, q7Words, q9Words, s9Words], encoded W n φ = encoded W n φ' → ∀ b : Fin n → Bool, φ (ext b) = φ' (ext b)) := by
  refine ⟨⟨encoded_code k q3_local (by decide +kernel) n φ, encoded_code k q5_local (by decide +kernel) n φ,
    encoded_code k q7_local (by decide +kernel) n φ, encoded_code k q9_local (by decide +kernel) n φ,
    encoded_code k s9_local (by decide +kernel) n φ⟩, fun W hW he b => ?_⟩
  have h1 : (1 : R) * ((1 : ℤ) : R) = 1 := by simp
  have h2 : (2 * k.s * k.s * k.s * k.s) * ((2 : ℤ) : R) = 1 := by
    have := k.hs
    push_cast
    linear_combination (2 * k.s * k.s + 1) * this
  simp only [List.mem_cons, List.not_mem_nil, or_false] at hW
  rcases hW with rfl | rfl | rfl | rfl | rfl
  · exact encoded_inj (y := reps [0, 1, 2]) (D := plainD) (by decide) h1 he b
  · exact encoded_inj (y := reps [0, 1, 2, 3, 4]) (D := plainD) (by decide) h1 he b
  · exact encoded_inj (y := reps [0, 1, 2]) (D := plainD) (by decide) h1 he b
  · exact encoded_inj (y := reps [0, 1, 2]) (D := signD) (by decide) h2 he b
  · exact encoded_inj (y := reps [2, 4, 6]) (D := plainD) (by decide) h1 he b

/-! ## Q5Laflamme -/

theorem q5_block {op : Op} (hop : op = .X ∨ op = .Y ∨ op = .Z) {n t : ℕ} (ht : t < n) (φ : State R) :
    uact k ((List.range 5).map fun j => .gate op [] (dat n t j)) (encoded q5Words n φ) = encoded q5Words n (opAct k op t φ) := by
  have e : ((List.range 5).map fun j => Instr.gate op [] (dat n t j)) = ((List.range 5).map fun j => ((op, [], j) : LGate)).map (LGate.at n t) := rfl
  have h : ∀ op ∈ [Op.X, Op.Y, Op.Z], checkBlock q5Words 5 ((List.range 5).map fun j => ((op, [], j) : LGate)) op 0 = true := by decide +kernel
  rw [e, block_gate k q5_local (h op (by rcases hop with rfl | rfl | rfl <;> decide)) ht, pow_zero, one_smul]

theorem mem_gate {l : List ℕ} {f : ℕ → Instr} (hf : ∀ j, (f j).Unitary = true) : ∀ i ∈ l.map f, i.Unitary = true := fun i hi => by
  obtain ⟨j, -, rfl⟩ := List.mem_map.1 hi
  exact hf j

/-- **C103**, Q5Laflamme: every gate that the scheme accepts acts as the logical gate. -/
theorem C103_q5 : C103_claim R k q5Laflamme q5Words := by
  intro n m g hg hm s s' hs h
  change Q5.mapGate n m _ g s = _ at h
  unfold Q5.mapGate at h
  rw [hs, Bool.false_and, Bool.false_and] at h
  simp only [Bool.false_eq_true, if_false] at h
  have pauli : g.op = .X ∨ g.op = .Y ∨ g.op = .Z → (if g.targets ≠ [] ∧ g.controls ≠ [] then Except.error EccErr.gateNotAvailable
      else Except.ok (s.emit (Q5.transversal n g))) = .ok s' → ∃ l, s'.out = s.out ++ l ∧ ActsAs k q5Words n l g := by
    intro hop h
    split at h
    · cases h
    · rename_i hc
      obtain rfl := Except.ok.inj h
      refine ⟨_, rfl, actsAs_targets k (by rcases hop with e | e | e <;> rw [e] <;> decide) (u := 1) (one_pow 4)
        (fun t _ => mem_gate fun _ => rfl) fun t ht φ => ?_⟩
      have hcs : g.controls = [] := by
        by_contra hne
        exact hc ⟨List.ne_nil_of_mem ht, hne⟩
      rw [hcs, gateAct_nil, one_smul]
      exact q5_block k hop (hg.1 t ht) φ
  split at h
  · rename_i e; exact ⟨[], by obtain rfl := Except.ok.inj h; simp, actsAs_nil k _ (.inl e)⟩
  · rename_i e; exact ⟨[], by obtain rfl := Except.ok.inj h; simp, actsAs_nil k _ (.inr e)⟩
  · rename_i e; exact pauli (.inl e) h
  · rename_i e; exact pauli (.inr (.inl e)) h
  · rename_i e; exact pauli (.inr (.inr e)) h
  · exact absurd ‹_› hm
  · cases h

example : ∃ l, ActsAs k q5Words 2 l { op := .Y, targets := [0, 1] } ∧ ∃ s', (q5Laflamme 2 0).mapGate { op := .Y, targets := [0, 1] } { isDecoded := false } = .ok s' ∧ s'.out = l :=
  have h := C103_q5 k 2 0 { op := .Y, targets := [0, 1] } (by simp [Gate.WF]) (by decide) { isDecoded := false } _ rfl rfl
  ⟨_, h.choose_spec.2, _, rfl, h.choose_spec.1⟩

/-! ## Q3Shor -/

theorem q3_word {β : Bool} {y : Bits} (h : q3Words β y ≠ 0) : ∀ j < 3, y j = β := by
  unfold q3Words cssWords at h
  split at h
  · rename_i hh
    simp only [parity, List.all_cons, List.all_nil, List.foldr_cons, List.foldr_nil] at hh
    intro j hj
    have : j = 0 ∨ j = 1 ∨ j = 2 := by omega
    revert hh
    rcases this with rfl | rfl | rfl <;> cases y 0 <;> cases y 1 <;> cases y 2 <;> cases β <;> decide
  · exact absurd rfl h

theorem q3_flip (p β : Bool) (y : Bits) : q3Words β (fun j => y j ^^ p) = q3Words (β ^^ p) y := by
  unfold q3Words cssWords
  have h : (([[0, 1], [1, 2]].all fun c => !parity c fun j => y j ^^ p) && parity [0] (fun j => y j ^^ p) == β) =
      (([[0, 1], [1, 2]].all fun c => !parity c y) && parity [0] y == (β ^^ p)) := by
    simp only [parity, List.all_cons, List.all_nil, List.foldr_cons, List.foldr_nil]
    cases y 0 <;> cases y 1 <;> cases y 2 <;> cases β <;> cases p <;> rfl
  rw [h]

theorem q3_holds {n : ℕ} {cs : List (ℕ × Bool)} {b : Fin n → Bool} {x : Bits}
    (hw : ∀ c ∈ cs, ∃ hc : c.1 < n, q3Words (b ⟨c.1, hc⟩) (blk n c.1 x) ≠ 0) {j : ℕ} (hj : j < 3) :
    holds (Q3.copyControls n j cs) x = holds cs (ext b) := by
  rw [holds_copy, holds, Bool.eq_iff_iff, List.all_eq_true, List.all_eq_true]
  refine forall₂_congr fun c hc => ?_
  obtain ⟨hcn, hc0⟩ := hw c hc
  rw [q3_word hc0 j hj, ← ext_fin b ⟨c.1, hcn⟩]

theorem holds_flipAt {n : ℕ} {t : Fin n} {cs : List (ℕ × Bool)} (hcs : ∀ c ∈ cs, c.1 ≠ t) (f : Bool) (b : Fin n → Bool) :
    holds cs (ext (flipAt f t b)) = holds cs (ext b) := by
  rw [ext_flipAt]
  split
  · exact holds_flip (fun h => by obtain ⟨c, hc, e⟩ := List.mem_map.1 h; exact hcs c hc e) _
  · rfl

theorem q3_x {n t : ℕ} (ht : t < n) {cs : List (ℕ × Bool)} (hcs : ∀ c ∈ cs, c.1 < n ∧ c.1 ≠ t) (φ : State R) :
    uact k ((List.range 3).map fun j => .gate .X (Q3.copyControls n j cs) (dat n t j)) (encoded q3Words n φ) =
      encoded q3Words n (gateAct k .X cs t φ) := by
  let T : Fin n := ⟨t, ht⟩
  rw [← one_smul R (encoded q3Words n (gateAct k .X cs t φ))]
  refine encoded_mono (G := gateAct k .X cs t) (c := fun _ => 1) (π := fun x => setBlk n t (condX n t cs (List.range 3) x) x)
    (d := fun _ => 1) (ρ := fun b => flipAt (holds cs (ext b)) T b)
    (fun ψ x => by rw [transversal_x k ht hcs List.nodup_range, one_mul]) (fun b => ?_) (fun φ b => ?_) (fun x b => ?_) φ
  · show flipAt (holds cs (ext (flipAt _ T b))) T (flipAt _ T b) = b
    rw [holds_flipAt (t := T) fun c hc => (hcs c hc).2, flipAt_inv]
  · rw [ext_flipAt, one_mul]
    unfold gateAct
    split <;> rfl
  · rw [one_mul, one_mul, mul_one, prodW_split q3Words T, prodW_split q3Words T _ x]
    have e1 : ∏ i ∈ Finset.univ.erase T, ((q3Words (b i) (blk n i (setBlk n t (condX n t cs (List.range 3) x) x)) : ℤ) : R) =
        ∏ i ∈ Finset.univ.erase T, ((q3Words (b i) (blk n i x) : ℤ) : R) := by
      refine Finset.prod_congr rfl fun i hi => ?_
      rw [blk_set_other i.2 fun e => (Finset.mem_erase.1 hi).1 (Fin.ext e)]
    have e2 : ∏ i ∈ Finset.univ.erase T, ((q3Words (flipAt (holds cs (ext b)) T b i) (blk n i x) : ℤ) : R) =
        ∏ i ∈ Finset.univ.erase T, ((q3Words (b i) (blk n i x) : ℤ) : R) := by
      refine Finset.prod_congr rfl fun i hi => ?_
      rw [flipAt, Function.update_of_ne (Finset.mem_erase.1 hi).1]
    rw [e1, e2]
    by_cases hz : ∃ i ∈ Finset.univ.erase T, q3Words (b i) (blk n i x) = 0
    · obtain ⟨i, hi, h0⟩ := hz
      rw [Finset.prod_eq_zero hi (by rw [h0, Int.cast_zero]), mul_zero, mul_zero]
    · have hw : ∀ c ∈ cs, ∃ hc : c.1 < n, q3Words (b ⟨c.1, hc⟩) (blk n c.1 x) ≠ 0 := fun c hc =>
        ⟨(hcs c hc).1, fun h0 => hz ⟨⟨c.1, (hcs c hc).1⟩, Finset.mem_erase.2 ⟨fun e => (hcs c hc).2 (congrArg Fin.val e), Finset.mem_univ _⟩, h0⟩⟩
      congr 1
      have e3 : flipAt (holds cs (ext b)) T b T = (b T ^^ holds cs (ext b)) := by simp [flipAt]
      rw [e3]
      show ((q3Words (b T) (blk n t _) : ℤ) : R) = _
      rw [blk_set ht, ← q3_flip]
      refine congrArg _ (q3_local _ _ _ fun j hj => ?_)
      show (_ ^^ _) = (blk n t x j ^^ _)
      rw [q3_holds hw hj, decide_eq_true (List.mem_range.2 hj), Bool.true_and]

theorem q3_z {n t : ℕ} (ht : t < n) {cs : List (ℕ × Bool)} (hcs : ∀ c ∈ cs, c.1 < n ∧ c.1 ≠ t) (φ : State R) :
    uact k ((List.range 3).map fun j => .gate .Z (Q3.copyControls n j cs) (dat n t j)) (encoded q3Words n φ) =
      encoded q3Words n (gateAct k .Z cs t φ) := by
  let T : Fin n := ⟨t, ht⟩
  rw [← one_smul R (encoded q3Words n (gateAct k .Z cs t φ))]
  refine encoded_mono (G := gateAct k .Z cs t) (π := id) (d := fun b => sgn (holds cs (ext b) && b T)) (ρ := id)
    (fun ψ x => transversal_z k n t cs (List.range 3) ψ x) (fun b => rfl) (fun φ b => ?_) (fun x b => ?_) φ
  · unfold gateAct
    have : opAct k .Z t φ (ext b) = sgn (b T) * φ (ext b) := by rw [← ext_fin b T]; rfl
    rw [this]
    cases holds cs (ext b) <;> simp
  · by_cases hz : ∃ i, q3Words (b i) (blk n i x) = 0
    · obtain ⟨i, h0⟩ := hz
      have : prodW R q3Words n b x = 0 := Finset.prod_eq_zero (Finset.mem_univ i) (by rw [h0, Int.cast_zero])
      simp [this]
    · have hz : ∀ i : Fin n, q3Words (b i) (blk n i x) ≠ 0 := fun i h0 => hz ⟨i, h0⟩
      have hw : ∀ c ∈ cs, ∃ hc : c.1 < n, q3Words (b ⟨c.1, hc⟩) (blk n c.1 x) ≠ 0 := fun c hc => ⟨(hcs c hc).1, hz _⟩
      have e : ((List.range 3).map fun j => (sgn (holds (Q3.copyControls n j cs) x && blk n t x j) : R)) =
          (List.range 3).map fun _ => sgn (holds cs (ext b) && b T) := by
        refine List.map_congr_left fun j hj => ?_
        rw [q3_holds hw (List.mem_range.1 hj)]
        congr 2
        exact q3_word (hz T) j (List.mem_range.1 hj)
      rw [e]
      show _ = 1 * (_ * sgn (holds cs (ext b) && b T))
      cases (holds cs (ext b) && b T) <;> simp [List.range_succ]

theorem q3_y {n t : ℕ} (ht : t < n) (φ : State R) :
    uact k ((List.range 3).map fun j => .gate .Y [] (dat n t j)) (encoded q3Words n φ) = k.ω ^ 4 • encoded q3Words n (opAct k .Y t φ) := by
  have e : ((List.range 3).map fun j => Instr.gate .Y [] (dat n t j)) = ((List.range 3).map fun j => ((.Y, [], j) : LGate)).map (LGate.at n t) := rfl
  rw [e, block_gate k q3_local (u := 4) (op := .Y) (by decide +kernel) ht]

theorem omega4 {e : ℕ} (he : e % 2 = 0) : (k.ω ^ e) ^ 4 = 1 := by
  rw [← pow_mul, ← pow_zero k.ω]
  exact omega_mod k (by omega)

/-- **C103**, Q3Shor.  What is missing: S, S†, T and T†, and Y with controls; the claim fails there (`C103_violated_q3_s`,
`C103_violated_q3_cy`). -/
theorem C103_q3_partial (n m : ℕ) (g : Gate) (hg : g.WF n m)
    (hop : g.op = .I ∨ g.op = .barrier ∨ g.op = .X ∨ g.op = .Z ∨ (g.op = .Y ∧ g.controls = [])) :
    MapsGate k q3Shor q3Words n m g := by
  intro s s' hs h
  change Q3.mapGate n _ g s = _ at h
  unfold Q3.mapGate at h
  rw [hs, Bool.false_and, Bool.false_and] at h
  simp only [Bool.false_eq_true, if_false] at h
  have hcs : ∀ t ∈ g.targets, ∀ c ∈ g.controls, c.1 < n ∧ c.1 ≠ t := fun t ht c hc =>
    ⟨(hg.2.1 c hc).1, fun e => (hg.2.1 c hc).2 (e ▸ ht)⟩
  rcases hop with e | e | e | e | ⟨e, hc⟩ <;> rw [e] at h <;> simp only at h <;> obtain rfl := Except.ok.inj h
  · exact ⟨[], by simp, actsAs_nil k _ (.inl e)⟩
  · exact ⟨[], by simp, actsAs_nil k _ (.inr e)⟩
  · refine ⟨_, rfl, actsAs_targets k (by rw [e]; decide) (u := 1) (one_pow 4) (fun t _ => mem_gate fun _ => rfl) fun t ht φ => ?_⟩
    rw [one_smul, e]
    exact q3_x k (hg.1 t ht) (hcs t ht) φ
  · refine ⟨_, rfl, actsAs_targets k (by rw [e]; decide) (u := 1) (one_pow 4) (fun t _ => mem_gate fun _ => rfl) fun t ht φ => ?_⟩
    rw [one_smul, e]
    exact q3_z k (hg.1 t ht) (hcs t ht) φ
  · refine ⟨_, rfl, actsAs_targets k (by rw [e]; decide) (u := k.ω ^ 4) (omega4 k rfl) (fun t _ => mem_gate fun _ => rfl) fun t ht φ => ?_⟩
    rw [e, hc, gateAct_nil]
    exact q3_y k (hg.1 t ht) φ

/-- A Toffoli gate with a negative control. -/
example : ∃ s', (q3Shor 3 0).mapGate { op := .X, controls := [(0, true), (1, false)], targets := [2] } { isDecoded := false } = .ok s' ∧
    ∃ l, s'.out = [] ++ l ∧ ActsAs k q3Words 3 l { op := .X, controls := [(0, true), (1, false)], targets := [2] } :=
  ⟨_, rfl, C103_q3_partial k 3 0 _ (by simp [Gate.WF]) (by simp) { isDecoded := false } _ rfl rfl⟩

end Verif.Ecc
