import Verif.Lemmas.EccLogical

/-! # Logical gates: controlled gates and Hadamard gates -/

namespace Verif.Ecc
open scoped BigOperators
variable {R : Type} [CommRing R] (k : Consts R)

/-! ## Lists of targets -/

theorem gate_instrs {g : Gate} (h : g.op ≠ .I ∧ g.op ≠ .barrier ∧ g.op ≠ .measure) :
    g.instrs = g.targets.map fun t => .gate g.op g.controls t := by
  obtain ⟨h1, h2, h3⟩ := h
  unfold Gate.instrs
  split <;> first | contradiction | rfl

theorem actsAs_targets {W : CodeWords} {n : ℕ} {g : Gate} (hop : g.op ≠ .I ∧ g.op ≠ .barrier ∧ g.op ≠ .measure)
    {b : ℕ → List Instr} {u : R} (hu : u ^ 4 = 1) (hb : ∀ t ∈ g.targets, ∀ i ∈ b t, i.Unitary = true)
    (h : ∀ t ∈ g.targets, ∀ φ : State R, uact k (b t) (encoded W n φ) = u • encoded W n (gateAct k g.op g.controls t φ)) :
    ActsAs k W n (g.targets.flatMap b) g := by
  have hun : ∀ i ∈ g.instrs, i.Unitary = true := by
    rw [gate_instrs hop]
    intro i hi
    obtain ⟨t, -, rfl⟩ := List.mem_map.1 hi
    rfl
  refine ⟨u ^ g.targets.length, by rw [← pow_mul, mul_comm, pow_mul, hu, one_pow], fun φ φ' cl cl' hbr c' => ?_⟩
  rw [branch_unitary k hun] at hbr
  rw [branch_unitary k fun i hi => by
    obtain ⟨t, ht, hi⟩ := List.mem_flatMap.1 hi
    exact hb t ht i hi]
  obtain ⟨rfl, rfl⟩ := Prod.mk.inj hbr
  suffices ∀ φ : State R, uact k (g.targets.flatMap b) (encoded W n φ) = u ^ g.targets.length • encoded W n (uact k g.instrs φ) by
    rw [this]
  rw [gate_instrs hop]
  clear hbr hun hb
  revert h
  induction g.targets with
  | nil => intro _ φ; simp
  | cons t ts ih =>
    intro h φ
    rw [List.flatMap_cons, uact_append, h t (by simp), uact_smul, ih (fun t ht => h t (by simp [ht])), smul_smul, List.map_cons, uact_cons]
    rw [List.length_cons, pow_succ']
    rfl

theorem actsAs_nil (W : CodeWords) {n : ℕ} {g : Gate} (hop : g.op = .I ∨ g.op = .barrier) : ActsAs k W n [] g := by
  have h : g.instrs = [] := by unfold Gate.instrs; rcases hop with h | h <;> rw [h]
  refine ⟨1, one_pow 4, fun φ φ' cl cl' hbr c' => ?_⟩
  rw [h] at hbr
  obtain ⟨rfl, rfl⟩ := Prod.mk.inj (show (φ', cl') = (φ, cl) from hbr)
  rw [one_smul]
  exact Iff.rfl

/-! ## Transversal controlled gates -/

theorem holds_copy (n j : ℕ) (cs : List (ℕ × Bool)) (x : Bits) :
    holds (Q3.copyControls n j cs) x = cs.all fun c => blk n c.1 x j == c.2 := by
  simp [holds, Q3.copyControls, blk, List.all_map, Function.comp_def]

theorem holds_copy_set {n t : ℕ} {cs : List (ℕ × Bool)} (hcs : ∀ c ∈ cs, c.1 < n ∧ c.1 ≠ t) (j : ℕ) (y x : Bits) :
    holds (Q3.copyControls n j cs) (setBlk n t y x) = holds (Q3.copyControls n j cs) x := by
  rw [holds_copy, holds_copy, Bool.eq_iff_iff, List.all_eq_true, List.all_eq_true]
  refine forall₂_congr fun c hc => ?_
  rw [blk_set_other (hcs c hc).1 (hcs c hc).2]

/-- The new value of block `t`. -/
def condX (n t : ℕ) (cs : List (ℕ × Bool)) (L : List ℕ) (x : Bits) : Bits := fun j =>
  blk n t x j ^^ (decide (j ∈ L) && holds (Q3.copyControls n j cs) x)

theorem transversal_x {n t : ℕ} (ht : t < n) {cs : List (ℕ × Bool)} (hcs : ∀ c ∈ cs, c.1 < n ∧ c.1 ≠ t) {L : List ℕ} (hL : L.Nodup)
    (ψ : State R) (x : Bits) : uact k (L.map fun j => .gate .X (Q3.copyControls n j cs) (dat n t j)) ψ x =
      ψ (setBlk n t (condX n t cs L x) x) := by
  induction L generalizing ψ with
  | nil =>
    have : condX n t cs [] x = blk n t x := by funext j; simp [condX]
    rw [this, set_blk]
    rfl
  | cons j L ih =>
    obtain ⟨hj, hL⟩ := List.nodup_cons.1 hL
    rw [List.map_cons, uact_cons, ih hL]
    show gateAct k .X _ _ ψ _ = _
    unfold gateAct
    rw [holds_copy_set hcs]
    have hf : ∀ z : Bits, opAct k .X (dat n t j) ψ z = ψ (flip z (dat n t j)) := fun _ => rfl
    rw [hf, flip_dat ht, blk_set ht, set_set]
    have key : condX n t cs (j :: L) x =
        if holds (Q3.copyControls n j cs) x then flip (condX n t cs L x) j else condX n t cs L x := by
      funext i
      by_cases hij : i = j
      · subst hij
        cases hh : holds (Q3.copyControls n i cs) x <;> simp [condX, hh, hj]
      · cases hh : holds (Q3.copyControls n j cs) x <;> simp [condX, hij, flip_other hij]
    rw [key]
    split <;> rfl

theorem transversal_z (n t : ℕ) (cs : List (ℕ × Bool)) (L : List ℕ) (ψ : State R) (x : Bits) :
    uact k (L.map fun j => .gate .Z (Q3.copyControls n j cs) (dat n t j)) ψ x =
      (L.map fun j => (sgn (holds (Q3.copyControls n j cs) x && blk n t x j) : R)).prod * ψ x := by
  induction L generalizing ψ with
  | nil => simp
  | cons j L ih =>
    rw [List.map_cons, uact_cons, ih, List.map_cons, List.prod_cons]
    show _ * gateAct k .Z _ _ ψ x = _
    unfold gateAct
    cases holds (Q3.copyControls n j cs) x
    · simp
    · simp only [if_true, Bool.true_and, opAct, blk]
      ring

/-! ## Two blocks -/

theorem prodW_split2 (W : CodeWords) {n : ℕ} {c t : Fin n} (hct : c ≠ t) (b : Fin n → Bool) (x : Bits) :
    prodW R W n b x = (W (b c) (blk n c x) : R) * (W (b t) (blk n t x) : R) *
      ∏ i ∈ (Finset.univ.erase c).erase t, ((W (b i) (blk n i x) : ℤ) : R) := by
  rw [prodW_split W c, ← Finset.mul_prod_erase _ _ (Finset.mem_erase.2 ⟨hct.symm, Finset.mem_univ t⟩)]
  ring

theorem blk_set2 {n c t : ℕ} (hc : c < n) (ht : t < n) (hct : c ≠ t) (yc yt x : Bits) :
    blk n c (setBlk n c yc (setBlk n t yt x)) = yc ∧ blk n t (setBlk n c yc (setBlk n t yt x)) = yt ∧
      ∀ i < n, i ≠ c → i ≠ t → blk n i (setBlk n c yc (setBlk n t yt x)) = blk n i x :=
  ⟨blk_set hc _ _, by rw [blk_set_other ht (fun e => hct e.symm), blk_set ht], fun i hi h1 h2 => by
    rw [blk_set_other hi h1, blk_set_other hi h2]⟩

/-- A gate with one control: both blocks may change. -/
theorem pair_gate {W : CodeWords} {n : ℕ} {c t : Fin n} (hct : c ≠ t) {U G : State R → State R} {cf : Bits → Bits → R}
    {pc pt : Bits → Bits → Bits}
    (hU : ∀ ψ x, U ψ x = cf (blk n c x) (blk n t x) *
      ψ (setBlk n c (pc (blk n c x) (blk n t x)) (setBlk n t (pt (blk n c x) (blk n t x)) x)))
    {f : Bool → Bool} {d : Bool → Bool → R} (hG : ∀ φ b, G φ (ext b) = d (b c) (b t) * φ (ext (flipAt (f (b c)) t b))) {u : R}
    (h : ∀ yc yt βc βt, cf yc yt * ((W βc (pc yc yt) : R) * (W βt (pt yc yt) : R)) =
      u * ((W βc yc : R) * (W (βt ^^ f βc) yt : R) * d βc (βt ^^ f βc))) (φ : State R) :
    U (encoded W n φ) = u • encoded W n (G φ) := by
  have hb : ∀ b : Fin n → Bool, flipAt (f (b c)) t b c = b c := fun b => by
    unfold flipAt
    rw [Function.update_of_ne hct]
  refine encoded_mono hU (ρ := fun b => flipAt (f (b c)) t b) (fun b => ?_) hG (fun x b => ?_) φ
  · show flipAt (f (flipAt (f (b c)) t b c)) t (flipAt (f (b c)) t b) = b
    rw [hb, flipAt_inv]
  · obtain ⟨h1, h2, h3⟩ := blk_set2 c.2 t.2 (fun e => hct (Fin.ext e)) (pc (blk n c x) (blk n t x)) (pt (blk n c x) (blk n t x)) x
    simp only [prodW_split2 W hct, hb, h1, h2]
    have e : flipAt (f (b c)) t b t = (b t ^^ f (b c)) := by simp [flipAt]
    rw [e]
    have e1 : ∏ i ∈ (Finset.univ.erase c).erase t,
          ((W (b i) (blk n i (setBlk n c (pc (blk n c x) (blk n t x)) (setBlk n t (pt (blk n c x) (blk n t x)) x))) : ℤ) : R) =
        ∏ i ∈ (Finset.univ.erase c).erase t, ((W (flipAt (f (b c)) t b i) (blk n i x) : ℤ) : R) := by
      refine Finset.prod_congr rfl fun i hi => ?_
      obtain ⟨hit, hi⟩ := Finset.mem_erase.1 hi
      have hic := (Finset.mem_erase.1 hi).1
      rw [h3 i i.2 (fun e => hic (Fin.ext e)) (fun e => hit (Fin.ext e)), flipAt, Function.update_of_ne hit]
    rw [e1]
    linear_combination (∏ i ∈ (Finset.univ.erase c).erase t, ((W (flipAt (f (b c)) t b i) (blk n i x) : ℤ) : R)) *
      h (blk n c x) (blk n t x) (b c) (b t)

/-- Controlled X on the logical qubits. -/
theorem logical_cx {n : ℕ} {c t : Fin n} (p : Bool) (φ : State R) (b : Fin n → Bool) :
    gateAct k .X [(↑c, p)] t φ (ext b) = 1 * φ (ext (flipAt (b c == p) t b)) := by
  have e : holds [((c : ℕ), p)] (ext b) = (b c == p) := by simp [holds, ext_fin]
  unfold gateAct
  rw [e, ext_flipAt, one_mul]
  split <;> rfl

/-- Controlled Z on the logical qubits. -/
theorem logical_cz {n : ℕ} {c t : Fin n} (p : Bool) (φ : State R) (b : Fin n → Bool) :
    gateAct k .Z [(↑c, p)] t φ (ext b) = (sgn ((b c == p) && b t) : R) * φ (ext (flipAt false t b)) := by
  have e : holds [((c : ℕ), p)] (ext b) = (b c == p) := by simp [holds, ext_fin]
  unfold gateAct
  rw [e, ext_flipAt]
  have e2 : opAct k .Z t φ (ext b) = sgn (b t) * φ (ext b) := by rw [← ext_fin b t]; rfl
  rw [e2]
  cases (b c == p) <;> simp

/-! ## Words of CSS codes -/

theorem parity_congr {r : ℕ} {l : List ℕ} (hl : ∀ j ∈ l, j < r) {y z : Bits} (h : ∀ j < r, y j = z j) : parity l y = parity l z := by
  induction l with
  | nil => rfl
  | cons j l ih =>
    show (y j ^^ parity l y) = (z j ^^ parity l z)
    rw [h j (hl j (by simp)), ih fun i hi => hl i (by simp [hi])]

theorem parity_xor (l : List ℕ) (y z : Bits) : parity l (fun j => y j ^^ z j) = (parity l y ^^ parity l z) := by
  induction l with
  | nil => rfl
  | cons j l ih =>
    show ((y j ^^ z j) ^^ parity l _) = ((y j ^^ parity l y) ^^ (z j ^^ parity l z))
    rw [ih]
    cases y j <;> cases z j <;> cases parity l y <;> cases parity l z <;> rfl

theorem parity_const (l : List ℕ) (p : Bool) : parity l (fun _ => p) = (p && decide (l.length % 2 = 1)) := by
  induction l with
  | nil => simp [parity]
  | cons j l ih =>
    show (p ^^ parity l fun _ => p) = _
    rw [ih, List.length_cons]
    rcases Nat.mod_two_eq_zero_or_one l.length with h | h
    · have : (l.length + 1) % 2 = 1 := by omega
      simp [h, this]
    · have : (l.length + 1) % 2 = 0 := by omega
      simp [h, this]

theorem css_local {checks : List (List ℕ)} {lz : List ℕ} {r : ℕ} (h : ∀ l ∈ lz :: checks, ∀ j ∈ l, j < r) :
    (cssWords checks lz).Local r := fun b y z hyz => by
  unfold cssWords
  have h1 : parity lz y = parity lz z := parity_congr (h lz (by simp)) hyz
  have h2 : (checks.all fun c => !parity c y) = checks.all fun c => !parity c z := by
    rw [Bool.eq_iff_iff, List.all_eq_true, List.all_eq_true]
    exact forall₂_congr fun c hc => by rw [parity_congr (h c (by simp [hc])) hyz]
  rw [h1, h2]

/-- Adding a code word, and possibly the word of ones, to a word. -/
theorem css_add {checks : List (List ℕ)} {lz : List ℕ} (hev : ∀ l ∈ checks, l.length % 2 = 0) (hodd : lz.length % 2 = 1)
    {βc : Bool} {yc : Bits} (hc : cssWords checks lz βc yc ≠ 0) (p : Bool) (β : Bool) (y : Bits) :
    cssWords checks lz β (fun j => y j ^^ (yc j == p)) = cssWords checks lz (β ^^ (βc == p)) y := by
  have hy : (checks.all fun c => !parity c yc) = true ∧ parity lz yc = βc := by
    unfold cssWords at hc
    split at hc
    · rename_i h
      simpa using h
    · exact absurd rfl hc
  have hpar : ∀ l : List ℕ, parity l (fun j => y j ^^ (yc j == p)) = (parity l y ^^ (parity l yc ^^ (!p && decide (l.length % 2 = 1)))) := by
    intro l
    have : (fun j => y j ^^ (yc j == p)) = fun j => y j ^^ (fun j => yc j ^^ (fun _ => !p) j) j := by
      funext j
      show (y j ^^ (yc j == p)) = (y j ^^ (yc j ^^ !p))
      cases y j <;> cases yc j <;> cases p <;> rfl
    rw [this, parity_xor, parity_xor, parity_const]
  unfold cssWords
  rw [hpar lz, hy.2, hodd]
  have h2 : (checks.all fun c => !parity c fun j => y j ^^ (yc j == p)) = checks.all fun c => !parity c y := by
    rw [Bool.eq_iff_iff, List.all_eq_true, List.all_eq_true]
    refine forall₂_congr fun c hcm => ?_
    have := List.all_eq_true.1 hy.1 c hcm
    rw [Bool.not_eq_true'] at this
    rw [hpar, this, hev c hcm]
    simp
  rw [h2]
  cases parity lz y <;> cases βc <;> cases p <;> cases β <;> rfl

/-! ## Hadamard gates on a block -/

theorem hblock {n t : ℕ} (ht : t < n) (L : List ℕ) (ψ : State R) (x : Bits) :
    uact k (L.map fun j => .gate .H [] (dat n t j)) ψ x =
      uact k (L.map fun j => .gate .H [] j) (fun y => ψ (setBlk n t y x)) (blk n t x) := by
  induction L generalizing ψ with
  | nil => simp [set_blk]
  | cons j L ih =>
    rw [List.map_cons, uact_cons, ih, List.map_cons, uact_cons]
    congr 1
    funext y
    show gateAct k .H [] _ ψ _ = gateAct k .H [] j _ y
    rw [gateAct_nil, gateAct_nil]
    have e : ∀ v, Function.update (setBlk n t y x) (dat n t j) v = setBlk n t (Function.update y j v) x := by
      intro v
      have := flip_dat ht j (setBlk n t y x)
      rw [blk_set ht, set_set] at this
      have hb : setBlk n t y x (dat n t j) = y j := congrFun (blk_set ht y x) j
      by_cases hv : v = y j
      · rw [hv, ← hb, Function.update_eq_self, hb, Function.update_eq_self]
      · have hv' : v = !y j := by cases v <;> cases h : y j <;> simp_all
        rw [hv', ← hb]
        show flip _ _ = _
        rw [this, hb]
        rfl
    simp only [opAct, e]
    have hb : setBlk n t y x (dat n t j) = y j := congrFun (blk_set ht y x) j
    rw [hb]

theorem uactI_add (i : Instr) (ψ φ : State R) : uactI k i (ψ + φ) = uactI k i ψ + uactI k i φ := by
  cases i <;> simp only [uactI, id]
  · rename_i op cs t
    funext x
    simp only [gateAct, Pi.add_apply]
    split
    · cases op <;> simp only [opAct, Pi.add_apply] <;> ring
    · rfl
  · rfl

theorem uact_add (l : List Instr) (ψ φ : State R) : uact k l (ψ + φ) = uact k l ψ + uact k l φ := by
  induction l generalizing ψ φ with
  | nil => rfl
  | cons i l ih => rw [uact_cons, uact_cons, uact_cons, uactI_add, ih]

theorem uact_zero (l : List Instr) : uact k l (0 : State R) = 0 := by
  have := uact_smul k l (0 : R) (0 : State R)
  rwa [zero_smul, zero_smul] at this

theorem uact_sum {ι : Type} (l : List Instr) (S : Finset ι) (F : ι → State R) :
    uact k l (∑ i ∈ S, F i) = ∑ i ∈ S, uact k l (F i) := by
  classical
  induction S using Finset.induction_on with
  | empty => simp [uact_zero]
  | insert i S hi ih => rw [Finset.sum_insert hi, Finset.sum_insert hi, uact_add, ih]

theorem sum_pairs {n : ℕ} (t : Fin n) (g : (Fin n → Bool) → R) :
    ∑ b, g b = ∑ b, if b t then 0 else g b + g (flipAt true t b) := by
  have h1 : ∑ b, g b = ∑ b, (if b t then 0 else g b) + ∑ b, (if b t then g b else 0) := by
    rw [← Finset.sum_add_distrib]
    refine Finset.sum_congr rfl fun b _ => ?_
    cases b t <;> simp
  have h2 : ∑ b, (if b t then g b else 0) = ∑ b, (if b t then 0 else g (flipAt true t b)) := by
    rw [← Equiv.sum_comp (flipAt_inv true t).toPerm]
    refine Finset.sum_congr rfl fun b _ => ?_
    show (if flipAt true t b t then g (flipAt true t b) else 0) = _
    have : flipAt true t b t = !b t := by simp [flipAt]
    rw [this]
    cases b t <;> rfl
  rw [h1, h2, ← Finset.sum_add_distrib]
  refine Finset.sum_congr rfl fun b _ => ?_
  cases b t <;> simp

/-- Hadamard gates on the qubits of a block, if they transform the code words as a Hadamard gate. -/
theorem hadamard_gate {W : CodeWords} {L : List ℕ}
    (h : ∀ β y, uact k (L.map fun j => .gate .H [] j) (fun y => (W β y : R)) y = k.s * ((W false y : R) + sgn β * (W true y : R)))
    {n t : ℕ} (ht : t < n) (φ : State R) :
    uact k (L.map fun j => .gate .H [] (dat n t j)) (encoded W n φ) = encoded W n (opAct k .H t φ) := by
  funext x
  rw [hblock k ht]
  let T : Fin n := ⟨t, ht⟩
  let C : (Fin n → Bool) → R := fun b => ∏ i ∈ Finset.univ.erase T, ((W (b i) (blk n i x) : ℤ) : R)
  have e1 : (fun y => encoded W n φ (setBlk n t y x)) = ∑ b : Fin n → Bool, (C b * φ (ext b)) • fun y : Bits => (W (b T) y : R) := by
    funext y
    rw [Finset.sum_apply, encoded_apply]
    refine Finset.sum_congr rfl fun b _ => ?_
    rw [prodW_split W T, Pi.smul_apply, smul_eq_mul]
    have : ∏ i ∈ Finset.univ.erase T, ((W (b i) (blk n i (setBlk n t y x)) : ℤ) : R) = C b := by
      refine Finset.prod_congr rfl fun i hi => ?_
      rw [blk_set_other i.2 fun e => (Finset.mem_erase.1 hi).1 (Fin.ext e)]
    rw [this]
    show (W (b T) (blk n t _) : R) * _ * _ = _
    rw [blk_set ht]
    ring
  rw [e1, uact_sum, Finset.sum_apply]
  have e2 : ∀ b : Fin n → Bool, uact k (L.map fun j => .gate .H [] j) ((C b * φ (ext b)) • fun y : Bits => (W (b T) y : R)) (blk n t x) =
      C b * φ (ext b) * (k.s * ((W false (blk n t x) : R) + sgn (b T) * (W true (blk n t x) : R))) := fun b => by
    rw [uact_smul, Pi.smul_apply, smul_eq_mul, h]
  rw [Finset.sum_congr rfl fun b _ => e2 b, encoded_apply, sum_pairs T, sum_pairs T fun b => prodW R W n b x * opAct k .H t φ (ext b)]
  refine Finset.sum_congr rfl fun b _ => ?_
  split
  · rfl
  · rename_i hbT
    have hbT : b T = false := by simpa using hbT
    have hC : C (flipAt true T b) = C b := by
      refine Finset.prod_congr rfl fun i hi => ?_
      rw [flipAt, Function.update_of_ne (Finset.mem_erase.1 hi).1]
    have hf : flipAt true T b T = true := by simp [flipAt, hbT]
    have hp1 : prodW R W n b x = (W false (blk n t x) : R) * C b := by rw [prodW_split W T, hbT]
    have hp2 : prodW R W n (flipAt true T b) x = (W true (blk n t x) : R) * C b := by rw [prodW_split W T, hf, ← hC]
    have hu : ∀ v b', Function.update (ext b') t v = ext (Function.update b' T v) := fun v b' => (ext_update b' T v).symm
    have hx : ∀ b' : Fin n → Bool, ext b' t = b' T := fun b' => ext_fin b' T
    have u1 : Function.update b T false = b := by rw [← hbT, Function.update_eq_self]
    have u2 : Function.update b T true = flipAt true T b := by simp [flipAt, hbT]
    have u3 : Function.update (flipAt true T b) T false = b := by unfold flipAt; rw [Function.update_idem, u1]
    have u4 : Function.update (flipAt true T b) T true = flipAt true T b := by unfold flipAt; simp [hbT]
    simp only [opAct, hu, hx, u1, u2, u3, u4, hp1, hp2, hC, hf, hbT, sgn_false, sgn_true]
    ring

end Verif.Ecc
