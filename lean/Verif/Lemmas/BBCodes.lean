import Verif.Lemmas.SparseDistance
import Verif.Props.BB
import Verif.Props.NamedCodes

/-! # Bivariate bicycle codes as bit masks, their symmetries, and least weights from the search -/

namespace Verif.BB
open Verif Verif.Named Verif.Sparse

/-! ## Entries -/

def xorAll : List Bool → Bool
  | [] => false
  | b :: l => xor b (xorAll l)

/-- An entry of a sum of powers, on natural numbers. -/
def entB (xs ys : List ℕ) (l m i j : ℕ) : Bool :=
  xor (xorAll (xs.map fun p => Nat.beq (j / m) ((i / m + p) % l) && Nat.beq (i % m) (j % m)))
    (xorAll (ys.map fun p => Nat.beq (i / m) (j / m) && Nat.beq (j % m) ((i % m + p) % m)))

theorem sum_xor {α : Type} (L : List α) (f : α → ℕ) (g : α → Bool) (h : ∀ p, f p = if g p then 1 else 0) :
    (((L.map f).sum : ℕ) : ZMod 2) = if xorAll (L.map g) then 1 else 0 := by
  induction L with
  | nil => simp [xorAll]
  | cons p L ih =>
    rw [List.map_cons, List.sum_cons, List.map_cons, xorAll]
    rw [Nat.cast_add, ih, h p]
    cases g p <;> cases xorAll (L.map g) <;> simp <;> rfl

theorem mod2_entry (xs ys : List ℕ) (l m : ℕ) (i j : Fin (l * m)) :
    mod2 (cyclicMatrixSum xs ys l m) i j = if entB xs ys l m i.val j.val then 1 else 0 := by
  unfold mod2
  rw [entry, Nat.cast_add]
  rw [sum_xor xs _ (fun p => Nat.beq (j.val / m) ((i.val / m + p) % l) && Nat.beq (i.val % m) (j.val % m)),
    sum_xor ys _ (fun p => Nat.beq (i.val / m) (j.val / m) && Nat.beq (j.val % m) ((i.val % m + p) % m))]
  · unfold entB
    cases xorAll (xs.map fun p => Nat.beq (j.val / m) ((i.val / m + p) % l) && Nat.beq (i.val % m) (j.val % m)) <;>
      cases xorAll (ys.map fun p => Nat.beq (i.val / m) (j.val / m) && Nat.beq (j.val % m) ((i.val % m + p) % m)) <;> simp <;> rfl
  · intro p
    simp only [Bool.and_eq_true, beqT, Fin.ext_iff, Fin.coe_divNat, Fin.coe_modNat]
    split_ifs <;> simp_all
  · intro p
    simp only [Bool.and_eq_true, beqT, Fin.ext_iff, Fin.coe_divNat, Fin.coe_modNat]
    split_ifs <;> simp_all

theorem shift_mod {l a b p : ℕ} (ha : a < l) (hb : b < l) : (a + p) % l = b ↔ a = (b + (l - p % l)) % l := by
  have hp : p % l < l := Nat.mod_lt _ (by omega)
  rw [← Nat.add_mod_mod a p l]
  generalize p % l = r at hp
  have m1 : (a + r) % l = if a + r < l then a + r else a + r - l := by
    split_ifs with h
    · exact Nat.mod_eq_of_lt h
    · rw [Nat.mod_eq_sub_mod (by omega), Nat.mod_eq_of_lt (by omega)]
  have m2 : (b + (l - r)) % l = if b + (l - r) < l then b + (l - r) else b + (l - r) - l := by
    split_ifs with h
    · exact Nat.mod_eq_of_lt h
    · rw [Nat.mod_eq_sub_mod (by omega), Nat.mod_eq_of_lt (by omega)]
  rw [m1, m2]
  split_ifs <;> omega

/-- Positions of the ones of a sum of powers in row `i`. -/
def pos (xs ys : List ℕ) (l m i : ℕ) : List ℕ :=
  (xs.map fun p => (i / m + p) % l * m + i % m) ++ ys.map fun p => i / m * m + (i % m + p) % m

/-- The same for the transpose. -/
def posT (xs ys : List ℕ) (l m i : ℕ) : List ℕ :=
  (xs.map fun p => (i / m + (l - p % l)) % l * m + i % m) ++ ys.map fun p => i / m * m + (i % m + (m - p % m)) % m

theorem maskOf_testBit (L : List ℕ) (j : ℕ) : (maskOf L).testBit j = xorAll (L.map fun q => decide (j = q)) := by
  induction L with
  | nil => exact Nat.zero_testBit j
  | cons q L ih =>
    show (Nat.shiftLeft 1 q ^^^ maskOf L).testBit j = _
    rw [Nat.testBit_xor, shiftLeft_testBit, ih, List.map_cons, xorAll]

theorem xorAll_append (L L' : List Bool) : xorAll (L ++ L') = xor (xorAll L) (xorAll L') := by
  induction L with
  | nil => simp [xorAll]
  | cons b L ih => rw [List.cons_append, xorAll, ih, xorAll, Bool.xor_assoc]

theorem eq_mul_add {m j a b : ℕ} (hb : b < m) : j = a * m + b ↔ j / m = a ∧ j % m = b := by
  constructor
  · rintro rfl
    rw [Nat.add_comm, Nat.add_mul_div_right _ _ (by omega), Nat.add_mul_mod_self_right, Nat.div_eq_of_lt hb, Nat.mod_eq_of_lt hb]
    simp
  · rintro ⟨rfl, rfl⟩
    rw [Nat.mul_comm]; exact (Nat.div_add_mod j m).symm

theorem bool_eq {a b : Bool} (h : a = true ↔ b = true) : a = b := Bool.eq_iff_iff.2 h

theorem entB_pos (xs ys : List ℕ) {l m i j : ℕ} (hi : i < l * m) (hj : j < l * m) :
    entB xs ys l m i j = (maskOf (pos xs ys l m i)).testBit j := by
  have hm : 0 < m := Nat.pos_of_ne_zero (by rintro rfl; simp at hi)
  have hil : i / m < l := (Nat.div_lt_iff_lt_mul hm).2 hi
  have hjl : j / m < l := (Nat.div_lt_iff_lt_mul hm).2 hj
  have hl : 0 < l := Nat.zero_lt_of_lt hil
  rw [maskOf_testBit, pos, List.map_append, xorAll_append, entB, List.map_map, List.map_map]
  congr 2
  · apply List.map_congr_left
    intro p _
    apply bool_eq
    simp only [Bool.and_eq_true, beqT, Function.comp, decide_eq_true_eq]
    rw [eq_mul_add (Nat.mod_lt _ hm)]
    exact and_congr_right fun _ => eq_comm
  · apply List.map_congr_left
    intro p _
    apply bool_eq
    simp only [Bool.and_eq_true, beqT, Function.comp, decide_eq_true_eq]
    rw [eq_mul_add (Nat.mod_lt _ hm)]
    exact and_congr_left fun _ => eq_comm

theorem entB_posT (xs ys : List ℕ) {l m i j : ℕ} (hi : i < l * m) (hj : j < l * m) :
    entB xs ys l m j i = (maskOf (posT xs ys l m i)).testBit j := by
  have hm : 0 < m := Nat.pos_of_ne_zero (by rintro rfl; simp at hi)
  have hil : i / m < l := (Nat.div_lt_iff_lt_mul hm).2 hi
  have hjl : j / m < l := (Nat.div_lt_iff_lt_mul hm).2 hj
  have hl : 0 < l := Nat.zero_lt_of_lt hil
  rw [maskOf_testBit, posT, List.map_append, xorAll_append, entB, List.map_map, List.map_map]
  congr 2
  · apply List.map_congr_left
    intro p _
    apply bool_eq
    simp only [Bool.and_eq_true, beqT, Function.comp, decide_eq_true_eq]
    rw [eq_mul_add (Nat.mod_lt _ hm), eq_comm, shift_mod hjl hil]
  · apply List.map_congr_left
    intro p _
    apply bool_eq
    simp only [Bool.and_eq_true, beqT, Function.comp, decide_eq_true_eq]
    rw [eq_mul_add (Nat.mod_lt _ hm), eq_comm (a := i % m), shift_mod (Nat.mod_lt _ hm) (Nat.mod_lt _ hm)]

/-- The qubits of an X check and of a Z check. -/
def supX (m l : ℕ) (aT bT : List ℕ × List ℕ) (i : ℕ) : List ℕ := pos aT.1 aT.2 l m i ++ (pos bT.1 bT.2 l m i).map (l * m + ·)
def supZ (m l : ℕ) (aT bT : List ℕ × List ℕ) (i : ℕ) : List ℕ := posT bT.1 bT.2 l m i ++ (posT aT.1 aT.2 l m i).map (l * m + ·)

theorem pos_lt (xs ys : List ℕ) {l m i : ℕ} (hi : i < l * m) : (∀ q ∈ pos xs ys l m i, q < l * m) ∧ ∀ q ∈ posT xs ys l m i, q < l * m := by
  have hm : 0 < m := Nat.pos_of_ne_zero (by rintro rfl; simp at hi)
  have hil : i / m < l := (Nat.div_lt_iff_lt_mul hm).2 hi
  have hl : 0 < l := Nat.zero_lt_of_lt hil
  have key : ∀ a b, a < l → b < m → a * m + b < l * m := by
    intro a b ha hb
    calc a * m + b < a * m + m := by omega
      _ = (a + 1) * m := by ring
      _ ≤ l * m := Nat.mul_le_mul_right _ ha
  constructor
  · intro q hq
    rcases List.mem_append.1 hq with hq | hq <;> obtain ⟨p, -, rfl⟩ := List.mem_map.1 hq
    · exact key _ _ (Nat.mod_lt _ hl) (Nat.mod_lt _ hm)
    · exact key _ _ hil (Nat.mod_lt _ hm)
  · intro q hq
    rcases List.mem_append.1 hq with hq | hq <;> obtain ⟨p, -, rfl⟩ := List.mem_map.1 hq
    · exact key _ _ (Nat.mod_lt _ hl) (Nat.mod_lt _ hm)
    · exact key _ _ hil (Nat.mod_lt _ hm)

theorem maskOf_append_bits (L L' : List ℕ) (N j : ℕ) (hL : ∀ q ∈ L, q < N) (hj : j < N) :
    (maskOf (L ++ L'.map (N + ·))).testBit j = (maskOf L).testBit j ∧ (maskOf (L ++ L'.map (N + ·))).testBit (N + j) = (maskOf L').testBit j := by
  have hf : ∀ (M : List ℕ) (x : ℕ), (∀ q ∈ M, x ≠ q) → xorAll (M.map fun q => decide (x = q)) = false := by
    intro M x h
    induction M with
    | nil => rfl
    | cons q M ih =>
      rw [List.map_cons, xorAll, ih fun y hy => h y (by simp [hy]), decide_eq_false (h q (by simp))]
      rfl
  simp only [maskOf_testBit, List.map_append, xorAll_append]
  constructor
  · rw [hf (L'.map (N + ·)) j fun q hq => by obtain ⟨x, -, rfl⟩ := List.mem_map.1 hq; omega, Bool.xor_false]
  · rw [hf L (N + j) fun q hq => by have := hL q hq; omega, Bool.false_xor, List.map_map]
    congr 1
    apply List.map_congr_left
    intro q _
    simp

/-- The masks `HX`, `HZ` are the rows of the two check matrices. -/
def masksCheck (m l : ℕ) (aT bT : List ℕ × List ℕ) (HX HZ : List ℕ) : Bool :=
  Nat.beq HX.length (l * m) && Nat.beq HZ.length (l * m) &&
  (List.range (l * m)).all fun i => Nat.beq (HX.getD i 0) (maskOf (supX m l aT bT i)) && Nat.beq (HZ.getD i 0) (maskOf (supZ m l aT bT i))

theorem masks_of_check {m l : ℕ} {aT bT : List ℕ × List ℕ} {HX HZ : List ℕ} (h : masksCheck m l aT bT HX HZ = true) :
    (cyclicCodeCheckMatrix m l aT bT).1 = rows (l * m + l * m) HX ∧ (cyclicCodeCheckMatrix m l aT bT).2 = rows (l * m + l * m) HZ := by
  simp only [masksCheck, Bool.and_eq_true, List.all_eq_true, List.mem_range, beqT] at h
  obtain ⟨⟨h1, h2⟩, h3⟩ := h
  have key : ∀ (H : List ℕ) (A B : Matrix (Fin (l * m)) (Fin (l * m)) (ZMod 2)), H.length = l * m →
      (∀ i j : Fin (l * m), A i j = (if (H.getD i 0).testBit j then 1 else 0) ∧ B i j = if (H.getD i 0).testBit (l * m + j) then 1 else 0) →
      hstack A B = rows (l * m + l * m) H := by
    intro H A B hl hAB
    unfold hstack rows
    apply List.ext_getElem
    · simp [hl]
    · intro i hi hi'
      have hil : i < l * m := by simpa using hi
      rw [List.getElem_ofFn, List.getElem_map]
      funext j
      have := hAB ⟨i, hil⟩
      simp only [getD_lt (show i < H.length by omega)] at this
      refine Fin.addCases (fun k => ?_) (fun k => ?_) j
      · rw [Fin.append_left, (this k).1]; rfl
      · rw [Fin.append_right, (this k).2]; rfl
  constructor
  · apply key _ _ _ h1
    intro i j
    have e := maskOf_append_bits (pos aT.1 aT.2 l m i) (pos bT.1 bT.2 l m i) (l * m) j (pos_lt _ _ i.2).1 j.2
    rw [mod2_entry, mod2_entry, (h3 i i.2).1, entB_pos _ _ i.2 j.2, entB_pos _ _ i.2 j.2]
    unfold supX
    rw [e.1, e.2]
    exact ⟨rfl, rfl⟩
  · apply key _ _ _ h2
    intro i j
    have e := maskOf_append_bits (posT bT.1 bT.2 l m i) (posT aT.1 aT.2 l m i) (l * m) j (pos_lt _ _ i.2).2 j.2
    rw [Matrix.transpose_apply, Matrix.transpose_apply, mod2_entry, mod2_entry, (h3 i i.2).2, entB_posT _ _ i.2 j.2, entB_posT _ _ i.2 j.2]
    unfold supZ
    rw [e.1, e.2]
    exact ⟨rfl, rfl⟩

/-! ## Translations and the duality of the two kinds of checks -/

def sx (m l q : ℕ) : ℕ := q / (l * m) * (l * m) + ((q % (l * m) / m + 1) % l) * m + q % m
def sx' (m l q : ℕ) : ℕ := q / (l * m) * (l * m) + ((q % (l * m) / m + (l - 1)) % l) * m + q % m
def sy (m q : ℕ) : ℕ := q / m * m + (q % m + 1) % m
def sy' (m q : ℕ) : ℕ := q / m * m + (q % m + (m - 1)) % m
def neg (m l g : ℕ) : ℕ := ((l - g / m) % l) * m + (m - g % m) % m
def dual (m l q : ℕ) : ℕ := cond (Nat.ble (l * m) q) (neg m l (q - l * m)) (l * m + neg m l q)

/-- Everything about the symmetries. -/
def symCheck (m l : ℕ) (aT bT : List ℕ × List ℕ) (HX HZ : List ℕ) : Bool :=
  (permCheck (l * m + l * m) (sx m l) (sx' m l) && permCheck (l * m + l * m) (sy m) (sy' m)) &&
  (permCheck (l * m + l * m) (dual m l) (dual m l) &&
  (mapsCheck (l * m + l * m) (sx m l) (sx m l) (supX m l aT bT) HX HX && mapsCheck (l * m + l * m) (sx m l) (sx m l) (supZ m l aT bT) HZ HZ)) &&
  (mapsCheck (l * m + l * m) (sy m) (sy m) (supX m l aT bT) HX HX && mapsCheck (l * m + l * m) (sy m) (sy m) (supZ m l aT bT) HZ HZ) &&
  (mapsCheck (l * m + l * m) (dual m l) (neg m l) (supX m l aT bT) HX HZ && mapsCheck (l * m + l * m) (dual m l) (neg m l) (supZ m l aT bT) HZ HX) &&
  ((List.range (l * m)).all fun q => Nat.beq ((sx m l)^[q / m] ((sy m)^[q % m] 0)) q &&
    Nat.beq ((sx m l)^[q / m] ((sy m)^[q % m] (l * m))) (l * m + q) && Nat.ble (sx m l q + 1) (l * m) && Nat.ble (sy m q + 1) (l * m))

theorem permOf_pow {n : ℕ} {s s' : ℕ → ℕ} (h : permCheck n s s' = true) (k : ℕ) (q : Fin n) : ((permOf h ^ k) q).val = s^[k] q.val := by
  induction k generalizing q with
  | zero => rfl
  | succ k ih => rw [pow_succ, Equiv.Perm.mul_apply, ih, Function.iterate_succ_apply]; rfl

theorem iterate_lt {N : ℕ} {s : ℕ → ℕ} (h : ∀ q < N, s q < N) (k q : ℕ) (hq : q < N) : s^[k] q < N := by
  induction k generalizing q with
  | zero => exact hq
  | succ k ih => rw [Function.iterate_succ_apply]; exact ih _ (h q hq)

theorem sym_of_check {m l : ℕ} {aT bT : List ℕ × List ℕ} {HX HZ : List ℕ} (hN : 0 < l * m) (h : symCheck m l aT bT HX HZ = true) :
    (∀ q : Fin (l * m + l * m), ∃ σ : Equiv.Perm (Fin (l * m + l * m)), Maps σ (rows _ HZ) (rows _ HZ) ∧ Maps σ (rows _ HX) (rows _ HX) ∧
      (σ ⟨0, by omega⟩ = q ∨ (l * m ≤ q.val ∧ σ ⟨l * m, by omega⟩ = q ∧ ∀ i : Fin (l * m + l * m), i.val < l * m → (σ i).val < l * m))) ∧
    ∃ σ : Equiv.Perm (Fin (l * m + l * m)), Maps σ (rows _ HX) (rows _ HZ) ∧ Maps σ (rows _ HZ) (rows _ HX) := by
  unfold symCheck at h
  simp only [Bool.and_eq_true] at h
  obtain ⟨⟨⟨⟨⟨p1, p2⟩, p3, x1, x2⟩, y1, y2⟩, d1, d2⟩, o⟩ := h
  refine ⟨fun q => ?_, permOf p3, maps_of_check p3 d1, maps_of_check p3 d2⟩
  simp only [List.all_eq_true, List.mem_range, Bool.and_eq_true, beqT, Nat.ble_eq, Nat.succ_le_iff] at o
  have mp : ∀ (H : List ℕ), Maps (permOf p1) (rows _ H) (rows _ H) → Maps (permOf p2) (rows _ H) (rows _ H) → ∀ a b,
      Maps (permOf p1 ^ a * permOf p2 ^ b) (rows _ H) (rows _ H) := fun H u v a b => (v.pow b).trans (u.pow a)
  have val : ∀ a b (i : Fin (l * m + l * m)), ((permOf p1 ^ a * permOf p2 ^ b) i).val = (sx m l)^[a] ((sy m)^[b] i.val) := by
    intro a b i
    rw [Equiv.Perm.mul_apply, permOf_pow, permOf_pow]
  by_cases hq : q.val < l * m
  · refine ⟨permOf p1 ^ (q.val / m) * permOf p2 ^ (q.val % m), mp _ (maps_of_check p1 x2) (maps_of_check p2 y2) _ _,
      mp _ (maps_of_check p1 x1) (maps_of_check p2 y1) _ _, .inl (Fin.ext ?_)⟩
    rw [val]
    exact (o q.val hq).1.1.1
  · have hq' : q.val - l * m < l * m := by omega
    refine ⟨permOf p1 ^ ((q.val - l * m) / m) * permOf p2 ^ ((q.val - l * m) % m), mp _ (maps_of_check p1 x2) (maps_of_check p2 y2) _ _,
      mp _ (maps_of_check p1 x1) (maps_of_check p2 y1) _ _, .inr ⟨by omega, Fin.ext ?_, fun i hi => ?_⟩⟩
    · rw [val]
      have := (o _ hq').1.1.2
      show (sx m l)^[(q.val - l * m) / m] ((sy m)^[(q.val - l * m) % m] (l * m)) = q.val
      omega
    · rw [val]
      exact iterate_lt (fun x hx => (o x hx).1.2) _ _ (iterate_lt (fun x hx => (o x hx).2) _ _ hi)

/-! ## All together -/

/-- The check of one code, except for the search. -/
noncomputable def baseCheck (m l : ℕ) (aT bT : List ℕ × List ℕ) (HX HZ : List ℕ) (RX RZ : List (ℕ × ℕ × ℕ)) : Bool :=
  masksCheck m l aT bT HX HZ && symCheck m l aT bT HX HZ && rankCheck (l * m + l * m) HX RX && rankCheck (l * m + l * m) HZ RZ &&
  Nat.beq (xorSel HZ (2 ^ (l * m) - 1)) (2 ^ (l * m + l * m) - 1) && Nat.ble 1 (l * m)

/-- What is known of a code: ranks, even weights, and the exchange of the two kinds of errors. -/
structure Base (m l : ℕ) (aT bT : List ℕ × List ℕ) (HX HZ : List ℕ) (RX RZ : List (ℕ × ℕ × ℕ)) : Prop where
  pos : 0 < l * m
  hx : (cyclicCodeCheckMatrix m l aT bT).1 = rows (l * m + l * m) HX
  hz : (cyclicCodeCheckMatrix m l aT bT).2 = rows (l * m + l * m) HZ
  span : ∀ a ∈ RX, toVec (l * m + l * m) a.2.1 ∈ rowSpan (rows (l * m + l * m) HX)
  rx : Module.finrank (ZMod 2) (rowSpan (rows (l * m + l * m) HX)) = RX.length
  rz : Module.finrank (ZMod 2) (rowSpan (rows (l * m + l * m) HZ)) = RZ.length
  even : ∀ e : Vec (l * m + l * m), Und (rows _ HZ) e → Even (wt e)
  sym : ∀ q : Fin (l * m + l * m), ∃ σ : Equiv.Perm (Fin (l * m + l * m)), Maps σ (rows _ HZ) (rows _ HZ) ∧ Maps σ (rows _ HX) (rows _ HX) ∧
      (σ ⟨0, by omega⟩ = q ∨ (l * m ≤ q.val ∧ σ ⟨l * m, by omega⟩ = q ∧ ∀ i : Fin (l * m + l * m), i.val < l * m → (σ i).val < l * m))
  dual : ∃ σ : Equiv.Perm (Fin (l * m + l * m)), Maps σ (rows _ HX) (rows _ HZ) ∧ Maps σ (rows _ HZ) (rows _ HX)

theorem base_of_check {m l : ℕ} {aT bT : List ℕ × List ℕ} {HX HZ : List ℕ} {RX RZ : List (ℕ × ℕ × ℕ)}
    (h : baseCheck m l aT bT HX HZ RX RZ = true) : Base m l aT bT HX HZ RX RZ := by
  unfold baseCheck at h
  simp only [Bool.and_eq_true, beqT, Nat.ble_eq] at h
  obtain ⟨⟨⟨⟨⟨h1, h2⟩, h3⟩, h4⟩, h5⟩, h6⟩ := h
  obtain ⟨s1, s2⟩ := sym_of_check h6 h2
  exact ⟨h6, (masks_of_check h1).1, (masks_of_check h1).2, (rank_of_check h3).1, (rank_of_check h3).2, (rank_of_check h4).2,
    fun e he => even_of_check h5 e he, s1, s2⟩

variable {m l : ℕ} {aT bT : List ℕ × List ℕ} {HX HZ : List ℕ} {RX RZ : List (ℕ × ℕ × ℕ)}

/-- A lower bound for errors of one kind is one for the other kind. -/
theorem Base.both (b : Base m l aT bT HX HZ RX RZ) {d : ℕ}
    (h : ∀ e : Vec (l * m + l * m), Und (rows _ HZ) e → e ∉ rowSpan (rows _ HX) → d ≤ wt e) :
    ∀ e : Vec (l * m + l * m), Und (rows _ HX) e → e ∉ rowSpan (rows _ HZ) → d ≤ wt e := by
  intro e he hne
  obtain ⟨σ, h1, h2⟩ := b.dual
  have := h (e ∘ σ) (h2.und he) fun hh => hne (h1.span hh)
  rwa [wt_comp] at this

/-- No undetected non-trivial error is lighter than 2. -/
theorem Base.two (b : Base m l aT bT HX HZ RX RZ) :
    ∀ e : Vec (l * m + l * m), Und (rows _ HZ) e → e ∉ rowSpan (rows _ HX) → 2 ≤ wt e := by
  intro e he hne
  obtain ⟨k, hk⟩ := b.even e he
  by_contra hlt
  have h0 : wt e = 0 := by omega
  unfold wt at h0
  rw [Finset.card_eq_zero, Finset.filter_eq_empty_iff] at h0
  apply hne
  rw [show e = 0 from funext fun i => not_not.1 (h0 (Finset.mem_univ i))]
  exact Submodule.zero_mem _

/-- The bound the search establishes. -/
theorem Base.search (b : Base m l aT bT HX HZ RX RZ) {T : Tab} (g : Good T (l * m + l * m) HZ) {w : ℕ} (hodd : w % 2 = 1)
    (h0 : go T RX w (colW (T.word 0)) 3 (Nat.lor 0 (Nat.shiftLeft 1 0)) (Nat.shiftLeft 1 0) = true)
    (h1 : go T RX w (colW (T.word (l * m))) 3 (Nat.lor (2 ^ (l * m) - 1) (Nat.shiftLeft 1 (l * m))) (Nat.shiftLeft 1 (l * m)) = true) :
    ∀ e : Vec (l * m + l * m), Und (rows _ HZ) e → e ∉ rowSpan (rows _ HX) → w + 3 ≤ wt e := by
  intro e he hne
  obtain ⟨k, hk⟩ := b.even e he
  by_contra hlt
  refine hne (light g rfl b.pos RX b.span (fun r hr s hs => ?_) b.sym h0 h1 e (by omega) he)
  rw [← b.hx] at hr
  rw [← b.hz] at hs
  rw [dot_comm]
  exact C17_commute m l aT bT r hr s hs

end Verif.BB
