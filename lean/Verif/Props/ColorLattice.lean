import Verif.Lemmas.ColorLattice
import Verif.Props.CSS

/-!
# C15: hexagonal colour codes

The lattices are unbounded families.  The theorems hold for every odd distance and for every iteration
order of the Python sets of data and ancilla qubits.
-/

namespace Verif.Lattice
open Verif CSS

/-! ## Closed form of the hexagonal lattice -/

/-- Coordinates of the triangle with `X` sites on its bottom side. -/
def InTri (X : ℕ) (p : Pt) : Prop := 0 ≤ p.2 ∧ p.2 ≤ p.1 ∧ (p.1 - p.2) % 2 = 0 ∧ p.1 + p.2 ≤ 2 * (X : ℤ) - 2

/-- Every third site of a row is an ancilla. -/
def AncClass (p : Pt) : Prop := (p.1 - 3 * p.2) % 6 = 2

instance (X p) : Decidable (InTri X p) := by unfold InTri; infer_instance
instance (p) : Decidable (AncClass p) := by unfold AncClass; infer_instance

theorem hexLoop_mem (X : ℕ) : ∀ (y : ℕ) (p : Pt) (b : Bool), (p, b) ∈ hexLoop X y ↔
    (y : ℤ) ≤ p.2 ∧ p.2 ≤ p.1 ∧ (p.1 - p.2) % 2 = 0 ∧ p.1 + p.2 ≤ 2 * (X : ℤ) - 2 + 2 * y ∧
      b = decide (¬ AncClass p) := by
  induction X with
  | zero =>
    intro y p b
    simp only [hexLoop, List.not_mem_nil, false_iff]
    rintro ⟨h1, h2, _, h3, _⟩
    push_cast at h3
    omega
  | succ X ih =>
    intro y p b
    obtain ⟨x, z⟩ := p
    have hrow : ((x, z), b) ∈ (if y % 3 = 0 then redRow (X + 1) y else if y % 3 = 1 then blueRow (X + 1) y
          else greenRow (X + 1) y) ↔ z = y ∧ z ≤ x ∧ (x - z) % 2 = 0 ∧ x ≤ y + 2 * X ∧ b = decide (¬ AncClass (x, z)) := by
      constructor
      · intro h
        split at h
        all_goals try split at h
        all_goals
          simp only [redRow, blueRow, greenRow, List.mem_map, List.mem_range, Prod.mk.injEq] at h
          obtain ⟨i, hi, ⟨h1, h2⟩, h3⟩ := h
          refine ⟨by omega, by omega, by omega, by omega, ?_⟩
          rw [← h3, decide_eq_decide]
          simp only [AncClass]
          omega
      · rintro ⟨h1, h2, h3, h4, h5⟩
        have hi : ∃ i : ℕ, x = y + 2 * i ∧ i < X + 1 := ⟨((x - z) / 2).toNat, by omega, by omega⟩
        obtain ⟨i, hi, hX⟩ := hi
        split
        all_goals try split
        all_goals
          simp only [redRow, blueRow, greenRow, List.mem_map, List.mem_range, Prod.mk.injEq]
          refine ⟨i, hX, ⟨hi.symm, h1.symm⟩, ?_⟩
          rw [h5, decide_eq_decide]
          simp only [AncClass]
          omega
    rw [hexLoop, List.mem_append, hrow, ih]
    simp only
    push_cast
    constructor
    · rintro (⟨h1, h2, h3, h4, h5⟩ | ⟨h1, h2, h3, h4, h5⟩)
      · exact ⟨by omega, by omega, by omega, by omega, h5⟩
      · exact ⟨by omega, by omega, by omega, by omega, h5⟩
    · rintro ⟨h1, h2, h3, h4, h5⟩
      by_cases hz : z = y
      · exact .inl ⟨hz, by omega, by omega, by omega, h5⟩
      · exact .inr ⟨by omega, by omega, by omega, by omega, h5⟩

theorem mem_hexData (d : ℕ) (p : Pt) : p ∈ hexData d ↔ InTri (d + d / 2) p ∧ ¬ AncClass p := by
  simp only [hexData, hexSites, List.mem_map, List.mem_filter]
  constructor
  · rintro ⟨⟨q, b⟩, ⟨h1, h2⟩, rfl⟩
    rw [hexLoop_mem] at h1
    obtain ⟨h3, h4, h5, h6, h7⟩ := h1
    simp only at h2
    rw [h2] at h7
    exact ⟨⟨by simpa using h3, h4, h5, by simpa using h6⟩, by simpa using h7.symm⟩
  · rintro ⟨⟨h1, h2, h3, h4⟩, h5⟩
    exact ⟨(p, true), ⟨(hexLoop_mem _ _ _ _).2 ⟨by simpa using h1, h2, h3, by simpa using h4, by simpa using h5⟩, rfl⟩, rfl⟩

theorem mem_hexAncilla (d : ℕ) (p : Pt) : p ∈ hexAncilla d ↔ InTri (d + d / 2) p ∧ AncClass p := by
  simp only [hexAncilla, hexSites, List.mem_map, List.mem_filter]
  constructor
  · rintro ⟨⟨q, b⟩, ⟨h1, h2⟩, rfl⟩
    rw [hexLoop_mem] at h1
    obtain ⟨h3, h4, h5, h6, h7⟩ := h1
    have h2 : b = false := by simpa using h2
    rw [h2] at h7
    exact ⟨⟨by simpa using h3, h4, h5, by simpa using h6⟩, by simpa using h7.symm⟩
  · rintro ⟨⟨h1, h2, h3, h4⟩, h5⟩
    exact ⟨(p, false), ⟨(hexLoop_mem _ _ _ _).2 ⟨by simpa using h1, h2, h3, by simpa using h4, by simpa using h5⟩, rfl⟩, rfl⟩

/-! ## Sizes -/

theorem rowPart_length (X y : ℕ) : (hexLoop (X + 1) y).length = (X + 1) + (hexLoop X (y + 1)).length := by
  rw [hexLoop, List.length_append]
  congr 1
  split
  · simp [redRow]
  · split <;> simp [blueRow, greenRow]

theorem count_mod (n r : ℕ) (hr : r < 3) : (List.range n).countP (fun i => decide (i % 3 = r)) = (n + 2 - r) / 3 := by
  induction n with
  | zero => simp; omega
  | succ n ih =>
    rw [List.range_succ, List.countP_append, ih]
    by_cases h : n % 3 = r
    · simp [h]; omega
    · simp [h]; omega

theorem rowPart_anc (X y : ℕ) : (hexLoop (X + 1) y).countP (! ·.2) =
    (X + 1 + 2 - (if y % 3 = 0 then 1 else if y % 3 = 1 then 2 else 0)) / 3 + (hexLoop X (y + 1)).countP (! ·.2) := by
  rw [hexLoop, List.countP_append]
  congr 1
  split
  · rw [← count_mod _ _ (by omega), redRow, List.countP_map]
    refine List.countP_congr fun i _ => ?_
    simp only [Function.comp, Bool.not_eq_true', decide_eq_false_iff_not, decide_eq_true_eq]; omega
  · split
    · rw [← count_mod _ _ (by omega), blueRow, List.countP_map]
      refine List.countP_congr fun i _ => ?_
      simp only [Function.comp, Bool.not_eq_true', decide_eq_false_iff_not, decide_eq_true_eq]; omega
    · rw [← count_mod _ _ (by omega), greenRow, List.countP_map]
      refine List.countP_congr fun i _ => ?_
      simp only [Function.comp, Bool.not_eq_true', decide_eq_false_iff_not, decide_eq_true_eq]; omega

theorem hexLoop_sizes (t : ℕ) : ∀ y : ℕ, y % 3 = 0 →
    2 * (hexLoop (3 * t + 1) y).length = (3 * t + 1) * (3 * t + 2) ∧
    2 * (hexLoop (3 * t + 1) y).countP (! ·.2) = 3 * t * (t + 1) := by
  induction t with
  | zero =>
    intro y hy
    refine ⟨?_, ?_⟩
    · rw [rowPart_length]; simp [hexLoop]
    · rw [rowPart_anc, if_pos hy]; simp [hexLoop]
  | succ t ih =>
    intro y hy
    obtain ⟨h1, h2⟩ := ih (y + 3) (by omega)
    have e : 3 * (t + 1) + 1 = 3 * t + 1 + 1 + 1 + 1 := by ring
    refine ⟨?_, ?_⟩
    · rw [e, rowPart_length, rowPart_length, rowPart_length]
      have : (hexLoop (3 * t + 1) (y + 1 + 1 + 1)).length = (hexLoop (3 * t + 1) (y + 3)).length := rfl
      rw [this]
      nlinarith
    · rw [e, rowPart_anc, rowPart_anc, rowPart_anc, if_pos hy, if_neg (by omega), if_pos (by omega), if_neg (by omega),
        if_neg (by omega)]
      have : (hexLoop (3 * t + 1) (y + 1 + 1 + 1)).countP (! ·.2) = (hexLoop (3 * t + 1) (y + 3)).countP (! ·.2) := rfl
      rw [this]
      have e1 : (3 * t + 1 + 1 + 1 + 2 - 0) / 3 = t + 1 := by omega
      have e2 : (3 * t + 1 + 1 + 1 + 1 + 2 - 1) / 3 = t + 1 := by omega
      have e3 : (3 * t + 1 + 1 + 1 + 2 - 2) / 3 = t + 1 := by omega
      have e4 : (3 * t + 1 + 1 + 2 - 0) / 3 = t + 1 := by omega
      simp only [e1, e2, e3, e4]
      nlinarith

theorem hexLoop_sizes_even (t : ℕ) : ∀ y : ℕ, y % 3 = 0 →
    2 * (hexLoop (3 * t) y).length = 3 * t * (3 * t + 1) ∧
    2 * (hexLoop (3 * t) y).countP (! ·.2) = t * (3 * t + 1) := by
  induction t with
  | zero => intro y hy; simp [hexLoop]
  | succ t ih =>
    intro y hy
    obtain ⟨h1, h2⟩ := ih (y + 3) (by omega)
    have e : 3 * (t + 1) = 3 * t + 1 + 1 + 1 := by ring
    refine ⟨?_, ?_⟩
    · rw [e, rowPart_length, rowPart_length, rowPart_length]
      have : (hexLoop (3 * t) (y + 1 + 1 + 1)).length = (hexLoop (3 * t) (y + 3)).length := rfl
      rw [this]
      nlinarith
    · rw [e, rowPart_anc, rowPart_anc, rowPart_anc, if_pos hy, if_neg (by omega), if_pos (by omega), if_neg (by omega),
        if_neg (by omega)]
      have : (hexLoop (3 * t) (y + 1 + 1 + 1)).countP (! ·.2) = (hexLoop (3 * t) (y + 3)).countP (! ·.2) := rfl
      rw [this]
      have e2 : (3 * t + 1 + 1 + 1 + 2 - 1) / 3 = t + 1 := by omega
      have e3 : (3 * t + 1 + 1 + 2 - 2) / 3 = t := by omega
      have e4 : (3 * t + 1 + 2 - 0) / 3 = t + 1 := by omega
      simp only [e2, e3, e4]
      nlinarith

theorem hexLoop_nodup (X : ℕ) : ∀ y : ℕ, ((hexLoop X y).map (·.1)).Nodup := by
  induction X with
  | zero => intro y; simp [hexLoop]
  | succ X ih =>
    intro y
    rw [hexLoop, List.map_append, List.nodup_append']
    refine ⟨?_, ih _, ?_⟩
    · have inj : Function.Injective (fun i : ℕ => (((y : ℤ) + 2 * i, (y : ℤ)) : Pt)) := fun i j h => by
        simp only [Prod.mk.injEq] at h; omega
      split
      · simp only [redRow, List.map_map]; exact List.nodup_range.map inj
      · split
        · simp only [blueRow, List.map_map]; exact List.nodup_range.map inj
        · simp only [greenRow, List.map_map]; exact List.nodup_range.map inj
    · intro p hp hq
      simp only [List.mem_map] at hp hq
      obtain ⟨⟨q, b⟩, hq, rfl⟩ := hq
      rw [hexLoop_mem] at hq
      have h1 : q.2 = y := by
        obtain ⟨⟨q', b'⟩, h, he⟩ := hp
        simp only at he
        split at h
        all_goals try split at h
        all_goals
          simp only [redRow, blueRow, greenRow, List.mem_map, Prod.mk.injEq] at h
          obtain ⟨i, _, h, _⟩ := h
          rw [← he, ← h]
      have := hq.1
      push_cast at this
      omega

theorem hexData_nodup (d : ℕ) : (hexData d).Nodup :=
  (hexLoop_nodup _ 0).sublist (List.filter_sublist.map _)

theorem hexAncilla_nodup (d : ℕ) : (hexAncilla d).Nodup :=
  (hexLoop_nodup _ 0).sublist (List.filter_sublist.map _)

theorem hex_sizes (t : ℕ) : (hexData (2 * t + 1)).length = 3 * t * (t + 1) + 1 ∧
    2 * (hexAncilla (2 * t + 1)).length = 3 * t * (t + 1) := by
  have e : 2 * t + 1 + (2 * t + 1) / 2 = 3 * t + 1 := by omega
  obtain ⟨h1, h2⟩ := hexLoop_sizes t 0 rfl
  have h3 : (hexAncilla (2 * t + 1)).length = (hexLoop (3 * t + 1) 0).countP (! ·.2) := by
    rw [hexAncilla, hexSites, e, List.length_map, ← List.countP_eq_length_filter]
  have h4 : (hexData (2 * t + 1)).length = (hexLoop (3 * t + 1) 0).countP (·.2) := by
    rw [hexData, hexSites, e, List.length_map, ← List.countP_eq_length_filter]
  have h5 := List.length_eq_countP_add_countP (fun q : Pt × Bool => q.2) (l := hexLoop (3 * t + 1) 0)
  have h6 : (hexLoop (3 * t + 1) 0).countP (fun a => decide ¬ a.2 = true) = (hexLoop (3 * t + 1) 0).countP (! ·.2) :=
    List.countP_congr fun a _ => by simp
  rw [h6] at h5
  refine ⟨?_, by omega⟩
  nlinarith

theorem hex_sizes_even (t : ℕ) : (hexData (2 * t)).length = t * (3 * t + 1) ∧
    2 * (hexAncilla (2 * t)).length = t * (3 * t + 1) := by
  have e : 2 * t + 2 * t / 2 = 3 * t := by omega
  obtain ⟨h1, h2⟩ := hexLoop_sizes_even t 0 rfl
  have h3 : (hexAncilla (2 * t)).length = (hexLoop (3 * t) 0).countP (! ·.2) := by
    rw [hexAncilla, hexSites, e, List.length_map, ← List.countP_eq_length_filter]
  have h4 : (hexData (2 * t)).length = (hexLoop (3 * t) 0).countP (·.2) := by
    rw [hexData, hexSites, e, List.length_map, ← List.countP_eq_length_filter]
  have h5 := List.length_eq_countP_add_countP (fun q : Pt × Bool => q.2) (l := hexLoop (3 * t) 0)
  have h6 : (hexLoop (3 * t) 0).countP (fun a => decide ¬ a.2 = true) = (hexLoop (3 * t) 0).countP (! ·.2) :=
    List.countP_congr fun a _ => by simp
  rw [h6] at h5
  refine ⟨?_, by omega⟩
  nlinarith

/-! ## Overlaps -/

def hexOffs : List Pt := [(-1, 1), (-2, 0), (-1, -1), (1, -1), (2, 0), (1, 1)]

theorem hexNbrs_eq (a : Pt) : hexNbrs a = shift a hexOffs := by
  obtain ⟨x, y⟩ := a
  simp [hexNbrs, shift, hexOffs, Prod.mk_add_mk, sub_eq_add_neg]

/-- Two ancillas have no common neighbours unless they are adjacent. -/
theorem hex_delta (a b : Pt) (ha : AncClass a) (hb : AncClass b) :
    (hexOffs.filter fun o => decide (o - (b - a) ∈ hexOffs)) = [] ∨
      b - a ∈ [((0, 0) : Pt), (3, 1), (-3, -1), (0, 2), (0, -2), (3, -1), (-3, 1)] := by
  obtain ⟨x, y⟩ := a
  obtain ⟨x', y'⟩ := b
  by_cases h : (hexOffs.filter fun o => decide (o - ((x', y') - (x, y)) ∈ hexOffs)) = []
  · exact .inl h
  · right
    rw [List.filter_eq_nil_iff] at h
    push Not at h
    obtain ⟨o, ho, h⟩ := h
    simp only [hexOffs, List.mem_cons, List.not_mem_nil, or_false] at ho
    simp only [AncClass] at ha hb
    have hd : ∃ p q : ℤ, x' - x = p ∧ y' - y = q := ⟨_, _, rfl, rfl⟩
    obtain ⟨p, q, hp, hq⟩ := hd
    have hpq : ((x', y') - (x, y) : Pt) = (p, q) := by rw [Prod.mk_sub_mk, hp, hq]
    rw [hpq] at h ⊢
    have hc : (p - 3 * q) % 6 = 0 := by omega
    clear ha hb hp hq
    simp only [List.mem_cons, Prod.mk.injEq, List.not_mem_nil, or_false]
    rcases ho with rfl | rfl | rfl | rfl | rfl | rfl
    all_goals
      simp only [hexOffs, Prod.mk_sub_mk, decide_eq_true_eq, List.mem_cons, Prod.mk.injEq, List.not_mem_nil, or_false] at h
      rcases h with ⟨h1, h2⟩ | ⟨h1, h2⟩ | ⟨h1, h2⟩ | ⟨h1, h2⟩ | ⟨h1, h2⟩ | ⟨h1, h2⟩ <;> omega

theorem hex_overlap_even (d : ℕ) (data : List Pt) (hd : IsOrder data (hexData d)) (a b : Pt)
    (ha : a ∈ hexAncilla d) (hb : b ∈ hexAncilla d) :
    dot (row data (hexNbrs a)) (row data (hexNbrs b)) = 0 := by
  have hX : (d + d / 2) % 3 ≠ 2 := by omega
  obtain ⟨X, e⟩ : ∃ X, d + d / 2 = X := ⟨_, rfl⟩
  rw [mem_hexAncilla, e] at ha hb
  rw [e] at hX
  rw [hexNbrs_eq, hexNbrs_eq, dot_shift data hd.1 a b _ _ (by decide)]
  have hmem : ∀ p, (p ∈ data) = (InTri X p ∧ ¬ AncClass p) := fun p => by
    rw [hd.2, mem_hexData, e]
  simp only [hmem]
  obtain ⟨⟨x, y⟩, hab⟩ : ∃ δ, b - a = δ := ⟨_, rfl⟩
  have hb' : b = a + (x, y) := by rw [← hab]; abel
  rcases hex_delta a b ha.2 hb.2 with h | h
  · rw [h]; rfl
  · rw [hab] at h ⊢
    simp only [hb'] at hb
    clear hb' hab
    obtain ⟨u, v⟩ := a
    have two : ∀ n : ℕ, n % 2 = 0 → ((n : ℕ) : ZMod 2) = 0 := fun n hn =>
      (ZMod.natCast_eq_zero_iff _ _).2 (Nat.dvd_of_mod_eq_zero hn)
    apply two
    simp only [List.mem_cons, Prod.mk.injEq, List.not_mem_nil, or_false] at h
    simp only [InTri, AncClass, Prod.mk_add_mk] at ha hb
    push_cast at ha hb
    rcases h with ⟨rfl, rfl⟩ | ⟨rfl, rfl⟩ | ⟨rfl, rfl⟩ | ⟨rfl, rfl⟩ | ⟨rfl, rfl⟩ | ⟨rfl, rfl⟩ | ⟨rfl, rfl⟩
    · rw [show (hexOffs.filter fun o => decide (o - ((0, 0) : Pt) ∈ hexOffs)) = hexOffs from by decide]
      refine even_cons2 (fun o => InTri X ((u, v) + o) ∧ ¬ AncClass ((u, v) + o)) _ _ _ ?_
        (even_cons2 (fun o => InTri X ((u, v) + o) ∧ ¬ AncClass ((u, v) + o)) _ _ _ ?_
        (even_cons2 (fun o => InTri X ((u, v) + o) ∧ ¬ AncClass ((u, v) + o)) _ _ _ ?_ rfl))
      all_goals
        simp only [InTri, AncClass, Prod.mk_add_mk]
        push_cast
        omega
    · rw [show (hexOffs.filter fun o => decide (o - ((3, 1) : Pt) ∈ hexOffs)) = [(2, 0), (1, 1)] from by decide]
      refine even_cons2 (fun o => InTri X ((u, v) + o) ∧ ¬ AncClass ((u, v) + o)) _ _ _ ?_ rfl
      simp only [InTri, AncClass, Prod.mk_add_mk]
      push_cast
      omega
    · rw [show (hexOffs.filter fun o => decide (o - ((-3, -1) : Pt) ∈ hexOffs)) = [(-2, 0), (-1, -1)] from by decide]
      refine even_cons2 (fun o => InTri X ((u, v) + o) ∧ ¬ AncClass ((u, v) + o)) _ _ _ ?_ rfl
      simp only [InTri, AncClass, Prod.mk_add_mk]
      push_cast
      omega
    · rw [show (hexOffs.filter fun o => decide (o - ((0, 2) : Pt) ∈ hexOffs)) = [(-1, 1), (1, 1)] from by decide]
      refine even_cons2 (fun o => InTri X ((u, v) + o) ∧ ¬ AncClass ((u, v) + o)) _ _ _ ?_ rfl
      simp only [InTri, AncClass, Prod.mk_add_mk]
      push_cast
      omega
    · rw [show (hexOffs.filter fun o => decide (o - ((0, -2) : Pt) ∈ hexOffs)) = [(-1, -1), (1, -1)] from by decide]
      refine even_cons2 (fun o => InTri X ((u, v) + o) ∧ ¬ AncClass ((u, v) + o)) _ _ _ ?_ rfl
      simp only [InTri, AncClass, Prod.mk_add_mk]
      push_cast
      omega
    · rw [show (hexOffs.filter fun o => decide (o - ((3, -1) : Pt) ∈ hexOffs)) = [(1, -1), (2, 0)] from by decide]
      refine even_cons2 (fun o => InTri X ((u, v) + o) ∧ ¬ AncClass ((u, v) + o)) _ _ _ ?_ rfl
      simp only [InTri, AncClass, Prod.mk_add_mk]
      push_cast
      omega
    · rw [show (hexOffs.filter fun o => decide (o - ((-3, 1) : Pt) ∈ hexOffs)) = [(-1, 1), (-2, 0)] from by decide]
      refine even_cons2 (fun o => InTri X ((u, v) + o) ∧ ¬ AncClass ((u, v) + o)) _ _ _ ?_ rfl
      simp only [InTri, AncClass, Prod.mk_add_mk]
      push_cast
      omega

/-- Every ancilla has a data qubit that other faces share only if they are smaller in `x + y`. -/
theorem hex_pivot (X : ℕ) (a : Pt) (ha : InTri X a ∧ AncClass a) :
    ∃ q : Pt, q ∈ hexNbrs a ∧ (InTri X q ∧ ¬ AncClass q) ∧
      ∀ b, InTri X b ∧ AncClass b → q ∈ hexNbrs b → b = a ∨ b.1 + b.2 < a.1 + a.2 := by
  obtain ⟨x, y⟩ := a
  by_cases hxy : x = y
  · refine ⟨(x - 1, y - 1), by simp [hexNbrs], ?_, ?_⟩
    · simp only [InTri, AncClass] at ha ⊢
      omega
    · rintro ⟨u, v⟩ hb h
      simp only [InTri, AncClass, hexNbrs, List.mem_cons, Prod.mk.injEq, List.not_mem_nil, or_false] at ha hb h ⊢
      rcases h with ⟨h1, h2⟩ | ⟨h1, h2⟩ | ⟨h1, h2⟩ | ⟨h1, h2⟩ | ⟨h1, h2⟩ | ⟨h1, h2⟩ <;> omega
  · refine ⟨(x - 2, y), by simp [hexNbrs], ?_, ?_⟩
    · simp only [InTri, AncClass] at ha ⊢
      omega
    · rintro ⟨u, v⟩ hb h
      simp only [InTri, AncClass, hexNbrs, List.mem_cons, Prod.mk.injEq, List.not_mem_nil, or_false] at ha hb h ⊢
      rcases h with ⟨h1, h2⟩ | ⟨h1, h2⟩ | ⟨h1, h2⟩ | ⟨h1, h2⟩ | ⟨h1, h2⟩ | ⟨h1, h2⟩ <;> omega

theorem hex_rank (d : ℕ) (data anc : List Pt) (hd : IsOrder data (hexData d)) (ha : IsOrder anc (hexAncilla d)) :
    Module.finrank (ZMod 2) (rowSpan (checkMatrix data (anc.map hexNbrs))) = anc.length := by
  rw [checkMatrix_eq, List.map_map]
  refine rank_of_pivots anc ha.1 (fun a => row data (hexNbrs a)) (fun a => a.1 + a.2) fun a h => ?_
  obtain ⟨q, h1, h2, h3⟩ := hex_pivot _ a ((mem_hexAncilla d a).1 ((ha.2 a).1 h))
  obtain ⟨j, hj⟩ := row_at data hd.1 q ((hd.2 q).2 ((mem_hexData d q).2 h2))
  refine ⟨j, by rw [hj, if_pos h1], fun b hb hne => ?_⟩
  rw [hj] at hne
  by_cases hq : q ∈ hexNbrs b
  · exact h3 b ((mem_hexAncilla d b).1 ((ha.2 b).1 hb)) hq
  · rw [if_neg hq] at hne; exact absurd rfl hne

/-- The constructor accepts any lattice whose faces overlap evenly. -/
theorem colorCode_ok (lib : Mod2) (d : ℕ) (hd : 0 < d) (data : List Pt) (faces : List (List Pt)) (hf : faces ≠ [])
    (horth : ∀ f ∈ faces, ∀ g ∈ faces, dot (row data f) (row data g) = 0) :
    ∃ c : Code, colorCode lib d data faces = .ok c ∧ c.n = data.length ∧ c.distance = d ∧
      c.stab.k = (data.length : ℤ) - 2 * Module.finrank (ZMod 2) (rowSpan (checkMatrix data faces)) := by
  have horth' : ∀ r ∈ checkMatrix data faces, ∀ s ∈ checkMatrix data faces, dot r s = 0 := by
    intro r hr s hs
    rw [checkMatrix_eq] at hr hs
    obtain ⟨a, ha, rfl⟩ := List.mem_map.1 hr
    obtain ⟨b, hb, rfl⟩ := List.mem_map.1 hs
    exact horth a ha b hb
  have hne : checkMatrix data faces ++ checkMatrix data faces ≠ [] := by
    rw [checkMatrix_eq]; simpa using hf
  obtain ⟨c, hc⟩ := C08_ctor_complete lib data.length _ _ (d : ℤ) none none horth' hne (by exact_mod_cast hd)
    (by simp) (by simp)
  obtain ⟨-, h1, h2, -, -, -, -, h4, -, -, h5, -⟩ := C08_ctor_sound _ _ _ _ _ _ _ hc
  refine ⟨c, hc, (h1 _ rfl).1.symm, h5, ?_⟩
  have e1 := h1 _ rfl
  have e2 := h2 _ rfl
  obtain ⟨n, hx, hz, lx, lz, stab, dd, dx, dz⟩ := c
  simp only at e1 e2 h4 ⊢
  obtain ⟨rfl, e1⟩ := e1
  have e1 := eq_of_heq e1
  have e2 := eq_of_heq e2.2
  subst e1; subst e2
  rw [h4]; ring

/-- C15: for every odd distance `d ≥ 3` and every iteration order of the sets of qubits, the hexagonal
lattice has `(3d² + 1)/4` data qubits, any two faces share an even number of them, and the constructor
accepts the code, which encodes one qubit. -/
theorem C15_hexagonal (lib : Mod2) (d : ℕ) (hodd : d % 2 = 1) (h3 : 3 ≤ d) (data anc : List Pt)
    (hdata : IsOrder data (hexData d)) (hanc : IsOrder anc (hexAncilla d)) :
    4 * data.length = 3 * d ^ 2 + 1 ∧ 2 * anc.length + 1 = data.length ∧
    (∀ a ∈ anc, ∀ b ∈ anc, Even (data.filter fun q => decide (q ∈ hexNbrs a ∧ q ∈ hexNbrs b)).length) ∧
    ∃ c : Code, colorCode lib d data (anc.map hexNbrs) = .ok c ∧ c.n = data.length ∧ c.stab.k = 1 ∧ c.distance = d := by
  obtain ⟨t, rfl⟩ : ∃ t, d = 2 * t + 1 := ⟨d / 2, by omega⟩
  obtain ⟨s1, s2⟩ := hex_sizes t
  rw [← hdata.length_eq (hexData_nodup _)] at s1
  rw [← hanc.length_eq (hexAncilla_nodup _)] at s2
  have hk : 2 * anc.length + 1 = data.length := by omega
  have horth : ∀ a ∈ anc, ∀ b ∈ anc, dot (row data (hexNbrs a)) (row data (hexNbrs b)) = 0 := fun a ha b hb =>
    hex_overlap_even _ data hdata a b ((hanc.2 a).1 ha) ((hanc.2 b).1 hb)
  refine ⟨by rw [s1]; ring, hk, ?_, ?_⟩
  · intro a ha b hb
    apply even_of_cast
    rw [← dot_rows_data data hdata.1]
    exact horth a ha b hb
  · have hne : anc.map hexNbrs ≠ [] := by
      intro h
      rw [List.map_eq_nil_iff] at h
      subst h
      have : 3 * t * (t + 1) = 0 := by simpa using s2.symm
      rcases Nat.mul_eq_zero.1 this with h | h <;> omega
    obtain ⟨c, h1, h2, h3, h4⟩ := colorCode_ok lib (2 * t + 1) (by omega) data _ hne 
      (List.forall_mem_map.2 fun a ha => List.forall_mem_map.2 fun b hb => horth a ha b hb)
    refine ⟨c, h1, h2, ?_, h3⟩
    rw [h4, hex_rank _ data anc hdata hanc]
    have : (data.length : ℤ) = 2 * anc.length + 1 := by exact_mod_cast hk.symm
    omega

/-- C15: an even distance is accepted too, but the code then encodes nothing. -/
theorem C15_even_distance (lib : Mod2) (d : ℕ) (heven : d % 2 = 0) (h2 : 2 ≤ d) (data anc : List Pt)
    (hdata : IsOrder data (hexData d)) (hanc : IsOrder anc (hexAncilla d)) :
    ∃ c : Code, colorCode lib d data (anc.map hexNbrs) = .ok c ∧ c.n = data.length ∧ c.stab.k = 0 := by
  obtain ⟨t, rfl⟩ : ∃ t, d = 2 * t := ⟨d / 2, by omega⟩
  obtain ⟨s1, s2⟩ := hex_sizes_even t
  rw [← hdata.length_eq (hexData_nodup _)] at s1
  rw [← hanc.length_eq (hexAncilla_nodup _)] at s2
  have hk : 2 * anc.length = data.length := by omega
  have horth : ∀ a ∈ anc, ∀ b ∈ anc, dot (row data (hexNbrs a)) (row data (hexNbrs b)) = 0 := fun a ha b hb =>
    hex_overlap_even _ data hdata a b ((hanc.2 a).1 ha) ((hanc.2 b).1 hb)
  have hne : anc.map hexNbrs ≠ [] := by
    intro h
    rw [List.map_eq_nil_iff] at h
    subst h
    have : t * (3 * t + 1) = 0 := by simpa using s2.symm
    rcases Nat.mul_eq_zero.1 this with h | h <;> omega
  obtain ⟨c, h1, h2, h3, h4⟩ := colorCode_ok lib (2 * t) (by omega) data _ hne 
      (List.forall_mem_map.2 fun a ha => List.forall_mem_map.2 fun b hb => horth a ha b hb)
  refine ⟨c, h1, h2, ?_⟩
  rw [h4, hex_rank _ data anc hdata hanc]
  have : (data.length : ℤ) = 2 * anc.length := by exact_mod_cast hk.symm
  omega

example : IsOrder (hexData 5) (hexData 5) ∧ (hexData 5).length = 19 ∧ (hexAncilla 5).length = 9 :=
  ⟨⟨hexData_nodup 5, fun _ => Iff.rfl⟩, by decide, by decide⟩
example : IsOrder (hexData 4).reverse (hexData 4) ∧ (hexData 4).length = 14 :=
  ⟨⟨(List.nodup_reverse).2 (hexData_nodup 4), fun _ => List.mem_reverse⟩, by decide⟩

end Verif.Lattice
