import Verif.Props.ColorLattice2
import Verif.Props.LightsOut
import Verif.Model.LightsOutSim
import Verif.Lemmas.Symbolic

/-!
# C72: the colour-code decoder on the colour-code lattices
-/

namespace Verif.Lattice
open Verif CSS LO

/-! ## The two adjacency dictionaries agree -/

theorem count_zip (q l : ℕ) (F : List (List ℕ)) : ∀ k : ℕ,
    ((F.zipIdx k).flatMap fun f => (f.1.filter (· == q)).map fun _ => f.2).count (k + l) = (F.getD l []).count q := by
  induction F generalizing l with
  | nil => intro k; simp
  | cons a F ih =>
    intro k
    rw [List.zipIdx_cons, List.flatMap_cons, List.count_append]
    have h1 : ((a.filter (· == q)).map fun _ => k).count (k + l) = if l = 0 then a.count q else 0 := by
      rw [List.map_const', List.count_replicate]
      by_cases h : l = 0
      · subst h; simp [List.count_eq_length_filter]
      · rw [if_neg h, if_neg (by simp; omega)]
    rw [h1]
    cases l with
    | zero =>
      have h2 : ((F.zipIdx (k + 1)).flatMap fun f => (f.1.filter (· == q)).map fun _ => f.2).count (k + 0) = 0 := by
        rw [List.count_eq_zero]
        intro h
        obtain ⟨f, hf, h⟩ := List.mem_flatMap.1 h
        obtain ⟨x, _, h⟩ := List.mem_map.1 h
        have := List.le_snd_of_mem_zipIdx hf
        omega
      rw [h2]; simp
    | succ l =>
      have := ih l (k + 1)
      rw [show k + 1 + l = k + (l + 1) from by ring] at this
      rw [this]; simp

theorem faceQubits_lt (data f : List Pt) : ∀ i ∈ faceQubits data f, i < data.length := by
  intro i hi
  obtain ⟨c, _, h⟩ := List.mem_filterMap.1 hi
  rw [List.idxOf?, List.findIdx?_eq_some_iff_getElem] at h
  exact h.1

/-- C72: the two adjacency dictionaries of any layout agree, which is what the decoder relies on. -/
theorem C72_layout_consistent (data : List Pt) (faces : List (List Pt)) (ctx : List (List Constr)) :
    Consistent { lightsToSwitches := facesToQubits data faces, switchesToLights := qubitsToFaces data faces, ctx := ctx } := by
  refine ⟨?_, ?_, ?_⟩
  · intro ix hix i hi
    obtain ⟨f, _, rfl⟩ := List.mem_map.1 hix
    simpa [qubitsToFaces] using faceQubits_lt data f i hi
  · intro ls hls l hl
    obtain ⟨q, _, rfl⟩ := List.mem_map.1 hls
    obtain ⟨f, hf, hl⟩ := List.mem_flatMap.1 hl
    obtain ⟨_, _, rfl⟩ := List.mem_map.1 hl
    have := List.snd_lt_of_mem_zipIdx hf
    simpa using this
  · intro i ls l ix h1 h2
    simp only [qubitsToFaces] at h1
    obtain ⟨hi, h1⟩ := List.getElem?_eq_some_iff.1 h1
    rw [List.getElem_map, List.getElem_range] at h1
    subst h1
    have := count_zip i l (facesToQubits data faces) 0
    rw [zero_add] at this
    rw [this]
    simp only at h2
    rw [List.getD_eq_getElem?_getD, h2]
    rfl

/-! ## Syndromes and light patterns -/

/-- An error as a set of pressed switches. -/
def pressed {n : ℕ} (e : Vec n) (i : ℕ) : Bool := if h : i < n then decide (e ⟨i, h⟩ = 1) else false

theorem dot_list {n : ℕ} (qs : List ℕ) (hn : qs.Nodup) (hlt : ∀ q ∈ qs, q < n) (e : Vec n) :
    dot (fun j : Fin n => if j.val ∈ qs then (1 : ZMod 2) else 0) e = ((qs.countP (pressed e) : ℕ) : ZMod 2) := by
  induction qs with
  | nil => simp [dot]
  | cons q qs ih =>
    rw [List.nodup_cons] at hn
    have hq := hlt q (by simp)
    have h1 : (fun j : Fin n => if j.val ∈ q :: qs then (1 : ZMod 2) else 0) =
        (fun j : Fin n => if j = ⟨q, hq⟩ then (1 : ZMod 2) else 0) + fun j : Fin n => if j.val ∈ qs then (1 : ZMod 2) else 0 := by
      funext j
      simp only [Pi.add_apply, List.mem_cons]
      by_cases hj : j = ⟨q, hq⟩
      · subst hj; simp [hn.1]
      · have : j.val ≠ q := fun h => hj (Fin.ext h)
        simp [hj, this]
    rw [h1, dot_add_left, ih hn.2 (fun x hx => hlt x (by simp [hx])), List.countP_cons]
    have h2 : dot (fun j : Fin n => if j = ⟨q, hq⟩ then (1 : ZMod 2) else 0) e = e ⟨q, hq⟩ := by
      simp [dot]
    rw [h2]
    rcases zmod2_cases (e ⟨q, hq⟩) with h | h
    · simp [pressed, hq, h]
    · simp [pressed, hq, h, add_comm]

theorem faceQubits_nodup (data : List Pt) (hn : data.Nodup) (f : List Pt) (hf : f.Nodup) : (faceQubits data f).Nodup := by
  refine List.Nodup.filterMap ?_ hf
  intro a b c h1 h2
  have h1 := (idxOf?_iff data hn a c).1 h1
  have h2 := (idxOf?_iff data hn b c).1 h2
  rw [h1] at h2
  exact Option.some.inj h2

theorem dot_row (data : List Pt) (hn : data.Nodup) (f : List Pt) (hf : f.Nodup) (e : Vec data.length) :
    dot (row data f) e = (((faceQubits data f).countP (pressed e) : ℕ) : ZMod 2) :=
  dot_list _ (faceQubits_nodup data hn f hf) (faceQubits_lt data f) e

theorem cast_ne_zero (n : ℕ) : ((n : ℕ) : ZMod 2) ≠ 0 ↔ n % 2 = 1 := by
  rw [Ne, ZMod.natCast_eq_zero_iff]; omega

/-- An error solves the pattern of its syndrome, and any solution has that syndrome. -/
theorem solves_iff (data : List Pt) (hn : data.Nodup) (faces : List (List Pt)) (hf : ∀ f ∈ faces, f.Nodup)
    (e e' : Vec data.length) :
    Solves (facesToQubits data faces) (lightsOf (checkMatrix data faces) e) (pressed e') ↔
      mulVec (checkMatrix data faces) e' = mulVec (checkMatrix data faces) e := by
  have key : ∀ f ∈ faces, ((faceQubits data f).countP (pressed e') % 2 = 1 ↔ decide (dot (row data f) e ≠ 0) = true) ↔
      dot (row data f) e' = dot (row data f) e := by
    intro f hfm
    rw [decide_eq_true_eq, ← cast_ne_zero, ← dot_row data hn f (hf f hfm)]
    rcases zmod2_cases (dot (row data f) e') with h | h <;> rcases zmod2_cases (dot (row data f) e) with h' | h' <;>
      simp [h, h']
  rw [checkMatrix_eq]
  simp only [lightsOf, ColorCode.getSyndrome, mulVec, List.map_map, Solves, facesToQubits]
  constructor
  · intro h
    refine List.map_congr_left fun f hfm => ?_
    obtain ⟨l, hl, rfl⟩ := List.getElem_of_mem hfm
    refine (key _ hfm).1 (h l _ _ ?_ ?_)
    · rw [List.getElem?_map, List.getElem?_eq_getElem hl]; rfl
    · rw [List.getElem?_map, List.getElem?_eq_getElem hl]; rfl
  · intro h l ix b h1 h2
    rw [List.getElem?_map] at h1 h2
    obtain ⟨f, hfl, rfl⟩ := Option.map_eq_some_iff.1 h1
    rw [hfl, Option.map_some] at h2
    cases h2
    have hfm := List.mem_of_getElem? hfl
    exact (key f hfm).2 (List.map_inj_left.1 h f hfm)

theorem countP_pressed {n : ℕ} (e : Vec n) : (List.range n).countP (pressed e) = wt e := by
  rw [SP.wt_eq_countP, ← List.map_coe_finRange_eq_range, List.countP_map]
  refine List.countP_congr fun i _ => ?_
  simp [pressed]

/-- C72: the decoder for any layout whose faces have at least two qubits: for every error, the
estimate has the syndrome of the error and no error with that syndrome is lighter. -/
theorem C72_decode (solver : Solver) (hs : solver.Optimal) (data : List Pt) (hn : data.Nodup) (faces : List (List Pt))
    (hf : ∀ f ∈ faces, f.Nodup) (h2 : ∀ f ∈ faces, 2 ≤ (faceQubits data f).length) :
    ∃ p, Problem.preconstruct { lightsToSwitches := facesToQubits data faces, switchesToLights := qubitsToFaces data faces } = .ok p ∧
      ∀ e : Vec data.length, ∃ sw, (solve solver p (lightsOf (checkMatrix data faces) e)).1 = .ok sw ∧
        (solve solver p (lightsOf (checkMatrix data faces) e)).2.1 = p ∧
        sw.length = data.length ∧ (∀ b ∈ sw, b = 0 ∨ b = 1) ∧
        mulVec (checkMatrix data faces) (vecOf data.length sw) = mulVec (checkMatrix data faces) e ∧
        wt (vecOf data.length sw) = sw.sum ∧
        ∀ e', mulVec (checkMatrix data faces) e' = mulVec (checkMatrix data faces) e → wt (vecOf data.length sw) ≤ wt e' := by
  obtain ⟨p, hp⟩ := (C20_preconstruct (facesToQubits data faces) (qubitsToFaces data faces)).2 (by
    simpa [facesToQubits] using h2)
  have hready : Ready p := ⟨_, _, hp⟩
  have hl : p.lightsToSwitches = facesToQubits data faces ∧ p.switchesToLights = qubitsToFaces data faces := by
    have hp' := hp
    simp only [Problem.preconstruct, bind_eq_ok] at hp'
    obtain ⟨css, -, hp'⟩ := hp'
    cases hp'
    exact ⟨rfl, rfl⟩
  have hc : Consistent p := by
    have := C72_layout_consistent data faces p.ctx
    rw [← hl.1, ← hl.2] at this
    exact this
  refine ⟨p, hp, fun e => ?_⟩
  have hlen : (lightsOf (checkMatrix data faces) e).length = p.lightsToSwitches.length := by
    rw [hl.1, checkMatrix_eq]; simp [lightsOf, ColorCode.getSyndrome, mulVec, facesToQubits]
  have hnl : p.switchesToLights.length = data.length := by rw [hl.2]; simp [qubitsToFaces]
  rcases solve_eq solver hs p hready hc _ hlen with ⟨_, σ, h3, h4, h5⟩ | ⟨hnex, _⟩
  · rw [h5, hnl]
    set sw := (List.range data.length).map fun i => if σ (.switch i) then 1 else 0 with hsw
    have hpr : ∀ i < data.length, pressed (vecOf data.length sw) i = σ (.switch i) := by
      intro i hi
      simp only [pressed, hi, dif_pos, vecOf, hsw]
      rw [List.getD_eq_getElem?_getD, List.getElem?_map, List.getElem?_range hi]
      simp only [Option.map_some, Option.getD_some]
      by_cases hσ : σ (.switch i) = true
      · simp [hσ]
      · have hσ' : σ (.switch i) = false := by simpa using hσ
        simp [hσ']
    have hsol : ∀ s : ℕ → Bool, (∀ i < data.length, s i = σ (.switch i)) →
        Solves p.lightsToSwitches (lightsOf (checkMatrix data faces) e) s := by
      intro s hs l ix b hix hb
      rw [← h3 l ix b hix hb]
      have : ix.countP s = ix.countP fun i => σ (.switch i) := by
        refine List.countP_congr fun i hi => ?_
        have := hc.switch_range ix (List.mem_of_getElem? hix) i hi
        rw [hnl] at this
        rw [hs i this]
      rw [this]
    have hw : wt (vecOf data.length sw) = presses p fun i => σ (.switch i) := by
      rw [← countP_pressed, presses, hnl]
      refine List.countP_congr fun i hi => ?_
      rw [hpr i (List.mem_range.1 hi)]
    refine ⟨sw, rfl, rfl, by simp [hsw], ?_, ?_, ?_, ?_⟩
    · intro b hb
      simp only [hsw, List.mem_map] at hb
      obtain ⟨i, _, rfl⟩ := hb
      split <;> simp
    · rw [← solves_iff data hn faces hf, ← hl.1]
      exact hsol _ hpr
    · rw [hw, presses, hnl, hsw]
      generalize data.length = n
      induction n with
      | zero => rfl
      | succ n ih =>
        rw [List.range_succ, List.countP_append, List.map_append, List.sum_append, ih]
        by_cases h : σ (.switch n) <;> simp [h]
    · intro e' he'
      rw [hw, ← countP_pressed e']
      have := h4 (pressed e') (by rw [hl.1]; exact (solves_iff data hn faces hf e e').2 he')
      rw [presses, presses, hnl] at this
      rw [presses, hnl]
      exact this
  · exact absurd ⟨pressed e, by rw [hl.1]; exact (solves_iff data hn faces hf e e).2 rfl⟩ hnex

/-! ## Faces of the lattices have at least two qubits -/

theorem two_le_face (data : List Pt) (hn : data.Nodup) (f : List Pt) (a b : Pt) (hab : a ≠ b) (ha : a ∈ f) (hb : b ∈ f)
    (ha' : a ∈ data) (hb' : b ∈ data) : 2 ≤ (faceQubits data f).length := by
  obtain ⟨i, hi, hia⟩ := List.mem_iff_getElem.1 ha'
  obtain ⟨j, hj, hjb⟩ := List.mem_iff_getElem.1 hb'
  have h1 : i ∈ faceQubits data f := (mem_faceQubits data hn f ⟨i, hi⟩).2 (by show data[i] ∈ f; rw [hia]; exact ha)
  have h2 : j ∈ faceQubits data f := (mem_faceQubits data hn f ⟨j, hj⟩).2 (by show data[j] ∈ f; rw [hjb]; exact hb)
  have hij : i ≠ j := fun h => by subst h; exact hab (hia.symm.trans hjb)
  have hnd : [i, j].Nodup := by simp [hij]
  have := (hnd.subperm (l₂ := faceQubits data f) (fun x hx => by
    simp only [List.mem_cons, List.not_mem_nil, or_false] at hx
    rcases hx with rfl | rfl
    · exact h1
    · exact h2)).length_le
  simpa using this

theorem hex_face_size (d : ℕ) (data : List Pt) (hd : IsOrder data (hexData d)) (a : Pt) (ha : a ∈ hexAncilla d) :
    2 ≤ (faceQubits data (hexNbrs a)).length := by
  rw [mem_hexAncilla] at ha
  obtain ⟨x, y⟩ := a
  have hm : ∀ p, InTri (d + d / 2) p ∧ ¬ AncClass p → p ∈ data := fun p hp => (hd.2 p).2 ((mem_hexData d p).2 hp)
  by_cases hy : y = 0
  · refine two_le_face data hd.1 _ (x - 2, y) (x - 1, y + 1) (by simp) (by simp [hexNbrs]) (by simp [hexNbrs]) (hm _ ?_) (hm _ ?_)
    · simp only [InTri, AncClass] at ha ⊢; omega
    · simp only [InTri, AncClass] at ha ⊢; omega
  · refine two_le_face data hd.1 _ (x - 1, y - 1) (x + 1, y - 1) (by simp; omega) (by simp [hexNbrs]) (by simp [hexNbrs]) (hm _ ?_) (hm _ ?_)
    · simp only [InTri, AncClass] at ha ⊢; omega
    · simp only [InTri, AncClass] at ha ⊢; omega

theorem so_face_size (t : ℕ) (data : List Pt) (hd : IsOrder data (soOf .data (2 * t + 1))) (f : Bool × Pt) (hf : InSO t f) :
    2 ≤ (faceQubits data (faceOf f)).length := by
  have hm : ∀ p, SO t p .data → p ∈ data := fun p hp => (hd.2 p).2 ((mem_soOf t _ p).2 hp)
  obtain ⟨b, x, y⟩ := f
  cases b
  · simp only [InSO, SO, Bool.false_eq_true, if_false] at hf
    refine two_le_face data hd.1 _ (x - 1, y - 1) (x + 1, y - 1) (by simp; omega) (by simp [faceOf, squareNbrs])
      (by simp [faceOf, squareNbrs]) (hm _ ?_) (hm _ ?_)
    · simp only [SO]; omega
    · simp only [SO]; omega
  · simp only [InSO, SO, if_true] at hf
    by_cases hy : y = 0
    · refine two_le_face data hd.1 _ (x - 2, y + 1) (x + 2, y + 1) (by simp; omega) (by simp [faceOf, octagonNbrs])
        (by simp [faceOf, octagonNbrs]) (hm _ ?_) (hm _ ?_)
      · simp only [SO]; omega
      · simp only [SO]; omega
    · refine two_le_face data hd.1 _ (x - 1, y - 2) (x + 1, y - 2) (by simp; omega) (by simp [faceOf, octagonNbrs])
        (by simp [faceOf, octagonNbrs]) (hm _ ?_) (hm _ ?_)
      · simp only [SO]; omega
      · simp only [SO]; omega

/-- The decoder works on a layout: it can be set up, and for every error it returns a lightest error
with the same syndrome and leaves the object as it was. -/
def DecodesOptimally (solver : Solver) (data : List Pt) (faces : List (List Pt)) : Prop :=
  ∃ p, Problem.preconstruct { lightsToSwitches := facesToQubits data faces, switchesToLights := qubitsToFaces data faces } = .ok p ∧
    ∀ e : Vec data.length, ∃ sw, (solve solver p (lightsOf (checkMatrix data faces) e)).1 = .ok sw ∧
      (solve solver p (lightsOf (checkMatrix data faces) e)).2.1 = p ∧
      sw.length = data.length ∧ (∀ b ∈ sw, b = 0 ∨ b = 1) ∧
      mulVec (checkMatrix data faces) (vecOf data.length sw) = mulVec (checkMatrix data faces) e ∧
      wt (vecOf data.length sw) = sw.sum ∧
      ∀ e', mulVec (checkMatrix data faces) e' = mulVec (checkMatrix data faces) e → wt (vecOf data.length sw) ≤ wt e'

/-- C72: on the hexagonal code of every distance. -/
theorem C72_hexagonal (solver : Solver) (hs : solver.Optimal) (d : ℕ) (data anc : List Pt)
    (hdata : IsOrder data (hexData d)) (hanc : IsOrder anc (hexAncilla d)) :
    DecodesOptimally solver data (anc.map hexNbrs) := by
  refine C72_decode solver hs data hdata.1 _ ?_ ?_
  · refine List.forall_mem_map.2 fun a _ => ?_
    rw [hexNbrs_eq]
    exact shift_nodup _ _ (by decide)
  · exact List.forall_mem_map.2 fun a ha => hex_face_size d data hdata a ((hanc.2 a).1 ha)

/-- C72: on the square-octagon code of every odd distance. -/
theorem C72_square_octagon (solver : Solver) (hs : solver.Optimal) (d : ℕ) (hodd : d % 2 = 1) (data sq oc : List Pt)
    (hdata : IsOrder data (soOf .data d)) (hsq : IsOrder sq (soOf .square d)) (hoc : IsOrder oc (soOf .octagon d)) :
    DecodesOptimally solver data (soFaces sq oc) := by
  obtain ⟨t, rfl⟩ : ∃ t, d = 2 * t + 1 := ⟨d / 2, by omega⟩
  refine C72_decode solver hs data hdata.1 _ ?_ ?_
  · intro f hf
    rcases List.mem_append.1 hf with hf | hf
    · obtain ⟨a, _, rfl⟩ := List.mem_map.1 hf
      rw [squareNbrs_eq]; exact shift_nodup _ _ (by decide)
    · obtain ⟨a, _, rfl⟩ := List.mem_map.1 hf
      rw [octagonNbrs_eq]; exact shift_nodup _ _ (by decide)
  · intro f hf
    rcases List.mem_append.1 hf with hf | hf
    · obtain ⟨a, ha, rfl⟩ := List.mem_map.1 hf
      exact so_face_size t data hdata (false, a) ((mem_soOf t _ a).1 ((hsq.2 a).1 ha))
    · obtain ⟨a, ha, rfl⟩ := List.mem_map.1 hf
      exact so_face_size t data hdata (true, a) ((mem_soOf t _ a).1 ((hoc.2 a).1 ha))

example : ∃ solver : Solver, DecodesOptimally solver (hexData 3) ((hexAncilla 3).map hexNbrs) := by
  obtain ⟨s, hs⟩ := exists_optimal
  exact ⟨s, C72_hexagonal s hs 3 _ _ ⟨hexData_nodup 3, fun _ => Iff.rfl⟩ ⟨hexAncilla_nodup 3, fun _ => Iff.rfl⟩⟩

/-! ## Simulation -/

/-- `l` is the first logical operator that detects the residual. -/
def FirstDetected {n : ℕ} (L : List (Vec n)) (r : Vec n) (l : ℕ) : Prop :=
  (∃ x, L[l]? = some x ∧ dot x r = 1) ∧ ∀ j < l, ∀ x, L[j]? = some x → dot x r = 0

instance {n : ℕ} (L : List (Vec n)) (r : Vec n) (l : ℕ) : Decidable (FirstDetected L r l) := by
  unfold FirstDetected; infer_instance

/-- `m` is the least of the weights, or `-1` if there are none. -/
def IsMinWt (m : ℤ) (ws : List ℕ) : Prop := (ws = [] ∧ m = -1) ∨ ((∃ w ∈ ws, m = (w : ℤ)) ∧ ∀ w ∈ ws, m ≤ (w : ℤ))

theorem firstLogical_iff {n : ℕ} (L : List (Vec n)) (r : Vec n) (l : ℕ) :
    firstLogical L r = some l ↔ FirstDetected L r l := by
  rw [firstLogical, List.findIdx?_eq_some_iff_getElem]
  constructor
  · rintro ⟨h, h1, h2⟩
    refine ⟨⟨L[l], List.getElem?_eq_getElem h, ?_⟩, fun j hj x hx => ?_⟩
    · rcases zmod2_cases (dot L[l] r) with h' | h'
      · simp [h'] at h1
      · exact h'
    · have := h2 j hj
      obtain ⟨hj', rfl⟩ := List.getElem?_eq_some_iff.1 hx
      simpa using this
  · rintro ⟨⟨x, hx, h1⟩, h2⟩
    obtain ⟨hl, rfl⟩ := List.getElem?_eq_some_iff.1 hx
    refine ⟨hl, by simp [h1], fun j hj => ?_⟩
    have := h2 j hj L[j] (List.getElem?_eq_getElem (by omega))
    simpa using this

theorem record_facts {n : ℕ} (st : SimState) (L : List (Vec n)) (r : Vec n) :
    (∀ (l : ℕ) (x : ℕ), st.logicalErrors[l]? = some x →
      (record st L r).logicalErrors[l]? = some (x + if FirstDetected L r l then 1 else 0)) ∧
    (∀ (l : ℕ) (m : ℤ), st.minWt[l]? = some m → (record st L r).minWt[l]? =
      some (if FirstDetected L r l then (if m = -1 ∨ (wt r : ℤ) < m then (wt r : ℤ) else m) else m)) ∧
    (record st L r).logicalErrors.length = st.logicalErrors.length ∧ (record st L r).minWt.length = st.minWt.length ∧
    (record st L r).avgConstr = st.avgConstr ∧ (record st L r).avgSolve = st.avgSolve := by
  unfold record
  cases h : firstLogical L r with
  | none =>
    have hn : ∀ l, ¬ FirstDetected L r l := fun l hl => by
      rw [← firstLogical_iff, h] at hl; cases hl
    simp [hn]
  | some k =>
    have hk : ∀ l, FirstDetected L r l ↔ k = l := fun l => by
      rw [← firstLogical_iff, h, Option.some.injEq]
    refine ⟨?_, ?_, by simp, by simp, rfl, rfl⟩
    · intro l x hx
      simp only [hk, List.getElem?_modify, hx]
      by_cases hkl : k = l <;> simp [hkl]
    · intro l m hm
      simp only [hk, List.getElem?_modify, hm]
      by_cases hkl : k = l <;> simp [hkl]

theorem simLoop_facts {n : ℕ} (solver : Solver) (H L : List (Vec n)) (p : Problem) (est : Vec n → Vec n)
    (hest : ∀ e, ∃ sw, (solve solver p (lightsOf H e)).1 = .ok sw ∧ (solve solver p (lightsOf H e)).2.1 = p ∧
      sw.length = n ∧ vecOf n sw = est e)
    (ss : List (Sample n)) : ∀ (i : ℕ) (st : SimState) (pre : List (Vec n)),
    (∀ (l : ℕ) (m : ℤ), st.minWt[l]? = some m → IsMinWt m ((pre.filter fun r => decide (FirstDetected L r l)).map wt)) →
    ∃ st', simLoop solver H L p i st ss = .ok st' ∧
      st'.logicalErrors.length = st.logicalErrors.length ∧ st'.minWt.length = st.minWt.length ∧
      (∀ (l x : ℕ), st.logicalErrors[l]? = some x → st'.logicalErrors[l]? =
        some (x + ((ss.map fun s => s.error + est s.error).countP fun r => decide (FirstDetected L r l)))) ∧
      (∀ (l : ℕ) (m : ℤ), st'.minWt[l]? = some m →
        IsMinWt m (((pre ++ ss.map fun s => s.error + est s.error).filter fun r => decide (FirstDetected L r l)).map wt)) ∧
      st'.avgConstr * (i + ss.length : ℕ) = st.avgConstr * i + (ss.map (·.constrTime)).sum ∧
      st'.avgSolve * (i + ss.length : ℕ) = st.avgSolve * i + (ss.map (·.solveTime)).sum := by
  induction ss with
  | nil =>
    intro i st pre hpre
    refine ⟨st, rfl, rfl, rfl, by simp, by simpa using hpre, by simp, by simp⟩
  | cons s ss ih =>
    intro i st pre hpre
    obtain ⟨sw, h1, h2, h3, h4⟩ := hest s.error
    obtain ⟨r1, r2, r3, r4, r5, r6⟩ := record_facts st L (s.error + est s.error)
    have hrec : (if 0 < sw.length then record st L (s.error + vecOf n sw) else st) = record st L (s.error + est s.error) := by
      rw [h4]
      by_cases hn : 0 < sw.length
      · rw [if_pos hn]
      · rw [if_neg hn]
        have h0 : n = 0 := by omega
        have : firstLogical L (s.error + est s.error) = none := by
          rw [firstLogical, List.findIdx?_eq_none_iff]
          intro x _
          subst h0
          simp [dot]
        unfold record
        rw [this]
    have hstep : simLoop solver H L p i st (s :: ss) = simLoop solver H L p (i + 1)
        (rollTimes (record st L (s.error + est s.error)) i s.constrTime s.solveTime) ss := by
      rw [simLoop]
      rcases hsolve : solve solver p (lightsOf H s.error) with ⟨a, b, c⟩
      rw [hsolve] at h1 h2
      simp only at h1 h2
      subst h1; subst h2
      simp only [hrec]
    rw [hstep]
    obtain ⟨st', g1, g2, g3, g4, g5, g6, g7⟩ := ih (i + 1)
      (rollTimes (record st L (s.error + est s.error)) i s.constrTime s.solveTime) (pre ++ [s.error + est s.error]) (by
        intro l m hm
        have hm : (record st L (s.error + est s.error)).minWt[l]? = some m := hm
        have hlt : l < st.minWt.length := by
          rw [← r4]; exact (List.getElem?_eq_some_iff.1 hm).1
        have hold := r2 l _ (List.getElem?_eq_getElem hlt)
        have hp := hpre l _ (List.getElem?_eq_getElem hlt)
        rw [hm, Option.some.injEq] at hold
        rw [List.filter_append, List.map_append]
        by_cases hF : FirstDetected L (s.error + est s.error) l
        · rw [if_pos hF] at hold
          simp only [hF, decide_true, List.filter_cons_of_pos, List.filter_nil, List.map_cons, List.map_nil]
          right
          rcases hp with ⟨hnil, hm1⟩ | ⟨⟨w, hw, hmw⟩, hall⟩
          · rw [if_pos (.inl hm1)] at hold
            rw [hnil]
            exact ⟨⟨_, by simp, hold⟩, fun w hw => by simp at hw; subst hw; exact hold.le⟩
          · by_cases hc : (wt (s.error + est s.error) : ℤ) < st.minWt[l]
            · rw [if_pos (.inr hc)] at hold
              refine ⟨⟨_, by simp, hold⟩, fun v hv => ?_⟩
              rcases List.mem_append.1 hv with hv | hv
              · have := hall v hv; omega
              · simp at hv; subst hv; exact hold.le
            · rw [if_neg (by omega)] at hold
              refine ⟨⟨w, by simp [hw], by omega⟩, fun v hv => ?_⟩
              rcases List.mem_append.1 hv with hv | hv
              · have := hall v hv; omega
              · simp at hv; subst hv; omega
        · rw [if_neg hF] at hold
          rw [hold]
          simpa [hF] using hp)
    refine ⟨st', g1, g2.trans r3, g3.trans r4, ?_, ?_, ?_, ?_⟩
    · intro l x hx
      rw [g4 l _ (r1 l x hx), List.map_cons, List.countP_cons]
      by_cases hF : FirstDetected L (s.error + est s.error) l <;> simp [hF] <;> omega
    · intro l m hm
      have := g5 l m hm
      rwa [List.append_assoc, List.singleton_append] at this
    · rw [List.map_cons, List.sum_cons, List.length_cons, ← add_assoc, ← r5]
      rw [show i + ss.length + 1 = i + 1 + ss.length from by ring, g6]
      simp only [rollTimes]
      push_cast
      field_simp
      ring
    · rw [List.map_cons, List.sum_cons, List.length_cons, ← add_assoc, ← r6]
      rw [show i + ss.length + 1 = i + 1 + ss.length from by ring, g7]
      simp only [rollTimes]
      push_cast
      field_simp
      ring

/-- C73: on a layout the decoder handles, a simulation of any sampled errors ends without error and
reports: for every logical the fraction of the samples whose residual that logical is the first to
detect, the least weight of those residuals (`-1` if none), and the mean times.  The residual of a
sample is the error plus a fixed lightest error of the same syndrome. -/
theorem C73_simulation (solver : Solver) (data : List Pt) (faces : List (List Pt)) (hdec : DecodesOptimally solver data faces)
    (L : List (Vec data.length)) (samples : List (Sample data.length)) (hne : samples ≠ []) :
    ∃ (est : Vec data.length → Vec data.length) (r : SimResult),
      (∀ e, mulVec (checkMatrix data faces) (est e) = mulVec (checkMatrix data faces) e ∧
        ∀ e', mulVec (checkMatrix data faces) e' = mulVec (checkMatrix data faces) e → wt (est e) ≤ wt e') ∧
      simulateErrorRate solver (facesToQubits data faces) (qubitsToFaces data faces) (checkMatrix data faces) L samples = .ok r ∧
      r.logicalErrorRates.length = L.length ∧ r.minWts.length = L.length ∧
      (∀ l < L.length, r.logicalErrorRates[l]? =
        some (((samples.countP fun s => decide (FirstDetected L (s.error + est s.error) l) : ℕ) : ℚ) / samples.length)) ∧
      (∀ (l : ℕ) (m : ℤ), r.minWts[l]? = some m →
        IsMinWt m (((samples.map fun s => s.error + est s.error).filter fun x => decide (FirstDetected L x l)).map wt)) ∧
      r.avgConstr = (samples.map (·.constrTime)).sum / samples.length ∧
      r.avgSolve = (samples.map (·.solveTime)).sum / samples.length ∧ r.avgTotal = r.avgConstr + r.avgSolve := by
  obtain ⟨p, hp, hd⟩ := hdec
  choose sw h1 h2 h3 h4 h5 h6 h7 using hd
  have hst := simLoop_facts solver (checkMatrix data faces) L p (fun e => vecOf data.length (sw e))
    (fun e => ⟨sw e, h1 e, h2 e, h3 e, rfl⟩) samples 0 ⟨L.map fun _ => -1, L.map fun _ => 0, 0, 0⟩ [] (by
      intro l m hm
      left
      simp only [List.getElem?_map] at hm
      cases hl : L[l]? with
      | none => rw [hl] at hm; cases hm
      | some x => rw [hl] at hm; cases hm; exact ⟨rfl, rfl⟩)
  obtain ⟨st', g1, g2, g3, g4, g5, g6, g7⟩ := hst
  have hlen : (samples.length : ℚ) ≠ 0 := by
    have : samples.length ≠ 0 := fun h => hne (List.length_eq_zero_iff.1 h)
    exact_mod_cast this
  refine ⟨fun e => vecOf data.length (sw e), ⟨st'.logicalErrors.map fun k : ℕ => (k : ℚ) / (samples.length : ℚ), st'.avgConstr,
    st'.avgSolve, st'.avgConstr + st'.avgSolve, st'.minWt⟩, fun e => ⟨h5 e, h7 e⟩, ?_, ?_, ?_, ?_, ?_, ?_, ?_, rfl⟩
  · simp only [simulateErrorRate, hp, g1]
  · simpa using g2
  · simpa using g3
  · intro l hl
    have := g4 l 0 (by simp only [List.getElem?_map, List.getElem?_eq_getElem hl, Option.map_some])
    rw [List.getElem?_map, this, Option.map_some, zero_add, List.countP_map]
    rfl
  · intro l m hm
    have := g5 l m hm
    simpa using this
  · rw [eq_div_iff hlen]
    simpa using g6
  · rw [eq_div_iff hlen]
    simpa using g7

end Verif.Lattice
