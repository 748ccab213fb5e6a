import Verif.Spec.Prep
import Verif.Model.Synthesis
import Verif.Lemmas.CSS
import Verif.LinalgLemmas

/-! CNOT circuits as invertible linear maps. -/

namespace Verif.SP
open Verif Verif.Spec
variable {n : ℕ}

/-- `cnotX` as a linear map. -/
def cnL (g : CX n) : Vec n →ₗ[ZMod 2] Vec n where
  toFun e := cnotX e g
  map_add' a b := by
    simp only [cnotX, Pi.add_apply, add_smul]; abel
  map_smul' c a := by
    simp only [cnotX, Pi.smul_apply, smul_eq_mul, RingHom.id_apply, smul_add, mul_smul]

theorem cnotZ_eq (e : Vec n) (g : CX n) : cnotZ e g = cnotX e (g.2, g.1) := rfl

theorem cnotX_invol (e : Vec n) (g : CX n) (h : g.1 ≠ g.2) : cnotX (cnotX e g) g = e := by
  unfold cnotX
  simp only [Pi.add_apply, Pi.smul_apply, Pi.single_apply, h, if_false, smul_zero, add_zero]
  exact add_add_cancel' _ _

theorem dot_cnot (e f : Vec n) (g : CX n) (h : g.1 ≠ g.2) : dot (cnotX e g) (cnotZ f g) = dot e f := by
  unfold cnotX cnotZ
  rw [dot_add_left, dot_add_right, dot_add_right]
  have d1 : ∀ (c : ZMod 2) (a : Vec n) (i : Fin n), dot a (c • Pi.single i 1) = c * a i := by
    intro c a i; rw [dot_smul_right, dot_single]
  rw [dot_comm (e g.1 • Pi.single g.2 1) f, d1, d1, d1]
  simp only [Pi.smul_apply, Pi.single_apply, h, if_false, smul_zero, mul_zero, add_zero]
  rw [add_assoc, mul_comm (e g.1) (f g.2)]
  have : f g.2 * e g.1 + f g.2 * e g.1 = 0 := by
    rcases zmod2_cases (f g.2 * e g.1) with h | h <;> rw [h] <;> decide
  rw [this, add_zero]

/-- A CNOT list as a linear map on X operators. -/
def foldL : List (CX n) → (Vec n →ₗ[ZMod 2] Vec n)
  | [] => LinearMap.id
  | g :: gs => (foldL gs).comp (cnL g)

theorem foldL_apply (gs : List (CX n)) (e : Vec n) : foldL gs e = gs.foldl cnotX e := by
  induction gs generalizing e with
  | nil => rfl
  | cons g gs ih => simp only [foldL, LinearMap.comp_apply, ih, List.foldl_cons]; rfl

/-- Exchange control and target. -/
def swapL (gs : List (CX n)) : List (CX n) := gs.map fun g => (g.2, g.1)

theorem foldl_cnotZ (gs : List (CX n)) (e : Vec n) : gs.foldl cnotZ e = foldL (swapL gs) e := by
  induction gs generalizing e with
  | nil => rfl
  | cons g gs ih => simp only [List.foldl_cons, ih, swapL, List.map_cons, foldL, LinearMap.comp_apply]; rfl

theorem swapL_swapL (gs : List (CX n)) : swapL (swapL gs) = gs := by simp [swapL, Function.comp_def]

theorem foldl_append_cnot (a b : List (CX n)) (e : Vec n) :
    foldL (a ++ b) e = foldL b (foldL a e) := by
  rw [foldL_apply, foldL_apply, foldL_apply, List.foldl_append]

theorem foldL_reverse (gs : List (CX n)) (h : ∀ g ∈ gs, g.1 ≠ g.2) (e : Vec n) :
    foldL gs.reverse (foldL gs e) = e := by
  induction gs generalizing e with
  | nil => rfl
  | cons g gs ih =>
    rw [List.reverse_cons, foldl_append_cnot]
    have : foldL (g :: gs) e = foldL gs (cnotX e g) := by simp [foldL_apply]
    rw [this, ih (fun g' hg' => h g' (by simp [hg']))]
    rw [foldL_apply]
    exact cnotX_invol e g (h g (by simp))

theorem foldL_reverse' (gs : List (CX n)) (h : ∀ g ∈ gs, g.1 ≠ g.2) (e : Vec n) :
    foldL gs (foldL gs.reverse e) = e := by
  have := foldL_reverse gs.reverse (by simpa using h) e
  rwa [List.reverse_reverse] at this

theorem foldL_injective (gs : List (CX n)) (h : ∀ g ∈ gs, g.1 ≠ g.2) :
    Function.Injective (foldL gs) := by
  intro a b hab
  rw [← foldL_reverse gs h a, hab, foldL_reverse gs h b]

theorem dot_fold (gs : List (CX n)) (h : ∀ g ∈ gs, g.1 ≠ g.2) (e f : Vec n) :
    dot (foldL gs e) (foldL (swapL gs) f) = dot e f := by
  induction gs generalizing e f with
  | nil => rfl
  | cons g gs ih =>
    have h1 : foldL (g :: gs) e = foldL gs (cnotX e g) := by simp [foldL_apply]
    have h2 : foldL (swapL (g :: gs)) f = foldL (swapL gs) (cnotZ f g) := by
      simp [foldL_apply, swapL, cnotZ_eq]
    rw [h1, h2, ih (fun g' hg' => h g' (by simp [hg'])), dot_cnot _ _ _ (h g (by simp))]

theorem addCol_eq (M : List (Vec n)) (g : CX n) : addCol M g = M.map (cnL g) := by
  unfold addCol
  apply List.map_congr_left
  intro r _
  funext i
  show _ = cnotX r g i
  simp only [cnotX, Function.update_apply, Pi.add_apply, Pi.smul_apply, Pi.single_apply, smul_eq_mul]
  split
  · next h => subst h; simp [add_comm]
  · simp

theorem foldl_addCol (M : List (Vec n)) (gs : List (CX n)) : gs.foldl addCol M = M.map (foldL gs) := by
  induction gs generalizing M with
  | nil => simp [foldL]
  | cons g gs ih =>
    rw [List.foldl_cons, ih, addCol_eq, List.map_map]
    rfl

theorem rank_map_of_injective (f : Vec n →ₗ[ZMod 2] Vec n) (hf : Function.Injective f)
    (M : List (Vec n)) : rank (M.map f) = rank M := by
  rw [rank_eq_finrank, rank_eq_finrank, CSS.rowSpan_map]
  exact (Submodule.equivMapOfInjective f hf _).symm.finrank_eq

/-- Vectors supported on the qubits in `hs`. -/
theorem mem_span_singles (hs : List (Fin n)) (v : Vec n) :
    v ∈ Submodule.span (ZMod 2) {w : Vec n | ∃ q ∈ hs, w = Pi.single q 1} ↔ ∀ q, q ∉ hs → v q = 0 := by
  constructor
  · intro h q hq
    induction h using Submodule.span_induction with
    | mem x hx =>
      obtain ⟨p, hp, rfl⟩ := hx
      have : q ≠ p := by rintro rfl; exact hq hp
      simp [this]
    | zero => rfl
    | add x y _ _ hx hy => rw [Pi.add_apply, hx, hy, add_zero]
    | smul a x _ hx => rw [Pi.smul_apply, hx, smul_zero]
  · intro h
    have : v = ∑ q, v q • (Pi.single q (1 : ZMod 2) : Vec n) := by
      funext i
      simp [Finset.sum_apply, Pi.single_apply]
    rw [this]
    apply Submodule.sum_mem
    intro q _
    by_cases hq : q ∈ hs
    · exact Submodule.smul_mem _ _ (Submodule.subset_span ⟨q, hq, rfl⟩)
    · rw [h q hq, zero_smul]; exact Submodule.zero_mem _

theorem finrank_span_singles (hs : List (Fin n)) (hnd : hs.Nodup) :
    Module.finrank (ZMod 2) (Submodule.span (ZMod 2) {w : Vec n | ∃ q ∈ hs, w = Pi.single q 1}) =
      hs.length := by
  have hli : LinearIndependent (ZMod 2) fun q : {q // q ∈ hs} => (Pi.single q.1 (1 : ZMod 2) : Vec n) := by
    have := (Pi.basisFun (ZMod 2) (Fin n)).linearIndependent
    have h2 := this.comp (fun q : {q // q ∈ hs} => q.1) Subtype.val_injective
    convert h2 using 1
    funext q
    simp [Pi.basisFun_apply]
  have hset : {w : Vec n | ∃ q ∈ hs, w = Pi.single q 1} =
      Set.range fun q : {q // q ∈ hs} => (Pi.single q.1 (1 : ZMod 2) : Vec n) := by
    ext w
    constructor
    · rintro ⟨q, hq, rfl⟩; exact ⟨⟨q, hq⟩, rfl⟩
    · rintro ⟨⟨q, hq⟩, rfl⟩; exact ⟨q, hq, rfl⟩
  rw [hset, finrank_span_eq_card hli, Fintype.card_subtype]
  rw [← List.toFinset_card_of_nodup hnd]
  congr 1
  ext q; simp

/-- The core of the construction: if the reduced matrix spans exactly the coordinate space of `hs`,
undoing the column additions prepares the row space of the original matrix. -/
theorem undo_prepares (M : List (Vec n)) (cnots : List (CX n)) (hne : ∀ g ∈ cnots, g.1 ≠ g.2)
    (hs : List (Fin n))
    (hspan : (rowSpan M).map (foldL cnots) =
      Submodule.span (ZMod 2) {w : Vec n | ∃ q ∈ hs, w = Pi.single q 1}) :
    (∀ v, v ∈ Submodule.span (ZMod 2) {v | ∃ q ∈ hs, v = foldL cnots.reverse (Pi.single q 1)} ↔
      v ∈ rowSpan M) ∧
    (∀ v, v ∈ Submodule.span (ZMod 2) {v | ∃ q, q ∉ hs ∧ v = foldL (swapL cnots.reverse) (Pi.single q 1)} ↔
      ∀ r ∈ M, dot r v = 0) := by
  have hne' : ∀ g ∈ cnots.reverse, g.1 ≠ g.2 := by simpa using hne
  have hnes : ∀ g ∈ swapL cnots.reverse, g.1 ≠ g.2 := by
    intro g hg
    obtain ⟨g', hg', rfl⟩ := List.mem_map.1 hg
    exact (hne' g' hg').symm
  have himg : ∀ (L : Vec n →ₗ[ZMod 2] Vec n) (P : Fin n → Prop),
      Submodule.span (ZMod 2) {v | ∃ q, P q ∧ v = L (Pi.single q 1)} =
      (Submodule.span (ZMod 2) {w : Vec n | ∃ q, P q ∧ w = Pi.single q 1}).map L := by
    intro L P
    rw [Submodule.map_span]
    congr 1
    ext v
    constructor
    · rintro ⟨q, hq, rfl⟩; exact ⟨_, ⟨q, hq, rfl⟩, rfl⟩
    · rintro ⟨w, ⟨q, hq, rfl⟩, rfl⟩; exact ⟨q, hq, rfl⟩
  have hX : ∀ v, v ∈ Submodule.span (ZMod 2) {v | ∃ q ∈ hs, v = foldL cnots.reverse (Pi.single q 1)} ↔
      v ∈ rowSpan M := by
    intro v
    rw [himg, ← hspan, ← Submodule.map_comp]
    constructor
    · rintro ⟨w, hw, rfl⟩
      rw [LinearMap.comp_apply, foldL_reverse cnots hne]; exact hw
    · intro hv
      exact ⟨v, hv, by rw [LinearMap.comp_apply, foldL_reverse cnots hne]⟩
  refine ⟨hX, fun v => ?_⟩
  rw [himg]
  have hcompl : ∀ w : Vec n, w ∈ Submodule.span (ZMod 2) {w : Vec n | ∃ q, q ∉ hs ∧ w = Pi.single q 1} ↔
      ∀ q ∈ hs, w q = 0 := by
    intro w
    have := mem_span_singles ((List.finRange n).filter fun q => decide (q ∉ hs)) w
    simp only [List.mem_filter, List.mem_finRange, true_and, decide_eq_true_eq, not_not] at this
    exact this
  -- pull `v` back through the circuit
  obtain ⟨w, rfl⟩ : ∃ w, foldL (swapL cnots.reverse) w = v :=
    ⟨_, foldL_reverse' (swapL cnots.reverse) hnes v⟩
  have hmem : foldL (swapL cnots.reverse) w ∈
      (Submodule.span (ZMod 2) {w : Vec n | ∃ q, q ∉ hs ∧ w = Pi.single q 1}).map
        (foldL (swapL cnots.reverse)) ↔ ∀ q ∈ hs, w q = 0 := by
    rw [← hcompl]
    constructor
    · rintro ⟨u, hu, he⟩
      rwa [← foldL_injective _ hnes he]
    · intro h; exact ⟨w, h, rfl⟩
  rw [hmem]
  constructor
  · intro h r hr
    have hr' := (hX r).2 (mem_rowSpan_of_mem hr)
    clear hr
    induction hr' using Submodule.span_induction with
    | mem x hx =>
      obtain ⟨q, hq, rfl⟩ := hx
      rw [dot_fold _ hne', dot_comm, dot_single, h q hq]
    | zero => simp [dot]
    | add x y _ _ hx hy => rw [dot_add_left, hx, hy, add_zero]
    | smul a x _ hx => rw [dot_comm, dot_smul_right, dot_comm, hx, mul_zero]
  · intro h q hq
    have hq' := (hX _).1 (Submodule.subset_span ⟨q, hq, rfl⟩)
    have := dot_eq_zero_of_mem_rowSpan (fun r hr => h r hr) hq'
    rwa [dot_fold _ hne', dot_comm, dot_single] at this

/-- Columns containing a one. -/
def nonzeroCols (M : List (Vec n)) : List (Fin n) :=
  (List.finRange n).filter fun i => decide (1 ≤ colSum M i)

theorem mem_nonzeroCols (M : List (Vec n)) (i : Fin n) : i ∈ nonzeroCols M ↔ ∃ r ∈ M, r i = 1 := by
  simp only [nonzeroCols, List.mem_filter, List.mem_finRange, true_and, decide_eq_true_eq]
  unfold colSum
  rw [Nat.one_le_iff_ne_zero, Nat.ne_zero_iff_zero_lt, List.countP_pos_iff]
  simp

theorem nodup_nonzeroCols (M : List (Vec n)) : (nonzeroCols M).Nodup :=
  (List.nodup_finRange n).filter _

theorem rowSpan_le_nonzeroCols (M : List (Vec n)) : rowSpan M ≤
    Submodule.span (ZMod 2) {w : Vec n | ∃ q ∈ nonzeroCols M, w = Pi.single q 1} := by
  rw [rowSpan_le_iff]
  intro r hr
  rw [mem_span_singles]
  intro q hq
  rw [mem_nonzeroCols] at hq
  push Not at hq
  rcases zmod2_cases (r q) with h | h
  · exact h
  · exact absurd h (hq r hr)

theorem rank_le_nonzeroCols (M : List (Vec n)) : rank M ≤ (nonzeroCols M).length := by
  rw [rank_eq_finrank, ← finrank_span_singles _ (nodup_nonzeroCols M)]
  exact Submodule.finrank_mono (rowSpan_le_nonzeroCols M)

theorem span_eq_of_card (M : List (Vec n)) (h : (nonzeroCols M).length = rank M) : rowSpan M =
    Submodule.span (ZMod 2) {w : Vec n | ∃ q ∈ nonzeroCols M, w = Pi.single q 1} := by
  apply Submodule.eq_of_le_of_finrank_eq (rowSpan_le_nonzeroCols M)
  rw [finrank_span_singles _ (nodup_nonzeroCols M), h, rank_eq_finrank]

/-- Correctness of `buildCircuit`: if `final` spans the image of the checks under the column
additions and has as many non-zero columns as its rank, the circuit prepares the state. -/
theorem buildCircuit_correct (M final : List (Vec n)) (cnots : List (CX n))
    (hne : ∀ g ∈ cnots, g.1 ≠ g.2) (hspan : rowSpan final = (rowSpan M).map (foldL cnots))
    (hcard : (nonzeroCols final).length = rank final) :
    PreparesZero (buildCircuit cnots final true).hadamards (buildCircuit cnots final true).cnots M ∧
    PreparesPlus (buildCircuit cnots final false).hadamards (buildCircuit cnots final false).cnots M := by
  have hcore := undo_prepares M cnots hne (nonzeroCols final) (by rw [← hspan, span_eq_of_card _ hcard])
  have e1 : (buildCircuit cnots final true).cnots = cnots.reverse := by simp [buildCircuit]
  have e2 : (buildCircuit cnots final false).cnots = swapL cnots.reverse := by simp [buildCircuit, swapL]
  have e3 : (buildCircuit cnots final true).hadamards = nonzeroCols final := rfl
  have e4 : ∀ q, q ∉ (buildCircuit cnots final false).hadamards ↔ q ∈ nonzeroCols final := by
    intro q
    simp only [buildCircuit, Bool.false_eq_true, if_false, List.mem_filter, List.mem_finRange, true_and,
      decide_eq_true_eq, nonzeroCols, not_not]
  have e5 : ∀ q, q ∈ (buildCircuit cnots final false).hadamards ↔ q ∉ nonzeroCols final := by
    intro q; rw [← e4 q, not_not]
  refine ⟨⟨?_, ?_⟩, ⟨?_, ?_⟩⟩
  · intro v
    rw [← hcore.1 v, finalX, e1, e3]
    simp only [foldL_apply]
  · intro v
    rw [← hcore.2 v, finalZ, e1, e3]
    simp only [foldl_cnotZ]
  · intro v
    rw [← hcore.1 v, finalZ, e2]
    simp only [foldl_cnotZ, swapL_swapL, e4]
  · intro v
    rw [← hcore.2 v, finalX, e2]
    simp only [foldL_apply, e5]

end Verif.SP
