import Verif.Model.NamedCodes
import Verif.Lemmas.ColorLattice
import Verif.Lemmas.Symbolic

/-! # A checker for rank, kernel and minimum distance of a matrix given by bit masks, and its soundness -/

namespace Verif.Named
open Verif

/-- Certificate: reduced rows `(pivot, row, selected original rows)` and kernel bases `(free column, vector)`
of both matrices; lightest logical operators and operators they anticommute with. -/
structure Cert where
  rx : List (ℕ × ℕ × ℕ)
  kx : List (ℕ × ℕ)
  rz : List (ℕ × ℕ × ℕ)
  kz : List (ℕ × ℕ)
  wx : ℕ
  dualx : ℕ
  wz : ℕ
  dualz : ℕ

def popc : ℕ → ℕ → ℕ
  | 0, _ => 0
  | n + 1, m => popc n m + (m.testBit n).toNat

def xorSel : List ℕ → ℕ → ℕ
  | [], _ => 0
  | h :: t, s => (if s % 2 = 1 then h else 0) ^^^ xorSel t (s / 2)

def reduce : List (ℕ × ℕ × ℕ) → ℕ → ℕ
  | [], m => m
  | (p, r, _) :: R, m => reduce R (if m.testBit p then m ^^^ r else m)

def checkHalf (n : ℕ) (H : List ℕ) (R : List (ℕ × ℕ × ℕ)) (K : List (ℕ × ℕ)) : Bool :=
  R.all (fun a => xorSel H a.2.2 == a.2.1 && decide (a.1 < n)) &&
  R.all (fun a => R.all fun b => a.2.1.testBit b.1 == (a.1 == b.1)) && decide (R.map (·.1)).Nodup &&
  (List.range n).all (fun i => R.any (·.1 == i) || K.any (·.1 == i)) &&
  K.all (fun b => H.all fun h => popc n (b.2 &&& h) % 2 == 0) &&
  K.all (fun a => K.all fun b => a.2.testBit b.1 == (a.1 == b.1)) && decide (K.map (·.1)).Nodup &&
  H.all fun h => reduce R h == 0

def checkDist (n d : ℕ) (R : List (ℕ × ℕ × ℕ)) : List (ℕ × ℕ) → ℕ → Bool
  | [], m => decide (d ≤ popc n m) || reduce R m == 0
  | b :: K, m => checkDist n d R K m && checkDist n d R K (m ^^^ b.2)

/-! ## Soundness -/

theorem toVec_xor (n a b : ℕ) : toVec n (a ^^^ b) = toVec n a + toVec n b := by
  funext i
  simp only [toVec, Pi.add_apply, Nat.testBit_xor]
  cases a.testBit i.val <;> cases b.testBit i.val <;> simp <;> rfl

theorem toVec_zero (n : ℕ) : toVec n 0 = 0 := by
  funext i; simp [toVec]

theorem popc_range (n m : ℕ) : popc n m = (List.range n).countP fun i => m.testBit i := by
  induction n with
  | zero => rfl
  | succ n ih =>
    rw [popc, ih, List.range_succ, List.countP_append]
    cases h : m.testBit n <;> simp [h]

theorem popc_wt (n m : ℕ) : wt (toVec n m) = popc n m := by
  rw [popc_range, SP.wt_eq_countP, ← List.map_coe_finRange_eq_range, List.countP_map]
  refine List.countP_congr fun i _ => ?_
  simp only [toVec, Function.comp]
  by_cases h : m.testBit i.val = true <;> simp [h]

theorem dot_toVec (n a b : ℕ) : dot (toVec n a) (toVec n b) = ((popc n (a &&& b) : ℕ) : ZMod 2) := by
  rw [← popc_wt, wt, Finset.card_filter]
  push_cast
  unfold dot
  refine Finset.sum_congr rfl fun i _ => ?_
  simp only [toVec, Nat.testBit_and]
  cases a.testBit i.val <;> cases b.testBit i.val <;> simp

theorem xorSel_mem (n : ℕ) (H : List ℕ) : ∀ s, toVec n (xorSel H s) ∈ rowSpan (H.map (toVec n)) := by
  induction H with
  | nil => intro s; simp [xorSel, toVec_zero]
  | cons h t ih =>
    intro s
    rw [xorSel, toVec_xor, List.map_cons, rowSpan_cons]
    refine Submodule.add_mem _ ?_ (Submodule.mem_sup_right (ih _))
    split
    · exact Submodule.mem_sup_left (Submodule.mem_span_singleton_self _)
    · rw [toVec_zero]; exact Submodule.zero_mem _

theorem reduce_mem (n : ℕ) (W : Submodule (ZMod 2) (Vec n)) (R : List (ℕ × ℕ × ℕ)) (hR : ∀ a ∈ R, toVec n a.2.1 ∈ W) :
    ∀ m, toVec n (reduce R m) ∈ W → toVec n m ∈ W := by
  induction R with
  | nil => intro m h; exact h
  | cons a R ih =>
    intro m h
    obtain ⟨p, r, s⟩ := a
    rw [reduce] at h
    have := ih (fun b hb => hR b (by simp [hb])) _ h
    split at this
    · rw [toVec_xor] at this
      have hr := hR (p, r, s) (by simp)
      have h2 := Submodule.add_mem _ this hr
      rwa [add_assoc, add_self_eq_zero', add_zero] at h2
    · exact this

/-- The facts a successful check establishes. -/
structure Half (n : ℕ) (H : List ℕ) (R : List (ℕ × ℕ × ℕ)) (K : List (ℕ × ℕ)) : Prop where
  span : ∀ a ∈ R, toVec n a.2.1 ∈ rowSpan (H.map (toVec n))
  lt : ∀ a ∈ R, a.1 < n
  piv : ∀ a ∈ R, ∀ b ∈ R, a.2.1.testBit b.1 = (a.1 == b.1)
  nodup : (R.map (·.1)).Nodup
  cover : ∀ i < n, (∃ a ∈ R, a.1 = i) ∨ ∃ b ∈ K, b.1 = i
  ker : ∀ b ∈ K, ∀ h ∈ H, dot (toVec n b.2) (toVec n h) = 0
  free : ∀ a ∈ K, ∀ b ∈ K, a.2.testBit b.1 = (a.1 == b.1)
  knodup : (K.map (·.1)).Nodup
  back : ∀ h ∈ H, reduce R h = 0

theorem half_of_check {n : ℕ} {H : List ℕ} {R : List (ℕ × ℕ × ℕ)} {K : List (ℕ × ℕ)} (h : checkHalf n H R K = true) :
    Half n H R K := by
  simp only [checkHalf, Bool.and_eq_true, List.all_eq_true, decide_eq_true_eq, beq_iff_eq, Bool.or_eq_true,
    List.any_eq_true, List.mem_range] at h
  obtain ⟨⟨⟨⟨⟨⟨⟨h1, h2⟩, h3⟩, h4⟩, h5⟩, h6⟩, h7⟩, h8⟩ := h
  refine ⟨fun a ha => ?_, fun a ha => (h1 a ha).2, h2, h3, h4, fun b hb g hg => ?_, h6, h7, h8⟩
  · rw [← (h1 a ha).1]; exact xorSel_mem n H _
  · rw [dot_toVec]
    exact (ZMod.natCast_eq_zero_iff _ _).2 (Nat.dvd_of_mod_eq_zero (h5 b hb g hg))

theorem Half.rank {n : ℕ} {H : List ℕ} {R : List (ℕ × ℕ × ℕ)} {K : List (ℕ × ℕ)} (h : Half n H R K) :
    Module.finrank (ZMod 2) (rowSpan (H.map (toVec n))) = R.length := by
  have e : rowSpan (H.map (toVec n)) = rowSpan (R.map fun a => toVec n a.2.1) := by
    apply le_antisymm
    · rw [rowSpan_le_iff]
      intro v hv
      obtain ⟨m, hm, rfl⟩ := List.mem_map.1 hv
      refine reduce_mem n _ R (fun a ha => mem_rowSpan_of_mem (List.mem_map.2 ⟨a, ha, rfl⟩)) m ?_
      rw [h.back m hm, toVec_zero]; exact Submodule.zero_mem _
    · rw [rowSpan_le_iff]
      intro v hv
      obtain ⟨a, ha, rfl⟩ := List.mem_map.1 hv
      exact h.span a ha
  rw [e]
  refine Lattice.rank_of_pivots R (List.Nodup.of_map _ h.nodup) (fun a => toVec n a.2.1) (fun _ => 0) fun a ha => ?_
  refine ⟨⟨a.1, h.lt a ha⟩, ?_, fun b hb hne => ?_⟩
  · simp [toVec, h.piv a ha a ha]
  · left
    simp only [toVec, h.piv b hb a ha] at hne
    by_cases hab : b.1 = a.1
    · exact List.inj_on_of_nodup_map h.nodup hb ha hab
    · simp [hab] at hne

theorem sum_single {α : Type} [DecidableEq α] (l : List α) (f : α → ZMod 2) (a : α) (nd : l.Nodup) (ha : a ∈ l)
    (hf : ∀ b, b ≠ a → b ∈ l → f b = 0) : (l.map f).sum = f a := by
  rw [List.sum_map_eq_nsmul_single a f hf, List.count_eq_one_of_mem nd ha, one_smul]

theorem sum_apply_list {n : ℕ} (l : List (Vec n)) (i : Fin n) : l.sum i = (l.map fun v => v i).sum := by
  induction l with
  | nil => rfl
  | cons a l ih => rw [List.sum_cons, Pi.add_apply, ih, List.map_cons, List.sum_cons]

/-- Every element of the kernel is a sum of basis elements. -/
theorem Half.kernel {n : ℕ} {H : List ℕ} {R : List (ℕ × ℕ × ℕ)} {K : List (ℕ × ℕ)} (h : Half n H R K)
    (hK : ∀ b ∈ K, b.1 < n) (e : Vec n) (he : ∀ g ∈ H, dot (toVec n g) e = 0) :
    e = (K.map fun b => (if hb : b.1 < n then e ⟨b.1, hb⟩ else 0) • toVec n b.2).sum := by
  set S := (K.map fun b => (if hb : b.1 < n then e ⟨b.1, hb⟩ else 0) • toVec n b.2).sum with hS
  have hlist : ∀ (K : List (ℕ × ℕ)) (x : Vec n), dot x (K.map fun b => (if hb : b.1 < n then e ⟨b.1, hb⟩ else 0) • toVec n b.2).sum =
      (K.map fun b => (if hb : b.1 < n then e ⟨b.1, hb⟩ else 0) * dot x (toVec n b.2)).sum := by
    intro K x
    induction K with
    | nil => simp
    | cons b K ih => rw [List.map_cons, List.sum_cons, dot_add_right, dot_smul_right, ih, List.map_cons, List.sum_cons]
  have hker : ∀ g ∈ H, dot (toVec n g) (e + S) = 0 := by
    intro g hg
    rw [dot_add_right, he g hg, zero_add, hS, hlist]
    refine List.sum_eq_zero fun x hx => ?_
    obtain ⟨b, hb, rfl⟩ := List.mem_map.1 hx
    rw [dot_comm, h.ker b hb g hg, mul_zero]
  have hfree : ∀ b ∈ K, ∀ hb : b.1 < n, (e + S) ⟨b.1, hb⟩ = 0 := by
    intro b hbK hb
    have h1 : S ⟨b.1, hb⟩ = e ⟨b.1, hb⟩ := by
      rw [hS, sum_apply_list, List.map_map, sum_single _ _ b (List.Nodup.of_map _ h.knodup) hbK]
      · simp [toVec, hb, h.free b hbK b hbK]
      · intro c hcb hc
        have hne : c.1 ≠ b.1 := fun hh => hcb (List.inj_on_of_nodup_map h.knodup hc hbK hh)
        have h0 : toVec n c.2 ⟨b.1, hb⟩ = 0 := by simp [toVec, h.free c hc b hbK, hne]
        rw [Function.comp, Pi.smul_apply, h0, smul_zero]
    rw [Pi.add_apply, h1, add_self_eq_zero']
  have hall : e + S = 0 := by
    funext i
    rcases h.cover i.val i.2 with ⟨a, ha, hai⟩ | ⟨b, hb, hbi⟩
    · have h1 : dot (toVec n a.2.1) (e + S) = 0 :=
        dot_eq_zero_of_mem_rowSpan (fun r hr => by
          obtain ⟨g, hg, rfl⟩ := List.mem_map.1 hr
          exact hker g hg) (h.span a ha)
      have h2 : dot (toVec n a.2.1) (e + S) = (e + S) i := by
        unfold dot
        rw [Finset.sum_eq_single i]
        · have : a.2.1.testBit i.val = true := by rw [← hai, h.piv a ha a ha]; simp
          simp [toVec, this]
        · intro j _ hj
          rcases h.cover j.val j.2 with ⟨c, hc, hcj⟩ | ⟨c, hc, hcj⟩
          · have : a.2.1.testBit j.val = false := by
              rw [← hcj, h.piv a ha c hc, beq_eq_false_iff_ne]
              intro hh
              exact hj (Fin.ext (by omega))
            simp [toVec, this]
          · have := hfree c hc (by rw [hcj]; exact j.2)
            have hcj' : (⟨c.1, by rw [hcj]; exact j.2⟩ : Fin n) = j := Fin.ext hcj
            rw [hcj'] at this
            rw [this, mul_zero]
        · simp
      rw [← h2, h1]; rfl
    · have := hfree b hb (hK b hb)
      have hbi' : (⟨b.1, hK b hb⟩ : Fin n) = i := Fin.ext hbi
      rwa [hbi'] at this
  have := congrArg (· + S) hall
  simp only [add_assoc, add_self_eq_zero', add_zero, zero_add] at this
  exact this

/-- A successful distance check: every sum of basis elements added to `m` has weight at least `d` or lies in `W`. -/
theorem dist_of_check {n d : ℕ} {R : List (ℕ × ℕ × ℕ)} (W : Submodule (ZMod 2) (Vec n))
    (hR : ∀ a ∈ R, toVec n a.2.1 ∈ W) (c : ℕ × ℕ → ZMod 2) :
    ∀ (K : List (ℕ × ℕ)) (m : ℕ), checkDist n d R K m = true →
      d ≤ wt (toVec n m + (K.map fun b => c b • toVec n b.2).sum) ∨
        toVec n m + (K.map fun b => c b • toVec n b.2).sum ∈ W := by
  intro K
  induction K with
  | nil =>
    intro m h
    simp only [checkDist, Bool.or_eq_true, decide_eq_true_eq, beq_iff_eq] at h
    simp only [List.map_nil, List.sum_nil, add_zero]
    rcases h with h | h
    · left; rw [popc_wt]; exact h
    · right
      refine reduce_mem n W R hR m ?_
      rw [h, toVec_zero]; exact Submodule.zero_mem _
  | cons b K ih =>
    intro m h
    simp only [checkDist, Bool.and_eq_true] at h
    rw [List.map_cons, List.sum_cons, ← add_assoc]
    rcases zmod2_cases (c b) with hc | hc
    · rw [hc, zero_smul, add_zero]; exact ih m h.1
    · rw [hc, one_smul, ← toVec_xor]; exact ih _ h.2

/-- Both halves of a certificate, all checks together. -/
def checkSide (n d : ℕ) (H H' : List ℕ) (R R' : List (ℕ × ℕ × ℕ)) (K' : List (ℕ × ℕ)) (w dual : ℕ) : Bool :=
  checkHalf n H' R' K' && checkDist n d R K' 0 && K'.all (fun b => decide (b.1 < n)) &&
  R.all (fun a => xorSel H a.2.2 == a.2.1) &&
  decide (popc n w = d) && H'.all (fun g => popc n (g &&& w) % 2 == 0) &&
  H.all (fun g => popc n (g &&& dual) % 2 == 0) && decide (popc n (w &&& dual) % 2 = 1)

/-- Minimum weight of the vectors orthogonal to `H'` outside the span of `H`. -/
theorem side_of_check {n d : ℕ} {H H' : List ℕ} {R R' : List (ℕ × ℕ × ℕ)} {K' : List (ℕ × ℕ)} {w dual : ℕ}
    (h : checkSide n d H H' R R' K' w dual = true) :
    Half n H' R' K' ∧
    (∀ e : Vec n, (∀ g ∈ H'.map (toVec n), dot g e = 0) → e ∉ rowSpan (H.map (toVec n)) → d ≤ wt e) ∧
    ∃ e : Vec n, (∀ g ∈ H'.map (toVec n), dot g e = 0) ∧ e ∉ rowSpan (H.map (toVec n)) ∧ wt e = d := by
  simp only [checkSide, Bool.and_eq_true, List.all_eq_true, decide_eq_true_eq, beq_iff_eq] at h
  obtain ⟨⟨⟨⟨⟨⟨⟨h1, h2⟩, h3⟩, h4⟩, h5⟩, h6⟩, h7⟩, h8⟩ := h
  have hh := half_of_check h1
  have hev : ∀ x y : ℕ, popc n (x &&& y) % 2 = 0 → dot (toVec n x) (toVec n y) = 0 := fun x y hxy => by
    rw [dot_toVec]; exact (ZMod.natCast_eq_zero_iff _ _).2 (Nat.dvd_of_mod_eq_zero hxy)
  refine ⟨hh, fun e he hne => ?_, toVec n w, fun g hg => ?_, fun hmem => ?_, by rw [popc_wt]; exact h5⟩
  · have hk := hh.kernel h3 e fun g hg => he _ (List.mem_map.2 ⟨g, hg, rfl⟩)
    have := dist_of_check (rowSpan (H.map (toVec n))) (fun a ha => by rw [← h4 a ha]; exact xorSel_mem n H _)
      (fun b => if hb : b.1 < n then e ⟨b.1, hb⟩ else 0) K' 0 h2
    rw [toVec_zero, zero_add, ← hk] at this
    exact this.resolve_right hne
  · obtain ⟨x, hx, rfl⟩ := List.mem_map.1 hg
    exact hev _ _ (h6 x hx)
  · have h0 : dot (toVec n w) (toVec n dual) = 0 :=
      dot_eq_zero_of_mem_rowSpan (fun r hr => by
        obtain ⟨g, hg, rfl⟩ := List.mem_map.1 hr
        exact hev _ _ (h7 g hg)) hmem
    rw [dot_toVec, ZMod.natCast_eq_zero_iff] at h0
    omega

end Verif.Named
