import Verif.Lemmas.SparseSearch

/-! # From the search to minimum distances: symmetries, even weights, witnesses and ranks -/

namespace Verif.Sparse
open Verif Verif.Named

theorem getD_lt {l : List ℕ} {c : ℕ} (h : c < l.length) : l.getD c 0 = l[c] := by
  simp [h]

/-! ## Relabelling of qubits -/

/-- A permutation of the qubits takes the rows of `A` to rows of `B`. -/
def Maps {n : ℕ} (σ : Equiv.Perm (Fin n)) (A B : List (Vec n)) : Prop := ∀ r ∈ A, r ∘ σ.symm ∈ B

/-- Undetected by the checks `A`. -/
def Und {n : ℕ} (A : List (Vec n)) (v : Vec n) : Prop := ∀ r ∈ A, dot r v = 0

theorem dot_comp {n : ℕ} (σ : Equiv.Perm (Fin n)) (r v : Vec n) : dot r (v ∘ σ) = dot (r ∘ σ.symm) v := by
  unfold dot
  rw [← Equiv.sum_comp σ fun i => (r ∘ σ.symm) i * v i]
  simp

theorem Maps.und {n : ℕ} {σ : Equiv.Perm (Fin n)} {A B : List (Vec n)} (h : Maps σ A B) {v : Vec n} (hv : Und B v) : Und A (v ∘ σ) := by
  intro r hr
  rw [dot_comp]
  exact hv _ (h r hr)

theorem Maps.span {n : ℕ} {σ : Equiv.Perm (Fin n)} {A B : List (Vec n)} (h : Maps σ A B) {v : Vec n} (hv : v ∘ σ ∈ rowSpan A) :
    v ∈ rowSpan B := by
  have key : ∀ u ∈ rowSpan A, u ∘ σ.symm ∈ rowSpan B := by
    intro u hu
    induction hu using Submodule.span_induction with
    | mem x hx => exact mem_rowSpan_of_mem (h x hx)
    | zero => exact Submodule.zero_mem _
    | add a b _ _ ha hb => exact Submodule.add_mem _ ha hb
    | smul c a _ ha => exact Submodule.smul_mem _ c ha
  have := key _ hv
  rwa [Function.comp_assoc, Equiv.self_comp_symm, Function.comp_id] at this

theorem Maps.trans {n : ℕ} {σ τ : Equiv.Perm (Fin n)} {A B C : List (Vec n)} (h : Maps σ A B) (h' : Maps τ B C) : Maps (τ * σ) A C := by
  intro r hr
  have := h' _ (h r hr)
  exact this

theorem Maps.pow {n : ℕ} {σ : Equiv.Perm (Fin n)} {A : List (Vec n)} (h : Maps σ A A) (k : ℕ) : Maps (σ ^ k) A A := by
  induction k with
  | zero =>
    intro r hr
    exact hr
  | succ k ih => rw [pow_succ]; exact h.trans ih

theorem wt_comp {n : ℕ} (σ : Equiv.Perm (Fin n)) (v : Vec n) : wt (v ∘ σ) = wt v := by
  unfold wt
  refine Finset.card_bij (fun i _ => σ i) (fun i hi => ?_) (fun i _ j _ h => σ.injective h) fun j hj => ⟨σ.symm j, ?_, by simp⟩
  · simpa using hi
  · simpa using hj

/-- A permutation given by two functions. -/
def permCheck (n : ℕ) (s s' : ℕ → ℕ) : Bool :=
  (List.range n).all fun q => Nat.ble (s q + 1) n && Nat.ble (s' q + 1) n && Nat.beq (s' (s q)) q && Nat.beq (s (s' q)) q

/-- The permutation. -/
def permOf {n : ℕ} {s s' : ℕ → ℕ} (h : permCheck n s s' = true) : Equiv.Perm (Fin n) :=
  have h' : ∀ q < n, ((s q < n ∧ s' q < n) ∧ s' (s q) = q) ∧ s (s' q) = q := by
    simpa only [permCheck, List.all_eq_true, List.mem_range, Bool.and_eq_true, Nat.ble_eq, beqT, Nat.succ_le_iff] using h
  { toFun := fun q => ⟨s q, (h' q q.2).1.1.1⟩
    invFun := fun q => ⟨s' q, (h' q q.2).1.1.2⟩
    left_inv := fun q => Fin.ext (h' q q.2).1.2
    right_inv := fun q => Fin.ext (h' q q.2).2 }

/-- The mask with the given bits (bits that occur twice cancel). -/
def maskOf : List ℕ → ℕ
  | [] => 0
  | q :: L => Nat.xor (Nat.shiftLeft 1 q) (maskOf L)

theorem toVec_maskOf_cons (n q : ℕ) (L : List ℕ) : toVec n (maskOf (q :: L)) = toVec n (Nat.shiftLeft 1 q) + toVec n (maskOf L) :=
  toVec_xor n _ _

/-- Row `c` of `A`, given by its qubits, becomes row `t c` of `B`. -/
def mapsCheck (n : ℕ) (s t : ℕ → ℕ) (S : ℕ → List ℕ) (A B : List ℕ) : Bool :=
  (List.range A.length).all fun c => Nat.beq (A.getD c 0) (maskOf (S c)) && (S c).all (fun q => Nat.ble (q + 1) n) &&
    Nat.ble (t c + 1) B.length && Nat.beq (B.getD (t c) 0) (maskOf ((S c).map s))

theorem toVec_comp {n : ℕ} {s s' : ℕ → ℕ} (h : permCheck n s s' = true) (L : List ℕ) (hL : ∀ q ∈ L, q < n) :
    toVec n (maskOf (L.map s)) = toVec n (maskOf L) ∘ (permOf h).symm := by
  have h' : ∀ q < n, ((s q < n ∧ s' q < n) ∧ s' (s q) = q) ∧ s (s' q) = q := by
    simpa only [permCheck, List.all_eq_true, List.mem_range, Bool.and_eq_true, Nat.ble_eq, beqT, Nat.succ_le_iff] using h
  induction L with
  | nil =>
    show toVec n 0 = toVec n 0 ∘ _
    rw [toVec_zero]; rfl
  | cons q L ih =>
    rw [List.map_cons, toVec_maskOf_cons, toVec_maskOf_cons, ih fun x hx => hL x (by simp [hx])]
    funext i
    have hq := hL q (by simp)
    show toVec n (Nat.shiftLeft 1 (s q)) i + _ = toVec n (Nat.shiftLeft 1 q) ((permOf h).symm i) + _
    congr 1
    have he : ((permOf h).symm i).val = s' i := rfl
    simp only [toVec, shiftLeft_testBit, he, decide_eq_true_eq]
    congr 1
    apply propext
    constructor
    · rintro hi; rw [hi]; exact (h' q hq).1.2
    · rintro rfl; exact (h' i i.2).2.symm

theorem maps_of_check {n : ℕ} {s s' t : ℕ → ℕ} {S : ℕ → List ℕ} (h : permCheck n s s' = true) {A B : List ℕ} (h' : mapsCheck n s t S A B = true) :
    Maps (permOf h) (rows n A) (rows n B) := by
  intro r hr
  obtain ⟨a, ha, rfl⟩ := List.mem_map.1 hr
  obtain ⟨c, hc, rfl⟩ := List.getElem_of_mem ha
  simp only [mapsCheck, List.all_eq_true, List.mem_range, Bool.and_eq_true, Nat.ble_eq, Nat.succ_le_iff, beqT] at h'
  obtain ⟨⟨⟨h1, h2⟩, h3⟩, h4⟩ := h' c hc
  refine List.mem_map.2 ⟨B[t c], List.getElem_mem h3, ?_⟩
  rw [getD_lt hc] at h1
  rw [getD_lt h3] at h4
  rw [h1, h4, toVec_comp h _ h2]

/-! ## The least weight -/

theorem wt_sub_lt {n : ℕ} {v e : Vec n} (h : Sub v e) {q : Fin n} (hq : v q ≠ 0) : wt (e + v) < wt e := by
  unfold wt
  apply Finset.card_lt_card
  refine ⟨fun i hi => ?_, fun hsub => ?_⟩
  · rw [Finset.mem_filter] at hi ⊢
    refine ⟨hi.1, fun h0 => ?_⟩
    have hv : v i = 0 := by
      by_contra hv
      exact h i hv h0
    exact hi.2 (by rw [Pi.add_apply, h0, hv, add_zero])
  · have he := h q hq
    have := hsub (Finset.mem_filter.2 ⟨Finset.mem_univ q, he⟩)
    rw [Finset.mem_filter, Pi.add_apply, (zmod2_cases (e q)).resolve_left he, (zmod2_cases (v q)).resolve_left hq] at this
    exact this.2 rfl

/-- One start of the search: every undetected error of weight at most `w` that contains the qubit `q` and no earlier excluded one has an undetected
part in the span that contains `q`. -/
theorem start {T : Tab} {n : ℕ} {H : List ℕ} (g : Good T n H) (W : Submodule (ZMod 2) (Vec n)) (R : List (ℕ × ℕ × ℕ))
    (hR : ∀ a ∈ R, toVec n a.2.1 ∈ W) {w q f : ℕ} (hq : q < n) (h : go T R w (colW (T.word q)) 3 (Nat.lor f (Nat.shiftLeft 1 q)) (Nat.shiftLeft 1 q) = true)
    (e : Vec n) (hw : wt e ≤ w + 1) (hu : Und (rows n H) e) (he : e ⟨q, hq⟩ ≠ 0) (hf : ∀ i : Fin n, f.testBit i = true → e i = 0) :
    ∃ v ∈ W, Sub v e ∧ v ⟨q, hq⟩ ≠ 0 := by
  have hs : Syn n H e 0 := by
    refine ⟨fun c hc => ?_, Nat.two_pow_pos _⟩
    rw [Nat.zero_testBit]
    apply hu
    rw [getD_lt hc]
    exact List.mem_map.2 ⟨_, List.getElem_mem hc, rfl⟩
  have hs' := hs.flip g hq
  rw [show Nat.xor 0 (colW (T.word q)) = colW (T.word q) from Nat.zero_xor _] at hs'
  have hq1 : (e + single ⟨q, hq⟩) ⟨q, hq⟩ = 0 := by
    rw [Pi.add_apply, single, Pi.single_eq_same, (zmod2_cases (e ⟨q, hq⟩)).resolve_left he]; rfl
  obtain ⟨e', h1, h2⟩ := go_sound g W R hR w _ _ _ _ h (popc_three g hq) (fun i hi => by
      rw [shiftLeft_testBit] at hi
      rw [lor_testBit, hi, Bool.or_true]) (e + single ⟨q, hq⟩) (by have := wt_flip he; omega) hs' (fun i hi => by
      rw [lor_testBit, Bool.or_eq_true, decide_eq_true_eq] at hi
      by_cases hiq : i = ⟨q, hq⟩
      · rw [hiq]; exact hq1
      · have hne : i.val ≠ q := fun hh => hiq (Fin.ext hh)
        rw [Pi.add_apply, single, Pi.single_eq_of_ne hiq, add_zero]
        exact hf i (hi.resolve_right hne))
  have hsing : toVec n (Nat.shiftLeft 1 q) = single ⟨q, hq⟩ := by
    funext i
    simp only [toVec, shiftLeft_testBit, single]
    by_cases hiq : i = ⟨q, hq⟩
    · subst hiq; simp
    · have hne : i.val ≠ q := fun hh => hiq (Fin.ext hh)
      simp [hne, Pi.single_eq_of_ne hiq]
  rw [hsing] at h2
  refine ⟨_, h2, fun i hi => ?_, ?_⟩
  · by_cases hiq : i = ⟨q, hq⟩
    · rw [hiq]; exact he
    · rw [Pi.add_apply, single, Pi.single_eq_of_ne hiq, zero_add] at hi
      have := h1 i hi
      rwa [Pi.add_apply, single, Pi.single_eq_of_ne hiq, add_zero] at this
  · have h0 : e' ⟨q, hq⟩ = 0 := by
      by_contra hne
      exact h1 _ hne hq1
    rw [Pi.add_apply, single, Pi.single_eq_same, h0, add_zero]
    exact one_ne_zero

/-- The two starts of the search, with the symmetries that move every qubit to one of the two first qubits, cover all undetected errors. -/
theorem light {T : Tab} {n N : ℕ} {H HX : List ℕ} (g : Good T n H) (hn : n = N + N) (hN : 0 < N) (R : List (ℕ × ℕ × ℕ))
    (hR : ∀ a ∈ R, toVec n a.2.1 ∈ rowSpan (rows n HX)) (hcomm : ∀ r ∈ rows n HX, Und (rows n H) r)
    (hsym : ∀ q : Fin n, ∃ σ : Equiv.Perm (Fin n), Maps σ (rows n H) (rows n H) ∧ Maps σ (rows n HX) (rows n HX) ∧
      (σ ⟨0, by omega⟩ = q ∨ (N ≤ q.val ∧ σ ⟨N, by omega⟩ = q ∧ ∀ i : Fin n, i.val < N → (σ i).val < N)))
    {w : ℕ} (h0 : go T R w (colW (T.word 0)) 3 (Nat.lor 0 (Nat.shiftLeft 1 0)) (Nat.shiftLeft 1 0) = true)
    (h1 : go T R w (colW (T.word N)) 3 (Nat.lor (2 ^ N - 1) (Nat.shiftLeft 1 N)) (Nat.shiftLeft 1 N) = true) :
    ∀ e : Vec n, wt e ≤ w + 1 → Und (rows n H) e → e ∈ rowSpan (rows n HX) := by
  have hW : ∀ v ∈ rowSpan (rows n HX), Und (rows n H) v := by
    intro v hv r hr
    rw [dot_comm]
    exact dot_eq_zero_of_mem_rowSpan (fun x hx => by rw [dot_comm]; exact hcomm x hx r hr) hv
  intro e
  induction hk : wt e using Nat.strong_induction_on generalizing e with
  | _ k ih =>
    intro hw hu
    subst hk
    have conclude : ∀ (σ : Equiv.Perm (Fin n)), Maps σ (rows n HX) (rows n HX) → Maps σ (rows n H) (rows n H) → ∀ q : Fin n,
        (∃ v ∈ rowSpan (rows n HX), Sub v (e ∘ σ) ∧ v q ≠ 0) → e ∈ rowSpan (rows n HX) := by
      rintro σ hσ hσ' q ⟨v, hv, hsub, hq⟩
      apply hσ.span
      have hlt := wt_sub_lt hsub hq
      have hu' := hσ'.und hu
      have := ih _ (by rw [wt_comp] at hlt; exact hlt) (e ∘ σ + v) rfl (by rw [wt_comp] at hlt; omega) (fun r hr => by
        rw [dot_add_right, hu' r hr, hW v hv r hr, add_zero])
      have h2 := Submodule.add_mem _ this hv
      rwa [add_assoc, add_self_eq_zero', add_zero] at h2
    by_cases hleft : ∃ q : Fin n, q.val < N ∧ e q ≠ 0
    · obtain ⟨q, hqN, hq⟩ := hleft
      obtain ⟨σ, s1, s2, s3⟩ := hsym q
      rcases s3 with s3 | ⟨s3, -⟩
      · refine conclude σ s2 s1 ⟨0, by omega⟩ (start g _ R hR (by omega) h0 (e ∘ σ) (by rw [wt_comp]; exact hw) (s1.und hu) ?_ ?_)
        · rw [Function.comp, s3]; exact hq
        · intro i hi; rw [Nat.zero_testBit] at hi; cases hi
      · omega
    · push Not at hleft
      by_cases he : e = 0
      · rw [he]; exact Submodule.zero_mem _
      · have : ∃ q, e q ≠ 0 := by
          by_contra hall
          push Not at hall
          exact he (funext hall)
        obtain ⟨q, hq⟩ := this
        obtain ⟨σ, s1, s2, s3⟩ := hsym q
        rcases s3 with s3 | ⟨-, s3, s4⟩
        · refine conclude σ s2 s1 ⟨0, by omega⟩ (start g _ R hR (by omega) h0 (e ∘ σ) (by rw [wt_comp]; exact hw) (s1.und hu) ?_ ?_)
          · rw [Function.comp, s3]; exact hq
          · intro i hi; rw [Nat.zero_testBit] at hi; cases hi
        · refine conclude σ s2 s1 ⟨N, by omega⟩ (start g _ R hR (by omega) h1 (e ∘ σ) (by rw [wt_comp]; exact hw) (s1.und hu) ?_ ?_)
          · rw [Function.comp, s3]; exact hq
          · intro i hi
            rw [Nat.testBit_two_pow_sub_one, decide_eq_true_eq] at hi
            exact hleft _ (s4 i hi)

/-! ## Even weights -/

theorem sum_eq_wt {n : ℕ} (e : Vec n) : dot 1 e = (wt e : ZMod 2) := by
  unfold dot wt
  rw [Finset.card_filter]
  push_cast
  refine Finset.sum_congr rfl fun i _ => ?_
  rcases zmod2_cases (e i) with h | h <;> simp [h]

theorem even_of_check {n : ℕ} {H : List ℕ} {sel : ℕ} (h : xorSel H sel = 2 ^ n - 1) (e : Vec n) (he : Und (rows n H) e) : Even (wt e) := by
  have h1 : (1 : Vec n) ∈ rowSpan (rows n H) := by
    have := xorSel_mem n H sel
    rw [h] at this
    have e1 : toVec n (2 ^ n - 1) = 1 := by
      funext i
      simp [toVec, Nat.testBit_two_pow_sub_one]
    rwa [e1] at this
  have h2 : dot 1 e = 0 := dot_eq_zero_of_mem_rowSpan he h1
  rw [sum_eq_wt, ZMod.natCast_eq_zero_iff] at h2
  exact even_iff_two_dvd.2 h2

/-! ## Witnesses -/

/-- `w` has weight `d`, is undetected by `H`, and anticommutes with `dual`, which commutes with `HX`. -/
def witnessCheck (n d : ℕ) (H HX : List ℕ) (w dual : ℕ) : Bool :=
  Nat.beq (popc n w) d && H.all (fun g => Nat.beq (popc n (g &&& w) % 2) 0) && HX.all (fun g => Nat.beq (popc n (g &&& dual) % 2) 0) &&
  Nat.beq (popc n (w &&& dual) % 2) 1

theorem witness_of_check {n d : ℕ} {H HX : List ℕ} {w dual : ℕ} (h : witnessCheck n d H HX w dual = true) :
    Und (rows n H) (toVec n w) ∧ toVec n w ∉ rowSpan (rows n HX) ∧ wt (toVec n w) = d := by
  simp only [witnessCheck, Bool.and_eq_true, List.all_eq_true, beqT] at h
  obtain ⟨⟨⟨h1, h2⟩, h3⟩, h4⟩ := h
  have hev : ∀ x y : ℕ, popc n (x &&& y) % 2 = 0 → dot (toVec n x) (toVec n y) = 0 := fun x y hxy => by
    rw [dot_toVec]; exact (ZMod.natCast_eq_zero_iff _ _).2 (Nat.dvd_of_mod_eq_zero hxy)
  refine ⟨fun g hg => ?_, fun hmem => ?_, by rw [popc_wt]; exact h1⟩
  · obtain ⟨x, hx, rfl⟩ := List.mem_map.1 hg
    exact hev _ _ (h2 x hx)
  · have h0 : dot (toVec n w) (toVec n dual) = 0 :=
      dot_eq_zero_of_mem_rowSpan (fun r hr => by
        obtain ⟨g, hg, rfl⟩ := List.mem_map.1 hr
        exact hev _ _ (h3 g hg)) hmem
    rw [dot_toVec, ZMod.natCast_eq_zero_iff] at h0
    omega

/-! ## Ranks -/

/-- Reduced rows with their pivots and selections of original rows. -/
def rankCheck (n : ℕ) (H : List ℕ) (R : List (ℕ × ℕ × ℕ)) : Bool :=
  R.all (fun a => Nat.beq (xorSel H a.2.2) a.2.1 && Nat.ble (a.1 + 1) n) &&
  R.all (fun a => R.all fun b => cond (Nat.beq a.1 b.1) (tb a.2.1 b.1) (tb a.2.1 b.1).not) && decide (R.map (·.1)).Nodup &&
  H.all fun h => Nat.beq (reduceF R h) 0

theorem rank_of_check {n : ℕ} {H : List ℕ} {R : List (ℕ × ℕ × ℕ)} (h : rankCheck n H R = true) :
    (∀ a ∈ R, toVec n a.2.1 ∈ rowSpan (rows n H)) ∧ Module.finrank (ZMod 2) (rowSpan (rows n H)) = R.length := by
  simp only [rankCheck, Bool.and_eq_true, List.all_eq_true, beqT, reduceF_eq, Nat.ble_eq, tb_eq, decide_eq_true_eq] at h
  obtain ⟨⟨⟨h1, h2⟩, h3⟩, h4⟩ := h
  have hspan : ∀ a ∈ R, toVec n a.2.1 ∈ rowSpan (rows n H) := fun a ha => by
    rw [← (h1 a ha).1]; exact xorSel_mem n H _
  have hpiv : ∀ a ∈ R, ∀ b ∈ R, a.2.1.testBit b.1 = decide (a.1 = b.1) := by
    intro a ha b hb
    have := h2 a ha b hb
    by_cases hab : a.1 = b.1
    · rw [show Nat.beq a.1 b.1 = true by rw [beqT]; exact hab, cond_true] at this
      simp [this, hab]
    · rw [show Nat.beq a.1 b.1 = false by rw [← Bool.not_eq_true, beqT]; exact hab, cond_false] at this
      simpa [hab] using this
  refine ⟨hspan, ?_⟩
  have e : rowSpan (rows n H) = rowSpan (R.map fun a => toVec n a.2.1) := by
    apply le_antisymm
    · rw [rowSpan_le_iff]
      intro v hv
      obtain ⟨m, hm, rfl⟩ := List.mem_map.1 hv
      refine reduce_mem n _ R (fun a ha => mem_rowSpan_of_mem (List.mem_map.2 ⟨a, ha, rfl⟩)) m ?_
      rw [h4 m hm, toVec_zero]; exact Submodule.zero_mem _
    · rw [rowSpan_le_iff]
      intro v hv
      obtain ⟨a, ha, rfl⟩ := List.mem_map.1 hv
      exact hspan a ha
  rw [e]
  refine Lattice.rank_of_pivots R (List.Nodup.of_map _ h3) (fun a => toVec n a.2.1) (fun _ => 0) fun a ha => ?_
  refine ⟨⟨a.1, (h1 a ha).2⟩, ?_, fun b hb hne => ?_⟩
  · simp [toVec, hpiv a ha a ha]
  · left
    simp only [toVec, hpiv b hb a ha] at hne
    by_cases hab : b.1 = a.1
    · exact List.inj_on_of_nodup_map h3 hb ha hab
    · simp [hab] at hne

end Verif.Sparse
