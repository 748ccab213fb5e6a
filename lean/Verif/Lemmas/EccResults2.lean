import Verif.Lemmas.EccResults
import Verif.Lemmas.EccTrack

/-! # States determined by their stabilizers; tracking of circuits with random outcomes -/

namespace Verif.Ecc
open scoped BigOperators
variable {R : Type} [CommRing R] (k : Consts R)

namespace Res

/-! ## Uniqueness -/

theorem flips_bit {d : ℕ → ℕ} {r : ℕ} (hd : Inj r d) (m : ℕ) (x : Bits) (q : ℕ) :
    flips d m r x q = if ∃ j < r, d j = q ∧ m.testBit j = true then !x q else x q := by
  induction r generalizing x with
  | zero => simp [flips]
  | succ r ih =>
    show flips d m r _ q = _
    rw [ih fun i hi j hj => hd i (by omega) j (by omega)]
    by_cases hq : d r = q
    · have hno : ¬ ∃ j < r, d j = q ∧ m.testBit j = true := fun ⟨j, hj, e, _⟩ => by
        have := hd j (by omega) r (by omega) (e.trans hq.symm)
        omega
      rw [if_neg hno]
      cases hm : m.testBit r
      · rw [if_neg Bool.false_ne_true, if_neg]
        rintro ⟨j, hj, e, h⟩
        have := hd j hj r (by omega) (e.trans hq.symm)
        rw [this, hm] at h
        cases h
      · rw [if_pos rfl, if_pos ⟨r, by omega, hq, hm⟩, flip_apply, hq]
        simp
    · have h1 : (if m.testBit r = true then flip x (d r) else x) q = x q := by
        split
        · exact flip_other fun e => hq e.symm
        · rfl
      rw [h1]
      have h2 : (∃ j < r, d j = q ∧ m.testBit j = true) ↔ ∃ j < r + 1, d j = q ∧ m.testBit j = true := by
        constructor
        · rintro ⟨j, hj, h⟩
          exact ⟨j, by omega, h⟩
        · rintro ⟨j, hj, e, h⟩
          refine ⟨j, ?_, e, h⟩
          by_contra hc
          exact hq (by rw [show r = j from by omega]; exact e)
      simp only [h2]

/-- Every word of the block is either excluded by one of the operators `gz`, or mapped to the zero word by a product of the
operators `gx`, with the sign of its amplitude. -/
def determines (W₀ : Bits → ℤ) (r : ℕ) (gx gz : List Word) : Bool :=
  (List.range (2 ^ r)).all fun y =>
    (W₀ y.testBit == 0 && gz.any fun w => (nf w).x == 0 && ((nf w).neg ^^ par (nf w).z y.testBit r)) ||
    (List.range (2 ^ gx.length)).any fun m =>
      let f := nf (genProd gx m gx.length)
      f.x == y && W₀ y.testBit == if f.neg ^^ par f.z y.testBit r then -1 else 1

/-- The qubits of block `i` set to 0. -/
def clear (n r i : ℕ) (x : Bits) : Bits := fun q => if q % n = i ∧ q / n < r then false else x q

theorem par_congr (z : ℕ) {y y' : Bits} {r : ℕ} (h : ∀ j < r, y j = y' j) : par z y r = par z y' r := by
  induction r with
  | zero => rfl
  | succ r ih =>
    show (par z y r ^^ _) = (par z y' r ^^ _)
    rw [ih fun j hj => h j (by omega), h r (by omega)]

theorem dat_mod {n i : ℕ} (hi : i < n) (j : ℕ) : dat n i j % n = i ∧ dat n i j / n = j := by
  unfold dat
  exact ⟨by rw [Nat.add_mul_mod_self_right, Nat.mod_eq_of_lt hi],
    by rw [Nat.add_mul_div_right _ _ (by omega), Nat.div_eq_of_lt hi, Nat.zero_add]⟩

include k in
theorem block_reduce {W₀ : Bits → ℤ} {r : ℕ} (hW : ∀ y z : Bits, (∀ j < r, y j = z j) → W₀ y = W₀ z) {gx gz : List Word}
    (hgx : ∀ w ∈ gx, Within r w) (hgz : ∀ w ∈ gz, Within r w) (hdet : determines W₀ r gx gz = true) {n i : ℕ} (hi : i < n) {ψ : State R}
    (hx : ∀ w ∈ gx, Eig (dat n i) (w, false) ψ) (hz : ∀ w ∈ gz, Eig (dat n i) (w, false) ψ) (x : Bits) :
    ψ x = (W₀ (blk n i x) : R) * ψ (clear n r i x) := by
  have hd : Inj r (dat n i) := fun _ _ _ _ h => (dat_inj hi hi h).2
  set y := maskOf (blk n i x) r with hy
  have hb : ∀ j < r, blk n i x j = y.testBit j := fun j hj => by rw [hy, testBit_maskOf, decide_eq_true hj, Bool.true_and]
  have hWy : W₀ (blk n i x) = W₀ y.testBit := hW _ _ hb
  have h := List.all_eq_true.1 hdet y (List.mem_range.2 (maskOf_lt _ _))
  rw [Bool.or_eq_true] at h
  rcases h with h | h
  · rw [Bool.and_eq_true, beq_iff_eq] at h
    obtain ⟨h0, h⟩ := h
    rw [hWy, h0, Int.cast_zero, zero_mul]
    obtain ⟨w, hw, h⟩ := List.any_eq_true.1 h
    rw [Bool.and_eq_true, beq_iff_eq] at h
    have e := hz w hw
    unfold Eig at e
    rw [sgn_false, one_smul, act_nf hd (hgz w hw)] at e
    have e := congrFun e x
    simp only [actNF, h.1, flips_zero] at e
    rw [show par (nf w).z (fun j => x (dat n i j)) r = par (nf w).z y.testBit r from par_congr _ hb, h.2, sgn_true] at e
    exact two_cancel k _ (by linear_combination e)
  · obtain ⟨m, _, h⟩ := List.any_eq_true.1 h
    simp only [Bool.and_eq_true, beq_iff_eq] at h
    obtain ⟨h1, h2⟩ := h
    have e := act_genProd (d := dat n i) (gens := gx) (χ := ψ) (σ := fun _ => false) m gx.length fun j hj => by
      rw [sgn_false, one_smul, List.getD_eq_getElem?_getD, List.getElem?_eq_getElem hj]
      have := hx _ (List.getElem_mem hj)
      unfold Eig at this
      rw [sgn_false, one_smul] at this
      exact this
    simp only [Bool.false_and, sgn_false, Finset.prod_const_one, one_smul] at e
    rw [act_nf hd (within_genProd hgx m _)] at e
    have e := congrFun e x
    simp only [actNF] at e
    rw [show par (nf (genProd gx m gx.length)).z (fun j => x (dat n i j)) r = par (nf (genProd gx m gx.length)).z y.testBit r from
      par_congr _ hb, h1] at e
    have hc : flips (dat n i) y r x = clear n r i x := by
      funext q
      rw [flips_bit hd]
      unfold clear
      by_cases hq : q % n = i ∧ q / n < r
      · rw [if_pos hq]
        have hq' : dat n i (q / n) = q := by unfold dat; rw [← hq.1, Nat.mod_add_div']
        have hbq := hb (q / n) hq.2
        unfold blk at hbq
        rw [hq'] at hbq
        cases hxq : x q
        · rw [if_neg]
          rintro ⟨j, hj, e1, e2⟩
          have : j = q / n := by rw [← e1]; exact (dat_mod hi j).2.symm
          rw [this, ← hbq, hxq] at e2
          cases e2
        · rw [if_pos ⟨q / n, hq.2, hq', by rw [← hbq, hxq]⟩]
          rfl
      · rw [if_neg hq, if_neg]
        rintro ⟨j, hj, rfl, -⟩
        exact hq ⟨(dat_mod hi j).1, by rw [(dat_mod hi j).2]; exact hj⟩
    rw [hc] at e
    rw [hWy, h2, ← e]
    split <;> rename_i hs
    · rw [hs]; simp
    · rw [Bool.not_eq_true] at hs
      rw [hs]; simp

/-- The qubits of the first `j` blocks set to 0. -/
def clears (n r j : ℕ) (x : Bits) : Bits := fun q => if q % n < j ∧ q / n < r then false else x q

include k in
theorem reduce_all {W₀ : Bits → ℤ} {r : ℕ} (hW : ∀ y z : Bits, (∀ j < r, y j = z j) → W₀ y = W₀ z) {gx gz : List Word}
    (hgx : ∀ w ∈ gx, Within r w) (hgz : ∀ w ∈ gz, Within r w) (hdet : determines W₀ r gx gz = true) {n : ℕ} {ψ : State R}
    (hx : ∀ i < n, ∀ w ∈ gx, Eig (dat n i) (w, false) ψ) (hz : ∀ i < n, ∀ w ∈ gz, Eig (dat n i) (w, false) ψ) (x : Bits) :
    ∀ j ≤ n, ψ x = (∏ i ∈ Finset.range j, (W₀ (blk n i x) : R)) * ψ (clears n r j x)
  | 0, _ => by
    have : clears n r 0 x = x := by funext q; simp [clears]
    rw [this]; simp
  | j + 1, hj => by
    rw [reduce_all hW hgx hgz hdet hx hz x j (by omega), Finset.prod_range_succ,
      block_reduce k hW hgx hgz hdet (i := j) (by omega) (hx j (by omega)) (hz j (by omega)) (clears n r j x), ← mul_assoc]
    congr 2
    · congr 2
      funext q
      show clears n r j x (dat n j q) = x (dat n j q)
      unfold clears
      rw [if_neg]
      rw [(dat_mod (by omega) q).1]
      omega
    · funext q
      unfold clear clears
      by_cases h1 : q % n = j ∧ q / n < r
      · rw [if_pos h1, if_pos ⟨by omega, h1.2⟩]
      · rw [if_neg h1]
        by_cases h2 : q % n < j ∧ q / n < r
        · rw [if_pos h2, if_pos ⟨by omega, h2.2⟩]
        · rw [if_neg h2, if_neg]
          rintro ⟨h3, h4⟩
          rcases Nat.lt_or_ge (q % n) j with h5 | h5
          · exact h2 ⟨h5, h4⟩
          · exact h1 ⟨by omega, h4⟩

include k in
/-- A state with the stabilizers of the encoded zero state is a multiple of it. -/
theorem unique {W : CodeWords} {r K : ℕ} (hW : W.Local r) {gx gz : List Word}
    (hgx : ∀ w ∈ gx, Within r w) (hgz : ∀ w ∈ gz, Within r w) (hdet : determines (W false) r gx gz = true) {n : ℕ} {ψ : State R}
    (hx : ∀ i < n, ∀ w ∈ gx, Eig (dat n i) (w, false) ψ) (hz : ∀ i < n, ∀ w ∈ gz, Eig (dat n i) (w, false) ψ)
    (hψ : Below (n * r + K) ψ) {v : Bits} (hv : ∀ x, ∀ j < K, x (n * r + j) ≠ v (n * r + j) → ψ x = 0) :
    ∃ c : R, ψ = withAnc (sharedAnc n r K) v (c • encoded W n (ket n fun _ => false)) := by
  refine ⟨ψ fun q => if q < n * r then false else v q, ?_⟩
  funext x
  show ψ x = if _ then _ else _
  by_cases hA : ((sharedAnc n r K).all fun q => x q == v q) = true
  · rw [if_pos hA]
    have hA : ∀ j < K, x (n * r + j) = v (n * r + j) := fun j hj => by
      have := List.all_eq_true.1 hA (n * r + j) (List.mem_map.2 ⟨j, List.mem_range.2 hj, rfl⟩)
      simpa using this
    rw [reduce_all k (hW false) hgx hgz hdet hx hz x n (Nat.le_refl n), Pi.smul_apply, smul_eq_mul, encoded_ket, mul_comm,
      ← Fin.prod_univ_eq_prod_range fun i => ((W false (blk n i x) : ℤ) : R)]
    congr 1
    refine hψ _ _ fun q hq => ?_
    unfold clears
    by_cases h : q < n * r
    · have hn : 0 < n := by rcases Nat.eq_zero_or_pos n with rfl | h0; · simp at h
                            · exact h0
      rw [if_pos h, if_pos ⟨Nat.mod_lt _ hn, Nat.div_lt_of_lt_mul h⟩]
    · rw [if_neg h, if_neg, show q = n * r + (q - n * r) from by omega]
      · exact hA _ (by omega)
      · rintro ⟨h1, h2⟩
        have hn : 0 < n := by omega
        exact h ((Nat.div_lt_iff_lt_mul hn).1 h2 |>.trans_eq (Nat.mul_comm r n))
  · rw [if_neg hA]
    have : ∃ j < K, x (n * r + j) ≠ v (n * r + j) := by
      by_contra hc
      push Not at hc
      refine hA (List.all_eq_true.2 fun q hq => ?_)
      obtain ⟨j, hj, rfl⟩ := List.mem_map.1 hq
      rw [beq_iff_eq]
      exact hc j (List.mem_range.1 hj)
    obtain ⟨j, hj, h⟩ := this
    exact hv x j hj h

/-! ## Random outcomes -/

/-- As `track`, with given outcomes of the measurements. -/
def trackO (r : ℕ) : List Cmd → List Bool → TS → Option TS
  | [], _, s => some s
  | .run (.measure q b) :: l, o :: outs, s =>
    if q < r then
      trackO r l outs ⟨([(false, q)], o) :: s.facts.filter fun f => !anti f.1 [(false, q)], (b, o) :: dropBit b s.bits⟩
    else none
  | .run (.measure _ _) :: _, [], _ => none
  | c :: l, outs, s =>
    match c.step r s with
    | some s' => trackO r l outs s'
    | none => none

/-- The number of measurements. -/
def measCount (l : List Instr) : ℕ := l.countP fun i => match i with | .measure _ _ => true | _ => false

theorem mul_sound {r cl : ℕ} {e : ℕ → ℕ} (he : Inj r e) {a b : ℕ} {s s₁ : TS} (hd : (Cmd.mul a b).step r s = some s₁) {c : Config R}
    (hs : s.Sat e r cl c) : s₁.Sat e r cl c := by
  have h : track r [.mul a b] s = some s₁ := by unfold track; rw [hd]; rfl
  unfold Cmd.step at hd
  simp only at hd
  split at hd
  · rename_i f g hf hg
    cases hd
    have mf := List.mem_of_getElem? hf
    have mg := List.mem_of_getElem? hg
    have key := norm_sound he (Within.append (hs.within f mf) (hs.within g mg)) (Eig.mul (hs.eig f mf) (hs.eig g mg))
    refine ⟨fun x hx => ?_, fun x hx => ?_, hs.bits⟩
    · rcases List.mem_or_eq_of_mem_set hx with hx | rfl
      · exact hs.within x hx
      · exact key.1
    · rcases List.mem_or_eq_of_mem_set hx with hx | rfl
      · exact hs.eig x hx
      · exact key.2
  · cases hd

theorem trackO_sound {r cl : ℕ} {e : ℕ → ℕ} (he : Inj r e) {l : List Cmd} {s : TS} {c c' : Config R}
    (hs : s.Sat e r cl c) (hb : Branch k ((l.flatMap Cmd.instr).map (Instr.rename e (cl + ·))) c c') :
    ∃ outs : List Bool, outs.length = measCount (l.flatMap Cmd.instr) ∧
      ∀ s', trackO r l outs s = some s' → c'.1 = 0 ∨ s'.Sat e r cl c' := by
  induction l generalizing s c with
  | nil => exact ⟨[], rfl, fun s' h => by cases h; cases hb; exact .inr hs⟩
  | cons d l ih =>
    cases d with
    | mul a b =>
      by_cases hd : ∃ s₁, (Cmd.mul a b).step r s = some s₁
      · obtain ⟨s₁, hd⟩ := hd
        obtain ⟨outs, ho, h⟩ := ih (mul_sound he hd hs) hb
        refine ⟨outs, ho, fun s' hs' => h s' ?_⟩
        simp only [trackO, hd] at hs'
        exact hs'
      · refine ⟨List.replicate (measCount _) false, List.length_replicate, fun s' hs' => ?_⟩
        simp only [trackO] at hs'
        cases hd' : (Cmd.mul a b).step r s with
        | none => rw [hd'] at hs'; cases hs'
        | some s₁ => exact absurd ⟨s₁, hd'⟩ hd
    | run i =>
      obtain ⟨c₁, h1, h2⟩ := hb
      by_cases hm : ∃ q b, i = .measure q b
      · obtain ⟨q, b, rfl⟩ := hm
        obtain ⟨o, rfl⟩ := h1
        have hcount : ∀ outs : List Bool, outs.length = measCount (l.flatMap Cmd.instr) →
            (o :: outs).length = measCount ((Cmd.run (.measure q b) :: l).flatMap Cmd.instr) := fun outs ho => by
          rw [List.length_cons, ho]
          show _ = measCount (Instr.measure q b :: l.flatMap Cmd.instr)
          unfold measCount
          rw [List.countP_cons]
          simp
        by_cases hq : q < r
        · have hsat : (⟨([(false, q)], o) :: s.facts.filter fun f => !anti f.1 [(false, q)], (b, o) :: dropBit b s.bits⟩ : TS).Sat e r cl
              (project (e q) o c.1, Function.update c.2 (cl + b) o) := by
            refine ⟨fun f hf => ?_, fun f hf => ?_, fun p hp => ?_⟩
            · rcases List.mem_cons.1 hf with rfl | hf
              · intro l hl; simp at hl; subst hl; exact hq
              · exact hs.within f (List.mem_filter.1 hf).1
            · rcases List.mem_cons.1 hf with rfl | hf
              · unfold Eig
                funext x
                show sgn (x (e q)) * (if x (e q) = o then c.1 x else 0) = sgn o * (if x (e q) = o then c.1 x else 0)
                split
                · rename_i hx; rw [hx]
                · simp
              · obtain ⟨hf, ha⟩ := List.mem_filter.1 hf
                have hw := hs.within f hf
                have ha' : anti (place e f.1) [(false, e q)] = false := by
                  rw [show [(false, e q)] = place e [(false, q)] from rfl,
                    anti_place he hw (fun l hl => by simp at hl; subst hl; exact hq)]
                  simpa using ha
                have hE := hs.eig f hf
                unfold Eig at hE ⊢
                show act _ (project (e q) o c.1) = _ • project (e q) o c.1
                rw [← project_act k ha', hE, project_smul]
            · rcases List.mem_cons.1 hp with rfl | hp
              · exact Function.update_self _ _ _
              · obtain ⟨hp, hpb⟩ := List.mem_filter.1 hp
                have hpb : p.1 ≠ b := by simpa using hpb
                show Function.update c.2 (cl + b) o (cl + p.1) = p.2
                rw [Function.update_of_ne (by omega)]
                exact hs.bits p hp
          obtain ⟨outs, ho, h⟩ := ih hsat h2
          refine ⟨o :: outs, hcount outs ho, fun s' hs' => h s' ?_⟩
          simp only [trackO, if_pos hq] at hs'
          exact hs'
        · refine ⟨o :: List.replicate (measCount _) false, hcount _ List.length_replicate, fun s' hs' => ?_⟩
          simp only [trackO, if_neg hq] at hs'
          cases hs'
      · have hcount : measCount ((Cmd.run i :: l).flatMap Cmd.instr) = measCount (l.flatMap Cmd.instr) := by
          show measCount (i :: l.flatMap Cmd.instr) = _
          unfold measCount
          rw [List.countP_cons]
          cases i <;> first | rfl | exact absurd ⟨_, _, rfl⟩ hm
        have hto : ∀ outs, trackO r (Cmd.run i :: l) outs s = match trackStep r i s with | some s' => trackO r l outs s' | none => none := by
          intro outs
          cases i <;> first | rfl | exact absurd ⟨_, _, rfl⟩ hm
        rw [hcount]
        cases hd : trackStep r i s with
        | none =>
          refine ⟨List.replicate (measCount _) false, List.length_replicate, fun s' hs' => ?_⟩
          rw [hto, hd] at hs'
          cases hs'
        | some s₁ =>
          rcases trackStep_sound k he hd hs h1 with h0 | h3
          · exact ⟨List.replicate (measCount _) false, List.length_replicate, fun _ _ => .inl (branch_zero k h2 h0)⟩
          · obtain ⟨outs, ho, h⟩ := ih h3 h2
            exact ⟨outs, ho, fun s' hs' => h s' (by rw [hto, hd] at hs'; exact hs')⟩

end Res
end Verif.Ecc
