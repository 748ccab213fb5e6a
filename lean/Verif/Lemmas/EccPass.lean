import Verif.Lemmas.EccMachine
import Verif.Spec.EccCode

/-! # Correction of all logical qubits -/

namespace Verif.Ecc
open scoped BigOperators
variable {R : Type} [CommRing R] (k : Consts R)

/-- The qubits of the blocks. -/
structure Layout (n r K : ℕ) (d a : ℕ → ℕ → ℕ) (A : List ℕ) : Prop where
  hd : ∀ i < n, Inj r (d i)
  ha : ∀ i < n, Inj K (a i)
  dA : ∀ i < n, ∀ j < r, d i j ∉ A
  aA : ∀ i < n, ∀ j < K, a i j ∈ A
  dd : ∀ i < n, ∀ i' < n, i ≠ i' → ∀ j < r, ∀ j' < r, d i j ≠ d i' j'

theorem Layout.apart {n r K : ℕ} {d a : ℕ → ℕ → ℕ} {A : List ℕ} (h : Layout n r K d a A) {i : ℕ} (hi : i < n) :
    Apart r K (d i) (a i) := fun j hj j' hj' e => h.dA i hi j hj (e ▸ h.aA i hi j' hj')

/-- The errors of all blocks. -/
def allErr (d : ℕ → ℕ → ℕ) (w : ℕ → Word) (l : List ℕ) : Word := l.flatMap fun i => place (d i) (w i)

theorem act_allErr_pull {n r K : ℕ} {d a : ℕ → ℕ → ℕ} {A : List ℕ} (h : Layout n r K d a A) {w : ℕ → Word}
    (hw : ∀ i < n, Within r (w i)) (ψ : State R) {i : ℕ} (hi : i < n) (l : List ℕ) (hl : ∀ j ∈ l, j < n) (hn : l.Nodup)
    (hil : i ∈ l) :
    act (allErr d w l) ψ = act (place (d i) (w i)) (act (allErr d (Function.update w i []) l) ψ) := by
  induction l with
  | nil => cases hil
  | cons j l ih =>
    have hcongr : i ∉ l → allErr d (Function.update w i []) l = allErr d w l := fun hil => by
      unfold allErr
      refine List.flatMap_congr fun j hj => ?_
      rw [Function.update_of_ne fun e => hil (by rw [← e]; exact hj)]
    rw [List.nodup_cons] at hn
    show act (place (d j) (w j) ++ allErr d w l) ψ = act _ (act (place (d j) (Function.update w i [] j) ++ allErr d _ l) ψ)
    by_cases e : j = i
    · subst e
      rw [Function.update_self, hcongr hn.1, act_append]
      rfl
    · rw [Function.update_of_ne e, act_append, act_append]
      have hil' : i ∈ l := by
        rcases List.mem_cons.1 hil with h | h
        · exact absurd h.symm e
        · exact h
      rw [ih (fun x hx => hl x (List.mem_cons_of_mem _ hx)) hn.2 hil', act_act]
      rw [anti_disjoint, sgn_false, one_smul]
      intro x hx y hy
      obtain ⟨x', hx', rfl⟩ := List.mem_map.1 hx
      obtain ⟨y', hy', rfl⟩ := List.mem_map.1 hy
      exact h.dd j (hl j List.mem_cons_self) i hi e _ (hw j (hl j List.mem_cons_self) _ hx') _ (hw i hi _ hy')

theorem act_allErr_comm {n r K : ℕ} {d a : ℕ → ℕ → ℕ} {A : List ℕ} (h : Layout n r K d a A) {w : ℕ → Word}
    (hw : ∀ i < n, Within r (w i)) (ψ : State R) {i : ℕ} (hi : i < n) (hwi : w i = []) {g : Word} (hg : Within r g) (l : List ℕ)
    (hl : ∀ j ∈ l, j < n) :
    act (place (d i) g) (act (allErr d w l) ψ) = act (allErr d w l) (act (place (d i) g) ψ) := by
  rw [act_act, anti_disjoint, sgn_false, one_smul]
  intro x hx y hy
  obtain ⟨x', hx', rfl⟩ := List.mem_map.1 hx
  obtain ⟨j, hj, hy⟩ := List.mem_flatMap.1 hy
  obtain ⟨y', hy', rfl⟩ := List.mem_map.1 hy
  by_cases e : j = i
  · subst e; rw [hwi] at hy'; cases hy'
  · exact h.dd i hi j (hl j hj) (Ne.symm e) _ (hg _ hx') _ (hw j (hl j hj) _ hy')

/-! ## Ancillas -/

theorem all_eq_update {A : List ℕ} {q : ℕ} (hq : q ∉ A) (x v : Bits) (b : Bool) :
    (A.all fun p => Function.update x q b p == v p) = A.all fun p => x p == v p := by
  induction A with
  | nil => rfl
  | cons p A ih =>
    have hp : p ≠ q := fun e => hq (e ▸ List.mem_cons_self)
    rw [List.all_cons, List.all_cons, ih fun h => hq (List.mem_cons_of_mem _ h), Function.update_of_ne hp]

theorem withAnc_actL {A : List ℕ} (v : Bits) (l : Bool × ℕ) (hl : l.2 ∉ A) (ψ : State R) :
    actL l (withAnc A v ψ) = withAnc A v (actL l ψ) := by
  funext x
  unfold actL
  split
  · show (if A.all (fun p => flip x l.2 p == v p) then ψ (flip x l.2) else 0) = if A.all _ then ψ (flip x l.2) else 0
    rw [show (A.all fun p => flip x l.2 p == v p) = A.all fun p => x p == v p from all_eq_update hl x v _]
  · show (sgn (x l.2) : R) * (if A.all (fun p => x p == v p) then ψ x else 0) =
      if A.all (fun p => x p == v p) then sgn (x l.2) * ψ x else 0
    split <;> simp

theorem withAnc_act {A : List ℕ} (v : Bits) {w : Word} (hw : ∀ l ∈ w, l.2 ∉ A) (ψ : State R) :
    act w (withAnc A v ψ) = withAnc A v (act w ψ) := by
  induction w with
  | nil => rfl
  | cons l w ih =>
    rw [act_cons, ih fun x hx => hw x (List.mem_cons_of_mem _ hx), withAnc_actL v l (hw l List.mem_cons_self)]
    rfl

theorem withAnc_smul (A : List ℕ) (v : Bits) (u : R) (ψ : State R) : withAnc A v (u • ψ) = u • withAnc A v ψ := by
  funext x
  show (if _ then u * ψ x else 0) = u * (if _ then ψ x else 0)
  split <;> simp

theorem withAnc_free {A : List ℕ} {v : Bits} {ψ : State R} {q : ℕ} (hq : q ∉ A) (h : Free ψ q) : Free (withAnc A v ψ) q := by
  intro x b
  show (if A.all (fun p => Function.update x q b p == v p) then ψ (Function.update x q b) else 0) = if A.all _ then ψ x else 0
  rw [all_eq_update hq, h]

theorem prod_amp_basis (K : ℕ) (b : ℕ → Bool) (y : ℕ → Bool) :
    (∏ j ∈ Finset.range K, amp k (false, b j) (y j)) = if (List.range K).all fun j => y j == b j then 1 else 0 := by
  induction K with
  | zero => simp
  | succ K ih =>
    rw [Finset.prod_range_succ, ih, List.range_succ, List.all_append]
    simp only [amp, List.all_cons, List.all_nil, Bool.and_true, Bool.false_eq_true, if_false]
    by_cases h : y K = b K
    · simp [h]
    · simp [h]

/-- The ancillas not in the block. -/
def rest (A : List ℕ) (K : ℕ) (a : ℕ → ℕ) : List ℕ := A.filter fun q => !(List.range K).any fun j => a j == q

theorem notMem_rest {A : List ℕ} {K : ℕ} {a : ℕ → ℕ} {j : ℕ} (hj : j < K) : a j ∉ rest A K a := by
  intro h
  have := (List.mem_filter.1 h).2
  simp at this
  exact this j hj rfl

theorem tens_withAnc {A : List ℕ} {K : ℕ} {a : ℕ → ℕ} (hA : ∀ j < K, a j ∈ A) {st : ℕ → AncSt}
    (hst : ∀ j < K, (st j).1 = false) (v v' : Bits) (hv : ∀ q ∈ rest A K a, v' q = v q) (hv' : ∀ j < K, v' (a j) = (st j).2)
    (ψ : State R) : tens k a K st (withAnc (rest A K a) v ψ) = withAnc A v' ψ := by
  funext x
  unfold tens
  have e : (∏ j ∈ Finset.range K, amp k (st j) (x (a j))) = ∏ j ∈ Finset.range K, amp k (false, (st j).2) (x (a j)) :=
    Finset.prod_congr rfl fun j hj => by rw [← hst j (Finset.mem_range.1 hj)]
  rw [e, prod_amp_basis k K (fun j => (st j).2) (fun j => x (a j))]
  show _ * (if _ then ψ x else 0) = if _ then ψ x else 0
  have : (A.all fun q => x q == v' q) =
      (((List.range K).all fun j => x (a j) == (st j).2) && (rest A K a).all fun q => x q == v q) := by
    rw [Bool.eq_iff_iff]
    simp only [Bool.and_eq_true, List.all_eq_true, beq_iff_eq, List.mem_range]
    constructor
    · intro h
      exact ⟨fun j hj => by rw [h _ (hA j hj), hv' j hj], fun q hq => by rw [h q (List.mem_filter.1 hq).1, hv q hq]⟩
    · intro h q hq
      by_cases hr : ∃ j < K, a j = q
      · obtain ⟨j, hj, rfl⟩ := hr
        rw [h.1 j hj, hv' j hj]
      · have hm : q ∈ rest A K a := List.mem_filter.2 ⟨hq, by simp; exact fun j hj e => hr ⟨j, hj, e⟩⟩
        rw [h.2 q hm, hv q hm]
  rw [this]
  by_cases h1 : ((List.range K).all fun j => x (a j) == (st j).2) = true
  · rw [h1]; simp
  · rw [Bool.not_eq_true] at h1; rw [h1]; simp

/-! ## The pass -/

/-- Run the correction of one block from unknown ancilla values: the error left, if the ancillas end in basis states. -/
def fixWord (r K C : ℕ) (ch : List Chunk) (e : Word) : Option Word :=
  match runAll r K ch ⟨List.replicate K none, List.replicate C none, e⟩ with
  | some s => if (List.range K).all fun j => match s.st.getD j none with | some (true, _) => false | _ => true then some s.e else none
  | none => none

theorem getD_replicate_none {α : Type} (K j : ℕ) : (List.replicate K (none : Option α)).getD j none = none := by
  rw [List.getD_eq_getElem?_getD]
  by_cases h : j < K
  · simp [h]
  · simp [h]

theorem block_sound {n r K C : ℕ} {d a : ℕ → ℕ → ℕ} {A : List ℕ} (h : Layout n r K d a A) {S : List Word}
    (hS : ∀ g ∈ S, Within r g) {ψ : State R} (hψ : ∀ i < n, ∀ g ∈ S, act (place (d i) g) ψ = ψ) (hf : ∀ q ∈ A, Free ψ q)
    {ch : List Chunk} (hch : ∀ c ∈ ch, c.OK r K S) {w : ℕ → Word} (hw : ∀ i < n, Within r (w i)) {i : ℕ} (hi : i < n) {e' : Word}
    (hfix : fixWord r K C ch (w i) = some e') (cl : ℕ) (v bits : Bits) (u : R) (hu : u ^ 4 = 1) :
    Within r e' ∧ ∃ (v' bits' : Bits) (u' : R), u' ^ 4 = 1 ∧
      Det k (chunkInstrs (d i) (a i) cl ch) (withAnc A v (u • act (allErr d w (List.range n)) ψ), bits)
        (withAnc A v' (u' • act (allErr d (Function.update w i e') (List.range n)) ψ), bits') := by
  have hrange : ∀ j ∈ List.range n, j < n := fun j hj => List.mem_range.1 hj
  have hupd : ∀ e, Within r e → ∀ j < n, Within r (Function.update w i e j) := fun e he j hj => by
    by_cases ej : j = i
    · subst ej; rw [Function.update_self]; exact he
    · rw [Function.update_of_ne ej]; exact hw j hj
  have hnil : Within r ([] : Word) := fun l hl => by cases hl
  set B := rest A K (a i) with hB
  set χ := act (allErr d (Function.update w i []) (List.range n)) ψ with hχ
  set φ := withAnc B v χ with hφ
  have hdB : ∀ g : Word, Within r g → ∀ l ∈ place (d i) g, l.2 ∉ B := fun g hg l hl => by
    obtain ⟨l', hl', rfl⟩ := List.mem_map.1 hl
    exact fun hm => h.dA i hi _ (hg l' hl') (List.mem_filter.1 hm).1
  have hfχ : ∀ q ∈ A, Free χ q := fun q hq => free_act' (fun l hl e => by
    obtain ⟨j, hj, hl⟩ := List.mem_flatMap.1 hl
    obtain ⟨l', hl', rfl⟩ := List.mem_map.1 hl
    exact h.dA j (hrange j hj) _ (hupd [] hnil j (hrange j hj) _ hl') (by rw [← e] at hq; exact hq)) (hf q hq)
  have hb : BlockOK r K (d i) (a i) S φ :=
    { hd := h.hd i hi
      ha := h.ha i hi
      hda := h.apart hi
      hS := hS
      hφ := fun g hg => by
        rw [hφ, withAnc_act v (hdB g (hS g hg)), hχ,
          act_allErr_comm h (hupd [] hnil) ψ hi (Function.update_self _ _ _) (hS g hg) _ hrange, hψ i hi g hg]
      hf := fun j hj => withAnc_free (notMem_rest hj) (hfχ _ (h.aA i hi j hj)) }
  have pull : ∀ e, Within r e → ∀ (st : ℕ → AncSt) (v' : Bits) (z : R), (∀ j < K, (st j).1 = false) →
      (∀ q ∈ B, v' q = v q) → (∀ j < K, v' (a i j) = (st j).2) →
      tens k (a i) K st (z • act (place (d i) e) φ) =
        withAnc A v' (z • act (allErr d (Function.update w i e) (List.range n)) ψ) := by
    intro e he st v' z h1 h2 h3
    rw [hφ, withAnc_act v (hdB e he), ← withAnc_smul, tens_withAnc k (h.aA i hi) h1 v v' h2 h3]
    rw [act_allErr_pull h (hupd e he) ψ hi _ hrange List.nodup_range (List.mem_range.2 hi), Function.update_self,
      Function.update_idem]
  unfold fixWord at hfix
  cases hrun : runAll r K ch ⟨List.replicate K none, List.replicate C none, w i⟩ with
  | none => rw [hrun] at hfix; cases hfix
  | some s =>
    rw [hrun] at hfix
    simp only at hfix
    split at hfix
    · rename_i hall
      cases hfix
      have hrep : Rep k r K (d i) (a i) cl φ ⟨List.replicate K none, List.replicate C none, w i⟩
          (withAnc A v (u • act (allErr d w (List.range n)) ψ), bits) := by
        refine ⟨fun j => (false, v (a i j)), u, hu, ?_, hw i hi, fun j _ x hx => ?_, fun _ _ _ => rfl, fun j b hb => ?_⟩
        · rw [pull (w i) (hw i hi) _ v u (fun _ _ => rfl) (fun _ _ => rfl) (fun _ _ => rfl), Function.update_eq_self]
        · rw [getD_replicate_none] at hx; cases hx
        · rw [getD_replicate_none] at hb; cases hb
      obtain ⟨c', hdet, st, z, hz, hc', hwe, h1, h2, h3⟩ := runAll_sound k hb hch hrun hrep
      have hbasis : ∀ j < K, (st j).1 = false := fun j hj => by
        have := List.all_eq_true.1 hall j (List.mem_range.2 hj)
        cases hs : s.st.getD j none with
        | none => exact h2 j hj hs
        | some x =>
          rw [hs] at this
          rw [h1 j hj x hs]
          obtain ⟨p, b⟩ := x
          cases p
          · rfl
          · cases this
      refine ⟨hwe, ?_⟩
      -- the values of the ancillas
      obtain ⟨v', hv1, hv2⟩ : ∃ v' : Bits, (∀ q ∈ B, v' q = v q) ∧ ∀ j < K, v' (a i j) = (st j).2 := by
        refine ⟨fun q => match (List.range K).find? fun j => a i j == q with | some j => (st j).2 | none => v q, ?_, ?_⟩
        · intro q hq
          have hn : ((List.range K).find? fun j => a i j == q) = none := by
            rw [List.find?_eq_none]
            intro j hj e
            rw [beq_iff_eq] at e
            subst e
            exact notMem_rest (List.mem_range.1 hj) hq
          simp only [hn]
        · intro j hj
          cases hfd : (List.range K).find? fun j' => a i j' == a i j with
          | none =>
            rw [List.find?_eq_none] at hfd
            exact absurd (beq_self_eq_true _) (hfd j (List.mem_range.2 hj))
          | some j' =>
            have e := List.find?_some hfd
            have hm := List.mem_of_find?_eq_some hfd
            rw [beq_iff_eq] at e
            have := h.ha i hi j' (List.mem_range.1 hm) j hj e
            subst this
            simp only [hfd]
      refine ⟨v', c'.2, z, hz, ?_⟩
      rw [← pull s.e hwe st v' z hbasis hv1 hv2, ← hc']
      exact hdet
    · cases hfix

/-- All blocks one after the other. -/
theorem pass_sound {n r K C : ℕ} {d a : ℕ → ℕ → ℕ} {A : List ℕ} (h : Layout n r K d a A) {S : List Word}
    (hS : ∀ g ∈ S, Within r g) {ψ : State R} (hψ : ∀ i < n, ∀ g ∈ S, act (place (d i) g) ψ = ψ) (hf : ∀ q ∈ A, Free ψ q)
    {ch : List Chunk} (hch : ∀ c ∈ ch, c.OK r K S) {w w' : ℕ → Word} (hw : ∀ i < n, Within r (w i))
    (hfix : ∀ i < n, fixWord r K C ch (w i) = some (w' i)) (cl : ℕ) {b : ℕ → List Instr}
    (hb : ∀ i < n, b i = chunkInstrs (d i) (a i) cl ch) (v bits : Bits) (u : R) (hu : u ^ 4 = 1) :
    (∀ i < n, Within r (w' i)) ∧ ∃ (v' bits' : Bits) (u' : R), u' ^ 4 = 1 ∧
      Det k (blocks n b) (withAnc A v (u • act (allErr d w (List.range n)) ψ), bits)
        (withAnc A v' (u' • act (allErr d w' (List.range n)) ψ), bits') := by
  have main : ∀ m ≤ n, (∀ i < m, Within r (w' i)) ∧ ∃ (v' bits' : Bits) (u' : R), u' ^ 4 = 1 ∧
      Det k (blocks m b) (withAnc A v (u • act (allErr d w (List.range n)) ψ), bits)
        (withAnc A v' (u' • act (allErr d (fun i => if i < m then w' i else w i) (List.range n)) ψ), bits') := by
    intro m
    induction m with
    | zero => exact fun _ => ⟨fun i hi => by omega, v, bits, u, hu, by simpa [blocks] using Det.nil k _⟩
    | succ m ih =>
      intro hm
      obtain ⟨hwi, v₁, bits₁, u₁, hu₁, hdet₁⟩ := ih (by omega)
      have hw₁ : ∀ i < n, Within r (if i < m then w' i else w i) := fun i hi => by
        split
        · exact hwi i (by assumption)
        · exact hw i hi
      obtain ⟨hwm, v₂, bits₂, u₂, hu₂, hdet₂⟩ := block_sound k h hS hψ hf hch hw₁ (i := m) (by omega) (e' := w' m) (C := C)
        (by rw [if_neg (Nat.lt_irrefl m)]; exact hfix m (by omega)) cl v₁ bits₁ u₁ hu₁
      refine ⟨fun i hi => ?_, v₂, bits₂, u₂, hu₂, ?_⟩
      · by_cases e : i = m
        · subst e; exact hwm
        · exact hwi i (by omega)
      · have hbl : blocks (m + 1) b = blocks m b ++ chunkInstrs (d m) (a m) cl ch := by
          unfold blocks
          rw [List.range_succ, List.flatMap_append, ← hb m (by omega)]
          simp
        have hfun : Function.update (fun i => if i < m then w' i else w i) m (w' m) =
            fun i => if i < m + 1 then w' i else w i := by
          funext i
          by_cases e : i = m
          · subst e; simp
          · rw [Function.update_of_ne e]
            by_cases hi : i < m
            · rw [if_pos hi, if_pos (by omega)]
            · rw [if_neg hi, if_neg (by omega)]
        rw [hbl, ← hfun]
        exact hdet₁.append k hdet₂
  obtain ⟨h1, v', bits', u', hu', hdet⟩ := main n (Nat.le_refl n)
  refine ⟨h1, v', bits', u', hu', ?_⟩
  have : allErr d (fun i => if i < n then w' i else w i) (List.range n) = allErr d w' (List.range n) := by
    unfold allErr
    refine List.flatMap_congr fun i hi => ?_
    show place (d i) (if i < n then w' i else w i) = _
    rw [if_pos (List.mem_range.1 hi)]
  rw [← this]
  exact hdet

/-! ## What is left is a stabilizer -/

/-- The word is a product of generators up to sign. -/
def isStab (S : List Word) (w : Word) : Bool :=
  (List.range (2 ^ S.length)).any fun m => (nf w).x == (nf (genProd S m S.length)).x && (nf w).z == (nf (genProd S m S.length)).z

theorem act_isStab {r : ℕ} {d : ℕ → ℕ} (hd : Inj r d) {S : List Word} (hS : ∀ g ∈ S, Within r g) {ψ : State R}
    (hψ : ∀ g ∈ S, act (place d g) ψ = ψ) {w : Word} (hw : Within r w) (h : isStab S w = true) :
    ∃ u : R, u ^ 4 = 1 ∧ act (place d w) ψ = u • ψ := by
  obtain ⟨m, _, hm⟩ := List.any_eq_true.1 h
  rw [Bool.and_eq_true, beq_iff_eq, beq_iff_eq] at hm
  have hg := act_genProd (d := d) (gens := S) (χ := ψ) (σ := fun _ => false) m S.length fun i hi => by
    rw [sgn_false, one_smul, List.getD_eq_getElem?_getD, List.getElem?_eq_getElem hi]
    exact hψ _ (List.getElem_mem hi)
  refine ⟨sgn ((nf w).neg ^^ (nf (genProd S m S.length)).neg), sgn_pow_four _, ?_⟩
  rw [act_eq_of_nf hd hw (within_genProd hS m _) hm.1 hm.2, hg]
  simp

theorem act_allErr_stab {n r K : ℕ} {d a : ℕ → ℕ → ℕ} {A : List ℕ} (h : Layout n r K d a A) {S : List Word}
    (hS : ∀ g ∈ S, Within r g) {ψ : State R} (hψ : ∀ i < n, ∀ g ∈ S, act (place (d i) g) ψ = ψ) {w : ℕ → Word}
    (hw : ∀ i < n, Within r (w i)) (hst : ∀ i < n, isStab S (w i) = true) :
    ∃ u : R, u ^ 4 = 1 ∧ act (allErr d w (List.range n)) ψ = u • ψ := by
  have : ∀ l : List ℕ, (∀ i ∈ l, i < n) → ∃ u : R, u ^ 4 = 1 ∧ act (allErr d w l) ψ = u • ψ := by
    intro l hl
    induction l with
    | nil => exact ⟨1, by ring, by rw [one_smul]; rfl⟩
    | cons i l ih =>
      obtain ⟨u, hu, e⟩ := ih fun j hj => hl j (List.mem_cons_of_mem _ hj)
      have hi := hl i List.mem_cons_self
      obtain ⟨z, hz, e'⟩ := act_isStab (h.hd i hi) hS (hψ i hi) (hw i hi) (hst i hi)
      refine ⟨u * z, by rw [mul_pow, hu, hz, one_mul], ?_⟩
      show act (place (d i) (w i) ++ allErr d w l) ψ = _
      rw [act_append, e, act_smul, e', smul_smul]
  exact this _ fun i hi => List.mem_range.1 hi

/-- The word of an error. -/
def errWord : Option (Op × ℕ) → Word
  | none => []
  | some (op, q) => (opWord op q).getD []

/-- An error on data qubit `q` of its block, in the numbering of the block. -/
def errOK (r : ℕ) : Option (Op × ℕ) → Prop
  | none => True
  | some (op, q) => (op = .X ∨ op = .Y ∨ op = .Z) ∧ q < r

instance (r : ℕ) (e : Option (Op × ℕ)) : Decidable (errOK r e) := by
  cases e <;> unfold errOK <;> infer_instance

theorem errWord_within {r : ℕ} {e : Option (Op × ℕ)} (h : errOK r e) : Within r (errWord e) := by
  cases e with
  | none => intro l hl; cases hl
  | some p =>
    obtain ⟨op, q⟩ := p
    obtain ⟨ho, hq⟩ := h
    rcases ho with rfl | rfl | rfl
    · exact opWord_within (op := .X) (q := q) rfl hq
    · exact opWord_within (op := .Y) (q := q) rfl hq
    · exact opWord_within (op := .Z) (q := q) rfl hq

theorem corrupt_eq {n r : ℕ} {pos : ℕ → ℕ} (err err' : ℕ → Option (Op × ℕ))
    (he : ∀ i < n, errOK r (err i) ∧ err' i = (err i).map fun p => (p.1, pos p.2)) (ψ : State R) :
    ∃ u : R, u ^ 4 = 1 ∧
      corrupt k n err' ψ = u • act (allErr (fun i j => dat n i (pos j)) (fun i => errWord (err i)) (List.range n)) ψ := by
  have : ∀ l : List ℕ, (∀ i ∈ l, i < n) → ∃ u : R, u ^ 4 = 1 ∧
      l.foldr (fun i φ => match err' i with | none => φ | some (op, q) => opAct k op (dat n i q) φ) ψ =
        u • act (allErr (fun i j => dat n i (pos j)) (fun i => errWord (err i)) l) ψ := by
    intro l hl
    induction l with
    | nil => exact ⟨1, by ring, by rw [one_smul]; rfl⟩
    | cons i l ih =>
      obtain ⟨u, hu, e⟩ := ih fun j hj => hl j (List.mem_cons_of_mem _ hj)
      obtain ⟨ho, hm⟩ := he i (hl i List.mem_cons_self)
      rw [List.foldr_cons, e]
      show ∃ z : R, z ^ 4 = 1 ∧ _ = z • act (place _ (errWord (err i)) ++ allErr _ _ l) ψ
      rw [hm, act_append]
      cases hi : err i with
      | none => exact ⟨u, hu, rfl⟩
      | some p =>
        obtain ⟨op, q⟩ := p
        rw [hi] at ho
        obtain ⟨w, hw⟩ : ∃ w, opWord op q = some w := by
          rcases ho.1 with rfl | rfl | rfl <;> exact ⟨_, rfl⟩
        obtain ⟨z, hz, hop⟩ := opAct_word k hw fun j => dat n i (pos j)
        refine ⟨u * z, by rw [mul_pow, hu, hz, one_mul], ?_⟩
        show opAct k op (dat n i (pos q)) _ = (u * z) • act (place _ ((opWord op q).getD [])) _
        rw [hop, hw, act_smul, smul_smul, mul_comm]
        rfl
  exact this _ fun i hi => List.mem_range.1 hi

/-! ## Classical bits -/

theorem branch_bits {m : ℕ} {l : List Instr} (hl : ∀ q c, Instr.measure q c ∈ l → m ≤ c) {c c' : Config R}
    (h : Branch k l c c') : ∀ b < m, c'.2 b = c.2 b := by
  induction l generalizing c with
  | nil => cases h; exact fun _ _ => rfl
  | cons i l ih =>
    obtain ⟨e, h1, h2⟩ := h
    intro b hb
    rw [ih (fun q c hq => hl q c (List.mem_cons_of_mem _ hq)) h2 b hb]
    cases i with
    | reset q => obtain ⟨o, rfl⟩ := h1; rfl
    | gate op cs t => obtain rfl : e = _ := h1; rfl
    | swap p q => obtain rfl : e = _ := h1; rfl
    | measure q x =>
      obtain ⟨o, rfl⟩ := h1
      have := hl q x List.mem_cons_self
      exact Function.update_of_ne (by omega) _ _
    | cc op q st len v => obtain rfl : e = _ := h1; rfl
    | clone g => exact h1.elim

theorem Det.corrects {A : List ℕ} {m : ℕ} {l : List Instr} {ψ₀ ψ : State R} (hl : ∀ q c, Instr.measure q c ∈ l → m ≤ c)
    (h : ∀ v cl : Bits, ∃ c', Det k l (withAnc A v ψ₀, cl) c' ∧ Restored A ψ c'.1) : Corrects k A m l ψ₀ ψ := by
  intro v cl
  obtain ⟨c', hd, hr⟩ := h v cl
  refine ⟨⟨c', hd.1, hr⟩, fun c'' hc => ⟨?_, fun b hb => branch_bits k hl hc b hb⟩⟩
  rcases hd.2 c'' hc with rfl | h0
  · exact .inl hr
  · exact .inr h0

/-! ## Strings -/

/-- The word of a Pauli string without Y. -/
def stringWord (g : List Op) : Word := g.zipIdx.flatMap fun p => match p.1 with | .X => [(true, p.2)] | .Z => [(false, p.2)] | _ => []

theorem stringAct_word (g : List Op) (hg : ∀ o ∈ g, o = .I ∨ o = .X ∨ o = .Z) (d : ℕ → ℕ) (ψ : State R) :
    stringAct k d g ψ = act (place d (stringWord g)) ψ := by
  unfold stringAct stringWord
  have hg' : ∀ p ∈ g.zipIdx, p.1 = .I ∨ p.1 = .X ∨ p.1 = .Z := fun p hp => hg _ (List.fst_mem_of_mem_zipIdx hp)
  generalize g.zipIdx = l at hg'
  induction l with
  | nil => rfl
  | cons p l ih =>
    rw [List.foldr_cons, ih fun x hx => hg' x (List.mem_cons_of_mem _ hx), List.flatMap_cons, place_append, act_append]
    obtain ⟨o, q⟩ := p
    rcases hg' _ List.mem_cons_self with h | h | h <;> (simp only at h; subst h; rfl)

end Verif.Ecc
