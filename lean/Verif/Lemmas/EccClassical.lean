import Verif.Lemmas.EccBlock
import Verif.Lemmas.EccRename
import Verif.Spec.EccNoise

/-! # Circuits that map basis states to basis states -/

namespace Verif.Ecc
variable {R : Type} [CommRing R] (k : Consts R)

def flips? (op : Op) : Bool := op = .X ∨ op = .Y

/-- An instruction on classical bits. -/
def cstep (i : Instr) (c : Bits × Bits) : Bits × Bits :=
  match i with
  | .reset q => (Function.update c.1 q false, c.2)
  | .gate op cs t => (if flips? op && holds cs c.1 then flip c.1 t else c.1, c.2)
  | .swap a b => (Function.update (Function.update c.1 a (c.1 b)) b (c.1 a), c.2)
  | .measure q b => (c.1, Function.update c.2 b (c.1 q))
  | .cc op q start len v => (if flips? op && decide (regValue c.2 start len = v) then flip c.1 q else c.1, c.2)
  | .clone _ => c

def crun (l : List Instr) (c : Bits × Bits) : Bits × Bits := l.foldl (fun c i => cstep i c) c

theorem crun_nil (c : Bits × Bits) : crun [] c = c := rfl
theorem crun_cons (i : Instr) (l : List Instr) (c : Bits × Bits) : crun (i :: l) c = crun l (cstep i c) := rfl
theorem crun_append (l l' : List Instr) (c : Bits × Bits) : crun (l ++ l') c = crun l' (crun l c) := by
  simp [crun, List.foldl_append]

/-- The instruction may change qubit `q`. -/
def Instr.touches (q : ℕ) : Instr → Bool
  | .reset t => t = q
  | .gate _ _ t => t = q
  | .swap a b => a = q || b = q
  | .cc _ t _ _ _ => t = q
  | _ => false

theorem crun_frame {l : List Instr} {q : ℕ} (h : ∀ i ∈ l, i.touches q = false) (c : Bits × Bits) : (crun l c).1 q = c.1 q := by
  induction l generalizing c with
  | nil => rfl
  | cons i l ih =>
    rw [crun_cons, ih (fun j hj => h j (by simp [hj]))]
    have := h i (by simp)
    cases i <;> simp only [Instr.touches, decide_eq_false_iff_not, Bool.or_eq_false_iff] at this <;> simp only [cstep]
    · rw [Function.update_of_ne (fun e => this e.symm)]
    · split
      · rw [flip_other (fun e => this e.symm)]
      · rfl
    · rw [Function.update_of_ne (fun e => this.2 e.symm), Function.update_of_ne (fun e => this.1 e.symm)]
    · split
      · rw [flip_other (fun e => this e.symm)]
      · rfl

theorem crun_bits {l : List Instr} {b : ℕ} (h : ∀ q, Instr.measure q b ∉ l) (c : Bits × Bits) : (crun l c).2 b = c.2 b := by
  induction l generalizing c with
  | nil => rfl
  | cons i l ih =>
    rw [crun_cons, ih (fun q hq => h q (by simp [hq]))]
    cases i <;> simp only [cstep]
    rename_i q b'
    rw [Function.update_of_ne]
    intro e
    exact h q (by simp [e])

theorem blocks_inv {n : ℕ} {b : ℕ → List Instr} (I : ℕ → Bits × Bits → Prop) {c : Bits × Bits} (h0 : I 0 c)
    (hs : ∀ i < n, ∀ c, I i c → I (i + 1) (crun (b i) c)) : I n (crun (blocks n b) c) := by
  unfold blocks
  induction n with
  | zero => exact h0
  | succ n ih =>
    rw [List.range_succ, List.flatMap_append, crun_append, List.flatMap_singleton]
    exact hs n (by omega) _ (ih fun i hi => hs i (by omega))

/-- No superpositions. -/
def Instr.Classical : Instr → Prop
  | .gate op _ _ => op ≠ .H
  | .cc op _ _ _ _ => op ≠ .H
  | .clone _ => False
  | _ => True

def Agree (N : ℕ) (x b : Bits) : Prop := ∀ q < N, x q = b q

theorem ket_agree {N : ℕ} {x b : Bits} (h : Agree N x b) : (ket N b : State R) x = 1 := if_pos h
theorem ket_not {N : ℕ} {x b : Bits} (h : ¬ Agree N x b) : (ket N b : State R) x = 0 := if_neg h

theorem ket_ne_zero [Nontrivial R] (N : ℕ) (b : Bits) (u : R) (hu : u ^ 8 = 1) : u • (ket N b : State R) ≠ 0 := fun h => by
  have := congrFun h b
  rw [Pi.smul_apply, ket_agree (fun _ _ => rfl)] at this
  simp at this
  rw [this] at hu
  simp at hu

theorem agree_flip {N : ℕ} {x b : Bits} {t : ℕ} : Agree N (flip x t) b ↔ Agree N x (flip b t) := by
  constructor <;> intro h q hq <;> have := h q hq <;> rw [flip_apply] at * <;> revert this <;>
    cases x q <;> cases b q <;> cases decide (q = t) <;> simp

theorem holds_congr {cs : List (ℕ × Bool)} {x y : Bits} (h : ∀ c ∈ cs, x c.1 = y c.1) : holds cs x = holds cs y := by
  unfold holds
  induction cs with
  | nil => rfl
  | cons c cs ih =>
    rw [List.all_cons, List.all_cons, h c (by simp), ih fun d hd => h d (by simp [hd])]

theorem im_pow (k : Consts R) : k.im ^ 8 = 1 := by
  have h := k.hω
  have : k.im ^ 8 = (k.ω ^ 4) ^ 4 := by unfold Consts.im; ring
  rw [this, h]; ring

theorem omega_pow (k : Consts R) : k.ω ^ 8 = 1 := by
  have : k.ω ^ 8 = (k.ω ^ 4) ^ 2 := by ring
  rw [this, k.hω]; ring

theorem omega7_pow (k : Consts R) : (k.ω ^ 7) ^ 8 = 1 := by
  have : (k.ω ^ 7) ^ 8 = (k.ω ^ 8) ^ 7 := by ring
  rw [this, omega_pow]; ring

theorem neg_pow8 {u : R} (h : u ^ 8 = 1) : (-u) ^ 8 = 1 := by rw [← h]; ring

theorem sgn_pow8 (b : Bool) : (sgn b : R) ^ 8 = 1 := by cases b <;> simp [sgn, pow_succ]

theorem opAct_ket {N : ℕ} {op : Op} (hop : op ≠ .H) {t : ℕ} (ht : t < N) (b : Bits) :
    ∃ v : R, v ^ 8 = 1 ∧ ∀ u : R, opAct k op t (u • ket N b) = (v * u) • ket N (if flips? op then flip b t else b) := by
  have diag : ∀ (f : Bool → R), f (b t) ^ 8 = 1 → ∀ u : R, (fun x : Bits => f (x t) * (u • ket N b : State R) x) = (f (b t) * u) • (ket N b : State R) := by
    intro f _ u
    funext x
    by_cases hx : Agree N x b
    · simp [ket_agree hx, hx t ht]
    · simp [ket_not hx]
  have one : ∀ u : R, (u • ket N b : State R) = ((1 : R) * u) • ket N b := fun u => by rw [one_mul]
  cases op with
  | X =>
    refine ⟨1, one_pow _, fun u => ?_⟩
    funext x
    show (u • ket N b : State R) (flip x t) = ((1 : R) * u) • (ket N (flip b t) : State R) x
    rw [one_mul, Pi.smul_apply]
    by_cases hx : Agree N x (flip b t)
    · rw [ket_agree hx, ket_agree (agree_flip.2 hx)]
    · rw [ket_not hx, ket_not (fun h => hx (agree_flip.1 h))]
  | Y =>
    refine ⟨-k.im * sgn (!b t), ?_, fun u => ?_⟩
    · rw [mul_pow, sgn_pow8, neg_pow8 (im_pow k), mul_one]
    · funext x
      show -k.im * sgn (x t) * (u • ket N b : State R) (flip x t) = ((-k.im * sgn (!b t)) * u) • (ket N (flip b t) : State R) x
      rw [Pi.smul_apply]
      by_cases hx : Agree N x (flip b t)
      · rw [ket_agree hx, ket_agree (agree_flip.2 hx), hx t ht]
        simp [flip]
      · rw [ket_not hx, ket_not (fun h => hx (agree_flip.1 h))]
        simp
  | Z => exact ⟨sgn (b t), sgn_pow8 _, diag (fun c => sgn c) (sgn_pow8 _)⟩
  | S =>
    have : (if b t then k.im else 1) ^ 8 = 1 := by split; exacts [im_pow k, one_pow _]
    exact ⟨_, this, diag (fun c => if c then k.im else 1) this⟩
  | Sdg =>
    have : (if b t then -k.im else 1) ^ 8 = 1 := by split; exacts [neg_pow8 (im_pow k), one_pow _]
    exact ⟨_, this, diag (fun c => if c then -k.im else 1) this⟩
  | T =>
    have : (if b t then k.ω else 1) ^ 8 = 1 := by split; exacts [omega_pow k, one_pow _]
    exact ⟨_, this, diag (fun c => if c then k.ω else 1) this⟩
  | Tdg =>
    have : (if b t then k.ω ^ 7 else 1) ^ 8 = 1 := by split; exacts [omega7_pow k, one_pow _]
    exact ⟨_, this, diag (fun c => if c then k.ω ^ 7 else 1) this⟩
  | H => exact absurd rfl hop
  | _ => exact ⟨1, one_pow _, one⟩

/-- Basis state to basis state, with a phase. -/
def Mono (N : ℕ) (l : List Instr) (c c' : Bits × Bits) : Prop :=
  ∀ u : R, u ^ 8 = 1 → ∃ u' : R, u' ^ 8 = 1 ∧ Det k l (u • ket N c.1, c.2) (u' • ket N c'.1, c'.2)

theorem ket_support {N : ℕ} {b : Bits} {q : ℕ} (hq : q < N) (u : R) (x : Bits) (h : x q ≠ b q) :
    (u • ket N b : State R) x = 0 := by
  rw [Pi.smul_apply, ket_not (fun hx => h (hx q hq)), smul_zero]

theorem mono_step {N M : ℕ} {i : Instr} (hw : i.WF N M) (hc : i.Classical) (c : Bits × Bits) : Mono k N [i] c (cstep i c) := by
  obtain ⟨b, cl⟩ := c
  intro u hu
  cases i with
  | reset q =>
    have hq : q < N := hw
    refine ⟨u, hu, ?_⟩
    have := det_reset k (cl := cl) (ket_support (R := R) (b := b) hq u)
    have e : resetAct q (b q) (u • ket N b) = u • (ket N (Function.update b q false) : State R) := by
      funext x
      show (if x q then 0 else (u • ket N b : State R) (Function.update x q (b q))) = u • (ket N (Function.update b q false) : State R) x
      rw [Pi.smul_apply]
      have key : Agree N x (Function.update b q false) ↔ x q = false ∧ Agree N (Function.update x q (b q)) b := by
        constructor
        · intro h
          refine ⟨by rw [h q hq]; simp, fun p hp => ?_⟩
          by_cases e : p = q
          · subst e; simp
          · have := h p hp
            simp [Function.update_of_ne e] at this ⊢
            exact this
        · rintro ⟨h1, h2⟩ p hp
          by_cases e : p = q
          · subst e; simp [h1]
          · have := h2 p hp
            simp [Function.update_of_ne e] at this ⊢
            exact this
      by_cases hx : x q = true
      · rw [if_pos hx, ket_not (fun h => by rw [(key.1 h).1] at hx; cases hx), smul_zero]
      · rw [if_neg hx]
        by_cases h2 : Agree N (Function.update x q (b q)) b
        · rw [ket_agree h2, ket_agree (key.2 ⟨by simpa using hx, h2⟩)]
        · rw [ket_not h2, ket_not (fun h => h2 (key.1 h).2)]
    rw [e] at this
    exact this
  | gate op cs t =>
    obtain ⟨ht, hcs⟩ : t < N ∧ ∀ c ∈ cs, c.1 < N ∧ c.1 ≠ t := hw
    obtain ⟨v, hv, h⟩ := opAct_ket k (op := op) hc ht b
    have hh : ∀ x, Agree N x b ∨ Agree N x (flip b t) → holds cs x = holds cs b := by
      intro x hx
      refine holds_congr fun c hc => ?_
      rcases hx with hx | hx
      · exact hx _ (hcs c hc).1
      · rw [hx _ (hcs c hc).1, flip_other (hcs c hc).2]
    by_cases hb : holds cs b = true
    · refine ⟨v * u, by rw [mul_pow, hv, hu, one_mul], ?_⟩
      have e : gateAct k op cs t (u • ket N b) = (v * u) • (ket N (cstep (.gate op cs t) (b, cl)).1 : State R) := by
        have e1 : (cstep (.gate op cs t) (b, cl)).1 = if flips? op then flip b t else b := by simp [cstep, hb]
        rw [e1, ← h u]
        funext x
        unfold gateAct
        split
        · rfl
        · rename_i hx
          rw [h u]
          have n1 : ¬ Agree N x b := fun g => hx (by rw [hh x (.inl g), hb])
          have n2 : ¬ Agree N x (flip b t) := fun g => hx (by rw [hh x (.inr g), hb])
          rw [Pi.smul_apply, Pi.smul_apply, ket_not n1]
          split
          · rw [ket_not n2]; simp
          · rw [ket_not n1]; simp
      have := det_gate k op cs t (u • (ket N b : State R), cl)
      rw [e] at this
      exact this
    · refine ⟨u, hu, ?_⟩
      have e : gateAct k op cs t (u • ket N b) = u • (ket N (cstep (.gate op cs t) (b, cl)).1 : State R) := by
        have e2 : (cstep (.gate op cs t) (b, cl)).1 = b := by simp [cstep, hb]
        rw [e2]
        funext x
        unfold gateAct
        split
        · rename_i hx
          rw [h u]
          have n1 : ¬ Agree N x b := fun g => hb (by rw [← hh x (.inl g), hx])
          have n2 : ¬ Agree N x (flip b t) := fun g => hb (by rw [← hh x (.inr g), hx])
          rw [Pi.smul_apply, Pi.smul_apply, ket_not n1]
          split
          · rw [ket_not n2]; simp
          · rw [ket_not n1]; simp
        · rfl
      have := det_gate k op cs t (u • (ket N b : State R), cl)
      rw [e] at this
      exact this
  | swap a b' =>
    obtain ⟨ha, hb, hab⟩ : a < N ∧ b' < N ∧ a ≠ b' := hw
    refine ⟨u, hu, det_one k ?_ ?_⟩
    all_goals
      have e : swapAct a b' (u • ket N b) = u • (ket N (Function.update (Function.update b a (b b')) b' (b a)) : State R) := by
        funext x
        show (u • ket N b : State R) (Function.update (Function.update x a (x b')) b' (x a)) = u • (ket N _ : State R) x
        rw [Pi.smul_apply]
        have key : ∀ x y : Bits, Agree N (Function.update (Function.update x a (x b')) b' (x a)) y →
            Agree N x (Function.update (Function.update y a (y b')) b' (y a)) := by
          intro x y h q hq
          by_cases e1 : q = b'
          · subst e1
            have := h a ha
            simp [Function.update_of_ne hab] at this ⊢
            exact this
          · by_cases e2 : q = a
            · subst e2
              have := h b' hb
              simp [Function.update_of_ne hab] at this ⊢
              exact this
            · have := h q hq
              simp [Function.update_of_ne e1, Function.update_of_ne e2] at this ⊢
              exact this
        by_cases hx : Agree N (Function.update (Function.update x a (x b')) b' (x a)) b
        · rw [ket_agree hx, ket_agree (key _ _ hx)]
        · rw [ket_not hx, ket_not]
          intro h
          apply hx
          intro q hq
          exact (key b x (fun p hp => (h p hp).symm) q hq).symm
    · show _ = _
      rw [e]
      rfl
    · intro c' h
      obtain rfl : c' = _ := h
      left
      rw [e]
      rfl
  | measure q cb =>
    obtain ⟨hq, -⟩ : q < N ∧ _ := hw
    exact ⟨u, hu, det_measure k (ket_support hq u)⟩
  | cc op q start len v =>
    obtain ⟨hq, -⟩ : q < N ∧ _ := hw
    obtain ⟨w, hw', h⟩ := opAct_ket k (op := op) hc hq b
    by_cases hv : regValue cl start len = v
    · refine ⟨w * u, by rw [mul_pow, hw', hu, one_mul], det_one k ?_ fun c' hs => .inl ?_⟩
      · show _ = _
        simp only [if_pos hv, h u]
        simp [cstep, hv]
      · obtain rfl : c' = _ := hs
        simp only [if_pos hv, h u]
        simp [cstep, hv]
    · refine ⟨u, hu, det_one k ?_ fun c' hs => .inl ?_⟩
      · show _ = _
        simp only [if_neg hv]
        simp [cstep, hv]
      · obtain rfl : c' = _ := hs
        simp only [if_neg hv]
        simp [cstep, hv]
  | clone g => exact hc.elim

theorem mono_run {N M : ℕ} {l : List Instr} (hl : ∀ i ∈ l, i.WF N M ∧ i.Classical) (c : Bits × Bits) : Mono k N l c (crun l c) := by
  induction l generalizing c with
  | nil => exact fun u hu => ⟨u, hu, Det.nil k _⟩
  | cons i l ih =>
    intro u hu
    obtain ⟨u1, h1, d1⟩ := mono_step k (hl i (by simp)).1 (hl i (by simp)).2 c u hu
    obtain ⟨u2, h2, d2⟩ := ih (fun j hj => hl j (by simp [hj])) (cstep i c) u1 h1
    exact ⟨u2, h2, Det.append k (l₁ := [i]) d1 d2⟩

theorem expand_id {l : List Instr} (h : ∀ g, Instr.clone g ∉ l) : expand l = l := by
  unfold expand
  induction l with
  | nil => rfl
  | cons i l ih =>
    rw [List.flatMap_cons, ih fun g hg => h g (by simp [hg])]
    cases i with
    | clone g => exact absurd (by simp) (h g)
    | _ => rfl

/-- The results of a circuit without superpositions. -/
theorem classical_result [Nontrivial R] {N M : ℕ} {l : List Instr} (hl : ∀ i ∈ l, i.WF N M ∧ i.Classical) (cl : Bits) :
    MappedResult R k N l cl (crun l (fun _ => false, cl)).2 ∧
      ∀ r, MappedResult R k N l cl r → r = (crun l (fun _ => false, cl)).2 := by
  obtain ⟨u, hu, h1, h2⟩ := mono_run k hl (fun _ => false, cl) 1 (one_pow _)
  rw [one_smul] at h1 h2
  have e : expand l = l := expand_id fun g hg => (hl _ hg).2
  unfold MappedResult
  rw [e]
  refine ⟨⟨_, h1, ket_ne_zero _ _ _ hu, rfl⟩, ?_⟩
  rintro r ⟨c, hc, hne, rfl⟩
  rcases h2 c hc with rfl | h0
  · rfl
  · exact absurd h0 hne

theorem mapped_original {n : ℕ} {gates : List Gate} {l : List Instr} (h : expand l = gates.flatMap Gate.instrs) (cl r : Bits) :
    MappedResult R k n l cl r ↔ OriginalResult R k n gates cl r := by
  unfold MappedResult OriginalResult
  rw [h]

end Verif.Ecc
