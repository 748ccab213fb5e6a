import Verif.Lemmas.EccTrack

/-! # Branches of circuits: existence, and what a block does not change -/

namespace Verif.Ecc
variable {R : Type} [CommRing R] (k : Consts R)

/-- No control on the target, no copied operations. -/
def Instr.Fine : Instr → Prop
  | .gate _ cs t => t ∉ cs.map Prod.fst
  | .swap a b => a ≠ b
  | .clone _ => False
  | _ => True

instance (i : Instr) : Decidable i.Fine := by cases i <;> unfold Instr.Fine <;> infer_instance

theorem opAct_inj {op : Op} {t : ℕ} {ψ : State R} (h : opAct k op t ψ = 0) : ψ = 0 := by
  by_cases hop : op ∈ [Op.X, .Y, .Z, .H, .I]
  · exact opAct_ne k hop h
  · have him : k.im * -k.im = 1 := by have := k.hω; unfold Consts.im; linear_combination -this
    have hom : k.ω * k.ω ^ 7 = 1 := by
      have := k.hω
      have e : k.ω * k.ω ^ 7 = k.ω ^ 4 * k.ω ^ 4 := by ring
      rw [e, this]; ring
    funext x
    have hx := congrFun h x
    cases op <;> simp only [List.mem_cons, List.not_mem_nil, reduceCtorEq, or_false, or_self, or_true, true_or, not_true_eq_false] at hop <;>
      simp only [opAct, Pi.zero_apply] at hx <;> show ψ x = 0
    all_goals first
      | exact hx
      | (split at hx
         · first
           | linear_combination (-k.im) * hx - ψ x * him
           | linear_combination k.im * hx - ψ x * him
           | linear_combination (k.ω ^ 7) * hx - ψ x * hom
           | linear_combination k.ω * hx - ψ x * hom
         · rw [one_mul] at hx; exact hx)

theorem gateAct_inj {op : Op} {cs : List (ℕ × Bool)} {t : ℕ} (ht : t ∉ cs.map Prod.fst) {ψ : State R}
    (h : gateAct k op cs t ψ = 0) : ψ = 0 := by
  have hh : ∀ x b, holds cs (Function.update x t b) = holds cs x := fun x b => holds_congr fun c hc =>
    Function.update_of_ne (fun e => ht (by rw [← e]; exact List.mem_map_of_mem hc)) _ _
  have h1 : opAct k op t (fun x => if holds cs x then ψ x else 0) = 0 := by
    funext x
    by_cases hx : holds cs x = true
    · have h2 := congrFun h x
      simp only [gateAct, hx, if_true] at h2
      rw [← h2]
      refine opAct_local k x fun b => ?_
      rw [hh, hx, if_pos rfl]
    · rw [opAct_local k (φ := 0) x fun b => ?_]
      · exact congrFun (opAct_zero k op t) x
      · rw [hh, if_neg hx]; rfl
  have h2 := opAct_inj k h1
  funext x
  by_cases hx : holds cs x = true
  · have := congrFun h2 x
    simpa [hx] using this
  · have := congrFun h x
    simpa [gateAct, hx] using this

theorem swap_inj {a b : ℕ} (hab : a ≠ b) {ψ : State R} (h : swapAct a b ψ = 0) : ψ = 0 := by
  funext x
  have := congrFun h (Function.update (Function.update x a (x b)) b (x a))
  simp only [swapAct] at this
  rw [show Function.update _ b _ = x from ?_] at this
  · exact this
  · funext j
    by_cases h1 : j = b
    · subst h1; simp [Function.update_of_ne hab]
    · rw [Function.update_of_ne h1]
      by_cases h2 : j = a
      · subst h2; simp
      · rw [Function.update_of_ne h2, Function.update_of_ne h1, Function.update_of_ne h2]

theorem step_exists {i : Instr} (hi : i.Fine) {c : Config R} (hc : c.1 ≠ 0) : ∃ c', Step k i c c' ∧ c'.1 ≠ 0 := by
  cases i with
  | gate op cs t => exact ⟨_, rfl, fun h => hc (gateAct_inj k hi h)⟩
  | swap a b => exact ⟨_, rfl, fun h => hc (swap_inj hi h)⟩
  | clone g => exact hi.elim
  | measure q b =>
    by_contra hcon
    push Not at hcon
    apply hc
    have h1 := hcon _ ⟨false, rfl⟩
    have h2 := hcon _ ⟨true, rfl⟩
    funext x
    cases hx : x q
    · have := congrFun h1 x; simpa [project, hx] using this
    · have := congrFun h2 x; simpa [project, hx] using this
  | reset q =>
    by_contra hcon
    push Not at hcon
    apply hc
    have h1 := hcon _ ⟨false, rfl⟩
    have h2 := hcon _ ⟨true, rfl⟩
    funext x
    cases hx : x q
    · have := congrFun h1 (Function.update x q false)
      simp only [resetAct, Function.update_self, Function.update_idem, Bool.false_eq_true, if_false] at this
      rw [← hx] at this
      simpa using this
    · have := congrFun h2 (Function.update x q false)
      simp only [resetAct, Function.update_self, Function.update_idem, Bool.false_eq_true, if_false] at this
      rw [← hx] at this
      simpa using this
  | cc op q start len v =>
    refine ⟨_, rfl, fun h => hc ?_⟩
    simp only at h
    split at h
    · exact opAct_inj k h
    · exact h

theorem branch_exists {l : List Instr} (hl : ∀ i ∈ l, i.Fine) {c : Config R} (hc : c.1 ≠ 0) : ∃ c', Branch k l c c' ∧ c'.1 ≠ 0 := by
  induction l generalizing c with
  | nil => exact ⟨c, rfl, hc⟩
  | cons i l ih =>
    obtain ⟨c₁, h1, h2⟩ := step_exists k (hl i (by simp)) hc
    obtain ⟨c', h3, h4⟩ := ih (fun j hj => hl j (by simp [hj])) h2
    exact ⟨c', ⟨c₁, h1, h3⟩, h4⟩

/-! ## Renamed closed blocks -/

/-- Only the first `r` qubits; no controls on targets. -/
def Instr.Local (r : ℕ) : Instr → Prop
  | .reset q => q < r
  | .gate _ cs t => t < r ∧ ∀ c ∈ cs, c.1 < r ∧ c.1 ≠ t
  | .swap a b => a < r ∧ b < r ∧ a ≠ b
  | .measure q _ => q < r
  | .cc _ q _ _ _ => q < r
  | .clone _ => False

instance (r : ℕ) (i : Instr) : Decidable (i.Local r) := by cases i <;> unfold Instr.Local <;> infer_instance

theorem Local.fine {r : ℕ} {e g : ℕ → ℕ} (he : Inj r e) {i : Instr} (h : i.Local r) : (i.rename e g).Fine := by
  cases i with
  | gate op cs t =>
    intro hm
    rw [mem_rename he (fun c hc => (h.2 c hc).1) h.1] at hm
    obtain ⟨c, hc, rfl⟩ := List.mem_map.1 hm
    exact (h.2 c hc).2 rfl
  | swap a b => exact fun hab => h.2.2 (he _ h.1 _ h.2.1 hab)
  | clone g => exact h
  | _ => trivial

theorem block_fine {r : ℕ} {e g : ℕ → ℕ} (he : Inj r e) {l : List Instr} (hl : ∀ i ∈ l, i.Local r) :
    ∀ i ∈ l.map (Instr.rename e g), i.Fine := fun i hi => by
  obtain ⟨i', hi', rfl⟩ := List.mem_map.1 hi
  exact Local.fine he (hl i' hi')

theorem gate_other {op : Op} {cs : List (ℕ × Bool)} {t : ℕ} (ht : t ∉ cs.map Prod.fst) {w : Word}
    (hw : ∀ l ∈ w, l.2 ≠ t ∧ l.2 ∉ cs.map Prod.fst) (ψ : State R) : gateAct k op cs t (act w ψ) = act w (gateAct k op cs t ψ) := by
  have : conjW op cs t w = some (false, w) := by
    induction w with
    | nil => rfl
    | cons l w ih =>
      have h1 := hw l (by simp)
      unfold conjW
      rw [ih fun m hm => hw m (by simp [hm])]
      unfold conjL
      rw [if_neg h1.1, if_neg h1.2]
      rfl
  rw [conjW_sound k ht this, sgn_false, one_smul]

theorem step_frame {r : ℕ} {e g : ℕ → ℕ} (he : Inj r e) {i : Instr} (hi : i.Local r) {w : Word} (hw : ∀ l ∈ w, ∀ j < r, l.2 ≠ e j)
    {c c' : Config R} (hb : Step k (i.rename e g) c c') {b : Bool} (h : act w c.1 = (sgn b : R) • c.1) :
    act w c'.1 = (sgn b : R) • c'.1 := by
  cases i with
  | gate op cs t =>
    have hb : c' = _ := hb
    subst hb
    simp only
    rw [← gate_other k (by
        rw [mem_rename he (fun c hc => (hi.2 c hc).1) hi.1]
        intro hm
        obtain ⟨c, hc, rfl⟩ := List.mem_map.1 hm
        exact (hi.2 c hc).2 rfl) (w := w) ?_, h, gateAct_smul]
    intro l hl
    refine ⟨hw l hl t hi.1, fun hm => ?_⟩
    simp only [List.mem_map] at hm
    obtain ⟨_, ⟨c, hc, rfl⟩, hlc⟩ := hm
    exact hw l hl c.1 (hi.2 c hc).1 hlc.symm
  | measure q b' =>
    obtain ⟨o, rfl⟩ := hb
    simp only
    rw [← project_act k, h, project_smul]
    refine anti_disjoint fun l hl m hm => ?_
    simp at hm
    subst hm
    exact hw l hl q hi
  | reset q =>
    obtain ⟨o, rfl⟩ := hb
    simp only
    rw [← resetAct_act fun l hl => hw l hl q hi, h, resetAct_smul]
  | cc op q start len v =>
    have hb : c' = _ := hb
    subst hb
    simp only
    split
    · rw [← gateAct_nil, ← gate_other k (cs := []) (by simp) (w := w) fun l hl => ⟨hw l hl q hi, by simp⟩, h, gateAct_smul]
    · exact h
  | swap a b' =>
    have hb : c' = _ := hb
    subst hb
    simp only
    have : ∀ (w : Word), (∀ l ∈ w, ∀ j < r, l.2 ≠ e j) → swapAct (e a) (e b') (act w c.1) = act w (swapAct (e a) (e b') c.1) := by
      intro w hw
      induction w with
      | nil => rfl
      | cons l w ih =>
        show swapAct _ _ (actL l (act w c.1)) = actL l (act w (swapAct _ _ c.1))
        rw [← ih fun m hm => hw m (by simp [hm])]
        obtain ⟨x, q⟩ := l
        have n1 := hw (x, q) (by simp) a hi.1
        have n2 := hw (x, q) (by simp) b' hi.2.1
        simp only at n1 n2
        funext y
        cases x
        · simp only [swapAct, actL_apply_false, Function.update_of_ne n1, Function.update_of_ne n2]
        · simp only [swapAct, actL_apply_true, flip_other n1.symm, flip_other n2.symm, update_flip_other n1, update_flip_other n2]
    rw [← this w hw, h]
    funext y
    rfl
  | clone g => exact hi.elim

theorem block_frame {r : ℕ} {e g : ℕ → ℕ} (he : Inj r e) {l : List Instr} (hl : ∀ i ∈ l, i.Local r) {w : Word}
    (hw : ∀ l ∈ w, ∀ j < r, l.2 ≠ e j) {c c' : Config R} (hb : Branch k (l.map (Instr.rename e g)) c c') {b : Bool}
    (h : act w c.1 = (sgn b : R) • c.1) : act w c'.1 = (sgn b : R) • c'.1 := by
  induction l generalizing c with
  | nil => cases hb; exact h
  | cons i l ih =>
    obtain ⟨c₁, h1, h2⟩ := hb
    exact ih (fun j hj => hl j (by simp [hj])) h2 (step_frame k he (hl i (by simp)) hw h1 h)

theorem block_bits {e : ℕ → ℕ} {m : ℕ} {l : List Instr} {c c' : Config R}
    (hb : Branch k (l.map (Instr.rename e (m + ·))) c c') {b : ℕ} (h : b < m) : c'.2 b = c.2 b := by
  induction l generalizing c with
  | nil => cases hb; rfl
  | cons i l ih =>
    obtain ⟨c₁, h1, h2⟩ := hb
    rw [ih h2]
    cases i with
    | measure q b' =>
      obtain ⟨o, rfl⟩ := h1
      exact Function.update_of_ne (by show b ≠ m + b'; omega) _ _
    | reset q => obtain ⟨o, rfl⟩ := h1; rfl
    | gate op cs t => have h1 : c₁ = _ := h1; subst h1; rfl
    | swap a b' => have h1 : c₁ = _ := h1; subst h1; rfl
    | cc op q s len v => have h1 : c₁ = _ := h1; subst h1; rfl
    | clone g => exact h1.elim

/-- Induction over the blocks. -/
theorem branch_blocks {n : ℕ} {b : ℕ → List Instr} (I : ℕ → Config R → Prop) {c c' : Config R} (h0 : I 0 c)
    (hs : ∀ i < n, ∀ c c', I i c → Branch k (b i) c c' → I (i + 1) c') (hb : Branch k (blocks n b) c c') : I n c' := by
  unfold blocks at hb
  induction n generalizing c' with
  | zero => cases hb; exact h0
  | succ n ih =>
    rw [List.range_succ, List.flatMap_append, branch_append, List.flatMap_singleton] at hb
    obtain ⟨c₁, h1, h2⟩ := hb
    exact hs n (by omega) _ _ (ih (fun i hi => hs i (by omega)) h1) h2

theorem place_congr {e d : ℕ → ℕ} {w : Word} (h : ∀ l ∈ w, e l.2 = d l.2) : place e w = place d w :=
  List.map_congr_left fun l hl => by rw [h l hl]

end Verif.Ecc
