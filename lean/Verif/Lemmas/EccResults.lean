import Verif.Lemmas.EccLogical2
import Verif.Lemmas.EccFrame
import Verif.Lemmas.EccClassical
import Verif.Spec.EccNoise

/-! # Results of encoded circuits: from encoded states to classical bits -/

namespace Verif.Ecc
open scoped BigOperators
variable {R : Type} [CommRing R] (k : Consts R)

namespace Res

/-! ## Linearity -/

theorem step_smul (i : Instr) (u : R) (ψ : State R) (cl : Bits) (c' : Config R) :
    Step k i (u • ψ, cl) c' ↔ ∃ c, Step k i (ψ, cl) c ∧ c' = (u • c.1, c.2) := by
  cases i with
  | reset q =>
    constructor
    · rintro ⟨o, rfl⟩
      exact ⟨_, ⟨o, rfl⟩, by rw [resetAct_smul]⟩
    · rintro ⟨_, ⟨o, rfl⟩, rfl⟩
      exact ⟨o, by rw [resetAct_smul]⟩
  | gate op cs t =>
    constructor
    · intro h
      obtain rfl : c' = _ := h
      exact ⟨_, rfl, by rw [gateAct_smul]⟩
    · rintro ⟨_, rfl, rfl⟩
      show _ = _
      rw [gateAct_smul]
  | swap a b =>
    constructor
    · intro h
      obtain rfl : c' = _ := h
      exact ⟨_, rfl, rfl⟩
    · rintro ⟨_, rfl, rfl⟩
      rfl
  | measure q b =>
    constructor
    · rintro ⟨o, rfl⟩
      exact ⟨_, ⟨o, rfl⟩, by rw [project_smul]⟩
    · rintro ⟨_, ⟨o, rfl⟩, rfl⟩
      exact ⟨o, by rw [project_smul]⟩
  | cc op q st len v =>
    have e : (if regValue cl st len = v then opAct k op q (u • ψ) else u • ψ) = u • if regValue cl st len = v then opAct k op q ψ else ψ := by
      split
      · exact opAct_smul k op q u ψ
      · rfl
    constructor
    · intro h
      obtain rfl : c' = _ := h
      exact ⟨_, rfl, Prod.ext e rfl⟩
    · rintro ⟨c, hc, rfl⟩
      obtain rfl : c = _ := hc
      show (_, _) = (_, _)
      rw [e]
  | clone g => exact ⟨fun h => h.elim, fun ⟨_, h, _⟩ => h.elim⟩

theorem branch_smul (l : List Instr) (u : R) (ψ : State R) (cl : Bits) (c' : Config R) :
    Branch k l (u • ψ, cl) c' ↔ ∃ c, Branch k l (ψ, cl) c ∧ c' = (u • c.1, c.2) := by
  induction l generalizing ψ cl with
  | nil => exact ⟨fun h => ⟨_, rfl, h⟩, fun ⟨_, h, e⟩ => by cases h; exact e⟩
  | cons i l ih =>
    constructor
    · rintro ⟨d, h1, h2⟩
      obtain ⟨d', h3, rfl⟩ := (step_smul k i u ψ cl d).1 h1
      obtain ⟨c, h4, rfl⟩ := (ih d'.1 d'.2).1 h2
      exact ⟨c, ⟨d', h3, h4⟩, rfl⟩
    · rintro ⟨c, ⟨d, h1, h2⟩, rfl⟩
      exact ⟨_, (step_smul k i u ψ cl _).2 ⟨d, h1, rfl⟩, (ih d.1 d.2).2 ⟨c, h2, rfl⟩⟩

/-! ## Measurements -/

/-- The bits after the measurements `l` of the basis state `x`. -/
def record (l : List (ℕ × ℕ)) (x cl : Bits) : Bits := l.foldl (fun cl p => Function.update cl p.2 (x p.1)) cl

theorem branch_measures (l : List (ℕ × ℕ)) (ψ : State R) (cl r : Bits) :
    (∃ c', Branch k (l.map fun p => Instr.measure p.1 p.2) (ψ, cl) c' ∧ c'.1 ≠ 0 ∧ c'.2 = r) ↔
      ∃ x, ψ x ≠ 0 ∧ record l x cl = r := by
  induction l generalizing ψ cl with
  | nil =>
    constructor
    · rintro ⟨c', h, h0, rfl⟩
      cases h
      obtain ⟨x, hx⟩ := Function.ne_iff.1 h0
      exact ⟨x, hx, rfl⟩
    · rintro ⟨x, hx, rfl⟩
      exact ⟨_, rfl, fun h => hx (congrFun h x), rfl⟩
  | cons p l ih =>
    constructor
    · rintro ⟨c', ⟨d, ⟨o, rfl⟩, h⟩, h0, hr⟩
      obtain ⟨x, hx, hr⟩ := (ih _ _).1 ⟨c', h, h0, hr⟩
      have hx : (if x p.1 = o then ψ x else 0) ≠ 0 := hx
      by_cases ho : x p.1 = o
      · rw [if_pos ho] at hx
        rw [← ho] at hr
        exact ⟨x, hx, hr⟩
      · rw [if_neg ho] at hx
        exact absurd rfl hx
    · rintro ⟨x, hx, hr⟩
      obtain ⟨c', h, h0, hr⟩ := (ih (project p.1 (x p.1) ψ) (Function.update cl p.2 (x p.1))).2
        ⟨x, by show (if x p.1 = x p.1 then ψ x else 0) ≠ 0; rwa [if_pos rfl], hr⟩
      exact ⟨c', ⟨_, ⟨x p.1, rfl⟩, h⟩, h0, hr⟩

theorem record_same {m : ℕ} (l : List (ℕ × ℕ)) {x x' cl cl' : Bits} (hx : ∀ p ∈ l, x p.1 = x' p.1) (h : SameBits m cl cl') :
    SameBits m (record l x cl) (record l x' cl') := by
  induction l generalizing cl cl' with
  | nil => exact h
  | cons p l ih =>
    refine ih (fun q hq => hx q (by simp [hq])) fun b hb => ?_
    show Function.update cl p.2 (x p.1) b = Function.update cl' p.2 (x' p.1) b
    rw [hx p (by simp)]
    by_cases e : b = p.2
    · subst e; rw [Function.update_self, Function.update_self]
    · rw [Function.update_of_ne e, Function.update_of_ne e, h b hb]

/-! ## States on the first qubits -/

/-- The state does not depend on qubits from `N` on. -/
def Below (N : ℕ) (ψ : State R) : Prop := ∀ x x' : Bits, (∀ q < N, x q = x' q) → ψ x = ψ x'

theorem update_below {N : ℕ} {x x' : Bits} (h : ∀ q < N, x q = x' q) (t : ℕ) (b : Bool) :
    ∀ q < N, Function.update x t b q = Function.update x' t b q := fun q hq => by
  by_cases e : q = t
  · subst e; rw [Function.update_self, Function.update_self]
  · rw [Function.update_of_ne e, Function.update_of_ne e, h q hq]

theorem opAct_below {N : ℕ} {op : Op} {t : ℕ} (ht : t < N) {ψ : State R} (hψ : Below N ψ) : Below N (opAct k op t ψ) := by
  intro x x' h
  have h1 := h t ht
  have h2 : ψ (flip x t) = ψ (flip x' t) := hψ _ _ (by unfold flip; rw [h1]; exact update_below h t _)
  have h3 := hψ x x' h
  have h4 : ∀ b, ψ (Function.update x t b) = ψ (Function.update x' t b) := fun b => hψ _ _ (update_below h t b)
  cases op <;> simp only [opAct] <;> simp only [h1, h2, h3, h4]

theorem holds_below {N : ℕ} {cs : List (ℕ × Bool)} (hcs : ∀ c ∈ cs, c.1 < N) {x x' : Bits} (h : ∀ q < N, x q = x' q) :
    holds cs x = holds cs x' := holds_congr fun c hc => h _ (hcs c hc)

theorem gateAct_below {N : ℕ} {op : Op} {cs : List (ℕ × Bool)} {t : ℕ} (ht : t < N) (hcs : ∀ c ∈ cs, c.1 < N) {ψ : State R}
    (hψ : Below N ψ) : Below N (gateAct k op cs t ψ) := by
  intro x x' h
  unfold gateAct
  rw [holds_below hcs h, opAct_below k ht hψ x x' h, hψ x x' h]

/-- The qubits of the instruction are below `N`. -/
def Uses (N : ℕ) : Instr → Prop
  | .reset q => q < N
  | .gate _ cs t => t < N ∧ ∀ c ∈ cs, c.1 < N
  | .swap a b => a < N ∧ b < N
  | .measure q _ => q < N
  | .cc _ q _ _ _ => q < N
  | .clone _ => True

instance (N : ℕ) (i : Instr) : Decidable (Uses N i) := by cases i <;> unfold Uses <;> infer_instance

theorem step_below {N : ℕ} {i : Instr} (hi : Uses N i) {c c' : Config R} (h : Step k i c c') (hc : Below N c.1) : Below N c'.1 := by
  cases i with
  | reset q =>
    obtain ⟨o, rfl⟩ := h
    intro x x' hx
    show (if x q then 0 else c.1 (Function.update x q o)) = if x' q then 0 else c.1 (Function.update x' q o)
    rw [hx q hi, hc _ _ (update_below hx q o)]
  | gate op cs t =>
    obtain rfl : c' = _ := h
    exact gateAct_below k hi.1 hi.2 hc
  | swap a b =>
    obtain rfl : c' = _ := h
    intro x x' hx
    show c.1 _ = c.1 _
    rw [hx a hi.1, hx b hi.2]
    exact hc _ _ (update_below (update_below hx a _) b _)
  | measure q b =>
    obtain ⟨o, rfl⟩ := h
    intro x x' hx
    show (if x q = o then c.1 x else 0) = if x' q = o then c.1 x' else 0
    rw [hx q hi, hc _ _ hx]
  | cc op q st len v =>
    obtain rfl : c' = _ := h
    show Below N (if _ then _ else _)
    split
    · exact opAct_below k hi hc
    · exact hc
  | clone g => exact h.elim

theorem branch_below {N : ℕ} {l : List Instr} (hl : ∀ i ∈ l, Uses N i) {c c' : Config R} (h : Branch k l c c') (hc : Below N c.1) :
    Below N c'.1 := by
  induction l generalizing c with
  | nil => cases h; exact hc
  | cons i l ih =>
    obtain ⟨d, h1, h2⟩ := h
    exact ih (fun j hj => hl j (by simp [hj])) h2 (step_below k (hl i (by simp)) h1 hc)

theorem ket_below (N : ℕ) (b : Bits) : Below N (ket N b : State R) := fun x x' h => by
  unfold ket
  have : (∀ q < N, x q = b q) ↔ ∀ q < N, x' q = b q :=
    ⟨fun hx q hq => by rw [← h q hq, hx q hq], fun hx q hq => by rw [h q hq, hx q hq]⟩
  simp only [this]

/-! ## Ancillas are not touched -/

theorem withAnc_gate {A : List ℕ} {op : Op} {cs : List (ℕ × Bool)} {t : ℕ} (ht : t ∉ A) (v : Bits) (ψ : State R) :
    gateAct k op cs t (withAnc A v ψ) = withAnc A v (gateAct k op cs t ψ) := by
  funext x
  have hall : ∀ b, (A.all fun p => Function.update x t b p == v p) = A.all fun p => x p == v p := fun b => all_eq_update ht x v b
  have hx : opAct k op t (withAnc A v ψ) x = if A.all (fun p => x p == v p) then opAct k op t ψ x else 0 := by
    by_cases h : (A.all fun p => x p == v p) = true
    · rw [if_pos h]
      refine opAct_local k x fun b => ?_
      show (if A.all (fun p => Function.update x t b p == v p) then _ else _) = _
      rw [hall b, if_pos h]
    · rw [if_neg h]
      have h0 : opAct k op t (withAnc A v ψ) x = opAct k op t (0 : State R) x := opAct_local k x fun b => by
        show (if A.all (fun p => Function.update x t b p == v p) then _ else _) = _
        rw [hall b, if_neg h]
        rfl
      rw [h0, opAct_zero]
      rfl
  show (if holds cs x then opAct k op t (withAnc A v ψ) x else if _ then ψ x else 0) =
    if _ then (if holds cs x then opAct k op t ψ x else ψ x) else 0
  rw [hx]
  split <;> split <;> rfl

/-- Gates with targets outside `A`. -/
def OffAnc (A : List ℕ) : Instr → Prop
  | .gate _ _ t => t ∉ A
  | _ => False

theorem offAnc_unitary {A : List ℕ} {i : Instr} (h : OffAnc A i) : i.Unitary = true := by
  cases i <;> first | rfl | exact h.elim

theorem uact_withAnc {A : List ℕ} {l : List Instr} (hl : ∀ i ∈ l, OffAnc A i) (v : Bits) (ψ : State R) :
    uact k l (withAnc A v ψ) = withAnc A v (uact k l ψ) := by
  induction l generalizing ψ with
  | nil => rfl
  | cons i l ih =>
    have hi := hl i (by simp)
    rw [uact_cons, uact_cons, ← ih fun j hj => hl j (by simp [hj])]
    congr 1
    cases i with
    | gate op cs t => exact withAnc_gate k hi v ψ
    | _ => exact hi.elim

theorem branch_withAnc {A : List ℕ} {l : List Instr} (hl : ∀ i ∈ l, OffAnc A i) (v : Bits) (u : R) (ψ : State R) (cl : Bits) (c' : Config R) :
    Branch k l (withAnc A v (u • ψ), cl) c' ↔ c' = (withAnc A v (u • uact k l ψ), cl) := by
  rw [branch_unitary k fun i hi => offAnc_unitary (hl i hi), uact_withAnc k hl, uact_smul]

/-! ## Encoded states -/

theorem encoded_ket (W : CodeWords) (n : ℕ) (x : Bits) :
    encoded W n (ket n fun _ => false : State R) x = ∏ i : Fin n, ((W false (blk n i x) : ℤ) : R) := by
  rw [encoded_apply, Finset.sum_eq_single fun _ => false]
  · have : (ket n (fun _ => false) (ext fun _ : Fin n => false) : R) = 1 := if_pos fun q hq => by simp [ext]
    rw [this, mul_one]
    rfl
  · intro b _ hb
    obtain ⟨i, hi⟩ := Function.ne_iff.1 hb
    have : (ket n (fun _ => false) (ext b) : R) = 0 := if_neg fun h => hi (by rw [← ext_fin b i]; exact h i i.2)
    rw [this, mul_zero]
  · intro h; exact absurd (Finset.mem_univ _) h

end Res
end Verif.Ecc
