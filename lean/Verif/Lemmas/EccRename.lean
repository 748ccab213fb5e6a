import Verif.Spec.EccRange
import Verif.Lemmas.EccCodes

/-! # Blocks as renamed closed circuits; well-formedness -/

namespace Verif.Ecc

/-- Qubits renamed by `f`, classical bits by `g`. -/
def Instr.rename (f g : ℕ → ℕ) : Instr → Instr
  | .reset q => .reset (f q)
  | .gate op cs t => .gate op (cs.map fun c => (f c.1, c.2)) (f t)
  | .swap a b => .swap (f a) (f b)
  | .measure q c => .measure (f q) (g c)
  | .cc op q start len v => .cc op (f q) (g start) len v
  | .clone x => .clone x

/-- Number `q` below 100 stands for data qubit `q`, `100 + j` for ancilla `j`. -/
def code (d a : ℕ → ℕ) (q : ℕ) : ℕ := if q < 100 then d q else a (q - 100)

def codeOK (r K q : ℕ) : Prop := q < r ∨ (100 ≤ q ∧ q < 100 + K)

instance (r K q : ℕ) : Decidable (codeOK r K q) := by unfold codeOK; infer_instance

/-- A closed block with `r` data qubits, `K` ancillas, `C` classical bits. -/
def Instr.Coded (r K C : ℕ) : Instr → Prop
  | .reset q => codeOK r K q
  | .gate _ cs t => codeOK r K t ∧ ∀ c ∈ cs, codeOK r K c.1 ∧ c.1 ≠ t
  | .swap a b => codeOK r K a ∧ codeOK r K b ∧ a ≠ b
  | .measure q c => codeOK r K q ∧ c < C
  | .cc _ q start len _ => codeOK r K q ∧ start + len ≤ C
  | .clone _ => False

instance (r K C : ℕ) (i : Instr) : Decidable (i.Coded r K C) := by cases i <;> unfold Instr.Coded <;> infer_instance

def AllWF (nq nb : ℕ) (l : List Instr) : Prop := ∀ i ∈ l, i.WF nq nb

theorem AllWF.append {nq nb : ℕ} {l l' : List Instr} (h : AllWF nq nb l) (h' : AllWF nq nb l') : AllWF nq nb (l ++ l') :=
  fun i hi => (List.mem_append.1 hi).elim (h i) (h' i)

theorem AllWF.nil (nq nb : ℕ) : AllWF nq nb [] := fun i hi => by cases hi

theorem AllWF.blocks {nq nb n : ℕ} {b : ℕ → List Instr} (h : ∀ i < n, AllWF nq nb (b i)) : AllWF nq nb (blocks n b) := fun i hi => by
  obtain ⟨j, hj, hi⟩ := List.mem_flatMap.1 hi
  exact h j (List.mem_range.1 hj) i hi

theorem AllWF.flatMap {nq nb : ℕ} {α : Type} {l : List α} {b : α → List Instr} (h : ∀ x ∈ l, AllWF nq nb (b x)) :
    AllWF nq nb (l.flatMap b) := fun i hi => by
  obtain ⟨j, hj, hi⟩ := List.mem_flatMap.1 hi
  exact h j hj i hi

/-- The qubits of a block are in range and different. -/
structure Place (nq r K : ℕ) (d a : ℕ → ℕ) : Prop where
  hd : ∀ j < r, d j < nq
  ha : ∀ j < K, a j < nq
  id : Inj r d
  ia : Inj K a
  da : Apart r K d a
  hr : r ≤ 100

theorem Place.lt {nq r K : ℕ} {d a : ℕ → ℕ} (h : Place nq r K d a) {q : ℕ} (hq : codeOK r K q) : code d a q < nq := by
  have := h.hr
  unfold code
  rcases hq with hq | hq
  · rw [if_pos (by omega)]; exact h.hd q hq
  · rw [if_neg (by omega)]; exact h.ha _ (by omega)

theorem Place.ne {nq r K : ℕ} {d a : ℕ → ℕ} (h : Place nq r K d a) {p q : ℕ} (hp : codeOK r K p) (hq : codeOK r K q)
    (hne : p ≠ q) : code d a p ≠ code d a q := by
  have := h.hr
  unfold code
  rcases hp with hp | hp <;> rcases hq with hq | hq
  · rw [if_pos (by omega), if_pos (by omega)]; exact fun e => hne (h.id p hp q hq e)
  · rw [if_pos (by omega), if_neg (by omega)]; exact h.da p hp _ (by omega)
  · rw [if_neg (by omega), if_pos (by omega)]; exact (h.da q hq _ (by omega)).symm
  · rw [if_neg (by omega), if_neg (by omega)]
    intro e
    have := h.ia _ (by omega) _ (by omega) e
    omega

theorem rename_wf {nq nb r K C cl : ℕ} {d a : ℕ → ℕ} (h : Place nq r K d a) (hC : cl + C ≤ nb) {l : List Instr}
    (hl : ∀ i ∈ l, i.Coded r K C) : AllWF nq nb (l.map (Instr.rename (code d a) (cl + ·))) := fun i hi => by
  obtain ⟨x, hx, rfl⟩ := List.mem_map.1 hi
  have hx := hl x hx
  cases x with
  | reset q => exact h.lt hx
  | gate op cs t =>
    refine ⟨h.lt hx.1, fun c hc => ?_⟩
    obtain ⟨c', hc', rfl⟩ := List.mem_map.1 hc
    exact ⟨h.lt (hx.2 c' hc').1, h.ne (hx.2 c' hc').1 hx.1 (hx.2 c' hc').2⟩
  | swap p q => exact ⟨h.lt hx.1, h.lt hx.2.1, h.ne hx.1 hx.2.1 hx.2.2⟩
  | measure q c => exact ⟨h.lt hx.1, by have := hx.2; show cl + c < nb; omega⟩
  | cc op q st len v => exact ⟨h.lt hx.1, by have := hx.2; show cl + st + len ≤ nb; omega⟩
  | clone g => exact hx.elim

theorem shared_place {n r K i : ℕ} (hi : i < n) (hr : r ≤ 100) : Place (n * r + K) r K (dat n i) (fun j => n * r + j) where
  hd := fun j hj => by have := dat_lt hi hj; omega
  ha := fun j hj => by show n * r + j < _; omega
  id := (shared_layout n r K).hd i hi
  ia := (shared_layout n r K).ha i hi
  da := (shared_layout n r K).apart hi
  hr := hr

end Verif.Ecc
