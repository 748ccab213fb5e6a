import Verif.Lemmas.EccPass

/-! # Layouts and checks of the codes -/

namespace Verif.Ecc
variable {R : Type} [CommRing R] (k : Consts R)

theorem dat_inj {n i i' j j' : ℕ} (hi : i < n) (hi' : i' < n) (h : dat n i j = dat n i' j') : i = i' ∧ j = j' := by
  unfold dat at h
  have h1 : i = i' := by
    have := congrArg (· % n) h
    simpa [Nat.add_mul_mod_self_right, Nat.mod_eq_of_lt hi, Nat.mod_eq_of_lt hi'] using this
  subst h1
  exact ⟨rfl, Nat.eq_of_mul_eq_mul_right (by omega : 0 < n) (by omega)⟩

theorem dat_lt {n i j r : ℕ} (hi : i < n) (hj : j < r) : dat n i j < n * r := by
  unfold dat
  have : n * (j + 1) ≤ n * r := Nat.mul_le_mul_left n hj
  rw [Nat.mul_add, Nat.mul_one, Nat.mul_comm] at this
  omega

/-- Ancillas shared by all blocks. -/
def sharedAnc (n r K : ℕ) : List ℕ := (List.range K).map fun j => n * r + j

theorem shared_layout (n r K : ℕ) : Layout n r K (dat n) (fun _ j => n * r + j) (sharedAnc n r K) where
  hd := fun i hi j _ j' _ h => (dat_inj hi hi h).2
  ha := fun _ _ j _ j' _ h => Nat.add_left_cancel h
  dA := fun i hi j hj h => by
    obtain ⟨x, _, hx⟩ := List.mem_map.1 h
    have := dat_lt hi hj
    omega
  aA := fun _ _ j hj => List.mem_map.2 ⟨j, List.mem_range.2 hj, rfl⟩
  dd := fun i hi i' hi' hne j _ j' _ h => hne (dat_inj hi hi' h).1

/-- Ancillas inside the blocks. -/
theorem inner_layout (n : ℕ) (data anc : List ℕ) (hd : data.Nodup) (ha : anc.Nodup) (hda : ∀ x ∈ data, x ∉ anc) :
    Layout n data.length anc.length (fun i j => dat n i (data.getD j 0)) (fun i j => dat n i (anc.getD j 0))
      ((List.range n).flatMap fun i => anc.map (dat n i)) := by
  have hget : ∀ {l : List ℕ} {j : ℕ}, j < l.length → l.getD j 0 ∈ l := fun {l j} hj => by
    rw [List.getD_eq_getElem?_getD, List.getElem?_eq_getElem hj]; exact List.getElem_mem hj
  have hinj : ∀ {l : List ℕ}, l.Nodup → ∀ j < l.length, ∀ j' < l.length, l.getD j 0 = l.getD j' 0 → j = j' :=
    fun {l} hl j hj j' hj' h => by
      rw [List.getD_eq_getElem?_getD, List.getElem?_eq_getElem hj, List.getD_eq_getElem?_getD, List.getElem?_eq_getElem hj'] at h
      exact (List.Nodup.getElem_inj_iff hl).1 h
  refine ⟨fun i hi j hj j' hj' h => hinj hd j hj j' hj' (dat_inj hi hi h).2,
    fun i hi j hj j' hj' h => hinj ha j hj j' hj' (dat_inj hi hi h).2, fun i hi j hj h => ?_, fun i hi j hj => ?_,
    fun i hi i' hi' hne j _ j' _ h => hne (dat_inj hi hi' h).1⟩
  · obtain ⟨i', hi', h⟩ := List.mem_flatMap.1 h
    obtain ⟨x, hx, h⟩ := List.mem_map.1 h
    exact hda _ (hget hj) ((dat_inj (List.mem_range.1 hi') hi h).2 ▸ hx)
  · exact List.mem_flatMap.2 ⟨i, List.mem_range.2 hi, List.mem_map.2 ⟨_, hget hj, rfl⟩⟩

/-- The error is corrected by two passes over the block. -/
def good (r K C : ℕ) (ch₁ ch₂ : List Chunk) (S : List Word) (e : Word) : Bool :=
  match fixWord r K C ch₁ e with
  | none => false
  | some e₁ =>
    match fixWord r K C ch₂ e₁ with
    | none => false
    | some e₂ => isStab S e₂

theorem chunk_measure {d a : ℕ → ℕ} {cl : ℕ} {ch : List Chunk} {q c : ℕ} (h : Instr.measure q c ∈ chunkInstrs d a cl ch) :
    cl ≤ c := by
  obtain ⟨x, _, hx⟩ := List.mem_flatMap.1 h
  cases x with
  | reset j => simp [Chunk.instrs] at hx
  | h j => simp [Chunk.instrs, Ecc.h] at hx
  | meas j b => simp [Chunk.instrs] at hx; omega
  | ctrl L g =>
    obtain ⟨l, _, hl⟩ := List.mem_map.1 hx
    unfold CLetter.instr at hl
    split at hl <;> cases hl
  | parity L => obtain ⟨l, _, hl⟩ := List.mem_map.1 hx; cases hl
  | cc op q' st len v => simp [Chunk.instrs] at hx

/-- Two passes correct every error of the list on every block. -/
theorem corrects_two {n r K C : ℕ} {pos : ℕ → ℕ} {a : ℕ → ℕ → ℕ} {A : List ℕ}
    (h : Layout n r K (fun i j => dat n i (pos j)) a A) {gens : List (List Op)}
    (hlet : ∀ g ∈ gens, ∀ o ∈ g, o = .I ∨ o = .X ∨ o = .Z) (hlen : ∀ g ∈ gens, Within r (stringWord g)) {ψ : State R}
    (hψ : CodeState k n pos gens ψ) (hf : ∀ q ∈ A, Free ψ q) {ch₁ ch₂ : List Chunk}
    (hch₁ : ∀ c ∈ ch₁, c.OK r K (gens.map stringWord)) (hch₂ : ∀ c ∈ ch₂, c.OK r K (gens.map stringWord))
    {errs : List (Option (Op × ℕ))} (hok : ∀ e ∈ errs, errOK r e)
    (hgood : ∀ e ∈ errs, good r K C ch₁ ch₂ (gens.map stringWord) (errWord e) = true) {err err' : ℕ → Option (Op × ℕ)}
    (herr : ∀ i < n, err i ∈ errs ∧ err' i = (err i).map fun p => (p.1, pos p.2)) {m : ℕ} {b₁ b₂ : ℕ → List Instr}
    (hb₁ : ∀ i < n, b₁ i = chunkInstrs (fun j => dat n i (pos j)) (a i) m ch₁)
    (hb₂ : ∀ i < n, b₂ i = chunkInstrs (fun j => dat n i (pos j)) (a i) m ch₂) :
    Corrects k A m (blocks n b₁ ++ blocks n b₂) (corrupt k n err' ψ) ψ := by
  have hS : ∀ g ∈ gens.map stringWord, Within r g := fun g hg => by
    obtain ⟨g', hg', rfl⟩ := List.mem_map.1 hg
    exact hlen g' hg'
  have hψ' : ∀ i < n, ∀ g ∈ gens.map stringWord, act (place (fun j => dat n i (pos j)) g) ψ = ψ := fun i hi g hg => by
    obtain ⟨g', hg', rfl⟩ := List.mem_map.1 hg
    rw [← stringAct_word k g' (hlet g' hg')]
    exact hψ i hi g' hg'
  have hmem : ∀ {b : ℕ → List Instr} {ch : List Chunk}, (∀ i < n, b i = chunkInstrs (fun j => dat n i (pos j)) (a i) m ch) →
      ∀ q c, Instr.measure q c ∈ blocks n b → m ≤ c := fun {b ch} hb q c hq => by
    obtain ⟨i, hi, hq⟩ := List.mem_flatMap.1 hq
    rw [hb i (List.mem_range.1 hi)] at hq
    exact chunk_measure hq
  refine Det.corrects k (fun q c hq => (List.mem_append.1 hq).elim (hmem hb₁ q c) (hmem hb₂ q c)) fun v cl => ?_
  have hfix : ∀ i < n, ∃ e₁ e₂, fixWord r K C ch₁ (errWord (err i)) = some e₁ ∧ fixWord r K C ch₂ e₁ = some e₂ ∧
      isStab (gens.map stringWord) e₂ = true := fun i hi => by
    have hg := hgood _ (herr i hi).1
    unfold good at hg
    split at hg
    · cases hg
    · rename_i e₁ h₁
      split at hg
      · cases hg
      · rename_i e₂ h₂
        exact ⟨e₁, e₂, h₁, h₂, hg⟩
  choose! w₁ w₂ hw using hfix
  obtain ⟨u, hu, hcor⟩ := corrupt_eq k (n := n) (r := r) (pos := pos) err err'
    (fun i hi => ⟨hok _ (herr i hi).1, (herr i hi).2⟩) ψ
  have hwi : ∀ i < n, Within r (errWord (err i)) := fun i hi => errWord_within (hok _ (herr i hi).1)
  obtain ⟨hw₁, v₁, cl₁, u₁, hu₁, hd₁⟩ := pass_sound k h hS hψ' hf hch₁ hwi (fun i hi => (hw i hi).1) m hb₁ v cl u hu
  obtain ⟨hw₂, v₂, cl₂, u₂, hu₂, hd₂⟩ := pass_sound k h hS hψ' hf hch₂ hw₁ (fun i hi => (hw i hi).2.1) m hb₂ v₁ cl₁ u₁ hu₁
  obtain ⟨z, hz, hst⟩ := act_allErr_stab h hS hψ' hw₂ (fun i hi => (hw i hi).2.2)
  rw [hcor]
  refine ⟨_, hd₁.append k hd₂, v₂, u₂ * z, by rw [mul_pow, hu₂, hz, one_mul], ?_⟩
  show withAnc A v₂ _ = _
  rw [hst, smul_smul]

theorem blocks_nil (n : ℕ) : blocks n (fun _ => []) = [] := by
  unfold blocks
  induction n with
  | zero => rfl
  | succ n ih => rw [List.range_succ, List.flatMap_append, ih]; rfl

/-- One pass. -/
theorem corrects_one {n r K C : ℕ} {pos : ℕ → ℕ} {a : ℕ → ℕ → ℕ} {A : List ℕ}
    (h : Layout n r K (fun i j => dat n i (pos j)) a A) {gens : List (List Op)}
    (hlet : ∀ g ∈ gens, ∀ o ∈ g, o = .I ∨ o = .X ∨ o = .Z) (hlen : ∀ g ∈ gens, Within r (stringWord g)) {ψ : State R}
    (hψ : CodeState k n pos gens ψ) (hf : ∀ q ∈ A, Free ψ q) {ch : List Chunk}
    (hch : ∀ c ∈ ch, c.OK r K (gens.map stringWord))
    {errs : List (Option (Op × ℕ))} (hok : ∀ e ∈ errs, errOK r e)
    (hgood : ∀ e ∈ errs, good r K C ch [] (gens.map stringWord) (errWord e) = true) {err err' : ℕ → Option (Op × ℕ)}
    (herr : ∀ i < n, err i ∈ errs ∧ err' i = (err i).map fun p => (p.1, pos p.2)) {m : ℕ} {b : ℕ → List Instr}
    (hb : ∀ i < n, b i = chunkInstrs (fun j => dat n i (pos j)) (a i) m ch) :
    Corrects k A m (blocks n b) (corrupt k n err' ψ) ψ := by
  have := corrects_two k h hlet hlen hψ hf hch (ch₂ := []) (fun c hc => by cases hc) hok hgood herr hb
    (b₂ := fun _ => []) (fun _ _ => rfl)
  rwa [blocks_nil, List.append_nil] at this

/-- All errors with the given operations on the given qubits, and none. -/
def allErrs (ops : List Op) (qs : List ℕ) : List (Option (Op × ℕ)) :=
  none :: qs.flatMap fun q => ops.map fun o => some (o, q)

theorem mem_allErrs {ops : List Op} {qs : List ℕ} {e : Option (Op × ℕ)} (h : ∀ o q, e = some (o, q) → o ∈ ops ∧ q ∈ qs) :
    e ∈ allErrs ops qs := by
  cases e with
  | none => exact List.mem_cons_self
  | some p =>
    obtain ⟨ho, hq⟩ := h p.1 p.2 rfl
    exact List.mem_cons_of_mem _ (List.mem_flatMap.2 ⟨p.2, hq, List.mem_map.2 ⟨p.1, ho, rfl⟩⟩)

end Verif.Ecc
