import Verif.Lemmas.EccResults3
import Verif.Lemmas.EccFrame

/-! # Results of encoded circuits: encoding by measurement, decoding by parities -/

namespace Verif.Ecc
open scoped BigOperators
variable {R : Type} [CommRing R] (k : Consts R)

namespace Res

/-! ## Encoding -/

/-- All lists of `m` outcomes. -/
def allOuts : ℕ → List (List Bool)
  | 0 => [[]]
  | m + 1 => (allOuts m).flatMap fun l => [false :: l, true :: l]

theorem mem_allOuts : ∀ (m : ℕ) (l : List Bool), l.length = m → l ∈ allOuts m
  | 0, l, h => by rw [List.length_eq_zero_iff.1 h]; simp [allOuts]
  | m + 1, b :: l, h => by
    refine List.mem_flatMap.2 ⟨l, mem_allOuts m l (by simpa using h), ?_⟩
    cases b <;> simp

/-- Local numbers: `r` data qubits of block `i`, then the shared ancillas. -/
def loc (n r i j : ℕ) : ℕ := if j < r then dat n i j else n * r + (j - r)

theorem loc_inj {n r K i : ℕ} (hi : i < n) : Inj (r + K) (loc n r i) := by
  intro j hj j' hj' h
  unfold loc at h
  split at h <;> split at h
  · exact (dat_inj hi hi h).2
  · have := dat_lt hi (by assumption : j < r); omega
  · have := dat_lt hi (by assumption : j' < r); omega
  · omega

/-- All outcomes lead to the facts `gx`, `gz`, with known values of the ancillas. -/
def encCheck (r K : ℕ) (gx gz : List Word) (F : List (Word × Bool)) (C : List Cmd) : Bool :=
  (allOuts (measCount (C.flatMap Cmd.instr))).all fun outs =>
    match trackO (r + K) C outs ⟨F, []⟩ with
    | some s => ((gx ++ gz).all fun w => s.facts.contains (w, false)) &&
        (List.range K).all fun j => s.facts.any fun f => f.1 == [(false, r + j)]
    | none => false

/-- The ancillas are zero. -/
def ancFacts (r K : ℕ) : List (Word × Bool) := (List.range K).reverse.map fun j => ([(false, r + j)], false)

theorem ket_z {N : ℕ} {w : Word} (h : ∀ l ∈ w, l.1 = false ∧ l.2 < N) :
    act w (ket N fun _ => false : State R) = ket N fun _ => false := by
  induction w with
  | nil => rfl
  | cons l w ih =>
    rw [act_cons, ih fun l' hl' => h l' (by simp [hl'])]
    obtain ⟨h1, h2⟩ := h l (by simp)
    funext x
    unfold actL
    rw [h1, if_neg Bool.false_ne_true]
    show sgn (x l.2) * (if ∀ q < N, x q = false then (1 : R) else 0) = if ∀ q < N, x q = false then 1 else 0
    split
    · rename_i hx; rw [hx l.2 h2]; simp
    · simp

theorem eig_loc {n r i : ℕ} {w : Word} (hw : Within r w) {b : Bool} {ψ : State R} : Eig (loc n r i) (w, b) ψ ↔ Eig (dat n i) (w, b) ψ := by
  unfold Eig
  rw [place_congr (e := loc n r i) (d := dat n i) fun l hl => by unfold loc; rw [if_pos (hw l hl)]]

theorem loc_lt {n r K i j : ℕ} (hi : i < n) (hj : j < r + K) : loc n r i j < n * r + K := by
  unfold loc
  split
  · have := dat_lt hi (by assumption : j < r); omega
  · omega

theorem local_uses {n r K i : ℕ} (hi : i < n) {x : Instr} (hx : x.Local (r + K)) (g : ℕ → ℕ) :
    Uses (n * r + K) (x.rename (loc n r i) g) := by
  cases x with
  | reset q => exact loc_lt hi hx
  | gate op cs t =>
    refine ⟨loc_lt hi hx.1, fun c hc => ?_⟩
    obtain ⟨c', hc', rfl⟩ := List.mem_map.1 hc
    exact loc_lt hi (hx.2 c' hc').1
  | swap a b => exact ⟨loc_lt hi hx.1, loc_lt hi hx.2.1⟩
  | measure q b => exact loc_lt hi hx
  | cc op q s l v => exact loc_lt hi hx
  | clone g => trivial

/-- What holds after `i` blocks. -/
structure EncInv (n m r K : ℕ) (gx gz start : List Word) (cl : Bits) (i : ℕ) (c : Config R) : Prop where
  done : ∀ i' < i, i' < n → ∀ w ∈ gx ++ gz, Eig (dat n i') (w, false) c.1
  todo : ∀ i', i ≤ i' → i' < n → ∀ w ∈ start, Eig (dat n i') (w, false) c.1
  anc0 : i = 0 → ∀ j < K, act [(false, n * r + j)] c.1 = c.1
  anc : 0 < i → ∀ j < K, ∃ o : Bool, act [(false, n * r + j)] c.1 = (sgn o : R) • c.1
  below : Below (n * r + K) c.1
  bits : SameBits m cl c.2

theorem enc_blocks {W : CodeWords} {n m r K : ℕ} (hW : W.Local r) {gx gz start : List Word} (hgx : ∀ w ∈ gx, Within r w)
    (hgz : ∀ w ∈ gz, Within r w) (hst : ∀ w ∈ start, ∀ l ∈ w, l.1 = false ∧ l.2 < r) (hdet : determines (W false) r gx gz = true)
    {C₀ C₁ : List Cmd} (hl₀ : ∀ i ∈ C₀.flatMap Cmd.instr, i.Local (r + K)) (hl₁ : ∀ i ∈ C₁.flatMap Cmd.instr, i.Local (r + K))
    (h₀ : encCheck r K gx gz (ancFacts r K ++ start.map fun w => (w, false)) C₀ = true)
    (h₁ : encCheck r K gx gz (start.map fun w => (w, false)) C₁ = true) (hn : 0 < n) {cl : Bits} {c : Config R}
    (hb : Branch k (blocks n fun i => ((if i = 0 then C₀ else C₁).flatMap Cmd.instr).map (Instr.rename (loc n r i) (m + ·)))
      (ket (n * r + K) fun _ => false, cl) c) (hc : c.1 ≠ 0) :
    ∃ (v : Bits) (u : R), c.1 = withAnc (sharedAnc n r K) v (u • encoded W n (ket n fun _ => false)) ∧ SameBits m cl c.2 := by
  have hwst : ∀ w ∈ start, Within r w := fun w hw l hl => (hst w hw l hl).2
  have hwg : ∀ w ∈ gx ++ gz, Within r w := fun w hw => (List.mem_append.1 hw).elim (hgx w) (hgz w)
  have key : c.1 = 0 ∨ EncInv n m r K gx gz start cl n c := by
    refine branch_blocks k (fun i c => c.1 = 0 ∨ EncInv n m r K gx gz start cl i c) (.inr ?_) ?_ hb
    · refine ⟨fun i' h => absurd h (by omega), fun i' _ hi' w hw => ?_, fun _ j hj => ket_z fun l hl => ?_, fun h => absurd h (by omega),
        ket_below _ _, fun b _ => rfl⟩
      · unfold Eig
        rw [sgn_false, one_smul]
        refine ket_z fun l hl => ?_
        obtain ⟨l', hl', rfl⟩ := List.mem_map.1 hl
        obtain ⟨h1, h2⟩ := hst w hw l' hl'
        exact ⟨h1, (dat_lt hi' h2).trans_le (Nat.le_add_right _ _)⟩
      · obtain rfl := List.mem_singleton.1 hl
        exact ⟨rfl, by show n * r + j < _; omega⟩
    · rintro i hi c c' (h0 | h) hb
      · exact .inl (branch_zero k hb h0)
      set C := if i = 0 then C₀ else C₁ with hC
      set F : List (Word × Bool) := if i = 0 then ancFacts r K ++ start.map fun w => (w, false) else start.map fun w => (w, false) with hF
      have hloc : ∀ i ∈ C.flatMap Cmd.instr, i.Local (r + K) := by rw [hC]; split <;> assumption
      have hchk : encCheck r K gx gz F C = true := by
        rw [hC, hF]
        by_cases hi0 : i = 0
        · rw [if_pos hi0, if_pos hi0]; exact h₀
        · rw [if_neg hi0, if_neg hi0]; exact h₁
      have he := loc_inj (K := K) (r := r) hi
      have hstart : ∀ f ∈ start.map fun w => (w, false), Within (r + K) f.1 ∧ Eig (loc n r i) f c.1 := fun f hf => by
        obtain ⟨w, hw, rfl⟩ := List.mem_map.1 hf
        exact ⟨fun l hl => Nat.lt_add_right K (hwst w hw l hl), (eig_loc (hwst w hw)).2 (h.todo i (Nat.le_refl i) hi w hw)⟩
      have hsat : ∀ f ∈ F, Within (r + K) f.1 ∧ Eig (loc n r i) f c.1 := fun f hf => by
        rw [hF] at hf
        split at hf
        · rename_i hi0
          rcases List.mem_append.1 hf with hf | hf
          · obtain ⟨j, hj, rfl⟩ := List.mem_map.1 hf
            have hj := List.mem_range.1 (List.mem_reverse.1 hj)
            refine ⟨fun l hl => ?_, ?_⟩
            · obtain rfl := List.mem_singleton.1 hl
              show r + j < r + K
              omega
            · unfold Eig
              rw [sgn_false, one_smul]
              have e : loc n r i (r + j) = n * r + j := by unfold loc; rw [if_neg (by omega), Nat.add_sub_cancel_left]
              show act [(false, loc n r i (r + j))] c.1 = c.1
              rw [e]
              exact h.anc0 hi0 j hj
          · exact hstart f hf
        · exact hstart f hf
      obtain ⟨outs, ho, hres⟩ := trackO_sound k (cl := m) he (s := ⟨F, []⟩) (l := C)
        ⟨fun f hf => (hsat f hf).1, fun f hf => (hsat f hf).2, fun p hp => by cases hp⟩ hb
      have hout := List.all_eq_true.1 hchk outs (mem_allOuts _ _ ho)
      cases ht : trackO (r + K) C outs ⟨F, []⟩ with
      | none => rw [ht] at hout; cases hout
      | some s' =>
        rw [ht] at hout
        simp only [Bool.and_eq_true] at hout
        rcases hres s' ht with h0 | hs'
        · exact .inl h0
        refine .inr ⟨?_, ?_, fun h => absurd h (by omega), fun _ j hj => ?_, ?_, ?_⟩
        · intro i' hi' hn' w hw
          by_cases e : i' = i
          · subst e
            refine (eig_loc (hwg w hw)).1 (hs'.eig (w, false) ?_)
            have := List.all_eq_true.1 hout.1 w hw
            exact List.contains_iff_mem.1 this
          · refine block_frame k he hloc (fun l hl j hj => ?_) hb (h.done i' (by omega) hn' w hw)
            obtain ⟨l', hl', rfl⟩ := List.mem_map.1 hl
            show dat n i' l'.2 ≠ loc n r i j
            unfold loc
            split
            · exact fun e' => e (dat_inj hn' hi e').1
            · have := dat_lt hn' (hwg w hw l' hl'); omega
        · intro i' hi' hn' w hw
          refine block_frame k he hloc (fun l hl j hj => ?_) hb (h.todo i' (by omega) hn' w hw)
          obtain ⟨l', hl', rfl⟩ := List.mem_map.1 hl
          show dat n i' l'.2 ≠ loc n r i j
          unfold loc
          split
          · exact fun e' => (by have := (dat_inj hn' hi e').1; omega : False)
          · have := dat_lt hn' (hwst w hw l' hl'); omega
        · have := List.all_eq_true.1 hout.2 j (List.mem_range.2 hj)
          obtain ⟨f, hf, hfe⟩ := List.any_eq_true.1 this
          have hE := hs'.eig f hf
          unfold Eig at hE
          rw [beq_iff_eq.1 hfe] at hE
          refine ⟨f.2, ?_⟩
          have e : loc n r i (r + j) = n * r + j := by unfold loc; rw [if_neg (by omega), Nat.add_sub_cancel_left]
          rw [← e]
          exact hE
        · refine branch_below k (fun x hx => ?_) hb h.below
          obtain ⟨x', hx', rfl⟩ := List.mem_map.1 hx
          exact local_uses hi (hloc x' hx') _
        · exact fun b hb' => (h.bits b hb').trans (block_bits k hb hb').symm
  have h := key.resolve_left hc
  have hv : ∀ j < K, ∃ o : Bool, ∀ x, x (n * r + j) ≠ o → c.1 x = 0 := fun j hj => by
    obtain ⟨o, ho⟩ := h.anc hn j hj
    refine ⟨o, fun x hx => ?_⟩
    have e := congrFun ho x
    have e : sgn (x (n * r + j)) * c.1 x = sgn o * c.1 x := e
    have : x (n * r + j) = !o := by cases h : x (n * r + j) <;> cases o <;> simp_all
    rw [this] at e
    refine two_cancel k _ ?_
    cases o
    · rw [Bool.not_false, sgn_true, sgn_false] at e
      linear_combination e
    · rw [Bool.not_true, sgn_true, sgn_false] at e
      linear_combination -e
  choose! v hv using hv
  obtain ⟨u, hu⟩ := unique k hW hgx hgz hdet (fun i hi w hw => h.done i hi hi w (List.mem_append_left _ hw))
    (fun i hi w hw => h.done i hi hi w (List.mem_append_right _ hw)) h.below (v := fun q => v (q - n * r)) (fun x j hj hne => hv j hj x (by
      rwa [Nat.add_sub_cancel_left] at hne))
  exact ⟨_, u, hu, h.bits⟩

theorem enc_exists [Nontrivial R] {n m r K : ℕ} {C₀ C₁ : List Cmd} (hl₀ : ∀ i ∈ C₀.flatMap Cmd.instr, i.Local (r + K))
    (hl₁ : ∀ i ∈ C₁.flatMap Cmd.instr, i.Local (r + K)) (cl : Bits) :
    ∃ c : Config R, Branch k (blocks n fun i => ((if i = 0 then C₀ else C₁).flatMap Cmd.instr).map (Instr.rename (loc n r i) (m + ·)))
      (ket (n * r + K) fun _ => false, cl) c ∧ c.1 ≠ 0 := by
  refine branch_exists k (fun x hx => ?_) (fun h => ?_)
  · obtain ⟨i, hi, hx⟩ := List.mem_flatMap.1 hx
    have hi := List.mem_range.1 hi
    refine block_fine (loc_inj (K := K) hi) (l := (if i = 0 then C₀ else C₁).flatMap Cmd.instr) ?_ x hx
    split <;> assumption
  · have := congrFun h fun _ => false
    simp [ket] at this

/-! ## Decoding -/

theorem measures_sound (P : List (ℕ × ℕ)) {ψ : State R} {cl : Bits} {c' : Config R}
    (h : Branch k (P.map fun p => Instr.measure p.1 p.2) (ψ, cl) c') (x : Bits) (hx : c'.1 x ≠ 0) :
    c'.1 x = ψ x ∧ c'.2 = record P x cl := by
  induction P generalizing ψ cl with
  | nil => cases h; exact ⟨rfl, rfl⟩
  | cons p P ih =>
    obtain ⟨d, ⟨o, rfl⟩, h2⟩ := h
    obtain ⟨h3, h4⟩ := ih h2
    have h3 : c'.1 x = if x p.1 = o then ψ x else 0 := h3
    by_cases e : x p.1 = o
    · rw [if_pos e] at h3
      refine ⟨h3, h4.trans ?_⟩
      show record P x (Function.update cl p.2 o) = record P x (Function.update cl p.2 (x p.1))
      rw [e]
    · rw [if_neg e] at h3
      exact absurd h3 hx

theorem measures_complete (P : List (ℕ × ℕ)) (ψ : State R) (cl : Bits) (x : Bits) :
    ∃ c', Branch k (P.map fun p => Instr.measure p.1 p.2) (ψ, cl) c' ∧ c'.1 x = ψ x ∧ c'.2 = record P x cl := by
  induction P generalizing ψ cl with
  | nil => exact ⟨_, rfl, rfl, rfl⟩
  | cons p P ih =>
    obtain ⟨c', h1, h2, h3⟩ := ih (project p.1 (x p.1) ψ) (Function.update cl p.2 (x p.1))
    exact ⟨c', ⟨_, ⟨x p.1, rfl⟩, h1⟩, h2.trans (if_pos rfl), h3⟩

theorem branch_ccs {vals : List ℕ} (hv : vals.Nodup) (t s len : ℕ) (ψ : State R) (cl : Bits) (c' : Config R) :
    Branch k (vals.map fun v => .cc .X t s len v) (ψ, cl) c' ↔
      c' = (if regValue cl s len ∈ vals then opAct k .X t ψ else ψ, cl) := by
  induction vals generalizing ψ with
  | nil => exact ⟨fun h => by cases h; rfl, fun h => by subst h; rfl⟩
  | cons v vals ih =>
    rw [List.nodup_cons] at hv
    have hstep : Branch k ((v :: vals).map fun v => .cc .X t s len v) (ψ, cl) c' ↔
        Branch k (vals.map fun v => .cc .X t s len v) (if regValue cl s len = v then opAct k .X t ψ else ψ, cl) c' :=
      ⟨fun ⟨d, h1, h2⟩ => by have h1 : d = _ := h1; subst h1; exact h2, fun h => ⟨_, rfl, h⟩⟩
    rw [hstep, ih hv.2]
    by_cases e : regValue cl s len = v
    · rw [if_pos e, if_neg (by rw [e]; exact hv.1), if_pos (by simp [e])]
    · rw [if_neg e]
      simp only [List.mem_cons, e, false_or]

/-- Measure, then flip `t` if the result is one of the values. -/
def seg (P : List (ℕ × ℕ)) (t s len : ℕ) (vals : List ℕ) : List Instr :=
  (P.map fun p => Instr.measure p.1 p.2) ++ vals.map fun v => .cc .X t s len v

/-- The measured qubits have odd parity. -/
def odd (P : List (ℕ × ℕ)) (x : Bits) : Bool := P.foldr (fun p b => x p.1 ^^ b) false

theorem record_congr (P : List (ℕ × ℕ)) {x x' : Bits} (h : ∀ p ∈ P, x p.1 = x' p.1) (cl : Bits) : record P x cl = record P x' cl := by
  unfold record
  induction P generalizing cl with
  | nil => rfl
  | cons p P ih =>
    rw [List.foldl_cons, List.foldl_cons, h p (by simp)]
    exact ih (fun q hq => h q (by simp [hq])) _

theorem odd_congr (P : List (ℕ × ℕ)) {x x' : Bits} (h : ∀ p ∈ P, x p.1 = x' p.1) : odd P x = odd P x' := by
  unfold odd
  induction P with
  | nil => rfl
  | cons p P ih =>
    rw [List.foldr_cons, List.foldr_cons, h p (by simp), ih fun q hq => h q (by simp [hq])]

/-- `t` flipped if the parity is odd. -/
def fix (P : List (ℕ × ℕ)) (t : ℕ) (x : Bits) : Bits := if odd P x then flip x t else x

theorem fix_other {P : List (ℕ × ℕ)} {t q : ℕ} (h : q ≠ t) (x : Bits) : fix P t x q = x q := by
  unfold fix
  split
  · exact flip_other h
  · rfl

/-- The values are those of odd parity. -/
def OddValues (P : List (ℕ × ℕ)) (s len : ℕ) (vals : List ℕ) : Prop :=
  vals.Nodup ∧ ∀ x cl, regValue (record P x cl) s len ∈ vals ↔ odd P x = true

theorem seg_sound {P : List (ℕ × ℕ)} {t s len : ℕ} {vals : List ℕ} (hv : OddValues P s len vals) (ht : ∀ p ∈ P, p.1 ≠ t) {ψ : State R}
    {cl : Bits} {c' : Config R} (h : Branch k (seg P t s len vals) (ψ, cl) c') (x : Bits) (hx : c'.1 x ≠ 0) : ψ (fix P t x) ≠ 0 := by
  unfold seg at h
  rw [branch_append] at h
  obtain ⟨d, h1, h2⟩ := h
  have h2 := (branch_ccs k hv.1 t s len d.1 d.2 c').1 h2
  subst h2
  by_cases e : regValue d.2 s len ∈ vals
  · have hx : d.1 (flip x t) ≠ 0 := by
      have hx : (if regValue d.2 s len ∈ vals then opAct k .X t d.1 else d.1) x ≠ 0 := hx
      rw [if_pos e] at hx
      exact hx
    have ho := (hv.2 (flip x t) cl).1 (by rw [← (measures_sound k P h1 _ hx).2]; exact e)
    rw [odd_congr P (x' := x) fun p hp => flip_other (ht p hp)] at ho
    unfold fix
    rw [if_pos ho, ← (measures_sound k P h1 _ hx).1]
    exact hx
  · have hx : d.1 x ≠ 0 := by
      have hx : (if regValue d.2 s len ∈ vals then opAct k .X t d.1 else d.1) x ≠ 0 := hx
      rw [if_neg e] at hx
      exact hx
    have ho : ¬ odd P x = true := fun ho => e (by rw [(measures_sound k P h1 _ hx).2]; exact (hv.2 x cl).2 ho)
    unfold fix
    rw [if_neg ho, ← (measures_sound k P h1 _ hx).1]
    exact hx

theorem seg_complete {P : List (ℕ × ℕ)} {t s len : ℕ} {vals : List ℕ} (hv : OddValues P s len vals) (ht : ∀ p ∈ P, p.1 ≠ t) (ψ : State R)
    (cl : Bits) (x : Bits) : ∃ c', Branch k (seg P t s len vals) (ψ, cl) c' ∧ c'.1 x = ψ (fix P t x) := by
  obtain ⟨d, h1, h2, h3⟩ := measures_complete k P ψ cl (fix P t x)
  refine ⟨(if regValue d.2 s len ∈ vals then opAct k .X t d.1 else d.1, d.2), ?_, ?_⟩
  · unfold seg
    rw [branch_append]
    exact ⟨d, h1, (branch_ccs k hv.1 t s len d.1 d.2 _).2 rfl⟩
  · rw [← h2]
    have hr : record P (fix P t x) cl = record P x cl := record_congr P (fun p hp => fix_other (ht p hp) x) cl
    rw [h3, hr]
    simp only [hv.2]
    unfold fix
    split <;> rfl

/-- A block of the decoder: the first qubit gets the parity of the block. -/
def ParityBlock (n r m i : ℕ) (l : List Instr) : Prop :=
  (∀ (ψ : State R) cl c', Branch k l (ψ, cl) c' → SameBits m cl c'.2 ∧
    ∀ x, c'.1 x ≠ 0 → ψ (Function.update x i (parity (List.range r) (blk n i x))) ≠ 0) ∧
  ∀ (ψ : State R) cl x, ∃ c', Branch k l (ψ, cl) c' ∧ c'.1 x = ψ (Function.update x i (parity (List.range r) (blk n i x)))

/-- The first `j` logical qubits replaced by the parities of their blocks. -/
def parities (n r j : ℕ) (x : Bits) : Bits := fun q => if q < j then parity (List.range r) (blk n q x) else x q

theorem parities_succ {n r i : ℕ} (hi : i < n) (x : Bits) :
    parities n r i (Function.update x i (parity (List.range r) (blk n i x))) = parities n r (i + 1) x := by
  funext q
  unfold parities
  by_cases h : q < i
  · rw [if_pos h, if_pos (by omega)]
    congr 1
    funext j
    unfold blk
    exact Function.update_of_ne (fun e => by have := (dat_mod (show q < n by omega) j).1; rw [e, Nat.mod_eq_of_lt hi] at this; omega) _ _
  · rw [if_neg h]
    by_cases e : q = i
    · subst e
      rw [Function.update_self, if_pos (by omega)]
    · rw [Function.update_of_ne e, if_neg (by omega)]

variable {k}

theorem parity_blocks {n m r : ℕ} {b : ℕ → List Instr} (hb : ∀ i < n, ParityBlock k n r m i (b i)) (ψ : State R) (cl : Bits) :
    ∀ j ≤ n, (∀ c', Branch k (blocks j b) (ψ, cl) c' → SameBits m cl c'.2 ∧ ∀ x, c'.1 x ≠ 0 → ψ (parities n r j x) ≠ 0) ∧
      ∀ x, ∃ c', Branch k (blocks j b) (ψ, cl) c' ∧ c'.1 x = ψ (parities n r j x)
  | 0, _ => by
    have : ∀ x, parities n r 0 x = x := fun x => by funext q; simp [parities]
    refine ⟨fun c' h => ?_, fun x => ⟨_, rfl, by rw [this]⟩⟩
    cases h
    exact ⟨fun b _ => rfl, fun x hx => by rw [this]; exact hx⟩
  | j + 1, hj => by
    obtain ⟨h1, h2⟩ := parity_blocks hb ψ cl j (by omega)
    obtain ⟨h3, h4⟩ := hb j (by omega)
    have e : blocks (j + 1) b = blocks j b ++ b j := by
      unfold blocks
      rw [List.range_succ, List.flatMap_append, List.flatMap_singleton]
    rw [e]
    constructor
    · intro c' h
      rw [branch_append] at h
      obtain ⟨d, h5, h6⟩ := h
      obtain ⟨h7, h8⟩ := h1 d h5
      obtain ⟨h9, h10⟩ := h3 d.1 d.2 c' h6
      refine ⟨fun b hb' => (h7 b hb').trans (h9 b hb'), fun x hx => ?_⟩
      have := h8 _ (h10 x hx)
      rwa [parities_succ (by omega)] at this
    · intro x
      obtain ⟨d, h5, h6⟩ := h2 (Function.update x j (parity (List.range r) (blk n j x)))
      obtain ⟨c', h7, h8⟩ := h4 d.1 d.2 x
      refine ⟨c', ?_, by rw [h8, h6, parities_succ (by omega)]⟩
      rw [branch_append]
      exact ⟨d, h5, h7⟩

theorem parity_const {r : ℕ} (b : Bool) : parity (List.range (2 * r + 1)) (fun _ => b) = b := by
  unfold parity
  have : ∀ (l : List ℕ), l.foldr (fun _ p => b ^^ p) false = (b && l.length % 2 == 1) := fun l => by
    induction l with
    | nil => simp
    | cons a l ih =>
      rw [List.foldr_cons, ih, List.length_cons]
      cases b
      · rfl
      · rcases Nat.mod_two_eq_zero_or_one l.length with h | h <;> simp [h, Nat.add_mod]
  rw [this, List.length_range]
  cases b
  · rfl
  · have : (2 * r + 1) % 2 = 1 := by omega
    simp [this]

/-- A code with an odd number of qubits whose logical value is the parity, with the words of equal bits among its words. -/
theorem parity_decodes [IsDomain R] {W : CodeWords} {n m r K : ℕ} {b : ℕ → List Instr}
    (hb : ∀ i < n, ParityBlock k n (2 * r + 1) m i (b i)) (hW : W.Local (2 * r + 1))
    (hpar : ∀ β y, W β y ≠ 0 → parity (List.range (2 * r + 1)) y = β) (hconst : ∀ β, W β (fun _ => β) = 1 ∨ W β (fun _ => β) = -1) :
    Decodes k W n m (sharedAnc n (2 * r + 1) K) (blocks n b) := by
  intro v u φ cl hφ
  obtain ⟨h1, h2⟩ := parity_blocks hb (withAnc (sharedAnc n (2 * r + 1) K) v (u • encoded W n φ)) cl n (Nat.le_refl n)
  have hblk : ∀ i < n, ∀ x, parity (List.range (2 * r + 1)) (blk n i (parities n (2 * r + 1) n x)) = x i := by
    intro i hi x
    have e : List.range (2 * r + 1) = 0 :: (List.range (2 * r)).map Nat.succ := List.range_succ_eq_map
    have h0 : blk n i (parities n (2 * r + 1) n x) 0 = parity (List.range (2 * r + 1)) (blk n i x) := by
      show parities n (2 * r + 1) n x (dat n i 0) = _
      unfold parities dat
      rw [Nat.zero_mul, Nat.add_zero, if_pos hi]
    have hs : ∀ j ∈ (List.range (2 * r)).map Nat.succ, blk n i (parities n (2 * r + 1) n x) j = blk n i x j := fun j hj => by
      obtain ⟨j', -, rfl⟩ := List.mem_map.1 hj
      show parities n (2 * r + 1) n x (dat n i (j' + 1)) = x (dat n i (j' + 1))
      unfold parities
      rw [if_neg]
      unfold dat
      rw [Nat.add_mul]
      omega
    have hsplit : ∀ y : Bits, parity (List.range (2 * r + 1)) y = (y 0 ^^ parity ((List.range (2 * r)).map Nat.succ) y) := fun y => by
      rw [e]; rfl
    rw [hsplit, h0, hsplit]
    have : parity ((List.range (2 * r)).map Nat.succ) (blk n i (parities n (2 * r + 1) n x)) =
        parity ((List.range (2 * r)).map Nat.succ) (blk n i x) := by
      generalize (List.range (2 * r)).map Nat.succ = L at hs
      unfold parity
      induction L with
      | nil => rfl
      | cons a L ih => rw [List.foldr_cons, List.foldr_cons, hs a (by simp), ih fun j hj => hs j (by simp [hj])]
    rw [this]
    have hz : blk n i x 0 = x i := by unfold blk dat; rw [Nat.zero_mul, Nat.add_zero]
    rw [hz, Bool.xor_assoc, Bool.xor_self, Bool.xor_false]
  refine ⟨fun c hc => ⟨(h1 c hc).1, fun x hx => ?_⟩, ?_, fun x hx => ?_⟩
  · have h3 := (h1 c hc).2 x hx
    intro h0
    refine h3 ?_
    show (if _ then (u • encoded W n φ) (parities n (2 * r + 1) n x) else 0) = 0
    split
    · rw [Pi.smul_apply, smul_eq_mul, encoded_apply, Finset.sum_eq_zero, mul_zero]
      intro β _
      by_cases hβ : ∀ i : Fin n, β i = x i
      · rw [hφ (ext β) x fun q hq => by unfold ext; rw [dif_pos hq]; exact hβ ⟨q, hq⟩, h0, mul_zero]
      · push Not at hβ
        obtain ⟨i, hi⟩ := hβ
        have : W (β i) (blk n i (parities n (2 * r + 1) n x)) = 0 := by
          by_contra hne
          exact hi (by rw [← hpar _ _ hne, hblk i i.2 x])
        rw [prodW, Finset.prod_eq_zero (Finset.mem_univ i) (by rw [this, Int.cast_zero]), zero_mul]
    · rfl
  · obtain ⟨c', hc', -⟩ := h2 fun _ => false
    exact ⟨c', hc'⟩
  · set x' : Bits := fun q => if q < n * (2 * r + 1) then x (q % n) else v q with hx'
    have hb' : ∀ i < n, ∀ j < 2 * r + 1, blk n i x' j = x i := fun i hi j hj => by
      show (if dat n i j < n * (2 * r + 1) then x (dat n i j % n) else v _) = x i
      rw [if_pos (dat_lt hi hj), (dat_mod hi j).1]
    have hlt : ∀ q < n, q < n * (2 * r + 1) := fun q hq => by
      have := dat_lt (j := 0) (r := 2 * r + 1) hq (by omega)
      unfold dat at this
      omega
    have hp : parities n (2 * r + 1) n x' = x' := by
      funext q
      unfold parities
      split
      · rename_i hq
        rw [parity_congr (y := blk n q x') (z := fun _ => x q) (r := 2 * r + 1) (fun j hj => List.mem_range.1 hj) (hb' q hq), parity_const, hx']
        simp only
        rw [if_pos (hlt q hq), Nat.mod_eq_of_lt hq]
      · rfl
    obtain ⟨c, hc, hval⟩ := h2 x'
    refine ⟨c, x', hc, fun q hq => by rw [hx']; simp only; rw [if_pos (hlt q hq), Nat.mod_eq_of_lt hq], ?_⟩
    rw [hval, hp]
    have hanc : ((sharedAnc n (2 * r + 1) K).all fun q => x' q == v q) = true := List.all_eq_true.2 fun q hq => by
      obtain ⟨j, -, rfl⟩ := List.mem_map.1 hq
      rw [beq_iff_eq, hx']
      simp
    show (if _ then (u • encoded W n φ) x' else 0) ≠ 0
    rw [if_pos hanc, Pi.smul_apply, smul_eq_mul, encoded_apply, Finset.sum_eq_single fun i : Fin n => x i]
    · rw [hφ (ext fun i : Fin n => x i) x fun q hq => by unfold ext; rw [dif_pos hq]]
      have hunit : ∀ i : Fin n, ((W (x i) (blk n i x') : ℤ) : R) ≠ 0 := fun i => by
        rw [hW (x i) (blk n i x') (fun _ => x i) (hb' i i.2)]
        rcases hconst (x i) with e | e <;> rw [e] <;> simp
      rw [mul_left_comm]
      exact mul_ne_zero (Finset.prod_ne_zero_iff.2 fun i _ => hunit i) hx
    · intro β _ hβ
      obtain ⟨i, hi⟩ := Function.ne_iff.1 hβ
      have : W (β i) (blk n i x') = 0 := by
        by_contra hne
        refine hi ?_
        rw [← hpar _ _ hne, parity_congr (y := blk n i x') (z := fun _ => x i) (r := 2 * r + 1) (fun j hj => List.mem_range.1 hj) (hb' i i.2), parity_const]
      rw [prodW, Finset.prod_eq_zero (Finset.mem_univ i) (by rw [this, Int.cast_zero]), zero_mul]
    · intro h; exact absurd (Finset.mem_univ _) h

end Res
end Verif.Ecc
