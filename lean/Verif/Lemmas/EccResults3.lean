import Verif.Lemmas.EccResults2
import Verif.Props.EccCorrect

/-! # Results of encoded circuits: the loop over the gates -/

namespace Verif.Ecc
open scoped BigOperators
variable {R : Type} [CommRing R] (k : Consts R)

/-- The errors as instructions (errors on different blocks: the order has no effect). -/
def errorInstrs (n : ℕ) (err : ℕ → Option (Op × ℕ)) : List Instr :=
  (List.range n).reverse.flatMap fun i => match err i with | none => [] | some (op, q) => [.gate op [] (dat n i q)]

namespace Res

theorem uact_errors (n : ℕ) (err : ℕ → Option (Op × ℕ)) (ψ : State R) : uact k (errorInstrs n err) ψ = corrupt k n err ψ := by
  unfold errorInstrs corrupt
  induction List.range n with
  | nil => rfl
  | cons i l ih =>
    rw [List.reverse_cons, List.flatMap_append, uact_append, ih, List.foldr_cons, List.flatMap_singleton]
    cases err i with
    | none => rfl
    | some p =>
      obtain ⟨op, q⟩ := p
      show gateAct k op [] (dat n i q) _ = _
      rw [gateAct_nil]

theorem corrupt_none {n : ℕ} {err : ℕ → Option (Op × ℕ)} (h : ∀ i < n, err i = none) (ψ : State R) :
    corrupt k n err ψ = ψ ∧ errorInstrs n err = [] := by
  unfold corrupt errorInstrs
  have : ∀ l : List ℕ, (∀ i ∈ l, i < n) →
      l.foldr (fun i φ => match err i with | none => φ | some (op, q) => opAct k op (dat n i q) φ) ψ = ψ ∧
      (l.flatMap fun i => match err i with | none => [] | some (op, q) => [Instr.gate op [] (dat n i q)]) = [] := by
    intro l hl
    induction l with
    | nil => exact ⟨rfl, rfl⟩
    | cons i l ih =>
      obtain ⟨h1, h2⟩ := ih fun j hj => hl j (by simp [hj])
      rw [List.foldr_cons, h1, List.flatMap_cons, h2, h i (hl i (by simp))]
      exact ⟨rfl, rfl⟩
  exact ⟨(this _ fun i hi => List.mem_range.1 hi).1, (this _ fun i hi => List.mem_range.1 (List.mem_reverse.1 hi)).2⟩

/-- Encoded, and something was written. -/
def Ready (s : St) : Prop := s.isDecoded = false ∧ s.gatesWritten = true

/-- The instructions decode: the possible basis states of the first `n` qubits are those of the logical state. -/
def Decodes (W : CodeWords) (n m : ℕ) (A : List ℕ) (l : List Instr) : Prop :=
  ∀ (v : Bits) (u : R) (φ : State R) (cl : Bits), Below n φ →
    (∀ c, Branch k l (withAnc A v (u • encoded W n φ), cl) c → SameBits m cl c.2 ∧ ∀ x, c.1 x ≠ 0 → φ x ≠ 0) ∧
    (∃ c, Branch k l (withAnc A v (u • encoded W n φ), cl) c) ∧
    ∀ x, u * φ x ≠ 0 → ∃ c x', Branch k l (withAnc A v (u • encoded W n φ), cl) c ∧ (∀ q < n, x' q = x q) ∧ c.1 x' ≠ 0

def pairs (g : Gate) : List (ℕ × ℕ) := List.zip g.targets g.classics

theorem zipWith_pairs (g : Gate) : List.zipWith Instr.measure g.targets g.classics = (pairs g).map fun p => Instr.measure p.1 p.2 := by
  unfold pairs
  rw [List.zip, List.map_zipWith]

/-- What the parts of an encoder have to satisfy. -/
structure Encoder (sch : Scheme) (W : CodeWords) (n m r K : ℕ) (okG okM : Gate → Prop) : Prop where
  size : sch.outputQubits n = n * r + K
  start : Ready ((sch.writeEncoding {}).decoded false)
  enc_ex : ∀ cl, ∃ c, Branch k ((sch.writeEncoding {}).decoded false).out (ket (n * r + K) fun _ => false, cl) c ∧ c.1 ≠ 0
  enc : ∀ cl c, Branch k ((sch.writeEncoding {}).decoded false).out (ket (n * r + K) fun _ => false, cl) c → c.1 ≠ 0 →
    ∃ (v : Bits) (u : R), c.1 = withAnc (sharedAnc n r K) v (u • encoded W n (ket n fun _ => false)) ∧ SameBits m cl c.2
  gate : ∀ g s s', okG g → Ready s → sch.mapGate g s = .ok s' →
    Ready s' ∧ ∃ l, s'.out = s.out ++ l ∧ (∀ i ∈ l, OffAnc (sharedAnc n r K) i) ∧ ActsAs k W n l g
  okG_spec : ∀ g, okG g → g.op ≠ .measure ∧ (∀ t ∈ g.targets, t < n) ∧ ∀ c ∈ g.controls, c.1 < n
  corr : ∀ s, Ready s → Ready (sch.measureAndCorrect s) ∧ ∃ l, (sch.measureAndCorrect s).out = s.out ++ l ∧
    ∀ (φ : State R) err, SingleErrors n [.X, .Y, .Z] (List.range r) err →
      Corrects k (sharedAnc n r K) m l (corrupt k n err (encoded W n φ)) (encoded W n φ)
  corrD : ∀ s, s.isDecoded = true → sch.measureAndCorrect s = s
  dec : ∀ s, Ready s → (sch.writeDecoding s).isDecoded = true ∧ ∃ l, (sch.writeDecoding s).out = s.out ++ l ∧
    Decodes k W n m (sharedAnc n r K) l
  meas : ∀ g s s', okM g → sch.mapGate g s = .ok s' →
    s' = (if s.isDecoded then s else sch.writeDecoding (sch.measureAndCorrect s)).emit (List.zipWith Instr.measure g.targets g.classics)
  okM_spec : ∀ g, okM g → g.op = .measure ∧ (∀ t ∈ g.targets, t < n)

/-- The encoded state `φ` with errors. -/
structure Inv (W : CodeWords) (n m r K : ℕ) (cl : Bits) (φ : State R) (err : ℕ → Option (Op × ℕ)) (s : St) : Prop where
  ready : Ready s
  below : Below n φ
  ex : ∃ (c : Config R) (v : Bits) (u : R), Branch k s.out (ket (n * r + K) fun _ => false, cl) c ∧ u ≠ 0 ∧
    c.1 = withAnc (sharedAnc n r K) v (u • corrupt k n err (encoded W n φ)) ∧ SameBits m cl c.2
  all : ∀ c, Branch k s.out (ket (n * r + K) fun _ => false, cl) c → c.1 ≠ 0 →
    ∃ (v : Bits) (u : R), c.1 = withAnc (sharedAnc n r K) v (u • corrupt k n err (encoded W n φ)) ∧ SameBits m cl c.2

variable {k}
variable {sch : Scheme} {W : CodeWords} {n m r K : ℕ} {okG okM : Gate → Prop}

/-- No error. -/
def noErr : ℕ → Option (Op × ℕ) := fun _ => none

theorem corrupt_noErr (ψ : State R) : corrupt k n noErr ψ = ψ := (corrupt_none k (fun _ _ => rfl) ψ).1

theorem Inv.congr {cl : Bits} {φ : State R} {err err' : ℕ → Option (Op × ℕ)} {s : St} (h : Inv k W n m r K cl φ err s)
    (he : corrupt k n err (encoded W n φ) = corrupt k n err' (encoded W n φ)) : Inv k W n m r K cl φ err' s :=
  ⟨h.ready, h.below, by rw [← he]; exact h.ex, by rw [← he]; exact h.all⟩

theorem unit_ne [Nontrivial R] {u : R} (hu : u ^ 4 = 1) : u ≠ 0 := fun h => by rw [h] at hu; simp at hu

theorem Encoder.init [Nontrivial R] (E : Encoder k sch W n m r K okG okM) (cl : Bits) :
    Inv k W n m r K cl (ket n fun _ => false) noErr ((sch.writeEncoding {}).decoded false) := by
  refine ⟨E.start, ket_below n _, ?_, ?_⟩
  · obtain ⟨c, hc, h0⟩ := E.enc_ex cl
    obtain ⟨v, u, h1, h2⟩ := E.enc cl c hc h0
    refine ⟨c, v, u, hc, fun hu => h0 ?_, by rw [corrupt_noErr]; exact h1, h2⟩
    rw [h1, hu, zero_smul]
    funext x
    show (if _ then _ else _) = (0 : R)
    split <;> rfl
  · intro c hc h0
    rw [corrupt_noErr]
    exact E.enc cl c hc h0

/-- Appending gates that leave the ancillas alone. -/
theorem Inv.gates [IsDomain R] {cl : Bits} {φ φ' : State R} {err err' : ℕ → Option (Op × ℕ)} {s s' : St} (h : Inv k W n m r K cl φ err s)
    {l : List Instr} (hl : ∀ i ∈ l, OffAnc (sharedAnc n r K) i) (hr : Ready s') (hout : s'.out = s.out ++ l) (hb : Below n φ') {z : R}
    (hz : z ^ 4 = 1) (hu : uact k l (corrupt k n err (encoded W n φ)) = z • corrupt k n err' (encoded W n φ')) :
    Inv k W n m r K cl φ' err' s' := by
  have key : ∀ v (u : R) (cl' : Bits) c', Branch k l (withAnc (sharedAnc n r K) v (u • corrupt k n err (encoded W n φ)), cl') c' ↔
      c' = (withAnc (sharedAnc n r K) v ((u * z) • corrupt k n err' (encoded W n φ')), cl') := fun v u cl' c' => by
    rw [branch_withAnc k hl, hu, smul_smul]
  refine ⟨hr, hb, ?_, ?_⟩
  · obtain ⟨c, v, u, h1, h2, h3, h4⟩ := h.ex
    refine ⟨(withAnc (sharedAnc n r K) v ((u * z) • corrupt k n err' (encoded W n φ')), c.2), v, u * z, ?_, mul_ne_zero h2 (unit_ne hz), rfl, h4⟩
    rw [hout, branch_append]
    refine ⟨c, h1, ?_⟩
    have : c = (c.1, c.2) := rfl
    rw [this, h3]
    exact (key v u c.2 _).2 rfl
  · intro c hc h0
    rw [hout, branch_append] at hc
    obtain ⟨d, h1, h2⟩ := hc
    have hd0 : d.1 ≠ 0 := fun hd => h0 (branch_zero k h2 hd)
    obtain ⟨v, u, h3, h4⟩ := h.all d h1 hd0
    have : d = (d.1, d.2) := rfl
    rw [this, h3] at h2
    obtain rfl := (key v u d.2 c).1 h2
    exact ⟨v, _, rfl, h4⟩

theorem gate_unitary {g : Gate} (h : g.op ≠ .measure) : ∀ i ∈ g.instrs, i.Unitary = true := by
  intro i hi
  unfold Gate.instrs at hi
  cases hop : g.op <;> rw [hop] at hi <;> simp only [List.mem_map, List.not_mem_nil] at hi <;>
    first
      | exact absurd hop h
      | (obtain ⟨t, -, rfl⟩ := hi; rfl)

theorem gate_uses {g : Gate} (h : g.op ≠ .measure) (ht : ∀ t ∈ g.targets, t < n) (hc : ∀ c ∈ g.controls, c.1 < n) :
    ∀ i ∈ g.instrs, Uses n i := by
  intro i hi
  unfold Gate.instrs at hi
  cases hop : g.op <;> rw [hop] at hi <;> simp only [List.mem_map, List.not_mem_nil] at hi <;>
    first
      | exact absurd hop h
      | (obtain ⟨t, ht', rfl⟩ := hi; exact ⟨ht t ht', hc⟩)

theorem Encoder.gate_step [IsDomain R] (E : Encoder k sch W n m r K okG okM) {cl : Bits} {φ : State R} {s s' : St}
    (h : Inv k W n m r K cl φ noErr s) {g : Gate} (hg : okG g) (hs : sch.mapGate g s = .ok s') :
    Inv k W n m r K cl (uact k g.instrs φ) noErr s' := by
  obtain ⟨hr, l, hout, hoff, u, hu, hact⟩ := E.gate g s s' hg h.ready hs
  obtain ⟨hm, ht, hc⟩ := E.okG_spec g hg
  have hbr : ∀ cl', Branch k g.instrs (φ, cl') (uact k g.instrs φ, cl') := fun cl' => (branch_unitary k (gate_unitary hm) _ _).2 rfl
  refine h.gates hoff hr hout (branch_below k (gate_uses hm ht hc) (hbr cl) h.below) hu ?_
  rw [corrupt_noErr, corrupt_noErr]
  have h1 := (hact φ _ cl cl (hbr cl) _).2 rfl
  have h2 := (branch_unitary k (fun i hi => offAnc_unitary (hoff i hi)) _ _).1 h1
  exact (congrArg Prod.fst h2).symm

theorem errors_off {err : ℕ → Option (Op × ℕ)} (he : SingleErrors n [.X, .Y, .Z] (List.range r) err) :
    ∀ i ∈ errorInstrs n err, OffAnc (sharedAnc n r K) i := by
  intro i hi
  obtain ⟨j, hj, hi⟩ := List.mem_flatMap.1 hi
  have hj := List.mem_range.1 (List.mem_reverse.1 hj)
  cases hej : err j with
  | none => rw [hej] at hi; cases hi
  | some p =>
    obtain ⟨op, q⟩ := p
    rw [hej] at hi
    obtain rfl := List.mem_singleton.1 hi
    have hq := List.mem_range.1 (he j hj op q hej).2
    intro hm
    obtain ⟨a, -, ha⟩ := List.mem_map.1 hm
    have := dat_lt hj hq
    omega

theorem Inv.noise [IsDomain R] {cl : Bits} {φ : State R} {s : St} (h : Inv k W n m r K cl φ noErr s) {err : ℕ → Option (Op × ℕ)}
    (he : SingleErrors n [.X, .Y, .Z] (List.range r) err) : Inv k W n m r K cl φ err (s.emit (errorInstrs n err)) :=
  h.gates (errors_off he) h.ready rfl h.below (z := 1) (by ring) (by rw [corrupt_noErr, uact_errors, one_smul])

theorem Encoder.correct_step [IsDomain R] (E : Encoder k sch W n m r K okG okM) {cl : Bits} {φ : State R} {err : ℕ → Option (Op × ℕ)} {s : St}
    (h : Inv k W n m r K cl φ err s) (he : SingleErrors n [.X, .Y, .Z] (List.range r) err) :
    Inv k W n m r K cl φ noErr (sch.measureAndCorrect s) := by
  obtain ⟨hr, l, hout, hcorr⟩ := E.corr s h.ready
  have hc := hcorr φ err he
  refine ⟨hr, h.below, ?_, ?_⟩
  · obtain ⟨c, v, u, h1, h2, h3, h4⟩ := h.ex
    obtain ⟨⟨c', hb, v', z, hz, hc'⟩, hall⟩ := hc v c.2
    refine ⟨(u • c'.1, c'.2), v', u * z, ?_, mul_ne_zero h2 (unit_ne hz), ?_, fun b hb' => ?_⟩
    · rw [hout, branch_append]
      refine ⟨c, h1, ?_⟩
      have : c = (c.1, c.2) := rfl
      rw [this, h3, withAnc_smul]
      exact (branch_smul k l u _ _ _).2 ⟨c', hb, rfl⟩
    · rw [corrupt_noErr]
      show u • c'.1 = _
      rw [hc', ← withAnc_smul, smul_smul]
    · exact (h4 b hb').trans ((hall c' hb).2 b hb').symm
  · intro c' hb h0
    rw [hout, branch_append] at hb
    obtain ⟨c, h1, h2⟩ := hb
    have hd0 : c.1 ≠ 0 := fun hd => h0 (branch_zero k h2 hd)
    obtain ⟨v, u, h3, h4⟩ := h.all c h1 hd0
    have : c = (c.1, c.2) := rfl
    rw [this, h3, withAnc_smul] at h2
    obtain ⟨c'', h5, rfl⟩ := (branch_smul k l u _ _ _).1 h2
    obtain ⟨h6, h7⟩ := (hc v c.2).2 c'' h5
    rcases h6 with ⟨v', z, hz, e⟩ | e
    · refine ⟨v', u * z, ?_, fun b hb' => (h4 b hb').trans (h7 b hb').symm⟩
      rw [corrupt_noErr]
      show u • c''.1 = _
      rw [e, ← withAnc_smul, smul_smul]
    · exact absurd (by show u • c''.1 = 0; rw [e, smul_zero]) h0

/-- Decoded: measurements `P` were appended to a circuit that decodes `φ`. -/
structure Inv2 (n m N : ℕ) (cl : Bits) (φ : State R) (P : List (ℕ × ℕ)) (s : St) : Prop where
  dec : s.isDecoded = true
  out : ∃ l, s.out = l ++ P.map (fun p => Instr.measure p.1 p.2) ∧
    (∀ c, Branch k l (ket N fun _ => false, cl) c → c.1 ≠ 0 → SameBits m cl c.2 ∧ ∀ x, c.1 x ≠ 0 → φ x ≠ 0) ∧
    (∃ c, Branch k l (ket N fun _ => false, cl) c) ∧
    ∀ x, φ x ≠ 0 → ∃ c x', Branch k l (ket N fun _ => false, cl) c ∧ (∀ q < n, x' q = x q) ∧ c.1 x' ≠ 0

theorem Encoder.decode_step [IsDomain R] (E : Encoder k sch W n m r K okG okM) {cl : Bits} {φ : State R} {s : St}
    (h : Inv k W n m r K cl φ noErr s) : Inv2 (k := k) n m (n * r + K) cl φ [] (sch.writeDecoding s) := by
  obtain ⟨hd, l, hout, hdec⟩ := E.dec s h.ready
  refine ⟨hd, s.out ++ l, by rw [hout]; simp, ?_, ?_, ?_⟩
  · intro c hb h0
    rw [branch_append] at hb
    obtain ⟨d, h1, h2⟩ := hb
    obtain ⟨v, u, h3, h4⟩ := h.all d h1 fun hd => h0 (branch_zero k h2 hd)
    have : d = (d.1, d.2) := rfl
    rw [this, h3, corrupt_noErr] at h2
    obtain ⟨h5, h6⟩ := (hdec v u φ d.2 h.below).1 c h2
    exact ⟨fun b hb => (h4 b hb).trans (h5 b hb), h6⟩
  · obtain ⟨d, v, u, h1, h2, h3, h4⟩ := h.ex
    obtain ⟨c, h5⟩ := (hdec v u φ d.2 h.below).2.1
    refine ⟨c, ?_⟩
    rw [branch_append]
    refine ⟨d, h1, ?_⟩
    have : d = (d.1, d.2) := rfl
    rw [this, h3, corrupt_noErr]
    exact h5
  · intro x hx
    obtain ⟨d, v, u, h1, h2, h3, h4⟩ := h.ex
    obtain ⟨c, x', h5, h6, h7⟩ := (hdec v u φ d.2 h.below).2.2 x (mul_ne_zero h2 hx)
    refine ⟨c, x', ?_, h6, h7⟩
    rw [branch_append]
    refine ⟨d, h1, ?_⟩
    have : d = (d.1, d.2) := rfl
    rw [this, h3, corrupt_noErr]
    exact h5

theorem Encoder.measure_step (E : Encoder k sch W n m r K okG okM) {cl : Bits} {φ : State R} {P : List (ℕ × ℕ)} {s s' : St}
    (h : Inv2 (k := k) n m (n * r + K) cl φ P s) {g : Gate} (hg : okM g) (hs : sch.mapGate g s = .ok s') :
    Inv2 (k := k) n m (n * r + K) cl φ (P ++ pairs g) s' := by
  have e := E.meas g s s' hg hs
  rw [h.dec, if_pos rfl, zipWith_pairs] at e
  obtain ⟨l, h1, h2, h3⟩ := h.out
  refine ⟨by rw [e]; exact h.dec, l, ?_, h2, h3⟩
  rw [e]
  show s.out ++ _ = _
  rw [h1, List.map_append, List.append_assoc]

theorem Encoder.first_measure [IsDomain R] (E : Encoder k sch W n m r K okG okM) {cl : Bits} {φ : State R} {err : ℕ → Option (Op × ℕ)} {s s' : St}
    (h : Inv k W n m r K cl φ err s) (he : SingleErrors n [.X, .Y, .Z] (List.range r) err) {g : Gate} (hg : okM g)
    (hs : sch.mapGate g s = .ok s') : Inv2 (k := k) n m (n * r + K) cl φ (pairs g) s' := by
  have e := E.meas g s s' hg hs
  rw [h.ready.1, if_neg Bool.false_ne_true, zipWith_pairs] at e
  have h0 := E.decode_step (E.correct_step h he)
  obtain ⟨l, h1, h2, h3⟩ := h0.out
  refine ⟨by rw [e]; exact h0.dec, l, ?_, h2, h3⟩
  rw [e]
  show (sch.writeDecoding _).out ++ _ = _
  rw [h1]
  simp

/-! ## The loop -/

/-- The function of the loop of `applyNoisy`. -/
def noisyGate (sch : Scheme) (noise : ℕ → List Instr) (g : Gate) (p : ℕ × St) : Except EccErr (ℕ × St) :=
  (sch.mapGate g p.2).map fun st => (p.1 + 1, if st.isDecoded then st else st.emit (noise p.1))

def noisyCorrect (sch : Scheme) (p : ℕ × St) : ℕ × St := (p.1, sch.measureAndCorrect p.2)

theorem Encoder.loop_measures (E : Encoder k sch W n m r K okG okM) {cl : Bits} {φ : State R} {noise : ℕ → List Instr} {freq : ℕ} :
    ∀ (ms : List Gate) (j : ℕ) (P : List (ℕ × ℕ)) (p p' : ℕ × St), (∀ g ∈ ms, okM g) → Inv2 (k := k) n m (n * r + K) cl φ P p.2 →
      loop (noisyGate sch noise) (noisyCorrect sch) freq j ms p = .ok p' →
      Inv2 (k := k) n m (n * r + K) cl φ (P ++ ms.flatMap pairs) p'.2
  | [], j, P, p, p', _, h, hl => by
    cases hl
    rw [List.flatMap_nil, List.append_nil]
    exact h
  | g :: ms, j, P, p, p', hm, h, hl => by
    unfold loop at hl
    cases hg : sch.mapGate g p.2 with
    | error e => simp only [noisyGate, hg, Except.map] at hl; cases hl
    | ok s' =>
      have h1 := E.measure_step h (hm g (by simp)) hg
      have hper : (periodic (noisyCorrect sch) freq (j + 1) (p.1 + 1, s')) = (p.1 + 1, s') := by
        unfold periodic noisyCorrect
        rw [E.corrD s' h1.dec]
        split <;> rfl
      simp only [noisyGate, hg, Except.map, h1.dec, if_true, hper] at hl
      have := E.loop_measures ms (j + 1) _ _ p' (fun x hx => hm x (by simp [hx])) h1 hl
      rw [List.flatMap_cons, ← List.append_assoc]
      exact this

theorem Encoder.loop_gates [IsDomain R] (E : Encoder k sch W n m r K okG okM) {cl : Bits} {freq L : ℕ} {err : ℕ → ℕ → Option (Op × ℕ)}
    (he : ∀ q, SingleErrors n [.X, .Y, .Z] (List.range r) (err q))
    (hwhen : ∀ q, (∃ i < n, err q i ≠ none) → (0 < freq ∧ (q + 1) % freq = 0) ∨ q + 1 = L) (ms : List Gate) :
    ∀ (us : List Gate) (j : ℕ) (φ : State R) (s : St) (p' : ℕ × St), j + us.length = L → (∀ g ∈ us, okG g) →
      Inv k W n m r K cl φ noErr s →
      loop (noisyGate sch fun q => errorInstrs n (err q)) (noisyCorrect sch) freq j (us ++ ms) (j, s) = .ok p' →
      ∃ s₁ err', SingleErrors n [.X, .Y, .Z] (List.range r) err' ∧
        Inv k W n m r K cl (uact k (us.flatMap Gate.instrs) φ) err' s₁ ∧
        loop (noisyGate sch fun q => errorInstrs n (err q)) (noisyCorrect sch) freq L ms (L, s₁) = .ok p'
  | [], j, φ, s, p', hj, _, h, hl => by
    simp only [List.length_nil, Nat.add_zero] at hj
    subst hj
    exact ⟨s, noErr, fun i _ o q hq => (by cases hq), h, hl⟩
  | g :: us, j, φ, s, p', hj, hg, h, hl => by
    rw [List.cons_append] at hl
    unfold loop at hl
    cases hm : sch.mapGate g s with
    | error e => simp only [noisyGate, hm, Except.map] at hl; cases hl
    | ok s' =>
      have h1 := E.gate_step h (hg g (by simp)) hm
      simp only [noisyGate, hm, Except.map, h1.ready.1, Bool.false_eq_true, if_false] at hl
      have h2 := h1.noise (he j)
      rw [List.flatMap_cons, uact_append]
      rw [List.length_cons] at hj
      by_cases hf : 0 < freq ∧ (j + 1) % freq = 0
      · rw [periodic, if_pos hf] at hl
        have h3 := E.correct_step h2 (he j)
        exact E.loop_gates he hwhen ms us (j + 1) _ _ p' (by omega) (fun x hx => hg x (by simp [hx])) h3 hl
      · rw [periodic, if_neg hf] at hl
        by_cases hn : ∃ i < n, err j i ≠ none
        · have hL := (hwhen j hn).resolve_left hf
          have hus : us = [] := List.length_eq_zero_iff.1 (by omega)
          subst hus
          rw [hL] at hl
          exact ⟨_, err j, he j, h2, hl⟩
        · have h3 : Inv k W n m r K cl (uact k g.instrs φ) noErr (s'.emit (errorInstrs n (err j))) := h2.congr (by
            rw [corrupt_noErr]
            refine (corrupt_none k (fun i hi => ?_) _).1
            by_contra hc
            exact hn ⟨i, hi, hc⟩)
          exact E.loop_gates he hwhen ms us (j + 1) _ _ p' (by omega) (fun x hx => hg x (by simp [hx])) h3 hl

theorem branch_no_clone {l : List Instr} {c c' : Config R} (h : Branch k l c c') : expand l = l := by
  refine expand_id fun g hg => ?_
  induction l generalizing c with
  | nil => cases hg
  | cons i l ih =>
    obtain ⟨d, h1, h2⟩ := h
    rcases List.mem_cons.1 hg with rfl | hg
    · exact h1.elim
    · exact ih h2 hg

theorem measures_exist (P : List (ℕ × ℕ)) (c : Config R) : ∃ c', Branch k (P.map fun p => Instr.measure p.1 p.2) c c' := by
  induction P generalizing c with
  | nil => exact ⟨c, rfl⟩
  | cons p P ih =>
    obtain ⟨c', h⟩ := ih (project p.1 false c.1, Function.update c.2 p.2 false)
    exact ⟨c', _, ⟨false, rfl⟩, h⟩

theorem flatMap_instrs {us : List Gate} (h : ∀ g ∈ us, g.op ≠ .measure) : ∀ i ∈ us.flatMap Gate.instrs, i.Unitary = true := fun i hi => by
  obtain ⟨g, hg, hi⟩ := List.mem_flatMap.1 hi
  exact gate_unitary (h g hg) i hi

theorem flatMap_measures {ms : List Gate} (h : ∀ g ∈ ms, g.op = .measure) :
    ms.flatMap Gate.instrs = (ms.flatMap pairs).map fun p => Instr.measure p.1 p.2 := by
  induction ms with
  | nil => rfl
  | cons g ms ih =>
    rw [List.flatMap_cons, List.flatMap_cons, List.map_append, ih fun x hx => h x (by simp [hx]), ← zipWith_pairs]
    congr 1
    unfold Gate.instrs
    rw [h g (by simp)]

/-- **The results.** -/
theorem Encoder.results [IsDomain R] (E : Encoder k sch W n m r K okG okM) (freq : ℕ) (us ms : List Gate) (hus : ∀ g ∈ us, okG g)
    (hms : ∀ g ∈ ms, okM g) {err : ℕ → ℕ → Option (Op × ℕ)} (he : ∀ q, SingleErrors n [.X, .Y, .Z] (List.range r) (err q))
    (hwhen : ∀ q, (∃ i < n, err q i ≠ none) → (0 < freq ∧ (q + 1) % freq = 0) ∨ q + 1 = us.length) {l : List Instr}
    (hl : sch.applyNoisy freq (fun q => errorInstrs n (err q)) (us ++ ms) = .ok l) :
    SameResultSets R k n m (us ++ ms) (sch.outputQubits n) l := by
  intro cl
  rw [E.size]
  set φ : State R := uact k (us.flatMap Gate.instrs) (ket n fun _ => false) with hφ
  have hmain : Inv2 (k := k) n m (n * r + K) cl φ (ms.flatMap pairs) { isDecoded := true, out := l } := by
    unfold Scheme.applyNoisy at hl
    change (loop (noisyGate sch fun q => errorInstrs n (err q)) (noisyCorrect sch) freq 0 (us ++ ms) _).map _ = _ at hl
    cases hlo : loop (noisyGate sch fun q => errorInstrs n (err q)) (noisyCorrect sch) freq 0 (us ++ ms)
        (0, (sch.writeEncoding {}).decoded false) with
    | error e => rw [hlo] at hl; cases hl
    | ok p' =>
      rw [hlo] at hl
      have hl : (sch.finish p'.2).out = l := Except.ok.inj hl
      obtain ⟨s₁, err', he', hinv, hrest⟩ := E.loop_gates he hwhen ms us 0 _ _ p' (Nat.zero_add _) hus (E.init cl) hlo
      cases ms with
      | nil =>
        cases hrest
        have h2 := E.decode_step (E.correct_step hinv he')
        unfold Scheme.finish at hl
        simp only [hinv.ready.1, Bool.not_false, if_true] at hl
        obtain ⟨l', h3, h4, h5⟩ := h2.out
        exact ⟨rfl, l', by show l = _; rw [← hl]; exact h3, h4, h5⟩
      | cons g ms =>
        unfold loop at hrest
        cases hm : sch.mapGate g s₁ with
        | error e => simp only [noisyGate, hm, Except.map] at hrest; cases hrest
        | ok s' =>
          have h1 := E.first_measure hinv he' (hms g (by simp)) hm
          have hper : (periodic (noisyCorrect sch) freq (us.length + 1) (us.length + 1, s')) = (us.length + 1, s') := by
            unfold periodic noisyCorrect
            rw [E.corrD s' h1.dec]
            split <;> rfl
          simp only [noisyGate, hm, Except.map, h1.dec, if_true, hper] at hrest
          have h2 := E.loop_measures ms _ _ _ p' (fun x hx => hms x (by simp [hx])) h1 hrest
          unfold Scheme.finish at hl
          simp only [h2.dec, Bool.not_true, Bool.false_eq_true, if_false] at hl
          obtain ⟨l', h3, h4, h5⟩ := h2.out
          exact ⟨rfl, l', by show l = _; rw [← hl, h3, List.flatMap_cons], h4, h5⟩
  obtain ⟨l₀, hl₀, hsound, hsome, hcomp⟩ := hmain.out
  have hl₀ : l = l₀ ++ (ms.flatMap pairs).map fun p => Instr.measure p.1 p.2 := hl₀
  -- the original circuit
  have horig : ∀ r₀, OriginalResult R k n (us ++ ms) cl r₀ ↔ ∃ x, φ x ≠ 0 ∧ record (ms.flatMap pairs) x cl = r₀ := by
    intro r₀
    rw [← branch_measures k]
    unfold OriginalResult
    rw [List.flatMap_append, flatMap_measures fun g hg => (E.okM_spec g (hms g hg)).1]
    have key : ∀ c, Branch k (us.flatMap Gate.instrs ++ (ms.flatMap pairs).map fun p => Instr.measure p.1 p.2) (ket n fun _ => false, cl) c ↔
        Branch k ((ms.flatMap pairs).map fun p => Instr.measure p.1 p.2) (φ, cl) c := fun c => by
      rw [branch_append]
      constructor
      · rintro ⟨d, h1, h2⟩
        rw [branch_unitary k (flatMap_instrs fun g hg => (E.okG_spec g (hus g hg)).1)] at h1
        subst h1
        exact h2
      · intro h
        exact ⟨_, (branch_unitary k (flatMap_instrs fun g hg => (E.okG_spec g (hus g hg)).1) _ _).2 rfl, h⟩
    simp only [key]
  have hpairs : ∀ p ∈ ms.flatMap pairs, p.1 < n := fun p hp => by
    obtain ⟨g, hg, hp⟩ := List.mem_flatMap.1 hp
    exact (E.okM_spec g (hms g hg)).2 _ (List.of_mem_zip hp).1
  constructor
  · intro r₀ hr
    obtain ⟨x, hx, rfl⟩ := (horig r₀).1 hr
    obtain ⟨c, x', h1, h2, h3⟩ := hcomp x hx
    have hc0 : c.1 ≠ 0 := fun h => h3 (congrFun h x')
    obtain ⟨c', h4, h5, h6⟩ := (branch_measures k (ms.flatMap pairs) c.1 c.2 _).2 ⟨x', h3, rfl⟩
    have hb : Branch k l (ket (n * r + K) fun _ => false, cl) c' := by
      rw [hl₀, branch_append]
      exact ⟨c, h1, h4⟩
    refine ⟨c'.2, ⟨c', by rw [branch_no_clone hb]; exact hb, h5, rfl⟩, ?_⟩
    rw [h6]
    exact record_same _ (fun p hp => (h2 p.1 (hpairs p hp)).symm) (hsound c h1 hc0).1
  · rintro r' ⟨c', hb, h0, rfl⟩
    have hex : expand l = l := by
      obtain ⟨c, h1⟩ := hsome
      obtain ⟨c'', h4⟩ := measures_exist (k := k) (ms.flatMap pairs) c
      exact branch_no_clone (k := k) (c := (ket (n * r + K) fun _ => false, cl)) (c' := c'') (by
        rw [hl₀, branch_append]
        exact ⟨c, h1, h4⟩)
    rw [hex, hl₀, branch_append] at hb
    obtain ⟨c, h1, h2⟩ := hb
    have hc0 : c.1 ≠ 0 := fun hd => h0 (branch_zero k h2 hd)
    obtain ⟨hsame, hx⟩ := hsound c h1 hc0
    obtain ⟨x, hx', hrec⟩ := (branch_measures k (ms.flatMap pairs) c.1 c.2 c'.2).1 ⟨c', h2, h0, rfl⟩
    refine ⟨record (ms.flatMap pairs) x cl, (horig _).2 ⟨x, hx x hx', rfl⟩, ?_⟩
    rw [← hrec]
    exact record_same _ (fun _ _ => rfl) hsame

end Res
end Verif.Ecc
