import Verif.Model.UFHeuristic
import Verif.Props.UFDecoder

/-!
# Properties of the heuristic union-find decoder

C53 (each half is decoded with its own checks), C91 (decoder objects can be reused), C92 (the estimate reproduces the
syndrome; its two forms agree).  All theorems hold for every order in which unordered sets are traversed.
-/

namespace Verif.UFH
open Verif Verif.Cpp Verif.UF Verif.UFD

/-! ## C53: the checks used for the two halves -/

/-- Replace the X checks. -/
def withHX (c : Code) (h : Option Gf2Mat) : Code := { c with hX := h }

/-- Replace the X checks of the code of a decoder. -/
def Decoder.withHX (d : Decoder) (h : Option Gf2Mat) : Decoder := { d with code := UFH.withHX d.code h }

theorem mainLoop_withHX (ord : List ℕ → List ℕ) (c : Code) (h : Option Gf2Mat) (M : Gf2Mat) (g : Growth) (rnd : ℕ → ℕ)
    (fuel k : ℕ) (f : Forest) (inv er : List ℕ) :
    mainLoop ord (withHX c h) M g rnd fuel k f inv er = mainLoop ord c M g rnd fuel k f inv er := by
  induction fuel generalizing k f inv er with
  | zero => rfl
  | succ fuel ih =>
    unfold mainLoop
    simp only [ih]
    rfl

theorem doDecoding_withHX (d : Decoder) (h : Option Gf2Mat) (ord : List ℕ → List ℕ) (rnd : ℕ → ℕ) (fuel : ℕ) (syn : List Bool)
    (M : Gf2Mat) :
    (d.withHX h).doDecoding ord rnd fuel syn M = (d.doDecoding ord rnd fuel syn M).map fun r => r.map fun d => d.withHX h := by
  unfold Decoder.doDecoding
  by_cases hs : syn.any id = true
  · rw [if_pos hs, if_pos hs]
    show (match mainLoop ord (withHX d.code h) M d.growth rnd fuel 0 d.nodes (litVertices d.code.n syn) [] with
      | none => none
      | some (.error e) => some (.error e)
      | some (.ok (f, erasure)) =>
        (erasureDecoder ord fuel M f erasure (litVertices d.code.n syn)).map fun r => do
          let p ← r
          let res ← mkResult d.code.n p.2
          return { d.withHX h with nodes := p.1, result := res } : Option (Except CppErr Decoder)) = _
    rw [mainLoop_withHX]
    rcases mainLoop ord d.code M d.growth rnd fuel 0 d.nodes (litVertices d.code.n syn) [] with _ | ⟨e⟩ | ⟨f, er⟩
    · rfl
    · rfl
    · show (erasureDecoder ord fuel M f er (litVertices d.code.n syn)).map _ =
        ((erasureDecoder ord fuel M f er (litVertices d.code.n syn)).map _).map _
      rw [Option.map_map]
      congr 1
      funext r
      cases r with
      | error e => rfl
      | ok p =>
        simp only [bind, Except.bind, Function.comp]
        cases mkResult d.code.n p.2 <;> rfl
  · rw [if_neg hs, if_neg hs]
    show some ((mkResult d.code.n []).map _) = some (((mkResult d.code.n []).map _).map _)
    cases mkResult d.code.n [] <;> rfl

/-- **C53** fails for every code: the X checks have no influence on the result of a two-sided decoding. -/
theorem C53_violated_ignores_x_checks (d : Decoder) (h : Option Gf2Mat) (ord : List ℕ → List ℕ) (rnd₁ rnd₂ : ℕ → ℕ) (fuel : ℕ)
    (syn : List Bool) :
    ((d.withHX h).decode ord rnd₁ rnd₂ fuel syn).map (fun r => r.map Decoder.result) =
      (d.decode ord rnd₁ rnd₂ fuel syn).map fun r => r.map Decoder.result := by
  unfold Decoder.decode
  have e1 : (d.withHX h).code.hZ = d.code.hZ := rfl
  rw [e1]
  by_cases hl : d.code.hZ.length < syn.length
  · rw [if_pos hl, if_pos hl, doDecoding_withHX]
    rcases d.doDecoding ord rnd₁ fuel (syn.take (syn.length / 2)) d.code.hZ with _ | ⟨e⟩ | ⟨d₁⟩
    · rfl
    · rfl
    · show Option.map _ (Option.map _ ((d₁.reset.withHX h).doDecoding ord rnd₂ fuel (syn.drop (syn.length / 2)) d.code.hZ)) =
        Option.map _ (Option.map _ (d₁.reset.doDecoding ord rnd₂ fuel (syn.drop (syn.length / 2)) d.code.hZ))
      rw [doDecoding_withHX, Option.map_map, Option.map_map, Option.map_map]
      congr 1
      funext r
      cases r <;> rfl
  · rw [if_neg hl, if_neg hl, doDecoding_withHX, Option.map_map]
    congr 1
    funext r
    cases r <;> rfl

/-- Specification of C53: the estimate for the Z error, on whichever side, has the syndrome of the Z error under the X
checks. -/
def C53_claim : Prop :=
  ∀ (c : Code) (hX : Gf2Mat), c.hX = some hX → Good c → Rect hX → cols hX = c.n →
    ∀ (x z sx sz : List Bool), x.length = c.n → z.length = c.n → IsSyndrome c.hZ x sx → IsSyndrome hX z sz →
    ∀ (ord : List ℕ → List ℕ), (∀ l, (ord l).Perm l) → ∀ rnd₁ rnd₂ fuel d',
      (Decoder.new c).decode ord rnd₁ rnd₂ fuel (sx ++ sz) = some (.ok d') →
      IsSyndrome hX (d'.result.estimBool.take c.n) sz ∨ IsSyndrome hX (d'.result.estimBool.drop c.n) sz

/-- Two qubits, an X check on the first and a Z check on the second. -/
def split : Code := mkCode (some [[true, false]]) [[false, true]]

theorem split_decode (ord : List ℕ → List ℕ) :
    ∃ d', (Decoder.new split).decode ord id id 10 [false, true] = some (.ok d') ∧
      d'.result = ⟨[1], [false, true, false, false]⟩ := ⟨_, rfl, rfl⟩

theorem C53_violated : ¬ C53_claim := by
  intro h
  obtain ⟨d', e, hr⟩ := split_decode id
  have := h split [[true, false]] rfl ⟨⟨by decide, by decide, by decide⟩, rfl⟩ ⟨by decide, by decide, by decide⟩ rfl
    [false, false] [true, false] [false] [true] rfl rfl ⟨rfl, by decide⟩ ⟨rfl, by decide⟩ id (fun l => .refl l) id id 10 d' e
  rw [hr] at this
  rcases this with h | h
  · exact absurd (h.2 0 (by decide)) (by decide)
  · exact absurd (h.2 0 (by decide)) (by decide)

/-- `setCode` exchanges the two matrices of a CSS code: the decoder's Z checks are the code's X checks. -/
theorem C53_violated_set_code (c : Code) (hX : Gf2Mat) (h : c.hX = some hX) :
    (setCode c).hZ = hX ∧ (setCode c).hX = some c.hZ := by
  unfold setCode
  rw [h]
  exact ⟨rfl, rfl⟩

/-! ## C91: reuse -/

/-- Specification of C91: decoding the same syndrome twice with one decoder gives the same estimate. -/
def C91_claim : Prop :=
  ∀ (c : Code), Good c → ∀ (ord : List ℕ → List ℕ), (∀ l, (ord l).Perm l) → ∀ rnd₁ rnd₂ fuel syn d₁ d₂,
    (Decoder.new c).decode ord rnd₁ rnd₂ fuel syn = some (.ok d₁) →
    d₁.decode ord rnd₁ rnd₂ fuel syn = some (.ok d₂) → d₂.result = d₁.result

theorem single_twice (ord : List ℕ → List ℕ) :
    ∃ d₁ d₂, (Decoder.new (mkCode none [[true]])).decode ord id id 10 [true] = some (.ok d₁) ∧
      d₁.decode ord id id 10 [true] = some (.ok d₂) ∧ d₁.result = ⟨[0], [true]⟩ ∧ d₂.result = ⟨[], [false]⟩ :=
  ⟨_, _, rfl, rfl, rfl, rfl⟩

/-- **C91** fails: on the code with one qubit and one check, whatever the order of traversal, the second decoding of the lit
check gives the zero estimate. -/
theorem C91_violated : ¬ C91_claim := by
  intro h
  obtain ⟨d₁, d₂, e1, e2, r1, r2⟩ := single_twice id
  have := h _ ⟨⟨by decide, by decide, by decide⟩, rfl⟩ id (fun l => .refl l) id id 10 [true] d₁ d₂ e1 e2
  rw [r1, r2] at this
  exact absurd this (by decide)

theorem doDecoding_code (d d' : Decoder) (ord : List ℕ → List ℕ) (rnd : ℕ → ℕ) (fuel : ℕ) (syn : List Bool) (M : Gf2Mat)
    (h : d.doDecoding ord rnd fuel syn M = some (.ok d')) : d'.code = d.code ∧ d'.growth = d.growth := by
  unfold Decoder.doDecoding at h
  by_cases hs : syn.any id = true
  · rw [if_pos hs] at h
    cases hml : mainLoop ord d.code M d.growth rnd fuel 0 d.nodes (litVertices d.code.n syn) [] with
    | none => rw [hml] at h; cases h
    | some r =>
      rw [hml] at h
      rcases r with e | ⟨f, er⟩
      · cases h
      · simp only at h
        cases her : erasureDecoder ord fuel M f er (litVertices d.code.n syn) with
        | none => rw [her] at h; cases h
        | some r =>
          rw [her] at h
          cases r with
          | error e => cases h
          | ok p =>
            simp only [Option.map_some, bind, Except.bind] at h
            cases hm : mkResult d.code.n p.2 with
            | error e => rw [hm] at h; cases h
            | ok r => rw [hm] at h; cases h; exact ⟨rfl, rfl⟩
  · rw [if_neg hs] at h
    cases hm : mkResult d.code.n [] with
    | error e => rw [hm] at h; cases h
    | ok r => rw [hm] at h; cases h; exact ⟨rfl, rfl⟩

theorem decode_code (d d' : Decoder) (ord : List ℕ → List ℕ) (rnd₁ rnd₂ : ℕ → ℕ) (fuel : ℕ) (syn : List Bool)
    (h : d.decode ord rnd₁ rnd₂ fuel syn = some (.ok d')) : d'.code = d.code := by
  unfold Decoder.decode at h
  by_cases hl : d.code.hZ.length < syn.length
  · rw [if_pos hl] at h
    cases hx : d.doDecoding ord rnd₁ fuel (syn.take (syn.length / 2)) d.code.hZ with
    | none => rw [hx] at h; cases h
    | some r =>
      rw [hx] at h
      cases r with
      | error e => cases h
      | ok d₁ =>
        simp only at h
        cases hz : d₁.reset.doDecoding ord rnd₂ fuel (syn.drop (syn.length / 2)) d.code.hZ with
        | none => rw [hz] at h; cases h
        | some r =>
          rw [hz] at h
          cases r with
          | error e => cases h
          | ok d₂ =>
            cases h
            show d₂.code = _
            rw [(doDecoding_code _ _ _ _ _ _ _ hz).1]
            exact (doDecoding_code _ _ _ _ _ _ _ hx).1
  · rw [if_neg hl] at h
    exact (doDecoding_code _ _ _ _ _ _ _ h).1

/-- **C91** with a reset after every decoding: a decoder that was used for any sequence of decodings and then reset behaves like
a new one.  Missing: reuse without reset, where it is false. -/
theorem C91_reset_partial (c : Code) (d : Decoder) (hist : List (List Bool))
    (ord : List ℕ → List ℕ) (rnd₁ rnd₂ : ℕ → ℕ) (fuel : ℕ)
    (h : hist.foldlM (fun d syn => (d.decode ord rnd₁ rnd₂ fuel syn).bind fun r => r.toOption) (Decoder.new c) = some d) :
    d.reset = Decoder.new c := by
  have key : ∀ (hist : List (List Bool)) (d₀ d : Decoder),
      hist.foldlM (fun d syn => (d.decode ord rnd₁ rnd₂ fuel syn).bind fun r => r.toOption) d₀ = some d → d.code = d₀.code := by
    intro hist
    induction hist with
    | nil => intro d₀ d h; cases h; rfl
    | cons s hist ih =>
      intro d₀ d h
      rw [List.foldlM_cons] at h
      cases hd : d₀.decode ord rnd₁ rnd₂ fuel s with
      | none => rw [hd] at h; cases h
      | some r =>
        rw [hd] at h
        cases r with
        | error e => cases h
        | ok d₁ => exact (ih d₁ d h).trans (decode_code _ _ _ _ _ _ _ hd)
  have := key hist _ _ h
  unfold Decoder.reset Decoder.new
  rw [this]
  rfl

example : ∃ d, [[true], [true]].foldlM (fun d syn => (d.decode id id id 10 syn).bind fun r => r.toOption)
    (Decoder.new (mkCode none [[true]])) = some d := ⟨_, rfl⟩

/-! ## C92: the estimate -/

/-- Specification of C92: the estimate has the given syndrome. -/
def C92_claim : Prop :=
  ∀ (c : Code), Good c → ∀ (ord : List ℕ → List ℕ), (∀ l, (ord l).Perm l) → ∀ (e s : List Bool), e.length = c.n →
    IsSyndrome c.hZ e s → ∀ rnd₁ rnd₂ fuel d', (Decoder.new c).decode ord rnd₁ rnd₂ fuel s = some (.ok d') →
    IsSyndrome c.hZ d'.result.estimBool s

theorem triangle_decode (ord : List ℕ → List ℕ) :
    ∃ d', (Decoder.new (mkCode none [[true, true], [true, false]])).decode ord id id 20 [false, true] = some (.ok d') ∧
      d'.result = ⟨[0], [true, false]⟩ := ⟨_, rfl, rfl⟩

/-- **C92** fails, for every order of traversal, on two qubits with independent checks. -/
theorem C92_violated : ¬ C92_claim := by
  intro h
  obtain ⟨d', e, hr⟩ := triangle_decode id
  have := h _ ⟨⟨by decide, by decide, by decide⟩, rfl⟩ id (fun l => .refl l) [true, true] [false, true] rfl
    ⟨rfl, by decide⟩ id id 20 d' e
  rw [hr] at this
  exact absurd (this.2 0 (by decide)) (by decide)

/-- **C92**: a syndrome that is zero gives the zero estimate. -/
theorem C92_zero (d : Decoder) (ord : List ℕ → List ℕ) (rnd₁ rnd₂ : ℕ → ℕ) (fuel : ℕ) (syn : List Bool) (hs : true ∉ syn)
    (hl : syn.length ≤ d.code.hZ.length) :
    d.decode ord rnd₁ rnd₂ fuel syn = some (.ok { d with result := ⟨[], List.replicate d.code.n false⟩ }) := by
  have hany : syn.any id = false := by
    rw [List.any_eq_false]
    intro x hx hxt
    simp only [id] at hxt
    subst hxt
    exact hs hx
  have hm : mkResult d.code.n [] = .ok ⟨[], List.replicate d.code.n false⟩ := by
    have : (List.range d.code.n).map ([] : List ℕ).contains = List.replicate d.code.n false := by
      rw [List.eq_replicate_iff]; simp
    unfold mkResult
    rw [this]
    rfl
  unfold Decoder.decode Decoder.doDecoding
  rw [if_neg (by omega), if_neg (by simp [hany]), hm]
  rfl

/-- **C92**: the growth variant for random qubits is not supported: every syndrome that is not zero is rejected with an
exception. -/
theorem C92_unsupported (d : Decoder) (hc : Good d.code) (hg : d.growth = .singleQubitRandom) (ord : List ℕ → List ℕ)
    (rnd₁ rnd₂ : ℕ → ℕ) (fuel : ℕ) (syn : List Bool) (hs : true ∈ syn) (hl : syn.length ≤ d.code.hZ.length) :
    d.decode ord rnd₁ rnd₂ (fuel + 1) syn = some (.error .invalidArgument) := by
  have hany : syn.any id = true := by
    rw [List.any_eq_true]
    exact ⟨true, hs, rfl⟩
  obtain ⟨h1, h2, _⟩ := lit_spec hc hl
  have hlen : (litVertices d.code.n syn).length < d.code.hZ.length + cols d.code.hZ := by
    have h0 : 0 < d.code.n := by have := hc.rect.2.1; have := hc.n; omega
    have : (litVertices d.code.n syn).length < (List.range (total d.code)).length :=
      h1.length_lt (fun x hx => List.mem_range.2 (h2 x hx)) ⟨0, List.mem_range.2 (by have := hc.n; unfold total; omega),
        fun h => by have := (lit_checks hc hl 0 h).1; omega⟩
    rw [List.length_range, total] at this
    omega
  unfold Decoder.decode Decoder.doDecoding
  rw [if_neg (by omega), if_pos hany]
  simp only [mainLoop, if_pos (show _ ∧ _ from ⟨lit_ne_nil hs, hlen⟩), iteration, growing, hg]

/-- Specification: the list of indices has no duplicates and consists of the positions set in the vector of length `n`. -/
def Agrees (n : ℕ) (r : Result) : Prop :=
  r.estimBool.length = n ∧ r.estimNodeIdx.Nodup ∧ ∀ j, j ∈ r.estimNodeIdx ↔ r.estimBool.getD j false = true

theorem mkResult_agrees {n : ℕ} {l : List ℕ} {r : Result} (hl : l.Nodup) (h : mkResult n l = .ok r) : Agrees n r := by
  unfold mkResult at h
  by_cases hn : l.all (· < n) = true
  · rw [if_pos hn] at h
    cases h
    refine ⟨by simp, hl, fun j => ?_⟩
    by_cases hj : j < n
    · simp [List.getD_eq_getElem?_getD, hj]
    · simp only [List.getD_eq_getElem?_getD]
      rw [List.getElem?_eq_none (by simp; omega)]
      simp only [Option.getD_none, Bool.false_eq_true, iff_false]
      intro h
      rw [List.all_eq_true] at hn
      simpa [hj] using hn j h
  · rw [if_neg hn] at h
    cases h

/-- Deleted nodes stay deleted. -/
def Keeps (f g : Forest) : Prop := ∀ v, (f v).deleted = true → (g v).deleted = true

theorem Keeps.trans {f g h : Forest} (h1 : Keeps f g) (h2 : Keeps g h) : Keeps f h := fun v hv => h2 v (h1 v hv)

theorem keeps_delete (f : Forest) (v : ℕ) : Keeps f (setNode f v { f v with deleted := true }) := by
  intro w hw
  unfold setNode
  split
  · rfl
  · exact hw

theorem keeps_deleteMarked (f : Forest) (l : List ℕ) : Keeps f (l.foldl deleteMarked f) := by
  induction l generalizing f with
  | nil => exact fun _ h => h
  | cons a l ih =>
    refine Keeps.trans ?_ (ih _)
    unfold deleteMarked
    split
    · exact keeps_delete f a
    · exact fun _ h => h

theorem keeps_removeCheck {M : Gf2Mat} {st st' : Forest × List ℕ} {chk : ℕ} (h : removeCheck M st chk = .ok st') :
    Keeps st.1 st'.1 := by
  unfold removeCheck at h
  split at h
  · cases hn : computeNbrs M chk with
    | error e => rw [hn] at h; cases h
    | ok nb =>
      rw [hn] at h
      cases h
      exact (keeps_deleteMarked _ nb).trans (keeps_delete _ _)
  · cases h
    exact fun _ h => h

theorem keeps_removeChecks {M : Gf2Mat} (l : List ℕ) {st st' : Forest × List ℕ} (h : l.foldlM (removeCheck M) st = .ok st') :
    Keeps st.1 st'.1 := by
  induction l generalizing st with
  | nil => cases h; exact fun _ h => h
  | cons a l ih =>
    rw [List.foldlM_cons] at h
    cases ha : removeCheck M st a with
    | error e => rw [ha] at h; cases h
    | ok st1 =>
      rw [ha] at h
      exact (keeps_removeCheck ha).trans (ih h)

/-- The estimate has no duplicates, and its nodes are deleted. -/
def ChosenOk (st : Forest × List ℕ × List ℕ) : Prop := st.2.2.Nodup ∧ ∀ v ∈ st.2.2, (st.1 v).deleted = true

theorem chooseNode_ok {M : Gf2Mat} {v : ℕ} {st st' : Forest × List ℕ × List ℕ} (h : chooseNode M v st = .ok st')
    (hi : ChosenOk st) : ChosenOk st' := by
  unfold chooseNode at h
  by_cases hc : (!(st.1 v).isCheck && !(st.1 v).deleted) = true
  · rw [if_pos hc] at h
    have hv : (st.1 v).deleted = false := by
      rw [Bool.and_eq_true] at hc
      simpa using hc.2
    cases hn : computeNbrs M v with
    | error e => rw [hn] at h; cases h
    | ok nb =>
      rw [hn] at h
      simp only [bind, Except.bind] at h
      cases hr : nb.foldlM (removeCheck M) (st.1, st.2.1) with
      | error e => rw [hr] at h; cases h
      | ok r =>
        rw [hr] at h
        cases h
        refine ⟨?_, fun w hw => ?_⟩
        · show (st.2.2 ++ [v]).Nodup
          rw [List.nodup_append]
          refine ⟨hi.1, by simp, fun a ha b hb => ?_⟩
          rw [List.mem_singleton] at hb
          subst hb
          rintro rfl
          rw [hi.2 _ ha] at hv
          cases hv
        · rcases List.mem_append.1 hw with hw | hw
          · exact keeps_delete _ _ w (keeps_removeChecks nb hr w (hi.2 w hw))
          · rw [List.mem_singleton] at hw
            subst hw
            show ((setNode r.1 w _) w).deleted = true
            unfold setNode
            rw [if_pos rfl]
  · rw [if_neg hc] at h
    cases h
    exact hi

theorem chooseAll_ok {M : Gf2Mat} (l : List ℕ) {st st' : Forest × List ℕ × List ℕ} (h : chooseAll M l st = .ok st')
    (hi : ChosenOk st) : ChosenOk st' := by
  induction l generalizing st with
  | nil => cases h; exact hi
  | cons v l ih =>
    unfold chooseAll at h
    split at h
    · cases h; exact hi
    · cases hv : chooseNode M v st with
      | error e => rw [hv] at h; cases h
      | ok st1 =>
        rw [hv] at h
        exact ih h (chooseNode_ok hv hi)

theorem chooseComps_ok {M : Gf2Mat} (l : List (List ℕ)) {st st' : Forest × List ℕ × List ℕ}
    (h : l.foldlM (fun st comp => chooseAll M comp st) st = .ok st') (hi : ChosenOk st) : ChosenOk st' := by
  induction l generalizing st with
  | nil => cases h; exact hi
  | cons comp l ih =>
    rw [List.foldlM_cons] at h
    cases hv : chooseAll M comp st with
    | error e => rw [hv] at h; cases h
    | ok st1 =>
      rw [hv] at h
      exact ih h (chooseAll_ok comp hv hi)

/-- **C92**: whatever happened before, after a one-sided decoding the two forms of the estimate agree, and no qubit is listed
twice. -/
theorem C92_agrees_partial (d d' : Decoder) (ord : List ℕ → List ℕ) (rnd₁ rnd₂ : ℕ → ℕ) (fuel : ℕ) (syn : List Bool)
    (hl : syn.length ≤ d.code.hZ.length) (h : d.decode ord rnd₁ rnd₂ fuel syn = some (.ok d')) : Agrees d.code.n d'.result := by
  unfold Decoder.decode Decoder.doDecoding at h
  rw [if_neg (by omega)] at h
  by_cases hs : syn.any id = true
  · rw [if_pos hs] at h
    cases hml : mainLoop ord d.code d.code.hZ d.growth rnd₁ fuel 0 d.nodes (litVertices d.code.n syn) [] with
    | none => rw [hml] at h; cases h
    | some r =>
      rw [hml] at h
      rcases r with e | ⟨f, er⟩
      · cases h
      · simp only at h
        unfold erasureDecoder at h
        cases hin : interiors fuel (iter ord er) f with
        | none => rw [hin] at h; cases h
        | some q =>
          rw [hin, Option.map_some, Option.map_some] at h
          cases hch : q.2.foldlM (fun st comp => chooseAll d.code.hZ comp st) (q.1, litVertices d.code.n syn, []) with
          | error e => rw [hch] at h; cases h
          | ok st =>
            rw [hch] at h
            simp only [Except.map, bind, Except.bind] at h
            cases hm : mkResult d.code.n st.2.2 with
            | error e => rw [hm] at h; cases h
            | ok r =>
              rw [hm] at h
              cases h
              exact mkResult_agrees (chooseComps_ok _ hch ⟨List.nodup_nil, by simp⟩).1 hm
  · rw [if_neg hs] at h
    cases hm : mkResult d.code.n [] with
    | error e => rw [hm] at h; cases h
    | ok r =>
      rw [hm] at h
      cases h
      exact mkResult_agrees List.nodup_nil hm

end Verif.UFH
