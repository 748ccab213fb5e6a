import Verif.Model.DecSim
import Verif.Props.UFDecoder
import Mathlib.Tactic.Linarith
import Mathlib.Tactic.FieldSimp
import Mathlib.Algebra.Order.Archimedean.Basic
import Mathlib.Data.Rat.Floor

/-!
# C97, C98, C99: the C++ simulator

C97: what a word error rate counts.  C98: average runtimes.  C99: the JSON forms.
-/

namespace Verif.DecSim
open Verif Verif.Cpp Verif.UFD

/-! ## C97 -/

/-- Each run is judged by the row space of the matrix `stab`, for the estimate of the decoder on the syndrome with respect to
`chk`: what `run` should do for X errors, with the Z checks for `chk` and the X checks for `stab`. -/
def Judged (decode : List Bool → List Bool) (chk stab : Gf2Mat) (n : ℕ) (r : List Bool → Except Fail Bool) : Prop :=
  ∀ e, e.length = n → ∃ b s, IsSyndrome chk e s ∧ r e = .ok b ∧
    (b = true ↔ asVec n e + asVec n (decode s) ∈ rowSpan (asRows n stab))

/-- The code object is two-sided with matrices of matching sizes. -/
def TwoSided (c : Code) (hX : Gf2Mat) : Prop := c.hX = some hX ∧ Rect hX ∧ Rect c.hZ ∧ cols hX = c.n ∧ cols c.hZ = c.n

/-- **C97.** For a two-sided code and a decoder that returns estimates of the right length, a run counts as a success exactly
when error plus estimate is in the row space of the *Z* checks, where the decoder is asked for the syndrome of the error with
respect to the *X* checks: the simulation is the one of the other kind of errors. -/
theorem C97_run (c : Code) (hX : Gf2Mat) (hc : TwoSided c hX) (decode : List Bool → List Bool)
    (hd : ∀ s, (decode s).length = c.n) :
    Judged decode hX c.hZ c.n (run (fun _ s => .ok (decode s)) c) := by
  obtain ⟨h0, h1, h2, h3, h4⟩ := hc
  intro e he
  have hset : setCode c = mkCode (some c.hZ) hX := by unfold setCode; rw [h0]
  obtain ⟨s, hs1, hs2⟩ := C87_x_syndrome (mkCode (some c.hZ) hX) h1 rfl e (by show _ = cols hX; omega)
  obtain ⟨out, ho1, ho2, ho3⟩ := C50_residual e (decode s) (by rw [hd, he])
  obtain ⟨b, hb1, hb2⟩ := C49_is_x_stabilizer (mkCode (some c.hZ) hX) c.hZ rfl h2 out (by omega)
  refine ⟨b, s, hs2, ?_, ?_⟩
  · unfold run
    rw [hset, hs1]
    show (lift _ >>= fun syndrome => _) = _
    simp only [lift, bind, Except.bind]
    rw [ho1]
    simp only [lift]
    rw [hb1]
  · rw [hb2, h4]
    have : asVec c.n out = asVec c.n e + asVec c.n (decode s) := by
      funext j
      show bit _ = bit _ + bit _
      rw [ho3 j.val (by omega), add_comm]
    rw [this]

/-- The full claim of C97 for runs: X errors are decoded with the Z checks and judged by the X checks. -/
def C97_claim : Prop :=
  ∀ (c : Code) (hX : Gf2Mat), TwoSided c hX → ∀ decode : List Bool → List Bool, (∀ s, (decode s).length = c.n) →
    Judged decode c.hZ hX c.n (run (fun _ s => .ok (decode s)) c)

/-- The 3-qubit code against bit flips: two Z checks, and an X check matrix without entries. -/
def repCode : Code := mkCode (some [[false, false, false]]) [[true, true, false], [false, true, true]]

/-- **C97.** The claim is false: on the 3-qubit bit-flip code, with a decoder that corrects every single flip, a single flip is
counted as a failure. -/
theorem C97_violated_sides : ¬ C97_claim := by
  intro h
  have key := h repCode [[false, false, false]] ⟨rfl, ⟨by decide, by decide, by decide⟩, ⟨by decide, by decide, by decide⟩, rfl, rfl⟩
    (fun s => if s = [true, false] then [true, false, false] else [false, false, false]) (by
      intro s
      split <;> rfl) [true, false, false] rfl
  obtain ⟨b, s, hs, hr, hb⟩ := key
  have hrun : run (fun _ s => .ok (if s = [true, false] then [true, false, false] else [false, false, false])) repCode
      [true, false, false] = .ok false := by decide +kernel
  rw [hrun] at hr
  cases hr
  have hsyn : s = [true, false] := by
    obtain ⟨hl, he⟩ := hs
    match s, hl with
    | [a, b], _ =>
      have h0 := he 0 (by decide)
      have h1 := he 1 (by decide)
      have e0 : (∑ k ∈ Finset.range (cols repCode.hZ), bit (entry repCode.hZ 0 k) * bit ([true, false, false].getD k false)) = 1 := by
        decide +kernel
      have e1 : (∑ k ∈ Finset.range (cols repCode.hZ), bit (entry repCode.hZ 1 k) * bit ([true, false, false].getD k false)) = 0 := by
        decide +kernel
      rw [e0] at h0
      rw [e1] at h1
      revert h0 h1
      cases a <;> cases b <;> decide
  have : asVec repCode.n [true, false, false] + asVec repCode.n (if s = [true, false] then [true, false, false] else [false, false, false]) = 0 := by
    rw [hsyn]
    decide +kernel
  have hb' := hb.2 (by rw [this]; exact Submodule.zero_mem _)
  exact Bool.noConfusion hb'

/-- **C97.** For a code object with only one check matrix, such as the toric codes that come with the library, no run ever
finishes: judging the residual error raises. -/
theorem C97_violated_one_sided (c : Code) (hc : c.hX = none) (decode : Code → List Bool → Except Fail (List Bool)) (e : List Bool)
    (b : Bool) : run decode c e ≠ .ok b := by
  intro h
  have hset : setCode c = mkCode none c.hZ := by unfold setCode; rw [hc]
  unfold run at h
  rw [hset] at h
  cases hs : (mkCode none c.hZ).getXSyndrome e with
  | none => rw [hs] at h; cases h
  | some s =>
    rw [hs] at h
    change (lift s >>= _) = _ at h
    simp only [bind_eq_ok] at h
    obtain ⟨syn, -, est, -, res, -, hx⟩ := h
    cases hx

/-- **C97.** The failures counted are exactly the runs that were not successes. -/
theorem C97_failures (decode : Code → List Bool → Except Fail (List Bool)) (c : Code) (es : List (List Bool)) (f : ℕ) :
    failures decode c es = .ok f ↔ ∃ bs, List.Forall₂ (fun e b => run decode c e = .ok b) es bs ∧ f = bs.count false := by
  induction es generalizing f with
  | nil =>
    simp only [failures, Except.ok.injEq]
    constructor
    · rintro rfl; exact ⟨[], .nil, rfl⟩
    · rintro ⟨_, h, rfl⟩; cases h; rfl
  | cons e es ih =>
    cases hr : run decode c e with
    | error x =>
      simp only [failures, hr, reduceCtorEq, false_iff, not_exists, not_and]
      intro bs h
      cases h with
      | cons h _ => rw [hr] at h; cases h
    | ok b =>
      cases hf : failures decode c es with
      | error x =>
        simp only [failures, hr, hf, reduceCtorEq, false_iff, not_exists, not_and]
        intro bs h
        cases h with
        | cons h h2 =>
          rename_i y ys
          have := (ih (ys.count false)).2 ⟨ys, h2, rfl⟩
          rw [hf] at this
          cases this
      | ok k =>
        simp only [failures, hr, hf, Except.ok.injEq]
        obtain ⟨bs, h2, rfl⟩ := (ih k).1 hf
        constructor
        · rintro rfl
          refine ⟨b :: bs, .cons hr h2, ?_⟩
          cases b <;> simp
        · rintro ⟨_, h, rfl⟩
          cases h with
          | cons h h3 =>
            rename_i y ys
            rw [hr] at h
            cases h
            have := (ih (ys.count false)).2 ⟨ys, h3, rfl⟩
            rw [hf] at this
            have this := Except.ok.inj this
            cases b <;> simp [this]

theorem emplace_mem {α : Type} {m : List (String × α)} {k k' : String} {v v' : α} (h : ∀ u, (k, u) ∉ m) :
    (k', v') ∈ emplace m k v ↔ (k', v') ∈ m ∨ (k' = k ∧ v' = v) := by
  unfold emplace
  rw [if_neg]
  · simp
  · intro ha
    obtain ⟨e, he, hk⟩ := List.any_eq_true.1 ha
    simp only [decide_eq_true_eq] at hk
    exact h e.2 (by rw [← hk]; exact he)

/-- The `i`-th rate. -/
def rate (p : Params) (i : ℕ) : ℚ := p.minRate + i * p.step

/-- The numbers of steps below the maximum. -/
def below (p : Params) (i : ℕ) : Prop := rate p i < p.maxRate

theorem werLoop_spec (decode : Code → List Bool → Except Fail (List Bool)) (p : Params) (hstep : 0 < p.step)
    (hkey : ∀ i j, below p i → below p j → p.key (rate p i) = p.key (rate p j) → i = j)
    {out : List (String × Option ℚ)} :
    ∀ fuel i acc, (∀ k v, (k, v) ∈ acc ↔ ∃ j < i, below p j ∧ k = p.key (rate p j) ∧
        ∃ f, failures decode p.code (p.samples j) = .ok f ∧ v = wordErrorRate p.k p.runs f) →
      werLoop decode p fuel i (rate p i) acc = some (.ok out) →
      ∀ k v, (k, v) ∈ out ↔ ∃ j, below p j ∧ k = p.key (rate p j) ∧
        ∃ f, failures decode p.code (p.samples j) = .ok f ∧ v = wordErrorRate p.k p.runs f := by
  intro fuel
  induction fuel with
  | zero => intro i acc _ h; cases h
  | succ fuel ih =>
    intro i acc hacc h
    unfold werLoop at h
    have hnext : rate p i + p.step = rate p (i + 1) := by unfold rate; push_cast; ring
    split at h
    · rename_i hlt
      cases hf : failures decode p.code (p.samples i) with
      | error e => rw [hf] at h; cases h
      | ok f =>
        rw [hf] at h
        simp only at h
        rw [hnext] at h
        refine ih (i + 1) _ ?_ h
        intro k v
        rw [emplace_mem]
        · rw [hacc]
          constructor
          · rintro (⟨j, hj, hx⟩ | ⟨rfl, rfl⟩)
            · exact ⟨j, by omega, hx⟩
            · exact ⟨i, by omega, hlt, rfl, f, hf, rfl⟩
          · rintro ⟨j, hj, hb, rfl, f', hf', rfl⟩
            by_cases hji : j = i
            · right
              subst hji
              rw [hf] at hf'
              cases hf'
              exact ⟨rfl, rfl⟩
            · left
              exact ⟨j, by omega, hb, rfl, f', hf', rfl⟩
        · intro u hu
          obtain ⟨j, hj, hb, hk, -⟩ := (hacc _ _).1 hu
          have := hkey i j hlt hb hk
          omega
    · rename_i hge
      cases h
      intro k v
      rw [hacc]
      constructor
      · rintro ⟨j, -, hx⟩; exact ⟨j, hx⟩
      · rintro ⟨j, hb, hx⟩
        refine ⟨j, ?_, hb, hx⟩
        by_contra hji
        apply hge
        refine lt_of_le_of_lt ?_ hb
        unfold rate
        have : (i : ℚ) ≤ j := by exact_mod_cast (by omega : i ≤ j)
        nlinarith

/-- **C97.** With a positive step, and texts of the rates that do not coincide, the reported map has exactly one entry for
every rate `min + i * step` below the maximum: the fraction of failed runs of that rate, divided by the number of logical
qubits. -/
theorem C97_rates (decode : Code → List Bool → Except Fail (List Bool)) (p : Params) (hstep : 0 < p.step)
    (hkey : ∀ i j, below p i → below p j → p.key (rate p i) = p.key (rate p j) → i = j) (fuel : ℕ)
    {out : List (String × Option ℚ)} (h : simulateWER decode p fuel = some (.ok out)) (k : String) (v : Option ℚ) :
    (k, v) ∈ out ↔ ∃ i, below p i ∧ k = p.key (rate p i) ∧
      ∃ f, failures decode p.code (p.samples i) = .ok f ∧ v = wordErrorRate p.k p.runs f := by
  refine werLoop_spec decode p hstep hkey fuel 0 [] (by simp) ?_ k v
  unfold simulateWER at h
  have h0 : rate p 0 = p.minRate := by unfold rate; simp
  rw [h0]
  exact h

/-- The value of an entry: failures divided by runs and by logical qubits. -/
theorem C97_value (k runs f : ℕ) (hk : k ≠ 0) (hr : runs ≠ 0) : wordErrorRate k runs f = some ((f : ℚ) / runs / k) := by
  unfold wordErrorRate quotient
  simp [hk, hr]

/-- **C97.** For a code object whose number of logical qubits was not set (it is 0 in every constructor from matrices or files),
no reported rate is a number. -/
theorem C97_violated_default_k (decode : Code → List Bool → Except Fail (List Bool)) (p : Params) (hk : p.k = 0) (fuel : ℕ)
    {out : List (String × Option ℚ)} (h : simulateWER decode p fuel = some (.ok out)) : ∀ k v, (k, v) ∈ out → v = none := by
  have key : ∀ fuel i cur acc, (∀ k v, (k, v) ∈ acc → v = none) → werLoop decode p fuel i cur acc = some (.ok out) →
      ∀ k v, (k, v) ∈ out → v = none := by
    intro fuel
    induction fuel with
    | zero => intro i cur acc _ h; cases h
    | succ fuel ih =>
      intro i cur acc hacc h
      unfold werLoop at h
      split at h
      · cases hf : failures decode p.code (p.samples i) with
        | error e => rw [hf] at h; cases h
        | ok f =>
          rw [hf] at h
          refine ih _ _ _ ?_ h
          intro k v hkv
          unfold emplace at hkv
          split at hkv
          · exact hacc k v hkv
          · rcases List.mem_append.1 hkv with h1 | h1
            · exact hacc k v h1
            · simp only [List.mem_singleton, Prod.mk.injEq] at h1
              rw [h1.2, hk]
              unfold wordErrorRate quotient
              split <;> rfl
      · cases h
        exact hacc
  exact key fuel 0 p.minRate [] (by simp) h

/-- **C97.** The simulation ends: with a positive step, whenever all runs finish. -/
theorem C97_terminates (decode : Code → List Bool → Except Fail (List Bool)) (p : Params) (hstep : 0 < p.step)
    (hf : ∀ i, ∃ f, failures decode p.code (p.samples i) = .ok f) : ∃ fuel out, simulateWER decode p fuel = some (.ok out) := by
  obtain ⟨N, hN⟩ := exists_nat_gt ((p.maxRate - p.minRate) / p.step)
  have key : ∀ m i acc, i + m = N → ∃ out, werLoop decode p (m + 1) i (rate p i) acc = some (.ok out) := by
    intro m
    induction m with
    | zero =>
      intro i acc hi
      refine ⟨acc, ?_⟩
      unfold werLoop
      rw [if_neg]
      unfold rate
      rw [div_lt_iff₀ hstep] at hN
      have : (i : ℚ) = N := by exact_mod_cast (by omega : i = N)
      rw [this]
      linarith
    | succ m ih =>
      intro i acc hi
      unfold werLoop
      split
      · obtain ⟨f, hf⟩ := hf i
        rw [hf]
        have hnext : rate p i + p.step = rate p (i + 1) := by unfold rate; push_cast; ring
        simp only
        rw [hnext]
        exact ih (i + 1) _ (by omega)
      · exact ⟨acc, rfl⟩
  obtain ⟨out, h⟩ := key N 0 [] (by omega)
  refine ⟨N + 1, out, ?_⟩
  unfold simulateWER
  have h0 : rate p 0 = p.minRate := by unfold rate; simp
  rw [← h0]
  exact h

/-- **C97.** Without a positive step it never ends. -/
theorem C97_diverges (decode : Code → List Bool → Except Fail (List Bool)) (p : Params) (hstep : p.step ≤ 0)
    (hlt : p.minRate < p.maxRate) (hf : ∀ i, ∃ f, failures decode p.code (p.samples i) = .ok f) (fuel : ℕ) :
    simulateWER decode p fuel = none := by
  have key : ∀ fuel i cur acc, cur < p.maxRate → werLoop decode p fuel i cur acc = none := by
    intro fuel
    induction fuel with
    | zero => intro i cur acc _; rfl
    | succ fuel ih =>
      intro i cur acc hc
      unfold werLoop
      rw [if_pos hc]
      obtain ⟨f, hf⟩ := hf i
      rw [hf]
      exact ih _ _ _ (by linarith)
  exact key fuel 0 p.minRate [] hlt

/-- Two rates on the 3-qubit code with one run each, an uncorrectable and a correctable one. -/
example : simulateWER (fun _ _ => .ok [false, false, false])
    { code := repCode, k := 1, minRate := 0, maxRate := 1, step := 1 / 2, runs := 1,
      samples := fun i => if i = 0 then [[true, true, false]] else [[true, false, false]], key := fun q => if q = 0 then "0" else "1" } 3 =
    some (.ok [("0", some 0), ("1", some 1)]) := by decide +kernel

/-- The characters `[` minus the characters `]` of a text. -/
def brackets (l : List Char) : ℤ := (l.count '[' : ℤ) - l.count ']'

theorem brackets_append (a b : List Char) : brackets (a ++ b) = brackets a + brackets b := by
  unfold brackets
  rw [List.count_append, List.count_append]
  push_cast
  ring

theorem brackets_intercalate : ∀ l : List (List Char), (∀ d ∈ l, brackets d = 0) → brackets ([',', ' '].intercalate l) = 0
  | [], _ => by decide
  | [a], h => by simpa [List.intercalate] using h a (by simp)
  | a :: b :: l, h => by
    have ih := brackets_intercalate (b :: l) fun d hd => h d (List.mem_cons_of_mem _ hd)
    have ha := h a (by simp)
    have e : [',', ' '].intercalate (a :: b :: l) = a ++ ([',', ' '] ++ [',', ' '].intercalate (b :: l)) := by
      simp [List.intercalate, List.intersperse]
    rw [e, brackets_append, brackets_append, ha, ih]
    decide

/-- **C97.** The statistics file is never well-formed: if the texts of the rate and of the runs have as many opening as closing
brackets, the file has two more opening ones, whatever the number of rates and runs. -/
theorem C97_violated_stats_file (rate : List Char) (dumps : List (List (List Char))) (hr : brackets rate = 0)
    (hd : ∀ l ∈ dumps, ∀ d ∈ l, brackets d = 0) : brackets (statsText rate dumps) = 2 := by
  have hflat : brackets ((dumps.map fun l => [',', ' '].intercalate l).flatten) = 0 := by
    induction dumps with
    | nil => decide
    | cons l ls ih =>
      rw [List.map_cons, List.flatten_cons, brackets_append, brackets_intercalate l (hd l (by simp)),
        ih fun l' hl' => hd l' (List.mem_cons_of_mem _ hl')]
      rfl
  unfold statsText
  simp only [brackets_append, hr, hflat]
  decide +kernel

example : brackets "0.05".toList = 0 ∧ brackets "{\"estimate\": \"[1,0]\"}".toList = 0 := by decide +kernel

/-! ## C98 -/

/-- The claim: the average reported for a run is the average decoding time of the samples of that run. -/
def C98_claim : Prop :=
  ∀ (nrSamples : ℕ) (times : List (List ℕ)), nrSamples ≠ 0 → (∀ t ∈ times, t.length = nrSamples) →
    averages nrSamples 0 times = some (times.map fun t => t.sum / nrSamples)

/-- **C98.** Reported is the time of all samples of all runs so far, divided by the samples of one run. -/
theorem C98_exact (nrSamples : ℕ) (times : List (List ℕ)) (h : nrSamples ≠ 0) :
    ∃ l, averages nrSamples 0 times = some l ∧ l.length = times.length ∧
      ∀ j (hj : j < l.length), l[j] = ((times.take (j + 1)).map List.sum).sum / nrSamples := by
  have key : ∀ acc, ∃ l, averages nrSamples acc times = some l ∧ l.length = times.length ∧
      ∀ j (hj : j < l.length), l[j] = (acc + ((times.take (j + 1)).map List.sum).sum) / nrSamples := by
    induction times with
    | nil => intro acc; exact ⟨[], rfl, rfl, fun j hj => by simp at hj⟩
    | cons t ts ih =>
      intro acc
      obtain ⟨l, h1, h2, h3⟩ := ih (acc + t.sum)
      refine ⟨((acc + t.sum) / nrSamples) :: l, ?_, by simp [h2], ?_⟩
      · unfold averages
        rw [if_neg h, h1]
        rfl
      · intro j hj
        cases j with
        | zero => simp
        | succ j =>
          simp only [List.getElem_cons_succ, List.take_succ_cons, List.map_cons, List.sum_cons]
          rw [h3 j (by simpa using hj), ← Nat.add_assoc]
  obtain ⟨l, h1, h2, h3⟩ := key 0
  exact ⟨l, h1, h2, fun j hj => by rw [h3 j hj, Nat.zero_add]⟩

/-- **C98.** The first run is reported correctly. -/
theorem C98_first_run_partial (nrSamples : ℕ) (t : List ℕ) (ts : List (List ℕ)) (h : nrSamples ≠ 0) :
    ∃ l, averages nrSamples 0 (t :: ts) = some ((t.sum / nrSamples) :: l) := by
  obtain ⟨l, h1, h2, h3⟩ := C98_exact nrSamples (t :: ts) h
  cases l with
  | nil => simp at h2
  | cons a l =>
    have := h3 0 (by simp)
    simp at this
    exact ⟨l, by rw [h1, this]⟩

/-- **C98.** Later runs are not: two runs with one sample of 5 ms each are reported as 5 and 10. -/
theorem C98_violated : ¬ C98_claim := by
  intro h
  have := h 1 [[5], [5]] (by decide) (by decide)
  have e : averages 1 0 [[5], [5]] = some [5, 10] := by decide
  rw [e] at this
  exact absurd this (by decide)

/-! ## C99 -/

/-- The claim: what `to_json` writes, `from_json` reads back. -/
def C99_claim : Prop :=
  (∀ r : DecodingResult, DecodingResult.fromJson r.toJson = .ok ((r.decodingTime : ℚ), r.estimBool, r.estimNodeIdx.map fun i => (i : ℚ))) ∧
  ∀ r : RunInfo, RunInfo.fromJson r.toJson = .ok (r.physicalErrR, (r.codeSize : ℚ), r.error, r.syndrome)

/-- **C99.** Reading a decoding result or the information about a run that was written by the library always fails: bit vectors
are written as text and read as lists. -/
theorem C99_violated_always (r : DecodingResult) (i : RunInfo) :
    DecodingResult.fromJson r.toJson = .error .typeError ∧ RunInfo.fromJson i.toJson = .error .typeError := by
  constructor <;> rfl

/-- **C99.** So the claim is false. -/
theorem C99_violated : ¬ C99_claim := by
  intro h
  have := h.1 ⟨0, [], []⟩
  rw [(C99_violated_always ⟨0, [], []⟩ ⟨0, 0, [], [], true, ⟨0, [], []⟩⟩).1] at this
  cases this

/-- **C99.** The sizes of a code are read back (the matrices are not read). -/
theorem C99_sizes_partial (c : Sizes) (hZ hX : Json) : Sizes.fromJson (c.toJson hZ hX) = .ok ((c.n : ℚ), (c.k : ℚ), (c.d : ℚ)) := rfl

theorem getList_map {α : Type} (f : Json → Except JsonErr α) (g : α → Json) (hfg : ∀ x, f (g x) = .ok x) (l : List α) :
    Json.getList f (.arr (l.map g)) = .ok l := by
  simp only [Json.getList]
  induction l with
  | nil => rfl
  | cons x l ih => rw [List.map_cons, List.mapM_cons, hfg, ih]; rfl

/-- **C99.** Only the form of the bit vectors is at fault: documents with the same keys in which vectors are lists are read as the
values they contain, each from its own key. -/
theorem C99_lists_partial (t p c : ℚ) (e err syn : List Bool) (ns : List ℚ) (result status : Json) :
    DecodingResult.fromJson (.obj [("decodingTime(ms)", .num t), ("estimate", .arr (e.map .bool)), ("estimatedNodes", .arr (ns.map .num))]) =
      .ok (t, e, ns) ∧
    RunInfo.fromJson (.obj [("physicalErrRate", .num p), ("codeSize", .num c), ("error", .arr (err.map .bool)),
      ("syndrome", .arr (syn.map .bool)), ("decodingResult", result), ("decodingStatus", status)]) = .ok (p, c, err, syn) := by
  have hb := fun l : List Bool => getList_map Json.getBool .bool (fun _ => rfl) l
  have hn := fun l : List ℚ => getList_map Json.getNum .num (fun _ => rfl) l
  constructor
  · simp only [DecodingResult.fromJson, Json.at, bind, Except.bind, pure, Except.pure]
    simp [hb, hn, Json.getNum]
  · simp only [RunInfo.fromJson, Json.at, bind, Except.bind, pure, Except.pure]
    simp [hb, Json.getNum]

/-- **C99.** What is written about a run: its rate, the size of the code, the vectors in brackets, and "success" or "failure" as the run
ended. -/
theorem C99_written_partial (r : RunInfo) :
    r.toJson.at "physicalErrRate" = .ok (.num r.physicalErrR) ∧ r.toJson.at "codeSize" = .ok (.num r.codeSize) ∧
    r.toJson.at "error" = .ok (.str (vecString r.error)) ∧ r.toJson.at "syndrome" = .ok (.str (vecString r.syndrome)) ∧
    r.toJson.at "decodingStatus" = .ok (.str (bif r.success then "success" else "failure")) ∧
    ∃ j, r.toJson.at "decodingResult" = .ok j ∧ j.at "decodingTime(ms)" = .ok (.num r.result.decodingTime) ∧
      j.at "estimate" = .ok (.str (vecString r.result.estimBool)) := by
  refine ⟨rfl, rfl, rfl, rfl, ?_, _, rfl, rfl, rfl⟩
  cases h : r.success <;> simp [RunInfo.toJson, Json.at, h]

/-- A failed run on seven qubits. -/
example : (RunInfo.toJson ⟨1 / 10, 7, [true], [false], false, ⟨3, [0], [true]⟩⟩).at "decodingStatus" = .ok (.str "failure") :=
  (C99_written_partial _).2.2.2.2.1

theorem join_at (l : List Char) (i : ℕ) :
    ([','].intercalate (l.map fun c => [c]))[2 * i]? = l[i]? ∧
      ([','].intercalate (l.map fun c => [c]))[2 * i + 1]? = if i + 1 < l.length then some ',' else none := by
  induction l generalizing i with
  | nil => simp
  | cons c l ih =>
    cases l with
    | nil => cases i <;> simp
    | cons d l =>
      have e : [','].intercalate ((c :: d :: l).map fun c => [c]) = c :: ',' :: [','].intercalate ((d :: l).map fun c => [c]) := by
        simp [List.intercalate]
      rw [e]
      cases i with
      | zero => simp
      | succ i =>
        have := ih i
        rw [show 2 * (i + 1) = 2 * i + 1 + 1 by ring, List.getElem?_cons_succ, List.getElem?_cons_succ, List.getElem?_cons_succ,
          List.getElem?_cons_succ, List.getElem?_cons_succ]
        refine ⟨this.1, ?_⟩
        rw [this.2]
        simp

theorem vecString_toList (v : List Bool) :
    (vecString v).toList = '[' :: ([','].intercalate ((v.map fun b => if b then '1' else '0').map fun c => [c]) ++ [']']) := by
  unfold vecString
  have e : (v.map fun b => if b then "1" else "0").map String.toList = (v.map fun b => if b then '1' else '0').map fun c => [c] := by
    rw [List.map_map, List.map_map]
    refine List.map_congr_left fun b _ => ?_
    cases b <;> rfl
  simp only [String.toList_append, String.toList_intercalate, e]
  rfl

/-- **C99.** What is written for a bit vector: an opening bracket, the bits as digits 0 and 1 with commas between them, and a
closing bracket.  So the written text determines the vector. -/
theorem C99_text_partial (v : List Bool) :
    (vecString v).toList[0]? = some '[' ∧ (vecString v).toList.getLast? = some ']' ∧
    (∀ i b, v[i]? = some b → (vecString v).toList[2 * i + 1]? = some (if b then '1' else '0')) ∧
    (∀ i, i + 1 < v.length → (vecString v).toList[2 * i + 2]? = some ',') ∧
    ∀ w, vecString v = vecString w → v = w := by
  have hv : ∀ v : List Bool, ∀ i, ([','].intercalate ((v.map fun b => if b then '1' else '0').map fun c => [c]))[2 * i]? =
      (v[i]?).map fun b => if b then '1' else '0' := by
    intro v i
    rw [(join_at _ i).1, List.getElem?_map]
  have hchar : ∀ (v : List Bool) i b, v[i]? = some b → (vecString v).toList[2 * i + 1]? = some (if b then '1' else '0') := by
    intro v i b hb
    rw [vecString_toList, List.getElem?_cons_succ, List.getElem?_append_left]
    · rw [hv, hb]; rfl
    · by_contra hc
      have := hv v i
      rw [List.getElem?_eq_none (by omega), hb] at this
      cases this
  refine ⟨by rw [vecString_toList]; rfl, ?_, hchar v, ?_, ?_⟩
  · rw [vecString_toList, ← List.cons_append, List.getLast?_append]; rfl
  · intro i hi
    have := (join_at (v.map fun b => if b then '1' else '0') i).2
    rw [if_pos (by simpa using hi)] at this
    rw [vecString_toList, List.getElem?_cons_succ, List.getElem?_append_left]
    · exact this
    · by_contra hc
      rw [List.getElem?_eq_none (by omega)] at this
      cases this
  · intro w e
    have hend : ∀ (v : List Bool) i, v[i]? = none → ∀ b : Bool, (vecString v).toList[2 * i + 1]? ≠ some (if b then '1' else '0') := by
      intro v i hi b hb
      rw [vecString_toList, List.getElem?_cons_succ] at hb
      have h1 := hv v i
      rw [hi] at h1
      rw [List.getElem?_append_right (by simpa using h1)] at hb
      have := List.mem_of_getElem? hb
      cases b <;> simp at this
    refine List.ext_getElem? fun i => ?_
    cases h1 : v[i]? with
    | some b =>
      cases h2 : w[i]? with
      | some c =>
        have h3 := hchar v i b h1
        rw [e, hchar w i c h2] at h3
        cases b <;> cases c <;> simp_all
      | none => exact absurd (e ▸ hchar v i b h1) (hend w i h2 b)
    | none =>
      cases h2 : w[i]? with
      | some c => exact absurd (e.symm ▸ hchar w i c h2) (hend v i h1 c)
      | none => rfl

example : vecString [true, false, true] = "[1,0,1]" := by decide

/-- A concrete run. -/
example : (⟨1 / 10, 3, [true, false, false], [true, false], true, ⟨5, [0], [true, false, false]⟩⟩ : RunInfo).toJson.at "codeSize" = .ok (.num (3 : ℕ)) := rfl

end Verif.DecSim
