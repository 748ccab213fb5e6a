import Verif.Model.CcFiles
import Mathlib.Tactic.Linarith
import Mathlib.Tactic.NormNum
import Mathlib.Tactic.FieldSimp
import Mathlib.Data.Rat.Encodable

/-!
# C122: result files of the color code decoders
-/

namespace Verif.CcFiles
open Verif Verif.Names

variable {D : Type}

/-- A call of the command line together with the outcomes of its simulations. -/
abbrev Call (D : Type) := Args × (Job → Except CErr D) × (ℕ → ℚ → ℕ → Except CErr D)

/-- What a call computes: the simulation it asks for, `valueError` for an unknown decoder or lattice. -/
def Call.result (c : Call D) : Except CErr D :=
  if c.1.decoder = "maxsat" then
    if c.1.type = "hexagon" then c.2.1 ⟨.hexagon, c.1.distance, c.1.rate, c.1.sims, c.1.solver⟩
    else if c.1.type = "square_octagon" then c.2.1 ⟨.squareOctagon, c.1.distance, c.1.rate, c.1.sims, c.1.solver⟩
    else .error .valueError
  else if c.1.decoder = "tn" then c.2.2 c.1.distance c.1.rate c.1.sims
  else .error .valueError

/-- The lattice an argument names. -/
def Args.lattice (a : Args) : Lattice := if a.type = "hexagon" then .hexagon else .squareOctagon

/-- The file name of a call. -/
def Args.name (f : Fmt) (a : Args) : Text :=
  if a.decoder = "maxsat" then maxsatName f a.lattice a.distance a.rate a.solver else tnName f a.distance a.rate

/-- Two calls have the same parameters, apart from the number of samples. -/
def SameParameters (a b : Args) : Prop :=
  a.dir = b.dir ∧ a.decoder = b.decoder ∧ a.type = b.type ∧ a.distance = b.distance ∧ a.rate = b.rate ∧
    (a.decoder = "maxsat" → a.solver = b.solver)

/-- Two calls have the same parameters as far as a file name shows them. -/
def SameShown (a b : Args) : Prop :=
  a.dir = b.dir ∧ a.decoder = b.decoder ∧ a.distance = b.distance ∧ round4 a.rate = round4 b.rate ∧
    (a.decoder = "maxsat" → a.type = b.type ∧ baseName a.solver = baseName b.solver)

/-- **C122, the full claim**: the results of a successful call stay in its file, unless a later successful call has the same parameters. -/
def C122_claim (D : Type) : Prop :=
  ∀ (f : Fmt) (fs : Fs D) (pre post : List (Call D)) (c : Call D) (v : D), c.result = .ok v →
    (∀ c' ∈ post, (∃ v', c'.result = .ok v') → ¬ SameParameters c.1 c'.1) →
    calls f fs (pre ++ c :: post) c.1.dir (c.1.name f) = some v

/-! ## Lemmas -/

theorem split_comma {a b x y : Text} (ha : ',' ∉ a) (hb : ',' ∉ b) (h : a ++ ',' :: x = b ++ ',' :: y) : a = b ∧ x = y := by
  induction a generalizing b with
  | nil =>
    cases b with
    | nil => simpa using h
    | cons c b =>
      simp only [List.nil_append, List.cons_append, List.cons.injEq] at h
      exact absurd (h.1 ▸ List.mem_cons_self) hb
  | cons c a ih =>
    cases b with
    | nil =>
      simp only [List.nil_append, List.cons_append, List.cons.injEq] at h
      exact absurd (h.1 ▸ List.mem_cons_self) ha
    | cons d b =>
      simp only [List.cons_append, List.cons.injEq] at h
      obtain ⟨h1, h2⟩ := ih (fun h => ha (List.mem_cons_of_mem _ h)) (fun h => hb (List.mem_cons_of_mem _ h)) h.2
      exact ⟨by rw [h.1, h1], h2⟩

theorem digits_comma (n : ℕ) : ',' ∉ Nat.toDigits 10 n := fun h => by
  have := Nat.isDigit_of_mem_toDigits (by decide) (by decide) h
  exact absurd this (by decide)

theorem digits_inj {m n : ℕ} (h : Nat.toDigits 10 m = Nat.toDigits 10 n) : m = n := by
  have := congrArg (fun l => Nat.ofDigitChars 10 l 0) h
  simpa [Nat.ofDigitChars_ten_toDigits] using this

theorem maxsatName_inj (f : Fmt) (l l' : Lattice) (d d' : ℕ) (p p' : ℚ) (s s' : Text) :
    maxsatName f l d p s = maxsatName f l' d' p' s' ↔ l = l' ∧ d = d' ∧ round4 p = round4 p' ∧ baseName s = baseName s' := by
  constructor
  · intro h
    unfold maxsatName at h
    replace h := List.append_cancel_left h
    obtain ⟨h1, h⟩ := split_comma (f.lattice_comma l) (f.lattice_comma l') (by simpa using h)
    replace h : "distance=".toList ++ (Nat.toDigits 10 d ++ ',' :: ("p=".toList ++ (f.float (round4 p) ++
        ',' :: ("solver=".toList ++ (baseName s ++ ".json".toList))))) =
      "distance=".toList ++ (Nat.toDigits 10 d' ++ ',' :: ("p=".toList ++ (f.float (round4 p') ++
        ',' :: ("solver=".toList ++ (baseName s' ++ ".json".toList))))) := by simpa using h
    replace h := List.append_cancel_left h
    obtain ⟨h2, h⟩ := split_comma (digits_comma d) (digits_comma d') h
    replace h := List.append_cancel_left h
    obtain ⟨h3, h⟩ := split_comma (f.float_comma _) (f.float_comma _) h
    replace h := List.append_cancel_right (List.append_cancel_left h)
    exact ⟨f.lattice_inj h1, digits_inj h2, f.float_inj h3, h⟩
  · rintro ⟨rfl, rfl, h3, h4⟩
    simp only [maxsatName, h3, h4]

theorem tn_text_eq (f : Fmt) {d d' : ℕ} {x y : ℚ} (h1 : d = d') (h2 : x = y) :
    "distance=".toList ++ (Nat.toDigits 10 d ++ (",p=".toList ++ (f.float x ++ ".json".toList))) =
      "distance=".toList ++ (Nat.toDigits 10 d' ++ (",p=".toList ++ (f.float y ++ ".json".toList))) := by
  rw [h1, h2]

theorem tnName_of_eq (f : Fmt) {d d' : ℕ} {p p' : ℚ} (h1 : d = d') (h2 : round4 p = round4 p') : tnName f d p = tnName f d' p' :=
  tn_text_eq f h1 h2

theorem head_ne (x y : Text) : "code=".toList ++ x ≠ "distance=".toList ++ y := fun h => by
  have := congrArg List.head? h
  simp at this

theorem names_ne (f : Fmt) (l : Lattice) (d d' : ℕ) (p p' : ℚ) (s : Text) : maxsatName f l d p s ≠ tnName f d' p' :=
  head_ne _ _

theorem tnName_inj (f : Fmt) (d d' : ℕ) (p p' : ℚ) : tnName f d p = tnName f d' p' ↔ d = d' ∧ round4 p = round4 p' := by
  constructor
  · intro h
    unfold tnName at h
    replace h := List.append_cancel_left h
    obtain ⟨h2, h⟩ := split_comma (x := "p=".toList ++ (f.float (round4 p) ++ ".json".toList))
      (y := "p=".toList ++ (f.float (round4 p') ++ ".json".toList)) (digits_comma d) (digits_comma d') h
    replace h := List.append_cancel_right (List.append_cancel_left h)
    exact ⟨digits_inj h2, f.float_inj h⟩
  · exact fun h => tnName_of_eq f h.1 h.2

theorem cli_eq (f : Fmt) (fs : Fs D) (c : Call D) : cli f c.2.1 c.2.2 fs c.1 =
    match c.result with
    | .error e => (.error e, fs)
    | .ok v => (.ok (), write fs c.1.dir (c.1.name f) v) := by
  obtain ⟨a, sim, tn⟩ := c
  simp only [cli, Call.result, Args.name, maxsatRun, tnRun, codeFromString, Args.lattice]
  by_cases h1 : a.decoder = "maxsat"
  · rw [if_pos h1, if_pos h1, if_pos h1]
    by_cases h2 : a.type = "hexagon"
    · simp only [if_pos h2]
      cases sim ⟨.hexagon, a.distance, a.rate, a.sims, a.solver⟩ <;> rfl
    · simp only [if_neg h2]
      by_cases h3 : a.type = "square_octagon"
      · simp only [if_pos h3]
        cases sim ⟨.squareOctagon, a.distance, a.rate, a.sims, a.solver⟩ <;> rfl
      · simp only [if_neg h3]
  · rw [if_neg h1, if_neg h1, if_neg h1]
    by_cases h2 : a.decoder = "tn"
    · simp only [if_pos h2]
      cases tn a.distance a.rate a.sims <;> rfl
    · simp only [if_neg h2]

theorem ok_names {c : Call D} {v : D} (h : c.result = .ok v) :
    (c.1.decoder = "maxsat" ∧ (c.1.type = "hexagon" ∨ c.1.type = "square_octagon")) ∨ c.1.decoder = "tn" := by
  unfold Call.result at h
  split_ifs at h with h1 h2 h3 h4
  · exact .inl ⟨h1, .inl h2⟩
  · exact .inl ⟨h1, .inr h3⟩
  · exact .inr h4

theorem lattice_inj {a b : Args} (ha : a.type = "hexagon" ∨ a.type = "square_octagon") (hb : b.type = "hexagon" ∨ b.type = "square_octagon") :
    a.lattice = b.lattice ↔ a.type = b.type := by
  unfold Args.lattice
  rcases ha with ha | ha <;> rcases hb with hb | hb <;> rw [ha, hb] <;> decide

/-- **C122.** Two successful calls write the same file exactly if they agree in everything that the name shows: the directory, the decoder, the
distance, the rate rounded to four digits and, for the MaxSAT decoder, the lattice and the last component of the path of the solver. -/
theorem C122_same_file (f : Fmt) (c c' : Call D) (v v' : D) (h : c.result = .ok v) (h' : c'.result = .ok v') :
    (c.1.dir = c'.1.dir ∧ c.1.name f = c'.1.name f) ↔ SameShown c.1 c'.1 := by
  unfold SameShown Args.name
  rcases ok_names h with ⟨h1, h2⟩ | h1 <;> rcases ok_names h' with ⟨h3, h4⟩ | h3
  · rw [if_pos h1, if_pos h3, maxsatName_inj, lattice_inj h2 h4, h1, h3]
    tauto
  · have hn : ¬ c'.1.decoder = "maxsat" := by rw [h3]; decide
    rw [if_pos h1, if_neg hn, h1, h3]
    constructor
    · exact fun h => names_ne _ _ _ _ _ _ _ h.2 |>.elim
    · rintro ⟨-, h, -⟩
      exact absurd h (by decide)
  · have hn : ¬ c.1.decoder = "maxsat" := by rw [h1]; decide
    rw [if_neg hn, if_pos h3, h1, h3]
    constructor
    · exact fun h => names_ne _ _ _ _ _ _ _ h.2.symm |>.elim
    · rintro ⟨-, h, -⟩
      exact absurd h (by decide)
  · have hn : ¬ c.1.decoder = "maxsat" := by rw [h1]; decide
    have hn' : ¬ c'.1.decoder = "maxsat" := by rw [h3]; decide
    rw [if_neg hn, if_neg hn', tnName_inj, h1, h3]
    simp

/-- **C122.** A call that succeeds writes the dictionary of its simulation into its file and nothing else; a call that fails (an unknown decoder
or lattice, or an exception of the simulation) changes no file. -/
theorem C122_call (f : Fmt) (fs : Fs D) (c : Call D) :
    (∀ v, c.result = .ok v → (cli f c.2.1 c.2.2 fs c.1).1 = .ok () ∧
      (cli f c.2.1 c.2.2 fs c.1).2 c.1.dir (c.1.name f) = some v ∧
      ∀ dir name, ¬ (dir = c.1.dir ∧ name = c.1.name f) → (cli f c.2.1 c.2.2 fs c.1).2 dir name = fs dir name) ∧
    (∀ e, c.result = .error e → cli f c.2.1 c.2.2 fs c.1 = (.error e, fs)) := by
  rw [cli_eq]
  constructor
  · intro v h
    simp only [h]
    refine ⟨trivial, by simp [write], fun dir name hne => ?_⟩
    simp only [write]
    rw [if_neg hne]
  · intro e h
    simp only [h]

theorem calls_append (f : Fmt) (fs : Fs D) (cs cs' : List (Call D)) : calls f fs (cs ++ cs') = calls f (calls f fs cs) cs' := by
  induction cs generalizing fs with
  | nil => rfl
  | cons c cs ih =>
    obtain ⟨a, sim, tn⟩ := c
    simp only [List.cons_append, calls, ih]

theorem calls_keep (f : Fmt) (fs : Fs D) (cs : List (Call D)) (dir name : Text)
    (h : ∀ c ∈ cs, (∃ v, c.result = .ok v) → ¬ (dir = c.1.dir ∧ name = c.1.name f)) : calls f fs cs dir name = fs dir name := by
  induction cs generalizing fs with
  | nil => rfl
  | cons c cs ih =>
    have e : calls f fs (c :: cs) = calls f (cli f c.2.1 c.2.2 fs c.1).2 cs := rfl
    rw [e, ih _ fun c' hc' => h c' (List.mem_cons_of_mem _ hc')]
    cases hr : c.result with
    | error e => rw [(C122_call f fs c).2 e hr]
    | ok v => exact ((C122_call f fs c).1 v hr).2.2 dir name (h c List.mem_cons_self ⟨v, hr⟩)

/-- **C122, proved part.** After every history of calls, the results of a successful call are in its file, unless a later successful call agrees
with it in everything that the name shows.  Missing from the claim: the name does not show all of the parameters. -/
theorem C122_kept_partial (f : Fmt) (fs : Fs D) (pre post : List (Call D)) (c : Call D) (v : D) (hv : c.result = .ok v)
    (hp : ∀ c' ∈ post, (∃ v', c'.result = .ok v') → ¬ SameShown c.1 c'.1) :
    calls f fs (pre ++ c :: post) c.1.dir (c.1.name f) = some v := by
  rw [calls_append]
  change calls f (cli f c.2.1 c.2.2 (calls f fs pre) c.1).2 post _ _ = _
  rw [calls_keep]
  · exact ((C122_call f _ c).1 v hv).2.1
  · rintro c' hc' ⟨v', hv'⟩
    rw [C122_same_file f c c' v v' hv hv']
    exact hp c' hc' ⟨v', hv'⟩

/-! ## Rates and solvers that a name does show -/

theorem roundHalfEven_int (z : ℤ) : roundHalfEven z = z := by
  unfold roundHalfEven
  rw [Int.floor_intCast, sub_self, if_pos (by norm_num)]

/-- A rate with at most four digits after the point is not changed by the rounding. -/
theorem round4_exact (z : ℤ) : round4 (z / 10000) = z / 10000 := by
  unfold round4
  rw [div_mul_cancel₀ _ (by norm_num), roundHalfEven_int]

/-- The rounded rate differs from the rate by at most half a unit of the fourth digit. -/
theorem round4_near (p : ℚ) : |round4 p - p| ≤ 1 / 20000 := by
  have h0 : (0 : ℚ) ≤ p * 10000 - ⌊p * 10000⌋ := sub_nonneg.2 (Int.floor_le _)
  have h1 : p * 10000 - ⌊p * 10000⌋ < 1 := by linarith [Int.lt_floor_add_one (p * 10000)]
  unfold round4 roundHalfEven
  rw [abs_le]
  split_ifs with h2 h3 h4 <;> push_cast <;> constructor <;> linarith

theorem baseName_eq {s : Text} (h : '/' ∉ s) : baseName s = s := by
  cases s with
  | nil => rfl
  | cons c cs =>
    rw [baseName, if_neg (fun hc => h (List.mem_cons_of_mem _ hc)), if_neg (fun hc : c = '/' => h (by rw [hc]; exact List.mem_cons_self))]

/-- The last component has no slash and is what follows the last slash. -/
theorem baseName_spec (s : Text) : '/' ∉ baseName s ∧ ∃ d, s = d ++ baseName s ∧ (d = [] ∨ ∃ d', d = d' ++ ['/']) := by
  induction s with
  | nil => exact ⟨by simp [baseName], [], rfl, .inl rfl⟩
  | cons c cs ih =>
    by_cases h : '/' ∈ cs
    · rw [baseName, if_pos h]
      obtain ⟨h1, d, h2, h3⟩ := ih
      refine ⟨h1, c :: d, by rw [List.cons_append, ← h2], .inr ?_⟩
      rcases h3 with rfl | ⟨d', rfl⟩
      · rw [List.nil_append] at h2
        exact absurd (h2 ▸ h) h1
      · exact ⟨c :: d', rfl⟩
    · rw [baseName, if_neg h]
      by_cases hc : c = '/'
      · rw [if_pos hc]
        exact ⟨h, [c], rfl, .inr ⟨[], by rw [hc]; rfl⟩⟩
      · rw [if_neg hc]
        exact ⟨by simp [h, Ne.symm hc], [], rfl, .inl rfl⟩

/-- **C122, proved part.** For calls of the MaxSAT decoder whose rates have at most four digits after the point and whose solvers are
named without a directory, the claim holds. -/
theorem C122_exact_partial (f : Fmt) (fs : Fs D) (pre post : List (Call D)) (c : Call D) (v : D) (hv : c.result = .ok v)
    (hm : ∀ c' ∈ c :: post, c'.1.decoder = "maxsat" ∧ '/' ∉ c'.1.solver ∧ ∃ z : ℤ, c'.1.rate = z / 10000)
    (hp : ∀ c' ∈ post, (∃ v', c'.result = .ok v') → ¬ SameParameters c.1 c'.1) :
    calls f fs (pre ++ c :: post) c.1.dir (c.1.name f) = some v := by
  apply C122_kept_partial f fs pre post c v hv
  rintro c' hc' hv' ⟨h1, h2, h3, h4, h5⟩
  obtain ⟨a1, a2, z, a3⟩ := hm c List.mem_cons_self
  obtain ⟨b1, b2, w, b3⟩ := hm c' (List.mem_cons_of_mem _ hc')
  obtain ⟨h5, h6⟩ := h5 a1
  rw [a3, b3, round4_exact, round4_exact, ← a3, ← b3] at h4
  rw [baseName_eq a2, baseName_eq b2] at h6
  exact hp c' hc' hv' ⟨h1, h2, h5, h3, h4, fun _ => h6⟩

/-- Texts of numbers for the examples: an injective writing without commas. -/
noncomputable def exampleFmt : Fmt where
  float p := List.replicate (Encodable.encode p) 'x'
  lattice := fun | .hexagon => "hexagon".toList | .squareOctagon => "square_octagon".toList
  float_inj := fun p q h => by
    have := congrArg List.length h
    rw [List.length_replicate, List.length_replicate] at this
    exact Encodable.encode_injective this
  lattice_inj := by
    intro a b
    cases a <;> cases b <;> simp
  float_comma := fun p h => by
    have := List.eq_of_mem_replicate h
    exact absurd this (by decide)
  lattice_comma := by
    intro l
    cases l <;> decide

/-- Two calls for the examples. -/
def exampleCall (p : ℚ) (solver type decoder : String) (v : ℕ) : Call ℕ :=
  ({ distance := 3, rate := p, type := type, solver := solver.toList, decoder := decoder }, fun _ => .ok v, fun _ _ _ => .ok v)

example (fs : Fs ℕ) : calls exampleFmt fs ([] ++ exampleCall (1 / 1000) "z3" "hexagon" "maxsat" 1 ::
    [exampleCall (2 / 1000) "z3" "hexagon" "maxsat" 2, exampleCall (1 / 1000) "z3" "square_octagon" "maxsat" 3])
    "./results".toList ((exampleCall (1 / 1000) "z3" "hexagon" "maxsat" 1).1.name exampleFmt) = some 1 := by
  refine C122_exact_partial exampleFmt fs [] _ _ 1 rfl ?_ ?_
  · intro c' hc'
    simp only [List.mem_cons, List.not_mem_nil, or_false] at hc'
    rcases hc' with rfl | rfl | rfl
    · exact ⟨rfl, by decide, 10, by norm_num [exampleCall]⟩
    · exact ⟨rfl, by decide, 20, by norm_num [exampleCall]⟩
    · exact ⟨rfl, by decide, 10, by norm_num [exampleCall]⟩
  · intro c' hc' _
    simp only [List.mem_cons, List.not_mem_nil, or_false] at hc'
    rcases hc' with rfl | rfl <;> rintro ⟨-, -, h1, -, h2, -⟩
    · norm_num [exampleCall] at h2
    · simp [exampleCall] at h1

theorem lose (c c' : Call ℕ) (hc : c.result = .ok 1) (hc' : c'.result = .ok 2) (hs : SameShown c.1 c'.1) (hd : ¬ SameParameters c.1 c'.1) :
    ¬ C122_claim ℕ := by
  intro h
  have h1 := h exampleFmt (fun _ _ => none) [] [c'] c 1 hc (by
    intro d hm _
    rw [List.mem_singleton.1 hm]
    exact hd)
  have h2 : calls exampleFmt (fun _ _ => none) ([] ++ c :: [c']) c'.1.dir (c'.1.name exampleFmt) = some 2 :=
    C122_kept_partial exampleFmt _ [c] [] c' 2 hc' (by simp)
  obtain ⟨e1, e2⟩ := (C122_same_file exampleFmt c c' 1 2 hc hc').2 hs
  rw [e1, e2, h2] at h1
  exact absurd h1 (by decide)

/-- **C122 is violated**: the results for the rate 0.00001 are overwritten by those for the rate 0.00002. -/
theorem C122_violated_rate : ¬ C122_claim ℕ := by
  refine lose (exampleCall (1 / 100000) "z3" "hexagon" "maxsat" 1) (exampleCall (2 / 100000) "z3" "hexagon" "maxsat" 2) rfl rfl ?_ ?_
  · refine ⟨rfl, rfl, rfl, ?_, fun _ => ⟨rfl, rfl⟩⟩
    simp only [exampleCall]
    have : ∀ x : ℚ, 0 ≤ x → x < 1 / 20000 → round4 x = 0 := by
      intro x h0 h1
      have : ⌊x * 10000⌋ = 0 := Int.floor_eq_iff.2 ⟨by push_cast; linarith, by push_cast; linarith⟩
      unfold round4 roundHalfEven
      rw [this, if_pos (by push_cast; linarith)]
      simp
    rw [this _ (by norm_num) (by norm_num), this _ (by norm_num) (by norm_num)]
  · rintro ⟨-, -, -, -, h, -⟩
    norm_num [exampleCall] at h

/-- **C122 is violated**: so are the results of a solver by those of another one with the same base name. -/
theorem C122_violated_solver : ¬ C122_claim ℕ := by
  refine lose (exampleCall 0 "/old/solver" "hexagon" "maxsat" 1) (exampleCall 0 "/new/solver" "hexagon" "maxsat" 2) rfl rfl ?_ ?_
  · exact ⟨rfl, rfl, rfl, rfl, fun _ => ⟨rfl, by decide⟩⟩
  · rintro ⟨-, -, -, -, -, h⟩
    exact absurd (h rfl) (by decide)

/-- **C122 is violated**: the tensor-network decoder ignores the lattice, and the call for the square-octagon lattice overwrites (with a
simulation of the hexagonal lattice) the file of the call for the hexagonal one. -/
theorem C122_violated_lattice : ¬ C122_claim ℕ := by
  refine lose (exampleCall 0 "z3" "hexagon" "tn" 1) (exampleCall 0 "z3" "square_octagon" "tn" 2) rfl rfl ?_ ?_
  · exact ⟨rfl, rfl, rfl, rfl, fun h => absurd h (by decide)⟩
  · rintro ⟨-, -, h, -⟩
    exact absurd h (by decide)

/-- **C122.** A call with the tensor-network decoder does the same for every `--type` and every `--solver`, known or not. -/
theorem C122_tn_ignores (f : Fmt) (fs : Fs D) (sim : Job → Except CErr D) (tn : ℕ → ℚ → ℕ → Except CErr D) (a : Args)
    (h : a.decoder = "tn") (type : String) (solver : Text) :
    cli f sim tn fs { a with type := type, solver := solver } = cli f sim tn fs a := by
  simp only [cli, h]
  rfl

/-- **C122.** The exception for unknown names comes before any simulation: the simulations do not matter. -/
theorem C122_unknown (f : Fmt) (fs : Fs D) (c : Call D)
    (h : (c.1.decoder ≠ "maxsat" ∧ c.1.decoder ≠ "tn") ∨ (c.1.decoder = "maxsat" ∧ c.1.type ≠ "hexagon" ∧ c.1.type ≠ "square_octagon")) :
    cli f c.2.1 c.2.2 fs c.1 = (.error .valueError, fs) := by
  apply (C122_call f fs c).2
  unfold Call.result
  rcases h with ⟨h1, h2⟩ | ⟨h1, h2, h3⟩
  · rw [if_neg h1, if_neg h2]
  · rw [if_pos h1, if_neg h2, if_neg h3]

example (fs : Fs ℕ) : cli exampleFmt (exampleCall 0 "z3" "kagome" "maxsat" 1).2.1 (exampleCall 0 "z3" "kagome" "maxsat" 1).2.2 fs
    (exampleCall 0 "z3" "kagome" "maxsat" 1).1 = (.error .valueError, fs) :=
  C122_unknown exampleFmt fs (exampleCall 0 "z3" "kagome" "maxsat" 1) (.inr ⟨rfl, by decide, by decide⟩)

/-- **C122.** The rate in a file name is the rate rounded to four digits: it is a multiple of 0.0001 and no such multiple is nearer to the
rate; halfway between two of them it is the even one. -/
theorem C122_rounding (p : ℚ) :
    (∃ z : ℤ, round4 p = z / 10000) ∧ (∀ z : ℤ, |round4 p - p| ≤ |(z : ℚ) / 10000 - p|) ∧
      ∀ k : ℤ, (p = (4 * k + 1) / 20000 → round4 p = (2 * k) / 10000) ∧ (p = (4 * k + 3) / 20000 → round4 p = (2 * k + 2) / 10000) := by
  refine ⟨⟨_, rfl⟩, fun z => ?_, fun k => ⟨fun h => ?_, fun h => ?_⟩⟩
  · have h0 : (0 : ℚ) ≤ p * 10000 - ⌊p * 10000⌋ := sub_nonneg.2 (Int.floor_le _)
    have h1 : p * 10000 - ⌊p * 10000⌋ < 1 := by linarith [Int.lt_floor_add_one (p * 10000)]
    have hz : (z : ℚ) ≤ ⌊p * 10000⌋ ∨ (⌊p * 10000⌋ : ℚ) + 1 ≤ z := by
      rcases le_or_gt z ⌊p * 10000⌋ with h | h
      · exact .inl (by exact_mod_cast h)
      · exact .inr (by exact_mod_cast h)
    unfold round4 roundHalfEven
    rcases hz with hz | hz
    · rw [abs_le, abs_of_nonpos (a := (z : ℚ) / 10000 - p) (by linarith)]
      split_ifs with h2 h3 h4 <;> push_cast <;> constructor <;> linarith
    · rw [abs_le, abs_of_nonneg (a := (z : ℚ) / 10000 - p) (by linarith)]
      split_ifs with h2 h3 h4 <;> push_cast <;> constructor <;> linarith
  · have hf : ⌊p * 10000⌋ = 2 * k := Int.floor_eq_iff.2 ⟨by push_cast; rw [h]; linarith, by push_cast; rw [h]; linarith⟩
    unfold round4 roundHalfEven
    rw [hf, if_neg (by push_cast; rw [h]; intro h'; linarith), if_neg (by push_cast; rw [h]; intro h'; linarith), if_pos (by omega)]
    push_cast
    rfl
  · have hf : ⌊p * 10000⌋ = 2 * k + 1 := Int.floor_eq_iff.2 ⟨by push_cast; rw [h]; linarith, by push_cast; rw [h]; linarith⟩
    unfold round4 roundHalfEven
    rw [hf, if_neg (by push_cast; rw [h]; intro h'; linarith), if_neg (by push_cast; rw [h]; intro h'; linarith), if_neg (by omega)]
    push_cast
    ring

example : round4 (1 / 20000) = 0 ∧ round4 (3 / 20000) = 2 / 10000 := by
  have h1 := ((C122_rounding (1 / 20000)).2.2 0).1 (by norm_num)
  have h2 := ((C122_rounding (3 / 20000)).2.2 0).2 (by norm_num)
  norm_num at h1 h2
  exact ⟨h1, by rw [h2]; norm_num⟩

/-- **C122.** A call with a distance and a rate only simulates 10000 samples of the hexagonal lattice with the solver z3 and writes the
dictionary into a file in `./results` whose name shows these values. -/
theorem C122_defaults (f : Fmt) (fs : Fs D) (sim : Job → Except CErr D) (tn : ℕ → ℚ → ℕ → Except CErr D) (d : ℕ) (p : ℚ) (v : D)
    (h : sim ⟨.hexagon, d, p, 10000, "z3".toList⟩ = .ok v) :
    (cli f sim tn fs { distance := d, rate := p }).1 = .ok () ∧
      (cli f sim tn fs { distance := d, rate := p }).2 "./results".toList
        ("code=".toList ++ f.lattice .hexagon ++ ",distance=".toList ++ Nat.toDigits 10 d ++ ",p=".toList ++ f.float (round4 p) ++
          ",solver=z3.json".toList) = some v := by
  have hr : Call.result (({ distance := d, rate := p }, sim, tn) : Call D) = .ok v := by
    unfold Call.result
    rw [if_pos (show ({ distance := d, rate := p } : Args).decoder = "maxsat" from rfl),
      if_pos (show ({ distance := d, rate := p } : Args).type = "hexagon" from rfl)]
    exact h
  obtain ⟨h1, h2, -⟩ := (C122_call f fs (({ distance := d, rate := p }, sim, tn) : Call D)).1 v hr
  refine ⟨h1, ?_⟩
  have hn : Args.name f { distance := d, rate := p } = "code=".toList ++ f.lattice .hexagon ++ ",distance=".toList ++ Nat.toDigits 10 d ++
      ",p=".toList ++ f.float (round4 p) ++ ",solver=z3.json".toList := by
    have hb : baseName "z3".toList = "z3".toList := by decide
    simp only [Args.name, if_pos, Args.lattice, maxsatName, hb]
    simp
  rw [hn] at h2
  exact h2

example (fs : Fs ℕ) : (cli exampleFmt (fun j => .ok j.sims) (fun _ _ _ => .error .simulation) fs { distance := 5, rate := 1 / 10 }).1 = .ok () :=
  (C122_defaults exampleFmt fs (fun j => .ok j.sims) (fun _ _ _ => .error .simulation) 5 (1 / 10) 10000 rfl).1

end Verif.CcFiles
