import Verif.Model.Names
import Mathlib.Tactic.Linarith

/-!
# C57: names of settings

The specification is the table of accepted names: `spec` lists for every value the strings that stand for it.
-/

namespace Verif.Names

/-- `f` accepts exactly the strings of the table, with the listed values, and raises `e` on every other string. -/
def Accepts {α : Type} (f : String → Except NameErr α) (table : List (String × α)) (e : NameErr) : Prop :=
  ∀ s, (∀ v, f s = .ok v ↔ (s, v) ∈ table) ∧ ((∀ v, (s, v) ∉ table) → f s = .error e)

/-- **C57.** Growth variants: the Python names and the numbers 0 to 4. -/
theorem C57_growth : Accepts growthFromString
    [("ALL_COMPONENTS", .allComponents), ("0", .allComponents), ("INVALID_COMPONENTS", .invalidComponents), ("1", .invalidComponents),
     ("SINGLE_SMALLEST", .singleSmallest), ("2", .singleSmallest), ("SINGLE_RANDOM", .singleRandom), ("3", .singleRandom),
     ("SINGLE_QUBIT_RANDOM", .singleQubitRandom), ("4", .singleQubitRandom)] .invalidArgument := by
  intro s
  unfold growthFromString
  constructor
  · intro v
    split_ifs with h1 h2 h3 h4 h5
    all_goals first
      | (rcases h1 with rfl | rfl <;> cases v <;> simp)
      | (rcases h2 with rfl | rfl <;> cases v <;> simp)
      | (rcases h3 with rfl | rfl <;> cases v <;> simp)
      | (rcases h4 with rfl | rfl <;> cases v <;> simp)
      | (rcases h5 with rfl | rfl <;> cases v <;> simp)
      | (push Not at *; simp [*])
  · intro h
    have h1 := h .allComponents
    have h2 := h .invalidComponents
    have h3 := h .singleSmallest
    have h4 := h .singleRandom
    have h5 := h .singleQubitRandom
    simp at h1 h2 h3 h4 h5
    simp [h1, h2, h3, h4, h5]

/-- **C57.** Every growth variant can be named: constructing from its Python name gives it back. -/
theorem C57_growth_names (g : Growth) : growthFromString g.pyName = .ok g := by
  cases g <;> decide +kernel

/-- **C57.** Status of a decoding. -/
theorem C57_status : Accepts statusFromString
    [("SUCCESS", .success), ("0", .success), ("FAILURE", .failure), ("1", .failure)] .invalidArgument := by
  intro s
  unfold statusFromString
  constructor
  · intro v
    split_ifs with h1 h2
    all_goals first
      | (rcases h1 with rfl | rfl <;> cases v <;> simp)
      | (rcases h2 with rfl | rfl <;> cases v <;> simp)
      | (push Not at *; simp [*])
  · intro h
    have h1 := h .success
    have h2 := h .failure
    simp at h1 h2
    simp [h1, h2]

/-- **C57.** Decoder types. -/
theorem C57_decoder : Accepts decoderFromString
    [("UF_HEURISTIC", .ufHeuristic), ("0", .ufHeuristic), ("ORIGINAL_UF", .ufDecoder), ("1", .ufDecoder)] .invalidArgument := by
  intro s
  unfold decoderFromString
  constructor
  · intro v
    split_ifs with h1 h2
    all_goals first
      | (rcases h1 with rfl | rfl <;> cases v <;> simp)
      | (rcases h2 with rfl | rfl <;> cases v <;> simp)
      | (push Not at *; simp [*])
  · intro h
    have h1 := h .ufHeuristic
    have h2 := h .ufDecoder
    simp at h1 h2
    simp [h1, h2]

/-- **C57.** Schemes of `apply_ecc`. -/
theorem C57_ecc : Accepts eccFromString
    [("Id", .id), ("Q3Shor", .q3Shor), ("Q5Laflamme", .q5Laflamme), ("Q7Steane", .q7Steane), ("Q9Shor", .q9Shor),
     ("Q9Surface", .q9Surface), ("Q18Surface", .q18Surface)] .invalidArgument := by
  intro s
  unfold eccFromString
  constructor
  · intro v
    split_ifs with h1 h2 h3 h4 h5 h6 h7
    all_goals first
      | (subst h1; cases v <;> simp)
      | (subst h2; cases v <;> simp)
      | (subst h3; cases v <;> simp)
      | (subst h4; cases v <;> simp)
      | (subst h5; cases v <;> simp)
      | (subst h6; cases v <;> simp)
      | (subst h7; cases v <;> simp)
      | (simp [*])
  · intro h
    have h1 := h .id
    have h2 := h .q3Shor
    have h3 := h .q5Laflamme
    have h4 := h .q7Steane
    have h5 := h .q9Shor
    have h6 := h .q9Surface
    have h7 := h .q18Surface
    simp at h1 h2 h3 h4 h5 h6 h7
    simp [h1, h2, h3, h4, h5, h6, h7]

/-- **C57.** Lattices, with the distance handed on. -/
theorem C57_lattice (d : ℕ) : Accepts (fun s => codeFromString s d)
    [("hexagon", (.hexagon, d)), ("square_octagon", (.squareOctagon, d))] .valueError := by
  intro s
  constructor
  · intro v
    simp only [codeFromString]
    split_ifs with h1 h2
    · subst h1; simp [eq_comm]
    · subst h2; simp [eq_comm]
    · simp [h1, h2]
  · intro h
    have h1 := h (.hexagon, d)
    have h2 := h (.squareOctagon, d)
    simp at h1 h2
    simp [codeFromString, h1, h2]

/-- **C57.** The JSON names of growth variants, statuses and decoder types are read back as the same values. -/
theorem C57_json (g : Growth) (s : Status) (t : Decoder) :
    enumFromJson growthJson (.allComponents, "all components") (enumToJson growthJson (.allComponents, "all components") g) = g ∧
    enumFromJson statusJson (.success, "success") (enumToJson statusJson (.success, "success") s) = s ∧
    enumFromJson decoderJson (.ufHeuristic, "UF_HEURISTIC") (enumToJson decoderJson (.ufHeuristic, "UF_HEURISTIC") t) = t := by
  cases g <;> cases s <;> cases t <;> decide +kernel

/-- The channel of a letter, written as a table. -/
def channelOf {P : Type} (p : P) : List (Char × Channel P) :=
  [('B', .bitFlip p), ('D', .depolarizing p), ('A', .amplitudeDamping p), ('P', .phaseFlip p)]

theorem letter_ok {P : Type} {p : P} {c : Char} {x : Channel P} : letter p c = .ok x ↔ (c, x) ∈ channelOf p := by
  unfold letter channelOf
  split_ifs with h1 h2 h3 h4
  · subst h1; simp [eq_comm]
  · subst h2; simp [eq_comm]
  · subst h3; simp [eq_comm]
  · subst h4; simp [eq_comm]
  · simp [h1, h2, h3, h4]

theorem letter_error {P : Type} {p : P} {c : Char} {x : NameErr} : letter p c = .error x ↔ x = .valueError ∧ ∀ y, (c, y) ∉ channelOf p := by
  constructor
  · intro h
    refine ⟨?_, fun y hy => ?_⟩
    · unfold letter at h
      split_ifs at h
      cases h; rfl
    · rw [letter_ok.2 hy] at h; cases h
  · rintro ⟨rfl, h⟩
    cases hl : letter p c with
    | ok y => exact absurd (letter_ok.1 hl) (h y)
    | error e =>
      unfold letter at hl
      split_ifs at hl
      cases hl; rfl

/-- One channel after the other, the first one first. -/
def chain {P : Type} : Channel P → List (Channel P) → Channel P
  | e, [] => e
  | e, x :: xs => chain (.compose e x) xs

theorem noiseLoop_some {P : Type} {p : P} : ∀ (cs : List Char) (e : Channel P) (r : Option (Channel P)),
    noiseLoop p cs (some e) = .ok r ↔ ∃ xs, List.Forall₂ (fun c x => (c, x) ∈ channelOf p) cs xs ∧ r = some (chain e xs)
  | [], e, r => by
    simp only [noiseLoop, Except.ok.injEq]
    constructor
    · rintro rfl; exact ⟨[], .nil, rfl⟩
    · rintro ⟨_, h, rfl⟩; cases h; rfl
  | c :: cs, e, r => by
    cases hl : letter p c with
    | error x =>
      simp only [noiseLoop, hl, reduceCtorEq, false_iff, not_exists, not_and]
      intro xs hx
      cases hx with
      | cons h _ => exact absurd h ((letter_error.1 hl).2 _)
    | ok y =>
      simp only [noiseLoop, hl, composeError]
      rw [noiseLoop_some cs (.compose e y) r]
      constructor
      · rintro ⟨xs, h1, rfl⟩
        exact ⟨y :: xs, .cons (letter_ok.1 hl) h1, rfl⟩
      · rintro ⟨xs, h1, rfl⟩
        cases h1 with
        | cons h h1 =>
          rename_i z zs
          rw [letter_ok.2 h] at hl
          cases hl
          exact ⟨zs, h1, rfl⟩

/-- The letters of the noise models. -/
def letters : List Char := ['B', 'D', 'A', 'P']

theorem channelOf_letters {P : Type} {p : P} {c : Char} : (∃ x, (c, x) ∈ channelOf p) ↔ c ∈ letters := by
  simp [channelOf, letters]
  constructor
  · rintro ⟨x, ⟨h, -⟩ | ⟨h, -⟩ | ⟨h, -⟩ | ⟨h, -⟩⟩ <;> simp [h]
  · rintro (h | h | h | h)
    · exact ⟨_, .inl ⟨h, rfl⟩⟩
    · exact ⟨_, .inr (.inl ⟨h, rfl⟩)⟩
    · exact ⟨_, .inr (.inr (.inl ⟨h, rfl⟩))⟩
    · exact ⟨_, .inr (.inr (.inr ⟨h, rfl⟩))⟩

theorem forall₂_channels {P : Type} {p : P} : ∀ cs : List Char, (∃ xs, List.Forall₂ (fun c x => (c, x) ∈ channelOf p) cs xs) ↔ ∀ c ∈ cs, c ∈ letters
  | [] => by simpa using ⟨[], .nil⟩
  | c :: cs => by
    rw [List.forall_mem_cons, ← forall₂_channels (P := P) (p := p) cs, ← channelOf_letters (P := P) (p := p)]
    constructor
    · rintro ⟨_, h⟩
      cases h with
      | cons h1 h2 => exact ⟨⟨_, h1⟩, ⟨_, h2⟩⟩
    · rintro ⟨⟨x, h1⟩, ⟨xs, h2⟩⟩
      exact ⟨x :: xs, .cons h1 h2⟩

theorem noiseLoop_cases {P : Type} {p : P} (cs : List Char) (e : Option (Channel P)) :
    (∃ r, noiseLoop p cs e = .ok r) ∨ noiseLoop p cs e = .error .valueError := by
  induction cs generalizing e with
  | nil => exact .inl ⟨e, rfl⟩
  | cons c cs ih =>
    cases hl : letter p c with
    | error x => right; simp only [noiseLoop, hl]; rw [(letter_error.1 hl).1]
    | ok y => simp only [noiseLoop, hl]; exact ih _

/-- **C57.** `create_noise_model` succeeds exactly for the non-empty strings over `B`, `D`, `A`, `P`; the empty string fails the
assertion and any other string is a `ValueError`. -/
theorem C57_noise_accepts {P : Type} (s : String) (p : P) :
    ((∃ nm, createNoiseModel s p = .ok nm) ↔ s ≠ "" ∧ ∀ c ∈ s.toList, c ∈ letters) ∧
    (s = "" → createNoiseModel s p = .error .assertion) ∧
    ((∃ c ∈ s.toList, c ∉ letters) → createNoiseModel s p = .error .valueError) := by
  have hempty : s = "" ↔ s.toList = [] := by
    rw [← String.toList_inj]; rfl
  rw [Ne, hempty]
  unfold createNoiseModel
  generalize s.toList = cs
  cases cs with
  | nil => simp [noiseLoop]
  | cons c cs =>
    have key : ∀ r, noiseLoop p (c :: cs) none = .ok r → (∃ e, r = some e) ∧ ∀ x ∈ c :: cs, x ∈ letters := by
      intro r hr
      cases hl : letter p c with
      | error x => simp only [noiseLoop, hl] at hr; cases hr
      | ok y =>
        simp only [noiseLoop, hl, composeError] at hr
        obtain ⟨xs, h1, rfl⟩ := (noiseLoop_some cs y r).1 hr
        exact ⟨⟨_, rfl⟩, (forall₂_channels (P := P) (p := p) _).1 ⟨y :: xs, .cons (letter_ok.1 hl) h1⟩⟩
    have key' : (∀ x ∈ c :: cs, x ∈ letters) → ∃ e, noiseLoop p (c :: cs) none = .ok (some e) := by
      intro h
      obtain ⟨xs, hx⟩ := (forall₂_channels (P := P) (p := p) _).2 h
      cases hx with
      | cons h1 h2 =>
        simp only [noiseLoop, letter_ok.2 h1, composeError]
        exact ⟨_, (noiseLoop_some cs _ _).2 ⟨_, h2, rfl⟩⟩
    refine ⟨⟨fun ⟨nm, h⟩ => ⟨by simp, ?_⟩, fun ⟨_, h⟩ => ?_⟩, fun h => by simp at h, fun ⟨x, hx, hxl⟩ => ?_⟩
    · cases hn : noiseLoop p (c :: cs) none with
      | error x => rw [hn] at h; cases h
      | ok r => exact (key r hn).2
    · obtain ⟨e, he⟩ := key' h
      rw [he]
      exact ⟨_, rfl⟩
    · rcases noiseLoop_cases (p := p) (c :: cs) none with ⟨r, hr⟩ | hr
      · exact absurd ((key r hr).2 x hx) hxl
      · rw [hr]

/-- **C57.** The noise of an accepted string: on every single-qubit instruction of the list the channels of the letters one after
the other, on `cx` and `swap` independently on both qubits, on `cswap` independently on all three, and on no other instruction
(in particular on none of `x`, `y`, `z`, `cz`, `ccx`). -/
theorem C57_noise_model {P : Type} (s : String) (p : P) (nm : NoiseModel P) (h : createNoiseModel s p = .ok nm) :
    ∃ x xs, List.Forall₂ (fun c x => (c, x) ∈ channelOf p) s.toList (x :: xs) ∧
      ∀ g e, (g, e) ∈ nm ↔
        (g ∈ ["u1", "u2", "u3", "h", "id", "t", "tdg", "sdg", "rx", "ry", "rz", "s"] ∧ e = chain x xs) ∨
        (g ∈ ["cx", "swap"] ∧ e = .tensor (chain x xs) (chain x xs)) ∨
        (g = "cswap" ∧ e = .tensor (.tensor (chain x xs) (chain x xs)) (chain x xs)) := by
  unfold createNoiseModel at h
  generalize s.toList = cs at *
  cases cs with
  | nil => cases h
  | cons c cs =>
    cases hl : letter p c with
    | error x => simp only [noiseLoop, hl] at h; cases h
    | ok y =>
      simp only [noiseLoop, hl, composeError] at h
      cases hn : noiseLoop p cs (some y) with
      | error x => rw [hn] at h; cases h
      | ok r =>
        obtain ⟨xs, h1, rfl⟩ := (noiseLoop_some cs y r).1 hn
        rw [hn] at h
        cases h
        refine ⟨y, xs, .cons (letter_ok.1 hl) h1, fun g e => ?_⟩
        simp only [List.mem_append, List.mem_map, Prod.mk.injEq, List.mem_singleton]
        constructor
        · rintro ((⟨a, ha, rfl, rfl⟩ | ⟨a, ha, rfl, rfl⟩) | ⟨rfl, rfl⟩)
          · exact .inl ⟨ha, rfl⟩
          · exact .inr (.inl ⟨ha, rfl⟩)
          · exact .inr (.inr ⟨rfl, rfl⟩)
        · rintro (⟨ha, rfl⟩ | ⟨ha, rfl⟩ | ⟨rfl, rfl⟩)
          · exact .inl (.inl ⟨g, ha, rfl, rfl⟩)
          · exact .inl (.inr ⟨g, ha, rfl, rfl⟩)
          · exact .inr ⟨rfl, rfl⟩

/-- The wrapper's documented example `APD` is accepted; a lower-case letter is not. -/
example : (∃ nm, createNoiseModel "APD" (1 : ℕ) = .ok nm) ∧ createNoiseModel "a" (1 : ℕ) = .error .valueError :=
  ⟨⟨_, rfl⟩, rfl⟩

end Verif.Names
