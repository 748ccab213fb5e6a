import Verif.Model.Wrapper
import Verif.Props.Names

/-!
# C118: what the command line of the wrapper simulates
-/

namespace Verif.Wrapper
open Verif Ecc Names

/-! ### Specification -/

/-- The channels of the letters of `s`, one after the other. -/
def IsNoise (s : String) (p : ℚ) (e : Channel ℚ) : Prop :=
  ∃ x xs, List.Forall₂ (fun c x => (c, x) ∈ channelOf p) s.toList (x :: xs) ∧ e = chain x xs

/-- The instruction `i` has noise on every qubit it acts on: the channel `e` on each. -/
def HasNoise (nm : NoiseModel ℚ) (e : Channel ℚ) (i : Instr) : Prop :=
  ∃ g, instrName i = some g ∧ ((g, e) ∈ nm ∨ (g, .tensor e e) ∈ nm ∨ (g, .tensor (.tensor e e) e) ∈ nm)

/-- The schemes by their names. -/
def namedSchemes : List (String × (ℕ → ℕ → Scheme)) :=
  [("Id", fun _ _ => idScheme), ("Q3Shor", q3Shor), ("Q5Laflamme", q5Laflamme), ("Q7Steane", q7Steane), ("Q9Shor", q9Shor),
    ("Q9Surface", q9Surface), ("Q18Surface", q18Surface)]

/-- The circuit that should be simulated: the given one, or its encoding by the scheme with this name; measurements of all qubits
into new bits are added if there are none. -/
def IsWanted (a : Args) (c : Circ) (l : List Instr) : Prop :=
  ∃ c', c'.n = c.n ∧
    ((∃ g ∈ c.gates, g.op = .measure) ∧ c' = c ∨
      (∀ g ∈ c.gates, g.op ≠ .measure) ∧ c'.m = c.m + c.n ∧
        c'.gates = c.gates ++ [⟨.barrier, [], List.range c.n, []⟩] ++ (List.range c.n).map fun i => ⟨.measure, [], [i], [c.m + i]⟩) ∧
    (a.ecc.toList.map Char.toLower = ['n', 'o', 'n', 'e'] ∧ l = c'.gates.map .clone ∨
      a.ecc.toList.map Char.toLower ≠ ['n', 'o', 'n', 'e'] ∧ ∃ f, (a.ecc, f) ∈ namedSchemes ∧ (f c'.n c'.m).apply a.fq c'.gates = .ok l)

/-- **C118** (claim): a run without output file simulates the wanted circuit, and for a positive probability every unitary gate of it is
followed by the noise on all of its qubits. -/
def C118_claim : Prop :=
  ∀ a c l nm method shots seed, main a c = .ok (.simulated l nm method shots seed) → 0 < a.p →
    IsWanted a c l ∧ ∃ e, IsNoise a.m a.p e ∧ ∀ i ∈ l, (instrName i).isSome → HasNoise nm e i

/-! ### Theorems -/

theorem named_of_ok (s : String) (k : EccName) (h : eccFromString s = .ok k) : (s, scheme k) ∈ namedSchemes := by
  unfold eccFromString at h
  split_ifs at h with h1 h2 h3 h4 h5 h6 h7
  all_goals (obtain rfl := Except.ok.inj h)
  · subst h1; exact .head _
  · subst h2; exact .tail _ (.head _)
  · subst h3; exact .tail _ (.tail _ (.head _))
  · subst h4; exact .tail _ (.tail _ (.tail _ (.head _)))
  · subst h5; exact .tail _ (.tail _ (.tail _ (.tail _ (.head _))))
  · subst h6; exact .tail _ (.tail _ (.tail _ (.tail _ (.tail _ (.head _)))))
  · subst h7; exact .tail _ (.tail _ (.tail _ (.tail _ (.tail _ (.tail _ (.head _))))))

theorem named_q7 {f : ℕ → ℕ → Scheme} (h : ("Q7Steane", f) ∈ namedSchemes) : f = q7Steane := by
  simpa [namedSchemes] using h

theorem encoded_spec (a : Args) (c : Circ) (l : List Instr) (h : encoded a (prepared c) = .ok l) : IsWanted a c l := by
  refine ⟨prepared c, ?_, ?_, ?_⟩
  · unfold prepared; split <;> rfl
  · unfold prepared
    by_cases hm : (c.gates.any fun g => g.op = .measure) = true
    · rw [if_pos hm]
      left
      simpa using hm
    · rw [if_neg hm]
      right
      refine ⟨?_, rfl, ?_⟩
      · simpa using hm
      · simp [measureAll]
  · unfold encoded at h
    generalize prepared c = c' at h
    unfold notNone at h
    by_cases hn : a.ecc.toList.map Char.toLower = ['n', 'o', 'n', 'e']
    · rw [if_pos hn] at h
      exact .inl ⟨hn, (Except.ok.inj h).symm⟩
    · rw [if_neg hn] at h
      simp only [applyEcc] at h
      cases hk : eccFromString a.ecc with
      | error e => rw [hk] at h; cases h
      | ok k =>
        rw [hk] at h
        simp only at h
        cases ha : (scheme k c'.n c'.m).apply a.fq c'.gates with
        | error e => rw [ha] at h; cases h
        | ok l' =>
          rw [ha] at h
          obtain rfl := Except.ok.inj h
          exact .inr ⟨hn, scheme k, named_of_ok _ _ hk, ha⟩

theorem gateName_noisy (op : Op) (k : ℕ) (g : String) (h : gateName op k = some g)
    (hg : g ∈ ["u1", "u2", "u3", "h", "id", "t", "tdg", "sdg", "rx", "ry", "rz", "s", "cx", "swap", "cswap"]) :
    g ∈ ["h", "id", "t", "tdg", "sdg", "s", "cx", "swap"] := by
  unfold gateName at h
  obtain ⟨b, hb, rfl⟩ := Option.map_eq_some_iff.1 h
  match k with
  | 0 => cases op <;> simp only [opName, Option.some.injEq, reduceCtorEq] at hb <;> subst hb <;> revert hg <;> decide
  | 1 => cases op <;> simp only [opName, Option.some.injEq, reduceCtorEq] at hb <;> subst hb <;> revert hg <;> decide
  | k + 2 =>
    exfalso
    have hc : (String.ofList (List.replicate (k + 2) 'c' ++ b.toList)).toList.take 2 = ['c', 'c'] := by
      rw [String.toList_ofList]
      rfl
    have : ∀ g ∈ ["u1", "u2", "u3", "h", "id", "t", "tdg", "sdg", "rx", "ry", "rz", "s", "cx", "swap", "cswap"], g.toList.take 2 ≠ ['c', 'c'] := by
      decide
    exact this _ hg hc

theorem instrName_noisy (i : Instr) (g : String) (h : instrName i = some g)
    (hg : g ∈ ["u1", "u2", "u3", "h", "id", "t", "tdg", "sdg", "rx", "ry", "rz", "s", "cx", "swap", "cswap"]) :
    g ∈ ["h", "id", "t", "tdg", "sdg", "s", "cx", "swap"] := by
  cases i with
  | reset q => cases h
  | gate op c t => exact gateName_noisy op _ g h hg
  | swap a b => obtain rfl := Option.some.inj h; decide
  | measure q c => cases h
  | cc op q s l v => exact gateName_noisy op _ g h hg
  | clone x => exact gateName_noisy x.op _ g h hg

/-- **C118**, partial: what is simulated or written is the wanted circuit, with the requested simulator, shots and seed, and with an
output file nothing is simulated.  For a positive probability the noise is on the identity, H, S, T and their inverses, on the controlled
X and on swap; for others there is no noise. -/
theorem C118_run_partial (a : Args) (c : Circ) (o : Outcome) (h : main a c = .ok o) :
    (∀ path, a.e = some path → ∃ l, o = .exported path l ∧ IsWanted a c l) ∧
    (a.e = none → ∃ l nm, o = .simulated l nm (if a.fs.toList.map Char.toLower = ['n', 'o', 'n', 'e'] then none else some a.fs) a.n a.s ∧ IsWanted a c l ∧
      (a.p ≤ 0 → nm = []) ∧
      (0 < a.p → ∃ e, IsNoise a.m a.p e ∧
        ∀ i, HasNoise nm e i ↔ instrName i ∈ (["h", "id", "t", "tdg", "sdg", "s", "cx", "swap"] : List String).map some)) := by
  unfold main at h
  cases hn : noiseOf a with
  | error e => rw [hn] at h; cases h
  | ok nm =>
    rw [hn] at h
    simp only at h
    cases hl : encoded a (prepared c) with
    | error e => rw [hl] at h; cases h
    | ok l =>
      rw [hl] at h
      simp only at h
      have hw := encoded_spec a c l hl
      constructor
      · intro path hp
        rw [hp] at h
        exact ⟨l, (Except.ok.inj h).symm, hw⟩
      · intro hp
        rw [hp] at h
        refine ⟨l, nm, (Except.ok.inj h).symm, hw, ?_, ?_⟩
        · intro h0
          unfold noiseOf at hn
          rw [if_neg (not_lt.2 h0)] at hn
          exact (Except.ok.inj hn).symm
        · intro h0
          unfold noiseOf at hn
          rw [if_pos h0] at hn
          cases hc : createNoiseModel a.m a.p with
          | error e => rw [hc] at hn; cases hn
          | ok nm' =>
            rw [hc] at hn
            obtain rfl := Except.ok.inj hn
            obtain ⟨x, xs, h1, h2⟩ := C57_noise_model a.m a.p nm' hc
            refine ⟨chain x xs, ⟨x, xs, h1, rfl⟩, fun i => ?_⟩
            constructor
            · rintro ⟨g, hg, hmem⟩
              have hin : g ∈ ["u1", "u2", "u3", "h", "id", "t", "tdg", "sdg", "rx", "ry", "rz", "s", "cx", "swap", "cswap"] := by
                rw [h2, h2, h2] at hmem
                show g ∈ ["u1", "u2", "u3", "h", "id", "t", "tdg", "sdg", "rx", "ry", "rz", "s"] ++ ["cx", "swap"] ++ ["cswap"]
                rw [List.mem_append, List.mem_append, List.mem_singleton]
                rcases hmem with (⟨h, -⟩ | ⟨h, -⟩ | ⟨h, -⟩) | (⟨h, -⟩ | ⟨h, -⟩ | ⟨h, -⟩) | ⟨h, -⟩ | ⟨h, -⟩ | ⟨h, -⟩
                all_goals first | exact .inl (.inl h) | exact .inl (.inr h) | exact .inr h
              exact List.mem_map.2 ⟨g, instrName_noisy i g hg hin, hg.symm⟩
            · intro hi
              obtain ⟨g, hg, hgi⟩ := List.mem_map.1 hi
              refine ⟨g, hgi.symm, ?_⟩
              have : g ∈ ["u1", "u2", "u3", "h", "id", "t", "tdg", "sdg", "rx", "ry", "rz", "s"] ∨ g ∈ ["cx", "swap"] := by
                have key : ∀ g ∈ ["h", "id", "t", "tdg", "sdg", "s", "cx", "swap"],
                    g ∈ ["u1", "u2", "u3", "h", "id", "t", "tdg", "sdg", "rx", "ry", "rz", "s"] ∨ g ∈ ["cx", "swap"] := by decide
                exact key g hg
              rcases this with h' | h'
              · exact .inl ((h2 _ _).2 (.inl ⟨h', rfl⟩))
              · exact .inr (.inl ((h2 _ _).2 (.inr (.inl ⟨h', rfl⟩))))

/-! ### The channel of every instruction -/

/-- A gate with this many controls is one of the gates on one qubit that have noise. -/
def Single (op : Op) (controls : ℕ) : Prop := controls = 0 ∧ op ∈ [Op.I, .H, .S, .Sdg, .T, .Tdg]

/-- An instruction on one qubit that has noise: identity, H, S, T and their inverses without controls. -/
def SingleNoise : Instr → Prop
  | .gate op c _ => Single op c.length
  | .cc op _ _ _ _ => Single op 0
  | .clone g => Single g.op g.controls.length
  | _ => False

/-- An instruction on two qubits that has noise: X with one control, and swap. -/
def DoubleNoise : Instr → Prop
  | .gate op c _ => op = .X ∧ c.length = 1
  | .clone g => g.op = .X ∧ g.controls.length = 1
  | .swap _ _ => True
  | _ => False

theorem gateName_single (op : Op) (k : ℕ) : (∃ g, gateName op k = some g ∧
    g ∈ ["u1", "u2", "u3", "h", "id", "t", "tdg", "sdg", "rx", "ry", "rz", "s"]) ↔ Single op k := by
  unfold Single
  match k with
  | 0 =>
    simp only [true_and]
    cases op <;> simp [gateName, opName]
  | k + 1 =>
    constructor
    · rintro ⟨g, h, hg⟩
      exfalso
      obtain ⟨b, hb, rfl⟩ := Option.map_eq_some_iff.1 h
      have hc : (String.ofList (List.replicate (k + 1) 'c' ++ b.toList)).toList.take 1 = ['c'] := by
        rw [String.toList_ofList]
        rfl
      have : ∀ g ∈ ["u1", "u2", "u3", "h", "id", "t", "tdg", "sdg", "rx", "ry", "rz", "s"], g.toList.take 1 ≠ ['c'] := by
        decide
      exact this _ hg hc
    · rintro ⟨h, -⟩
      omega

theorem gateName_double (op : Op) (k : ℕ) : (∃ g, gateName op k = some g ∧ g ∈ ["cx", "swap"]) ↔ op = .X ∧ k = 1 := by
  match k with
  | 0 => cases op <;> simp [gateName, opName]
  | 1 => cases op <;> simp [gateName, opName]
  | k + 2 =>
    constructor
    · rintro ⟨g, h, hg⟩
      exfalso
      obtain ⟨b, hb, rfl⟩ := Option.map_eq_some_iff.1 h
      have hc : (String.ofList (List.replicate (k + 2) 'c' ++ b.toList)).toList.take 2 = ['c', 'c'] := by
        rw [String.toList_ofList]
        rfl
      have : ∀ g ∈ ["cx", "swap"], g.toList.take 2 ≠ ['c', 'c'] := by
        decide
      exact this _ hg hc
    · rintro ⟨-, h⟩
      omega

theorem gateName_not_cswap (op : Op) (k : ℕ) : gateName op k ≠ some "cswap" := by
  intro h
  have := gateName_noisy op k _ h (by decide)
  revert this
  decide

/-- C118: for a positive probability an instruction on one qubit with noise has exactly the channel of the letters, one on two qubits exactly this
channel on each of its two qubits, and all other instructions have no channel. -/
theorem C118_channels (a : Args) (c : Circ) (l : List Instr) (nm : NoiseModel ℚ) (method : Option String) (shots seed : ℕ)
    (h : main a c = .ok (.simulated l nm method shots seed)) (hp : 0 < a.p) :
    ∃ e, IsNoise a.m a.p e ∧ ∀ i ch, (∃ g, instrName i = some g ∧ (g, ch) ∈ nm) ↔
      SingleNoise i ∧ ch = e ∨ DoubleNoise i ∧ ch = .tensor e e := by
  unfold main at h
  cases hn : noiseOf a with
  | error e => rw [hn] at h; cases h
  | ok nm' =>
    rw [hn] at h
    simp only at h
    cases hl : encoded a (prepared c) with
    | error e => rw [hl] at h; cases h
    | ok l' =>
      rw [hl] at h
      simp only at h
      cases he : a.e with
      | some path => rw [he] at h; cases h
      | none =>
        rw [he] at h
        obtain ⟨-, rfl, -⟩ : l' = l ∧ nm' = nm ∧ True := by
          simp only [Except.ok.injEq, Outcome.simulated.injEq] at h
          exact ⟨h.1, h.2.1, trivial⟩
        unfold noiseOf at hn
        rw [if_pos hp] at hn
        cases hc : createNoiseModel a.m a.p with
        | error e => rw [hc] at hn; cases hn
        | ok nm' =>
          rw [hc] at hn
          obtain rfl := Except.ok.inj hn
          obtain ⟨x, xs, h1, h2⟩ := C57_noise_model a.m a.p nm' hc
          refine ⟨chain x xs, ⟨x, xs, h1, rfl⟩, fun i ch => ?_⟩
          have key : ∀ P : Option String, ∀ s d : Prop, ((∃ g, P = some g ∧ g ∈ ["u1", "u2", "u3", "h", "id", "t", "tdg", "sdg", "rx", "ry", "rz", "s"]) ↔ s) →
              ((∃ g, P = some g ∧ g ∈ ["cx", "swap"]) ↔ d) → P ≠ some "cswap" →
              ((∃ g, P = some g ∧ (g, ch) ∈ nm') ↔ s ∧ ch = chain x xs ∨ d ∧ ch = .tensor (chain x xs) (chain x xs)) := by
            intro P s d hs hd hcs
            rw [← hs, ← hd]
            constructor
            · rintro ⟨g, hg, hm⟩
              rcases (h2 _ _).1 hm with ⟨h, rfl⟩ | ⟨h, rfl⟩ | ⟨h, rfl⟩
              · exact .inl ⟨⟨g, hg, h⟩, rfl⟩
              · exact .inr ⟨⟨g, hg, h⟩, rfl⟩
              · subst h; exact absurd hg hcs
            · rintro (⟨⟨g, hg, h⟩, rfl⟩ | ⟨⟨g, hg, h⟩, rfl⟩)
              · exact ⟨g, hg, (h2 _ _).2 (.inl ⟨h, rfl⟩)⟩
              · exact ⟨g, hg, (h2 _ _).2 (.inr (.inl ⟨h, rfl⟩))⟩
          cases i with
          | reset q => exact key none False False (by simp) (by simp) (by simp)
          | measure q c => exact key none False False (by simp) (by simp) (by simp)
          | swap p q => exact key (some "swap") False True (by simp) (by simp) (by decide)
          | gate op c t => exact key _ _ _ (gateName_single _ _) (gateName_double _ _) (gateName_not_cswap _ _)
          | clone g => exact key _ _ _ (gateName_single _ _) (gateName_double _ _) (gateName_not_cswap _ _)
          | cc op q s l v => exact key _ _ False (gateName_single _ _) ((gateName_double _ _).trans (by simp)) (gateName_not_cswap _ _)

/-! ### Gates without noise -/

theorem emit_mem {s : St} {i : Instr} (l : List Instr) (h : i ∈ s.out) : i ∈ (s.emit l).out := List.mem_append_left _ h

theorem single_mem (n m : ℕ) (x : Bool) {s : St} {i : Instr} (h : i ∈ s.out) : i ∈ (Q7.single n m x s).out := emit_mem _ h

theorem correct_mem (n m : ℕ) {s : St} {i : Instr} (h : i ∈ s.out) : i ∈ (Q7.correct n m s).out := by
  unfold Q7.correct
  split
  · exact h
  · exact single_mem n m _ (single_mem n m _ h)

theorem decode_mem (n m : ℕ) {s : St} {i : Instr} (h : i ∈ s.out) : i ∈ (Q7.decode n m s).out := by
  unfold Q7.decode
  split
  · exact h
  · exact emit_mem _ h

theorem encode_mem (n m : ℕ) {s : St} {i : Instr} (h : i ∈ s.out) : i ∈ (Q7.encode n m s).out := by
  unfold Q7.encode
  split
  · exact h
  · exact single_mem n m _ (emit_mem _ h)

theorem mapGate_mem (n m : ℕ) (g : Gate) {s s' : St} {i : Instr} (h : i ∈ s.out) (hs : Q7.mapGate n m (Q7.correct n m) g s = .ok s') :
    i ∈ s'.out := by
  unfold Q7.mapGate at hs
  have h1 : i ∈ (if s.isDecoded && g.op ≠ .measure then Q7.encode n m s else s).out := by
    split
    · exact encode_mem n m h
    · exact h
  revert hs
  generalize (if s.isDecoded && g.op ≠ .measure then Q7.encode n m s else s) = t at h1
  intro hs
  simp only at hs
  split at hs
  all_goals first
    | (obtain rfl := Except.ok.inj hs; first | exact h1 | exact emit_mem _ h1)
    | (split at hs <;> first | (cases hs; done) | (obtain rfl := Except.ok.inj hs; exact emit_mem _ h1))
    | (cases hs; done)
    | (cases hu : userMeasureSwapped g with
       | error e => rw [hu] at hs; cases hs
       | ok l =>
         rw [hu] at hs
         obtain rfl := Except.ok.inj hs
         apply emit_mem
         unfold beforeMeasure
         split
         · exact decode_mem n m (correct_mem n m h1)
         · exact h1)

theorem loop_mem (n m freq : ℕ) (gates : List Gate) : ∀ (k : ℕ) (s s' : St) (i : Instr), i ∈ s.out →
    loop (Q7.mapGate n m (Q7.correct n m)) (Q7.correct n m) freq k gates s = .ok s' → i ∈ s'.out := by
  induction gates with
  | nil => intro k s s' i h hs; obtain rfl := Except.ok.inj hs; exact h
  | cons g gs ih =>
    intro k s s' i h hs
    simp only [loop] at hs
    cases hg : Q7.mapGate n m (Q7.correct n m) g s with
    | error e => rw [hg] at hs; cases hs
    | ok t =>
      rw [hg] at hs
      refine ih _ _ _ i ?_ hs
      have := mapGate_mem n m g h hg
      unfold periodic
      split
      · exact correct_mem n m this
      · exact this

/-- Every circuit encoded with the seven-qubit code contains a correction by Z. -/
theorem q7_correction (n m freq : ℕ) (hn : 0 < n) (gates : List Gate) (l : List Instr) (h : (q7Steane n m).apply freq gates = .ok l) :
    Instr.cc .Z 0 m 3 1 ∈ l := by
  unfold Scheme.apply at h
  cases hl : loop (q7Steane n m).mapGate (q7Steane n m).measureAndCorrect freq 0 gates (((q7Steane n m).writeEncoding {}).decoded false) with
  | error e => rw [hl] at h; cases h
  | ok s =>
    rw [hl] at h
    obtain rfl := Except.ok.inj h
    have h0 : Instr.cc .Z 0 m 3 1 ∈ (((q7Steane n m).writeEncoding {}).decoded false).out := by
      show Instr.cc .Z 0 m 3 1 ∈ (Q7.encode n m {}).out
      unfold Q7.encode Q7.single St.emit blocks
      simp only [St.decoded, Bool.not_true, Bool.false_eq_true, if_false, List.nil_append]
      refine List.mem_flatMap.2 ⟨0, List.mem_range.2 hn, ?_⟩
      unfold Q7.singleBlock
      refine List.mem_append_right _ (List.mem_append_right _ (List.mem_map.2 ⟨0, by simp, ?_⟩))
      simp [dat]
    have h1 := loop_mem n m freq gates 0 _ s _ h0 hl
    show Instr.cc .Z 0 m 3 1 ∈ ((q7Steane n m).finish s).out
    unfold Scheme.finish
    split
    · exact decode_mem n m (correct_mem n m h1)
    · exact h1

/-- **C118 fails** for the default scheme on every circuit: corrections are applied without noise. -/
theorem C118_violated_default (c : Circ) (hn : 0 < c.n) (a : Args) (ha : a.ecc = "Q7Steane") (hp : 0 < a.p) (l : List Instr) (nm : NoiseModel ℚ)
    (method : Option String) (shots seed : ℕ) (h : main a c = .ok (.simulated l nm method shots seed)) :
    ∃ e, IsNoise a.m a.p e ∧ ∃ i ∈ l, (instrName i).isSome ∧ ¬ HasNoise nm e i := by
  have he : a.e = none := by
    cases he : a.e with
    | none => rfl
    | some path =>
      obtain ⟨l', ho, -⟩ := (C118_run_partial a c _ h).1 path he
      cases ho
  obtain ⟨l', nm', ho, hw, -, hnoise⟩ := (C118_run_partial a c _ h).2 he
  cases ho
  obtain ⟨e, h1, h2⟩ := hnoise hp
  obtain ⟨c', hc, -, ⟨hbad, -⟩ | ⟨-, k, hk, hl⟩⟩ := hw
  · rw [ha] at hbad; exact absurd hbad (by decide)
  · rw [ha] at hk
    obtain rfl : k = q7Steane := named_q7 hk
    refine ⟨e, h1, _, q7_correction c'.n c'.m a.fq (by omega) c'.gates l hl, rfl, ?_⟩
    rw [h2]
    show ¬ some "z" ∈ _
    decide

/-- **C118 fails** without error correction, for a circuit of one X gate; such a circuit is simulated without any noise. -/
theorem C118_violated : ¬ C118_claim := by
  intro hcl
  have hm : ∃ nm, createNoiseModel "D" (1 / 1000 : ℚ) = .ok nm := ⟨_, rfl⟩
  obtain ⟨nm, hnm⟩ := hm
  have hrun : main { ecc := "none" } ⟨1, 1, [⟨.X, [], [0], []⟩, ⟨.measure, [], [0], [0]⟩]⟩ =
      .ok (.simulated [.clone ⟨.X, [], [0], []⟩, .clone ⟨.measure, [], [0], [0]⟩] nm (some "stabilizer") 2000 0) := by
    have h1 : noiseOf { ecc := "none" } = .ok nm := by
      unfold noiseOf
      rw [if_pos (by norm_num), hnm]
    unfold main
    rw [h1]
    have h2 : encoded { ecc := "none" } (prepared ⟨1, 1, [⟨.X, [], [0], []⟩, ⟨.measure, [], [0], [0]⟩]⟩) =
        .ok [.clone ⟨.X, [], [0], []⟩, .clone ⟨.measure, [], [0], [0]⟩] := by
      unfold encoded notNone prepared
      rw [if_pos (by decide), if_pos (by decide)]
      rfl
    rw [h2]
    have h3 : notNone ({ ecc := "none" } : Args).fs = some "stabilizer" := by
      unfold notNone
      rw [if_neg (by decide)]
    rw [h3]
  obtain ⟨-, e, he, hall⟩ := hcl _ _ _ _ _ _ _ hrun (by norm_num)
  have hx := hall _ (List.mem_cons_self ..) rfl
  obtain ⟨l', nm', ho, -, -, hnoise⟩ := (C118_run_partial _ _ _ hrun).2 rfl
  cases ho
  obtain ⟨e', -, h2⟩ := hnoise (by norm_num)
  obtain ⟨g, hg, hmem⟩ := hx
  obtain rfl : g = "x" := (Option.some.inj hg).symm
  obtain ⟨x, xs, -, hiff⟩ := C57_noise_model "D" (1 / 1000 : ℚ) nm hnm
  rw [hiff, hiff, hiff] at hmem
  simp only [List.mem_cons, List.not_mem_nil, or_false] at hmem
  revert hmem
  simp

/-- The default run of a one-qubit circuit with a Hadamard gate: measurements are added, the seven-qubit code is applied. -/
example : ∃ l nm, main {} ⟨1, 0, [⟨.H, [], [0], []⟩]⟩ = .ok (.simulated l nm (some "stabilizer") 2000 0) ∧ Instr.cc .Z 0 1 3 1 ∈ l := by
  have hm : ∃ nm, createNoiseModel "D" (1 / 1000 : ℚ) = .ok nm := ⟨_, rfl⟩
  obtain ⟨nm, hnm⟩ := hm
  have h1 : noiseOf {} = .ok nm := by
    unfold noiseOf
    rw [if_pos (by norm_num), hnm]
  have h2 : ∃ l, encoded {} (prepared ⟨1, 0, [⟨.H, [], [0], []⟩]⟩) = .ok l := by
    unfold encoded notNone
    rw [if_neg (by decide)]
    exact ⟨_, rfl⟩
  obtain ⟨l, hl⟩ := h2
  have hrun : main {} ⟨1, 0, [⟨.H, [], [0], []⟩]⟩ = .ok (.simulated l nm (some "stabilizer") 2000 0) := by
    unfold main
    rw [h1]
    simp only
    rw [hl]
    have h3 : notNone ({} : Args).fs = some "stabilizer" := by
      unfold notNone
      rw [if_neg (by decide)]
    rw [h3]
  refine ⟨l, nm, hrun, ?_⟩
  obtain ⟨c', hc, hc', ⟨hbad, -⟩ | ⟨-, k, hk, hl'⟩⟩ := encoded_spec _ _ _ hl
  · exact absurd hbad (by decide)
  · obtain rfl : k = q7Steane := named_q7 hk
    rcases hc' with ⟨⟨g, hg, hg'⟩, -⟩ | ⟨-, hm', -⟩
    · simp only [List.mem_singleton] at hg
      subst hg
      cases hg'
    · have := q7_correction c'.n c'.m _ (by rw [hc]; exact Nat.one_pos) c'.gates l hl'
      rwa [hm'] at this

end Verif.Wrapper
