import Verif.Lemmas.EccTableau
import Verif.Props.EccShor3

/-!
# C100: encoded circuits that do not give the results of the original circuit

The circuits are run by the verified simulator of `Lemmas/EccTableau`: `simBit` follows one branch, `detBit` shows that a bit is
the same in all results.
-/

namespace Verif.Ecc
variable (R : Type) [CommRing R] (k : Consts R)

/-- C100 for all schemes: the mapped circuit can give exactly the results of the original one. -/
def C100_claim (scheme : ℕ → ℕ → Scheme) : Prop :=
  ∀ (n m freq : ℕ) (gates : List Gate) (l : List Instr), (∀ g ∈ gates, g.WF n m) → (scheme n m).apply freq gates = .ok l →
    SameResultSets R k n m gates ((scheme n m).outputQubits n) l

/-- With determined results, equal results are the same as equal sets of results. -/
theorem sets_of_same {n m N : ℕ} {gates : List Gate} {l : List Instr} (h : SameResults R k n m gates N l) :
    SameResultSets R k n m gates N l := by
  intro cl
  obtain ⟨⟨r, hr⟩, ⟨r', hr'⟩, h⟩ := h cl
  exact ⟨fun r₁ h₁ => ⟨r', hr', h r₁ r' h₁ hr'⟩, fun r₁ h₁ => ⟨r, hr, h r r₁ hr h₁⟩⟩

theorem C100_sets_q3 [Nontrivial R] : C100_claim R k q3Shor := fun n m freq gates l hg hl =>
  sets_of_same R k (C100_q3 k n m freq gates hg l hl)

theorem C100_sets_id : C100_claim R k fun _ _ => idScheme := fun n m freq gates l _ hl cl =>
  ⟨fun r hr => ⟨r, (C100_id k n freq gates l hl cl r).2 hr, fun _ _ => rfl⟩,
    fun r hr => ⟨r, (C100_id k n freq gates l hl cl r).1 hr, fun _ _ => rfl⟩⟩

/-- A simulated branch that contradicts the determined value of a bit. -/
theorem violated [Nontrivial R] (scheme : ℕ → ℕ → Scheme) (n m freq : ℕ) (gates : List Gate) (choices : List Bool) (b : ℕ) (v : Bool)
    (hb : b < m) (hw : ∀ g ∈ gates, g.WF n m)
    (hi : expand (gates.flatMap Gate.instrs) = gates.flatMap Gate.instrs) (ho : detBit n (gates.flatMap Gate.instrs) b = some v)
    (hm : (match (scheme n m).apply freq gates with
      | .ok l => simBit ((scheme n m).outputQubits n) l choices b
      | .error _ => none) = some (!v)) : ¬ C100_claim R k scheme := by
  intro h
  cases hl : (scheme n m).apply freq gates with
  | error e => rw [hl] at hm; cases hm
  | ok l =>
    rw [hl] at hm
    obtain ⟨r', h1, h2⟩ := simBit_result (R := R) k hm
    obtain ⟨r, h3, h4⟩ := (h n m freq gates l hw hl fun _ => false).2 r' h1
    have h5 := (detBit_result (R := R) k ho).2 r ((mapped_original k hi _ _).2 h3)
    rw [← h4 b hb, h5] at h2
    cases v <;> cases h2

/-- Gate and measurement of one qubit. -/
def one (op : Op) (t : ℕ) : Gate := { op := op, targets := [t] }
def meas (q c : ℕ) : Gate := { op := .measure, targets := [q], classics := [c] }

/-- A measurement decodes the qubits and the next gate encodes them again; this encoding does not keep the value 1 of the
qubit: the second measurement gives 1, the original circuit 0. -/
theorem C100_violated_q5 [Nontrivial R] : ¬ C100_claim R k q5Laflamme :=
  violated R k q5Laflamme 1 1 0 [one .X 0, meas 0 0, one .X 0, meas 0 0] [] 0 false (by decide) (by simp [Gate.WF, one, meas])
    (by decide) (by decide +kernel) (by decide +kernel)

/-- Measuring two qubits that are in state 0 can give 1: the encoding of the second one uses the ancilla of the first one
without a reset in between. -/
theorem C100_violated_q5_measure [Nontrivial R] : ¬ C100_claim R k q5Laflamme :=
  violated R k q5Laflamme 2 2 0 [meas 0 0, meas 1 1] (List.replicate 100 true) 1 false (by decide) (by simp [Gate.WF, meas])
    (by decide) (by decide +kernel) (by decide +kernel)

/-- The same for Steane's code. -/
theorem C100_violated_q7 [Nontrivial R] : ¬ C100_claim R k q7Steane :=
  violated R k q7Steane 1 1 0 [one .X 0, meas 0 0, one .X 0, meas 0 0] [] 0 false (by decide) (by simp [Gate.WF, one, meas])
    (by decide) (by decide +kernel) (by decide +kernel)

/-- With a correction after every gate the surface code can give 0 for H Z H, which is X. -/
theorem C100_violated_surface9 [Nontrivial R] : ¬ C100_claim R k q9Surface :=
  violated R k q9Surface 1 1 1 [one .H 0, one .Z 0, one .H 0, meas 0 0] (List.replicate 18 false ++ [true]) 0 true (by decide)
    (by simp [Gate.WF, one, meas]) (by decide) (by decide +kernel) (by decide +kernel)

/-- The larger surface code can give 1 for X H Z H, which is 0. -/
theorem C100_violated_surface18 [Nontrivial R] : ¬ C100_claim R k q18Surface :=
  violated R k q18Surface 1 1 1 [one .X 0, one .H 0, one .Z 0, one .H 0, meas 0 0] (List.replicate 108 false ++ [true]) 0 false (by decide)
    (by simp [Gate.WF, one, meas]) (by decide) (by decide +kernel) (by decide +kernel)

end Verif.Ecc
