import Verif.Lemmas.Rref
import Verif.Lemmas.Encoding

/-! # C28–C30, C66: synthesis of state preparation circuits -/

namespace Verif.SP
open Verif Verif.Spec
variable {n : ℕ}

/-! ### Heuristic synthesis -/

/-- The greedy loop ends for every check matrix, and the state it returns satisfies the invariant. -/
theorem C29_terminates (rref : List (Vec n) → List (Vec n)) (hr : RrefOk rref) (checks : List (Vec n))
    (optimizeDepth zeroState : Bool) :
    ∃ N c, ∀ fuel ≥ N, heuristicPrep rref checks optimizeDepth zeroState fuel = some c := by
  obtain ⟨N, s, -, -, h⟩ := heurLoop_terminates rref hr optimizeDepth checks _ (hInv_init checks)
  exact ⟨N, buildCircuit s.cnots s.checks zeroState, fun fuel hf => by rw [heuristicPrep, h fuel hf]; rfl⟩

/-- After any number of iterations: the recorded CNOTs act on two different qubits, the current
matrix has exactly the row space of the original matrix pushed through the recorded CNOTs, the cost
table is that of the current matrix, and no qubit is listed twice as used. -/
theorem C29_invariant (rref : List (Vec n) → List (Vec n)) (hr : RrefOk rref) (checks : List (Vec n))
    (optimizeDepth : Bool) (k : ℕ) :
    let s := (heurStep rref optimizeDepth)^[k] { checks := checks, costs := initCosts checks, used := [], cnots := [] }
    (∀ g ∈ s.cnots, g.1 ≠ g.2) ∧
    (∀ v, v ∈ rowSpan s.checks ↔ ∃ w ∈ rowSpan checks, s.cnots.foldl cnotX w = v) ∧
    (∀ i j, i ≠ j → s.costs i j = (pairSum s.checks i j : ℤ) - colSum s.checks j) ∧ s.used.Nodup := by
  intro s
  have hI : HInv checks s := by
    show HInv checks ((heurStep rref optimizeDepth)^[k] _)
    induction k with
    | zero => exact hInv_init checks
    | succ k ih =>
      rw [Function.iterate_succ_apply']
      exact hInv_step rref hr optimizeDepth checks _ ih
  refine ⟨hI.ne, ?_, ?_, hI.nodup⟩
  · intro v
    rw [hI.span, Submodule.mem_map]
    simp only [foldL_apply]
  · intro i j hij
    rw [hI.costs]
    simp [initCosts, fillDiag, hij]

theorem heurLoop_some (rref : List (Vec n) → List (Vec n)) (hr : RrefOk rref) (od : Bool) (M0 : List (Vec n))
    (fuel : ℕ) (s s' : HState n) (hI : HInv M0 s) (h : heurLoop rref od (rank M0) fuel s = some s') :
    HInv M0 s' ∧ (nonzeroCols s'.checks).length = rank M0 := by
  induction fuel generalizing s with
  | zero => simp [heurLoop] at h
  | succ k ih =>
    rw [heurLoop] at h
    split at h
    · next hred => cases h; exact ⟨hI, (isReduced_iff _ _).1 hred⟩
    · exact ih _ (hInv_step rref hr od M0 s hI) h

/-- Whenever the heuristic returns a circuit, the circuit prepares the requested logical state: for
`zero_state` the X checks are `Hx` and the state has exactly them as X stabilizers and everything
orthogonal to them as Z stabilizers; otherwise the same with X and Z exchanged. -/
theorem C28_heuristic (rref : List (Vec n) → List (Vec n)) (hr : RrefOk rref) (checks : List (Vec n))
    (optimizeDepth : Bool) (fuel : ℕ) (c : PrepCircuit n) :
    (heuristicPrep rref checks optimizeDepth true fuel = some c → PreparesZero c.hadamards c.cnots checks) ∧
    (heuristicPrep rref checks optimizeDepth false fuel = some c → PreparesPlus c.hadamards c.cnots checks) := by
  have key : ∀ zero, heuristicPrep rref checks optimizeDepth zero fuel = some c →
      ∃ s : HState n, HInv checks s ∧ (nonzeroCols s.checks).length = rank checks ∧
        c = buildCircuit s.cnots s.checks zero := by
    intro zero h
    unfold heuristicPrep at h
    rw [Option.map_eq_some_iff] at h
    obtain ⟨s, hs, rfl⟩ := h
    obtain ⟨h1, h2⟩ := heurLoop_some rref hr optimizeDepth checks fuel _ s (hInv_init checks) hs
    exact ⟨s, h1, h2, rfl⟩
  have fin : ∀ s : HState n, HInv checks s → (nonzeroCols s.checks).length = rank checks →
      (nonzeroCols s.checks).length = rank s.checks := by
    intro s hI h
    rw [h, rank_eq_finrank, rank_eq_finrank, hI.span]
    exact (Submodule.equivMapOfInjective _ (foldL_injective _ hI.ne) _).finrank_eq
  constructor
  · intro h
    obtain ⟨s, hI, hc, rfl⟩ := key true h
    exact (buildCircuit_correct checks s.checks s.cnots hI.ne hI.span (fin s hI hc)).1
  · intro h
    obtain ⟨s, hI, hc, rfl⟩ := key false h
    exact (buildCircuit_correct checks s.checks s.cnots hI.ne hI.span (fin s hI hc)).2

/-- The contract on the library function is satisfiable, and with it the heuristic returns a correct
circuit for the X checks of the Steane code. -/
example : ∃ rref : List (Vec 7) → List (Vec 7), RrefOk rref ∧ ∃ fuel c,
    heuristicPrep rref [![0,0,0,1,1,1,1], ![0,1,1,0,0,1,1], ![1,0,1,0,1,0,1]] true true fuel = some c ∧
    PreparesZero c.hadamards c.cnots [![0,0,0,1,1,1,1], ![0,1,1,0,0,1,1], ![1,0,1,0,1,0,1]] := by
  obtain ⟨rref, hr⟩ := exists_rref 7
  obtain ⟨N, c, h⟩ := C29_terminates rref hr [![0,0,0,1,1,1,1], ![0,1,1,0,0,1,1], ![1,0,1,0,1,0,1]] true true
  exact ⟨rref, hr, N, c, h N le_rfl, (C28_heuristic rref hr _ true N c).1 (h N le_rfl)⟩

/-- On the Steane code the greedy loop computes this circuit (the row reduction is not needed). -/
example : (heuristicPrep id [![0,0,0,1,1,1,1], ![0,1,1,0,0,1,1], ![1,0,1,0,1,0,1]] true true 30).map
    (fun c => (c.hadamards, c.cnots)) =
    some ([0, 1, 3], [(3, 5), (1, 2), (5, 6), (3, 4), (0, 2), (1, 5), (0, 4), (2, 6)]) := by decide +kernel

/-- A weaker contract: the returned matrix has the form `[I A]`, obtained by row operations *and a
permutation of the columns* (which `reduced_row_echelon` reports in a separate result that the code
ignores). -/
def RrefPermAt (M N : List (Vec n)) : Prop :=
  ∃ σ : Equiv.Perm (Fin n), rowSpan N = rowSpan (M.map fun r => r ∘ σ) ∧ UnitRows N

/-- The assumption that columns are not permuted is needed: if the library function permutes
columns, the heuristic can return a circuit for a different state.  (In this run the function is
called on the input matrix only.) -/
theorem C28_rref_contract_needed : ∃ (rref : List (Vec 4) → List (Vec 4)) (checks : List (Vec 4)),
    RrefPermAt checks (rref checks) ∧
    ∃ fuel c, heuristicPrep rref checks true true fuel = some c ∧
      ¬ PreparesZero c.hadamards c.cnots checks := by
  refine ⟨fun M => if M = [![0,0,1,1], ![0,1,0,1], ![0,1,1,0]] then [![1,0,0,1], ![0,1,0,1], ![0,0,0,0]] else M,
    [![0,0,1,1], ![0,1,0,1], ![0,1,1,0]], ?_, 8, ⟨[0, 1], [(1, 3), (0, 3)]⟩, ?_, ?_⟩
  · refine ⟨⟨![1,2,0,3], ![2,0,1,3], by decide, by decide⟩, ?_, ?_⟩
    · apply le_antisymm
      · rw [rowSpan_le_iff]
        intro r hr
        rw [← inSpan_iff]
        revert r
        decide +kernel
      · rw [rowSpan_le_iff]
        intro r hr
        rw [← inSpan_iff]
        revert r
        decide +kernel
    · unfold UnitRows
      decide +kernel
  · have h : (heuristicPrep (fun M : List (Vec 4) =>
        if M = [![0,0,1,1], ![0,1,0,1], ![0,1,1,0]] then [![1,0,0,1], ![0,1,0,1], ![0,0,0,0]] else M)
        [![0,0,1,1], ![0,1,0,1], ![0,1,1,0]] true true 8).map (fun c => (c.hadamards, c.cnots)) =
        some ([0, 1], [(1, 3), (0, 3)]) := by decide +kernel
    rw [Option.map_eq_some_iff] at h
    obtain ⟨c, hc, he⟩ := h
    rw [hc]
    obtain ⟨a, b⟩ := c
    simp only [Prod.mk.injEq] at he
    rw [he.1, he.2]
  · intro hp
    have h1 : (![1,0,0,1] : Vec 4) ∈ finalX [0, 1] [((1 : Fin 4), (3 : Fin 4)), (0, 3)] :=
      Submodule.subset_span ⟨0, by simp, by decide +kernel⟩
    have h2 := (hp.1 _).1 h1
    rw [← inSpan_iff] at h2
    exact absurd h2 (by decide +kernel)

/-! ### Optimal synthesis -/

/-- Number of all-zero columns. -/
def zeroCols (M : List (Vec n)) : ℕ := (Finset.univ.filter fun j : Fin n => ∀ r ∈ M, r j = 0).card

theorem zeroCols_add (M : List (Vec n)) : zeroCols M + (nonzeroCols M).length = n := by
  have : zeroCols M = (Finset.univ.filter fun j : Fin n => j ∉ nonzeroCols M).card := by
    unfold zeroCols
    congr 1
    ext j
    simp only [Finset.mem_filter, Finset.mem_univ, true_and, mem_nonzeroCols]
    constructor
    · rintro h ⟨r, hr, h1⟩; rw [h r hr] at h1; exact absurd h1 (by decide)
    · intro h r hr
      exact (zmod2_cases (r j)).resolve_right fun h1 => h ⟨r, hr, h1⟩
  rw [this, ← List.toFinset_card_of_nodup (nodup_nonzeroCols M)]
  have h2 : (nonzeroCols M).toFinset = Finset.univ.filter fun j : Fin n => j ∈ nonzeroCols M := by
    ext j; simp
  rw [h2, add_comm, Finset.card_filter_add_card_filter_not, Finset.card_univ, Fintype.card_fin]

/-- Apply a CNOT list to the columns of a matrix. -/
def applyCols (cnots : List (Fin n × Fin n)) (M : List (Vec n)) : List (Vec n) :=
  M.map fun r => cnots.foldl cnotX r

theorem applyCols_eq (cnots : List (Fin n × Fin n)) (M : List (Vec n)) :
    applyCols cnots M = M.map (foldL cnots) := by
  unfold applyCols
  exact List.map_congr_left fun r _ => (foldL_apply cnots r).symm

/-- The gate-optimal encoding with `k` gates is satisfiable exactly when some sequence of `k` CNOTs
(each on two different qubits) brings the check matrix to `n - m` zero columns, and every solution
is extracted to such a sequence. -/
theorem C30_gate (checks : List (Vec n)) (k : ℕ) :
    ((∃ a, gateConstraint checks k a = true) ↔
      ∃ cnots : List (Fin n × Fin n), cnots.length = k ∧ (∀ g ∈ cnots, g.1 ≠ g.2) ∧
        zeroCols (applyCols cnots checks) + checks.length = n) ∧
    (∀ a, gateConstraint checks k a = true → ∀ zero, ∃ cnots : List (Fin n × Fin n), cnots.length = k ∧
      (∀ g ∈ cnots, g.1 ≠ g.2) ∧ zeroCols (applyCols cnots checks) + checks.length = n ∧
      gateExtract checks k zero a = some (buildCircuit cnots (applyCols cnots checks) zero)) := by
  have hz : ∀ cnots : List (Fin n × Fin n), (zeroCols (applyCols cnots checks) + checks.length = n ↔
      (nonzeroCols (checks.map (foldL cnots))).length = checks.length) := by
    intro cnots
    have := zeroCols_add (applyCols cnots checks)
    rw [applyCols_eq] at *
    omega
  have hs : ∀ a, gateConstraint checks k a = true → ∀ zero, ∃ cnots : List (Fin n × Fin n), cnots.length = k ∧
      (∀ g ∈ cnots, g.1 ≠ g.2) ∧ zeroCols (applyCols cnots checks) + checks.length = n ∧
      gateExtract checks k zero a = some (buildCircuit cnots (applyCols cnots checks) zero) := by
    intro a ha zero
    obtain ⟨cnots, h1, h2, h3, h4⟩ := gate_sound checks k a ha zero
    exact ⟨cnots, h1, h2, (hz cnots).2 h3, by rw [h4, applyCols_eq]⟩
  refine ⟨⟨?_, ?_⟩, hs⟩
  · rintro ⟨a, ha⟩
    obtain ⟨cnots, h1, h2, h3, -⟩ := hs a ha true
    exact ⟨cnots, h1, h2, h3⟩
  · rintro ⟨cnots, rfl, h2, h3⟩
    exact gate_complete checks cnots h2 ((hz cnots).1 h3)

/-- A non-trivial instance: two gates suffice for the X checks of the three-qubit code. -/
example : ∃ a, gateConstraint (n := 3) [![1,1,0], ![0,1,1]] 2 a = true :=
  (C30_gate _ 2).1.2 ⟨[(0, 1), (1, 2)], rfl, by decide, by decide +kernel⟩

/-- The depth-optimal encoding with depth `D` is satisfiable exactly when some sequence of `D` layers,
each a set of CNOTs on pairwise disjoint qubits, brings the check matrix to `n - m` zero columns. -/
theorem C30_depth (checks : List (Vec n)) (D : ℕ) :
    ((∃ a, depthConstraint checks D a = true) ↔
      ∃ layers : List (List (Fin n × Fin n)), layers.length = D ∧ (∀ L ∈ layers, Layer L) ∧
        zeroCols (applyCols layers.flatten checks) + checks.length = n) ∧
    (∀ a, depthConstraint checks D a = true → ∀ zero, ∃ layers : List (List (Fin n × Fin n)), layers.length = D ∧
      (∀ L ∈ layers, Layer L) ∧ zeroCols (applyCols layers.flatten checks) + checks.length = n ∧
      depthExtract checks D zero a = buildCircuit layers.flatten (applyCols layers.flatten checks) zero) := by
  have hz : ∀ cnots : List (Fin n × Fin n), (zeroCols (applyCols cnots checks) + checks.length = n ↔
      (nonzeroCols (checks.map (foldL cnots))).length = checks.length) := by
    intro cnots
    have := zeroCols_add (applyCols cnots checks)
    rw [applyCols_eq] at *
    omega
  have hs : ∀ a, depthConstraint checks D a = true → ∀ zero, ∃ layers : List (List (Fin n × Fin n)),
      layers.length = D ∧ (∀ L ∈ layers, Layer L) ∧
      zeroCols (applyCols layers.flatten checks) + checks.length = n ∧
      depthExtract checks D zero a = buildCircuit layers.flatten (applyCols layers.flatten checks) zero := by
    intro a ha zero
    obtain ⟨h1, h2, h3⟩ := depth_sound checks D a ha zero
    refine ⟨(List.range D).map fun d => layerCnots (a.add d), by simp, ?_, ?_, ?_⟩
    · intro L hL
      obtain ⟨d, hd, rfl⟩ := List.mem_map.1 hL
      exact h1 d (List.mem_range.1 hd)
    · rw [← List.flatMap_def, hz]; exact h2
    · rw [← List.flatMap_def, applyCols_eq]; exact h3
  refine ⟨⟨?_, ?_⟩, hs⟩
  · rintro ⟨a, ha⟩
    obtain ⟨layers, h1, h2, h3, -⟩ := hs a ha true
    exact ⟨layers, h1, h2, h3⟩
  · rintro ⟨layers, rfl, h2, h3⟩
    exact depth_complete checks layers h2 ((hz _).1 h3)

example : ∃ a, depthConstraint (n := 4) [![1,1,1,1]] 2 a = true :=
  (C30_depth _ 2).1.2 ⟨[[(0, 1), (2, 3)], [(0, 2)]], rfl, by unfold Layer Disj; decide, by decide +kernel⟩

/-- The claim of C28 for the gate-optimal synthesis without any condition on the check matrix. -/
def C28_gate_claim : Prop := ∀ (n : ℕ) (checks : List (Vec n)) (k : ℕ) (a : GateVars checks.length n),
  gateConstraint checks k a = true → ∃ c, gateExtract checks k true a = some c ∧ c.cnots.length = k ∧
    PreparesZero c.hadamards c.cnots checks

/-- The claim of C28 for the depth-optimal synthesis without any condition on the check matrix. -/
def C28_depth_claim : Prop := ∀ (n : ℕ) (checks : List (Vec n)) (D : ℕ) (a : DepthVars checks.length n),
  depthConstraint checks D a = true →
    PreparesZero (depthExtract checks D true a).hadamards (depthExtract checks D true a).cnots checks

theorem optimal_core (checks : List (Vec n)) (hrk : rank checks = checks.length) (cnots : List (CX n))
    (hne : ∀ g ∈ cnots, g.1 ≠ g.2) (hz : zeroCols (applyCols cnots checks) + checks.length = n) :
    PreparesZero (buildCircuit cnots (applyCols cnots checks) true).hadamards
      (buildCircuit cnots (applyCols cnots checks) true).cnots checks ∧
    PreparesPlus (buildCircuit cnots (applyCols cnots checks) false).hadamards
      (buildCircuit cnots (applyCols cnots checks) false).cnots checks := by
  apply buildCircuit_correct _ _ _ hne
  · rw [applyCols_eq, CSS.rowSpan_map]
  · have := zeroCols_add (applyCols cnots checks)
    rw [applyCols_eq] at *
    rw [rank_map_of_injective _ (foldL_injective cnots hne), hrk]
    omega

/-- For a check matrix with independent rows every solution of the gate-optimal encoding is
extracted to a circuit with exactly `k` CNOTs that prepares the requested state.  Missing for the
full claim: matrices with redundant rows, where it is false (`C28_violated_gate`). -/
theorem C28_gate_partial (checks : List (Vec n)) (hrk : rank checks = checks.length) (k : ℕ)
    (a : GateVars checks.length n) (ha : gateConstraint checks k a = true) :
    (∃ c, gateExtract checks k true a = some c ∧ c.cnots.length = k ∧ PreparesZero c.hadamards c.cnots checks) ∧
    (∃ c, gateExtract checks k false a = some c ∧ c.cnots.length = k ∧ PreparesPlus c.hadamards c.cnots checks) := by
  constructor
  · obtain ⟨cnots, h1, h2, h3, h4⟩ := (C30_gate checks k).2 a ha true
    exact ⟨_, h4, by simp [buildCircuit, h1], (optimal_core checks hrk cnots h2 h3).1⟩
  · obtain ⟨cnots, h1, h2, h3, h4⟩ := (C30_gate checks k).2 a ha false
    exact ⟨_, h4, by simp [buildCircuit, h1], (optimal_core checks hrk cnots h2 h3).2⟩

theorem layers_ne (layers : List (List (CX n))) (h : ∀ L ∈ layers, Layer L) :
    ∀ g ∈ layers.flatten, g.1 ≠ g.2 := by
  intro g hg
  obtain ⟨L, hL, hgL⟩ := List.mem_flatten.1 hg
  exact (h L hL).1 g hgL

/-- The same for the depth-optimal encoding. -/
theorem C28_depth_partial (checks : List (Vec n)) (hrk : rank checks = checks.length) (D : ℕ)
    (a : DepthVars checks.length n) (ha : depthConstraint checks D a = true) :
    PreparesZero (depthExtract checks D true a).hadamards (depthExtract checks D true a).cnots checks ∧
    PreparesPlus (depthExtract checks D false a).hadamards (depthExtract checks D false a).cnots checks := by
  constructor
  · obtain ⟨layers, h1, h2, h3, h4⟩ := (C30_depth checks D).2 a ha true
    rw [h4]
    exact (optimal_core checks hrk _ (layers_ne layers h2) h3).1
  · obtain ⟨layers, h1, h2, h3, h4⟩ := (C30_depth checks D).2 a ha false
    rw [h4]
    exact (optimal_core checks hrk _ (layers_ne layers h2) h3).2

example : rank ([![1,1,0], ![0,1,1]] : List (Vec 3)) = 2 := by decide +kernel

theorem finalX_eq_map (hs : List (Fin n)) (cnots : List (CX n)) : finalX hs cnots =
    (Submodule.span (ZMod 2) {w : Vec n | ∃ q ∈ hs, w = Pi.single q 1}).map (foldL cnots) := by
  rw [Submodule.map_span, finalX]
  congr 1
  ext v
  constructor
  · rintro ⟨q, hq, rfl⟩; exact ⟨_, ⟨q, hq, rfl⟩, foldL_apply _ _⟩
  · rintro ⟨w, ⟨q, hq, rfl⟩, rfl⟩; exact ⟨q, hq, (foldL_apply _ _)⟩

/-- Too many Hadamards: the number of Hadamard qubits is the rank of the X stabilizers. -/
theorem hadamards_eq_rank (hs : List (Fin n)) (hnd : hs.Nodup) (cnots : List (CX n))
    (hne : ∀ g ∈ cnots, g.1 ≠ g.2) (M : List (Vec n)) (h : ∀ v, v ∈ finalX hs cnots ↔ v ∈ rowSpan M) :
    hs.length = rank M := by
  have e1 : finalX hs cnots = rowSpan M := by ext v; exact h v
  rw [rank_eq_finrank, ← e1, finalX_eq_map, ← finrank_span_singles hs hnd]
  exact (Submodule.equivMapOfInjective _ (foldL_injective cnots hne) _).finrank_eq

theorem redundant_wrong (cnots : List (CX 2)) (hne : ∀ g ∈ cnots, g.1 ≠ g.2)
    (hz : zeroCols (applyCols cnots ([![1,1], ![1,1]] : List (Vec 2))) + 2 = 2) :
    ¬ PreparesZero (buildCircuit cnots (applyCols cnots [![1,1], ![1,1]]) true).hadamards
      (buildCircuit cnots (applyCols cnots [![1,1], ![1,1]]) true).cnots [![1,1], ![1,1]] := by
  intro hp
  have hcols := zeroCols_add (applyCols cnots ([![1,1], ![1,1]] : List (Vec 2)))
  have e : (buildCircuit cnots (applyCols cnots ([![1,1], ![1,1]] : List (Vec 2))) true).cnots = cnots.reverse := by
    simp [buildCircuit]
  have h1 := hp.1
  rw [e] at h1
  have := hadamards_eq_rank _ (nodup_nonzeroCols (applyCols cnots ([![1,1], ![1,1]] : List (Vec 2))))
    cnots.reverse (by simpa using hne) _ h1
  have hr : rank ([![1,1], ![1,1]] : List (Vec 2)) = 1 := by decide +kernel
  omega

/-- With a redundant row the solver accepts a circuit that prepares a different state: for
`Hx = [[1,1],[1,1]]` and two gates both qubits receive a Hadamard. -/
theorem C28_violated_gate : ¬ C28_gate_claim := by
  intro h
  obtain ⟨a, ha⟩ := (C30_gate (n := 2) [![1,1], ![1,1]] 2).1.2 ⟨[(0, 1), (0, 1)], rfl, by decide, by decide +kernel⟩
  obtain ⟨c, hc, -, hp⟩ := h 2 _ 2 a ha
  obtain ⟨cnots, h1, h2, h3, h4⟩ := (C30_gate _ 2).2 a ha true
  rw [h4] at hc
  cases hc
  exact redundant_wrong cnots h2 h3 hp

/-- The same for the depth-optimal synthesis. -/
theorem C28_violated_depth : ¬ C28_depth_claim := by
  intro h
  obtain ⟨a, ha⟩ := (C30_depth (n := 2) [![1,1], ![1,1]] 2).1.2
    ⟨[[(0, 1)], [(0, 1)]], rfl, by unfold Layer Disj; decide, by decide +kernel⟩
  have hp := h 2 _ 2 a ha
  obtain ⟨layers, h1, h2, h3, h4⟩ := (C30_depth _ 2).2 a ha true
  rw [h4] at hp
  exact redundant_wrong layers.flatten (layers_ne layers h2) h3 hp

/-! ### Optimality -/

theorem reduces_of_prepares (checks : List (Vec n)) (hrk : rank checks = checks.length) (hs : List (Fin n))
    (cnots : List (CX n)) (hne : ∀ g ∈ cnots, g.1 ≠ g.2)
    (h : ∀ v, v ∈ finalX hs cnots ↔ v ∈ rowSpan checks) :
    zeroCols (applyCols cnots.reverse checks) + checks.length = n := by
  have e1 : finalX hs cnots = rowSpan checks := by ext v; exact h v
  have hspan : rowSpan (applyCols cnots.reverse checks) =
      Submodule.span (ZMod 2) {w : Vec n | ∃ q ∈ hs, w = Pi.single q 1} := by
    rw [applyCols_eq, CSS.rowSpan_map, ← e1, finalX_eq_map, ← Submodule.map_comp]
    have : (foldL cnots.reverse).comp (foldL cnots) = LinearMap.id :=
      LinearMap.ext fun v => foldL_reverse cnots hne v
    rw [this, Submodule.map_id]
  have hmem : ∀ q, q ∈ nonzeroCols (applyCols cnots.reverse checks) ↔ q ∈ hs := by
    intro q
    constructor
    · intro hq
      obtain ⟨r, hr, h1⟩ := (mem_nonzeroCols _ _).1 hq
      by_contra hqs
      have := mem_rowSpan_of_mem hr
      rw [hspan, mem_span_singles] at this
      rw [this q hqs] at h1
      exact absurd h1 (by decide)
    · intro hq
      have hm : (Pi.single q 1 : Vec n) ∈ rowSpan (applyCols cnots.reverse checks) := by
        rw [hspan]; exact Submodule.subset_span ⟨q, hq, rfl⟩
      have := rowSpan_le_nonzeroCols _ hm
      rw [mem_span_singles] at this
      by_contra hqn
      have := this q hqn
      simp at this
  have hset : {w : Vec n | ∃ q ∈ hs, w = Pi.single q 1} =
      {w : Vec n | ∃ q ∈ nonzeroCols (applyCols cnots.reverse checks), w = Pi.single q 1} := by
    ext w; simp only [Set.mem_ofPred_eq, hmem]
  have hr : rank (applyCols cnots.reverse checks) = checks.length := by
    rw [applyCols_eq, rank_map_of_injective _ (foldL_injective _ (by simpa using hne)), hrk]
  rw [rank_eq_finrank, hspan, hset, finrank_span_singles _ (nodup_nonzeroCols _)] at hr
  have := zeroCols_add (applyCols cnots.reverse checks)
  omega

/-- For independent checks the gate-optimal encoding with `k` gates is satisfiable exactly when the
state can be prepared by *some* Hadamard layer followed by `k` CNOTs. -/
theorem C66_gate (checks : List (Vec n)) (hrk : rank checks = checks.length) (k : ℕ) :
    (∃ a, gateConstraint checks k a = true) ↔
      ∃ (hs : List (Fin n)) (cnots : List (Fin n × Fin n)), cnots.length = k ∧ (∀ g ∈ cnots, g.1 ≠ g.2) ∧
        PreparesZero hs cnots checks := by
  constructor
  · rintro ⟨a, ha⟩
    obtain ⟨cnots, h1, h2, h3, -⟩ := (C30_gate checks k).2 a ha true
    have := (optimal_core checks hrk cnots h2 h3).1
    have e : (buildCircuit cnots (applyCols cnots checks) true).cnots = cnots.reverse := by simp [buildCircuit]
    rw [e] at this
    exact ⟨_, _, by simp [h1], by simpa using h2, this⟩
  · rintro ⟨hs, cnots, rfl, h2, h3⟩
    rw [(C30_gate checks _).1]
    exact ⟨cnots.reverse, by simp, by simpa using h2, reduces_of_prepares checks hrk hs cnots h2 h3.1⟩

theorem layers_reverse (layers : List (List (CX n))) (h : ∀ L ∈ layers, Layer L) :
    ∃ layers' : List (List (CX n)), layers'.length = layers.length ∧ (∀ L ∈ layers', Layer L) ∧
      layers'.flatten = layers.flatten.reverse := by
  refine ⟨(layers.map List.reverse).reverse, by simp, ?_, by rw [List.reverse_flatten]⟩
  intro L hL
  rw [List.mem_reverse, List.mem_map] at hL
  obtain ⟨L', hL', rfl⟩ := hL
  obtain ⟨h1, h2⟩ := h L' hL'
  refine ⟨by simpa using h1, ?_⟩
  rw [List.pairwise_reverse]
  exact h2.imp fun h => ⟨h.1.symm, h.2.2.1.symm, h.2.1.symm, h.2.2.2.symm⟩

/-- For independent checks the depth-optimal encoding with depth `D` is satisfiable exactly when the
state can be prepared by some Hadamard layer followed by `D` layers of parallel CNOTs. -/
theorem C66_depth (checks : List (Vec n)) (hrk : rank checks = checks.length) (D : ℕ) :
    (∃ a, depthConstraint checks D a = true) ↔
      ∃ (hs : List (Fin n)) (layers : List (List (Fin n × Fin n))), layers.length = D ∧ (∀ L ∈ layers, Layer L) ∧
        PreparesZero hs layers.flatten checks := by
  constructor
  · rintro ⟨a, ha⟩
    obtain ⟨layers, h1, h2, h3, -⟩ := (C30_depth checks D).2 a ha true
    have := (optimal_core checks hrk layers.flatten (layers_ne layers h2) h3).1
    have e : (buildCircuit layers.flatten (applyCols layers.flatten checks) true).cnots = layers.flatten.reverse := by
      simp [buildCircuit]
    rw [e] at this
    obtain ⟨layers', e1, e2, e3⟩ := layers_reverse layers h2
    exact ⟨_, layers', by rw [e1, h1], e2, by rw [e3]; exact this⟩
  · rintro ⟨hs, layers, rfl, h2, h3⟩
    rw [(C30_depth checks _).1]
    obtain ⟨layers', e1, e2, e3⟩ := layers_reverse layers h2
    exact ⟨layers', e1, e2, by
      rw [e3]; exact reduces_of_prepares checks hrk hs _ (layers_ne layers h2) h3.1⟩

/-- If `k` gates suffice, so do `k + 1` (on at least two qubits): unsatisfiability at one parameter
rules out all smaller ones. -/
theorem C66_gate_monotone (checks : List (Vec n)) (hrk : rank checks = checks.length) (hn : 2 ≤ n) (k : ℕ)
    (h : ∃ a, gateConstraint checks k a = true) : ∃ a, gateConstraint checks (k + 1) a = true := by
  rw [(C30_gate checks k).1] at h
  rw [(C30_gate checks (k + 1)).1]
  obtain ⟨cnots, h1, h2, h3⟩ := h
  have hz := zeroCols_add (applyCols cnots checks)
  have hlen : (nonzeroCols (applyCols cnots checks)).length = checks.length := by omega
  have hr : rank (applyCols cnots checks) = (nonzeroCols (applyCols cnots checks)).length := by
    rw [hlen, applyCols_eq, rank_map_of_injective _ (foldL_injective cnots h2), hrk]
  have hsp := span_eq_of_card _ hr.symm
  -- a column addition that keeps the coordinate space
  obtain ⟨g, hg, hgood⟩ : ∃ g : CX n, g.1 ≠ g.2 ∧
      (g.1 ∈ nonzeroCols (applyCols cnots checks) → g.2 ∈ nonzeroCols (applyCols cnots checks)) := by
    by_cases hex : ∃ p, p ∉ nonzeroCols (applyCols cnots checks)
    · obtain ⟨p, hp⟩ := hex
      obtain ⟨q, hq⟩ : ∃ q : Fin n, p ≠ q := by
        by_cases hp0 : p = ⟨0, by omega⟩
        · exact ⟨⟨1, by omega⟩, by rw [hp0]; simp⟩
        · exact ⟨⟨0, by omega⟩, hp0⟩
      exact ⟨(p, q), hq, fun hc => absurd hc hp⟩
    · push Not at hex
      exact ⟨(⟨0, by omega⟩, ⟨1, by omega⟩), by simp, fun _ => hex _⟩
  refine ⟨cnots ++ [g], by simp [h1], ?_, ?_⟩
  · intro x hx
    rcases List.mem_append.1 hx with hx | hx
    · exact h2 x hx
    · rw [List.mem_singleton.1 hx]; exact hg
  · have hsub : ∀ q, q ∈ nonzeroCols (applyCols (cnots ++ [g]) checks) →
        q ∈ nonzeroCols (applyCols cnots checks) := by
      intro q hq
      obtain ⟨r, hr, h1⟩ := (mem_nonzeroCols _ _).1 hq
      obtain ⟨r0, hr0, rfl⟩ := List.mem_map.1 hr
      rw [List.foldl_append] at h1
      change cnotX _ g q = 1 at h1
      rw [cnotX_apply] at h1
      have hin : cnots.foldl cnotX r0 ∈ applyCols cnots checks := List.mem_map.2 ⟨r0, hr0, rfl⟩
      split at h1
      · next he =>
        by_cases hq1 : (cnots.foldl cnotX r0) q = 1
        · exact (mem_nonzeroCols _ _).2 ⟨_, hin, hq1⟩
        · rw [(zmod2_cases _).resolve_right hq1, add_zero] at h1
          rw [he]
          exact hgood ((mem_nonzeroCols _ _).2 ⟨_, hin, h1⟩)
      · exact (mem_nonzeroCols _ _).2 ⟨_, hin, h1⟩
    have hle : (nonzeroCols (applyCols (cnots ++ [g]) checks)).length ≤
        (nonzeroCols (applyCols cnots checks)).length := by
      rw [← List.toFinset_card_of_nodup (nodup_nonzeroCols _), ← List.toFinset_card_of_nodup (nodup_nonzeroCols _)]
      apply Finset.card_le_card
      intro q hq
      rw [List.mem_toFinset] at hq ⊢
      exact hsub q hq
    have hge := rank_le_nonzeroCols (applyCols (cnots ++ [g]) checks)
    have hr' : rank (applyCols (cnots ++ [g]) checks) = checks.length := by
      rw [applyCols_eq, rank_map_of_injective _ (foldL_injective _ ?_), hrk]
      intro x hx
      rcases List.mem_append.1 hx with hx | hx
      · exact h2 x hx
      · rw [List.mem_singleton.1 hx]; exact hg
    have := zeroCols_add (applyCols (cnots ++ [g]) checks)
    omega

/-- If depth `D` suffices, so does depth `D + 1`. -/
theorem C66_depth_monotone (checks : List (Vec n)) (D : ℕ)
    (h : ∃ a, depthConstraint checks D a = true) : ∃ a, depthConstraint checks (D + 1) a = true := by
  rw [(C30_depth checks D).1] at h
  rw [(C30_depth checks (D + 1)).1]
  obtain ⟨layers, h1, h2, h3⟩ := h
  refine ⟨layers ++ [[]], by simp [h1], ?_, by simpa using h3⟩
  intro L hL
  rcases List.mem_append.1 hL with hL | hL
  · exact h2 L hL
  · rw [List.mem_singleton.1 hL]; exact ⟨by simp, List.Pairwise.nil⟩

example : ∃ a, gateConstraint (n := 3) [![1,1,0], ![0,1,1]] 3 a = true :=
  C66_gate_monotone _ (by decide +kernel) (by norm_num) 2
    ((C30_gate _ 2).1.2 ⟨[(0, 1), (1, 2)], rfl, by decide, by decide +kernel⟩)

end Verif.SP
