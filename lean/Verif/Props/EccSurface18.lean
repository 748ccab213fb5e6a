import Verif.Lemmas.EccExample

/-!
# The correction step of the 18-qubit surface code (C93)

Phase correction is switched off in the source; the step is meant to remove X errors.
-/

namespace Verif.Ecc
variable {R : Type} [CommRing R] (k : Consts R)

/-- The physical qubit in a block of data qubit `j`. -/
def s18pos (j : ℕ) : ℕ := S18.data.getD j 0

/-- The Z check on the data qubits `l`. -/
def zCheck (l : List ℕ) : List Op := S18.data.map fun q => if l.contains q then .Z else .I

/-- The eight checks: the neighbours on the 6 × 6 grid of the ancillas 0, 2, 4, 12, 16, 24, 26, 28, without the data qubits 17,
32 and 34, which the encoder does not connect. -/
def s18Gens : List (List Op) :=
  [zCheck [1, 6], zCheck [1, 3, 8], zCheck [3, 5, 10], zCheck [6, 13, 18], zCheck [10, 15, 22], zCheck [18, 25, 30],
   zCheck [20, 25, 27], zCheck [22, 27, 29]]

/-- The ancillas, inside the blocks. -/
def s18Anc (n : ℕ) : List ℕ := (List.range n).flatMap fun i => S18.ancillas.map (dat n i)

/-- The data qubits in a check. -/
def s18Protected : List ℕ := [1, 3, 5, 6, 8, 10, 13, 15, 18, 20, 22, 25, 27, 29, 30]

def s18Chunks : List Chunk :=
  ((List.range 18).map .reset) ++
  [.parity (S18.corrX.flatMap fun p => p.2.map fun a => (S18.data.idxOf p.1, S18.ancillas.idxOf a))] ++
  ((List.range 8).map fun j => .meas (S18.ancillas.idxOf (S18.checks.getD j 0)) j) ++
  S18.corrX.map fun p => .cc .X (S18.data.idxOf p.1) 0 8 (S18.mask p.2)

theorem s18_layout (n : ℕ) : Layout n 18 18 (fun i j => dat n i (s18pos j)) (fun i j => dat n i (S18.ancillas.getD j 0)) (s18Anc n) :=
  inner_layout n S18.data S18.ancillas (by decide) (by decide) (by decide)

/-- One call of `measureAndCorrect` removes one X per logical qubit, on the fifteen data qubits in a check. -/
theorem C93_surface18_corrects (n m : ℕ) {ψ : State R} (hψ : CodeState k n s18pos s18Gens ψ) (hf : ∀ q ∈ s18Anc n, Free ψ q)
    {err : ℕ → Option (Op × ℕ)} (herr : ∀ i < n, ∀ o q, err i = some (o, q) → o = .X ∧ q ∈ s18Protected) (s : St)
    (hd : s.isDecoded = false) (hw : s.gatesWritten = true) :
    ∃ l, ((q18Surface n m).measureAndCorrect s).out = s.out ++ l ∧ Corrects k (s18Anc n) m l (corrupt k n err ψ) ψ := by
  refine ⟨blocks n fun i => S18.resets (dat n i) ++ S18.correctBlock (dat n i) m, ?_, ?_⟩
  · show (S18.correct n m s).out = _
    unfold S18.correct
    rw [hd, hw]
    rfl
  · refine corrects_one k (C := 8) (ch := s18Chunks) (s18_layout n) (by decide) (by decide +kernel) hψ hf (by decide +kernel)
      (errs := allErrs [.X] (s18Protected.map fun q => S18.data.idxOf q)) (by decide) (by decide +kernel)
      (err := fun i => (err i).map fun p => (p.1, S18.data.idxOf p.2)) (fun i hi => ?_) (fun i _ => rfl)
    cases he : err i with
    | none => exact ⟨List.mem_cons_self, rfl⟩
    | some p =>
      obtain ⟨o, q⟩ := p
      obtain ⟨rfl, hq⟩ := herr i hi o q he
      refine ⟨mem_allErrs fun o' q' h => ?_, ?_⟩
      · cases h
        exact ⟨List.mem_singleton_self _, List.mem_map.2 ⟨q, hq, rfl⟩⟩
      · show some (Op.X, q) = some (Op.X, s18pos (S18.data.idxOf q))
        have : ∀ q ∈ s18Protected, q = s18pos (S18.data.idxOf q) := by decide
        rw [← this q hq]

/-- The all-zero state of one logical qubit. -/
def s18Zero (R : Type) [CommRing R] : State R := fun x => if S18.data.all fun q => !x q then 1 else 0

theorem s18Zero_code : CodeState k 1 s18pos s18Gens (s18Zero R) := by
  intro i hi g hg
  obtain rfl : i = 0 := by omega
  rw [stringAct_word k g ((by decide : ∀ g ∈ s18Gens, ∀ o ∈ g, o = .I ∨ o = .X ∨ o = .Z) g hg)]
  have hz : ∀ g ∈ s18Gens, ∀ l ∈ stringWord g, l.1 = false ∧ s18pos l.2 ∈ S18.data := by decide +kernel
  have key : ∀ w : Word, (∀ l ∈ w, l.1 = false ∧ s18pos l.2 ∈ S18.data) →
      act (place (fun j => dat 1 0 (s18pos j)) w) (s18Zero R) = s18Zero R := by
    intro w hw
    induction w with
    | nil => rfl
    | cons l w ih =>
      rw [place_cons, act_cons, ih fun x hx => hw x (List.mem_cons_of_mem _ hx)]
      obtain ⟨h1, h2⟩ := hw l List.mem_cons_self
      funext x
      unfold actL
      rw [h1, if_neg Bool.false_ne_true]
      show (sgn (x (dat 1 0 (s18pos l.2))) : R) * s18Zero R x = s18Zero R x
      have e : dat 1 0 (s18pos l.2) = s18pos l.2 := by simp [dat]
      rw [e]
      unfold s18Zero
      split
      · rename_i hall
        have := List.all_eq_true.1 hall _ h2
        rw [Bool.not_eq_true'] at this
        rw [this, sgn_false, one_mul]
      · rw [mul_zero]
  exact key _ (hz g hg)

theorem s18Zero_free : ∀ q ∈ s18Anc 1, Free (s18Zero R) q := by
  have h : ∀ q ∈ s18Anc 1, q ∉ S18.data := by decide
  intro q hq x b
  show (if S18.data.all (fun p => !Function.update x q b p) then 1 else 0) = if S18.data.all (fun p => !x p) then 1 else 0
  congr 2
  have hn := h q hq
  generalize S18.data = l at hn
  induction l with
  | nil => rfl
  | cons p l ih =>
    rw [List.all_cons, List.all_cons, Function.update_of_ne fun e => hn (by rw [← e]; exact List.mem_cons_self),
      ih fun hm => hn (List.mem_cons_of_mem _ hm)]

example (h1 : (1 : R) ≠ 0) : ∃ ψ : State R, ψ ≠ 0 ∧ CodeState k 1 s18pos s18Gens ψ ∧ ∀ q ∈ s18Anc 1, Free ψ q :=
  ⟨s18Zero R, fun e => h1 (congrFun e fun _ => false), s18Zero_code k, s18Zero_free⟩

/-- An X on one of the data qubits 17, 32 and 34 is not noticed: the step leaves the corrupted state as it is. -/
theorem C93_violated_unprotected (n m : ℕ) {ψ : State R} (hψ : CodeState k n s18pos s18Gens ψ)
    (hf : ∀ q ∈ s18Anc n, Free ψ q) {err : ℕ → Option (Op × ℕ)}
    (herr : ∀ i < n, ∀ o q, err i = some (o, q) → o = .X ∧ q ∈ [17, 32, 34]) :
    Corrects k (s18Anc n) m (blocks n fun i => S18.resets (dat n i) ++ S18.correctBlock (dat n i) m) (corrupt k n err ψ)
      (corrupt k n err ψ) := by
  have hS : ∀ g ∈ s18Gens.map stringWord, Within 18 g := by decide +kernel
  have hψ' : ∀ i < n, ∀ g ∈ s18Gens.map stringWord, act (place (fun j => dat n i (s18pos j)) g) ψ = ψ := fun i hi g hg => by
    obtain ⟨g', hg', rfl⟩ := List.mem_map.1 hg
    rw [← stringAct_word k g' ((by decide : ∀ g ∈ s18Gens, ∀ o ∈ g, o = .I ∨ o = .X ∨ o = .Z) g' hg')]
    exact hψ i hi g' hg'
  have herr' : ∀ i < n, errOK 18 ((err i).map fun p => (p.1, S18.data.idxOf p.2)) ∧
      err i = ((err i).map fun p => (p.1, S18.data.idxOf p.2)).map fun p => (p.1, s18pos p.2) := by
    intro i hi
    cases he : err i with
    | none => exact ⟨trivial, rfl⟩
    | some p =>
      obtain ⟨o, q⟩ := p
      obtain ⟨rfl, hq⟩ := herr i hi o q he
      have h1 : ∀ q ∈ [17, 32, 34], S18.data.idxOf q < 18 ∧ q = s18pos (S18.data.idxOf q) := by decide
      exact ⟨⟨.inl rfl, (h1 q hq).1⟩, by
        show some (Op.X, q) = some (Op.X, s18pos (S18.data.idxOf q))
        rw [← (h1 q hq).2]⟩
  obtain ⟨u, hu, hcor⟩ := corrupt_eq k (n := n) (r := 18) (pos := s18pos)
    (fun i => (err i).map fun p => (p.1, S18.data.idxOf p.2)) err herr' ψ
  have hfix : ∀ i < n, fixWord 18 18 8 s18Chunks (errWord ((err i).map fun p => (p.1, S18.data.idxOf p.2))) =
      some (errWord ((err i).map fun p => (p.1, S18.data.idxOf p.2))) := by
    intro i hi
    cases he : err i with
    | none => decide +kernel
    | some p =>
      obtain ⟨o, q⟩ := p
      obtain ⟨rfl, hq⟩ := herr i hi o q he
      have : ∀ q ∈ [17, 32, 34], fixWord 18 18 8 s18Chunks (errWord (some (.X, S18.data.idxOf q))) =
        some (errWord (some (.X, S18.data.idxOf q))) := by decide +kernel
      exact this q hq
  have hb : ∀ i < n, (S18.resets (dat n i) ++ S18.correctBlock (dat n i) m) =
      chunkInstrs (fun j => dat n i (s18pos j)) (fun j => dat n i (S18.ancillas.getD j 0)) m s18Chunks := fun i _ => rfl
  refine Det.corrects k (fun q c hq => ?_) fun v cl => ?_
  · obtain ⟨i, hi, hq⟩ := List.mem_flatMap.1 hq
    rw [hb i (List.mem_range.1 hi)] at hq
    exact chunk_measure hq
  · obtain ⟨_, v', cl', u', hu', hd⟩ := pass_sound k (s18_layout n) hS hψ' hf (by decide +kernel : ∀ c ∈ s18Chunks, c.OK 18 18 _)
      (fun i hi => errWord_within (herr' i hi).1) hfix m hb v cl u hu
    rw [hcor]
    have hu3 : u * u ^ 3 = 1 := by rw [← hu]; ring
    refine ⟨_, hd, v', u' * u ^ 3, by rw [mul_pow, hu', ← pow_mul, Nat.mul_comm, pow_mul, hu]; ring, ?_⟩
    show withAnc _ v' _ = _
    rw [smul_smul, mul_assoc, mul_comm (u ^ 3) u, hu3, mul_one]

/-- So the step does not correct every single X error: not on qubit 17 of the all-zero state. -/
theorem C93_violated (h1 : (1 : R) ≠ 0) (m : ℕ) :
    ¬ Corrects k (s18Anc 1) m (blocks 1 fun i => S18.resets (dat 1 i) ++ S18.correctBlock (dat 1 i) m)
      (corrupt k 1 (fun _ => some (.X, 17)) (s18Zero R)) (s18Zero R) := by
  intro h
  have h2 := C93_violated_unprotected k 1 m (s18Zero_code k) s18Zero_free (err := fun _ => some (.X, 17))
    (fun i _ o q e => by cases e; exact ⟨rfl, by decide⟩)
  obtain ⟨⟨c', hb, v, u, hu, hc⟩, _⟩ := h2 (fun _ => false) fun _ => false
  have h0 : ∀ w : State R, (corrupt k 1 (fun _ => some (.X, 17)) w) = fun x => w (flip x 17) := fun w => by
    show opAct k .X (dat 1 0 17) w = _
    rfl
  -- the basis state with the error and the ancillas `v`
  let x : Bits := fun q => if (s18Anc 1).contains q then v q else q == 17
  have hA : (s18Anc 1).all (fun q => x q == v q) = true := List.all_eq_true.2 fun q hq => by
    show ((if (s18Anc 1).contains q then v q else q == 17) == v q) = true
    rw [if_pos (List.contains_iff_mem.2 hq), beq_self_eq_true]
  have hval : c'.1 x = u := by
    rw [hc, h0]
    show (if (s18Anc 1).all (fun q => x q == v q) then u * s18Zero R (flip x 17) else 0) = u
    rw [hA, if_pos rfl]
    have : s18Zero R (flip x 17) = 1 := by
      unfold s18Zero
      rw [if_pos]
      refine List.all_eq_true.2 fun q hq => ?_
      have h3 : ∀ q ∈ S18.data, (s18Anc 1).contains q = false := by decide
      rw [flip_apply]
      show (!((if (s18Anc 1).contains q then v q else q == 17) ^^ decide (q = 17))) = true
      rw [h3 q hq]
      by_cases e : q = 17
      · simp [e]
      · simp [e]
    rw [this, mul_one]
  have hu0 : u ≠ 0 := fun e => h1 (by rw [← hu, e]; ring)
  rcases ((h (fun _ => false) fun _ => false).2 c' hb).1 with ⟨v', u', _, e⟩ | e
  · rw [e] at hval
    have : s18Zero R x = 0 := by
      unfold s18Zero
      rw [if_neg]
      intro hall
      have h4 := List.all_eq_true.1 hall 17 (by decide)
      rw [show x 17 = true by
        show (if (s18Anc 1).contains 17 then v 17 else 17 == 17) = true
        rw [show (s18Anc 1).contains 17 = false by decide]; rfl] at h4
      cases h4
    refine hu0 (hval.symm.trans ?_)
    show (if _ then u' * s18Zero R x else 0) = 0
    rw [this, mul_zero, ite_self]
  · rw [e] at hval
    exact hu0 hval.symm

end Verif.Ecc
