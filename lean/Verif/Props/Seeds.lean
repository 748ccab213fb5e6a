import Verif.Model.Seeds
import Mathlib.Tactic.NormNum
import Mathlib.Tactic.Ring
import Mathlib.Tactic.Positivity

/-!
# C121: seeds
-/

namespace Verif.Seeds
open Verif Analog AnalogTanner

/-- The claim for the analog Tanner graph simulator: equal arguments and equal seeds give equal results, whenever and wherever the
program is run. -/
def C121_claim_atd : Prop :=
  ∀ (np : Numpy) (erfcinv : ℝ → ℝ) (bp : BpOsd) (mx mz n : ℕ) (Hx : Mat mx n) (Lx : List (Vec n)) (Hz : Mat mz n) (Lz : List (Vec n))
    (c : Config) (seed k : ℕ) (w w' : World),
    atdProgram np erfcinv bp Hx Lx Hz Lz c seed k w = atdProgram np erfcinv bp Hx Lx Hz Lz c seed k w'

/-- Two worlds with the same numbers from the operating system; the seeds of the global generator may differ. -/
def SameSource (w w' : World) : Prop := w.os = w'.os ∧ w.used = w'.used

theorem uniforms_same (np : Numpy) (n : ℕ) {w w' : World} (h : SameSource w w') :
    (w.uniforms np n).1 = (w'.uniforms np n).1 ∧ SameSource (w.uniforms np n).2 (w'.uniforms np n).2 := by
  obtain ⟨h1, h2⟩ := h
  simp [World.uniforms, SameSource, h1, h2]

theorem normals_same (np : Numpy) (m : ℕ) {w w' : World} (h : SameSource w w') :
    (w.normals np m).1 = (w'.normals np m).1 ∧ SameSource (w.normals np m).2 (w'.normals np m).2 := by
  obtain ⟨h1, h2⟩ := h
  simp [World.normals, SameSource, h1, h2]

theorem atdDraws_same (np : Numpy) (mx mz n : ℕ) {w w' : World} (h : SameSource w w') :
    (atdDraws np mx mz n w).1 = (atdDraws np mx mz n w').1 ∧ SameSource (atdDraws np mx mz n w).2 (atdDraws np mx mz n w').2 := by
  obtain ⟨h1, h1'⟩ := uniforms_same np n h
  obtain ⟨h2, h2'⟩ := normals_same np mz h1'
  obtain ⟨h3, h3'⟩ := normals_same np mx h2'
  exact ⟨by simp only [atdDraws, h1, h2, h3], h3'⟩

theorem atdDrawsAll_same (np : Numpy) (mx mz n k : ℕ) : ∀ {w w' : World}, SameSource w w' →
    (atdDrawsAll np mx mz n k w).1 = (atdDrawsAll np mx mz n k w').1 := by
  induction k with
  | zero => intros; rfl
  | succ k ih =>
    intro w w' h
    obtain ⟨h1, h2⟩ := atdDraws_same np mx mz n h
    simp only [atdDrawsAll, h1, ih h2]

theorem qssDraws_same (np : Numpy) (m n k : ℕ) : ∀ {w w' : World}, SameSource w w' →
    (qssDraws np m n k w).1 = (qssDraws np m n k w').1 ∧ SameSource (qssDraws np m n k w).2 (qssDraws np m n k w').2 := by
  induction k with
  | zero => intro w w' h; exact ⟨rfl, h⟩
  | succ k ih =>
    intro w w' h
    obtain ⟨h1, h1'⟩ := uniforms_same np n h
    obtain ⟨h2, h2'⟩ := normals_same np m h1'
    obtain ⟨h3, h3'⟩ := ih h2'
    exact ⟨by simp only [qssDraws, h1, h2, h3], h3'⟩

theorem qssDrawsAll_same (np : Numpy) (m n rounds k : ℕ) : ∀ {w w' : World}, SameSource w w' →
    (qssDrawsAll np m n rounds k w).1 = (qssDrawsAll np m n rounds k w').1 := by
  induction k with
  | zero => intros; rfl
  | succ k ih =>
    intro w w' h
    obtain ⟨h1, h2⟩ := qssDraws_same np m n rounds h
    simp only [qssDrawsAll, h1, ih h2]

/-- **C121**: the seed has no influence at all: with any two seeds, and any state of the global generator, the same numbers from the
operating system give the same results. -/
theorem C121_seed_ignored {mx mz n : ℕ} (np : Numpy) (erfcinv : ℝ → ℝ) (bp : BpOsd) (Hx : Mat mx n) (Lx : List (Vec n)) (Hz : Mat mz n)
    (Lz : List (Vec n)) (c : Config) (seed seed' k : ℕ) (w w' : World) (h : SameSource w w') :
    atdProgram np erfcinv bp Hx Lx Hz Lz c seed k w = atdProgram np erfcinv bp Hx Lx Hz Lz c seed' k w' := by
  have hd := atdDrawsAll_same np mx mz n k (w := w.setSeed seed) (w' := w'.setSeed seed') h
  simp only [atdProgram, hd]

/-- **C121**: the same for the quasi-single-shot simulator. -/
theorem C121_seed_ignored_qss {m n : ℕ} (np : Numpy) (erfcinv : ℝ → ℝ) (bp : Qss.Solver) (k : ℕ) (a : Qss.Args m n)
    (rounds seed seed' j : ℕ) (w w' : World) (h : SameSource w w') :
    qssProgram np erfcinv bp k a rounds seed j w = qssProgram np erfcinv bp k a rounds seed' j w' := by
  have hd := qssDrawsAll_same np m n rounds j (w := w.setSeed seed) (w' := w'.setSeed seed') h
  simp only [qssProgram, hd]

/-! ## The claim fails -/

/-- The bare qubit: no checks, the logical operators are the only Pauli operators. -/
noncomputable def bareSim : AnalogTanner.Sim 0 0 1 :=
  ⟨fun i => i.elim0, fun i => i.elim0, [fun _ => 1], [fun _ => 1], 3 / 10, .fin (1 / √2), .fin (1 / √2), (1 / 4, 1 / 4, 1 / 4),
    ⟨fun i => i.elim0, .fin (1 / √2), Fin.append (fun _ => .fin (1 / 2)) fun _ : Fin 0 => .fin 0⟩,
    ⟨fun i => i.elim0, .fin (1 / √2), Fin.append (fun _ => .fin (1 / 2)) fun _ : Fin 0 => .fin 0⟩⟩

theorem bareSim_new : AnalogTanner.Sim.new (fun _ => 1) (fun i : Fin 0 => i.elim0) [fun _ => 1] (fun i : Fin 0 => i.elim0)
    [fun _ => 1] { dataRate := 3 / 4, ser := some (3 / 10) } = .ok bareSim := by
  have hpos : ¬ (1 / √2 : ℝ) ≤ 0 := not_le.2 (by positivity)
  have h1 : sigmaOfRate (fun _ => 1) (3 / 10 * 1 / (1 + 1 + 1) + 3 / 10 * 1 / (1 + 1 + 1)) = .fin (1 / √2) := by
    unfold sigmaOfRate
    norm_num
  have hnew : ∀ p : Fin 1 → ℝ, Decoder.new (fun _ => 1) (fun i : Fin 0 => (i.elim0 : Vec 1)) p (.fin (1 / √2)) none =
      .ok ⟨fun i => i.elim0, .fin (1 / √2), Fin.append (fun i => .fin (p i)) fun _ : Fin 0 => .fin 0⟩ := by
    intro p
    have hs : decoderSigma (fun _ => 1) (.fin (1 / √2)) none = .ok (.fin (1 / √2)) := by
      unfold decoderSigma
      rw [if_neg (show ¬ (Num.fin (1 / √2)).le0 from hpos)]
      rfl
    simp only [Decoder.new, hs]
    rfl
  simp only [AnalogTanner.Sim.new, Config.rate, bind, Except.bind, channelSetup, h1, hnew, pure, Except.pure]
  rw [if_neg (by simp)]
  simp only [bareSim]
  norm_num

/-- A generator whose values are the numbers of the operating system divided by ten. -/
noncomputable def tenths : Numpy := ⟨fun e => (e : ℝ) / 10, fun _ _ => 0⟩

/-- **C121 is violated**: two runs of the same program with the same seed give different results. -/
theorem C121_violated_atd : ¬ C121_claim_atd := by
  intro h
  have h1 := h tenths (fun _ => 1) (fun _ _ _ _ _ => 0) 0 0 1 (fun i => i.elim0) [fun _ => 1] (fun i => i.elim0) [fun _ => 1]
    { dataRate := 3 / 4, ser := some (3 / 10) } 666 1 ⟨fun _ => 9, 0, none⟩ ⟨fun _ => 1, 0, none⟩
  simp only [atdProgram, bareSim_new, Except.ok.injEq] at h1
  have run : ∀ e : ℕ, bareSim.samples (fun _ _ _ _ _ => 0) (atdDrawsAll tenths 0 0 1 1 ((⟨fun _ => e, 0, none⟩ : World).setSeed 666)).1 =
      some [(!isLogicalErr [fun _ => (1 : ZMod 2)] (generateErr (fun _ : Fin 1 => (1 / 4 : ℝ)) (fun _ => 1 / 4) (fun _ => 1 / 4) (fun _ => (e : ℝ) / 10) 0 0).1,
        !isLogicalErr [fun _ => (1 : ZMod 2)] (generateErr (fun _ : Fin 1 => (1 / 4 : ℝ)) (fun _ => 1 / 4) (fun _ => 1 / 4) (fun _ => (e : ℝ) / 10) 0 0).2)] := by
    intro e
    simp only [atdDrawsAll, AnalogTanner.Sim.samples, AnalogTanner.Sim.singleSample, bareSim, Option.map, side, Decoder.decode]
    simp only [atdDraws, World.uniforms, World.setSeed, tenths]
    congr 4 <;> (congr 1; funext i; simp [dataPart])
  rw [run 9, run 1] at h1
  simp only [Option.some.injEq, List.cons.injEq, Prod.mk.injEq, and_true] at h1
  have h2 := h1.2
  have e9 : (generateErr (fun _ : Fin 1 => (1 / 4 : ℝ)) (fun _ => 1 / 4) (fun _ => 1 / 4) (fun _ => ((9 : ℕ) : ℝ) / 10) 0 0).2 = 0 := by
    funext i
    simp only [generateErr, stepErr]
    norm_num
  have e1 : (generateErr (fun _ : Fin 1 => (1 / 4 : ℝ)) (fun _ => 1 / 4) (fun _ => 1 / 4) (fun _ => ((1 : ℕ) : ℝ) / 10) 0 0).2 = fun _ => 1 := by
    funext i
    simp only [generateErr, stepErr]
    norm_num
  rw [e9, e1] at h2
  revert h2
  decide

/-- Two worlds that share the source but not the seed. -/
example : SameSource ((⟨fun i => i, 0, none⟩ : World).setSeed 1) ((⟨fun i => i, 0, none⟩ : World).setSeed 2) := ⟨rfl, rfl⟩

/-! ## Fresh generators -/

/-- **C121**: every number comes from a generator of its own: with `n` qubits the `j`-th sample of the analog Tanner graph simulator uses `n`
generators for the data errors, then one for the noise of the X-syndrome and one for that of the Z-syndrome, none of which is used again. -/
theorem C121_draws (np : Numpy) (mx mz n k : ℕ) (w : World) :
    (atdDrawsAll np mx mz n k w).1.length = k ∧ (atdDrawsAll np mx mz n k w).2 = { w with used := w.used + k * (n + 2) } ∧
      ∀ (j : ℕ) (hj : j < (atdDrawsAll np mx mz n k w).1.length), (atdDrawsAll np mx mz n k w).1[j] =
        ⟨fun i => np.uniform (w.os (w.used + j * (n + 2) + i)), fun i => np.normal (w.os (w.used + j * (n + 2) + n)) i,
          fun i => np.normal (w.os (w.used + j * (n + 2) + n + 1)) i⟩ := by
  induction k generalizing w with
  | zero => exact ⟨rfl, by simp [atdDrawsAll], fun j hj => absurd hj (Nat.not_lt_zero j)⟩
  | succ k ih =>
    have hs : (atdDraws np mx mz n w).2 = { w with used := w.used + (n + 2) } := rfl
    obtain ⟨ih1, ih2, ih3⟩ := ih (atdDraws np mx mz n w).2
    refine ⟨by simp only [atdDrawsAll, List.length_cons, ih1], ?_, fun j hj => ?_⟩
    · simp only [atdDrawsAll]
      rw [ih2, hs]
      have e : w.used + (n + 2) + k * (n + 2) = w.used + (k + 1) * (n + 2) := by ring
      simp only [e]
    · cases j with
      | zero =>
        simp only [atdDrawsAll, List.getElem_cons_zero, Nat.zero_mul, Nat.add_zero]
        rfl
      | succ j =>
        simp only [atdDrawsAll, List.length_cons] at hj
        have := ih3 j (by omega)
        simp only [atdDrawsAll, List.getElem_cons_succ]
        rw [this, hs]
        have e : w.used + (n + 2) + j * (n + 2) = w.used + (j + 1) * (n + 2) := by ring
        simp only [e]

/-- **C121**: the same for the rounds of a quasi-single-shot sample: `n` generators for the data errors and one for the noise of the syndrome
in each round. -/
theorem C121_draws_qss (np : Numpy) (m n k : ℕ) (w : World) :
    (qssDraws np m n k w).1.length = k ∧ (qssDraws np m n k w).2 = { w with used := w.used + k * (n + 1) } ∧
      ∀ (j : ℕ) (hj : j < (qssDraws np m n k w).1.length), (qssDraws np m n k w).1[j] =
        ⟨fun i => np.uniform (w.os (w.used + j * (n + 1) + i)), fun i => np.normal (w.os (w.used + j * (n + 1) + n)) i⟩ := by
  induction k generalizing w with
  | zero => exact ⟨rfl, by simp [qssDraws], fun j hj => absurd hj (Nat.not_lt_zero j)⟩
  | succ k ih =>
    obtain ⟨ih1, ih2, ih3⟩ := ih ((w.uniforms np n).2.normals np m).2
    have hu : ((w.uniforms np n).2.normals np m).2 = { w with used := w.used + (n + 1) } := rfl
    refine ⟨by simp only [qssDraws, List.length_cons, ih1], ?_, fun j hj => ?_⟩
    · simp only [qssDraws]
      rw [ih2, hu]
      have e : w.used + (n + 1) + k * (n + 1) = w.used + (k + 1) * (n + 1) := by ring
      simp only [e]
    · cases j with
      | zero =>
        simp only [qssDraws, List.getElem_cons_zero, Nat.zero_mul, Nat.add_zero]
        rfl
      | succ j =>
        simp only [qssDraws, List.length_cons] at hj
        have := ih3 j (by omega)
        simp only [qssDraws, List.getElem_cons_succ]
        rw [this, hu]
        have e : w.used + (n + 1) + j * (n + 1) = w.used + (j + 1) * (n + 1) := by ring
        simp only [e]

/-- **C121**: several quasi-single-shot samples of `rounds` rounds each: round `i` of sample `j` uses `n` generators for the data errors and one
for the noise of the syndrome, none of which is used by another round or another sample. -/
theorem C121_draws_qss_all (np : Numpy) (m n rounds k : ℕ) (w : World) :
    (qssDrawsAll np m n rounds k w).1.length = k ∧
      (qssDrawsAll np m n rounds k w).2 = { w with used := w.used + k * (rounds * (n + 1)) } ∧
      ∀ (j : ℕ) (hj : j < (qssDrawsAll np m n rounds k w).1.length),
        (qssDrawsAll np m n rounds k w).1[j].length = rounds ∧
        ∀ (i : ℕ) (hi : i < (qssDrawsAll np m n rounds k w).1[j].length), (qssDrawsAll np m n rounds k w).1[j][i] =
          ⟨fun q => np.uniform (w.os (w.used + (j * rounds + i) * (n + 1) + q)),
            fun q => np.normal (w.os (w.used + (j * rounds + i) * (n + 1) + n)) q⟩ := by
  induction k generalizing w with
  | zero => exact ⟨rfl, by simp [qssDrawsAll], fun j hj => absurd hj (Nat.not_lt_zero j)⟩
  | succ k ih =>
    obtain ⟨h1, h2, h3⟩ := C121_draws_qss np m n rounds w
    obtain ⟨ih1, ih2, ih3⟩ := ih (qssDraws np m n rounds w).2
    refine ⟨by simp only [qssDrawsAll, List.length_cons, ih1], ?_, fun j hj => ?_⟩
    · simp only [qssDrawsAll]
      rw [ih2, h2]
      have e : w.used + rounds * (n + 1) + k * (rounds * (n + 1)) = w.used + (k + 1) * (rounds * (n + 1)) := by ring
      simp only [e]
    · cases j with
      | zero =>
        simp only [qssDrawsAll, List.getElem_cons_zero, Nat.zero_mul, Nat.zero_add]
        exact ⟨h1, h3⟩
      | succ j =>
        simp only [qssDrawsAll, List.length_cons] at hj
        obtain ⟨l1, l2⟩ := ih3 j (by omega)
        simp only [qssDrawsAll, List.getElem_cons_succ]
        refine ⟨l1, fun i hi => ?_⟩
        rw [l2 i hi, h2]
        have e : w.used + rounds * (n + 1) + (j * rounds + i) * (n + 1) = w.used + ((j + 1) * rounds + i) * (n + 1) := by ring
        simp only [e]

/-- The second sample on three qubits starts with the sixth generator. -/
example (np : Numpy) (w : World) (h : w.used = 0) (hj : 1 < (atdDrawsAll np 2 2 3 4 w).1.length) :
    ((atdDrawsAll np 2 2 3 4 w).1[1]).u 0 = np.uniform (w.os 5) := by
  rw [(C121_draws np 2 2 3 4 w).2.2 1 hj, h]
  rfl

/-- The first round of the second of four samples with two rounds on three qubits starts with the ninth generator. -/
example (np : Numpy) (w : World) (h : w.used = 0) (hj : 1 < (qssDrawsAll np 2 3 2 4 w).1.length)
    (hi : 0 < (qssDrawsAll np 2 3 2 4 w).1[1].length) :
    ((qssDrawsAll np 2 3 2 4 w).1[1][0]).u 0 = np.uniform (w.os 8) := by
  rw [((C121_draws_qss_all np 2 3 2 4 w).2.2 1 hj).2 0 hi, h]
  rfl

end Verif.Seeds
