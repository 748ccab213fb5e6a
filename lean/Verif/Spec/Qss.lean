import Verif.Model.QssObjects

/-!
# Specification of a quasi-single-shot sample

A sample with `N` rounds is described by its log, the error and the analog values of every round, and by the calls of the decoder, one
for each window of `k + 1 = 2 T` rounds; window `w` consists of the rounds `w T, …, w T + 2 T - 1`.
-/

namespace Verif.Qss
open Verif Analog AnalogTanner Gauss

variable {k m n : ℕ}

/-- The analog values measured in round `j`. -/
def valuesAt (log : List (Vec n × (Fin m → ℝ))) (j : ℕ) : Fin m → ℝ := ((log[j]?).map (·.2)).getD 0

/-- The error in round `j`. -/
def errorAt (log : List (Vec n × (Fin m → ℝ))) (j : ℕ) : Vec n := ((log[j]?).map (·.1)).getD 0

/-- The answer of the decoder to a call. -/
def answerOf (bp : Solver) (c : WCall k m n) : Vec ((k + 1) * n + (k + 1) * m) := bp _ _ c.pcm c.soft c.syn

/-- The correction applied after a call: the data errors of the first half of the window, or of the whole window at the end. -/
def correction (bp : Solver) (T : ℕ) (c : WCall k m n) : Vec n := fun q =>
  ∑ r : Fin (k + 1), if c.last = true ∨ r.val < T then spaceCorrection (answerOf bp c) q r else 0

/-- The syndrome errors of the last round of the first half of the window, according to the decoder. -/
def timeFlip (bp : Solver) (T : ℕ) (c : WCall k m n) : Vec m := fun i =>
  ∑ r : Fin (k + 1), if r.val + 1 = T then timeCorrection (answerOf bp c) i r else 0

/-- The correction applied after round `j`: the one of the window that ends with this round, if there is one. -/
def correctionAt (bp : Solver) (T : ℕ) (calls : List (WCall k m n)) (j : ℕ) : Vec n :=
  if k ≤ j ∧ T ∣ j - k then ((calls[(j - k) / T]?).map (correction bp T)).getD 0 else 0

/-- The residual error before round `j`. -/
def residualBefore (bp : Solver) (T : ℕ) (log : List (Vec n × (Fin m → ℝ))) (calls : List (WCall k m n)) : ℕ → Vec n
  | 0 => 0
  | j + 1 => errorAt log j + correctionAt bp T calls j

/-- What the decoder's answer to the previous window changes in the first half of window `w`: the syndrome of the correction, and in the
first round the assumed syndrome errors of the round before. -/
def carried (bp : Solver) (H : Mat m n) (T : ℕ) (calls : List (WCall k m n)) (r : ℕ) : ℕ → Vec m
  | 0 => 0
  | w + 1 =>
    match calls[w]? with
    | none => 0
    | some c => apply H (correction bp T c) + if r = 0 then timeFlip bp T c else 0

/-- The syndrome bits of window `w`. -/
noncomputable def windowBits (bp : Solver) (H : Mat m n) (T : ℕ) (log : List (Vec n × (Fin m → ℝ))) (calls : List (WCall k m n)) (w : ℕ) : Mat m (k + 1) :=
  fun i r => binaryFromAnalog (valuesAt log (w * T + r.val)) i + if r.val < T then carried bp H T calls r.val w i else 0

/-- The error probabilities of window `w`: the rate of data errors for every data bit of every round, and for every syndrome bit the
probability that it is wrong, given the measured value; the syndrome of the last round of the sample is trusted. -/
noncomputable def windowPriors (own sigma : ℝ) (T : ℕ) (log : List (Vec n × (Fin m → ℝ))) (w : ℕ) (last : Bool) :
    Fin ((k + 1) * n + (k + 1) * m) → Num :=
  Fin.append (fun _ => .fin own) fun j =>
    if last = true ∧ j.divNat.val = k then .fin (1 / 10 ^ 15) else .fin (posteriorWrong sigma (valuesAt log (w * T + j.divNat.val) j.modNat))

/-- A sample with the draws `rounds`, noise strength `sigma`, rates `bits` of Pauli errors and rate `own` of the errors of this side. -/
structure SampleOk (bp : Solver) (method : Method) (H : Mat m n) (T : ℕ) (bits : ℝ × ℝ × ℝ) (zErrors : Bool) (own sigma : ℝ)
    (rounds : List (Draws m n)) (log : List (Vec n × (Fin m → ℝ))) (calls : List (WCall k m n)) (final : Vec n) : Prop where
  /-- Every round is in the log. -/
  length : log.length = rounds.length
  /-- The error of a round is a Pauli error of the channel on top of the residual error. -/
  errors : ∀ j d, rounds[j]? = some d →
    errorAt log j = (if zErrors then Prod.snd else Prod.fst) (generateErr (fun _ => bits.1) (fun _ => bits.2.1) (fun _ => bits.2.2) d.u
      (residualBefore bp T log calls j) (residualBefore bp T log calls j))
  /-- The measured values are the signs of the checks with Gaussian noise, without noise in the last round. -/
  values : ∀ j d, rounds[j]? = some d →
    valuesAt log j = noisyAnalog (apply H (errorAt log j)) (if j + 1 = rounds.length then 0 else sigma) d.g
  /-- There is one call for each window that is complete. -/
  windows : ∀ w, w < calls.length ↔ w * T + (k + 1) ≤ rounds.length
  /-- The calls. -/
  asked : ∀ w c, calls[w]? = some c → c.last = decide (w * T + (k + 1) = rounds.length) ∧ c.pcm = buildMultiroundPcm H k ∧
    c.soft = Soft.updated method (windowPriors own sigma T log w c.last) ∧ c.syn = flattenF (diffSyndrome (windowBits bp H T log calls w))
  /-- The error after the sample. -/
  after : final = residualBefore bp T log calls rounds.length

end Verif.Qss
