import Verif.Model.AnalogTanner
import Verif.Model.QssObjects

/-!
# Seeds and random numbers of the analog simulators

`set_seed` (`analog_information_decoding/utils/simulation_utils.py`) and all calls of `np.random` in the simulators, with the random
numbers generated instead of given as inputs (as they are in `Model/AnalogTanner` and `Model/QssObjects`).
-/

namespace Verif.Seeds
open Verif Analog AnalogTanner

/-- numpy's generators: `default_rng()` makes a generator from a number that the operating system supplies; `uniform` is the first value of
`.random()` of that generator, `normal` the values of `.normal(size=…)` with mean zero and deviation one.  They are the same functions on
every computer (simulation_utils.py:22, 102, 190). -/
structure Numpy where
  uniform : ℕ → ℝ
  normal : ℕ → ℕ → ℝ

/-- What random numbers depend on: the numbers of the operating system, how many of them have been used, and the seed of the global
generator `np.random` (simulation_utils.py:22, 102, 190). -/
structure World where
  os : ℕ → ℕ
  used : ℕ
  seed : Option ℕ

/-- `set_seed(value)` (simulation_utils.py:20-22): `np.random.seed(value)`. -/
def World.setSeed (w : World) (value : ℕ) : World := { w with seed := some value }

/-- `np.random.default_rng().random()` for each of `n` qubits (simulation_utils.py:101-102): a new generator every time. -/
def World.uniforms (np : Numpy) (n : ℕ) (w : World) : (Fin n → ℝ) × World :=
  (fun i => np.uniform (w.os (w.used + i)), { w with used := w.used + n })

/-- `np.random.default_rng().normal(…, size=m)` (simulation_utils.py:190). -/
def World.normals (np : Numpy) (m : ℕ) (w : World) : (Fin m → ℝ) × World :=
  (fun i => np.normal (w.os w.used) i, { w with used := w.used + 1 })

/-- The draws of `AtdSimulator.single_sample` (analog_tannergraph_decoding.py:205-222), in order. -/
def atdDraws (np : Numpy) (mx mz n : ℕ) (w : World) : AnalogTanner.Draws mx mz n × World :=
  let u := w.uniforms np n
  let gx := u.2.normals np mz
  let gz := gx.2.normals np mx
  (⟨u.1, gx.1, gz.1⟩, gz.2)

/-- The draws of several samples (analog_tannergraph_decoding.py:236-253). -/
def atdDrawsAll (np : Numpy) (mx mz n : ℕ) : ℕ → World → List (AnalogTanner.Draws mx mz n) × World
  | 0, w => ([], w)
  | k + 1, w =>
    let d := atdDraws np mx mz n w
    let r := atdDrawsAll np mx mz n k d.2
    (d.1 :: r.1, r.2)

/-- A program that makes an `AtdSimulator` with a seed (analog_tannergraph_decoding.py:121) and takes `k` samples: the results of the
samples. -/
noncomputable def atdProgram {mx mz n : ℕ} (np : Numpy) (erfcinv : ℝ → ℝ) (bp : BpOsd) (Hx : Mat mx n) (Lx : List (Vec n)) (Hz : Mat mz n)
    (Lz : List (Vec n)) (c : Config) (seed k : ℕ) (w : World) : Except AnalogTanner.Err (Option (List (Bool × Bool))) :=
  let w := w.setSeed seed
  match AnalogTanner.Sim.new erfcinv Hx Lx Hz Lz c with
  | .error e => .error e
  | .ok s => .ok (s.samples bp (atdDrawsAll np mx mz n k w).1)

/-- The draws of the rounds of a quasi-single-shot sample (quasi_single_shot_v2.py:205-235). -/
def qssDraws (np : Numpy) (m n : ℕ) : ℕ → World → List (Qss.Draws m n) × World
  | 0, w => ([], w)
  | k + 1, w =>
    let u := w.uniforms np n
    let g := u.2.normals np m
    let r := qssDraws np m n k g.2
    (⟨u.1, g.1⟩ :: r.1, r.2)

/-- The draws of several samples with `rounds` rounds each (quasi_single_shot_v2.py:278-289). -/
def qssDrawsAll (np : Numpy) (m n rounds : ℕ) : ℕ → World → List (List (Qss.Draws m n)) × World
  | 0, w => ([], w)
  | k + 1, w =>
    let d := qssDraws np m n rounds w
    let r := qssDrawsAll np m n rounds k d.2
    (d.1 :: r.1, r.2)

/-- A program that makes a `QssSimulator` with a seed (quasi_single_shot_v2.py:101) and takes `j` samples with analog decoding. -/
noncomputable def qssProgram {m n : ℕ} (np : Numpy) (erfcinv : ℝ → ℝ) (bp : Qss.Solver) (k : ℕ) (a : Qss.Args m n) (rounds seed j : ℕ)
    (w : World) : Except Qss.QErr (List Bool) :=
  let w := w.setSeed seed
  match Qss.Sim.new erfcinv k a with
  | .error e => .error e
  | .ok s =>
    match s.samples bp (qssDrawsAll np m n rounds j w).1 with
    | .error e => .error e
    | .ok r => .ok r.2

end Verif.Seeds
