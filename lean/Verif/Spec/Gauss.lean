import Mathlib.Probability.Distributions.Gaussian.Real
import Mathlib.Analysis.SpecialFunctions.Gaussian.GaussianIntegral

/-!
# Error function and Gaussian noise

Specification of `scipy.special.erfc` and `erfcinv`, and of the probability that a Gaussian read-out has the wrong sign.
-/

namespace Verif.Gauss
open MeasureTheory ProbabilityTheory Real

/-- The complementary error function. -/
noncomputable def erfc (x : ℝ) : ℝ := 2 / √π * ∫ t in Set.Ioi x, exp (-t ^ 2)

/-- What `scipy.special.erfcinv` promises on the open interval: it returns a solution of `erfc x = y`. -/
def IsErfcInv (f : ℝ → ℝ) : Prop := ∀ y, 0 < y → y < 2 → erfc (f y) = y

/-- The law of a standard normal variable. -/
noncomputable abbrev standardNormal : Measure ℝ := gaussianReal 0 1

/-- The read-out of a check: the sign `+1` of a satisfied check (`violated = false`) or `-1` of a violated one, with Gaussian noise
`sigma * g`. -/
def readout (violated : Bool) (sigma g : ℝ) : ℝ := (if violated then -1 else 1) + sigma * g

/-- The probability that the read-out of a check has the wrong sign (zero counts as negative), when `g` is standard normal. -/
noncomputable def wrongSign (violated : Bool) (sigma : ℝ) : ℝ :=
  standardNormal.real {g | decide (readout violated sigma g ≤ 0) ≠ violated}

/-- The density of the read-out `y` of a check. -/
noncomputable def density (violated : Bool) (sigma y : ℝ) : ℝ :=
  gaussianPDFReal (if violated then -1 else 1) (Real.toNNReal (sigma ^ 2)) y

/-- The probability that the sign of the read-out `y` is wrong, when satisfied and violated are equally likely before (Bayes). -/
noncomputable def posteriorWrong (sigma y : ℝ) : ℝ :=
  density (!decide (y ≤ 0)) sigma y / (density true sigma y + density false sigma y)

end Verif.Gauss
