import Verif.Spec.Gauss
import Mathlib.MeasureTheory.Integral.IntegralEqImproper
import Mathlib.MeasureTheory.Integral.IntervalIntegral.Basic
import Mathlib.MeasureTheory.Integral.DominatedConvergence
import Mathlib.Topology.Order.IntermediateValue

/-! # Lemmas on the error function -/

namespace Verif.Gauss
open MeasureTheory ProbabilityTheory Real Set Filter Topology

/-- The integrand is integrable. -/
theorem integrable_exp_neg_sq : Integrable fun t : ℝ => exp (-t ^ 2) := by
  have h := integrable_exp_neg_mul_sq (b := 1) one_pos
  simpa using h

/-- Half of the Gaussian integral. -/
theorem integral_exp_neg_sq_Ioi : ∫ t in Ioi (0 : ℝ), exp (-t ^ 2) = √π / 2 := by
  have h := integral_gaussian_Ioi 1
  simpa using h

/-- The primitive. -/
noncomputable def prim (x : ℝ) : ℝ := ∫ t in (0 : ℝ)..x, exp (-t ^ 2)

theorem sqrt_pi_pos : 0 < √π := sqrt_pos.2 pi_pos

theorem erfc_eq (x : ℝ) : erfc x = 1 - 2 / √π * prim x := by
  have h : (∫ t in Ioi x, exp (-t ^ 2)) = √π / 2 - prim x := by
    unfold prim
    rw [← integral_exp_neg_sq_Ioi, eq_sub_iff_add_eq, add_comm]
    exact intervalIntegral.integral_interval_add_Ioi integrable_exp_neg_sq.integrableOn integrable_exp_neg_sq.integrableOn
  unfold erfc
  rw [h, mul_sub]
  have := sqrt_pi_pos.ne'
  field_simp

theorem continuous_prim : Continuous prim :=
  intervalIntegral.continuous_primitive (fun _ _ => integrable_exp_neg_sq.intervalIntegrable) 0

theorem continuous_erfc : Continuous erfc := by
  rw [show erfc = fun x => 1 - 2 / √π * prim x from funext erfc_eq]
  exact continuous_const.sub (continuous_const.mul continuous_prim)

theorem prim_neg (x : ℝ) : prim (-x) = -prim x := by
  unfold prim
  have h := intervalIntegral.integral_comp_neg (a := 0) (b := x) fun t : ℝ => exp (-t ^ 2)
  simp only [neg_zero, neg_sq] at h
  rw [intervalIntegral.integral_symm, ← h]

theorem tendsto_prim : Tendsto prim atTop (𝓝 (√π / 2)) := by
  rw [← integral_exp_neg_sq_Ioi]
  exact intervalIntegral_tendsto_integral_Ioi 0 integrable_exp_neg_sq.integrableOn tendsto_id

theorem prim_strictMono : StrictMono prim := by
  intro a b h
  have e : prim b - prim a = ∫ t in a..b, exp (-t ^ 2) := by
    unfold prim
    rw [sub_eq_iff_eq_add, add_comm]
    exact (intervalIntegral.integral_add_adjacent_intervals integrable_exp_neg_sq.intervalIntegrable
      integrable_exp_neg_sq.intervalIntegrable).symm
  have p : 0 < ∫ t in a..b, exp (-t ^ 2) :=
    intervalIntegral.intervalIntegral_pos_of_pos integrable_exp_neg_sq.intervalIntegrable (fun t => exp_pos _) h
  linarith

theorem erfc_strictAnti : StrictAnti erfc := by
  intro a b h
  rw [erfc_eq, erfc_eq]
  have := mul_lt_mul_of_pos_left (prim_strictMono h) (div_pos two_pos sqrt_pi_pos)
  linarith

theorem erfc_neg (x : ℝ) : erfc (-x) = 2 - erfc x := by
  rw [erfc_eq, erfc_eq, prim_neg]; ring

theorem erfc_zero : erfc 0 = 1 := by
  have h := erfc_neg 0
  rw [neg_zero] at h
  linarith

theorem tendsto_erfc_atTop : Tendsto erfc atTop (𝓝 0) := by
  rw [show erfc = fun x => 1 - 2 / √π * prim x from funext erfc_eq]
  have h := (tendsto_const_nhds (x := (1 : ℝ)) (f := atTop)).sub ((tendsto_const_nhds (x := 2 / √π) (f := atTop)).mul tendsto_prim)
  have e : (1 : ℝ) - 2 / √π * (√π / 2) = 0 := by
    have := sqrt_pi_pos.ne'
    field_simp
    ring
  rwa [e] at h

theorem erfc_pos (x : ℝ) : 0 < erfc x := by
  have h : erfc (x + 1) < erfc x := erfc_strictAnti (by linarith)
  have h0 : 0 ≤ erfc (x + 1) := mul_nonneg (div_nonneg two_pos.le sqrt_pi_pos.le) (integral_nonneg fun t => (exp_pos _).le)
  linarith

theorem erfc_lt_two (x : ℝ) : erfc x < 2 := by
  have := erfc_pos (-x)
  rw [erfc_neg] at this
  linarith

/-- Every value strictly between 0 and 2 is taken. -/
theorem erfc_surj (y : ℝ) (h0 : 0 < y) (h2 : y < 2) : ∃ x, erfc x = y := by
  obtain ⟨b, hb⟩ := ((tendsto_order.1 tendsto_erfc_atTop).2 y h0).exists
  obtain ⟨a, ha⟩ := ((tendsto_order.1 tendsto_erfc_atTop).2 (2 - y) (by linarith)).exists
  have ha' : y < erfc (-a) := by rw [erfc_neg]; linarith
  exact mem_range_of_exists_le_of_exists_ge continuous_erfc ⟨b, hb.le⟩ ⟨-a, ha'.le⟩

/-- There is an inverse of `erfc`. -/
theorem exists_isErfcInv : ∃ f, IsErfcInv f := by
  classical
  refine ⟨fun y => if h : 0 < y ∧ y < 2 then (erfc_surj y h.1 h.2).choose else 0, fun y h0 h2 => ?_⟩
  show erfc (dite _ _ _) = y
  rw [dif_pos ⟨h0, h2⟩]
  exact (erfc_surj y h0 h2).choose_spec

/-- An inverse is inverse on both sides. -/
theorem IsErfcInv.left_inv {f : ℝ → ℝ} (hf : IsErfcInv f) (x : ℝ) : f (erfc x) = x :=
  erfc_strictAnti.injective (hf _ (erfc_pos x) (erfc_lt_two x))

/-- The tail of the standard normal law. -/
theorem standardNormal_Ioi (a : ℝ) : standardNormal.real (Ioi a) = erfc (a / √2) / 2 := by
  have hs : (0 : ℝ) < √2 := sqrt_pos.2 two_pos
  have h1 : standardNormal.real (Ioi a) = ∫ x in Ioi a, gaussianPDFReal 0 1 x := by
    rw [measureReal_def, gaussianReal_apply_eq_integral 0 one_ne_zero, ENNReal.toReal_ofReal]
    exact integral_nonneg fun x => gaussianPDFReal_nonneg _ _ _
  have h2 := integral_comp_mul_left_Ioi (fun t : ℝ => exp (-t ^ 2)) a (inv_pos.2 hs)
  have e : ∀ x : ℝ, gaussianPDFReal 0 1 x = (√(2 * π))⁻¹ * exp (-((√2)⁻¹ * x) ^ 2) := by
    intro x
    unfold gaussianPDFReal
    rw [NNReal.coe_one, mul_one, sub_zero, mul_one, mul_pow, inv_pow, sq_sqrt two_pos.le]
    congr 2
    ring
  rw [h1]
  simp only [e]
  rw [integral_const_mul, h2, inv_inv, smul_eq_mul, sqrt_mul two_pos.le, div_eq_inv_mul a]
  unfold erfc
  have := sqrt_pi_pos.ne'
  have := hs.ne'
  field_simp

/-- The probability of a wrong sign. -/
theorem wrongSign_eq (b : Bool) (sigma : ℝ) (h : 0 < sigma) : wrongSign b sigma = erfc (1 / √(2 * sigma ^ 2)) / 2 := by
  have e : (1 : ℝ) / √(2 * sigma ^ 2) = (1 / sigma) / √2 := by
    rw [sqrt_mul two_pos.le, sqrt_sq h.le, div_div, mul_comm]
  rw [e, ← standardNormal_Ioi]
  unfold wrongSign readout
  cases b with
  | true =>
    congr 1
    ext g
    simp only [if_true, ne_eq, decide_eq_true_eq, not_le, mem_setOf_eq, mem_Ioi]
    rw [div_lt_iff₀ h]
    constructor <;> intro hg <;> linarith [mul_comm sigma g]
  | false =>
    have hs : {g : ℝ | decide ((if false = true then (-1 : ℝ) else 1) + sigma * g ≤ 0) ≠ false} = Iic (-(1 / sigma)) := by
      ext g
      simp only [Bool.false_eq_true, if_false, ne_eq, decide_eq_false_iff_not, not_not, mem_setOf_eq, mem_Iic]
      rw [le_neg, div_le_iff₀ h]
      constructor <;> intro hg <;> linarith [mul_comm sigma g]
    rw [hs]
    have hm : (standardNormal.map fun x => -x) = standardNormal := by
      rw [standardNormal, gaussianReal_map_neg, neg_zero]
    have hn : NullSingletonClass standardNormal := nullSingletonClass_gaussianReal one_ne_zero
    rw [measureReal_def, measureReal_def]
    congr 1
    calc standardNormal (Iic (-(1 / sigma))) = (standardNormal.map fun x => -x) (Iic (-(1 / sigma))) := by rw [hm]
      _ = standardNormal (Ici (1 / sigma)) := by
        rw [Measure.map_apply measurable_neg measurableSet_Iic]
        congr 1
        ext x
        simp
      _ = standardNormal (Ioi (1 / sigma)) := (measure_congr Ioi_ae_eq_Ici).symm

end Verif.Gauss
