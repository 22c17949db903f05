import Mathlib.Analysis.SpecialFunctions.PolarCoord
import Mathlib.Analysis.SpecialFunctions.Gaussian.GaussianIntegral
import Mathlib.MeasureTheory.Measure.Prod
import Verif.Lemmas.Gauss

/-! # Two Gaussian components against two: the error of an envelope comparison -/
namespace Verif
open Spec MeasureTheory ProbabilityTheory Real
open scoped ENNReal NNReal

theorem radial_tail {v : ℝ} (hv : 0 < v) {r : ℝ} (hr : 0 ≤ r) :
    ∫ ρ in Set.Ioi r, ρ * rexp (-ρ ^ 2 / (2 * v)) = v * rexp (-r ^ 2 / (2 * v)) := by
  have hd : ∀ x ∈ Set.Ici r, HasDerivAt (fun ρ => -(v * rexp (-ρ ^ 2 / (2 * v)))) (x * rexp (-x ^ 2 / (2 * v))) x := by
    intro x _
    have h1 : HasDerivAt (fun ρ : ℝ => -ρ ^ 2 / (2 * v)) (-(2 * x) / (2 * v)) x := by
      have := ((hasDerivAt_pow 2 x).neg).div_const (2 * v)
      simpa using this
    have h2 := (h1.exp.const_mul v).neg
    refine h2.congr_deriv ?_
    field_simp
  have hlim : Filter.Tendsto (fun ρ => -(v * rexp (-ρ ^ 2 / (2 * v)))) Filter.atTop (nhds 0) := by
    have h1 : Filter.Tendsto (fun ρ : ℝ => ρ ^ 2 / (2 * v)) Filter.atTop Filter.atTop :=
      (Filter.tendsto_pow_atTop two_ne_zero).atTop_div_const (by positivity)
    have h2 := (Real.tendsto_exp_neg_atTop_nhds_zero.comp h1).const_mul v
    have h3 := h2.neg
    simp only [mul_zero, neg_zero] at h3
    refine h3.congr fun x => ?_
    simp only [Function.comp, neg_div]
  rw [integral_Ioi_of_hasDerivAt_of_nonneg' hd (fun x hx => ?_) hlim]
  · ring
  · have : 0 < x := lt_of_le_of_lt hr hx
    positivity

theorem radial_integrable {v : ℝ} (hv : 0 < v) {r : ℝ} (hr : 0 ≤ r) :
    IntegrableOn (fun ρ => ρ * rexp (-ρ ^ 2 / (2 * v))) (Set.Ioi r) := by
  by_contra h
  have h1 := radial_tail hv hr
  rw [integral_undef h] at h1
  have : 0 < v * rexp (-r ^ 2 / (2 * v)) := by positivity
  linarith

/-- The squared radius of two independent Gaussians has an exponential tail. -/
theorem rayleigh {v : ℝ≥0} (hv : v ≠ 0) {r : ℝ} (hr : 0 ≤ r) :
    ((gaussianReal 0 v).prod (gaussianReal 0 v)) {t : ℝ × ℝ | r ^ 2 < t.1 ^ 2 + t.2 ^ 2} = ENNReal.ofReal (rexp (-r ^ 2 / (2 * v))) := by
  have hv' : (0 : ℝ) < v := by positivity
  have hms : MeasurableSet {t : ℝ × ℝ | r ^ 2 < t.1 ^ 2 + t.2 ^ 2} := measurableSet_lt measurable_const (by fun_prop)
  rw [gaussianReal_of_var_ne_zero 0 hv, prod_withDensity (measurable_gaussianPDF 0 v) (measurable_gaussianPDF 0 v),
    withDensity_apply _ hms, ← lintegral_indicator hms, ← Measure.volume_eq_prod, ← lintegral_comp_polarCoord_symm]
  have e : ∀ p ∈ polarCoord.target, ENNReal.ofReal p.1 • {t : ℝ × ℝ | r ^ 2 < t.1 ^ 2 + t.2 ^ 2}.indicator
      (fun z => gaussianPDF 0 v z.1 * gaussianPDF 0 v z.2) (polarCoord.symm p)
      = (Set.Ioi r).indicator (fun ρ => ENNReal.ofReal (ρ * rexp (-ρ ^ 2 / (2 * v)) / (2 * π * v))) p.1 := by
    rintro ⟨ρ, θ⟩ hp
    rw [polarCoord_target] at hp
    have hρ : 0 < ρ := hp.1
    have hsq : (ρ * Real.cos θ) ^ 2 + (ρ * Real.sin θ) ^ 2 = ρ ^ 2 := by
      have := Real.sin_sq_add_cos_sq θ
      linear_combination ρ ^ 2 * this
    simp only [polarCoord_symm_apply]
    by_cases h : r < ρ
    · rw [Set.indicator_of_mem (by show r ^ 2 < _; rw [hsq]; exact pow_lt_pow_left₀ h hr two_ne_zero),
        Set.indicator_of_mem (Set.mem_Ioi.mpr h)]
      simp only [gaussianPDF, gaussianPDFReal, sub_zero, smul_eq_mul]
      rw [← ENNReal.ofReal_mul (by positivity), ← ENNReal.ofReal_mul hρ.le]
      congr 1
      have h2 : rexp (-(ρ * Real.cos θ) ^ 2 / (2 * v)) * rexp (-(ρ * Real.sin θ) ^ 2 / (2 * v)) = rexp (-ρ ^ 2 / (2 * v)) := by
        rw [← Real.exp_add, ← hsq]; congr 1; ring
      have h3 : √(2 * π * v) * √(2 * π * v) = 2 * π * v := Real.mul_self_sqrt (by positivity)
      rw [← h2]
      have h4 : (√(2 * π * v))⁻¹ * (√(2 * π * v))⁻¹ = (2 * π * v)⁻¹ := by rw [← mul_inv, h3]
      rw [div_eq_mul_inv (ρ * _), ← h4]
      ring
    · rw [Set.indicator_of_notMem (by
        show ¬ r ^ 2 < _; rw [hsq, not_lt]; exact pow_le_pow_left₀ hρ.le (not_lt.mp h) 2),
        Set.indicator_of_notMem (by simpa using h), smul_zero]
  rw [setLIntegral_congr_fun (by rw [polarCoord_target]; exact measurableSet_Ioi.prod measurableSet_Ioo) e, polarCoord_target,
    Measure.volume_eq_prod, setLIntegral_prod _ (by
      refine Measurable.aemeasurable ?_
      exact ((Measurable.indicator (by fun_prop) measurableSet_Ioi).comp measurable_fst))]
  simp only [setLIntegral_const, Real.volume_Ioo]
  rw [lintegral_mul_const _ (Measurable.indicator (by fun_prop) measurableSet_Ioi), ← lintegral_indicator measurableSet_Ioi,
    Set.indicator_indicator, Set.inter_eq_right.mpr (Set.Ioi_subset_Ioi hr), lintegral_indicator measurableSet_Ioi,
    ← ofReal_integral_eq_lintegral_ofReal ((radial_integrable hv' hr).div_const _), integral_div, radial_tail hv' hr,
    ← ENNReal.ofReal_mul (by positivity)]
  · congr 1
    have := Real.pi_pos
    field_simp
    ring
  · refine (ae_restrict_iff' measurableSet_Ioi).mpr (Filter.Eventually.of_forall fun ρ hρ => ?_)
    have : 0 < ρ := lt_of_le_of_lt hr hρ
    show 0 ≤ ρ * rexp (-ρ ^ 2 / (2 * v)) / (2 * π * v)
    positivity

/-- The same with a tie on the other side. -/
theorem rayleigh_le {v : ℝ≥0} (hv : v ≠ 0) {r : ℝ} (hr : 0 ≤ r) :
    ((gaussianReal 0 v).prod (gaussianReal 0 v)) {t : ℝ × ℝ | r ^ 2 ≤ t.1 ^ 2 + t.2 ^ 2} = ENNReal.ofReal (rexp (-r ^ 2 / (2 * v))) := by
  refine le_antisymm ?_ ((rayleigh hv hr).symm.le.trans (measure_mono fun t (ht : r ^ 2 < t.1 ^ 2 + t.2 ^ 2) => show r ^ 2 ≤ t.1 ^ 2 + t.2 ^ 2 from ht.le))
  rcases hr.eq_or_lt with rfl | hr0
  · simpa using prob_le_one
  · -- a smaller radius, arbitrarily close
    have hc : ContinuousWithinAt (fun x : ℝ => ENNReal.ofReal (rexp (-x ^ 2 / (2 * v)))) (Set.Iio r) r := by
      refine (ENNReal.continuous_ofReal.comp ?_).continuousWithinAt
      fun_prop
    refine ge_of_tendsto hc ?_
    filter_upwards [Ioo_mem_nhdsLT hr0] with x hx
    rw [← rayleigh hv hx.1.le]
    exact measure_mono fun t (ht : r ^ 2 ≤ _) => lt_of_lt_of_le (pow_lt_pow_left₀ hx.2 hx.1.le two_ne_zero) ht

/-- A shifted Gaussian square in the exponent. -/
theorem shifted_square {v : ℝ≥0} (hv : v ≠ 0) (A : ℝ) :
    ∫⁻ x, ENNReal.ofReal (rexp (-(A + x) ^ 2 / (2 * v))) ∂(gaussianReal 0 v) = ENNReal.ofReal (rexp (-A ^ 2 / (4 * v)) / √2) := by
  have hv' : (0 : ℝ) < v := by positivity
  rw [gaussianReal_of_var_ne_zero 0 hv, lintegral_withDensity_eq_lintegral_mul _ (measurable_gaussianPDF 0 v) (by fun_prop)]
  have e : ∀ x : ℝ, (gaussianPDF 0 v * fun x => ENNReal.ofReal (rexp (-(A + x) ^ 2 / (2 * v)))) x
      = ENNReal.ofReal ((√(2 * π * v))⁻¹ * rexp (-A ^ 2 / (4 * v)) * rexp (-(1 / (v : ℝ)) * (x + A / 2) ^ 2)) := by
    intro x
    simp only [Pi.mul_apply, gaussianPDF, gaussianPDFReal, sub_zero]
    rw [← ENNReal.ofReal_mul (by positivity), mul_assoc _ (rexp _) (rexp _), mul_assoc _ (rexp _) (rexp _), ← Real.exp_add, ← Real.exp_add]
    congr 3
    field_simp
    ring
  simp only [e]
  have hi : Integrable (fun x : ℝ => rexp (-(1 / (v : ℝ)) * (x + A / 2) ^ 2)) :=
    (integrable_exp_neg_mul_sq (by positivity)).comp_add_right (A / 2)
  rw [← ofReal_integral_eq_lintegral_ofReal (hi.const_mul _) (Filter.Eventually.of_forall fun x => by positivity), integral_const_mul,
    integral_add_right_eq_self (fun x : ℝ => rexp (-(1 / (v : ℝ)) * x ^ 2)), integral_gaussian]
  congr 1
  have h1 : √(π / (1 / (v : ℝ))) = √(π * v) := by congr 1; field_simp
  have h2 : √(2 * π * v) = √2 * √(π * v) := by rw [mul_assoc, Real.sqrt_mul (by norm_num)]
  have h3 : √(π * v) ≠ 0 := by positivity
  rw [h1, h2]
  field_simp

/-- Four independent components, one of them displaced by `A`: the chance that the pair without the displacement is longer. -/
theorem envelope {v : ℝ≥0} (hv : v ≠ 0) (A : ℝ) (R : ℝ → ℝ → Prop) (hR : ∀ a b, a < b → R a b) (hR' : ∀ a b, R a b → a ≤ b)
    (hm : MeasurableSet {z : (ℝ × ℝ) × (ℝ × ℝ) | R ((A + z.1.1) ^ 2 + z.1.2 ^ 2) (z.2.1 ^ 2 + z.2.2 ^ 2)}) :
    (((gaussianReal 0 v).prod (gaussianReal 0 v)).prod ((gaussianReal 0 v).prod (gaussianReal 0 v)))
      {z | R ((A + z.1.1) ^ 2 + z.1.2 ^ 2) (z.2.1 ^ 2 + z.2.2 ^ 2)} = ENNReal.ofReal (rexp (-A ^ 2 / (4 * v)) / 2) := by
  rw [Measure.prod_apply hm]
  have e : ∀ z : ℝ × ℝ, ((gaussianReal 0 v).prod (gaussianReal 0 v))
      (Prod.mk z ⁻¹' {z : (ℝ × ℝ) × (ℝ × ℝ) | R ((A + z.1.1) ^ 2 + z.1.2 ^ 2) (z.2.1 ^ 2 + z.2.2 ^ 2)})
      = ENNReal.ofReal (rexp (-(A + z.1) ^ 2 / (2 * v))) * ENNReal.ofReal (rexp (-(0 + z.2) ^ 2 / (2 * v))) := by
    intro z
    have hq : √((A + z.1) ^ 2 + z.2 ^ 2) ^ 2 = (A + z.1) ^ 2 + z.2 ^ 2 := Real.sq_sqrt (by positivity)
    rw [← ENNReal.ofReal_mul (by positivity), ← Real.exp_add]
    have hx : -(A + z.1) ^ 2 / (2 * (v : ℝ)) + -(0 + z.2) ^ 2 / (2 * v) = -√((A + z.1) ^ 2 + z.2 ^ 2) ^ 2 / (2 * v) := by rw [hq]; ring
    rw [hx]
    refine le_antisymm ?_ ?_
    · rw [← rayleigh_le hv (Real.sqrt_nonneg _)]
      refine measure_mono fun t ht => ?_
      show √((A + z.1) ^ 2 + z.2 ^ 2) ^ 2 ≤ t.1 ^ 2 + t.2 ^ 2
      rw [hq]; exact hR' _ _ ht
    · rw [← rayleigh hv (Real.sqrt_nonneg _)]
      refine measure_mono fun t ht => ?_
      have ht : √((A + z.1) ^ 2 + z.2 ^ 2) ^ 2 < t.1 ^ 2 + t.2 ^ 2 := ht
      rw [hq] at ht
      exact hR _ _ ht
  simp only [e]
  rw [lintegral_prod_mul (f := fun x : ℝ => ENNReal.ofReal (rexp (-(A + x) ^ 2 / (2 * v))))
    (g := fun x : ℝ => ENNReal.ofReal (rexp (-(0 + x) ^ 2 / (2 * v)))) (by fun_prop) (by fun_prop), shifted_square hv, shifted_square hv, ← ENNReal.ofReal_mul (by positivity)]
  congr 1
  have : √2 * √2 = 2 := Real.mul_self_sqrt (by norm_num)
  simp only [neg_zero, zero_div, Real.exp_zero, ne_eq, OfNat.ofNat_ne_zero, not_false_eq_true, zero_pow]
  field_simp
  rw [Real.sq_sqrt (by norm_num)]
end Verif
