import Verif.Lemmas.Gauss
import Mathlib.Analysis.SpecialFunctions.Gaussian.GaussianIntegral
/-! # The complementary error function -/
namespace Verif
open Spec MeasureTheory ProbabilityTheory

theorem gauss_integrable : Integrable (fun t : ℝ => Real.exp (-t ^ 2)) := by
  simpa using integrable_exp_neg_mul_sq (b := 1) one_pos

theorem Erfc_zero : Erfc 0 = 1 := by
  have := Erfc_neg 0
  rw [neg_zero] at this; linarith

/-- It is below the Gaussian. -/
theorem Erfc_le {x : ℝ} (hx : 0 ≤ x) : Erfc x ≤ Real.exp (-x ^ 2) := by
  have h0 : Erfc 0 = 1 := Erfc_zero
  have hs : ∫ t in Set.Ioi x, Real.exp (-t ^ 2) = ∫ t in Set.Ioi (0 : ℝ), Real.exp (-(t + x) ^ 2) := by
    rw [← (measurePreserving_add_right volume x).setIntegral_preimage_emb (measurableEmbedding_addRight x) (fun t => Real.exp (-t ^ 2)) (Set.Ioi x)]
    simp
  have hi : Integrable (fun t : ℝ => Real.exp (-(t + x) ^ 2)) := gauss_integrable.comp_add_right x
  have hle : ∫ t in Set.Ioi (0 : ℝ), Real.exp (-(t + x) ^ 2) ≤ ∫ t in Set.Ioi (0 : ℝ), Real.exp (-x ^ 2) * Real.exp (-t ^ 2) := by
    refine setIntegral_mono_on hi.integrableOn (gauss_integrable.const_mul _).integrableOn measurableSet_Ioi fun t ht => ?_
    rw [← Real.exp_add, Real.exp_le_exp]
    have : 0 < t := ht
    nlinarith [mul_nonneg this.le hx]
  rw [integral_const_mul] at hle
  unfold Erfc at h0 ⊢
  rw [hs]
  calc _ ≤ 2 / √Real.pi * (Real.exp (-x ^ 2) * ∫ t in Set.Ioi (0 : ℝ), Real.exp (-t ^ 2)) := mul_le_mul_of_nonneg_left hle (by positivity)
    _ = Real.exp (-x ^ 2) * (2 / √Real.pi * ∫ t in Set.Ioi (0 : ℝ), Real.exp (-t ^ 2)) := by ring
    _ = _ := by rw [h0, mul_one]

theorem Erfc_strictAnti : StrictAnti Erfc := by
  intro x y hxy
  unfold Erfc
  have hpi := Real.sqrt_pos.mpr Real.pi_pos
  refine mul_lt_mul_of_pos_left ?_ (by positivity)
  rw [← Set.Ioc_union_Ioi_eq_Ioi hxy.le, setIntegral_union (Set.Ioc_disjoint_Ioi le_rfl) measurableSet_Ioi
    gauss_integrable.integrableOn gauss_integrable.integrableOn]
  have : 0 < ∫ t in Set.Ioc x y, Real.exp (-t ^ 2) := by
    rw [← intervalIntegral.integral_of_le hxy.le]
    exact intervalIntegral.intervalIntegral_pos_of_pos (gauss_integrable.intervalIntegrable) (fun t => Real.exp_pos _) hxy
  linarith

theorem Erfc_pos (x : ℝ) : 0 < Erfc x := by
  refine lt_of_le_of_lt ?_ (Erfc_strictAnti (lt_add_one x))
  unfold Erfc
  exact mul_nonneg (by positivity) (integral_nonneg fun t => (Real.exp_pos _).le)

theorem bitError_bounds {E σ : ℝ} (hE : 0 < E) (hσ : 0 < σ) : 0 < bitError E σ ∧ bitError E σ < 1 / 2 := by
  unfold bitError
  constructor
  · have := Erfc_pos (√(E / (2 * σ ^ 2))); linarith
  · have := Erfc_strictAnti (Real.sqrt_pos.mpr (by positivity : 0 < E / (2 * σ ^ 2)))
    rw [Erfc_zero] at this; linarith

theorem bitError_lt {E E' σ σ' : ℝ} (hE : 0 < E) (hσ : 0 < σ) (h : E / σ ^ 2 < E' / σ' ^ 2) :
    bitError E' σ' < bitError E σ := by
  unfold bitError
  have : √(E / (2 * σ ^ 2)) < √(E' / (2 * σ' ^ 2)) := by
    apply Real.sqrt_lt_sqrt (by positivity)
    rw [mul_comm 2 (σ ^ 2), mul_comm 2 (σ' ^ 2), ← div_div, ← div_div]
    linarith
  have := Erfc_strictAnti this
  linarith

end Verif
