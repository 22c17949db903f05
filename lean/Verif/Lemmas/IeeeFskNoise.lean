import Verif.Lemmas.FskNoise
import Verif.Lemmas.IeeeRxFsk
/-!
# Two tones in noise, compared with a margin
-/
open MeasureTheory ProbabilityTheory Real
open scoped ENNReal NNReal
namespace Verif

/-- A shifted Gaussian square in the exponent, weighted. -/
theorem weighted_square {v : ℝ≥0} (hv : v ≠ 0) (A : ℝ) {μ : ℝ} (hμ : 0 ≤ μ) :
    ∫⁻ x, ENNReal.ofReal (rexp (-(μ * (A + x) ^ 2) / (2 * v))) ∂(gaussianReal 0 v)
      = ENNReal.ofReal (rexp (-(μ / (1 + μ) * A ^ 2) / (2 * v)) / √(1 + μ)) := by
  have hv' : (0 : ℝ) < v := by positivity
  have h1μ : (0 : ℝ) < 1 + μ := by linarith
  rw [gaussianReal_of_var_ne_zero 0 hv, lintegral_withDensity_eq_lintegral_mul _ (measurable_gaussianPDF 0 v) (by fun_prop)]
  have e : ∀ x : ℝ, (gaussianPDF 0 v * fun x => ENNReal.ofReal (rexp (-(μ * (A + x) ^ 2) / (2 * v)))) x
      = ENNReal.ofReal ((√(2 * π * v))⁻¹ * rexp (-(μ / (1 + μ) * A ^ 2) / (2 * v)) * rexp (-((1 + μ) / (2 * v : ℝ)) * (x + μ / (1 + μ) * A) ^ 2)) := by
    intro x
    simp only [Pi.mul_apply, gaussianPDF, gaussianPDFReal, sub_zero]
    rw [← ENNReal.ofReal_mul (by positivity), mul_assoc _ (rexp _) (rexp _), mul_assoc _ (rexp _) (rexp _), ← Real.exp_add, ← Real.exp_add]
    congr 3
    field_simp
    ring
  simp only [e]
  have hi : Integrable (fun x : ℝ => rexp (-((1 + μ) / (2 * v : ℝ)) * (x + μ / (1 + μ) * A) ^ 2)) :=
    (integrable_exp_neg_mul_sq (by positivity)).comp_add_right (μ / (1 + μ) * A)
  rw [← ofReal_integral_eq_lintegral_ofReal (hi.const_mul _) (Filter.Eventually.of_forall fun x => by positivity), integral_const_mul,
    integral_add_right_eq_self (fun x : ℝ => rexp (-((1 + μ) / (2 * v : ℝ)) * x ^ 2)), integral_gaussian]
  congr 1
  have h1 : √(π / ((1 + μ) / (2 * v : ℝ))) = √(2 * π * v) / √(1 + μ) := by
    rw [← Real.sqrt_div (by positivity)]; congr 1; field_simp
  have h3 : √(2 * π * v) ≠ 0 := by positivity
  rw [h1]
  field_simp

/-- Four independent components, one of them displaced by `A`: the chance that the pair without the displacement exceeds a multiple of the
other pair by `C`. -/
theorem envelope_margin {v : ℝ≥0} (hv : v ≠ 0) (A : ℝ) {μ : ℝ} (hμ : 0 ≤ μ) (C : ℝ) :
    (((gaussianReal 0 v).prod (gaussianReal 0 v)).prod ((gaussianReal 0 v).prod (gaussianReal 0 v)))
      {z | μ * ((A + z.1.1) ^ 2 + z.1.2 ^ 2) + C ≤ z.2.1 ^ 2 + z.2.2 ^ 2}
        ≤ ENNReal.ofReal (rexp (-C / (2 * v)) * (rexp (-(μ / (1 + μ) * A ^ 2) / (2 * v)) / (1 + μ))) ∧
    (0 ≤ C → (((gaussianReal 0 v).prod (gaussianReal 0 v)).prod ((gaussianReal 0 v).prod (gaussianReal 0 v)))
      {z | μ * ((A + z.1.1) ^ 2 + z.1.2 ^ 2) + C ≤ z.2.1 ^ 2 + z.2.2 ^ 2}
        = ENNReal.ofReal (rexp (-C / (2 * v)) * (rexp (-(μ / (1 + μ) * A ^ 2) / (2 * v)) / (1 + μ)))) := by
  have hv' : (0 : ℝ) < v := by positivity
  have hm : MeasurableSet {z : (ℝ × ℝ) × (ℝ × ℝ) | μ * ((A + z.1.1) ^ 2 + z.1.2 ^ 2) + C ≤ z.2.1 ^ 2 + z.2.2 ^ 2} :=
    measurableSet_le (by fun_prop) (by fun_prop)
  have hint : ∫⁻ z : ℝ × ℝ, ENNReal.ofReal (rexp (-C / (2 * v))) * (ENNReal.ofReal (rexp (-(μ * (A + z.1) ^ 2) / (2 * v)))
      * ENNReal.ofReal (rexp (-(μ * (0 + z.2) ^ 2) / (2 * v)))) ∂((gaussianReal 0 v).prod (gaussianReal 0 v))
      = ENNReal.ofReal (rexp (-C / (2 * v)) * (rexp (-(μ / (1 + μ) * A ^ 2) / (2 * v)) / (1 + μ))) := by
    rw [lintegral_const_mul _ (by fun_prop), lintegral_prod_mul (f := fun x : ℝ => ENNReal.ofReal (rexp (-(μ * (A + x) ^ 2) / (2 * v))))
      (g := fun x : ℝ => ENNReal.ofReal (rexp (-(μ * (0 + x) ^ 2) / (2 * v)))) (by fun_prop) (by fun_prop), weighted_square hv A hμ,
      weighted_square hv 0 hμ, ← ENNReal.ofReal_mul (by positivity), ← ENNReal.ofReal_mul (by positivity)]
    congr 2
    have h2 : √(1 + μ) * √(1 + μ) = 1 + μ := Real.mul_self_sqrt (by linarith)
    rw [show -(μ / (1 + μ) * (0 : ℝ) ^ 2) / (2 * (v : ℝ)) = 0 by simp, Real.exp_zero, div_mul_div_comm, h2, mul_one]
  have hw : ∀ z : ℝ × ℝ, ENNReal.ofReal (rexp (-C / (2 * v))) * (ENNReal.ofReal (rexp (-(μ * (A + z.1) ^ 2) / (2 * v)))
      * ENNReal.ofReal (rexp (-(μ * (0 + z.2) ^ 2) / (2 * v)))) = ENNReal.ofReal (rexp (-(μ * ((A + z.1) ^ 2 + z.2 ^ 2) + C) / (2 * v))) := by
    intro z
    rw [← ENNReal.ofReal_mul (by positivity), ← ENNReal.ofReal_mul (by positivity), ← Real.exp_add, ← Real.exp_add]
    congr 2
    ring
  have hcut : ∀ x : ℝ, 0 ≤ x → ((gaussianReal 0 v).prod (gaussianReal 0 v)) {t : ℝ × ℝ | x ≤ t.1 ^ 2 + t.2 ^ 2}
      = ENNReal.ofReal (rexp (-x / (2 * v))) := by
    intro x hx
    have := rayleigh_le hv (Real.sqrt_nonneg x)
    rwa [Real.sq_sqrt hx] at this
  refine ⟨?_, fun hC => ?_⟩
  · rw [Measure.prod_apply hm, ← hint]
    refine lintegral_mono fun z => ?_
    rw [hw]
    by_cases hx : 0 ≤ μ * ((A + z.1) ^ 2 + z.2 ^ 2) + C
    · exact (hcut _ hx).le
    · refine prob_le_one.trans ?_
      rw [← ENNReal.ofReal_one]
      refine ENNReal.ofReal_le_ofReal (Real.one_le_exp ?_)
      have : 0 ≤ -(μ * ((A + z.1) ^ 2 + z.2 ^ 2) + C) := by linarith
      positivity
  · rw [Measure.prod_apply hm, ← hint]
    refine lintegral_congr fun z => ?_
    rw [hw]
    exact hcut (μ * ((A + z.1) ^ 2 + z.2 ^ 2) + C) (by positivity)

variable {Ω : Type} [MeasurableSpace Ω] {P : Measure Ω} {σ : ℝ} {w : ℕ → Ω → ℝ}
open Spec

/-- The joint law of the noise in two orthogonal planes. -/
theorem Spec.White.map4 (h : White P σ w) {k : ℕ} (a : Fin 4 → ℕ → ℝ) {K : ℝ}
    (ho : ∀ i j, i ≠ j → ∑ l ∈ Finset.range k, a i l * a j l = 0) (hn : ∀ i, ∑ l ∈ Finset.range k, a i l ^ 2 = K) :
    AEMeasurable (fun ω => ((proj k (a 0) w ω, proj k (a 1) w ω), (proj k (a 2) w ω, proj k (a 3) w ω))) P ∧
    P.map (fun ω => ((proj k (a 0) w ω, proj k (a 1) w ω), (proj k (a 2) w ω, proj k (a 3) w ω)))
      = ((gaussianReal 0 (σ ^ 2 * K).toNNReal).prod (gaussianReal 0 (σ ^ 2 * K).toNNReal)).prod
        ((gaussianReal 0 (σ ^ 2 * K).toNNReal).prod (gaussianReal 0 (σ ^ 2 * K).toNNReal)) := by
  have hP := h.prob
  have hi := h.proj_indep k a ho
  have hl : ∀ i, HasLaw (proj k (a i) w) (gaussianReal 0 (σ ^ 2 * K).toNNReal) P := fun i => by
    have := h.proj_law k (a i)
    rwa [hn i] at this
  have hae : ∀ i, AEMeasurable (proj k (a i) w) P := fun i => (hl i).aemeasurable
  have h01 : P.map (fun ω => (proj k (a 0) w ω, proj k (a 1) w ω))
      = (gaussianReal 0 (σ ^ 2 * K).toNNReal).prod (gaussianReal 0 (σ ^ 2 * K).toNNReal) := by
    rw [(indepFun_iff_map_prod_eq_prod_map_map (hae 0) (hae 1)).mp (hi.indepFun (by decide)), (hl 0).map_eq, (hl 1).map_eq]
  have h23 : P.map (fun ω => (proj k (a 2) w ω, proj k (a 3) w ω))
      = (gaussianReal 0 (σ ^ 2 * K).toNNReal).prod (gaussianReal 0 (σ ^ 2 * K).toNNReal) := by
    rw [(indepFun_iff_map_prod_eq_prod_map_map (hae 2) (hae 3)).mp (hi.indepFun (by decide)), (hl 2).map_eq, (hl 3).map_eq]
  have hq : IndepFun (fun ω => (proj k (a 0) w ω, proj k (a 1) w ω)) (fun ω => (proj k (a 2) w ω, proj k (a 3) w ω)) P :=
    hi.indepFun_prodMk_prodMk₀ hae 0 1 2 3 (by decide) (by decide) (by decide) (by decide)
  have hj := (indepFun_iff_map_prod_eq_prod_map_map ((hae 0).prodMk (hae 1)) ((hae 2).prodMk (hae 3))).mp hq
  rw [h01, h23] at hj
  exact ⟨((hae 0).prodMk (hae 1)).prodMk ((hae 2).prodMk (hae 3)), hj⟩

/-- Two squared lengths of the noise in orthogonal planes, the first plane with an offset, compared with a margin. -/
theorem Spec.White.envelope_margin (h : White P σ w) (hσ : 0 < σ) {k : ℕ} (a : Fin 4 → ℕ → ℝ) {K : ℝ} (hK : 0 < K)
    (ho : ∀ i j, i ≠ j → ∑ l ∈ Finset.range k, a i l * a j l = 0) (hn : ∀ i, ∑ l ∈ Finset.range k, a i l ^ 2 = K) (A : ℝ)
    {μ : ℝ} (hμ : 0 ≤ μ) (C : ℝ) :
    P.real {ω | μ * ((A + proj k (a 0) w ω) ^ 2 + proj k (a 1) w ω ^ 2) + C ≤ proj k (a 2) w ω ^ 2 + proj k (a 3) w ω ^ 2}
      ≤ rexp (-C / (2 * (σ ^ 2 * K))) * (rexp (-(μ / (1 + μ) * A ^ 2) / (2 * (σ ^ 2 * K))) / (1 + μ)) ∧
    (0 ≤ C → P.real {ω | μ * ((A + proj k (a 0) w ω) ^ 2 + proj k (a 1) w ω ^ 2) + C ≤ proj k (a 2) w ω ^ 2 + proj k (a 3) w ω ^ 2}
      = rexp (-C / (2 * (σ ^ 2 * K))) * (rexp (-(μ / (1 + μ) * A ^ 2) / (2 * (σ ^ 2 * K))) / (1 + μ))) := by
  obtain ⟨hae, hmap⟩ := h.map4 a ho hn
  have hv : (σ ^ 2 * K).toNNReal ≠ 0 := by
    have : 0 < σ ^ 2 * K := by positivity
    simpa using this
  have hm : MeasurableSet {z : (ℝ × ℝ) × (ℝ × ℝ) | μ * ((A + z.1.1) ^ 2 + z.1.2 ^ 2) + C ≤ z.2.1 ^ 2 + z.2.2 ^ 2} :=
    measurableSet_le (by fun_prop) (by fun_prop)
  obtain ⟨h1, h2⟩ := Verif.envelope_margin hv A hμ C
  rw [← hmap, Measure.map_apply_of_aemeasurable hae hm, Real.coe_toNNReal _ (by positivity)] at h1 h2
  rw [measureReal_def]
  have h0 : 0 ≤ rexp (-C / (2 * (σ ^ 2 * K))) * (rexp (-(μ / (1 + μ) * A ^ 2) / (2 * (σ ^ 2 * K))) / (1 + μ)) := by positivity
  exact ⟨ENNReal.toReal_le_of_le_ofReal h0 h1, fun hC => (congrArg ENNReal.toReal (h2 hC)).trans (ENNReal.toReal_ofReal h0)⟩

theorem root_up {a w δ l : ℝ} (ha : 0 ≤ a) (h0 : 0 < l) (h1 : l < 1) (h : √a ≤ √w + δ) (hw : 0 ≤ w) :
    (1 - l) * a + -((1 - l) / l * δ ^ 2) ≤ w := by
  have h2 : a ≤ (√w + δ) ^ 2 := by
    rw [← Real.sq_sqrt ha]; exact pow_le_pow_left₀ (Real.sqrt_nonneg _) h 2
  have h3 := Real.sq_sqrt hw
  have h4 : 0 < 1 - l := by linarith
  generalize √w = s at *
  have h5 : (1 - l) * a ≤ (1 - l) * (s + δ) ^ 2 := mul_le_mul_of_nonneg_left h2 h4.le
  have h6 : s ^ 2 + (1 - l) / l * δ ^ 2 - (1 - l) * (s + δ) ^ 2 = (l * s - (1 - l) * δ) ^ 2 / l := by
    field_simp; ring
  have : 0 ≤ (l * s - (1 - l) * δ) ^ 2 / l := by positivity
  linarith

theorem root_down {a w δ l : ℝ} (ha : 0 ≤ a) (h0 : 0 < l) (h : (1 + l) * a + (1 + l) / l * δ ^ 2 ≤ w) :
    √a + δ ≤ √w := by
  refine Real.le_sqrt_of_sq_le (le_trans ?_ h)
  have h3 := Real.sq_sqrt ha
  generalize √a = s at *
  rw [← h3]
  have h6 : (1 + l) * s ^ 2 + (1 + l) / l * δ ^ 2 - (s + δ) ^ 2 = (l * s - δ) ^ 2 / l := by
    field_simp; ring
  have : 0 ≤ (l * s - δ) ^ 2 / l := by positivity
  linarith

/-- One noisy symbol: the chance that the wrong tone looks stronger, with a margin for the amplitudes. -/
theorem Tones.margin (hw : White P σ w) (hσ : 0 < σ) {k : ℕ} (hk : 0 < k) {v u : ℝ} (h : Tones k v u) (m m' : ℕ) {δ l : ℝ}
    (hl : 0 < l) :
    (l < 1 → P.real {ω | √(toneEnergy v k (fun j => Real.cos (v * (m + j : ℕ)) + w (m' + j) ω))
        ≤ √(toneEnergy u k (fun j => Real.cos (v * (m + j : ℕ)) + w (m' + j) ω)) + δ}
      ≤ rexp ((1 - l) / l * (δ ^ 2 / (k * σ ^ 2)) - (1 - l) / (2 - l) * (k / (4 * σ ^ 2))) / (2 - l)) ∧
    rexp (-((1 + l) / l * (δ ^ 2 / (k * σ ^ 2))) - (1 + l) / (2 + l) * (k / (4 * σ ^ 2))) / (2 + l) ≤
      P.real {ω | √(toneEnergy v k (fun j => Real.cos (v * (m + j : ℕ)) + w (m' + j) ω)) + δ
        ≤ √(toneEnergy u k (fun j => Real.cos (v * (m + j : ℕ)) + w (m' + j) ω))} := by
  have hP := hw.prob
  have hkR : (0 : ℝ) < k := by exact_mod_cast hk
  have hE := h.energy m (fun j => w (m' + j))
  have em := fun {μ : ℝ} (hμ : 0 ≤ μ) C => (hw.shift m').envelope_margin hσ (corr4 (v * m) v u) (K := k / 2) (by positivity) (h.orth _) (h.norm _) (k / 2) hμ C
  simp only [fun ω => (hE ω).1, fun ω => (hE ω).2]
  constructor
  · intro hl1
    refine (measureReal_mono (fun ω hω => ?_) (measure_ne_top _ _)).trans (((em (μ := 1 - l) (by linarith) (-((1 - l) / l * δ ^ 2))).1).trans (le_of_eq ?_))
    · exact root_up (by positivity) hl hl1 hω (by positivity)
    · rw [mul_div_assoc', ← Real.exp_add, show 1 + (1 - l) = 2 - l by ring]
      congr 2
      have : (2 - l) ≠ 0 := by linarith
      field_simp
      ring
  · refine le_trans (le_of_eq ?_) (((em (μ := 1 + l) (by linarith) ((1 + l) / l * δ ^ 2)).2 (by positivity)).symm.le.trans
      (measureReal_mono (fun ω hω => ?_) (measure_ne_top _ _)))
    · symm
      rw [mul_div_assoc', ← Real.exp_add, show 1 + (1 + l) = 2 + l by ring]
      congr 2
      field_simp
      ring
    · exact root_down (by positivity) hl hω
end Verif
