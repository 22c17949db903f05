import Verif.Lemmas.Gauss
import Mathlib.Probability.Moments.SubGaussian
import Mathlib.Probability.StrongLaw

/-! # Energy of white Gaussian noise -/
namespace Verif
open Spec MeasureTheory ProbabilityTheory Filter
variable {Ω : Type} [MeasurableSpace Ω] {P : Measure Ω} {σ : ℝ} {w : ℕ → Ω → ℝ}

theorem Spec.White.sq_mean (h : White P σ w) (i : ℕ) : ∫ ω, w i ω ^ 2 ∂P = σ ^ 2 := by
  have := h.prob
  have h1 := h.var i
  rw [variance_of_integral_eq_zero (h.gauss i).aemeasurable (h.mean i)] at h1
  exact h1

theorem Spec.White.sq_integrable (h : White P σ w) (i : ℕ) : Integrable (fun ω => w i ω ^ 2) P :=
  (h.gauss i).memLp_two.integrable_sq

/-- The mean square of white noise. -/
theorem Spec.White.sq_limit (h : White P σ w) :
    ∀ᵐ ω ∂P, Tendsto (fun N : ℕ => (∑ i ∈ Finset.range N, w i ω ^ 2) / N) atTop (nhds (σ ^ 2)) := by
  have := strong_law_ae_real (μ := P) (fun i ω => w i ω ^ 2) (h.sq_integrable 0)
    (fun i j hij => (h.indep.indepFun hij).comp (measurable_id.pow_const 2) (measurable_id.pow_const 2))
    (fun i => ((h.law i).identDistrib (h.law 0)).comp (measurable_id.pow_const 2))
  rw [h.sq_mean 0] at this
  exact this

theorem Spec.White.proj_subG (h : White P σ w) (M : ℕ) (a : ℕ → ℝ) {v : ℝ} (hv : σ ^ 2 * ∑ i ∈ Finset.range M, a i ^ 2 ≤ v) :
    HasSubgaussianMGF (proj M a w) v.toNNReal P where
  integrable_exp_mul t := by
    have hl := h.proj_law M a
    have := integrable_exp_mul_gaussianReal (μ := 0) (v := (σ ^ 2 * ∑ i ∈ Finset.range M, a i ^ 2).toNNReal) t
    rw [← hl.map_eq] at this
    exact this.comp_aemeasurable hl.aemeasurable
  mgf_le t := by
    rw [mgf_gaussianReal (h.proj_law M a).map_eq, zero_mul, zero_add, Real.exp_le_exp]
    have := NNReal.coe_le_coe.mpr (Real.toNNReal_le_toNNReal hv)
    have := mul_le_mul_of_nonneg_right this (sq_nonneg t)
    linarith

/-- Bounded weights: the probability of a large correlation with the noise decays geometrically. -/
theorem Spec.White.proj_tail (h : White P σ w) (hσ : 0 < σ) {a : ℕ → ℝ} {B : ℝ} (hB : 0 < B) (ha : ∀ i, |a i| ≤ B) {ε : ℝ} (hε : 0 < ε) (N : ℕ) :
    P.real {ω | ε * N ≤ proj N a w ω} ≤ Real.exp (-ε ^ 2 / (2 * (σ ^ 2 * B ^ 2))) ^ N := by
  have hP := h.prob
  rcases Nat.eq_zero_or_pos N with rfl | hN
  · rw [pow_zero]; exact measureReal_le_one
  have hN' : (0 : ℝ) < N := by exact_mod_cast hN
  have hs : ∑ i ∈ Finset.range N, a i ^ 2 ≤ N * B ^ 2 := by
    have := Finset.sum_le_card_nsmul (Finset.range N) (fun i => a i ^ 2) (B ^ 2) (fun i _ => by
      rw [← sq_abs]; exact pow_le_pow_left₀ (abs_nonneg _) (ha i) 2)
    simpa using this
  have hb := ((h.proj_subG N a (mul_le_mul_of_nonneg_left hs (sq_nonneg σ))).measure_ge_le (ε := ε * N) (by positivity))
  refine hb.trans (le_of_eq ?_)
  rw [← Real.exp_nat_mul, Real.coe_toNNReal _ (by positivity)]
  congr 1
  field_simp

/-- The noise does not correlate with a bounded signal in the long run. -/
theorem Spec.White.proj_limit (h : White P σ w) (hσ : 0 < σ) {a : ℕ → ℝ} {B : ℝ} (ha : ∀ i, |a i| ≤ B) :
    ∀ᵐ ω ∂P, Tendsto (fun N : ℕ => proj N a w ω / N) atTop (nhds 0) := by
  have hP := h.prob
  have hB : 0 < |B| + 1 := by positivity
  have ha' : ∀ i, |a i| ≤ |B| + 1 := fun i => (ha i).trans ((le_abs_self B).trans (by linarith))
  have key : ∀ (a : ℕ → ℝ), (∀ i, |a i| ≤ |B| + 1) → ∀ m : ℕ, ∀ᵐ ω ∂P, ∀ᶠ N : ℕ in atTop, ω ∉ {ω | (1 / ((m : ℝ) + 1)) * N ≤ proj N a w ω} := by
    intro a ha m
    apply ae_eventually_notMem
    set r := Real.exp (-(1 / ((m : ℝ) + 1)) ^ 2 / (2 * (σ ^ 2 * (|B| + 1) ^ 2))) with hr
    have hr0 : 0 ≤ r := (Real.exp_pos _).le
    have hr1 : r < 1 := by
      rw [hr, Real.exp_lt_one_iff]
      have : 0 < (1 / ((m : ℝ) + 1)) ^ 2 / (2 * (σ ^ 2 * (|B| + 1) ^ 2)) := by positivity
      rw [neg_div]; linarith
    have hsum := summable_geometric_of_lt_one hr0 hr1
    refine ne_top_of_le_ne_top (hsum.tsum_ofReal_ne_top) (ENNReal.tsum_le_tsum fun N => ?_)
    rw [← ofReal_measureReal]
    exact ENNReal.ofReal_le_ofReal (h.proj_tail hσ hB ha (by positivity) N)
  have h1 := ae_all_iff.mpr (key a ha')
  have h2 := ae_all_iff.mpr (key (fun i => - a i) (fun i => by rw [abs_neg]; exact ha' i))
  filter_upwards [h1, h2] with ω g1 g2
  rw [Metric.tendsto_atTop']
  intro ε hε
  obtain ⟨m, hm⟩ := exists_nat_one_div_lt hε
  obtain ⟨N0, hN0⟩ := ((g1 m).and ((g2 m).and (eventually_gt_atTop 0))).exists_forall_of_atTop
  refine ⟨N0, fun N hN => ?_⟩
  obtain ⟨e1, e2, e3⟩ := hN0 N hN.le
  have e3' : (0 : ℝ) < N := by exact_mod_cast e3
  have hneg : proj N (fun i => - a i) w ω = - proj N a w ω := by
    simp only [proj, neg_mul, Finset.sum_neg_distrib]
  have e1' : proj N a w ω < 1 / ((m : ℝ) + 1) * N := not_le.mp e1
  have e2' : - proj N a w ω < 1 / ((m : ℝ) + 1) * N := by rw [← hneg]; exact not_le.mp e2
  rw [Real.dist_eq, sub_zero, abs_div, abs_of_pos e3', div_lt_iff₀ e3']
  have := mul_lt_mul_of_pos_right hm e3'
  rw [abs_lt]
  constructor <;> linarith

/-- The mean energy of a bounded signal in white noise is the mean energy of the signal plus the noise variance. -/
theorem Spec.White.energy_limit (h : White P σ w) (hσ : 0 < σ) {s : ℕ → ℝ} {B : ℝ} (hs : ∀ i, |s i| ≤ B) {E : ℝ} {φ : ℕ → ℕ}
    (hφ : Tendsto φ atTop atTop) (hE : Tendsto (fun N : ℕ => (∑ i ∈ Finset.range (φ N), s i ^ 2) / φ N) atTop (nhds E)) :
    ∀ᵐ ω ∂P, Tendsto (fun N : ℕ => (∑ i ∈ Finset.range (φ N), (s i + w i ω) ^ 2) / φ N) atTop (nhds (E + σ ^ 2)) := by
  filter_upwards [h.sq_limit, h.proj_limit hσ hs] with ω h1 h2
  have := (hE.add ((h2.comp hφ).const_mul 2)).add (h1.comp hφ)
  simp only [mul_zero, add_zero] at this
  refine this.congr fun N => ?_
  simp only [Function.comp]
  rw [proj, mul_div_assoc', Finset.mul_sum, ← add_div, ← add_div, ← Finset.sum_add_distrib, ← Finset.sum_add_distrib]
  congr 1
  exact Finset.sum_congr rfl fun i _ => by ring

/-- On average it is so at every length. -/
theorem Spec.White.energy_mean (h : White P σ w) (s : ℕ → ℝ) (N : ℕ) :
    ∫ ω, ∑ i ∈ Finset.range N, (s i + w i ω) ^ 2 ∂P = ∑ i ∈ Finset.range N, s i ^ 2 + N * σ ^ 2 := by
  have hP := h.prob
  have hi : ∀ i, Integrable (fun ω => (s i + w i ω) ^ 2) P := fun i => ((memLp_const (s i)).add (h.gauss i).memLp_two).integrable_sq
  rw [integral_finsetSum _ fun i _ => hi i]
  have : ∀ i, ∫ ω, (s i + w i ω) ^ 2 ∂P = s i ^ 2 + σ ^ 2 := fun i => by
    have e : (fun ω => (s i + w i ω) ^ 2) = fun ω => (s i ^ 2 + 2 * s i * w i ω) + w i ω ^ 2 := by funext ω; ring
    have i1 : Integrable (fun ω => 2 * s i * w i ω) P := (h.gauss i).integrable.const_mul _
    have i2 : Integrable (fun ω => s i ^ 2 + 2 * s i * w i ω) P := (integrable_const _).add i1
    rw [e, integral_add i2 (h.sq_integrable i), integral_add (integrable_const _) i1, integral_const_mul, h.mean, h.sq_mean]
    simp
  simp only [this]
  rw [Finset.sum_add_distrib]
  simp

end Verif
