import Verif.Model.NormTest
import Verif.Lemmas.EnergyClt
import Verif.Lemmas.GaussEnergy
import Verif.Props.NoiseEnergy

/-! # The sample kurtosis of a periodic signal with signs in white noise -/
namespace Verif
open Spec MeasureTheory ProbabilityTheory Filter
variable {Ω : Type} [MeasurableSpace Ω] {P : Measure Ω} {σ : ℝ} {w : ℕ → Ω → ℝ}

theorem kurtosis_range (x : ℕ → ℝ) (N : ℕ) (hN : 0 < N) {m a2 a3 a4 : ℝ} (hm : m = (∑ i ∈ Finset.range N, x i) / N)
    (h2 : a2 = (∑ i ∈ Finset.range N, x i ^ 2) / N) (h3 : a3 = (∑ i ∈ Finset.range N, x i ^ 3) / N)
    (h4 : a4 = (∑ i ∈ Finset.range N, x i ^ 4) / N) :
    excessKurtosis ((List.range N).map x) = (a4 - 4 * m * a3 + 6 * m ^ 2 * a2 - 3 * m ^ 4) / (a2 - m ^ 2) ^ 2 - 3 := by
  have hN' : (N : ℝ) ≠ 0 := by exact_mod_cast hN.ne'
  have em : sampleMean ((List.range N).map x) = m := by
    unfold sampleMean
    rw [rsum_range, List.length_map, List.length_range, Flt.ofNat_real, hm]
  unfold excessKurtosis
  simp only [em]
  rw [List.map_map, List.map_map, rsum_range, rsum_range, List.length_map, List.length_range, Flt.ofNat_real, Flt.ofNat_real]
  have q1 : ∑ i ∈ Finset.range N, x i = N * m := by rw [hm]; field_simp
  have q2 : ∑ i ∈ Finset.range N, x i ^ 2 = N * a2 := by rw [h2]; field_simp
  have q3 : ∑ i ∈ Finset.range N, x i ^ 3 = N * a3 := by rw [h3]; field_simp
  have q4 : ∑ i ∈ Finset.range N, x i ^ 4 = N * a4 := by rw [h4]; field_simp
  have e2 : ∑ i ∈ Finset.range N, ((fun y => (y - m) * (y - m)) ∘ x) i = N * (a2 - m ^ 2) := by
    rw [Finset.sum_congr rfl (fun i _ => show ((fun y => (y - m) * (y - m)) ∘ x) i = x i ^ 2 - 2 * m * x i + m ^ 2 by
      simp only [Function.comp]; ring), Finset.sum_add_distrib, Finset.sum_sub_distrib, ← Finset.mul_sum, q1, q2]
    simp; ring
  have e4 : ∑ i ∈ Finset.range N, ((fun y => (y - m) * (y - m) * ((y - m) * (y - m))) ∘ x) i
      = N * (a4 - 4 * m * a3 + 6 * m ^ 2 * a2 - 3 * m ^ 4) := by
    rw [Finset.sum_congr rfl (fun i _ => show ((fun y => (y - m) * (y - m) * ((y - m) * (y - m))) ∘ x) i
        = x i ^ 4 - 4 * m * x i ^ 3 + 6 * m ^ 2 * x i ^ 2 - 4 * m ^ 3 * x i + m ^ 4 by simp only [Function.comp]; ring),
      Finset.sum_add_distrib, Finset.sum_sub_distrib, Finset.sum_add_distrib, Finset.sum_sub_distrib, ← Finset.mul_sum, ← Finset.mul_sum,
      ← Finset.mul_sum, q1, q2, q3, q4]
    simp; ring
  rw [e2, e4]
  congr 1
  by_cases hz : a2 - m ^ 2 = 0
  · rw [hz]; simp
  · field_simp

/-- A sequence of recordings whose mean goes to zero. -/
theorem kurtosis_tendsto {x : ℕ → ℝ} {φ : ℕ → ℕ} (hφ : Tendsto φ atTop atTop) {v u : ℝ} (hv : v ≠ 0)
    (h1 : Tendsto (fun N => (∑ i ∈ Finset.range (φ N), x i) / φ N) atTop (nhds 0))
    (h2 : Tendsto (fun N => (∑ i ∈ Finset.range (φ N), x i ^ 2) / φ N) atTop (nhds v))
    (h4 : Tendsto (fun N => (∑ i ∈ Finset.range (φ N), x i ^ 4) / φ N) atTop (nhds u)) :
    Tendsto (fun N => excessKurtosis ((List.range (φ N)).map x)) atTop (nhds (u / v ^ 2 - 3)) := by
  have hb : ∀ N, |(∑ i ∈ Finset.range (φ N), x i ^ 3) / φ N|
      ≤ (∑ i ∈ Finset.range (φ N), x i ^ 2) / φ N + (∑ i ∈ Finset.range (φ N), x i ^ 4) / φ N := fun N => by
    rw [← add_div, abs_div, Nat.abs_cast, ← Finset.sum_add_distrib]
    refine div_le_div_of_nonneg_right ((Finset.abs_sum_le_sum_abs _ _).trans (Finset.sum_le_sum fun i _ => ?_)) (Nat.cast_nonneg _)
    rw [abs_le]
    constructor <;> nlinarith [sq_nonneg (x i * (x i - 1)), sq_nonneg (x i * (x i + 1)), sq_nonneg (x i)]
  have h3 : Tendsto (fun N => (∑ i ∈ Finset.range (φ N), x i) / φ N * ((∑ i ∈ Finset.range (φ N), x i ^ 3) / φ N)) atTop (nhds 0) := by
    apply squeeze_zero_norm (a := fun N => |(∑ i ∈ Finset.range (φ N), x i) / φ N| *
      ((∑ i ∈ Finset.range (φ N), x i ^ 2) / φ N + (∑ i ∈ Finset.range (φ N), x i ^ 4) / φ N)) (fun N => by
        rw [norm_mul, Real.norm_eq_abs, Real.norm_eq_abs]
        exact mul_le_mul_of_nonneg_left (hb N) (abs_nonneg _))
    have := h1.abs.mul (h2.add h4)
    rwa [abs_zero, zero_mul] at this
  have h5 := (((h4.sub (h3.const_mul 4)).add (((h1.pow 2).mul h2).const_mul 6)).sub ((h1.pow 4).const_mul 3)).div ((h2.sub (h1.pow 2)).pow 2)
    (by rw [zero_pow two_ne_zero, sub_zero]; exact pow_ne_zero 2 hv)
  have h6 := h5.sub_const 3
  rw [show (u - 4 * 0 + 6 * (0 ^ 2 * v) - 3 * 0 ^ 4) / (v - 0 ^ 2) ^ 2 - 3 = u / v ^ 2 - 3 by norm_num] at h6
  refine h6.congr' ?_
  filter_upwards [hφ.eventually_gt_atTop 0] with N hN
  rw [kurtosis_range x (φ N) hN rfl rfl rfl rfl]
  simp only [Pi.div_apply]
  congr 2
  ring

theorem Spec.White.fourth_shift (h : White P σ w) (i : ℕ) (s : ℝ) : ∫ ω, (s + w i ω) ^ 4 ∂P = s ^ 4 + 6 * s ^ 2 * σ ^ 2 + 3 * σ ^ 4 := by
  have hP := h.prob
  have e : ∀ ω, (s + w i ω) ^ 4 = s ^ 4 + 4 * s ^ 3 * w i ω ^ 1 + 6 * s ^ 2 * w i ω ^ 2 + 4 * s * w i ω ^ 3 + w i ω ^ 4 := fun ω => by ring
  simp only [e]
  have I := fun n => h.pow_integrable i n
  have i1 : Integrable (fun ω => s ^ 4 + 4 * s ^ 3 * w i ω ^ 1) P := (integrable_const _).add ((I 1).const_mul _)
  have i2 : Integrable (fun ω => s ^ 4 + 4 * s ^ 3 * w i ω ^ 1 + 6 * s ^ 2 * w i ω ^ 2) P := i1.add ((I 2).const_mul _)
  have i3 : Integrable (fun ω => s ^ 4 + 4 * s ^ 3 * w i ω ^ 1 + 6 * s ^ 2 * w i ω ^ 2 + 4 * s * w i ω ^ 3) P := i2.add ((I 3).const_mul _)
  have hm : ∫ ω, w i ω ^ 1 ∂P = 0 := by simpa using h.mean i
  rw [integral_add i3 (I 4), integral_add i2 ((I 3).const_mul _), integral_add i1 ((I 2).const_mul _),
    integral_add (integrable_const _) ((I 1).const_mul _), integral_const_mul, integral_const_mul, integral_const_mul, h.sq_mean,
    (h.moments i).1, (h.moments i).2, hm]
  simp

/-- One column of the recording: the samples at one place of every period. -/
theorem Spec.White.column (h : White P σ w) {k : ℕ} (hk : 0 < k) (r : ℕ) (c : ℝ) :
    ∀ᵐ ω ∂P, Tendsto (fun M : ℕ => (∑ j ∈ Finset.range M, (c + w (j * k + r) ω) ^ 4) / M) atTop
      (nhds (c ^ 4 + 6 * c ^ 2 * σ ^ 2 + 3 * σ ^ 4)) := by
  have hP := h.prob
  have hw : White P σ (fun j => w (j * k + r)) := h.reindex fun a b hab => by
    have : a * k = b * k := by simpa using hab
    exact Nat.eq_of_mul_eq_mul_right hk this
  have hmeas : Measurable fun y : ℝ => (c + y) ^ 4 := (measurable_const.add measurable_id).pow_const 4
  have hint : Integrable (fun ω => (c + w (0 * k + r) ω) ^ 4) P := by
    have e : ∀ ω, (c + w (0 * k + r) ω) ^ 4 = c ^ 4 + 4 * c ^ 3 * w (0 * k + r) ω ^ 1 + 6 * c ^ 2 * w (0 * k + r) ω ^ 2
      + 4 * c * w (0 * k + r) ω ^ 3 + w (0 * k + r) ω ^ 4 := fun ω => by ring
    simp only [e]
    have I := fun n => h.pow_integrable (0 * k + r) n
    exact ((((integrable_const _).add ((I 1).const_mul _)).add ((I 2).const_mul _)).add ((I 3).const_mul _)).add (I 4)
  have := strong_law_ae_real (μ := P) (fun j ω => (c + w (j * k + r) ω) ^ 4) hint
    (fun i j hij => (hw.indep.indepFun hij).comp hmeas hmeas)
    (fun i => ((hw.law i).identDistrib (hw.law 0)).comp hmeas)
  rwa [h.fourth_shift] at this

theorem mod_block {j k r : ℕ} (h : r < k) : (j * k + r) % k = r := by
  rw [Nat.mul_comm, Nat.mul_add_mod, Nat.mod_eq_of_lt h]

theorem sum_range_blocks (f : ℕ → ℝ) (k M : ℕ) :
    ∑ i ∈ Finset.range (M * k), f i = ∑ j ∈ Finset.range M, ∑ r ∈ Finset.range k, f (j * k + r) := by
  induction M with
  | zero => simp
  | succ M ih => rw [Nat.succ_mul, Finset.sum_range_add, ih, Finset.sum_range_succ]

/-- The mean fourth power of a recording over whole periods. -/
theorem Spec.White.fourth_limit (h : White P σ w) {k : ℕ} (hk : 0 < k) {c s : ℕ → ℝ} {e : ℕ → ℝ} (he : ∀ i, e i = 1 ∨ e i = -1)
    (hs : ∀ i, s i = e i * c (i % k)) {A2 A4 : ℝ} (h2 : ∑ r ∈ Finset.range k, c r ^ 2 = k * A2) (h4 : ∑ r ∈ Finset.range k, c r ^ 4 = k * A4) :
    ∀ᵐ ω ∂P, Tendsto (fun M : ℕ => (∑ i ∈ Finset.range (M * k), (s i + w i ω) ^ 4) / (M * k : ℕ)) atTop
      (nhds (A4 + 6 * A2 * σ ^ 2 + 3 * σ ^ 4)) := by
  have hk' : (k : ℝ) ≠ 0 := by exact_mod_cast hk.ne'
  have hw := h.signs he
  have hc : ∀ᵐ ω ∂P, ∀ r, Tendsto (fun M : ℕ => (∑ j ∈ Finset.range M, (c r + e (j * k + r) * w (j * k + r) ω) ^ 4) / M) atTop
      (nhds (c r ^ 4 + 6 * c r ^ 2 * σ ^ 2 + 3 * σ ^ 4)) := ae_all_iff.mpr fun r => hw.column hk r (c r)
  filter_upwards [hc] with ω hω
  have hsum := (tendsto_finsetSum (Finset.range k) fun r _ => hω r).div_const (k : ℝ)
  have ev : (∑ r ∈ Finset.range k, (c r ^ 4 + 6 * c r ^ 2 * σ ^ 2 + 3 * σ ^ 4)) / k = A4 + 6 * A2 * σ ^ 2 + 3 * σ ^ 4 := by
    rw [Finset.sum_add_distrib, Finset.sum_add_distrib, h4, ← Finset.sum_mul, ← Finset.mul_sum, h2, Finset.sum_const, Finset.card_range,
      nsmul_eq_mul]
    field_simp
  rw [ev] at hsum
  refine hsum.congr fun M => ?_
  rw [sum_range_blocks, Finset.sum_comm, ← Finset.sum_div, div_div, Nat.cast_mul]
  congr 1
  refine Finset.sum_congr rfl fun r hr => Finset.sum_congr rfl fun j _ => ?_
  rw [hs, mod_block (Finset.mem_range.mp hr)]
  rcases he (j * k + r) with e1 | e1 <;> rw [e1] <;> ring

/-- The excess kurtosis over whole periods. -/
theorem Spec.White.kurtosis_limit (h : White P σ w) (hσ : 0 < σ) {k : ℕ} (hk : 0 < k) {c s : ℕ → ℝ} {e : ℕ → ℝ} (he : ∀ i, e i = 1 ∨ e i = -1)
    (hs : ∀ i, s i = e i * c (i % k)) {B A2 A4 : ℝ} (hB : ∀ i, |c i| ≤ B) (h2 : ∑ r ∈ Finset.range k, c r ^ 2 = k * A2)
    (h4 : ∑ r ∈ Finset.range k, c r ^ 4 = k * A4) (hA : 0 ≤ A2) (h0 : ∀ M, ∑ i ∈ Finset.range (M * k), s i = 0) :
    ∀ᵐ ω ∂P, Tendsto (fun M : ℕ => excessKurtosis ((List.range (M * k)).map fun i => s i + w i ω)) atTop
      (nhds ((A4 - 3 * A2 ^ 2) / (A2 + σ ^ 2) ^ 2)) := by
  have hk' : (k : ℝ) ≠ 0 := by exact_mod_cast hk.ne'
  have hφ : Tendsto (fun M => M * k) atTop atTop := tendsto_atTop_mono (fun N => Nat.le_mul_of_pos_right N hk) tendsto_id
  have e2 : ∀ i, e i ^ 2 = 1 := fun i => by rcases he i with q | q <;> rw [q] <;> norm_num
  have hsB : ∀ i, |s i| ≤ B := fun i => by
    rw [hs, abs_mul]
    have : |e i| = 1 := by rcases he i with q | q <;> rw [q] <;> simp
    rw [this, one_mul]; exact hB _
  have hE : Tendsto (fun M : ℕ => (∑ i ∈ Finset.range (M * k), s i ^ 2) / (M * k : ℕ)) atTop (nhds A2) := by
    refine tendsto_const_nhds.congr' ?_
    filter_upwards [eventually_gt_atTop 0] with M hM
    have hM' : (M : ℝ) ≠ 0 := by exact_mod_cast hM.ne'
    rw [sum_range_blocks, Finset.sum_congr rfl fun j _ => Finset.sum_congr rfl fun r hr => by
      rw [hs, mod_block (Finset.mem_range.mp hr), mul_pow, e2, one_mul]]
    rw [Finset.sum_const, Finset.card_range, nsmul_eq_mul, h2, Nat.cast_mul]
    field_simp
  have hv : A2 + σ ^ 2 ≠ 0 := by positivity
  filter_upwards [h.energy_limit hσ hsB hφ hE, h.fourth_limit hk he hs h2 h4, h.proj_limit hσ (a := fun _ => 1) (B := 1) (by simp)] with ω g2 g4 g1
  have := kurtosis_tendsto (x := fun i => s i + w i ω) hφ hv (by
    refine (g1.comp hφ).congr fun M => ?_
    rw [Finset.sum_add_distrib, h0, zero_add]
    simp [proj]) g2 g4
  rwa [show (A4 + 6 * A2 * σ ^ 2 + 3 * σ ^ 4) / (A2 + σ ^ 2) ^ 2 - 3 = (A4 - 3 * A2 ^ 2) / (A2 + σ ^ 2) ^ 2 by
    field_simp; ring] at this

end Verif
