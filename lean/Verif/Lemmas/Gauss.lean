import Verif.Spec.Gauss
import Mathlib.Probability.Distributions.Gaussian.HasGaussianLaw.Independence
import Mathlib.Probability.Distributions.Gaussian.HasGaussianLaw.Basic
import Mathlib.Probability.Moments.Covariance

/-! # Projections of white noise, and receivers that decide by the sign of a projection -/
set_option linter.unusedSectionVars false
namespace Verif
open Spec MeasureTheory ProbabilityTheory
variable {Ω : Type} [MeasurableSpace Ω] {P : Measure Ω} {σ : ℝ} {w : ℕ → Ω → ℝ}

theorem Spec.White.prob (h : White P σ w) : IsProbabilityMeasure P := h.indep.isProbabilityMeasure

theorem Spec.White.gauss (h : White P σ w) (i : ℕ) : HasGaussianLaw (w i) P := (h.law i).hasGaussianLaw

theorem Spec.White.mean (h : White P σ w) (i : ℕ) : P[w i] = 0 := by
  rw [(h.law i).integral_eq, integral_id_gaussianReal]

theorem Spec.White.var (h : White P σ w) (i : ℕ) : Var[w i; P] = σ ^ 2 := by
  rw [(h.law i).variance_eq, variance_id_gaussianReal, Real.coe_toNNReal _ (sq_nonneg σ)]

theorem Spec.White.cov (h : White P σ w) (i j : ℕ) : cov[w i, w j; P] = if i = j then σ ^ 2 else 0 := by
  have := h.prob
  split_ifs with e
  · subst e
    rw [covariance_self (h.gauss i).aemeasurable, h.var]
  · exact (h.indep.indepFun e).covariance_eq_zero (h.gauss i).memLp_two (h.gauss j).memLp_two

/-- The projection of the noise on a vector. -/
noncomputable def proj (M : ℕ) (a : ℕ → ℝ) (w : ℕ → Ω → ℝ) (ω : Ω) : ℝ := ∑ i ∈ Finset.range M, a i * w i ω

theorem Spec.White.proj_gauss (h : White P σ w) {ι : Type} [Finite ι] (M : ℕ) (a : ι → ℕ → ℝ) :
    HasGaussianLaw (fun ω k => proj M (a k) w ω) P := by
  classical
  have := Fintype.ofFinite ι
  have h1 : HasGaussianLaw (fun ω (i : Fin M) => w i ω) P :=
    iIndepFun.hasGaussianLaw (X := fun i : Fin M => w i) (fun i => h.gauss i) (h.indep.precomp Fin.val_injective)
  have h2 := h1.map_fun (F := ι → ℝ) (ContinuousLinearMap.pi (fun k => ∑ i : Fin M, a k i • ContinuousLinearMap.proj i))
  refine h2.congr (Filter.Eventually.of_forall fun ω => ?_)
  funext k
  simp only [ContinuousLinearMap.coe_pi', _root_.sum_apply, _root_.smul_apply,
    ContinuousLinearMap.proj_apply, smul_eq_mul, proj, Finset.sum_range]

theorem Spec.White.proj_cov (h : White P σ w) (M : ℕ) (a b : ℕ → ℝ) :
    cov[proj M a w, proj M b w; P] = σ ^ 2 * ∑ i ∈ Finset.range M, a i * b i := by
  have := h.prob
  show cov[fun ω => ∑ i ∈ Finset.range M, a i * w i ω, fun ω => ∑ i ∈ Finset.range M, b i * w i ω; P] = _
  rw [covariance_fun_sum_fun_sum' (X := fun i ω => a i * w i ω) (Y := fun i ω => b i * w i ω)
    (fun i _ => (h.gauss i).memLp_two.const_mul _) (fun i _ => (h.gauss i).memLp_two.const_mul _), Finset.mul_sum]
  refine Finset.sum_congr rfl fun i hi => ?_
  rw [Finset.sum_eq_single i]
  · rw [covariance_const_mul_left, covariance_const_mul_right, h.cov, if_pos rfl]; ring
  · intro j _ hj
    rw [covariance_const_mul_left, covariance_const_mul_right, h.cov, if_neg (Ne.symm hj)]; ring
  · intro hn; exact absurd hi hn

/-- Projections on orthogonal vectors are independent. -/
theorem Spec.White.proj_indep (h : White P σ w) {ι : Type} [Finite ι] (M : ℕ) (a : ι → ℕ → ℝ)
    (ho : ∀ k l, k ≠ l → ∑ i ∈ Finset.range M, a k i * a l i = 0) :
    iIndepFun (fun k => proj M (a k) w) P :=
  (h.proj_gauss M a).iIndepFun_of_covariance_eq_zero fun k l hkl => by rw [h.proj_cov, ho k l hkl, mul_zero]

theorem Spec.White.proj_mean (h : White P σ w) (M : ℕ) (a : ℕ → ℝ) : P[proj M a w] = 0 := by
  show ∫ ω, ∑ i ∈ Finset.range M, a i * w i ω ∂P = 0
  rw [integral_finsetSum _ (fun i _ => (h.gauss i).integrable.const_mul _)]
  exact Finset.sum_eq_zero fun i _ => by rw [integral_const_mul, h.mean, mul_zero]

theorem Spec.White.proj_hasGauss (h : White P σ w) (M : ℕ) (a : ℕ → ℝ) : HasGaussianLaw (proj M a w) P :=
  (h.proj_gauss (ι := Unit) M (fun _ => a)).eval ()

/-- Its law. -/
theorem Spec.White.proj_law (h : White P σ w) (M : ℕ) (a : ℕ → ℝ) :
    HasLaw (proj M a w) (gaussianReal 0 (σ ^ 2 * ∑ i ∈ Finset.range M, a i ^ 2).toNNReal) P := by
  refine ⟨(h.proj_hasGauss M a).aemeasurable, ?_⟩
  rw [(h.proj_hasGauss M a).map_eq_gaussianReal, h.proj_mean, ← covariance_self (h.proj_hasGauss M a).aemeasurable, h.proj_cov]
  simp only [← pow_two]

/-- The upper tail of the normal distribution. -/
theorem gauss_tail {v : ℝ} (hv : 0 < v) (x : ℝ) :
    (gaussianReal 0 v.toNNReal).real (Set.Ioi x) = Erfc (x / √(2 * v)) / 2 := by
  have hv' : v.toNNReal ≠ 0 := by simpa using hv
  rw [measureReal_def, gaussianReal_apply_eq_integral 0 hv', ENNReal.toReal_ofReal
    (integral_nonneg fun y => gaussianPDFReal_nonneg _ _ _)]
  have hc : 0 < √(2 * v) := Real.sqrt_pos.mpr (by positivity)
  have key := integral_comp_mul_left_Ioi (fun y => gaussianPDFReal 0 v.toNNReal y) (x / √(2 * v)) hc
  rw [mul_div_cancel₀ _ hc.ne', smul_eq_mul] at key
  have : ∫ y in Set.Ioi x, gaussianPDFReal 0 v.toNNReal y = √(2 * v) * ∫ y in Set.Ioi (x / √(2 * v)),
      gaussianPDFReal 0 v.toNNReal (√(2 * v) * y) := by
    rw [key, ← mul_assoc, mul_inv_cancel₀ hc.ne', one_mul]
  rw [this, Erfc, ← integral_const_mul, ← integral_const_mul, ← integral_div]
  congr 1
  funext t
  rw [gaussianPDFReal, Real.coe_toNNReal _ hv.le, sub_zero, mul_pow, Real.sq_sqrt (by positivity)]
  rw [show -(2 * v * t ^ 2) / (2 * v) = -t ^ 2 by field_simp,
    show 2 * Real.pi * v = (2 * v) * Real.pi by ring, Real.sqrt_mul (x := 2 * v) (by positivity)]
  have := Real.sqrt_pos.mpr Real.pi_pos
  field_simp

theorem Erfc_neg (x : ℝ) : Erfc (-x) = 2 - Erfc x := by
  have h1 := gauss_tail (v := 1 / 2) (by norm_num) x
  have h2 := gauss_tail (v := 1 / 2) (by norm_num) (-x)
  rw [show √(2 * (1 / 2 : ℝ)) = 1 by norm_num, div_one] at h1 h2
  have hs : (gaussianReal 0 (1 / 2 : ℝ).toNNReal).real (Set.Ioi (-x)) = 1 - (gaussianReal 0 (1 / 2 : ℝ).toNNReal).real (Set.Ioi x) := by
    have hv : (1 / 2 : ℝ).toNNReal ≠ 0 := by simp
    have := nullSingletonClass_gaussianReal (μ := 0) hv
    have hm := gaussianReal_map_neg (μ := 0) (v := (1 / 2 : ℝ).toNNReal)
    rw [← probReal_compl_eq_one_sub measurableSet_Ioi, Set.compl_Ioi, measureReal_congr (Iio_ae_eq_Iic (a := x)).symm]
    rw [neg_zero] at hm
    conv_rhs => rw [← hm]
    rw [measureReal_def, measureReal_def, Measure.map_apply measurable_neg measurableSet_Iio]
    congr 2
    ext t; simp
  rw [h1, h2] at hs
  linarith

/-- The chance that a projection is above a level. -/
theorem Spec.White.proj_gt (h : White P σ w) (hσ : 0 < σ) {M : ℕ} {a : ℕ → ℝ} (ha : 0 < ∑ i ∈ Finset.range M, a i ^ 2) (x : ℝ) :
    P.real {ω | x < proj M a w ω} = Erfc (x / √(2 * (σ ^ 2 * ∑ i ∈ Finset.range M, a i ^ 2))) / 2 := by
  have hl := h.proj_law M a
  rw [← gauss_tail (by positivity), measureReal_def, measureReal_def, ← hl.map_eq, Measure.map_apply_of_aemeasurable hl.aemeasurable measurableSet_Ioi]
  rfl

/-- The chance that it is below. -/
theorem Spec.White.proj_lt (h : White P σ w) (hσ : 0 < σ) {M : ℕ} {a : ℕ → ℝ} (ha : 0 < ∑ i ∈ Finset.range M, a i ^ 2) (x : ℝ) :
    P.real {ω | proj M a w ω < x} = Erfc (-x / √(2 * (σ ^ 2 * ∑ i ∈ Finset.range M, a i ^ 2))) / 2 := by
  have := h.proj_gt hσ (a := fun i => - a i) (M := M) (by simpa using ha) (-x)
  simp only [even_two.neg_pow] at this
  rw [← this]
  congr 1
  ext ω
  simp [proj]

/-- Ties never happen. -/
theorem Spec.White.proj_ne (h : White P σ w) (hσ : 0 < σ) {M : ℕ} {a : ℕ → ℝ} (ha : 0 < ∑ i ∈ Finset.range M, a i ^ 2) (x : ℝ) :
    ∀ᵐ ω ∂P, proj M a w ω ≠ x := by
  have hl := h.proj_law M a
  have hv : (σ ^ 2 * ∑ i ∈ Finset.range M, a i ^ 2).toNNReal ≠ 0 := by
    have : 0 < σ ^ 2 * ∑ i ∈ Finset.range M, a i ^ 2 := by positivity
    simpa using this
  have := nullSingletonClass_gaussianReal (μ := 0) hv
  rw [ae_iff]
  have e : {ω | ¬ proj M a w ω ≠ x} = proj M a w ⁻¹' {x} := by ext ω; simp
  rw [e, ← Measure.map_apply_of_aemeasurable hl.aemeasurable (measurableSet_singleton x), hl.map_eq]
  exact measure_singleton x

/-! ### Receivers that decide every bit by the sign of a projection -/

/-- The statistic of bit `n`: signal `s` plus noise, projected on `a n`. -/
noncomputable def stat (M : ℕ) (a : ℕ → ℕ → ℝ) (s : ℕ → ℝ) (w : ℕ → Ω → ℝ) (n : ℕ) (ω : Ω) : ℝ :=
  ∑ i ∈ Finset.range M, a n i * (s i + w i ω)

/-- `bits` are the signs of the statistics. -/
structure Signs (bits : Ω → List Bool) (N M : ℕ) (a : ℕ → ℕ → ℝ) (s : ℕ → ℝ) (w : ℕ → Ω → ℝ) : Prop where
  len : ∀ ω, (bits ω).length = N
  pos : ∀ ω n, n < N → 0 < stat M a s w n ω → (bits ω)[n]? = some true
  neg : ∀ ω n, n < N → stat M a s w n ω < 0 → (bits ω)[n]? = some false

theorem stat_eq (M : ℕ) (a : ℕ → ℕ → ℝ) (s : ℕ → ℝ) (w : ℕ → Ω → ℝ) (n : ℕ) (ω : Ω) :
    stat M a s w n ω = ∑ i ∈ Finset.range M, a n i * s i + proj M (a n) w ω := by
  simp only [stat, proj, mul_add, Finset.sum_add_distrib]

/-- The probability that bit `n` comes out as `b`. -/
noncomputable def bitProb (σ : ℝ) (M : ℕ) (a : ℕ → ℝ) (s : ℕ → ℝ) (b : Bool) : ℝ :=
  Erfc ((if b then -1 else 1) * (∑ i ∈ Finset.range M, a i * s i) / √(2 * (σ ^ 2 * ∑ i ∈ Finset.range M, a i ^ 2))) / 2

/-- Which side of the threshold. -/
def side (A : ℝ) (b : Bool) : Set ℝ := if b then {z | 0 < A + z} else {z | A + z < 0}

theorem side_meas (A : ℝ) (b : Bool) : MeasurableSet (side A b) := by
  unfold side
  split_ifs
  · exact measurableSet_lt measurable_const (measurable_const.add measurable_id)
  · exact measurableSet_lt (measurable_const.add measurable_id) measurable_const

/-- Receiving `e` means that every statistic is on the right side, ties excepted. -/
theorem Signs.ae_eq {bits : Ω → List Bool} {N M : ℕ} {a : ℕ → ℕ → ℝ} {s : ℕ → ℝ} (hb : Signs bits N M a s w)
    (hw : White P σ w) (hσ : 0 < σ) (ha : ∀ n < N, 0 < ∑ i ∈ Finset.range M, a n i ^ 2) (e : List Bool) (he : e.length = N) :
    ({ω | bits ω = e} : Set Ω) =ᵐ[P]
      ⋂ n : Fin N, (proj M (a n) w) ⁻¹' (side (∑ i ∈ Finset.range M, a n i * s i) (e.getD n false)) := by
  have hne : ∀ᵐ ω ∂P, ∀ n : Fin N, proj M (a n) w ω ≠ -∑ i ∈ Finset.range M, a n i * s i :=
    ae_all_iff.mpr fun n => hw.proj_ne hσ (ha n n.2) _
  filter_upwards [hne] with ω hω
  apply propext
  show bits ω = e ↔ ω ∈ ⋂ n : Fin N, (proj M (a n) w) ⁻¹' (side (∑ i ∈ Finset.range M, a n i * s i) (e.getD n false))
  simp only [Set.mem_iInter, Set.mem_preimage, side]
  constructor
  · intro hbe n
    have hs := stat_eq M a s w n ω
    have hd : e[(n : ℕ)]? = some (e.getD n false) := by
      rw [List.getD_eq_getElem?_getD, List.getElem?_eq_getElem (by omega)]; rfl
    rcases lt_trichotomy (stat M a s w n ω) 0 with h0 | h0 | h0
    · have := hb.neg ω n n.2 h0
      rw [hbe, hd, Option.some.injEq] at this
      rw [if_neg (by rw [this]; simp)]
      show (∑ i ∈ Finset.range M, a n i * s i) + proj M (a n) w ω < 0
      rw [← hs]; exact h0
    · exact absurd (by rw [hs] at h0; linarith) (hω n)
    · have := hb.pos ω n n.2 h0
      rw [hbe, hd, Option.some.injEq] at this
      rw [if_pos this]
      show 0 < (∑ i ∈ Finset.range M, a n i * s i) + proj M (a n) w ω
      rw [← hs]; exact h0
  · intro hall
    apply List.ext_getElem?
    intro n
    by_cases hn : n < N
    · have h1 := hall ⟨n, hn⟩
      have hs := stat_eq M a s w n ω
      have hd : e[n]? = some (e.getD n false) := by
        rw [List.getD_eq_getElem?_getD, List.getElem?_eq_getElem (by omega)]; rfl
      rw [hd]
      split_ifs at h1 with hc
      · rw [hc]; exact hb.pos ω n hn (by rw [hs]; exact h1)
      · rw [Bool.eq_false_iff.mpr hc]; exact hb.neg ω n hn (by rw [hs]; exact h1)
    · rw [List.getElem?_eq_none (by rw [hb.len]; omega), List.getElem?_eq_none (by omega)]

theorem Signs.event {bits : Ω → List Bool} {N M : ℕ} {a : ℕ → ℕ → ℝ} {s : ℕ → ℝ} (hb : Signs bits N M a s w)
    (hw : White P σ w) (hσ : 0 < σ) (ha : ∀ n < N, 0 < ∑ i ∈ Finset.range M, a n i ^ 2) (e : List Bool) :
    NullMeasurableSet {ω | bits ω = e} P := by
  by_cases he : e.length = N
  · refine NullMeasurableSet.congr ?_ (hb.ae_eq hw hσ ha e he).symm
    exact NullMeasurableSet.iInter fun n => (hw.proj_law M (a n)).aemeasurable.nullMeasurable (side_meas _ _)
  · have : {ω | bits ω = e} = ∅ := by
      ext ω
      simp only [Set.mem_ofPred_eq, Set.mem_empty_iff_false, iff_false]
      intro h; exact he (by rw [← h, hb.len])
    rw [this]; exact MeasurableSet.empty.nullMeasurableSet

/-- The law of the received message. -/
theorem Signs.law {bits : Ω → List Bool} {N M : ℕ} {a : ℕ → ℕ → ℝ} {s : ℕ → ℝ} (hb : Signs bits N M a s w)
    (hw : White P σ w) (hσ : 0 < σ) (ha : ∀ n < N, 0 < ∑ i ∈ Finset.range M, a n i ^ 2)
    (ho : ∀ k < N, ∀ l < N, k ≠ l → ∑ i ∈ Finset.range M, a k i * a l i = 0) (e : List Bool) (he : e.length = N) :
    P.real {ω | bits ω = e} = ∏ n ∈ Finset.range N, bitProb σ M (a n) s (e.getD n false) := by
  have hi := hw.proj_indep (ι := Fin N) M (fun n => a n) (fun k l hkl => ho k k.2 l l.2 (fun e => hkl (Fin.ext e)))
  rw [measureReal_congr (hb.ae_eq hw hσ ha e he), measureReal_def, hi.meas_iInter (fun n => ⟨_, side_meas _ _, rfl⟩), ENNReal.toReal_prod,
    Finset.prod_range]
  refine Finset.prod_congr rfl fun n _ => ?_
  rw [← measureReal_def]
  simp only [side, bitProb]
  split_ifs with hc
  · rw [neg_one_mul, ← hw.proj_gt hσ (ha n n.2)]
    congr 1; ext ω
    show 0 < (∑ i ∈ Finset.range M, a n i * s i) + proj M (a n) w ω ↔ -(∑ i ∈ Finset.range M, a n i * s i) < proj M (a n) w ω
    constructor <;> intro h <;> linarith
  · rw [one_mul, ← neg_neg (∑ i ∈ Finset.range M, a n i * s i), ← hw.proj_lt hσ (ha n n.2), neg_neg]
    congr 1; ext ω
    show (∑ i ∈ Finset.range M, a n i * s i) + proj M (a n) w ω < 0 ↔ proj M (a n) w ω < -(∑ i ∈ Finset.range M, a n i * s i)
    constructor <;> intro h <;> linarith

/-- The channel. -/
theorem Signs.flips {bits : Ω → List Bool} {msg : List Bool} {M : ℕ} {a : ℕ → ℕ → ℝ} {s : ℕ → ℝ} (hb : Signs bits msg.length M a s w)
    (hw : White P σ w) (hσ : 0 < σ) (ha : ∀ n < msg.length, 0 < ∑ i ∈ Finset.range M, a n i ^ 2)
    (ho : ∀ k < msg.length, ∀ l < msg.length, k ≠ l → ∑ i ∈ Finset.range M, a k i * a l i = 0) (D : ℕ → ℝ)
    (hD : ∀ n (hn : n < msg.length), ∑ i ∈ Finset.range M, a n i * s i = (if msg[n] then 1 else -1) * D n) :
    Flips P msg bits (fun n => Erfc (D n / √(2 * (σ ^ 2 * ∑ i ∈ Finset.range M, a n i ^ 2))) / 2) := by
  refine ⟨hb.len, hb.event hw hσ ha, fun e he => ?_⟩
  rw [hb.law hw hσ ha ho e he]
  refine Finset.prod_congr rfl fun n hn => ?_
  have hn := Finset.mem_range.mp hn
  have hd : e[n]? = some (e.getD n false) := by
    rw [List.getD_eq_getElem?_getD, List.getElem?_eq_getElem (by omega)]; rfl
  rw [bitProb, hD n hn, hd, List.getElem?_eq_getElem hn]
  simp only [Option.some.injEq]
  have h2 : ∀ x : ℝ, Erfc (-x) / 2 = 1 - Erfc x / 2 := fun x => by rw [Erfc_neg]; ring
  cases e.getD n false <;> cases msg[n] <;>
    simp only [Bool.false_eq_true, if_true, if_false, ← mul_assoc, one_mul, neg_mul, neg_neg, neg_div, h2, reduceCtorEq]

end Verif
