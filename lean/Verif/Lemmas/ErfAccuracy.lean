import Verif.Lemmas.ErfPoly
import Verif.Lemmas.Erfc
import Mathlib.Analysis.Calculus.Deriv.MeanValue
import Mathlib.Analysis.SpecialFunctions.ExpDeriv
import Mathlib.Analysis.SpecialFunctions.Log.Deriv
import Mathlib.MeasureTheory.Integral.IntervalIntegral.FundThmCalculus
import Mathlib.Analysis.Real.Pi.Bounds

/-! # How close the library's error function is to the error function -/
namespace Verif
open Spec MeasureTheory IPoly Filter Topology

/-- `2/√π` to twelve places. -/
theorem two_div_sqrt_pi : |2 / √Real.pi - 1.1283791670955| < 1e-12 := by
  have h1 := Real.pi_gt_d20
  have h2 := Real.pi_lt_d20
  have hp : 0 < √Real.pi := Real.sqrt_pos.mpr Real.pi_pos
  have e : √Real.pi * √Real.pi = Real.pi := Real.mul_self_sqrt Real.pi_pos.le
  rw [abs_lt]
  constructor
  · have : √Real.pi < 2 / (1.1283791670955 - 1e-12) := by
      rw [Real.sqrt_lt' (by norm_num)]
      refine h2.trans ?_
      norm_num
    rw [lt_div_iff₀ (by norm_num)] at this
    rw [lt_sub_iff_add_lt, lt_div_iff₀ hp]
    norm_num at this ⊢
    linarith
  · have : 2 / (1.1283791670955 + 1e-12) < √Real.pi := by
      rw [Real.lt_sqrt (by norm_num)]
      refine lt_trans ?_ h1
      norm_num
    rw [div_lt_iff₀ (by norm_num)] at this
    rw [sub_lt_iff_lt_add, div_lt_iff₀ hp]
    norm_num at this ⊢
    linarith

theorem Erfc_hasDerivAt (x : ℝ) : HasDerivAt Erfc (-(2 / √Real.pi * Real.exp (-x ^ 2))) x := by
  have hc : Continuous (fun t : ℝ => Real.exp (-t ^ 2)) := by fun_prop
  have h : HasDerivAt (fun u => ∫ t in (0 : ℝ)..u, Real.exp (-t ^ 2)) (Real.exp (-x ^ 2)) x :=
    intervalIntegral.integral_hasDerivAt_right (hc.intervalIntegrable 0 x) (hc.stronglyMeasurableAtFilter _ _) hc.continuousAt
  have e : Erfc = fun u => 1 - 2 / √Real.pi * ∫ t in (0 : ℝ)..u, Real.exp (-t ^ 2) := by
    funext u
    have h0 := Erfc_zero
    unfold Erfc at h0 ⊢
    rw [← h0, ← mul_sub]
    congr 1
    have := intervalIntegral.integral_interval_add_Ioi (f := fun t : ℝ => Real.exp (-t ^ 2)) (μ := volume) (a := 0) (b := u)
      gauss_integrable.integrableOn gauss_integrable.integrableOn
    linarith
  rw [e]
  exact ((h.const_mul _).const_sub 1).congr_deriv (by ring)

theorem Erfc_tendsto : Tendsto Erfc atTop (𝓝 0) := by
  have h : Tendsto (fun x : ℝ => Real.exp (-x ^ 2)) atTop (𝓝 0) := by
    refine Real.tendsto_exp_atBot.comp ?_
    exact tendsto_neg_atTop_atBot.comp (tendsto_pow_atTop (by norm_num))
  refine tendsto_of_tendsto_of_tendsto_of_le_of_le' tendsto_const_nhds h ?_ ?_
  · exact Eventually.of_forall fun x => (Erfc_pos x).le
  · filter_upwards [eventually_ge_atTop (0 : ℝ)] with x hx using Erfc_le hx

namespace ErfPoly

/-- `t = 1/(1 + x/2)`. -/
noncomputable def tt (x : ℝ) : ℝ := 1 / (1 + x / 2)

theorem tt_mem {x : ℝ} (hx : 0 ≤ x) : 0 < tt x ∧ tt x ≤ 1 := by
  unfold tt
  exact ⟨by positivity, by rw [div_le_one (by positivity)]; linarith⟩

theorem tt_mul {x : ℝ} (hx : 0 ≤ x) : x * tt x = 2 * (1 - tt x) := by
  unfold tt; field_simp; ring

theorem tt_deriv {x : ℝ} (hx : 0 ≤ x) : HasDerivAt tt (-(tt x ^ 2) / 2) x := by
  have h : HasDerivAt (fun x : ℝ => 1 + x / 2) (1 / 2) x := ((hasDerivAt_id x).div_const 2).const_add 1
  have := h.inv (by positivity)
  have e : tt = fun x : ℝ => (1 + x / 2)⁻¹ := by funext x; simp [tt]
  rw [e]
  refine this.congr_deriv ?_
  field_simp

/-- The approximation of `exp(x²)·erfc(x)/t`. -/
noncomputable def w (t : ℝ) : ℝ := ev W t / 10 ^ 13
/-- The difference of the logarithms. -/
noncomputable def u (t : ℝ) : ℝ := ev U t / 10 ^ 13
/-- The exponent in the library. -/
noncomputable def p (t : ℝ) : ℝ := ev P t / 10 ^ 8

theorem w_bounds {t : ℝ} (h0 : 0 ≤ t) (h1 : t ≤ 1) : 0.28 ≤ w t ∧ w t ≤ 1.1 := by
  have := bounded_unit (28 * 10 ^ 11) (11 * 10 ^ 12) 20 20 rfl 14 W (by decide) (by norm_num) W_check h0 h1
  unfold w
  push_cast at this
  constructor
  · rw [le_div_iff₀ (by norm_num)]; norm_num at this ⊢; exact this.1
  · rw [div_le_iff₀ (by norm_num)]; norm_num at this ⊢; exact this.2

theorem u_bounds {t : ℝ} (h0 : 0 ≤ t) (h1 : t ≤ 1) : |u t| ≤ 1.12e-7 := by
  have := bounded_unit (-1120000) (1120000) 400 400 rfl 16 U (by decide) (by norm_num) U_check h0 h1
  push_cast at this
  unfold u
  rw [abs_le]
  constructor
  · rw [le_div_iff₀ (by norm_num)]; norm_num at this ⊢; exact this.1
  · rw [div_le_iff₀ (by norm_num)]; norm_num at this ⊢; exact this.2

theorem w_deriv (t : ℝ) : HasDerivAt w (ev (der W) t / 10 ^ 13) t := (hasDerivAt_ev W t).div_const _
theorem u_deriv (t : ℝ) : HasDerivAt u (ev (der U) t / 10 ^ 13) t := (hasDerivAt_ev U t).div_const _
theorem p_deriv (t : ℝ) : HasDerivAt p (ev (der P) t / 10 ^ 8) t := (hasDerivAt_ev P t).div_const _

/-- The derivative of `exp(-x²)·t·w(t)` is `-exp(-x²)·a(t)`. -/
noncomputable def a (t : ℝ) : ℝ := 4 * (1 - t) * w t + t ^ 2 / 2 * (w t + t * (ev (der W) t / 10 ^ 13))

theorem a_bounds {t : ℝ} (h0 : 0 ≤ t) (h1 : t ≤ 1) : |a t - 2 / √Real.pi| ≤ 6.22e-10 := by
  have := bounded_unit (22567583341910 - 12400) (22567583341910 + 12400) 200 200 rfl 16 A (by decide) (by norm_num) A_check h0 h1
  have e : ev A t = 2 * 10 ^ 13 * a t := by
    unfold A a w
    rw [ev_add, ev_mul]
    simp only [ev_cons, ev_nil]
    push_cast
    ring
  rw [e] at this
  push_cast at this
  have g := abs_lt.mp two_div_sqrt_pi
  rw [abs_le]
  norm_num at this g ⊢
  constructor <;> linarith [this.1, this.2, g.1, g.2]

/-- `exp(-x²)·t·w(t)`. -/
noncomputable def f (x : ℝ) : ℝ := Real.exp (-x ^ 2) * (tt x * w (tt x))

theorem f_deriv {x : ℝ} (hx : 0 ≤ x) : HasDerivAt f (-(Real.exp (-x ^ 2) * a (tt x))) x := by
  have h1 : HasDerivAt (fun x : ℝ => Real.exp (-x ^ 2)) (Real.exp (-x ^ 2) * (-(2 * x))) x := by
    have := ((hasDerivAt_pow 2 x).neg).exp
    refine this.congr_deriv ?_
    norm_num
  have h2 := (tt_deriv hx).mul ((w_deriv (tt x)).comp x (tt_deriv hx))
  refine (h1.mul h2).congr_deriv ?_
  have e := tt_mul hx
  simp only [a, Function.comp, Pi.mul_apply]
  have : Real.exp (-x ^ 2) * -(2 * x) * (tt x * w (tt x)) = -(Real.exp (-x ^ 2) * (4 * (1 - tt x) * w (tt x))) := by
    linear_combination (-2 * Real.exp (-x ^ 2) * w (tt x)) * e
  rw [this]
  ring

theorem f_tendsto : Tendsto f atTop (𝓝 0) := by
  have h : Tendsto (fun x : ℝ => Real.exp (-x ^ 2) * 1.1) atTop (𝓝 0) := by
    have : Tendsto (fun x : ℝ => Real.exp (-x ^ 2)) atTop (𝓝 0) :=
      Real.tendsto_exp_atBot.comp (tendsto_neg_atTop_atBot.comp (tendsto_pow_atTop (by norm_num)))
    simpa using this.mul_const 1.1
  refine tendsto_of_tendsto_of_tendsto_of_le_of_le' tendsto_const_nhds h ?_ ?_
  · filter_upwards [eventually_ge_atTop (0 : ℝ)] with x hx
    have := tt_mem hx
    have hw := w_bounds this.1.le this.2
    exact mul_nonneg (Real.exp_nonneg _) (mul_nonneg this.1.le (by linarith [hw.1]))
  · filter_upwards [eventually_ge_atTop (0 : ℝ)] with x hx
    have := tt_mem hx
    have hw := w_bounds this.1.le this.2
    refine mul_le_mul_of_nonneg_left ?_ (Real.exp_nonneg _)
    nlinarith [hw.1, hw.2, this.1, this.2]

/-- A function that tends to zero and grows from some point on is not positive there. -/
theorem nonpos_of_mono {g g' : ℝ → ℝ} (hd : ∀ x, 0 ≤ x → HasDerivAt g (g' x) x) (hg : ∀ x, 0 ≤ x → 0 ≤ g' x)
    (ht : Tendsto g atTop (𝓝 0)) {x : ℝ} (hx : 0 ≤ x) : g x ≤ 0 := by
  have hm : MonotoneOn g (Set.Ici 0) := by
    refine monotoneOn_of_deriv_nonneg (convex_Ici 0) (fun y hy => (hd y hy).continuousAt.continuousWithinAt) ?_ ?_
    · intro y hy
      rw [interior_Ici] at hy
      exact (hd y (le_of_lt hy)).differentiableAt.differentiableWithinAt
    · intro y hy
      rw [interior_Ici] at hy
      rw [(hd y (le_of_lt hy)).deriv]
      exact hg y (le_of_lt hy)
  refine ge_of_tendsto ht ?_
  filter_upwards [eventually_ge_atTop x] with y hy using hm hx (hx.trans hy : (0 : ℝ) ≤ y) hy

/-- `exp(-x²)·t·w(t)` is the complementary error function up to a factor. -/
theorem f_close {x : ℝ} (hx : 0 ≤ x) : |f x - Erfc x| ≤ 5.6e-10 * Erfc x := by
  have g := abs_lt.mp two_div_sqrt_pi
  rw [abs_le]
  constructor
  · have h := nonpos_of_mono (g := fun x => (1 - 5.6e-10) * Erfc x - f x)
      (g' := fun x => (1 - 5.6e-10) * -(2 / √Real.pi * Real.exp (-x ^ 2)) - -(Real.exp (-x ^ 2) * a (tt x)))
      (fun y hy => ((Erfc_hasDerivAt y).const_mul _).sub (f_deriv hy)) (fun y hy => ?_) ?_ hx
    · linarith
    · have ha := abs_le.mp (a_bounds (tt_mem hy).1.le (tt_mem hy).2)
      have he := Real.exp_pos (-y ^ 2)
      have : 0 ≤ a (tt y) - (1 - 5.6e-10) * (2 / √Real.pi) := by norm_num at ha g ⊢; linarith [ha.1, g.1]
      nlinarith [mul_nonneg he.le this]
    · simpa using (Erfc_tendsto.const_mul (1 - 5.6e-10)).sub f_tendsto
  · have h := nonpos_of_mono (g := fun x => f x - (1 + 5.6e-10) * Erfc x)
      (g' := fun x => -(Real.exp (-x ^ 2) * a (tt x)) - (1 + 5.6e-10) * -(2 / √Real.pi * Real.exp (-x ^ 2)))
      (fun y hy => (f_deriv hy).sub ((Erfc_hasDerivAt y).const_mul _)) (fun y hy => ?_) ?_ hx
    · linarith
    · have ha := abs_le.mp (a_bounds (tt_mem hy).1.le (tt_mem hy).2)
      have he := Real.exp_pos (-y ^ 2)
      have : 0 ≤ (1 + 5.6e-10) * (2 / √Real.pi) - a (tt y) := by norm_num at ha g ⊢; linarith [ha.2, g.1]
      nlinarith [mul_nonneg he.le this]
    · simpa using f_tendsto.sub (Erfc_tendsto.const_mul (1 + 5.6e-10))

/-- `p - log w - u` is almost zero. -/
theorem log_close {t : ℝ} (h0 : 0 ≤ t) (h1 : t ≤ 1) : |p t - Real.log (w t) - u t| ≤ 1.3e-9 := by
  set g : ℝ → ℝ := fun t => p t - Real.log (w t) - u t with hg
  have hd : ∀ s ∈ Set.Icc (0 : ℝ) 1, HasDerivAt g
      (ev (der P) s / 10 ^ 8 - ev (der W) s / 10 ^ 13 / w s - ev (der U) s / 10 ^ 13) s := fun s hs => by
    have hw := w_bounds hs.1 hs.2
    exact ((p_deriv s).sub ((w_deriv s).log (by linarith [hw.1]))).sub (u_deriv s)
  have hb : ∀ s ∈ Set.Icc (0 : ℝ) 1,
      ‖ev (der P) s / 10 ^ 8 - ev (der W) s / 10 ^ 13 / w s - ev (der U) s / 10 ^ 13‖ ≤ 1.22e-9 := fun s hs => by
    have hw := w_bounds hs.1 hs.2
    have hw0 : 0 < w s := by linarith [hw.1]
    have hB := bounded_unit (-34 * 10 ^ 15) (34 * 10 ^ 15) 200 200 rfl 29 B (by decide) (by norm_num) B_check hs.1 hs.2
    have e : ev B s = 10 ^ 26 * (w s * (ev (der P) s / 10 ^ 8 - ev (der W) s / 10 ^ 13 / w s - ev (der U) s / 10 ^ 13)) := by
      have : w s * (ev (der P) s / 10 ^ 8 - ev (der W) s / 10 ^ 13 / w s - ev (der U) s / 10 ^ 13) =
        w s * (ev (der P) s / 10 ^ 8) - ev (der W) s / 10 ^ 13 - w s * (ev (der U) s / 10 ^ 13) := by
        field_simp
      rw [this]
      unfold B w
      rw [ev_add, ev_mul, ev_add, ev_smul, ev_smul, ev_smul]
      push_cast
      ring
    rw [e] at hB
    push_cast at hB
    set d := ev (der P) s / 10 ^ 8 - ev (der W) s / 10 ^ 13 / w s - ev (der U) s / 10 ^ 13
    rw [Real.norm_eq_abs, abs_le]
    norm_num at hB hw ⊢
    constructor
    · by_contra hc
      have : d < -61 / 50000000000 := by linarith
      nlinarith [hB.1, hw.1]
    · by_contra hc
      have : 61 / 50000000000 < d := by linarith
      nlinarith [hB.2, hw.1]
  have hmv := (convex_Icc (0 : ℝ) 1).norm_image_sub_le_of_norm_hasDerivWithin_le (fun s hs => (hd s hs).hasDerivWithinAt) hb
    (Set.right_mem_Icc.mpr zero_le_one) ⟨h0, h1⟩
  have hg1 : |g 1| ≤ 2e-12 := by
    have hw1 : w 1 = 1 - 11 / 10 ^ 13 := by
      simp only [w, W, ev_cons, ev_nil]; norm_num
    have hp1 : p 1 = 3e-8 := by simp only [p, P, ev_cons, ev_nil]; norm_num
    have hu1 : u 1 = 3e-8 := by simp only [u, U, ev_cons, ev_nil]; norm_num
    simp only [hg, hp1, hu1]
    have l1 := Real.log_le_sub_one_of_pos (show 0 < w 1 by rw [hw1]; norm_num)
    have l2 := Real.one_sub_inv_le_log_of_pos (show 0 < w 1 by rw [hw1]; norm_num)
    rw [abs_le]
    rw [hw1] at l1 l2 ⊢
    norm_num at l1 l2 ⊢
    constructor <;> linarith
  have ht : ‖t - 1‖ ≤ 1 := by rw [Real.norm_eq_abs, abs_le]; constructor <;> linarith
  have : |g t - g 1| ≤ 1.22e-9 := by
    rw [← Real.norm_eq_abs]
    refine hmv.trans ?_
    nlinarith [norm_nonneg (t - 1)]
  have h3 := abs_le.mp this
  have h4 := abs_le.mp hg1
  rw [abs_le]
  norm_num at h3 h4 ⊢
  constructor <;> linarith [h3.1, h3.2, h4.1, h4.2]

/-- `exp p` is `w` up to a factor. -/
theorem exp_close {t : ℝ} (h0 : 0 ≤ t) (h1 : t ≤ 1) : |Real.exp (p t) - w t| ≤ 1.135e-7 * w t := by
  have hw := w_bounds h0 h1
  have hw0 : 0 < w t := by linarith [hw.1]
  set d := p t - Real.log (w t) with hd
  have hdb : |d| ≤ 1.133e-7 := by
    have := abs_le.mp (log_close h0 h1)
    have h2 := abs_le.mp (u_bounds h0 h1)
    rw [abs_le]
    norm_num at this h2 ⊢
    constructor <;> linarith [this.1, this.2, h2.1, h2.2]
  have e : Real.exp (p t) = w t * Real.exp d := by
    rw [hd, Real.exp_sub, Real.exp_log hw0]; field_simp
  have he : |Real.exp d - 1| ≤ 1.135e-7 := by
    have h := Real.abs_exp_sub_one_sub_id_le (x := d) (hdb.trans (by norm_num))
    have h2 := abs_le.mp h
    have h3 := abs_le.mp hdb
    have : d ^ 2 ≤ (1.133e-7) ^ 2 := sq_le_sq' h3.1 h3.2
    rw [abs_le]
    norm_num at h2 h3 this ⊢
    constructor <;> linarith [h2.1, h2.2, h3.1, h3.2]
  rw [e, show w t * Real.exp d - w t = (Real.exp d - 1) * w t by ring, abs_mul, abs_of_pos hw0]
  exact mul_le_mul_of_nonneg_right he hw0.le

/-- The library's term for a non-negative argument. -/
theorem tau_close {x : ℝ} (hx : 0 ≤ x) :
    |tt x * Real.exp (-x ^ 2 + p (tt x)) - Erfc x| ≤ 1.2e-7 * Erfc x := by
  have ht := tt_mem hx
  have hf := abs_le.mp (f_close hx)
  have hE := Erfc_pos x
  have hp := abs_le.mp (exp_close ht.1.le ht.2)
  have hex := Real.exp_pos (-x ^ 2)
  have e : tt x * Real.exp (-x ^ 2 + p (tt x)) = Real.exp (-x ^ 2) * tt x * Real.exp (p (tt x)) := by
    rw [Real.exp_add]; ring
  have hf' : f x = Real.exp (-x ^ 2) * tt x * w (tt x) := by unfold f; ring
  have hk : 0 < Real.exp (-x ^ 2) * tt x := mul_pos hex ht.1
  rw [e, abs_le]
  set k := Real.exp (-x ^ 2) * tt x
  have u1 := mul_le_mul_of_nonneg_left hp.1 hk.le
  have u2 := mul_le_mul_of_nonneg_left hp.2 hk.le
  rw [hf'] at hf
  norm_num at u1 u2 hf ⊢
  constructor <;> nlinarith [hf.1, hf.2]

/-- The library's term for a non-negative argument. -/
noncomputable def tau (x : ℝ) : ℝ := tt x * Real.exp (-x ^ 2 + p (tt x))

/-- Minus the derivative of `tau`, divided by the exponential. -/
noncomputable def q (t : ℝ) : ℝ := 4 * (1 - t) + t ^ 2 / 2 * (1 + t * (ev (der P) t / 10 ^ 8))

theorem q_pos {t : ℝ} (h0 : 0 ≤ t) (h1 : t ≤ 1) : 1 ≤ q t := by
  have := bounded_unit (2 * 10 ^ 8) (9 * 10 ^ 8) 20 20 rfl 11 G (by decide) (by norm_num) G_check h0 h1
  have e : ev G t = 2 * 10 ^ 8 * q t := by
    unfold G q
    rw [ev_add, ev_smul]
    simp only [ev_cons, ev_nil]
    push_cast
    ring
  rw [e] at this
  push_cast at this
  norm_num at this
  linarith [this.1]

theorem tau_deriv {x : ℝ} (hx : 0 ≤ x) : HasDerivAt tau (-(Real.exp (-x ^ 2 + p (tt x)) * q (tt x))) x := by
  have h1 := ((hasDerivAt_pow 2 x).neg.add ((p_deriv (tt x)).comp x (tt_deriv hx))).exp
  refine ((tt_deriv hx).mul h1).congr_deriv ?_
  have e := tt_mul hx
  simp only [q, Function.comp, Pi.add_apply, Pi.neg_apply]
  set E := Real.exp (-x ^ 2 + p (tt x))
  push_cast
  linear_combination (-2 * E) * e

theorem tau_strictAnti : StrictAntiOn tau (Set.Ici 0) := by
  refine strictAntiOn_of_deriv_neg (convex_Ici 0) (fun y hy => (tau_deriv hy).continuousAt.continuousWithinAt) fun y hy => ?_
  rw [interior_Ici] at hy
  have hy' : (0 : ℝ) ≤ y := le_of_lt hy
  rw [(tau_deriv hy').deriv]
  have := q_pos (tt_mem hy').1.le (tt_mem hy').2
  have := mul_pos (Real.exp_pos (-y ^ 2 + p (tt y))) (by linarith : 0 < q (tt y))
  linarith

end ErfPoly
end Verif
