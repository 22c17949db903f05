import Verif.Lemmas.ErfAccuracy
import Verif.Lemmas.Erfc
import Mathlib.Analysis.Complex.ExponentialBounds

/-!
Numbers for kom_py/pd_ber_snr_example.py: where `erfc(x)/2` is 0.05, and the logarithms of 10 and 19.
-/

namespace Verif
open Spec ErfPoly IPoly

theorem log_ten_bounds : 2.302585 < Real.log 10 ∧ Real.log 10 < 2.302586 := by
  have hu := Real.exp_bound' (x := 0.302585) (by norm_num) (by norm_num) (n := 9) (by norm_num)
  have hl := Real.sum_le_exp_of_nonneg (x := 0.302586) (by norm_num) 9
  have e1 := Real.exp_one_gt_d9
  have e2 := Real.exp_one_lt_d9
  simp only [Finset.sum_range_succ, Finset.sum_range_zero, Nat.factorial] at hu hl
  norm_num at hu hl
  constructor
  · rw [Real.lt_log_iff_exp_lt (by norm_num), show (2.302585 : ℝ) = 1 + 1 + 0.302585 by norm_num, Real.exp_add, Real.exp_add]
    have h0 := Real.exp_pos 1
    norm_num
    nlinarith [Real.exp_pos (60517 / 200000 : ℝ)]
  · rw [Real.log_lt_iff_lt_exp (by norm_num), show (2.302586 : ℝ) = 1 + 1 + 0.302586 by norm_num, Real.exp_add, Real.exp_add]
    norm_num
    nlinarith [Real.exp_pos (151293 / 500000 : ℝ)]

theorem log_nineteen_bounds : 2.94435 < Real.log 19 ∧ Real.log 19 < 2.94445 := by
  have hu := Real.exp_bound' (x := 0.94435) (by norm_num) (by norm_num) (n := 12) (by norm_num)
  have hl := Real.sum_le_exp_of_nonneg (x := 0.94445) (by norm_num) 12
  have e1 := Real.exp_one_gt_d9
  have e2 := Real.exp_one_lt_d9
  simp only [Finset.sum_range_succ, Finset.sum_range_zero, Nat.factorial] at hu hl
  norm_num at hu hl
  constructor
  · rw [Real.lt_log_iff_exp_lt (by norm_num), show (2.94435 : ℝ) = 1 + 1 + 0.94435 by norm_num, Real.exp_add, Real.exp_add]
    have h0 := Real.exp_pos 1
    norm_num
    nlinarith [Real.exp_pos (18887 / 20000 : ℝ)]
  · rw [Real.log_lt_iff_lt_exp (by norm_num), show (2.94445 : ℝ) = 1 + 1 + 0.94445 by norm_num, Real.exp_add, Real.exp_add]
    norm_num
    nlinarith [Real.exp_pos (18889 / 20000 : ℝ)]

theorem exp_lo : 0.2585228 ≤ Real.exp (-(1.163087 : ℝ) ^ 2) := by
  have hu := Real.exp_bound' (x := 1.163087 ^ 2 / 2) (by norm_num) (by norm_num) (n := 14) (by norm_num)
  have h2 : Real.exp (1.163087 ^ 2 / 2) ≤ 1.9667564 := by
    refine hu.trans ?_
    simp only [Finset.sum_range_succ, Finset.sum_range_zero, Nat.factorial]
    norm_num
  have h0 := Real.exp_pos (1.163087 ^ 2 / 2)
  rw [Real.exp_neg, show ((1.163087 : ℝ) ^ 2) = 1.163087 ^ 2 / 2 + 1.163087 ^ 2 / 2 by ring, Real.exp_add]
  rw [le_inv_comm₀ (by norm_num) (by positivity)]
  nlinarith

theorem exp_hi : Real.exp (-(1.163088 : ℝ) ^ 2) ≤ 0.2585223 := by
  have hu := Real.sum_le_exp_of_nonneg (x := 1.163088 ^ 2 / 2) (by norm_num) 14
  have h2 : 1.9667586 ≤ Real.exp (1.163088 ^ 2 / 2) := by
    refine le_trans ?_ hu
    simp only [Finset.sum_range_succ, Finset.sum_range_zero, Nat.factorial]
    norm_num
  rw [Real.exp_neg, show ((1.163088 : ℝ) ^ 2) = 1.163088 ^ 2 / 2 + 1.163088 ^ 2 / 2 by ring, Real.exp_add]
  rw [inv_le_comm₀ (by positivity) (by norm_num)]
  nlinarith

theorem Erfc_lo : 0.1 < Erfc 1.163087 := by
  have h := (abs_le.mp (f_close (x := 1.163087) (by norm_num))).2
  have e := exp_lo
  have h3 : 0.38681324 ≤ tt 1.163087 * w (tt 1.163087) := by
    simp only [w, tt, W, ev_cons, ev_nil]
    norm_num
  have h4 : 0.2585228 * 0.38681324 ≤ f 1.163087 := by
    unfold f
    exact mul_le_mul e h3 (by norm_num) (Real.exp_pos _).le
  norm_num at h4 h
  nlinarith

theorem Erfc_hi : Erfc 1.163088 < 0.1 := by
  have h := (abs_le.mp (f_close (x := 1.163088) (by norm_num))).1
  have e := exp_hi
  have h3 : tt 1.163088 * w (tt 1.163088) ≤ 0.3868131 := by
    simp only [w, tt, W, ev_cons, ev_nil]
    norm_num
  have h4 : f 1.163088 ≤ 0.2585223 * 0.3868131 := by
    unfold f
    exact mul_le_mul e h3 (by simp only [w, tt, W, ev_cons, ev_nil]; norm_num) (by norm_num)
  norm_num at h4 h
  nlinarith
end Verif
