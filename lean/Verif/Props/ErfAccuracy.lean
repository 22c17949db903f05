import Verif.Props.Helpers
import Verif.Lemmas.ErfAccuracy

/-!
# C111: the accuracy of `erf` and `erfc`

`Spec.Erfc` is the complementary error function, as an integral.
-/
namespace Verif.Props
open Verif Spec

theorem erfTau_eq {x : ℝ} : erfTau x = ErfPoly.tau x := by
  unfold erfTau ErfPoly.tau ErfPoly.tt
  dsimp only
  congr 2
  simp only [ErfPoly.p, ErfPoly.P, IPoly.ev_cons, IPoly.ev_nil]
  push_cast
  ring

theorem erfc_eq (x : ℝ) : erfc x = if 0 ≤ x then erfTau |x| else 2 - erfTau |x| := by
  unfold erfc
  rw [erf_eq]
  split <;> ring

/-- The library's complementary error function is within 1.2·10⁻⁷ of the true one, relative to the smaller tail. -/
theorem C111_erfc (x : ℝ) : |erfc x - Erfc x| ≤ 1.2e-7 * Erfc |x| := by
  have h := ErfPoly.tau_close (abs_nonneg x)
  have e : erfTau |x| = ErfPoly.tt |x| * Real.exp (-|x| ^ 2 + ErfPoly.p (ErfPoly.tt |x|)) := erfTau_eq
  rw [← e] at h
  rw [erfc_eq]
  split
  · rename_i hx
    rwa [abs_of_nonneg hx] at h ⊢
  · rename_i hx
    have hx' : |x| = -x := abs_of_neg (not_le.mp hx)
    have hn := Erfc_neg x
    rw [hx'] at h ⊢
    rw [show 2 - erfTau (-x) - Erfc x = -(erfTau (-x) - Erfc (-x)) by linarith, abs_neg]
    exact h

/-- So its relative error is at most 1.2·10⁻⁷ at every argument. -/
theorem C111_relative (x : ℝ) : |erfc x - Erfc x| ≤ 1.2e-7 * Erfc x :=
  (C111_erfc x).trans (mul_le_mul_of_nonneg_left (Erfc_strictAnti.antitone (le_abs_self x)) (by norm_num))

/-- And the absolute error of both functions is at most 1.2·10⁻⁷, at every argument. -/
theorem C111_absolute (x : ℝ) : |erfc x - Erfc x| ≤ 1.2e-7 ∧ |erf x - (1 - Erfc x)| ≤ 1.2e-7 := by
  have h : |erfc x - Erfc x| ≤ 1.2e-7 := by
    have h1 := Erfc_strictAnti.antitone (abs_nonneg x)
    rw [Erfc_zero] at h1
    linarith [C111_erfc x]
  refine ⟨h, ?_⟩
  have : erf x - (1 - Erfc x) = -(erfc x - Erfc x) := by rw [C55_erfc]; ring
  rwa [this, abs_neg]

/-- Both functions are strictly monotone on either side of zero. -/
theorem C111_monotone : StrictMonoOn (erf : ℝ → ℝ) (Set.Ici 0) ∧ StrictMonoOn (erf : ℝ → ℝ) (Set.Iio 0) := by
  constructor
  · intro x hx y hy hxy
    have h0 : (0 : ℝ) ≤ x := hx
    have h1 : (0 : ℝ) ≤ y := hy
    rw [erf_eq, erf_eq, if_pos h0, if_pos h1, abs_of_nonneg h0, abs_of_nonneg h1, erfTau_eq, erfTau_eq]
    linarith [ErfPoly.tau_strictAnti hx hy hxy]
  · intro x hx y hy hxy
    have h0 : x < 0 := hx
    have h1 : y < 0 := hy
    rw [erf_eq, erf_eq, if_neg (by linarith), if_neg (by linarith), abs_of_neg h0, abs_of_neg h1, erfTau_eq, erfTau_eq]
    have := ErfPoly.tau_strictAnti (by simpa using h1.le : -y ∈ Set.Ici (0 : ℝ)) (by simpa using h0.le : -x ∈ Set.Ici (0 : ℝ))
      (by linarith : -y < -x)
    linarith

/-- Not across zero: just below zero the value is above the one at zero. -/
theorem C111_step : ¬ Monotone (erf : ℝ → ℝ) := by
  intro h
  have hc := (ErfPoly.tau_deriv le_rfl).continuousAt
  have h0 : 1 < ErfPoly.tau 0 := by
    have := C55_zero
    rw [erf_eq, if_pos le_rfl, abs_zero, erfTau_eq] at this
    have := Real.add_one_lt_exp (show (3e-8 : ℝ) ≠ 0 by norm_num)
    norm_num at *
    linarith
  obtain ⟨ε, hε, hb⟩ := Metric.eventually_nhds_iff.mp (hc.eventually_const_lt h0)
  have h1 : 1 < ErfPoly.tau (ε / 2) := hb (by rw [dist_zero_right, Real.norm_eq_abs, abs_of_pos (by positivity)]; linarith)
  have h2 := h (show -(ε / 2) ≤ 0 by linarith)
  rw [erf_eq, erf_eq, if_neg (by linarith), if_pos le_rfl, abs_neg, abs_of_pos (by positivity), abs_zero, erfTau_eq,
    erfTau_eq] at h2
  linarith

/-- The theory curve `0.5 * erfc(sqrt(snr))` that the tests of the library compare simulations with is the error probability
of antipodal signalling, up to 1.2·10⁻⁷ of its value. -/
theorem C111_curve (E σ : ℝ) : |0.5 * erfc (√(E / (2 * σ ^ 2))) - bitError E σ| ≤ 1.2e-7 * bitError E σ := by
  unfold bitError
  have h := abs_le.mp (C111_relative (√(E / (2 * σ ^ 2))))
  rw [abs_le]
  norm_num at h ⊢
  constructor <;> linarith [h.1, h.2]

/-- At an argument of one, with the numbers of the property. -/
example : |erfc (1 : ℝ) - Erfc 1| ≤ 1.2e-7 := (C111_absolute 1).1
example : erf (1 : ℝ) < erf 2 := C111_monotone.1 (by norm_num) (by norm_num) (by norm_num)
example : erf (-2 : ℝ) < erf (-1) := C111_monotone.2 (by norm_num) (by norm_num) (by norm_num)
example : |0.5 * erfc (√((1 : ℝ) / (2 * 1 ^ 2))) - bitError 1 1| ≤ 1.2e-7 * bitError 1 1 := C111_curve 1 1

end Verif.Props
