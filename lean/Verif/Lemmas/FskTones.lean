import Verif.Lemmas.Fading
import Verif.Props.Fsk
import Mathlib.Analysis.SpecialFunctions.Trigonometric.Bounds

/-!
# The energy of a tone at its own and at another frequency

Closed forms over a block of `k` samples, for tones that are not orthogonal.
-/
namespace Verif
open Spec

theorem sum_cos_block {x : ℝ} (h : Real.sin (x / 2) ≠ 0) (a : ℝ) (k : ℕ) :
    ∑ j ∈ Finset.range k, Real.cos (a + j * x) = Real.sin (k * x / 2) / Real.sin (x / 2) * Real.cos (a + (k - 1) * x / 2) := by
  have e := sum_cos_telescope a x k
  rw [Real.sin_sub_sin, show (a + ((k : ℝ) - 1 / 2) * x - (a - x / 2)) / 2 = k * x / 2 by ring,
    show (a + ((k : ℝ) - 1 / 2) * x + (a - x / 2)) / 2 = a + (k - 1) * x / 2 by ring] at e
  rw [div_mul_eq_mul_div, eq_div_iff h]
  linarith

theorem sum_sin_block {x : ℝ} (h : Real.sin (x / 2) ≠ 0) (a : ℝ) (k : ℕ) :
    ∑ j ∈ Finset.range k, Real.sin (a + j * x) = Real.sin (k * x / 2) / Real.sin (x / 2) * Real.sin (a + (k - 1) * x / 2) := by
  have e := sum_sin_telescope a x k
  rw [Real.cos_sub_cos, show (a - x / 2 + (a + ((k : ℝ) - 1 / 2) * x)) / 2 = a + (k - 1) * x / 2 by ring,
    show (a - x / 2 - (a + ((k : ℝ) - 1 / 2) * x)) / 2 = -(k * x / 2) by ring, Real.sin_neg] at e
  rw [div_mul_eq_mul_div, eq_div_iff h]
  linarith

/-- The energy of a tone at its own frequency. -/
theorem toneEnergy_matched {w : ℝ} (h : Real.sin w ≠ 0) (k : ℕ) (g α : ℝ) :
    toneEnergy w k (fun j => g * Real.cos (w * j + α))
      = (g / 2) ^ 2 * ((k + Real.sin (k * w) / Real.sin w * Real.cos (2 * α + (k - 1) * w)) ^ 2
        + (Real.sin (k * w) / Real.sin w * Real.sin (2 * α + (k - 1) * w)) ^ 2) := by
  rw [← toneEnergy_shift w α]
  have h' : Real.sin (2 * w / 2) ≠ 0 := by rw [show 2 * w / 2 = w by ring]; exact h
  have c := sum_cos_block h' (2 * α) k
  have s := sum_sin_block h' (2 * α) k
  rw [show (k : ℝ) * (2 * w) / 2 = k * w by ring, show 2 * w / 2 = w by ring, show ((k : ℝ) - 1) * (2 * w) / 2 = (k - 1) * w by ring] at c s
  have e1 : ∑ j ∈ Finset.range k, g * Real.cos (w * j + α) * Real.cos (α + w * j)
      = g / 2 * (k + ∑ j ∈ Finset.range k, Real.cos (2 * α + j * (2 * w))) := by
    rw [show (k : ℝ) = ∑ _j ∈ Finset.range k, (1 : ℝ) by simp, ← Finset.sum_add_distrib, Finset.mul_sum]
    refine Finset.sum_congr rfl fun j _ => ?_
    rw [show 2 * α + j * (2 * w) = 2 * (α + w * j) by ring, Real.cos_two_mul, add_comm (w * (j : ℝ)) α]
    ring
  have e2 : ∑ j ∈ Finset.range k, g * Real.cos (w * j + α) * Real.sin (α + w * j)
      = g / 2 * ∑ j ∈ Finset.range k, Real.sin (2 * α + j * (2 * w)) := by
    rw [Finset.mul_sum]
    refine Finset.sum_congr rfl fun j _ => ?_
    rw [show 2 * α + j * (2 * w) = 2 * (α + w * j) by ring, Real.sin_two_mul, add_comm (w * (j : ℝ)) α]
    ring
  rw [e1, e2, c, s]
  ring

/-- The energy of a tone at another frequency, the two frequencies adding up to a whole number of turns per block. -/
theorem toneEnergy_crossed {w v : ℝ} {k : ℕ} (h1 : Real.sin ((w - v) / 2) ≠ 0) (h2 : Real.sin ((w + v) / 2) ≠ 0)
    (hk : Real.sin (k * (w + v) / 2) = 0) (g α : ℝ) :
    toneEnergy v k (fun j => g * Real.cos (w * j + α)) = (g / 2) ^ 2 * (Real.sin (k * (w - v) / 2) / Real.sin ((w - v) / 2)) ^ 2 := by
  have c1 := sum_cos_block h1 α k
  have c2 := sum_cos_block h2 α k
  have s1 := sum_sin_block h1 α k
  have s2 := sum_sin_block h2 α k
  rw [hk, zero_div, zero_mul] at c2 s2
  have e1 : ∑ j ∈ Finset.range k, g * Real.cos (w * j + α) * Real.cos (v * j)
      = g / 2 * (∑ j ∈ Finset.range k, Real.cos (α + j * (w - v)) + ∑ j ∈ Finset.range k, Real.cos (α + j * (w + v))) := by
    rw [← Finset.sum_add_distrib, Finset.mul_sum]
    refine Finset.sum_congr rfl fun j _ => ?_
    rw [show α + j * (w - v) = (w * j + α) - v * j by ring, show α + j * (w + v) = (w * j + α) + v * j by ring, Real.cos_sub (w * j + α), Real.cos_add (w * j + α)]
    ring
  have e2 : ∑ j ∈ Finset.range k, g * Real.cos (w * j + α) * Real.sin (v * j)
      = g / 2 * (∑ j ∈ Finset.range k, Real.sin (α + j * (w + v)) - ∑ j ∈ Finset.range k, Real.sin (α + j * (w - v))) := by
    rw [← Finset.sum_sub_distrib, Finset.mul_sum]
    refine Finset.sum_congr rfl fun j _ => ?_
    rw [show α + j * (w - v) = (w * j + α) - v * j by ring, show α + j * (w + v) = (w * j + α) + v * j by ring, Real.sin_sub (w * j + α), Real.sin_add (w * j + α)]
    ring
  rw [toneEnergy, e1, e2, c1, c2, s1, s2]
  have := Real.sin_sq_add_cos_sq (α + ((k : ℝ) - 1) * (w - v) / 2)
  linear_combination (g / 2) ^ 2 * (Real.sin (k * (w - v) / 2) / Real.sin ((w - v) / 2)) ^ 2 * this

/-- The two tones of a carrier of `c` cycles per symbol: angular frequencies, and the phase they gain over a symbol. -/
theorem tone_cycles {fs sym c : ℕ} (hsym : 0 < sym) (hdvd : sym ∣ fs) (hfs : 0 < fs) (b : Bool) :
    Props.tone fs ((c * sym : ℕ) : ℝ) b = (2 * Real.pi * c + (if b then 1 else -1) * (Real.pi * c / 20)) / ((fs / sym : ℕ) : ℝ) := by
  have hk : ((fs / sym : ℕ) : ℝ) * sym = fs := by exact_mod_cast Nat.div_mul_cancel hdvd
  have hsps : 0 < fs / sym := Nat.div_pos (Nat.le_of_dvd hfs hdvd) hsym
  have hkR : (0 : ℝ) < ((fs / sym : ℕ) : ℝ) := by exact_mod_cast hsps
  have hsymR : (0 : ℝ) < sym := by exact_mod_cast hsym
  rw [Props.tone, ← hk]
  generalize ((fs / sym : ℕ) : ℝ) = k at *
  push_cast
  cases b <;> norm_num <;> field_simp <;> ring

/-- The energies of one symbol of strength `g` at both tones. -/
theorem fsk_cycles {fs sym c : ℕ} (hsym : 0 < sym) (hdvd : sym ∣ fs) (hc : 0 < c) (hny : 41 * c < 20 * (fs / sym)) (g α : ℝ) (p : ℕ)
    (b : Bool) {a : ℝ} (ha : a = Real.pi * c / 20) {w : ℝ} (hw : w = Props.tone fs ((c * sym : ℕ) : ℝ) b) :
    toneEnergy w (fs / sym) (fun j => g * Real.cos (w * (p + j : ℕ) + α))
      = (g / 2) ^ 2 * ((((fs / sym : ℕ) : ℝ) + (if b then 1 else -1) * Real.sin a / Real.sin w
            * Real.cos (2 * (w * p + α) + ((if b then 1 else -1) * a - w))) ^ 2
          + ((if b then 1 else -1) * Real.sin a / Real.sin w * Real.sin (2 * (w * p + α) + ((if b then 1 else -1) * a - w))) ^ 2) ∧
    toneEnergy (Props.tone fs ((c * sym : ℕ) : ℝ) (!b)) (fs / sym) (fun j => g * Real.cos (w * (p + j : ℕ) + α))
      = (g / 2) ^ 2 * (Real.sin a / Real.sin (a / ((fs / sym : ℕ) : ℝ))) ^ 2 := by
  have hsps : 0 < fs / sym := by omega
  have hfs : 0 < fs := by
    rcases Nat.eq_zero_or_pos fs with h | h
    · subst h; simp at hsps
    · exact h
  have hkR : (0 : ℝ) < ((fs / sym : ℕ) : ℝ) := by exact_mod_cast hsps
  have hcR : (0 : ℝ) < c := by exact_mod_cast hc
  have hnyR : (41 : ℝ) * c < 20 * ((fs / sym : ℕ) : ℝ) := by exact_mod_cast hny
  have hpi := Real.pi_pos
  have t1 := tone_cycles (c := c) hsym hdvd hfs b
  have t2 := tone_cycles (c := c) hsym hdvd hfs (!b)
  rw [← hw] at t1
  have hx : ∀ j : ℕ, w * ((p + j : ℕ) : ℝ) + α = w * j + (w * p + α) := by intro j; push_cast; ring
  simp only [hx]
  generalize Props.tone fs ((c * sym : ℕ) : ℝ) (!b) = v at *
  generalize fs / sym = k at *
  have hr0 : 0 < (c : ℝ) / k := by positivity
  have hr1 : 41 * ((c : ℝ) / k) < 20 := by rw [← mul_div_assoc, div_lt_iff₀ hkR]; exact hnyR
  have hkr : (k : ℝ) * ((c : ℝ) / k) = c := by field_simp
  have hw' : w = Real.pi * ((if b then 41 / 20 else 39 / 20) * ((c : ℝ) / k)) := by
    rw [t1]; cases b <;> norm_num <;> ring
  have hv' : v = Real.pi * ((if b then 39 / 20 else 41 / 20) * ((c : ℝ) / k)) := by
    rw [t2]; cases b <;> norm_num <;> ring
  have ha' : a = Real.pi * c / 20 := ha
  have hd : (w - v) / 2 = (if b then 1 else -1) * (a / k) := by
    rw [hw', hv', ha']; cases b <;> norm_num <;> ring
  have hkd : (k : ℝ) * (w - v) / 2 = (if b then 1 else -1) * a := by
    rw [mul_div_assoc, hd]; field_simp
  have hsum : (w + v) / 2 = Real.pi * (2 * ((c : ℝ) / k)) := by
    rw [hw', hv']; cases b <;> norm_num <;> ring
  have hksum : (k : ℝ) * (w + v) / 2 = ((2 * c : ℕ) : ℝ) * Real.pi := by
    rw [mul_div_assoc, hsum]; push_cast; linear_combination 2 * Real.pi * hkr
  have hkw : (k : ℝ) * w = (if b then 1 else -1) * a + (c : ℕ) * (2 * Real.pi) := by
    rw [hw', ha']; cases b <;> norm_num
    · linear_combination Real.pi * 39 / 20 * hkr
    · linear_combination Real.pi * 41 / 20 * hkr
  have hsin : ∀ x : ℝ, 0 < x → x < 1 → Real.sin (Real.pi * x) ≠ 0 := fun x h0 h1 =>
    (Real.sin_pos_of_pos_of_lt_pi (by positivity) (by nlinarith)).ne'
  have s1 : Real.sin w ≠ 0 := by
    rw [hw']; apply hsin <;> cases b <;> norm_num <;> linarith
  have s2 : Real.sin (a / k) ≠ 0 := by
    rw [ha', show Real.pi * (c : ℝ) / 20 / k = Real.pi * (((c : ℝ) / k) / 20) by ring]; exact hsin _ (by positivity) (by linarith)
  have s3 : Real.sin ((w + v) / 2) ≠ 0 := by rw [hsum]; exact hsin _ (by positivity) (by linarith)
  have s4 : Real.sin ((w - v) / 2) ≠ 0 := by
    rw [hd]; cases b
    · simp only [Bool.false_eq_true, if_false, neg_one_mul, Real.sin_neg]; exact neg_ne_zero.mpr s2
    · simp only [if_true, one_mul]; exact s2
  have hsa : Real.sin ((if b then 1 else -1) * a) = (if b then 1 else -1) * Real.sin a := by
    cases b <;> simp
  constructor
  · rw [toneEnergy_matched s1, hkw, Real.sin_add_nat_mul_two_pi, hsa]
    have e : 2 * (w * p + α) + ((k : ℝ) - 1) * w = (2 * (w * p + α) + ((if b then 1 else -1) * a - w)) + (c : ℕ) * (2 * Real.pi) := by
      linear_combination hkw
    rw [e, Real.sin_add_nat_mul_two_pi, Real.cos_add_nat_mul_two_pi]
  · rw [toneEnergy_crossed s4 s3 (by rw [hksum]; exact Real.sin_nat_mul_pi _), hkd, hd, hsa]
    have : Real.sin ((if b then 1 else -1) * (a / k)) = (if b then 1 else -1) * Real.sin (a / k) := by cases b <;> simp
    rw [this, mul_div_mul_left _ _ (by cases b <;> norm_num)]

end Verif
